import Verif.Diag.Model

/-!
# Specification: texts that are safe to print
-/

namespace Verif.Spec
open Verif

/-- No ASCII control characters: the text is on one line and without escape sequences for the terminal. -/
def Printable (s : Str) : Prop := ∀ c ∈ s, 0x1f < c.toNat ∧ c.toNat ≠ 0x7f

/-- All texts of a diagnostic are printable. -/
structure PrintableDiag (d : Diag.Diagnostic) : Prop where
  description : Printable d.description
  annotation : Printable d.annotation
  hint : ∀ h, d.hint = some h → Printable h.annotation

/-- The sequences that set the colour of the terminal: red, yellow, cyan, blue and back to normal. -/
def colours : List Str :=
  ["\x1b[91m".toList, "\x1b[93m".toList, "\x1b[96m".toList, "\x1b[94m".toList, "\x1b[0m".toList]

/-- A text for the terminal, put together from printable characters, tabs, line feeds and colours. -/
inductive ForTerminal : Str → Prop
  | nil : ForTerminal []
  | char {c rest} : (0x1f < c.toNat ∧ c.toNat ≠ 0x7f) ∨ c = '\t' ∨ c = '\n' →
      ForTerminal rest → ForTerminal (c :: rest)
  | colour {s rest} : s ∈ colours → ForTerminal rest → ForTerminal (s ++ rest)

end Verif.Spec
