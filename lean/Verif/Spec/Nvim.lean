import Verif.Nvim.Model
import Verif.Spec.Printable

/-!
# Specification: diagnostics in a buffer of Neovim
-/

namespace Verif.Spec.Nvim
open Verif Verif.Nvim

/-- A place in a buffer: between two characters of the line with the number `l`, where `c` is the number of
bytes in front of it, or behind the last line. -/
def InBuffer (lines : List Str) (l c : Nat) : Prop :=
  (∃ a b, lines[l]? = some (a ++ b) ∧ c = blen a) ∨ (l = lines.length ∧ c = 0)

/-- A diagnostic that Neovim can show: its range is in the buffer, the end is not in front of the start, and the
message has no control characters. -/
structure ShownIn (lines : List Str) (v : VimDiagnostic) : Prop where
  start : InBuffer lines v.lnum v.col
  stop : InBuffer lines v.endLnum v.endCol
  order : v.lnum < v.endLnum ∨ (v.lnum = v.endLnum ∧ v.col ≤ v.endCol)
  message : Printable v.message

/-- The diagnostic `v` of Neovim is the diagnostic `d`: the same place, and the description as message. -/
structure Same (d : Diag.Diagnostic) (v : VimDiagnostic) : Prop where
  start : d.span.start = ⟨v.lnum, v.col⟩
  stop : d.span.stop = ⟨v.endLnum, v.endCol⟩
  message : d.description = v.message

/-- The lists have the same length, and their elements are the same diagnostics. -/
inductive SameList : List Diag.Diagnostic → List VimDiagnostic → Prop
  | nil : SameList [] []
  | cons {d v ds vs} : Same d v → SameList ds vs → SameList (d :: ds) (v :: vs)

end Verif.Spec.Nvim
