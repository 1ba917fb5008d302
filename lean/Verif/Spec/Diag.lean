import Verif.Spec.Lex
import Verif.Spec.Sort

/-!
# Specification: the lines of a text, and places that can be shown
-/

namespace Verif.Spec
open Verif Verif.Spec.Toml

/-- The lines of a text: separated by line feeds, where a carriage return directly in front of a line
feed belongs to the separator. -/
inductive LinesOf : Str → List Str → Prop
  | last {l} : '\n' ∉ l → LinesOf l [l]
  | lf {l rest ls} : '\n' ∉ l → l.getLast? ≠ some '\r' → LinesOf rest ls →
      LinesOf (l ++ '\n' :: rest) (l :: ls)
  | crlf {l rest ls} : '\n' ∉ l → LinesOf rest ls →
      LinesOf (l ++ '\r' :: '\n' :: rest) (l :: ls)

/-- The place `p` is a character boundary of the text, and not between the carriage return and the
line feed of a line break. -/
def Showable (text : Str) (p : Pos) : Prop :=
  ∃ x y, text = x ++ y ∧ p = posOf x ∧ ¬ (x.getLast? = some '\r' ∧ y.head? = some '\n')

/-- The span can be underlined: it starts and ends at such places, in this order.  (A span that starts on the
line behind the one it ends on, anywhere, marks nothing at all, which works too.) -/
def Drawable (text : Str) (s : Span) : Prop :=
  (Showable text s.start ∧ Showable text s.stop ∧ Pos.le s.start s.stop) ∨
  (s.start.line = s.stop.line + 1 ∧ s.stop.line ≤ text.count '\n')

/-- The span is a piece of the text that neither starts nor ends inside of a line break. -/
def PieceOf (text : Str) (s : Span) : Prop :=
  ∃ x y z, text = x ++ y ++ z ∧ s = ⟨posOf x, posOf (x ++ y)⟩ ∧
    ¬ (x.getLast? = some '\r' ∧ (y ++ z).head? = some '\n') ∧
    ¬ ((x ++ y).getLast? = some '\r' ∧ z.head? = some '\n')

/-- A control character that is not shown: U+0000 to U+001F without the tab, and U+007F. -/
def NotShown (c : Char) : Prop := (c.toNat < 0x20 ∨ c.toNat = 0x7f) ∧ c ≠ '\t'

instance (c : Char) : Decidable (NotShown c) := by unfold NotShown; infer_instance

/-- `ShownParts l ps`: the parts of a line between the characters that are not shown. -/
inductive ShownParts : Str → List Str → Prop
  | last {l} : (∀ c ∈ l, ¬ NotShown c) → ShownParts l [l]
  | more {l c rest ps} : (∀ c ∈ l, ¬ NotShown c) → NotShown c → ShownParts rest ps → ShownParts (l ++ c :: rest) (l :: ps)

/-- A diagnostic was collected. -/
inductive Event (E W I : Type)
  | error (e : E)
  | warning (w : W)
  | info (i : I)

end Verif.Spec
