import Verif.Spec.Assoc
import Verif.Spec.Parse

/-!
# Specification: the comments of arrays
-/

namespace Verif.Spec.Toml
open Verif Verif.Toml

/-- `p` is in front of `q` in the text. -/
def Sooner (p q : Pos) : Prop := p.line < q.line ∨ p.line = q.line ∧ p.char < q.char

instance (p q : Pos) : Decidable (Sooner p q) := by unfold Sooner; infer_instance

/-- `ArrayIn arr v`: the array is the value `v` or is somewhere inside of it. -/
inductive ArrayIn (arr : InlineArray) : Value → Prop
  | here : ArrayIn arr (.inlineArray arr)
  | inArray {o x} : x ∈ o.values → ArrayIn arr x.val → ArrayIn arr (.inlineArray o)
  | inTable {t x} : x ∈ t.assignments → ArrayIn arr x.assignment.val → ArrayIn arr (.inlineTable t)

/-- The array is in a value of the tree. -/
def HasArray (a : Asts) (arr : InlineArray) : Prop := ∃ x ∈ a.asts, ∃ v ∈ astValues x, ArrayIn arr v

/-- The places between `p` and `q`. -/
def between (p q c : Pos) : Bool := decide (Sooner p c ∧ Sooner c q)

end Verif.Spec.Toml
