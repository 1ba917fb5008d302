import Verif.Spec.AssocArr

/-!
# Specification: the levels of comments
-/

namespace Verif.Spec.Toml
open Verif Verif.Toml

/-- `ArrayAt arr n v`: the array is in the value `v`, inside of `n` arrays and inline tables. -/
inductive ArrayAt (arr : InlineArray) : Nat → Value → Prop
  | here : ArrayAt arr 0 (.inlineArray arr)
  | inArray {o x n} : x ∈ o.values → ArrayAt arr n x.val → ArrayAt arr (n + 1) (.inlineArray o)
  | inTable {t x n} : x ∈ t.assignments → ArrayAt arr n x.assignment.val → ArrayAt arr (n + 1) (.inlineTable t)

/-- `AssignmentIn asts x n`: the assignment `x` is at the top level and `n` is 0, or in a table or an element of an array of tables and `n`
is 1. -/
inductive AssignmentIn (asts : List Ast) (x : ToplevelAssignment) : Nat → Prop
  | root : .assignment x ∈ asts → AssignmentIn asts x 0
  | inTable {y p r as} : y ∈ asts → tablePart y = some (p, r, as) → x ∈ as → AssignmentIn asts x 1

/-- `Nested a arr n`: the array is in the tree, and `n` tables, arrays and inline tables are around it. -/
def Nested (a : Asts) (arr : InlineArray) (n : Nat) : Prop :=
  ∃ x l m, AssignmentIn a.asts x l ∧ ArrayAt arr m x.assignment.val ∧ n = l + m

/-- The range has the comment number `i`. -/
def Has (r : CommentRange) (i : Nat) : Prop := r.start ≤ i ∧ i < r.start + r.len

instance (r : CommentRange) (i : Nat) : Decidable (Has r i) := by unfold Has; infer_instance

/-- The comment number `i` is one of the array, but not one of an array that is inside of it. -/
def Directly (arr : InlineArray) (i : Nat) : Prop :=
  Has arr.comments i ∧ ∀ x ∈ arr.values, ∀ inner, ArrayIn inner x.val → ¬ Has inner.comments i

/-- The comment number `i` is one of an entry of the array. -/
def OfEntry (arr : InlineArray) (i : Nat) : Prop := ∃ x ∈ arr.values, Has x.comments i

instance (arr : InlineArray) (i : Nat) : Decidable (OfEntry arr i) := by unfold OfEntry; infer_instance

/-- The level of a comment that is directly in an array. -/
def innerLevel (arr : InlineArray) (i : Nat) : Nat := arr.comments.level + if OfEntry arr i then 1 else 0

end Verif.Spec.Toml
