import Verif.Spec.Order

/-!
# Specification: stable sorting
-/

namespace Verif.Spec

/-- A three-way comparison that orders everything, up to ties. -/
structure Preorder {α : Type} (cmp : α → α → Ordering) : Prop where
  swap : ∀ a b, cmp b a = (cmp a b).swap
  trans : ∀ a b c, cmp a b ≠ .gt → cmp b c ≠ .gt → cmp a c ≠ .gt

/-- `l'` is `l`, stably sorted: the same elements, in ascending order, and elements that compare
equal are in the order they had in `l`. -/
structure StableSorted {α : Type} (cmp : α → α → Ordering) (l l' : List α) : Prop where
  perm : l'.Perm l
  sorted : l'.Pairwise fun a b => cmp a b ≠ .gt
  stable : ∀ x, l'.filter (fun y => cmp x y == .eq) = l.filter (fun y => cmp x y == .eq)

end Verif.Spec
