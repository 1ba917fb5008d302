/-!
# Specification: what it means for a three-way comparison to be a total order

Independent of the model: only `Ordering` from core is used.
-/

namespace Verif.Spec

/-- `cmp` is a total order whose equality is actual equality:
* `eq_iff`: the comparison says "equal" exactly on equal arguments;
* `swap`: exchanging the arguments mirrors the answer (hence exactly one of `<`, `=`, `>`);
* `trans`: "less" is transitive. -/
structure TotalOrder {α : Type} (cmp : α → α → Ordering) : Prop where
  eq_iff : ∀ a b, cmp a b = .eq ↔ a = b
  swap : ∀ a b, cmp b a = (cmp a b).swap
  trans : ∀ a b c, cmp a b = .lt → cmp b c = .lt → cmp a c = .lt

end Verif.Spec
