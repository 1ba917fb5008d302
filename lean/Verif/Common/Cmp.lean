import Verif.Spec.Order

/-!
# Helper lemmas about three-way comparisons (lexicographic composition)
-/

namespace Verif.Spec

namespace TotalOrder
variable {α β : Type}

theorem gt_iff {cmp : α → α → Ordering} (h : TotalOrder cmp) (a b : α) :
    cmp a b = .gt ↔ cmp b a = .lt := by
  rw [h.swap a b]; cases cmp a b <;> simp

theorem natCompare : TotalOrder (fun a b : Nat => compare a b) where
  eq_iff a b := by simp
  swap a b := (Nat.compare_swap a b).symm
  trans a b c := by simp only [Nat.compare_eq_lt]; omega

/-- Pull a total order back along an injective function. -/
theorem comap {cmp : β → β → Ordering} (h : TotalOrder cmp) (f : α → β)
    (hf : ∀ a b, f a = f b → a = b) : TotalOrder (fun a b => cmp (f a) (f b)) where
  eq_iff a b := by rw [h.eq_iff]; exact ⟨hf a b, fun e => e ▸ rfl⟩
  swap a b := h.swap _ _
  trans a b c := h.trans _ _ _

theorem swap_then' (x y : Ordering) : (x.then y).swap = x.swap.then y.swap := by
  cases x <;> rfl

/-- Lexicographic product. -/
theorem prod {c1 : α → α → Ordering} {c2 : β → β → Ordering}
    (h1 : TotalOrder c1) (h2 : TotalOrder c2) :
    TotalOrder (fun a b : α × β => (c1 a.1 b.1).then (c2 a.2 b.2)) where
  eq_iff a b := by
    rw [Ordering.then_eq_eq, h1.eq_iff, h2.eq_iff, Prod.ext_iff]
  swap a b := by
    rw [h1.swap a.1 b.1, h2.swap a.2 b.2, swap_then']
  trans a b c := by
    intro hab hbc
    rw [Ordering.then_eq_lt] at *
    rcases hab with hab | ⟨eab, hab⟩ <;> rcases hbc with hbc | ⟨ebc, hbc⟩
    · exact .inl (h1.trans _ _ _ hab hbc)
    · left; rw [← (h1.eq_iff _ _).1 ebc]; exact hab
    · left; rw [(h1.eq_iff _ _).1 eab]; exact hbc
    · right; rw [(h1.eq_iff _ _).1 eab]; exact ⟨ebc, h2.trans _ _ _ hab hbc⟩

end TotalOrder
end Verif.Spec
