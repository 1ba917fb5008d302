import Verif.Spec.Sort

/-!
# Model of `slice::sort_by` (Rust's standard library): a stable sort

The standard library's algorithm is not modelled; its documented behaviour determines the result
completely (`stableSorted_unique`), so any stable sort will do.  Here: insertion sort.
-/

namespace Verif

/-- Insert before the first element that is not smaller. -/
def insertBy {α : Type} (cmp : α → α → Ordering) (x : α) : List α → List α
  | [] => [x]
  | y :: ys => if cmp x y = .gt then y :: insertBy cmp x ys else x :: y :: ys

/-- `slice::sort_by`. -/
def sortBy {α : Type} (cmp : α → α → Ordering) : List α → List α
  | [] => []
  | x :: xs => insertBy cmp x (sortBy cmp xs)

namespace Spec
variable {α β : Type} {cmp : α → α → Ordering}

theorem TotalOrder.preorder (h : TotalOrder cmp) : Preorder cmp where
  swap := h.swap
  trans a b c := by
    intro h1 h2
    cases e1 : cmp a b with
    | gt => exact absurd e1 h1
    | eq => rw [(h.eq_iff _ _).1 e1]; exact h2
    | lt =>
      cases e2 : cmp b c with
      | gt => exact absurd e2 h2
      | eq => rw [← (h.eq_iff _ _).1 e2, e1]; simp
      | lt => rw [h.trans _ _ _ e1 e2]; simp

theorem Preorder.comap (h : Preorder cmp) (f : β → α) : Preorder (fun a b => cmp (f a) (f b)) where
  swap _ _ := h.swap _ _
  trans _ _ _ := h.trans _ _ _

theorem Preorder.refl (h : Preorder cmp) (a : α) : cmp a a = .eq := by
  have := h.swap a a
  cases e : cmp a a <;> rw [e] at this <;> simp_all

theorem Preorder.eq_trans (h : Preorder cmp) {a b : α} (e : cmp a b = .eq) (c : α) :
    cmp a c = cmp b c := by
  have hba : cmp b a = .eq := by rw [h.swap a b, e]; rfl
  have t1 := h.trans a b c (by rw [e]; simp)
  have t2 := h.trans b a c (by rw [hba]; simp)
  have t3 := h.trans c a b
  have t4 := h.trans c b a
  rw [h.swap a c, h.swap b c, e] at t3
  rw [h.swap a c, h.swap b c, hba] at t4
  cases e1 : cmp a c <;> cases e2 : cmp b c <;> simp_all

end Spec

open Spec
variable {α : Type} {cmp : α → α → Ordering}

theorem insertBy_perm (x : α) (l : List α) : (insertBy cmp x l).Perm (x :: l) := by
  induction l with
  | nil => exact .refl _
  | cons y ys ih =>
    rw [insertBy]
    split
    · exact (ih.cons y).trans (.swap x y ys)
    · exact .refl _

theorem sortBy_perm (l : List α) : (sortBy cmp l).Perm l := by
  induction l with
  | nil => exact .refl _
  | cons x xs ih => exact (insertBy_perm x _).trans (ih.cons x)

theorem insertBy_sorted (h : Preorder cmp) (x : α) {l : List α}
    (hl : l.Pairwise fun a b => cmp a b ≠ .gt) :
    (insertBy cmp x l).Pairwise fun a b => cmp a b ≠ .gt := by
  induction l with
  | nil => simp [insertBy]
  | cons y ys ih =>
    rw [List.pairwise_cons] at hl
    rw [insertBy]
    split
    · next hgt =>
      rw [List.pairwise_cons]
      refine ⟨fun z hz => ?_, ih hl.2⟩
      rw [(insertBy_perm x ys).mem_iff, List.mem_cons] at hz
      rcases hz with rfl | hz
      · rw [h.swap z y, hgt]; simp
      · exact hl.1 z hz
    · next hle =>
      rw [List.pairwise_cons]
      refine ⟨fun z hz => ?_, List.pairwise_cons.2 hl⟩
      rcases List.mem_cons.1 hz with rfl | hz
      · exact hle
      · exact h.trans _ _ _ hle (hl.1 z hz)

theorem insertBy_stable (h : Preorder cmp) (x z : α) {l : List α} :
    (insertBy cmp x l).filter (fun y => cmp z y == .eq) =
      (x :: l).filter (fun y => cmp z y == .eq) := by
  induction l with
  | nil => rfl
  | cons y ys ih =>
    rw [insertBy]
    split
    · next hgt =>
      rw [List.filter_cons, ih]
      by_cases h1 : cmp z x = .eq
      · have : cmp z y = .gt := by rw [h.eq_trans h1]; exact hgt
        simp [List.filter_cons, h1, this]
      · simp [List.filter_cons, h1]
    · rfl

/-- The model is a stable sort. -/
theorem sortBy_stableSorted (h : Preorder cmp) (l : List α) : StableSorted cmp l (sortBy cmp l) where
  perm := sortBy_perm l
  sorted := by
    induction l with
    | nil => exact .nil
    | cons x xs ih => exact insertBy_sorted h x ih
  stable z := by
    induction l with
    | nil => rfl
    | cons x xs ih => rw [sortBy, insertBy_stable h, List.filter_cons, List.filter_cons, ih]

theorem sorted_head_unique (h : Preorder cmp) {a b : α} {l m : List α}
    (hl : (a :: l).Pairwise fun a b => cmp a b ≠ .gt) (hm : (b :: m).Pairwise fun a b => cmp a b ≠ .gt)
    (hp : (a :: l).Perm (b :: m)) : cmp a b = .eq := by
  have h1 : cmp a b ≠ .gt := by
    rcases List.mem_cons.1 (hp.symm.subset (List.mem_cons_self)) with rfl | hb
    · rw [h.refl]; simp
    · exact (List.pairwise_cons.1 hl).1 _ hb
  have h2 : cmp b a ≠ .gt := by
    rcases List.mem_cons.1 (hp.subset (List.mem_cons_self)) with rfl | hb
    · rw [h.refl]; simp
    · exact (List.pairwise_cons.1 hm).1 _ hb
  rw [h.swap a b] at h2
  cases e : cmp a b <;> simp_all

/-- There is only one stable sorting of a list. -/
theorem stableSorted_unique (h : Preorder cmp) {l a b : List α} (ha : StableSorted cmp l a)
    (hb : StableSorted cmp l b) : a = b := by
  have hp : a.Perm b := ha.perm.trans hb.perm.symm
  have hs : ∀ x, a.filter (fun y => cmp x y == .eq) = b.filter (fun y => cmp x y == .eq) :=
    fun x => (ha.stable x).trans (hb.stable x).symm
  have sa := ha.sorted
  have sb := hb.sorted
  clear ha hb
  induction a generalizing b with
  | nil => exact hp.nil_eq
  | cons x xs ih =>
    cases b with
    | nil => exact absurd hp.length_eq (by simp)
    | cons y ys =>
      have he := sorted_head_unique h sa sb hp
      have h1 := hs x
      rw [List.filter_cons, List.filter_cons, h.refl, he] at h1
      simp only [beq_self_eq_true, if_true, List.cons.injEq] at h1
      obtain ⟨rfl, -⟩ := h1
      have := ih (b := ys) (hp.cons_inv) (fun z => by
        have := hs z
        rw [List.filter_cons, List.filter_cons] at this
        split at this
        · exact (List.cons.inj this).2
        · exact this) (List.pairwise_cons.1 sa).2 (List.pairwise_cons.1 sb).2
      rw [this]

end Verif
