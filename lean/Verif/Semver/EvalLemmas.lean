import Verif.Semver.Eval
import Verif.Semver.OrderLemmas
import Verif.Spec.Matching
import Verif.Semver.Eval

/-! # Helper lemmas for matching -/

namespace Verif.Semver
open Verif Verif.Spec Verif.Spec.Matching

theorem preCmp_nil_left (p : Str) : preCmp [] p = if p = [] then .eq else .gt := by
  cases p <;> simp [preCmp]

theorem preCmp_nil_right (p : Str) : preCmp p [] = if p = [] then .eq else .lt := by
  cases p <;> simp [preCmp]

theorem preCmp_swap_lt {a b : Str} : preCmp a b = .gt ↔ preCmp b a = .lt :=
  preCmp_total.gt_iff a b

theorem preCmp_refl (a : Str) : preCmp a a = .eq := (preCmp_total.eq_iff a a).2 rfl


theorem orElsePanic_eq_true {a : Bool} {b : Option Bool} :
    orElsePanic a b = some true ↔ a = true ∨ b = some true := by
  cases a <;> simp [orElsePanic]

/-- The tag order of the code. -/
def codeLt : TagOrder := fun p q => preCmp p q = .lt

/-- Unfolds the model and the specification for a concrete operator and comparator shape. -/
macro "unfold_match" : tactic => `(tactic| simp only [matchesImpl, matchesExact, matchesGreater,
  matchesLess, matchesTilde, matchesCaret, orElsePanic_eq_true, CompVersion.majorNum,
  CompVersion.minorNum, CompVersion.patchNum, CompVersion.preStr, Admits, AdmitsRelease,
  AdmitsPre, codeLt, Agrees, tag, Full, PrecLt, PrecLe, TLt, TLe, bound, point, triple, floor, ceil,
  caretCeil, tildeCeil, preCmp_nil_left, preCmp_nil_right, preCmp_refl])

theorem ite_some_eq {P : Prop} [Decidable P] {a b : Option Bool} :
    (if P then a else b) = some true ↔ (P ∧ a = some true) ∨ (¬ P ∧ b = some true) := by
  split <;> simp_all

theorem admits_minor (oo : Nat) (op : Op) (vo a b : Nat) (w : Option WlChar) (cm : Option Nat)
    (v : Version) : matchesImpl ⟨oo, op, vo, .minor a b w, cm⟩ v = some true ↔
      Admits codeLt op (.minor a b w) v := by
  obtain ⟨M, m, p, pre, bld⟩ := v
  by_cases ha : a = 0 <;> by_cases hp : pre = [] <;> cases op <;> unfold_match <;>
    simp [hp, ite_some_eq, ha] <;> omega

theorem admits_patch (oo : Nat) (op : Op) (vo a b c : Nat) (m : Option Str) (cm : Option Nat)
    (v : Version) : matchesImpl ⟨oo, op, vo, .patch a b c m, cm⟩ v = some true ↔
      Admits codeLt op (.patch a b c m) v := by
  obtain ⟨M, m, p, pre, bld⟩ := v
  by_cases ha : a = 0 <;> by_cases hb : b = 0 <;> by_cases hp : pre = [] <;> cases op <;>
    unfold_match <;> simp [hp, ite_some_eq, ha, hb] <;> omega

theorem admits_pre_release (oo : Nat) (op : Op) (vo a b c : Nat) (q : Str) (m : Option Str)
    (cm : Option Nat) (v : Version) (hp : v.pre = []) :
    matchesImpl ⟨oo, op, vo, .pre a b c q m, cm⟩ v = some true ↔
      Admits codeLt op (.pre a b c q m) v := by
  obtain ⟨M, m, p, pre, bld⟩ := v
  simp only at hp
  have e := preCmp_total.eq_iff pre q
  have g := preCmp_total.swap pre q
  have hbeq : (pre == q) = (preCmp pre q == .eq) := by
    rw [Bool.eq_iff_iff, beq_iff_eq, beq_iff_eq]; exact e.symm
  have hq : q = [] ↔ preCmp pre q = .eq := by rw [e, hp]; exact eq_comm
  cases op <;> unfold_match <;> simp only [if_pos hp, g, hbeq, hq] <;>
    clear g hbeq hq e <;> generalize preCmp pre q = o <;> cases o <;> by_cases ha : a = 0 <;>
    by_cases hb : b = 0 <;> simp [ite_some_eq, ha, hb] <;> omega

theorem admits_pre_pre (oo : Nat) (op : Op) (vo a b c : Nat) (q : Str) (m : Option Str)
    (cm : Option Nat) (v : Version) (hp : v.pre ≠ []) :
    matchesImpl ⟨oo, op, vo, .pre a b c q m, cm⟩ v = some true ↔
      Admits codeLt op (.pre a b c q m) v := by
  obtain ⟨M, m, p, pre, bld⟩ := v
  simp only at hp
  have e := preCmp_total.eq_iff pre q
  have g := preCmp_total.swap pre q
  have hbeq : (pre == q) = (preCmp pre q == .eq) := by
    rw [Bool.eq_iff_iff, beq_iff_eq, beq_iff_eq]; exact e.symm
  have hq : q = pre ↔ preCmp pre q = .eq := by rw [e]; exact eq_comm
  cases op <;> unfold_match <;> simp only [if_neg hp, g, hbeq, hq] <;>
    clear g hbeq hq e <;> generalize preCmp pre q = o <;> cases o <;> by_cases ha : a = 0 <;>
    by_cases hb : b = 0 <;> simp [ite_some_eq, ha, hb] <;> omega

theorem matchesImpl_admits (c : Comparator) (v : Version) (h : WellFormed c) :
    matchesImpl c v = some true ↔ Admits codeLt c.op c.version v := by
  obtain ⟨oo, op, vo, cv, cm⟩ := c
  cases cv with
  | wl w =>
    have := h w rfl
    simp only at this
    subst this
    obtain ⟨M, m, p, pre, bld⟩ := v
    unfold_match
    by_cases hp : pre = [] <;> simp [hp]
  | major a w =>
    clear h
    obtain ⟨M, m, p, pre, bld⟩ := v
    by_cases hp : pre = [] <;> cases op <;> unfold_match <;> simp [hp, ite_some_eq] <;> omega
  | minor a b w => exact admits_minor ..
  | patch a b c m => exact admits_patch ..
  | pre a b c q m =>
    by_cases hp : v.pre = []
    · exact admits_pre_release (hp := hp) ..
    · exact admits_pre_pre (hp := hp) ..

theorem matchesImpl_no_panic (c : Comparator) (v : Version) (h : WellFormed c) :
    matchesImpl c v ≠ none := by
  obtain ⟨oo, op, vo, cv, cm⟩ := c
  cases cv with
  | wl w =>
    have := h w rfl
    simp only at this
    subst this
    simp [matchesImpl]
  | _ =>
    cases op <;> simp only [matchesImpl, matchesGreater, matchesLess, matchesCaret, orElsePanic,
      CompVersion.majorNum, CompVersion.minorNum, CompVersion.patchNum] <;>
      (repeat' split) <;> simp

theorem allMatch_no_panic (v : Version) (cs : List Comparator) (h : ∀ c ∈ cs, WellFormed c) :
    allMatch v cs ≠ none := by
  induction cs with
  | nil => simp [allMatch]
  | cons c cs ih =>
    have h1 := matchesImpl_no_panic c v (h c (by simp))
    have h2 := ih (fun c hc => h c (by simp [hc]))
    simp only [allMatch]
    split <;> simp_all

theorem allMatch_eq_true (v : Version) (cs : List Comparator) :
    allMatch v cs = some true ↔ ∀ c ∈ cs, matchesImpl c v = some true := by
  induction cs with
  | nil => simp [allMatch]
  | cons c cs ih =>
    simp only [allMatch, List.mem_cons, forall_eq_or_imp]
    split <;> simp_all

theorem preIsCompatible_iff (c : Comparator) (v : Version) :
    preIsCompatible c v = true ↔ OptIn c.version v := by
  obtain ⟨oo, op, vo, cv, cm⟩ := c
  obtain ⟨M, m, p, pre, bld⟩ := v
  cases cv <;> simp [preIsCompatible, OptIn, CompVersion.majorNum, CompVersion.minorNum,
    CompVersion.patchNum, CompVersion.preStr, triple]
  constructor
  · rintro ⟨⟨⟨rfl, rfl⟩, rfl⟩, h⟩; exact ⟨_, _, _, _, ⟨rfl, rfl, rfl, rfl⟩, h, rfl, rfl, rfl⟩
  · rintro ⟨_, _, _, _, ⟨rfl, rfl, rfl, rfl⟩, h, rfl, rfl, rfl⟩; exact ⟨⟨⟨rfl, rfl⟩, rfl⟩, h⟩

theorem matchesRequirement_iff (req : VersionReq) (v : Version)
    (h : ∀ c ∈ req.comparators, WellFormed c) :
    matchesRequirement req v = some true ↔
      (∀ c ∈ req.comparators, Admits codeLt c.op c.version v) ∧
      (v.pre = [] ∨ ∃ c ∈ req.comparators, OptIn c.version v) := by
  have h1 : allMatch v req.comparators = some true ↔
      ∀ c ∈ req.comparators, Admits codeLt c.op c.version v := by
    rw [allMatch_eq_true]
    exact ⟨fun g c hc => (matchesImpl_admits c v (h c hc)).1 (g c hc),
      fun g c hc => (matchesImpl_admits c v (h c hc)).2 (g c hc)⟩
  rw [← h1]
  simp only [← preIsCompatible_iff]
  have h2 := allMatch_no_panic v req.comparators h
  unfold matchesRequirement
  split
  · contradiction
  · simp_all
  · rename_i ht
    simp only [ht, true_and]
    cases hp : v.pre <;> simp

theorem matchesComparator_iff (c : Comparator) (v : Version) (h : WellFormed c) :
    matchesComparator c v = some true ↔
      Admits codeLt c.op c.version v ∧ (v.pre = [] ∨ OptIn c.version v) := by
  rw [← matchesImpl_admits c v h, ← preIsCompatible_iff]
  unfold matchesComparator
  cases matchesImpl c v with
  | none => simp
  | some b => cases b <;> simp

end Verif.Semver
