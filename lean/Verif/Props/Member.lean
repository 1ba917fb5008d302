import Verif.Diag.Member
import Verif.Spec.Member
import Verif.Props.Index

/-! # Property C102: the forms of the members of a feature -/

namespace Verif.Props
open Verif Verif.Index Verif.Spec.Index

theorem containsStr_iff (p : Str) : ∀ s, containsStr p s = true ↔ ∃ a b, s = a ++ p ++ b
  | [] => by
    simp only [containsStr, List.isEmpty_iff]
    constructor
    · rintro rfl; exact ⟨[], [], rfl⟩
    · rintro ⟨a, b, h⟩
      have := congrArg List.length h
      simp at this
      exact List.eq_nil_of_length_eq_zero (by omega)
  | c :: cs => by
    simp only [containsStr, Bool.or_eq_true, List.isPrefixOf_iff_prefix, containsStr_iff p cs]
    constructor
    · rintro (⟨b, h⟩ | ⟨a, b, rfl⟩)
      · exact ⟨[], b, by simpa using h.symm⟩
      · exact ⟨c :: a, b, by simp⟩
    · rintro ⟨a, b, h⟩
      cases a with
      | nil => exact .inl ⟨b, by simpa using h.symm⟩
      | cons x a =>
        simp only [List.cons_append, List.cons.injEq] at h
        exact .inr ⟨a, b, h.2⟩

/-- C102: `as_dep` gives what stands behind `dep:`. -/
theorem C102_asDep (m x : Str) : asDep m = some x ↔ m = "dep:".toList ++ x := stripPrefix_eq

/-- C102: `is_dep` is true exactly if the member starts with `dep:`. -/
theorem C102_isDep (m : Str) : isDep m = true ↔ ∃ x, m = "dep:".toList ++ x := by
  simp only [isDep, List.isPrefixOf_iff_prefix]
  exact ⟨fun ⟨x, h⟩ => ⟨x, h.symm⟩, fun ⟨x, h⟩ => ⟨x, h.symm⟩⟩

/-- C102: `is_dep_feature` is true exactly if the member has a slash. -/
theorem C102_isDepFeature (m : Str) : isDepFeature m = true ↔ ∃ a b, m = a ++ '/' :: b := by
  simp only [isDepFeature, List.contains_iff_mem]
  exact ⟨fun h => List.append_of_mem h, fun ⟨a, b, h⟩ => by simp [h]⟩

/-- C102: `is_weak_dep_feature` is true exactly if the member has a question mark in front of a slash. -/
theorem C102_isWeak (m : Str) : isWeakDepFeature m = true ↔ ∃ a b, m = a ++ "?/".toList ++ b := containsStr_iff _ _

/-- C102: for members of the documented forms the four predicates tell the form. -/
theorem C102_forms (m : Member) (h : m.Ok) :
    asDep m.text = m.depName ∧ isDep m.text = m.depName.isSome ∧ isDepFeature m.text = m.ofDep ∧
      isWeakDepFeature m.text = m.weak := by
  have noDep : ∀ s : Str, ':' ∉ s → asDep s = none ∧ isDep s = false := by
    intro s hs
    constructor
    · cases hd : asDep s with
      | none => rfl
      | some x => rw [(C102_asDep _ _).1 hd] at hs; simp at hs
    · cases hd : isDep s with
      | false => rfl
      | true => obtain ⟨x, hx⟩ := (C102_isDep _).1 hd; rw [hx] at hs; simp at hs
  have noSlash : ∀ s : Str, '/' ∉ s → isDepFeature s = false ∧ isWeakDepFeature s = false := by
    intro s hs
    constructor
    · cases hd : isDepFeature s with
      | false => rfl
      | true => obtain ⟨a, b, hx⟩ := (C102_isDepFeature _).1 hd; rw [hx] at hs; simp at hs
    · cases hd : isWeakDepFeature s with
      | false => rfl
      | true => obtain ⟨a, b, hx⟩ := (C102_isWeak _).1 hd; rw [hx] at hs; simp at hs
  have noQuestion : ∀ s : Str, '?' ∉ s → isWeakDepFeature s = false := by
    intro s hs
    cases hd : isWeakDepFeature s with
    | false => rfl
    | true => obtain ⟨a, b, hx⟩ := (C102_isWeak _).1 hd; rw [hx] at hs; simp at hs
  cases m with
  | plain f => exact ⟨(noDep f h.2.1).1, (noDep f h.2.1).2, (noSlash f h.1).1, (noSlash f h.1).2⟩
  | dep p =>
    have hs : '/' ∉ "dep:".toList ++ p := by simp [h.1]
    exact ⟨(C102_asDep _ _).2 rfl, (C102_isDep _).2 ⟨p, rfl⟩, (noSlash _ hs).1, (noSlash _ hs).2⟩
  | depFeature p f =>
    have hd : ':' ∉ p ++ "/".toList ++ f := by simp [h.1.2.1, h.2.2.1]
    have hq : '?' ∉ p ++ "/".toList ++ f := by simp [h.1.2.2, h.2.2.2]
    exact ⟨(noDep _ hd).1, (noDep _ hd).2, (C102_isDepFeature _).2 ⟨p, f, by simp [Member.text]⟩, noQuestion _ hq⟩
  | weakDepFeature p f =>
    have hd : ':' ∉ p ++ "?/".toList ++ f := by simp [h.1.2.1, h.2.2.1]
    exact ⟨(noDep _ hd).1, (noDep _ hd).2, (C102_isDepFeature _).2 ⟨p ++ ['?'], f, by simp [Member.text]⟩,
      (C102_isWeak _).2 ⟨p, f, rfl⟩⟩

/-- C102: no text is a member in two ways. -/
theorem C102_unambiguous (m m' : Member) (h : m.Ok) (h' : m'.Ok) (e : m.text = m'.text) : m = m' := by
  have split : ∀ (p f p' f' : Str) (c : Char), c ∉ p → c ∉ p' → p ++ c :: f = p' ++ c :: f' → p = p' ∧ f = f' := by
    intro p
    induction p with
    | nil =>
      intro f p' f' c _ h2 e
      cases p' with
      | nil => simpa using e
      | cons x p' =>
        simp only [List.nil_append, List.cons_append, List.cons.injEq] at e
        exact absurd (by simp [e.1]) h2
    | cons y p ih =>
      intro f p' f' c h1 h2 e
      cases p' with
      | nil =>
        simp only [List.nil_append, List.cons_append, List.cons.injEq] at e
        exact absurd (by simp [e.1]) h1
      | cons x p' =>
        simp only [List.cons_append, List.cons.injEq] at e
        obtain ⟨rfl, rfl⟩ := ih f p' f' c (by simp at h1; exact h1.2) (by simp at h2; exact h2.2) e.2
        exact ⟨by rw [e.1], rfl⟩
  have f1 := C102_forms m h
  have f2 := C102_forms m' h'
  rw [e] at f1
  obtain ⟨-, a2, a3, a4⟩ := f1
  obtain ⟨-, b2, b3, b4⟩ := f2
  rw [a2] at b2
  rw [a3] at b3
  rw [a4] at b4
  cases m <;> cases m' <;> first | (cases b2; done) | (cases b3; done) | (cases b4; done) | skip
  · exact congrArg _ e
  · exact congrArg _ (List.append_cancel_left e)
  · simp only [Member.text, List.append_assoc] at e
    obtain ⟨rfl, rfl⟩ := split _ _ _ _ '/' h.1.1 h'.1.1 e
    rfl
  · simp only [Member.text, List.append_assoc] at e
    obtain ⟨rfl, e2⟩ := split _ _ _ _ '?' h.1.2.2 h'.1.2.2 e
    injection e2 with _ e3
    exact congrArg _ e3

/-- C102: in the order of the members plain features come first, then features of dependencies, then dependencies. -/
theorem C102_groups (m m' : Member) (h : m.Ok) (h' : m'.Ok) (hg : m.group < m'.group) :
    memberCmp m.text m'.text = .lt := by
  obtain ⟨a1, -, a3, -⟩ := C102_forms m h
  obtain ⟨b1, -, b3, -⟩ := C102_forms m' h'
  unfold memberCmp
  rw [a1, b1, a3, b3]
  cases m <;> cases m' <;> first | rfl | simp [Member.group] at hg

/-- The forms with names as they are used. -/
example : (Member.weakDepFeature "serde".toList "std".toList).Ok ∧ (Member.dep "serde".toList).Ok ∧
    (Member.depFeature "serde".toList "std".toList).group < (Member.dep "serde".toList).group ∧
    (Member.weakDepFeature "serde".toList "std".toList).text = "serde?/std".toList := by
  refine ⟨?_, ?_, ?_, ?_⟩ <;> simp [Member.Ok, NameText, Member.group, Member.text]

end Verif.Props
