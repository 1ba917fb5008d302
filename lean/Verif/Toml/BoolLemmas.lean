import Verif.Toml.FloatLemmas

/-!
# Booleans
-/

namespace Verif.Toml
open Verif Verif.Spec.Toml

theorem decimalLoop_ne_bool {ovf : Bool} {lit : Str} {span : Span} {sg : Option Sign} {s : Str}
    {b : Bool} : ∀ {i : Nat} {acc : Int} {over last : Bool},
    decimalLoop ovf lit span sg i s acc over last ≠ .ok (.bool b) := by
  induction s with
  | nil =>
    intro i acc over last h
    unfold decimalLoop at h
    split at h
    · simp [Res.bind_eq_ok] at h
    · split at h <;> simp at h
  | cons c cs ih =>
    intro i acc over last h
    unfold decimalLoop at h
    dsimp only at h
    split at h
    · split at h
      · exact ih h
      · split at h <;> exact ih h
    split at h
    · split at h <;> simp [Res.bind_eq_ok] at h
    split at h
    · split at h <;> simp [Res.bind_eq_ok] at h
    split at h
    · simp [Res.bind_eq_ok] at h
    split at h
    · exact orInvalid_afterYear_ne.2.2 _ h
    split at h
    · simp at h
    split at h
    · split at h
      · simp at h
      · split at h <;> simp at h
    split at h
    · split at h
      · exact consec_ne_ok _ _ _ h
      · exact ih h
    · simp at h

theorem parsePrefixed_ne_bool {ovf : Bool} {lit : Str} {span : Span} {sg : Option Sign} {cur : Cur}
    {b : Bool} : parsePrefixedIntFloatOrDate ovf cur lit span sg ≠ .ok (.bool b) := by
  intro h
  unfold parsePrefixedIntFloatOrDate at h
  split at h
  · simp at h
  split at h
  · split at h
    · simp at h
    split at h <;> simp [Res.bind_eq_ok] at h
  split at h
  · simp [Res.bind_eq_ok] at h
  split at h
  · simp [Res.bind_eq_ok] at h
  split at h
  · exact continueParsingDateTime_ne.2.2 _ h
  split at h
  · simp at h
  split at h <;> simp at h

theorem parseSigned_ne_bool {ovf : Bool} {lit : Str} {span : Span} {c : Char} {sign : Sign}
    {cur : Cur} {b : Bool} : parseSigned ovf lit span c sign cur ≠ .ok (.bool b) := by
  intro h
  unfold parseSigned at h
  split at h
  · simp at h
  dsimp only at h
  split at h
  · exact parsePrefixed_ne_bool h
  split at h
  · exact decimalLoop_ne_bool h
  split at h
  · simp [Res.bind_eq_ok] at h
  split at h
  · simp [Res.bind_eq_ok] at h
  split at h <;> simp at h

/-- **Booleans**: exactly `true` and `false`. -/
theorem parseLiteral_bool {ovf : Bool} {lit : Str} {span : Span} {b : Bool} :
    parseLiteral ovf lit span = .ok (.bool b) ↔ lit = (if b then "true" else "false").toList := by
  have hno : (if b then "true" else "false").toList ≠ [] := by cases b <;> decide
  unfold parseLiteral
  rcases lit with _ | ⟨c, cs⟩
  · simp [hno.symm]
  dsimp only
  have hhead : ∀ {x : Char}, x ≠ 't' → x ≠ 'f' → c = x →
      c :: cs ≠ (if b then "true" else "false").toList := by
    rintro x h1 h2 rfl h
    cases b
    · simp only [Bool.false_eq_true, if_false, String.reduceToList, List.cons.injEq] at h
      exact h2 h.1
    · simp only [if_true, String.reduceToList, List.cons.injEq] at h
      exact h1 h.1
  by_cases hp : c = '+'
  · rw [if_pos hp]
    simp [parseSigned_ne_bool, hhead (by decide) (by decide) hp]
  rw [if_neg hp]
  by_cases hm : c = '-'
  · rw [if_pos hm]
    simp [parseSigned_ne_bool, hhead (by decide) (by decide) hm]
  rw [if_neg hm]
  by_cases h0 : c = '0'
  · rw [if_pos h0]
    simp [parsePrefixed_ne_bool, hhead (by decide) (by decide) h0]
  rw [if_neg h0]
  by_cases h19 : isDigit19 c = true
  · rw [if_pos h19]
    have h1 : c ≠ 't' := by rintro rfl; revert h19; decide
    have h2 : c ≠ 'f' := by rintro rfl; revert h19; decide
    have := hhead h1 h2 rfl
    simp only [this, iff_false]
    exact decimalLoop_ne_bool
  rw [if_neg h19]
  by_cases hf : c = 'f' ∨ c = 'F'
  · rw [if_pos hf]
    simp only [Res.bind_eq_ok, parseBareLiteral_ok, Cur.adv, Res.pure_eq, Res.ok.injEq,
      PartialValue.bool.injEq, String.reduceToList, List.drop_one, List.tail_cons]
    rcases hf with rfl | rfl
    · cases b
      · simp [show ¬ ('f' : Char) ≤ 'Z' by decide]
      · simp
    · have := hhead (x := 'F') (by decide) (by decide) rfl
      simp [this, show ('A' : Char) ≤ 'F' by decide, show ('F' : Char) ≤ 'Z' by decide]
  rw [if_neg hf]
  by_cases ht : c = 't' ∨ c = 'T'
  · rw [if_pos ht]
    simp only [Res.bind_eq_ok, parseBareLiteral_ok, Cur.adv, Res.pure_eq, Res.ok.injEq,
      PartialValue.bool.injEq, String.reduceToList, List.drop_one, List.tail_cons]
    rcases ht with rfl | rfl
    · cases b
      · simp
      · simp [show ¬ ('t' : Char) ≤ 'Z' by decide]
    · have := hhead (x := 'T') (by decide) (by decide) rfl
      simp [this, show ('A' : Char) ≤ 'T' by decide, show ('T' : Char) ≤ 'Z' by decide]
  rw [if_neg ht]
  have := hhead (fun h => ht (.inl h)) (fun h => hf (.inl h)) rfl
  simp only [this, iff_false]
  intro h
  split at h
  · simp [Res.bind_eq_ok] at h
  split at h
  · simp [Res.bind_eq_ok] at h
  split at h <;> simp at h

end Verif.Toml
