import Verif.Toml.LitSafe
import Verif.Toml.BoolLemmas

/-! # The errors of unfinished dates point into the literal -/

namespace Verif.Toml
open Verif Verif.Spec.Toml

variable {p : Pos} {n : Nat} {e : Error}

theorem afterYear_ne_invalid {cur : Cur} {span : Span} {y : Nat} :
    continueParsingDateTimeAfterYear cur span y ≠ .ok (.invalidDateTime e) := by
  intro h
  unfold continueParsingDateTimeAfterYear at h
  simp only [Res.bind_eq_ok] at h
  obtain ⟨⟨m, c1⟩, -, c2, -, ⟨d, c3⟩, -, h⟩ := h
  dsimp only at h
  split at h
  · simp at h
  · split at h
    · simp [Res.bind_eq_ok] at h
    · split at h <;> simp at h

theorem continueDate_ne_invalid {cur : Cur} {span : Span} {y : Nat} :
    continueParsingDateTime cur span y ≠ .ok (.invalidDateTime e) := by
  intro h
  unfold continueParsingDateTime at h
  have hy : ∀ (c : Char) (i : Nat),
      (yearCharError c i span : Res Error PartialValue) ≠ .ok (.invalidDateTime e) := by
    intro c i h
    unfold yearCharError at h
    split at h
    · simp at h
    · split at h <;> simp at h
  split at h
  · simp at h
  · split at h
    · split at h
      · simp at h
      · split at h
        · simp only [Res.bind_eq_ok] at h
          obtain ⟨c2, -, h⟩ := h
          exact afterYear_ne_invalid h
        · exact hy _ _ h
    · split at h
      · simp [Res.bind_eq_ok] at h
      · exact hy _ _ h

theorem orInvalid_inv {r : Res Error PartialValue} (hr : r ≠ .ok (.invalidDateTime e))
    (h : orInvalidDateTime r = .ok (.invalidDateTime e)) : r = .err e := by
  cases r with
  | ok v => exact absurd h hr
  | err e' => simp only [orInvalidDateTime, Res.ok.injEq, PartialValue.invalidDateTime.injEq] at h; rw [h]
  | panic => cases h

theorem decimalLoop_invalid {ovf : Bool} {lit : Str} (hn : 1 ≤ n) {sg : Option Sign} {s : Str} :
    ∀ {i : Nat} {acc : Int} {over last : Bool}, 1 ≤ i → i + blen s ≤ n →
    (∃ pre, lit = pre ++ s ∧ pre.length = i ∧ ∀ c ∈ pre, c.utf8Size = 1) →
    decimalLoop ovf lit (Span.fromPosLen p n) sg i s acc over last = .ok (.invalidDateTime e) →
    In p n e := by
  induction s with
  | nil =>
    intro i acc over last hi h _ hd
    unfold decimalLoop at hd
    split at hd
    · simp [Res.bind_eq_ok] at hd
    · split at hd <;> simp at hd
  | cons c cs ih =>
    intro i acc over last hi h hpre hd
    obtain ⟨pre, hlit, hlen, hasc⟩ := hpre
    rw [blen_cons] at h
    have hc := utf8Size_pos' c
    have hpre' : c.utf8Size = 1 → ∃ pre, lit = pre ++ cs ∧ pre.length = i + c.utf8Size ∧
        ∀ c ∈ pre, c.utf8Size = 1 := by
      intro h1
      refine ⟨pre ++ [c], by rw [hlit]; simp, by simp [hlen, h1], ?_⟩
      intro d hd
      rcases List.mem_append.1 hd with hd | hd
      · exact hasc d hd
      · rw [List.mem_singleton.1 hd]; exact h1
    unfold decimalLoop at hd
    dsimp only at hd
    split at hd
    · rename_i hdig
      have hd1 := isDigit_utf8Size hdig
      split at hd
      · exact ih (by omega) (by omega) (hpre' hd1) hd
      · split at hd
        · exact ih (by omega) (by omega) (hpre' hd1) hd
        · exact ih (by omega) (by omega) (hpre' hd1) hd
    split at hd
    · split at hd <;> simp [Res.bind_eq_ok] at hd
    split at hd
    · split at hd <;> simp [Res.bind_eq_ok] at hd
    split at hd
    · simp [Res.bind_eq_ok] at hd
    split at hd
    · have := orInvalid_inv afterYear_ne_invalid hd
      exact (afterYear_safe (p := p) (n := n) (by simp only [Cur.adv]; omega)).2 e this
    split at hd
    · simp at hd
    split at hd
    · split at hd
      · simp only [Res.pure_eq, Res.ok.injEq, PartialValue.invalidDateTime.injEq] at hd
        subst hd
        in_tac
      · rename_i h6 h7
        have hlt : 4 < lit.length := by rw [hlit]; simp; omega
        rw [List.getElem?_eq_getElem hlt] at hd
        simp only [Res.pure_eq, Res.ok.injEq, PartialValue.invalidDateTime.injEq] at hd
        subst hd
        have hf : lit[4].utf8Size = 1 := by
          rename_i h8 h9 h10 _
          rcases Nat.lt_or_ge 4 i with h4 | h4
          · have : lit[4] = pre[4]'(by omega) := by
              simp only [hlit]
              rw [List.getElem_append_left]
            rw [this]
            exact hasc _ (List.getElem_mem _)
          · have : lit[4] = c := by
              simp only [hlit]
              rw [List.getElem_append_right (by omega)]
              simp only [show 4 - pre.length = 0 by omega, List.getElem_cons_zero]
            rw [this, h6.1]
            decide
        in_tac
    split at hd
    · rename_i hu
      subst hu
      have : '_'.utf8Size = 1 := by decide
      split at hd
      · exact absurd hd (consec_ne_ok _ _ _)
      · exact ih (by omega) (by omega) (hpre' this) hd
    · simp at hd

theorem parsePrefixed_invalid {ovf : Bool} {lit : Str} {sg : Option Sign} {cur : Cur}
    (hn : 1 ≤ n) (hi : 1 ≤ cur.i) (h : cur.i + blen cur.rest ≤ n)
    (hd : parsePrefixedIntFloatOrDate ovf cur lit (Span.fromPosLen p n) sg =
      .ok (.invalidDateTime e)) : In p n e := by
  unfold parsePrefixedIntFloatOrDate at hd
  rcases cur with ⟨i, _ | ⟨c, cs⟩⟩
  · simp at hd
  simp only [blen_cons] at h hi
  have hc := utf8Size_pos' c
  dsimp only at hd
  split at hd
  · split at hd
    · simp at hd
    split at hd <;> simp [Res.bind_eq_ok] at hd
  split at hd
  · simp [Res.bind_eq_ok] at hd
  split at hd
  · simp [Res.bind_eq_ok] at hd
  split at hd
  · have := orInvalid_inv continueDate_ne_invalid hd
    exact (continueParsingDateTime_safe (p := p) (n := n) (by simp only [Cur.adv]; omega)
      (by omega)).2 e this
  split at hd
  · simp at hd
  split at hd <;> simp at hd

theorem parseSigned_invalid {ovf : Bool} {c : Char} {cs : Str} {sign : Sign} (hc : c.utf8Size = 1)
    (h : 1 + blen cs ≤ n)
    (hd : parseSigned ovf (c :: cs) (Span.fromPosLen p n) c sign ⟨1, cs⟩ =
      .ok (.invalidDateTime e)) : In p n e := by
  unfold parseSigned at hd
  rcases cs with _ | ⟨d, ds⟩
  · simp at hd
  rw [blen_cons] at h
  have hd' := utf8Size_pos' d
  dsimp only at hd
  split at hd
  · exact parsePrefixed_invalid (by omega) (by simp only [Cur.adv]; omega)
      (by simp only [Cur.adv]; omega) hd
  split at hd
  · rename_i h19
    have h1 := isDigit19_utf8 h19
    unfold parseDecimalIntFloatOrDate at hd
    refine decimalLoop_invalid (by omega) (by simp only [Cur.adv]; omega)
      (by simp only [Cur.adv]; omega) ⟨[c, d], rfl, by simp [Cur.adv, h1], ?_⟩ hd
    intro x hx
    simp only [List.mem_cons, List.not_mem_nil, or_false] at hx
    rcases hx with rfl | rfl
    · exact hc
    · exact h1
  split at hd
  · simp [Res.bind_eq_ok] at hd
  split at hd
  · simp [Res.bind_eq_ok] at hd
  split at hd <;> simp at hd

/-- The error in an unfinished date points into the literal. -/
theorem parseLiteral_invalid {ovf : Bool} {lit : Str}
    (hd : parseLiteral ovf lit (Span.fromPosLen p (blen lit)) = .ok (.invalidDateTime e)) :
    In p (blen lit) e := by
  rcases lit with _ | ⟨c, cs⟩
  · cases hd
  have hc := utf8Size_pos' c
  unfold parseLiteral at hd
  dsimp only at hd
  split at hd
  · rename_i hp
    subst hp
    exact parseSigned_invalid (by decide) (by rw [blen_cons, show '+'.utf8Size = 1 by decide]; omega) hd
  split at hd
  · rename_i hp
    subst hp
    exact parseSigned_invalid (by decide) (by rw [blen_cons, show '-'.utf8Size = 1 by decide]; omega) hd
  split at hd
  · exact parsePrefixed_invalid (by rw [blen_cons]; omega) (by simp only [Cur.adv]; omega)
      (by simp only [Cur.adv, blen_cons]; omega) hd
  split at hd
  · rename_i h19
    have h1 := isDigit19_utf8 h19
    unfold parseDecimalIntFloatOrDate at hd
    refine decimalLoop_invalid (by rw [blen_cons]; omega) (by simp only [Cur.adv]; omega)
      (by simp only [Cur.adv, blen_cons]; omega) ⟨[c], rfl, by simp [Cur.adv, h1], by simp [h1]⟩ hd
  iterate 4
    split at hd
    · simp [Res.bind_eq_ok] at hd
  split at hd <;> simp at hd

end Verif.Toml
