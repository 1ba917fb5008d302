import Verif.Toml.LitSafe

/-!
# Integer overflow is reported exactly for the integers out of range
-/

namespace Verif.Toml
open Verif Verif.Spec.Toml

variable {p : Pos} {n : Nat}

theorem Safe.notOvf {α : Type} {r : Res Error α} (h : Safe (In p n) r) (s : Span) :
    r ≠ .err (.intLiteralOverflow s) := fun hr => (h.2 _ hr).notOvf s rfl

theorem decimalLoop_tailOvf {ovf : Bool} {lit : Str} (hn : 1 ≤ n) {sg : Option Sign} {s : Str} :
    ∀ {i : Nat} {a : Nat} {acc : Int} {over last : Bool} {sp : Span}, 1 ≤ i → i + blen s ≤ n →
    (over = true ∧ ¬ InRange (factor sg * (a : Int)) ∨
      over = false ∧ acc = factor sg * (a : Int) ∧ InRange acc) →
    (decimalLoop ovf lit (Span.fromPosLen p n) sg i s acc over last =
        .err (.intLiteralOverflow sp) ↔
      UTail 10 last s ∧ ¬ InRange (factor sg * (valFrom 10 a s : Int)) ∧
        sp = Span.fromPosLen p n) := by
  induction s with
  | nil =>
    intro i a acc over last sp hi h hacc
    unfold decimalLoop
    rw [utail_nil]
    cases last
    · simp only [Bool.false_eq_true, if_false, valFrom_nil, true_and]
      rcases hacc with ⟨rfl, hr⟩ | ⟨rfl, rfl, hr⟩
      · simp only [if_true, Res.err.injEq, Error.intLiteralOverflow.injEq, hr, not_false_eq_true,
          true_and]
        exact eq_comm
      · simp [hr]
    · simp only [if_true]
      rw [posMinus_ok (by simp only [Span.fromPosLen, Pos.plus]; omega)]
      simp
  | cons c cs ih =>
    intro i a acc over last sp hi h hacc
    rw [blen_cons] at h
    have hc := utf8Size_pos' c
    rw [utail_cons (by omega)]
    unfold decimalLoop
    by_cases hd : isDigit c = true
    · have hd10 := (isDigit_iff_digitOf c).1 hd
      have hu : c ≠ '_' := ne_under (by omega) hd10
      rw [if_pos hd]
      rw [valFrom_cons, if_neg hu]
      simp only [hu, false_and, or_false, hd10, true_and]
      rcases hacc with ⟨rfl, hr⟩ | ⟨rfl, rfl, hr⟩
      · simp only [if_true]
        refine ih (by omega) (by omega) (.inl ⟨rfl, ?_⟩)
        intro h'
        exact hr (InRange.mono (factor_cases sg) (by omega) h')
      · simp only [Bool.false_eq_true, if_false]
        have e := pushDigit_eq (factor_cases sg) a (digitVal c)
        rw [← digitOf_of_isDigit hd] at *
        by_cases hr2 : inI64 (factor sg * ((a * 10 + digitOf c : Nat) : Int)) = true
        · rw [if_pos hr2] at e
          unfold factor at e
          unfold factor
          simp only [e]
          exact ih (by omega) (by omega) (.inr ⟨rfl, rfl, (inI64_iff _).1 hr2⟩)
        · rw [if_neg hr2] at e
          unfold factor at e
          unfold factor
          simp only [e]
          refine ih (by omega) (by omega) (.inl ⟨rfl, fun h' => hr2 ((inI64_iff _).2 h')⟩)
    · have hd10 : ¬ digitOf c < 10 := fun h => hd ((isDigit_iff_digitOf c).2 h)
      rw [if_neg hd]
      simp only [hd10, false_and, false_or]
      by_cases h1 : c = '.'
      · subst h1
        simp only [if_true]
        simp only [show ¬ ('.' = '_') by decide, false_and, iff_false]
        split
        · rw [posMinus_ok (by simp only [Span.fromPosLen, Pos.plus]; omega)]
          simp
        · have := (validateFract_safe (p := p) (ovf := ovf) (lit := lit) (start := i + 1) hn
            (cur := Cur.adv i '.' cs) (by simp only [Cur.adv]; omega)
            (by simp only [Cur.adv]; omega)).notOvf sp
          simp [Res.bind_eq_err, this]
      rw [if_neg h1]
      by_cases h2 : c = 'e' ∨ c = 'E'
      · rw [if_pos h2]
        have hu : c ≠ '_' := by rintro rfl; revert h2; decide
        simp only [hu, false_and, iff_false]
        split
        · rw [posMinus_ok (by simp only [Span.fromPosLen, Pos.plus]; omega)]
          simp
        · have := (validateFloatExponent_safe (p := p) (ovf := ovf) (lit := lit) hn
            (cur := Cur.adv i c cs) (by simp only [Cur.adv]; omega)
            (by simp only [Cur.adv]; omega)).notOvf sp
          simp [Res.bind_eq_err, this]
      rw [if_neg h2]
      by_cases h3 : c = ':' ∧ sg = none ∧ i = 2
      · rw [if_pos h3]
        have hu : c ≠ '_' := by rintro rfl; revert h3; simp
        have := (continueParsingLocalTime_safe (p := p) (n := n) (hour := truncU 8 acc)
            (cur := Cur.adv i c cs) (by simp only [Cur.adv]; omega)
            (by omega)).notOvf sp
        simp [Res.bind_eq_err, this, hu]
      rw [if_neg h3]
      by_cases h4 : c = '-' ∧ sg = none ∧ i = 4
      · rw [if_pos h4]
        have hu : c ≠ '_' := by rintro rfl; revert h4; simp
        have := (orInvalid_safe (afterYear_safe (p := p) (n := n) (y := truncU 16 acc)
            (cur := Cur.adv i c cs) (by simp only [Cur.adv]; omega))).notOvf sp
        simp [this, hu]
      rw [if_neg h4]
      by_cases h5 : c = ':' ∧ sg = none ∧ i ≤ 3
      · rw [if_pos h5]
        have : c ≠ '_' := by rintro rfl; revert h5; simp
        simp [this]
      rw [if_neg h5]
      by_cases h6 : c = '-' ∧ sg = none ∧ i ≤ 6
      · rw [if_pos h6]
        have : c ≠ '_' := by rintro rfl; revert h6; simp
        simp only [this, false_and, iff_false]
        split
        · simp
        · split <;> simp
      rw [if_neg h6]
      by_cases h7 : c = '_'
      · subst h7
        simp only [if_true, true_and]
        have : '_'.utf8Size = 1 := by decide
        cases last
        · simp only [Bool.false_eq_true, if_false, true_and]
          rw [valFrom_cons, if_pos rfl]
          exact ih (by omega) (by omega) hacc
        · simp only [if_true, Bool.true_eq_false, false_and, iff_false]
          exact (consec_safe (p := p) (n := n) hi (by omega)).notOvf sp
      · rw [if_neg h7]
        simp [h7]

theorem parseDecimal_ovf {ovf : Bool} {i : Nat} {cs : Str} {lit : Str}
    {sg : Option Sign} {c : Char} (hc : isDigit19 c = true) (hi : 1 ≤ i) (h : i + blen cs ≤ n)
    {sp : Span} :
    parseDecimalIntFloatOrDate ovf ⟨i, cs⟩ lit (Span.fromPosLen p n) (digitVal c) sg =
        .err (.intLiteralOverflow sp) ↔
      UnsignedDec (c :: cs) ∧ ¬ InRange (factor sg * numeral 10 (c :: cs)) ∧
        sp = Span.fromPosLen p n := by
  have hc' := (isDigit19_iff c).1 hc
  unfold parseDecimalIntFloatOrDate
  have hr : InRange (factor sg * (digitVal c : Int)) := by
    have := digitVal_lt ((isDigit_iff_digitOf c).2 hc'.1)
    unfold InRange
    rcases factor_cases sg with h | h <;> rw [h] <;> omega
  have e : (digitVal c : Int) * sg.elim 1 Sign.val = factor sg * (digitVal c : Int) := by
    unfold factor; rw [Int.mul_comm]
  rw [e, decimalLoop_tailOvf (by omega) hi h (.inr ⟨rfl, rfl, hr⟩)]
  rw [unsignedDec_cons, numeral_cons (by omega) hc'.1,
    digitOf_of_isDigit ((isDigit_iff_digitOf c).2 hc'.1)]
  have h0 : ¬ (c = '0' ∧ cs = []) := fun h => hc'.2 h.1
  simp only [h0, false_or, hc, true_and]

theorem parsePrefixed_notOvf {ovf : Bool} {lit : Str} {sg : Option Sign} {cur : Cur} {sp : Span}
    (hn : (if sg.isSome then 2 else 1) ≤ n) (hi : 1 ≤ cur.i) (h : cur.i + blen cur.rest ≤ n) :
    parsePrefixedIntFloatOrDate ovf cur lit (Span.fromPosLen p n) sg ≠
      .err (.intLiteralOverflow sp) :=
  (parsePrefixed_safe hn hi h).notOvf sp

theorem parseSigned_ovf {ovf : Bool} {c : Char} {cs : Str} {sign : Sign} {sp : Span}
    (h : 1 + blen cs ≤ n) :
    parseSigned ovf (c :: cs) (Span.fromPosLen p n) c sign ⟨1, cs⟩ =
        .err (.intLiteralOverflow sp) ↔
      UnsignedDec cs ∧ ¬ InRange (sign.val * numeral 10 cs) ∧ sp = Span.fromPosLen p n := by
  unfold parseSigned
  rcases cs with _ | ⟨d, ds⟩
  · simp [unsignedDec_ne_nil]
  rw [blen_cons] at h
  have hd := utf8Size_pos' d
  dsimp only
  by_cases h0 : d = '0'
  · subst h0
    rw [if_pos rfl, unsignedDec_cons]
    have h19 : isDigit19 '0' = false := by decide
    simp only [true_and, h19, Bool.false_eq_true, false_and, or_false]
    constructor
    · intro h'
      exact absurd h' (parsePrefixed_notOvf (by simp; omega) (by simp only [Cur.adv]; omega)
        (by simp only [Cur.adv]; omega))
    · rintro ⟨rfl, h', -⟩
      rw [show numeral 10 ['0'] = 0 by decide] at h'
      exfalso; apply h'; simp [InRange]
  rw [if_neg h0]
  by_cases h19 : isDigit19 d = true
  · rw [if_pos h19]
    unfold Cur.adv
    rw [parseDecimal_ovf h19 (by omega) (by omega)]
    rfl
  rw [if_neg h19]
  have hu : ¬ UnsignedDec (d :: ds) := by
    rw [unsignedDec_cons]
    rintro (⟨h, -⟩ | ⟨h, -⟩)
    · exact h0 h
    · exact h19 h
  simp only [hu, false_and, iff_false]
  have hb : ∀ ex, parseBareLiteral (Cur.adv 1 d ds) (Span.fromPosLen p n) 1 c ex ≠
      .err (.intLiteralOverflow sp) := fun ex =>
    (parseBareLiteral_safe (by simp only [Cur.adv]; omega) (by omega)).notOvf sp
  split
  · simp [Res.bind_eq_err, hb]
  split
  · simp [Res.bind_eq_err, hb]
  split <;> simp

/-- The literal parser reports an integer overflow exactly for the decimal integers out of range. -/
theorem parseLiteral_ovf {ovf : Bool} {lit : Str} {sp : Span} :
    parseLiteral ovf lit (Span.fromPosLen p (blen lit)) = .err (.intLiteralOverflow sp) ↔
      (∃ k, DecInt lit k ∧ ¬ InRange k) ∧ sp = Span.fromPosLen p (blen lit) := by
  rcases lit with _ | ⟨c, cs⟩
  · simp only [parseLiteral, reduceCtorEq, false_iff]
    rintro ⟨⟨k, ⟨sign, f, body, h, hs, hu, -⟩, -⟩, -⟩
    simp only [List.nil_eq, List.append_eq_nil_iff] at h
    obtain ⟨rfl, rfl⟩ := h
    exact unsignedDec_ne_nil hu
  have hc := utf8Size_pos' c
  simp only [decInt_cons]
  unfold parseLiteral
  dsimp only
  by_cases hp : c = '+'
  · subst hp
    rw [if_pos rfl]
    unfold Cur.adv
    have h1 : ¬ UnsignedDec ('+' :: cs) := by
      rw [unsignedDec_cons]; simp [isDigit19]
    have := @parseSigned_ovf p (blen ('+' :: cs)) ovf '+' cs .positive sp
      (by rw [blen_cons, show '+'.utf8Size = 1 by decide]; omega)
    rw [show 0 + '+'.utf8Size = 1 by decide, this]
    simp only [h1, Sign.val]
    constructor
    · rintro ⟨a, b, c⟩; exact ⟨⟨_, .inl ⟨trivial, a, rfl⟩, by simpa using b⟩, c⟩
    · rintro ⟨⟨k, (⟨-, a, rfl⟩ | ⟨h, -⟩ | ⟨h, -⟩), b⟩, c⟩
      · exact ⟨a, by simpa using b, c⟩
      · exact absurd h (by decide)
      · exact absurd h id
  rw [if_neg hp]
  by_cases hm : c = '-'
  · subst hm
    rw [if_pos rfl]
    unfold Cur.adv
    have h1 : ¬ UnsignedDec ('-' :: cs) := by
      rw [unsignedDec_cons]; simp [isDigit19]
    have := @parseSigned_ovf p (blen ('-' :: cs)) ovf '-' cs .negative sp
      (by rw [blen_cons, show '-'.utf8Size = 1 by decide]; omega)
    rw [show 0 + '-'.utf8Size = 1 by decide, this]
    have e : Sign.negative.val * (numeral 10 cs : Int) = -(numeral 10 cs : Int) := by
      simp [Sign.val]
    rw [e]
    simp only [h1]
    constructor
    · rintro ⟨a, b, c⟩; exact ⟨⟨_, .inr (.inl ⟨trivial, a, rfl⟩), b⟩, c⟩
    · rintro ⟨⟨k, (⟨h, -⟩ | ⟨-, a, rfl⟩ | ⟨h, -⟩), b⟩, c⟩
      · exact absurd h (by decide)
      · exact ⟨a, b, c⟩
      · exact absurd h id
  rw [if_neg hm]
  simp only [hp, hm, false_and, false_or]
  by_cases h0 : c = '0'
  · subst h0
    rw [if_pos rfl]
    constructor
    · intro h'
      exact absurd h' (parsePrefixed_notOvf (by simp; omega) (by simp only [Cur.adv]; omega)
        (by simp only [Cur.adv, blen_cons]; omega))
    · rintro ⟨⟨k, ⟨hu, rfl⟩, h'⟩, -⟩
      rw [unsignedDec_cons] at hu
      have h19 : isDigit19 '0' = false := by decide
      simp only [true_and, h19, Bool.false_eq_true, false_and, or_false] at hu
      subst hu
      rw [show numeral 10 ['0'] = 0 by decide] at h'
      exfalso; apply h'; simp [InRange]
  rw [if_neg h0]
  by_cases h19 : isDigit19 c = true
  · rw [if_pos h19]
    unfold Cur.adv
    rw [parseDecimal_ovf h19 (by omega) (by rw [blen_cons]; omega)]
    constructor
    · rintro ⟨a, b, c⟩; exact ⟨⟨_, ⟨a, rfl⟩, by simpa [factor] using b⟩, c⟩
    · rintro ⟨⟨k, ⟨a, rfl⟩, b⟩, c⟩
      exact ⟨a, by simpa [factor] using b, c⟩
  rw [if_neg h19]
  have hu : ¬ UnsignedDec (c :: cs) := by
    rw [unsignedDec_cons]
    rintro (⟨h, -⟩ | ⟨h, -⟩)
    · exact h0 h
    · exact h19 h
  simp only [hu, false_and, exists_false, iff_false]
  have hb : ∀ ex, parseBareLiteral (Cur.adv 0 c cs) (Span.fromPosLen p (blen (c :: cs))) 0 c ex ≠
      .err (.intLiteralOverflow sp) := fun ex =>
    (parseBareLiteral_safe (by simp only [Cur.adv, blen_cons]; omega)
      (by rw [blen_cons]; omega)).notOvf sp
  iterate 4
    split
    · rw [Res.bind_eq_err]
      rintro (h | ⟨a, -, h⟩)
      · exact hb _ h
      · simp at h
  split <;> simp

end Verif.Toml
