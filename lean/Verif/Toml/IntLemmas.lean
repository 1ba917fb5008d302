import Verif.Toml.NumLemmas

/-!
# Integers: prefixed literals, overflow reports, and the top level
-/

namespace Verif.Toml
open Verif Verif.Spec.Toml

/-- `wrapI64 x` is the number in range that is congruent to `x` modulo 2^64. -/
theorem wrap_iff (x y : Int) :
    wrapI64 x = y ↔ InRange y ∧ ∃ k : Int, x = y + k * 18446744073709551616 := by
  unfold wrapI64 InRange
  constructor
  · rintro rfl
    refine ⟨by omega, (x + 2 ^ 63) / 2 ^ 64, by omega⟩
  · rintro ⟨h, k, rfl⟩
    omega

theorem wrap_step {k : Nat} (hk : k = 1 ∨ k = 3 ∨ k = 4) (a : Int) (n : Nat)
    (hn : n < 2 ^ k) :
    inI64 (wrapI64 (wrapI64 a * 2 ^ k) + n) = true ∧
      wrapI64 (wrapI64 a * 2 ^ k) + n = wrapI64 (a * 2 ^ k + n) := by
  rw [inI64_iff]
  obtain ⟨h1, q, h⟩ := (wrap_iff a _).1 rfl
  generalize wrapI64 a = v at *
  subst h
  obtain ⟨h2, q2, h3⟩ := (wrap_iff (v * 2 ^ k) _).1 rfl
  generalize wrapI64 (v * 2 ^ k) = w at *
  rcases hk with rfl | rfl | rfl <;> simp only [Nat.reducePow, Int.reducePow] at *
  · have h4 : InRange (w + n) := by unfold InRange at *; omega
    exact ⟨h4, ((wrap_iff _ _).2 ⟨h4, q * 2 + q2, by omega⟩).symm⟩
  · have h4 : InRange (w + n) := by unfold InRange at *; omega
    exact ⟨h4, ((wrap_iff _ _).2 ⟨h4, q * 8 + q2, by omega⟩).symm⟩
  · have h4 : InRange (w + n) := by unfold InRange at *; omega
    exact ⟨h4, ((wrap_iff _ _).2 ⟨h4, q * 16 + q2, by omega⟩).symm⟩

theorem addI64_ok {ovf : Bool} {a b : Int} (h : inI64 (a + b) = true) :
    addI64 ovf a b = .ok (a + b) := by
  unfold addI64; rw [if_pos h]

theorem bits_cases (p : IntPrefix) : p.bits = 1 ∨ p.bits = 3 ∨ p.bits = 4 := by
  cases p <;> decide

theorem pow_bits_le (p : IntPrefix) : 2 ^ p.bits ≤ 16 := by
  cases p <;> decide

theorem prefixedIntLoop_ok {ovf : Bool} {span : Span} {pre : IntPrefix} {rest : Str} :
    ∀ {i : Nat} {first last : Bool} {a : Nat} {v : Int},
    (prefixedIntLoop ovf span pre i rest first (wrapI64 a) last = .ok v ↔
      UTail (2 ^ pre.bits) (first || last) rest ∧ v = wrapI64 (valFrom (2 ^ pre.bits) a rest)) := by
  induction rest with
  | nil =>
    intro i first last a v
    unfold prefixedIntLoop
    rw [utail_nil]
    cases first
    · cases last
      · simp only [Bool.false_eq_true, if_false, Bool.or_self, true_and, valFrom_nil, Res.ok.injEq]
        exact eq_comm
      · simp [Res.bind_eq_ok]
    · simp
  | cons c cs ih =>
    intro i first last a v
    unfold prefixedIntLoop
    rw [utail_cons (pow_bits_le pre), hexDigitVal_eq]
    by_cases h16 : digitOf c < 16
    · rw [if_pos h16]
      have hu : c ≠ '_' := ne_under (Nat.le_refl _) h16
      rw [valFrom_cons, if_neg hu]
      simp only [hu, false_and, or_false]
      by_cases hbig : 2 ^ pre.bits ≤ digitOf c
      · simp only [if_pos hbig]
        have : ¬ digitOf c < 2 ^ pre.bits := by omega
        simp [this]
      · simp only [if_neg hbig]
        have hlt : digitOf c < 2 ^ pre.bits := by omega
        have h64 : ¬ 64 ≤ pre.bits := by rcases bits_cases pre with h | h | h <;> omega
        simp only [if_neg h64, hlt, true_and]
        have hw := wrap_step (bits_cases pre) a (digitOf c) hlt
        rw [addI64_ok hw.1, hw.2]
        dsimp only
        have e : ((a : Int) * 2 ^ pre.bits + (digitOf c : Int)) =
            ((a * 2 ^ pre.bits + digitOf c : Nat) : Int) := by push_cast; rfl
        rw [e]
        have := @ih (i + c.utf8Size) false false (a * 2 ^ pre.bits + digitOf c) v
        simp only [Bool.or_self] at this
        exact this
    · rw [if_neg h16]
      have hb := pow_bits_le pre
      have hlt : ¬ digitOf c < 2 ^ pre.bits := by omega
      simp only [hlt, false_and, false_or]
      by_cases hbig : isBigHexLetter c = true ∧ pre = .hexadecimal
      · rw [if_pos hbig]
        have : c ≠ '_' := by rintro rfl; revert hbig; simp [isBigHexLetter]
        simp [this]
      · rw [if_neg hbig]
        by_cases hu : c = '_'
        · subst hu
          rw [if_pos rfl, valFrom_cons, if_pos rfl]
          cases first
          · cases last
            · simp only [Bool.false_eq_true, if_false, Bool.or_self, true_and]
              have := @ih (i + '_'.utf8Size) false true a v
              simpa using this
            · simp only [Bool.false_eq_true, if_false, if_true, Bool.or_true, true_and,
                Bool.true_eq_false, false_and, iff_false]
              exact consec_ne_ok _ _ _
          · simp
        · rw [if_neg hu]
          simp [hu]

theorem wrapI64_zero : wrapI64 ((0 : Nat) : Int) = 0 := by simp [wrapI64]

theorem parsePrefixedIntLiteral_ok {ovf : Bool} {span : Span} {pre : IntPrefix} {cur : Cur}
    {v : Int} :
    (parsePrefixedIntLiteral ovf cur span pre = .ok v ↔
      Digits (2 ^ pre.bits) cur.rest ∧ v = wrapI64 (numeral (2 ^ pre.bits) cur.rest)) := by
  unfold parsePrefixedIntLiteral
  have := @prefixedIntLoop_ok ovf span pre cur.rest cur.i true false 0 v
  rw [wrapI64_zero] at this
  rw [this, Bool.true_or, utail_true (pow_bits_le pre), numeral_eq]

/-! ### Top level -/

theorem continueParsingDateTime_ne {cur : Cur} {span : Span} {y : Nat} :
    (∀ n, orInvalidDateTime (continueParsingDateTime cur span y) ≠ .ok (.int n)) ∧
    (∀ n, orInvalidDateTime (continueParsingDateTime cur span y) ≠ .ok (.float n)) ∧
    (∀ n, orInvalidDateTime (continueParsingDateTime cur span y) ≠ .ok (.bool n)) := by
  unfold continueParsingDateTime
  rcases cur with ⟨i, _ | ⟨c, cs⟩⟩
  · simp [orInvalidDateTime]
  dsimp only
  split
  · rcases h : Cur.adv i c cs with ⟨j, _ | ⟨d, ds⟩⟩
    · simp [orInvalidDateTime]
    dsimp only
    split
    · cases h2 : expectChar (Cur.adv j d ds) span .year '-' with
      | ok cur => simp only [Res.bind_ok]; exact orInvalid_afterYear_ne
      | err e => simp [orInvalidDateTime]
      | panic => simp [orInvalidDateTime]
    · unfold yearCharError
      split
      · simp [orInvalidDateTime]
      · split <;> simp [orInvalidDateTime]
  · split
    · cases h2 : continueParsingLocalTime (Cur.adv i c cs) span y with
      | ok cur => simp [orInvalidDateTime]
      | err e => simp [orInvalidDateTime]
      | panic => simp [orInvalidDateTime]
    · unfold yearCharError
      split
      · simp [orInvalidDateTime]
      · split <;> simp [orInvalidDateTime]

/-- The radix behind the leading `0` of a prefixed integer. -/
theorem radixOf_ok (c : Char) (p : IntPrefix) :
    (radixOf c = some p ∧ ¬ ('A' ≤ c ∧ c ≤ 'Z')) ↔
      (c = 'b' ∧ p = .binary) ∨ (c = 'o' ∧ p = .octal) ∨ (c = 'x' ∧ p = .hexadecimal) := by
  unfold radixOf
  constructor
  · rintro ⟨h, hu⟩
    split at h
    · rename_i hc
      rcases hc with rfl | rfl
      · simp only [Option.some.injEq] at h; subst h; simp
      · exfalso; revert hu; decide
    · split at h
      · rename_i hc
        rcases hc with rfl | rfl
        · simp only [Option.some.injEq] at h; subst h; simp
        · exfalso; revert hu; decide
      · split at h
        · rename_i hc
          rcases hc with rfl | rfl
          · simp only [Option.some.injEq] at h; subst h; simp
          · exfalso; revert hu; decide
        · simp at h
  · rintro (⟨rfl, rfl⟩ | ⟨rfl, rfl⟩ | ⟨rfl, rfl⟩) <;> decide

/-- `parse_prefixed_int_float_or_date` yields an integer exactly for `0` and for prefixed
integers. -/
theorem parsePrefixed_int {ovf : Bool} {cur : Cur} {lit : Str} {span : Span} {sg : Option Sign}
    {n : Int} :
    parsePrefixedIntFloatOrDate ovf cur lit span sg = .ok (.int n) ↔
      (cur.rest = [] ∧ n = 0) ∨
      (sg = none ∧ ∃ m, PrefixedInt ('0' :: cur.rest) m ∧ n = wrapI64 m) := by
  unfold parsePrefixedIntFloatOrDate
  rcases cur with ⟨i, _ | ⟨c, cs⟩⟩
  · simp only [Res.pure_eq, Res.ok.injEq, PartialValue.int.injEq, true_and]
    constructor
    · rintro rfl; exact .inl rfl
    · rintro (rfl | ⟨-, m, h, -⟩)
      · rfl
      · cases h
  · simp only [List.cons_ne_nil, false_and, false_or]
    cases hr : radixOf c with
    | some pre =>
      dsimp only
      have hinv : ∀ m, PrefixedInt ('0' :: c :: cs) m →
          (c = 'b' ∧ pre = .binary) ∨ (c = 'o' ∧ pre = .octal) ∨ (c = 'x' ∧ pre = .hexadecimal) := by
        intro m h
        cases h <;> (revert hr; simp [radixOf]; rintro rfl; simp)
      cases sg with
      | some s => simp
      | none =>
        simp only [Option.isSome_none, Bool.false_eq_true, if_false, true_and]
        by_cases hu : 'A' ≤ c ∧ c ≤ 'Z'
        · rw [if_pos hu]
          simp only [reduceCtorEq, false_iff]
          rintro ⟨m, h, -⟩
          rcases hinv m h with ⟨rfl, -⟩ | ⟨rfl, -⟩ | ⟨rfl, -⟩ <;> revert hu <;> decide
        · rw [if_neg hu]
          have hp := (radixOf_ok c pre).1 ⟨hr, hu⟩
          simp only [Res.bind_eq_ok, parsePrefixedIntLiteral_ok, Cur.adv, Res.pure_eq, Res.ok.injEq,
            PartialValue.int.injEq]
          constructor
          · rintro ⟨v, ⟨hd, hv⟩, hn⟩
            refine ⟨numeral (2 ^ pre.bits) cs, ?_, hn.symm.trans hv⟩
            rcases hp with ⟨rfl, rfl⟩ | ⟨rfl, rfl⟩ | ⟨rfl, rfl⟩
            · exact .bin hd
            · exact .oct hd
            · exact .hex hd
          · rintro ⟨m, h, hn⟩
            rcases hp with ⟨rfl, rfl⟩ | ⟨rfl, rfl⟩ | ⟨rfl, rfl⟩
            · cases h with | bin hd => exact ⟨n, ⟨hd, hn⟩, rfl⟩
            · cases h with | oct hd => exact ⟨n, ⟨hd, hn⟩, rfl⟩
            · cases h with | hex hd => exact ⟨n, ⟨hd, hn⟩, rfl⟩
    | none =>
      have hinv : ¬ ∃ m, PrefixedInt ('0' :: c :: cs) m ∧ n = wrapI64 m := by
        rintro ⟨m, h, -⟩
        cases h <;> revert hr <;> simp [radixOf]
      simp only [hinv, and_false, iff_false]
      split
      · simp [Res.bind_eq_ok]
      split
      · simp [Res.bind_eq_ok]
      split
      · exact continueParsingDateTime_ne.1 _
      split
      · simp
      split <;> simp

theorem isDigit19_iff (c : Char) : isDigit19 c = true ↔ digitOf c < 10 ∧ c ≠ '0' := by
  rw [← isDigit_iff_digitOf, isDigit_iff]
  unfold isDigit19
  simp only [Bool.and_eq_true, decide_eq_true_eq, le_char_iff, Char.reduceToNat]
  constructor
  · intro h
    refine ⟨by omega, ?_⟩
    rintro rfl
    simp at h
  · rintro ⟨h, h0⟩
    have : c.toNat ≠ 48 := fun h' => h0 (Char.toNat_inj.mp (by simpa using h'))
    omega

theorem numeral_cons {b : Nat} (hb : b ≤ 16) {c : Char} (hc : digitOf c < b) (s : Str) :
    numeral b (c :: s) = valFrom b (digitOf c) s := by
  rw [numeral_eq, valFrom_cons, if_neg (ne_under hb hc), Nat.zero_mul, Nat.zero_add]

/-- The decimal branch yields exactly the integer written. -/
theorem parseDecimal_int {ovf : Bool} {i : Nat} {cs : Str} {lit : Str} {span : Span}
    {sg : Option Sign} {c : Char} (hc : isDigit19 c = true) {n : Int} :
    parseDecimalIntFloatOrDate ovf ⟨i, cs⟩ lit span (digitVal c) sg = .ok (.int n) ↔
      UnsignedDec (c :: cs) ∧ n = factor sg * numeral 10 (c :: cs) ∧ InRange n := by
  have hc' := (isDigit19_iff c).1 hc
  unfold parseDecimalIntFloatOrDate
  have hr : InRange (factor sg * (digitVal c : Int)) := by
    have := digitVal_lt ((isDigit_iff_digitOf c).2 hc'.1)
    unfold InRange
    rcases factor_cases sg with h | h <;> rw [h] <;> omega
  have e : (digitVal c : Int) * sg.elim 1 Sign.val = factor sg * (digitVal c : Int) := by
    unfold factor; rw [Int.mul_comm]
  rw [e, decimalLoop_int hr]
  unfold UnsignedDec
  rw [digits_cons (by omega), numeral_cons (by omega) hc'.1,
    digitOf_of_isDigit ((isDigit_iff_digitOf c).2 hc'.1)]
  have hd10 : digitVal c < 10 := digitVal_lt ((isDigit_iff_digitOf c).2 hc'.1)
  constructor
  · rintro ⟨h1, h2⟩
    exact ⟨⟨⟨hd10, h1⟩, .inr (by simpa using hc'.2)⟩, h2⟩
  · rintro ⟨⟨⟨-, h1⟩, -⟩, h2⟩
    exact ⟨h1, h2⟩

theorem unsignedDec_cons (c : Char) (cs : Str) :
    UnsignedDec (c :: cs) ↔
      (c = '0' ∧ cs = []) ∨ (isDigit19 c = true ∧ UTail 10 false cs) := by
  unfold UnsignedDec
  rw [digits_cons (by omega), isDigit19_iff]
  constructor
  · rintro ⟨⟨h1, h2⟩, h | h⟩
    · simp only [List.cons.injEq] at h
      exact .inl h
    · exact .inr ⟨⟨h1, by simpa using h⟩, h2⟩
  · rintro (⟨rfl, rfl⟩ | ⟨⟨h1, h0⟩, h2⟩)
    · exact ⟨⟨by decide, .nil⟩, .inl rfl⟩
    · exact ⟨⟨h1, h2⟩, .inr (by simpa using h0)⟩

theorem unsignedDec_ne_nil : ¬ UnsignedDec [] := by
  rintro ⟨h, -⟩; cases h

/-- `DecInt` by cases on the first character. -/
theorem decInt_cons (c : Char) (cs : Str) (n : Int) :
    DecInt (c :: cs) n ↔
      (c = '+' ∧ UnsignedDec cs ∧ n = numeral 10 cs) ∨
      (c = '-' ∧ UnsignedDec cs ∧ n = -(numeral 10 cs : Int)) ∨
      (UnsignedDec (c :: cs) ∧ n = numeral 10 (c :: cs)) := by
  unfold DecInt
  constructor
  · rintro ⟨sign, f, body, h, hs, hu, rfl⟩
    cases hs with
    | none =>
      simp only [List.nil_append] at h; subst h
      exact .inr (.inr ⟨hu, by simp⟩)
    | plus =>
      simp only [List.cons_append, List.nil_append, List.cons.injEq] at h
      obtain ⟨rfl, rfl⟩ := h
      exact .inl ⟨rfl, hu, by simp⟩
    | minus =>
      simp only [List.cons_append, List.nil_append, List.cons.injEq] at h
      obtain ⟨rfl, rfl⟩ := h
      exact .inr (.inl ⟨rfl, hu, by omega⟩)
  · rintro (⟨rfl, hu, rfl⟩ | ⟨rfl, hu, rfl⟩ | ⟨hu, rfl⟩)
    · exact ⟨_, _, cs, rfl, .plus, hu, by simp⟩
    · exact ⟨_, _, cs, rfl, .minus, hu, by omega⟩
    · exact ⟨_, _, c :: cs, rfl, .none, hu, by simp⟩

theorem inRange_zero : InRange 0 := by unfold InRange; omega

/-- Signed literals: exactly the signed decimal integers in range. -/
theorem parseSigned_int {ovf : Bool} {lit : Str} {span : Span} {c : Char} {sign : Sign} {i : Nat}
    {cs : Str} {n : Int} :
    parseSigned ovf lit span c sign ⟨i, cs⟩ = .ok (.int n) ↔
      UnsignedDec cs ∧ n = sign.val * numeral 10 cs ∧ InRange n := by
  unfold parseSigned
  rcases cs with _ | ⟨d, ds⟩
  · simp [unsignedDec_ne_nil]
  dsimp only
  by_cases h0 : d = '0'
  · subst h0
    rw [if_pos rfl, parsePrefixed_int, unsignedDec_cons]
    simp only [Cur.adv, reduceCtorEq, false_and, or_false, true_and]
    have : isDigit19 '0' = false := by decide
    simp only [this, Bool.false_eq_true, false_and, or_false]
    constructor
    · rintro ⟨rfl, rfl⟩
      refine ⟨rfl, ?_, inRange_zero⟩
      rw [show numeral 10 ['0'] = 0 by decide]; simp
    · rintro ⟨rfl, rfl, -⟩
      refine ⟨rfl, ?_⟩
      rw [show numeral 10 ['0'] = 0 by decide]; simp
  · rw [if_neg h0]
    by_cases h19 : isDigit19 d = true
    · rw [if_pos h19]
      unfold Cur.adv
      rw [parseDecimal_int h19]
      rfl
    · rw [if_neg h19]
      have hu : ¬ UnsignedDec (d :: ds) := by
        rw [unsignedDec_cons]
        rintro (⟨h, -⟩ | ⟨h, -⟩)
        · exact h0 h
        · exact h19 h
      simp only [hu, false_and, iff_false]
      split
      · simp [Res.bind_eq_ok]
      split
      · simp [Res.bind_eq_ok]
      split <;> simp

/-- **Integers**: the literal parser yields an integer exactly for the decimal integers in range
(with their value) and for the prefixed integers (with their value modulo 2^64). -/
theorem parseLiteral_int {ovf : Bool} {lit : Str} {span : Span} {n : Int} :
    parseLiteral ovf lit span = .ok (.int n) ↔
      (DecInt lit n ∧ InRange n) ∨ ∃ m, PrefixedInt lit m ∧ n = wrapI64 m := by
  unfold parseLiteral
  rcases lit with _ | ⟨c, cs⟩
  · simp only [reduceCtorEq, false_iff]
    rintro (⟨⟨sign, f, body, h, hs, hu, -⟩, -⟩ | ⟨m, h, -⟩)
    · simp only [List.nil_eq, List.append_eq_nil_iff] at h
      obtain ⟨rfl, rfl⟩ := h
      exact unsignedDec_ne_nil hu
    · cases h
  dsimp only
  rw [decInt_cons]
  by_cases hp : c = '+'
  · subst hp
    rw [if_pos rfl]
    unfold Cur.adv
    rw [parseSigned_int]
    have h1 : ¬ UnsignedDec ('+' :: cs) := by
      rw [unsignedDec_cons]; simp [isDigit19]
    have h2 : ¬ ∃ m, PrefixedInt ('+' :: cs) m ∧ n = wrapI64 m := by
      rintro ⟨m, h, -⟩; cases h
    simp [h1, h2, Sign.val, and_assoc]
  rw [if_neg hp]
  by_cases hm : c = '-'
  · subst hm
    rw [if_pos rfl]
    unfold Cur.adv
    rw [parseSigned_int]
    have h1 : ¬ UnsignedDec ('-' :: cs) := by
      rw [unsignedDec_cons]; simp [isDigit19]
    have h2 : ¬ ∃ m, PrefixedInt ('-' :: cs) m ∧ n = wrapI64 m := by
      rintro ⟨m, h, -⟩; cases h
    have e : Sign.negative.val * (numeral 10 cs : Int) = -(numeral 10 cs : Int) := by
      simp [Sign.val]
    rw [e]
    simp [h1, h2, and_assoc]
  rw [if_neg hm]
  simp only [hp, hm, false_and, false_or]
  by_cases h0 : c = '0'
  · subst h0
    rw [if_pos rfl, parsePrefixed_int, unsignedDec_cons]
    have h19 : isDigit19 '0' = false := by decide
    simp only [Cur.adv, true_and, h19, Bool.false_eq_true, false_and, or_false]
    constructor
    · rintro (⟨rfl, rfl⟩ | h)
      · exact .inl ⟨⟨rfl, by decide⟩, inRange_zero⟩
      · exact .inr h
    · rintro (⟨⟨rfl, rfl⟩, -⟩ | h)
      · exact .inl ⟨rfl, by decide⟩
      · exact .inr h
  rw [if_neg h0]
  have h2 : ¬ ∃ m, PrefixedInt (c :: cs) m ∧ n = wrapI64 m := by
    rintro ⟨m, h, -⟩; cases h <;> exact h0 rfl
  simp only [h2, or_false]
  by_cases h19 : isDigit19 c = true
  · rw [if_pos h19]
    unfold Cur.adv
    rw [parseDecimal_int h19]
    simp [factor, and_assoc]
  rw [if_neg h19]
  have hu : ¬ UnsignedDec (c :: cs) := by
    rw [unsignedDec_cons]
    rintro (⟨h, -⟩ | ⟨h, -⟩)
    · exact h0 h
    · exact h19 h
  simp only [hu, false_and, iff_false]
  split
  · simp [Res.bind_eq_ok]
  split
  · simp [Res.bind_eq_ok]
  split
  · simp [Res.bind_eq_ok]
  split
  · simp [Res.bind_eq_ok]
  split <;> simp

end Verif.Toml
