import Verif.Toml.Lit
import Verif.Spec.TomlLit
import Verif.Common.Dec

/-!
# Integers: the literal parser and the grammar
-/

namespace Verif.Toml
open Verif Verif.Spec.Toml

theorem le_char_iff (a b : Char) : a ≤ b ↔ a.toNat ≤ b.toNat := Iff.rfl

theorem isDigit_iff_digitOf (c : Char) : isDigit c = true ↔ digitOf c < 10 := by
  rw [isDigit_iff]
  unfold digitOf
  simp only [le_char_iff, Char.reduceToNat]
  split
  · omega
  · split
    · omega
    · split <;> omega

theorem digitOf_of_isDigit {c : Char} (h : isDigit c = true) : digitOf c = digitVal c := by
  rw [isDigit_iff] at h
  unfold digitOf digitVal
  simp only [le_char_iff, Char.reduceToNat]
  rw [if_pos ⟨h.1, h.2⟩]

theorem digitOf_underscore : digitOf '_' = 16 := by decide

theorem ascii_utf8Size {c : Char} (h : c.toNat < 128) : c.utf8Size = 1 := by
  unfold Char.utf8Size
  have : c.val ≤ 0x7f := by
    rw [UInt32.le_iff_toNat_le]
    show c.toNat ≤ 127
    omega
  simp [this]

theorem digitOf_lt16_ascii {c : Char} (h : digitOf c < 16) : c.toNat < 128 := by
  unfold digitOf at h
  simp only [le_char_iff, Char.reduceToNat] at h
  split at h
  · omega
  · split at h
    · omega
    · split at h <;> omega

theorem hexDigitVal_eq (c : Char) :
    hexDigitVal c = if digitOf c < 16 then some (digitOf c) else none := by
  unfold hexDigitVal
  by_cases hd : isDigit c = true
  · have := (isDigit_iff_digitOf c).1 hd
    simp only [hd, if_true]
    rw [if_pos (by omega), digitOf_of_isDigit hd]
    rfl
  · have h10 : ¬ digitOf c < 10 := fun h => hd ((isDigit_iff_digitOf c).2 h)
    rw [if_neg hd]
    have hd' : ¬ ('0' ≤ c ∧ c ≤ '9') := by
      intro h
      apply hd
      simp only [le_char_iff, Char.reduceToNat] at h
      rw [isDigit_iff]; exact h
    unfold digitOf
    rw [if_neg hd']
    simp only [le_char_iff, Char.reduceToNat]
    by_cases ha : 97 ≤ c.toNat ∧ c.toNat ≤ 102
    · rw [if_pos ha, if_pos ha, if_pos (by omega)]
      congr 1; omega
    · rw [if_neg ha, if_neg ha]
      by_cases hA : 65 ≤ c.toNat ∧ c.toNat ≤ 70
      · rw [if_pos hA, if_pos hA, if_pos (by omega)]
        congr 1; omega
      · rw [if_neg hA, if_neg hA, if_neg (by omega)]

/-! ## Digit strings -/

/-- What may follow the first digit; the flag says whether the last character was `_`. -/
inductive UTail (b : Nat) : Bool → Str → Prop
  | nil : UTail b false []
  | digit {c : Char} {s : Str} {l : Bool} : digitOf c < b → UTail b false s → UTail b l (c :: s)
  | under {s : Str} : UTail b true s → UTail b false ('_' :: s)

theorem utail_nil {b : Nat} {l : Bool} : UTail b l [] ↔ l = false := by
  constructor
  · intro h; cases h; rfl
  · rintro rfl; exact .nil

theorem utail_cons {b : Nat} (hb : b ≤ 16) {l : Bool} {c : Char} {s : Str} :
    UTail b l (c :: s) ↔
      (digitOf c < b ∧ UTail b false s) ∨ (c = '_' ∧ l = false ∧ UTail b true s) := by
  constructor
  · intro h
    cases h with
    | digit h1 h2 => exact .inl ⟨h1, h2⟩
    | under h => exact .inr ⟨rfl, rfl, h⟩
  · rintro (⟨h1, h2⟩ | ⟨rfl, rfl, h⟩)
    · exact .digit h1 h2
    · exact .under h

theorem digits_of_utail {b : Nat} (hb : b ≤ 16) {s : Str} {l : Bool} (h : UTail b l s) :
    (∀ c, digitOf c < b → l = false → Digits b (c :: s)) ∧ (l = true → Digits b s) := by
  induction h with
  | nil => exact ⟨fun c hc _ => .one hc, by simp⟩
  | @digit c s l hc _ ih =>
    exact ⟨fun d hd _ => .digit hd (ih.1 c hc rfl), fun _ => ih.1 c hc rfl⟩
  | under _ ih => exact ⟨fun d hd _ => .under hd (ih.2 rfl), by simp⟩

theorem utail_of_digits {b : Nat} {s : Str} (h : Digits b s) :
    (∀ l, UTail b l s) := by
  induction h with
  | one hc => exact fun l => .digit hc .nil
  | digit hc _ ih => exact fun l => .digit hc (ih false)
  | under hc _ ih => exact fun l => .digit hc (.under (ih true))

theorem digits_cons {b : Nat} (hb : b ≤ 16) {c : Char} {s : Str} :
    Digits b (c :: s) ↔ digitOf c < b ∧ UTail b false s := by
  constructor
  · intro h
    cases h with
    | one hc => exact ⟨hc, .nil⟩
    | digit hc h => exact ⟨hc, utail_of_digits h _⟩
    | under hc h => exact ⟨hc, .under (utail_of_digits h _)⟩
  · rintro ⟨hc, h⟩
    exact (digits_of_utail hb h).1 c hc rfl

theorem utail_true {b : Nat} (hb : b ≤ 16) {s : Str} : UTail b true s ↔ Digits b s :=
  ⟨fun h => (digits_of_utail hb h).2 rfl, fun h => utail_of_digits h _⟩

/-- The number written by `s` behind digits that write `a`. -/
def valFrom (b a : Nat) (s : Str) : Nat :=
  s.foldl (fun n c => if c = '_' then n else n * b + digitOf c) a

theorem numeral_eq (b : Nat) (s : Str) : numeral b s = valFrom b 0 s := rfl

@[simp] theorem valFrom_nil (b a : Nat) : valFrom b a [] = a := rfl

theorem valFrom_cons (b a : Nat) (c : Char) (s : Str) :
    valFrom b a (c :: s) = if c = '_' then valFrom b a s else valFrom b (a * b + digitOf c) s := by
  unfold valFrom
  simp only [List.foldl_cons]
  split <;> rfl

theorem ne_under {b : Nat} (hb : b ≤ 16) {c : Char} (h : digitOf c < b) : c ≠ '_' := by
  rintro rfl
  rw [digitOf_underscore] at h
  omega

theorem le_valFrom {b : Nat} (hb : 1 ≤ b) (a : Nat) (s : Str) : a ≤ valFrom b a s := by
  induction s generalizing a with
  | nil => simp
  | cons c s ih =>
    rw [valFrom_cons]
    split
    · exact ih a
    · refine Nat.le_trans ?_ (ih _)
      have := Nat.mul_le_mul_left a hb
      omega

/-! ## Decimal integers -/

theorem inI64_iff (x : Int) : inI64 x = true ↔ InRange x := by
  unfold inI64 InRange
  simp only [Bool.and_eq_true, decide_eq_true_eq]
  omega

theorem InRange.mono {f : Int} (hf : f = 1 ∨ f = -1) {a b : Nat} (hab : a ≤ b)
    (h : InRange (f * (b : Int))) : InRange (f * (a : Int)) := by
  unfold InRange at *
  rcases hf with rfl | rfl <;> omega

theorem pushDigit_eq {f : Int} (hf : f = 1 ∨ f = -1) (a d : Nat) :
    pushDigit (f * (a : Int)) f d =
      if inI64 (f * ((a * 10 + d : Nat) : Int)) then some (f * ((a * 10 + d : Nat) : Int)) else none := by
  unfold pushDigit
  have e : f * (a : Int) * 10 + f * (d : Int) = f * ((a * 10 + d : Nat) : Int) := by
    push_cast
    rw [Int.mul_add, Int.mul_assoc]
  rw [e]
  have e1 : f * (a : Int) * 10 = f * ((a * 10 : Nat) : Int) := by
    push_cast; rw [Int.mul_assoc]
  by_cases h : inI64 (f * ((a * 10 + d : Nat) : Int)) = true
  · have h1 : inI64 (f * (a : Int) * 10) = true := by
      rw [e1, inI64_iff]
      rw [inI64_iff] at h
      exact InRange.mono hf (by omega) h
    simp only [h1, h, if_true]
  · simp only [if_neg h]
    split <;> rfl

/-- The sign's factor. -/
def factor (s : Option Sign) : Int := s.elim 1 Sign.val

theorem factor_cases (s : Option Sign) : factor s = 1 ∨ factor s = -1 := by
  rcases s with _ | s
  · exact .inl rfl
  · cases s
    · exact .inl rfl
    · exact .inr rfl

theorem consec_ne_ok {α : Type} (s : Str) (p : Pos) (v : α) :
    consecutiveUnderscoreError s p ≠ Res.ok v := by
  simp [consecutiveUnderscoreError]

/-- The continuation of a date never yields a number. -/
theorem orInvalid_afterYear_ne {cur : Cur} {span : Span} {y : Nat} :
    (∀ n, orInvalidDateTime (continueParsingDateTimeAfterYear cur span y) ≠ .ok (.int n)) ∧
    (∀ n, orInvalidDateTime (continueParsingDateTimeAfterYear cur span y) ≠ .ok (.float n)) ∧
    (∀ n, orInvalidDateTime (continueParsingDateTimeAfterYear cur span y) ≠ .ok (.bool n)) := by
  have key : ∀ v, continueParsingDateTimeAfterYear cur span y = .ok v →
      (∃ d, v = .dateTime d) ∨ (∃ d, v = .partialDate d) := by
    intro v h
    unfold continueParsingDateTimeAfterYear at h
    simp only [Res.bind_eq_ok] at h
    obtain ⟨⟨m, c1⟩, -, c2, -, ⟨d, c3⟩, -, h⟩ := h
    rcases c3 with ⟨i, _ | ⟨c, cs⟩⟩
    · simp only [Res.pure_eq, Res.ok.injEq] at h
      exact .inr ⟨_, h.symm⟩
    · dsimp only at h
      split at h
      · simp only [Res.bind_eq_ok] at h
        obtain ⟨⟨⟨t, o⟩, c4⟩, -, h⟩ := h
        simp only [Res.pure_eq, Res.ok.injEq] at h
        exact .inl ⟨_, h.symm⟩
      · split at h <;> simp at h
  refine ⟨?_, ?_, ?_⟩ <;>
  · intro n h
    cases hx : continueParsingDateTimeAfterYear cur span y with
    | ok v =>
      rw [hx] at h
      simp only [orInvalidDateTime, Res.ok.injEq] at h
      rcases key v hx with ⟨d, rfl⟩ | ⟨d, rfl⟩ <;> cases h
    | err e => rw [hx] at h; simp [orInvalidDateTime] at h
    | panic => rw [hx] at h; simp [orInvalidDateTime] at h

theorem decimalLoop_over_ne_int {ovf : Bool} {lit : Str} {span : Span} {sg : Option Sign}
    {rest : Str} : ∀ {i : Nat} {accum : Int} {last : Bool} {n : Int},
    decimalLoop ovf lit span sg i rest accum true last ≠ .ok (.int n) := by
  induction rest with
  | nil =>
    intro i accum last n h
    unfold decimalLoop at h
    split at h
    · simp [Res.bind_eq_ok] at h
    · simp at h
  | cons c cs ih =>
    intro i accum last n h
    unfold decimalLoop at h
    simp only [if_true] at h
    split at h
    · exact ih h
    split at h
    · split at h <;> simp [Res.bind_eq_ok] at h
    split at h
    · split at h <;> simp [Res.bind_eq_ok] at h
    split at h
    · simp [Res.bind_eq_ok] at h
    split at h
    · exact orInvalid_afterYear_ne.1 _ h
    split at h
    · simp at h
    split at h
    · split at h
      · simp at h
      · split at h <;> simp at h
    split at h
    · split at h
      · exact consec_ne_ok _ _ _ h
      · exact ih h
    · simp at h

/-- The decimal loop yields exactly the integer that is written, if it is in range. -/
theorem decimalLoop_int {ovf : Bool} {lit : Str} {span : Span} {sg : Option Sign}
    {rest : Str} : ∀ {i : Nat} {a : Nat} {last : Bool} {n : Int}, InRange (factor sg * (a : Int)) →
    (decimalLoop ovf lit span sg i rest (factor sg * (a : Int)) false last = .ok (.int n) ↔
      UTail 10 last rest ∧ n = factor sg * (valFrom 10 a rest : Int) ∧ InRange n) := by
  induction rest with
  | nil =>
    intro i a last n ha
    unfold decimalLoop
    rw [utail_nil]
    cases last
    · simp only [Bool.false_eq_true, if_false, Res.pure_eq, Res.ok.injEq,
        PartialValue.int.injEq, valFrom_nil, true_and]
      constructor
      · rintro rfl; exact ⟨rfl, ha⟩
      · rintro ⟨rfl, -⟩; rfl
    · simp only [if_true, Res.bind_eq_ok]
      simp
  | cons c cs ih =>
    intro i a last n ha
    rw [utail_cons (by omega)]
    unfold decimalLoop
    simp only [Bool.false_eq_true, if_false]
    by_cases hd : isDigit c = true
    · have hd10 := (isDigit_iff_digitOf c).1 hd
      have hu : c ≠ '_' := ne_under (by omega) hd10
      rw [if_pos hd]
      have e := pushDigit_eq (factor_cases sg) a (digitVal c)
      unfold factor at e
      rw [valFrom_cons, if_neg hu, digitOf_of_isDigit hd]
      simp only [hu, false_and, or_false]
      have hd10' : digitVal c < 10 := by rw [← digitOf_of_isDigit hd]; exact hd10
      by_cases hr : inI64 (factor sg * ((a * 10 + digitVal c : Nat) : Int)) = true
      · have hr' := hr
        unfold factor at hr'
        rw [if_pos hr'] at e
        unfold factor
        simp only [e]
        have := @ih (i + c.utf8Size) (a * 10 + digitVal c) false n ((inI64_iff _).1 hr)
        unfold factor at this
        rw [this]
        constructor
        · rintro ⟨h1, h2⟩; exact ⟨⟨hd10', h1⟩, h2⟩
        · rintro ⟨⟨-, h1⟩, h2⟩; exact ⟨h1, h2⟩
      · have hr' := hr
        unfold factor at hr'
        rw [if_neg hr'] at e
        unfold factor
        simp only [e]
        constructor
        · intro h; exact absurd h decimalLoop_over_ne_int
        · rintro ⟨-, rfl, h⟩
          exfalso
          apply hr
          rw [inI64_iff]
          exact InRange.mono (factor_cases sg) (le_valFrom (by omega) _ _) h
    · have hd10 : ¬ digitOf c < 10 := fun h => hd ((isDigit_iff_digitOf c).2 h)
      rw [if_neg hd]
      simp only [hd10, false_and, false_or]
      by_cases h1 : c = '.'
      · subst h1
        simp only [if_true]
        simp only [show ¬ ('.' = '_') by decide, false_and, iff_false]
        split <;> simp [Res.bind_eq_ok]
      rw [if_neg h1]
      by_cases h2 : c = 'e' ∨ c = 'E'
      · rw [if_pos h2]
        have : c ≠ '_' := by rintro rfl; revert h2; decide
        simp only [this, false_and, iff_false]
        split <;> simp [Res.bind_eq_ok]
      rw [if_neg h2]
      by_cases h3 : c = ':' ∧ sg = none ∧ i = 2
      · rw [if_pos h3]
        have : c ≠ '_' := by rintro rfl; revert h3; simp
        simp [this, Res.bind_eq_ok]
      rw [if_neg h3]
      by_cases h4 : c = '-' ∧ sg = none ∧ i = 4
      · rw [if_pos h4]
        have : c ≠ '_' := by rintro rfl; revert h4; simp
        simp only [this, false_and, iff_false]
        exact orInvalid_afterYear_ne.1 _
      rw [if_neg h4]
      by_cases h5 : c = ':' ∧ sg = none ∧ i ≤ 3
      · rw [if_pos h5]
        have : c ≠ '_' := by rintro rfl; revert h5; simp
        simp [this]
      rw [if_neg h5]
      by_cases h6 : c = '-' ∧ sg = none ∧ i ≤ 6
      · rw [if_pos h6]
        have : c ≠ '_' := by rintro rfl; revert h6; simp
        simp only [this, false_and, iff_false]
        split
        · simp
        · split <;> simp
      rw [if_neg h6]
      by_cases h7 : c = '_'
      · subst h7
        simp only [if_true, true_and]
        cases last
        · simp only [Bool.false_eq_true, if_false, true_and]
          rw [ih ha, valFrom_cons, if_pos rfl]
        · simp only [if_true, Bool.true_eq_false, false_and, iff_false]
          exact consec_ne_ok _ _ _
      · rw [if_neg h7]
        simp [h7]

end Verif.Toml
