import Verif.Toml.LitTruthNum

/-!
# The diagnostics about literals are right
-/

namespace Verif.Toml
open Verif Verif.Spec.Toml

variable {lit : Str} {p : Pos}

/-- Right, or about an integer that is too large (which is treated separately). -/
def RightO (lit : Str) (p : Pos) (e : Error) : Prop := Right lit p e ∨ ∃ s, e = .intLiteralOverflow s

theorem Safe.o {α : Type} {r : Res Error α} (h : Safe (Right lit p) r) : Safe (RightO lit p) r :=
  h.mono fun _ h => .inl h

/-- The text of the sign. -/
def signStr : Option Sign → Str
  | none => []
  | some .positive => ['+']
  | some .negative => ['-']

theorem signStr_opt (sg : Option Sign) : OptSign (signStr sg) := by
  rcases sg with _ | _ | _ <;> simp [signStr, OptSign]

/-- The prefixes of decimal numbers. -/
def DecShape (sg : Option Sign) (a : Str) : Prop :=
  ∃ d ds, a = signStr sg ++ d :: ds ∧ Dig d ∧ DigsU ds

theorem DecShape.part {sg : Option Sign} {a : Str} (h : DecShape sg a) : IntPart a := by
  obtain ⟨d, ds, rfl, h1, h2⟩ := h
  exact ⟨_, d, ds, rfl, signStr_opt sg, h1, h2⟩

theorem DecShape.snoc {sg : Option Sign} {a : Str} {c : Char} (h : DecShape sg a)
    (hc : Dig c ∨ c = '_') : DecShape sg (a ++ [c]) := by
  obtain ⟨d, ds, rfl, h1, h2⟩ := h
  exact ⟨d, ds ++ [c], by simp, h1, digsU_snoc h2 hc⟩

theorem DecShape.digs {a : Str} (h : DecShape none a) : DigsU a := by
  obtain ⟨d, ds, rfl, h1, h2⟩ := h
  intro c hc
  rcases List.mem_cons.1 hc with rfl | hc
  · exact .inl h1
  · exact h2 c hc

theorem DecShape.ne {sg : Option Sign} {a : Str} (h : DecShape sg a) : a ≠ [] := by
  obtain ⟨d, ds, rfl, h1, h2⟩ := h; simp

theorem digU_utf8 {c : Char} (h : Dig c ∨ c = '_') : c.utf8Size = 1 := by
  rcases h with h | rfl
  · exact isDigit_utf8Size h
  · decide

theorem DecShape.blen {a : Str} (h : DecShape none a) : blen a = a.length :=
  blen_ascii fun c hc => digU_utf8 (h.digs c hc)

theorem numeral_snoc {a : Str} {c : Char} (hc : Dig c) :
    numeral 10 (a ++ [c]) = numeral 10 a * 10 + digitVal c := by
  have n := dig_ne_under hc
  simp [numeral, List.foldl_append, n, digitOf_of_isDigit hc]

theorem numeral_under (a : Str) : numeral 10 (a ++ ['_']) = numeral 10 a := by
  simp [numeral, List.foldl_append]

theorem numeral_lt {a : Str} (h : DigsU a) : numeral 10 a < 10 ^ a.length := by
  suffices ∀ n : Nat, ∀ a : Str, a.length = n → DigsU a → numeral 10 a < 10 ^ n from this _ a rfl h
  intro n
  induction n with
  | zero => intro a ha _; rw [List.length_eq_zero_iff.1 ha]; simp [numeral]
  | succ n ih =>
    intro a ha hd
    obtain ⟨b, c, rfl⟩ : ∃ b c, a = b ++ [c] := ⟨a.dropLast, a.getLast (by rintro rfl; simp at ha), (List.dropLast_concat_getLast _).symm⟩
    have hb := ih b (by simpa using ha) (fun x hx => hd x (by simp [hx]))
    rw [Nat.pow_succ]
    rcases hd c (by simp) with hc | rfl
    · have := digitVal_lt hc
      rw [numeral_snoc hc]; omega
    · rw [numeral_under]; omega

/-- The accumulator of an unsigned number of up to four characters. -/
def AccOk (sg : Option Sign) (a : Str) (acc : Int) (over : Bool) : Prop :=
  sg = none → a.length ≤ 4 → over = false ∧ acc = numeral 10 a

theorem AccOk.digit {sg : Option Sign} {a : Str} {acc : Int} {over : Bool} {c : Char}
    (hs : DecShape sg a) (h : AccOk sg a acc over) (hc : Dig c) :
    (over = true → AccOk sg (a ++ [c]) acc true) ∧
    (∀ v, over = false → pushDigit acc (sg.elim 1 Sign.val) (digitVal c) = some v →
      AccOk sg (a ++ [c]) v false) ∧
    (over = false → pushDigit acc (sg.elim 1 Sign.val) (digitVal c) = none →
      AccOk sg (a ++ [c]) acc true) := by
  refine ⟨fun ho hn hl => ?_, fun v ho hv hn hl => ?_, fun ho hv hn hl => ?_⟩
  · have := (h hn (by simp at hl; omega)).1
    rw [ho] at this; cases this
  · obtain ⟨-, e⟩ := h hn (by simp at hl; omega)
    subst hn
    rw [pushDigit] at hv
    split at hv
    · split at hv
      · injection hv with hv
        subst hv
        refine ⟨rfl, ?_⟩
        rw [numeral_snoc hc, e]
        simp
      · cases hv
    · cases hv
  · exfalso
    obtain ⟨-, e⟩ := h hn (by simp at hl; omega)
    subst hn
    have hlt := numeral_lt hs.digs
    have h4 : (10 : Nat) ^ a.length ≤ 10 ^ 4 := Nat.pow_le_pow_right (by omega) (by simp at hl; omega)
    have hd := digitVal_lt hc
    have e1 : inI64 (acc * 10) = true := by
      rw [e]; unfold inI64; simp only [Bool.and_eq_true, decide_eq_true_eq]; omega
    have e2 : inI64 (acc * 10 + (none : Option Sign).elim 1 Sign.val * (digitVal c : Int)) = true := by
      show inI64 (acc * 10 + 1 * (digitVal c : Int)) = true
      rw [e]; unfold inI64; simp only [Bool.and_eq_true, decide_eq_true_eq]; omega
    rw [pushDigit, if_pos e1, if_pos e2] at hv
    cases hv

theorem decimal_right {ovf : Bool} {sg : Option Sign} : ∀ (s a : Str) (acc : Int) (over last : Bool),
    lit = a ++ s → Und (DecShape sg) a last → AccOk sg a acc over →
    SafeI (RightO lit p) (decimalLoop ovf lit (Span.fromPosLen p (blen lit)) sg (blen a) s acc over last) := by
  intro s
  induction s with
  | nil =>
    intro a acc over last hl hu hacc
    rw [List.append_nil] at hl
    unfold decimalLoop
    split
    · rename_i hlast
      obtain ⟨a', rfl, -, hS⟩ := hu.yes hlast
      rw [minus_right (a := a') (p := p) (by rw [behind_stop, hl])]
      exact SafeI.err (Safe.err (.inl ⟨a', [], hl, rfl, hS.part, rfl⟩))
    split
    · exact SafeI.err (Safe.err (.inr ⟨_, rfl⟩))
    · exact SafeI.pure (by simp)
  | cons c cs ih =>
    intro a acc over last hl hu hacc
    have hlen : blen a + c.utf8Size = blen (a ++ [c]) := by simp
    unfold decimalLoop
    dsimp only
    rw [hlen]
    split
    · rename_i hd
      have hu' : Und (DecShape sg) (a ++ [c]) false := Und.digit (hu.shape.snoc (.inl hd)) hd
      obtain ⟨a1, a2, a3⟩ := hacc.digit hu.shape hd
      split
      · rename_i ho
        exact ih _ _ _ _ (by simp [hl]) hu' (by rw [ho]; exact a1 ho)
      · rename_i ho
        have ho : over = false := by simpa using ho
        split
        · rename_i v hv
          exact ih _ _ _ _ (by simp [hl]) hu' (a2 v ho hv)
        · rename_i hv
          exact ih _ _ _ _ (by simp [hl]) hu' (a3 ho hv)
    rename_i hd
    split
    · rename_i hc
      subst hc
      split
      · rename_i hlast
        obtain ⟨a', rfl, -, hS⟩ := hu.yes hlast
        rw [minus_right (a := a') (p := p) (behind_plus _ _ rfl)]
        exact SafeI.err (Safe.err (.inl ⟨a', '.' :: cs, by simp [hl], rfl, hS.part, '.', cs, rfl, .inl rfl⟩))
      · refine SafeI.bind (Safe.o ?_) (by simp)
        unfold Cur.adv
        rw [hlen, show blen a + 1 = blen (a ++ ['.']) by simp [show '.'.utf8Size = 1 by decide]]
        exact fract_right hu.shape.part hl
    rename_i hdot
    split
    · rename_i hE
      split
      · rename_i hlast
        obtain ⟨a', rfl, -, hS⟩ := hu.yes hlast
        rw [minus_right (a := a') (p := p) (behind_plus _ _ rfl)]
        exact SafeI.err (Safe.err (.inl ⟨a', c :: cs, by simp [hl], rfl, hS.part, c, cs, rfl, .inr hE⟩))
      · refine SafeI.bind (Safe.o ?_) (by simp)
        unfold Cur.adv
        rw [hlen]
        exact exponent_right (.inl hu.shape.part) hE hl
    rename_i hE
    split
    · rename_i h3
      obtain ⟨rfl, rfl, hi⟩ := h3
      have hal := hu.shape.blen
      have hal2 : a.length = 2 := by omega
      obtain ⟨ho, he⟩ := hacc rfl (by omega)
      refine SafeI.bind (Safe.o ?_) (by simp)
      unfold Cur.adv
      rw [hlen]
      have hlt := numeral_lt hu.shape.digs
      rw [hal2] at hlt
      have htr : truncU 8 acc = numeral 10 a := by
        rw [he, truncU]; omega
      rw [htr]
      refine localTime_right hal2 hu.shape.digs ?_ (by simp [hl])
      obtain ⟨d, ds, hda, hdig, hds⟩ := hu.shape
      rw [show signStr none = [] from rfl, List.nil_append] at hda
      subst hda
      obtain ⟨x, rfl⟩ : ∃ x, ds = [x] := List.length_eq_one_iff.1 (by simpa using hal2)
      have hv := digitVal_lt hdig
      rcases hds x (by simp) with hx | rfl
      · right
        have hv2 := digitVal_lt hx
        rw [numeral_digit_two hdig hx]
        simp only [valFrom, List.foldl_nil]
        refine ⟨by omega, ?_⟩
        unfold two
        rw [show (10 * digitVal d + digitVal x) / 10 = digitVal d by omega,
          show (10 * digitVal d + digitVal x) % 10 = digitVal x by omega,
          digitChar_digitVal hdig, digitChar_digitVal hx]
      · left
        have e := numeral_under [d]
        have e2 := numeral_snoc (a := []) hdig
        simp only [List.nil_append, List.cons_append] at e e2
        rw [e, e2]
        simp [numeral]; omega
    split
    · rename_i h3
      obtain ⟨rfl, rfl, hi⟩ := h3
      have hal := hu.shape.blen
      have hal2 : a.length = 4 := by omega
      obtain ⟨ho, he⟩ := hacc rfl (by omega)
      have hlt := numeral_lt hu.shape.digs
      rw [hal2] at hlt
      have htr : truncU 16 acc = numeral 10 a := by
        rw [he, truncU]; omega
      rw [htr]
      unfold Cur.adv
      rw [hlen]
      exact SafeI.orInvalid (afterYear_right hal2 hu.shape.digs (by simp [hl])).o
        (fun _ => afterYear_ne_invalid)
    rename_i h2 h4
    split
    · rename_i h3
      obtain ⟨rfl, rfl, hi⟩ := h3
      have hal := hu.shape.blen
      have hnb : blen a ≠ 2 := fun h => h2 ⟨rfl, rfl, h⟩
      have hne := hu.shape.ne
      refine SafeI.err (Safe.err (.inl ⟨[], a, ':' :: cs, by simp [hl], .localHour,
        behind_plus _ _ rfl, hu.shape.digs, hne, ?_, .inr ⟨':', cs, rfl, by simp [sepAfter]⟩⟩))
      rw [if_neg (by simp)]
      simp only [true_and]
      have : a.length ≠ 0 := fun h => hne (List.length_eq_zero_iff.1 h)
      omega
    split
    · rename_i h3
      obtain ⟨rfl, rfl, hi⟩ := h3
      have hal := hu.shape.blen
      have hnb : blen a ≠ 4 := fun h => h4 ⟨rfl, rfl, h⟩
      split
      · refine SafeI.pure ?_
        intro e he
        simp only [PartialValue.invalidDateTime.injEq] at he
        subst he
        refine .inl ⟨[], a, '-' :: cs, by simp [hl], .year,
          behind_plus _ _ rfl, hu.shape.digs, hu.shape.ne, .inl ?_, .inr ⟨'-', cs, rfl, by simp [sepAfter]⟩⟩
        rw [if_pos rfl]; omega
      · rename_i h7
        have hlt : 4 < a.length := by omega
        have e4 : lit[4]? = some a[4] := by
          rw [hl, List.getElem?_append_left hlt, List.getElem?_eq_getElem hlt]
        rw [e4]
        refine SafeI.pure ?_
        intro e he
        simp only [PartialValue.invalidDateTime.injEq] at he
        subst he
        have hsplit : a = a.take 4 ++ a[4] :: a.drop 5 := by
          rw [← List.drop_eq_getElem_cons hlt, List.take_append_drop]
        have hdt : DigsU (a.take 4) := fun c hc => hu.shape.digs c (List.mem_of_mem_take hc)
        have hbl : blen (a.take 4) = 4 := by
          rw [blen_ascii fun c hc => digU_utf8 (hdt c hc)]; simp; omega
        refine .inl ⟨[], a.take 4, a.drop 5 ++ '-' :: cs, ?_, .year, behind_plus _ _ (by simpa using hbl.symm), hdt,
          by rw [if_pos rfl]; simp; omega, rfl, ?_⟩
        · have := congrArg (· ++ '-' :: cs) hsplit
          rw [hl]
          rw [List.append_assoc, List.cons_append] at this
          exact this
        · intro h
          have hm := hu.shape.digs a[4] (List.getElem_mem _)
          rw [h] at hm
          revert hm; unfold Dig; decide
    split
    · rename_i hc
      subst hc
      split
      · rename_i hlast
        rw [hlast] at hu
        exact SafeI.of (consec_right hu hl).o (fun e he => by cases he)
      · rename_i hlast
        have hlast : last = false := by simpa using hlast
        subst hlast
        refine ih _ _ _ _ (by simp [hl]) (hu.under (hu.shape.snoc (.inr rfl))) ?_
        intro hn hl4
        rw [numeral_under]
        exact hacc hn (by simp at hl4; omega)
    · rename_i hc
      refine SafeI.err (Safe.err (.inl ⟨a, cs, hl, behind_plus _ _ rfl, hd, .inr ⟨hu.shape.part, ?_⟩⟩))
      simp only [List.mem_cons, List.not_mem_nil, or_false, not_or]
      exact ⟨hdot, fun h => hE (.inl h), fun h => hE (.inr h), hc⟩

/-! ### Integers with a radix prefix -/

/-- The prefixes of integers with a radix. -/
def RadShape (r : IntPrefix) (a : Str) : Prop :=
  ∃ ds, a = '0' :: radixLetter r :: ds ∧ ∀ c ∈ ds, digitOf c < radix r ∨ c = '_'

theorem RadShape.snoc {r : IntPrefix} {a : Str} {c : Char} (h : RadShape r a)
    (hc : digitOf c < radix r ∨ c = '_') : RadShape r (a ++ [c]) := by
  obtain ⟨ds, rfl, hd⟩ := h
  refine ⟨ds ++ [c], by simp, ?_⟩
  intro x hx
  rcases List.mem_append.1 hx with hx | hx
  · exact hd x hx
  · rw [List.mem_singleton.1 hx]; exact hc

theorem radix_pow (r : IntPrefix) : 2 ^ r.bits = radix r := by cases r <;> rfl

theorem digit_alnum {c : Char} (h : digitOf c < 16) : Dig c ∨ c.isAlpha = true := by
  unfold digitOf at h
  split at h
  · rename_i hd
    left
    unfold Dig isDigit
    simp only [Bool.and_eq_true, decide_eq_true_eq]; exact hd
  right
  split at h
  · rename_i hd
    simp only [Char.isAlpha, Char.isLower, Bool.or_eq_true, Bool.and_eq_true, decide_eq_true_eq]
    right
    exact ⟨hd.1, Nat.le_trans hd.2 (by decide : 'f'.toNat ≤ 'z'.toNat)⟩
  split at h
  · rename_i hd
    simp only [Char.isAlpha, Char.isUpper, Bool.or_eq_true, decide_eq_true_eq]
    left
    exact ⟨hd.1, Nat.le_trans hd.2 (by decide : 'F'.toNat ≤ 'Z'.toNat)⟩
  · omega

theorem isAlpha_iff (c : Char) : c.isAlpha = true ↔
    (65 ≤ c.toNat ∧ c.toNat ≤ 90) ∨ (97 ≤ c.toNat ∧ c.toNat ≤ 122) := by
  simp only [Char.isAlpha, Char.isUpper, Char.isLower, Bool.or_eq_true, Bool.and_eq_true,
    decide_eq_true_eq]
  exact Iff.rfl

theorem bigHex_iff (c : Char) : isBigHexLetter c = true ↔
    (103 ≤ c.toNat ∧ c.toNat ≤ 122) ∨ (71 ≤ c.toNat ∧ c.toNat ≤ 90) := by
  simp only [isBigHexLetter, Bool.or_eq_true, Bool.and_eq_true, decide_eq_true_eq]
  exact Iff.rfl

theorem prefixed_right {ovf : Bool} {r : IntPrefix} : ∀ (s a : Str) (first last : Bool) (n : Nat),
    lit = a ++ s → Und (RadShape r) a last → (first = true ↔ a = ['0', radixLetter r]) →
    Safe (Right lit p) (prefixedIntLoop ovf (Span.fromPosLen p (blen lit)) r (blen a) s first
      (wrapI64 n) last) := by
  intro s
  induction s with
  | nil =>
    intro a first last n hl hu hf
    rw [List.append_nil] at hl
    unfold prefixedIntLoop
    split
    · rename_i h
      exact Safe.err ⟨r, by rw [hl]; exact hf.1 h, behind_stop⟩
    split
    · rename_i hlast
      obtain ⟨a', rfl, -, hS⟩ := hu.yes hlast
      rw [minus_right (a := a') (p := p) (by rw [behind_stop, hl])]
      exact Safe.err ⟨r, a', hl, hS, rfl⟩
    · exact Safe.ok _
  | cons c cs ih =>
    intro a first last n hl hu hf
    have hlen : blen a + c.utf8Size = blen (a ++ [c]) := by simp
    have hnot : ∀ x : Char, a ++ [x] ≠ ['0', radixLetter r] := by
      intro x h
      obtain ⟨ds, rfl, -⟩ := hu.shape
      have := congrArg List.length h
      simp at this
    unfold prefixedIntLoop
    have hx := hexDigitVal_eq c
    cases hxe : hexDigitVal c with
    | some d =>
      rw [hxe] at hx
      split at hx
      · rename_i h16
        injection hx with hx
        subst hx
        dsimp only
        split
        · rename_i hb
          rw [radix_pow] at hb
          exact Safe.err ⟨a, cs, hl, hu.shape, behind_plus _ _ rfl, digit_alnum h16, hb⟩
        · rename_i hb
          have h64 : ¬ 64 ≤ r.bits := by rcases bits_cases r with h | h | h <;> omega
          rw [if_neg h64]
          have hw := wrap_step (bits_cases r) n (digitOf c) (by omega)
          rw [addI64_ok hw.1, hw.2]
          have e : ((n : Int) * 2 ^ r.bits + (digitOf c : Int)) =
              ((n * 2 ^ r.bits + digitOf c : Nat) : Int) := by push_cast; rfl
          rw [e]
          dsimp only
          rw [hlen]
          rw [radix_pow] at hb
          have hu' : Und (RadShape r) (a ++ [c]) false := by
            refine ⟨hu.shape.snoc (.inl (by omega)), fun _ => ?_, by simp⟩
            simp only [List.getLast?_concat, ne_eq, Option.some.injEq]
            exact ne_under (b := 16) (by omega) h16
          exact ih _ _ _ _ (by simp [hl]) hu' (by simp [hnot c])
      · cases hx
    | none =>
      rw [hxe] at hx
      have h16 : ¬ digitOf c < 16 := by
        intro h; rw [if_pos h] at hx; cases hx
      have hnd : ¬ Dig c := by
        intro h
        have := (isDigit_iff_digitOf c).1 h
        omega
      dsimp only
      split
      · rename_i hb
        have := (bigHex_iff c).1 hb.1
        refine Safe.err ⟨a, cs, hl, hu.shape, behind_plus _ _ rfl, .inr ((isAlpha_iff c).2 (by omega)), ?_⟩
        have : radix r ≤ 16 := by cases r <;> decide
        omega
      rename_i hb
      split
      · rename_i hc
        subst hc
        split
        · rename_i h
          have ha := hf.1 h
          subst ha
          exact Safe.err ⟨r, cs, by simp [hl], behind_plus _ _ rfl⟩
        split
        · rename_i hlast
          rw [hlast] at hu
          exact consec_right hu hl
        · rename_i hlast
          have hlast : last = false := by simpa using hlast
          subst hlast
          rw [hlen]
          exact ih _ _ _ _ (by simp [hl]) (hu.under (hu.shape.snoc (.inr rfl))) (by simp [hnot '_'])
      · rename_i hc
        refine Safe.err ⟨a, cs, hl, behind_plus _ _ rfl, hnd, hu.shape, by omega, hc, ?_⟩
        rintro rfl
        cases ha : c.isAlpha with
        | false => rfl
        | true =>
          exfalso
          have h1 := (isAlpha_iff c).1 ha
          have h2 : ¬ ((103 ≤ c.toNat ∧ c.toNat ≤ 122) ∨ (71 ≤ c.toNat ∧ c.toNat ≤ 90)) := fun h =>
            hb ⟨(bigHex_iff c).2 h, rfl⟩
          apply h16
          unfold digitOf
          simp only [le_char_iff, Char.reduceToNat]
          split
          · omega
          split
          · omega
          split <;> omega

theorem radixOf_letter {c : Char} {r : IntPrefix} (h : radixOf c = some r) :
    c = radixLetter r ∨ c = (radixLetter r).toUpper := by
  unfold radixOf at h
  split at h
  · rename_i hc; cases h; rcases hc with rfl | rfl <;> decide
  split at h
  · rename_i hc; cases h; rcases hc with rfl | rfl <;> decide
  split at h
  · rename_i hc; cases h; rcases hc with rfl | rfl <;> decide
  · cases h

theorem radixOf_mem {c : Char} : (radixOf c).isSome = true ↔ c ∈ ['b', 'o', 'x', 'B', 'O', 'X'] := by
  unfold radixOf
  constructor
  · intro h
    split at h
    · rename_i hc; rcases hc with rfl | rfl <;> decide
    split at h
    · rename_i hc; rcases hc with rfl | rfl <;> decide
    split at h
    · rename_i hc; rcases hc with rfl | rfl <;> decide
    · cases h
  · intro h
    simp only [List.mem_cons, List.not_mem_nil, or_false] at h
    rcases h with rfl | rfl | rfl | rfl | rfl | rfl <;> decide

theorem parsePrefixed_right {ovf : Bool} {sg : Option Sign} {s : Str}
    (hl : lit = signStr sg ++ '0' :: s) :
    SafeI (RightO lit p) (parsePrefixedIntFloatOrDate ovf ⟨blen (signStr sg ++ ['0']), s⟩ lit
      (Span.fromPosLen p (blen lit)) sg) := by
  have h0 : Dig '0' := by unfold Dig; decide
  have hip : IntPart (signStr sg ++ ['0']) := ⟨_, '0', [], rfl, signStr_opt sg, h0, by
    intro _ h; cases h⟩
  have hsl : blen (signStr sg) = if sg.isSome then 1 else 0 := by
    rcases sg with _ | _ | _ <;> decide
  unfold parsePrefixedIntFloatOrDate
  rcases s with _ | ⟨c, cs⟩
  · exact SafeI.pure (by simp)
  dsimp only [Cur.adv]
  have hlen : blen (signStr sg ++ ['0']) + c.utf8Size = blen (signStr sg ++ ['0'] ++ [c]) := by simp; omega
  have hsome : sg.isSome = true → ∃ g, signStr sg = [g] ∧ (g = '+' ∨ g = '-') := by
    intro h
    rcases sg with _ | _ | _
    · cases h
    · exact ⟨'+', rfl, .inl rfl⟩
    · exact ⟨'-', rfl, .inr rfl⟩
  have hnone : ¬ sg.isSome = true → sg = none := by simp
  split
  · rename_i r hr
    split
    · rename_i hs
      obtain ⟨g, hg, hg'⟩ := hsome hs
      refine SafeI.err (Safe.err (.inl ⟨g, c, cs, by simp [hl, hg], hg', ?_, rfl⟩))
      rw [← radixOf_mem, hr]; rfl
    rename_i hs
    have hs := hnone hs
    subst hs
    split
    · rename_i hup
      refine SafeI.err (Safe.err (.inl ⟨cs, ?_, behind_plus _ _ rfl⟩))
      rw [hl]
      rcases radixOf_letter hr with h | h
      · exfalso
        subst h
        revert hup
        cases r <;> decide
      · rw [h]; rfl
    · rename_i hup
      have hc : c = radixLetter r := by
        rcases radixOf_letter hr with h | h
        · exact h
        · exfalso
          subst h
          apply hup
          cases r <;> decide
      subst hc
      refine SafeI.bind (Safe.o ?_) (by simp)
      unfold parsePrefixedIntLiteral
      rw [← wrapI64_zero]
      dsimp only
      rw [hlen]
      refine prefixed_right cs _ _ _ _ (by simp [hl]) ⟨⟨[], by simp [signStr], by simp⟩, fun _ => ?_, by simp⟩
        (by simp [signStr])
      cases r <;> decide
  · rename_i hr
    have hnr : c ∉ ['b', 'o', 'x', 'B', 'O', 'X'] := by
      intro h
      have := radixOf_mem.2 h
      rw [hr] at this; cases this
    split
    · rename_i hc
      subst hc
      refine SafeI.bind (Safe.o ?_) (by simp)
      rw [hlen, show blen (signStr sg ++ ['0']) + 1 = blen (signStr sg ++ ['0'] ++ ['.']) by
        rw [← hlen]; rfl]
      exact fract_right hip (by simp [hl])
    rename_i hdot
    split
    · rename_i hE
      refine SafeI.bind (Safe.o ?_) (by simp)
      rw [hlen]
      exact exponent_right (.inl hip) hE (by simp [hl])
    rename_i hE
    split
    · rename_i hd
      obtain ⟨hd, rfl⟩ := hd
      have e2 : blen (signStr none ++ ['0']) + c.utf8Size = 2 := by
        rw [isDigit_utf8Size hd]; decide
      rw [e2]
      exact SafeI.orInvalid (Safe.o (continueDate_right hd (by simp [hl, signStr])))
        (fun _ => continueDate_ne_invalid)
    rename_i hnd
    split
    · rename_i hd
      refine SafeI.err (Safe.err (.inl ⟨signStr sg, c, cs, hl, signStr_opt sg, ?_, hd⟩))
      exact behind_plus _ _ hsl.symm
    rename_i hd
    have hrest : ¬ Dig c ∧ c ∉ ['b', 'o', 'x', 'B', 'O', 'X', '.', 'e', 'E', '_'] := by
      refine ⟨fun h => hd (.inl h), ?_⟩
      simp only [List.mem_cons, List.not_mem_nil, or_false, not_or] at hnr ⊢
      exact ⟨hnr.1, hnr.2.1, hnr.2.2.1, hnr.2.2.2.1, hnr.2.2.2.2.1, hnr.2.2.2.2.2, hdot,
        fun h => hE (.inl h), fun h => hE (.inr h), fun h => hd (.inr h)⟩
    split
    · rename_i hs
      obtain ⟨g, hg, hg'⟩ := hsome hs
      refine SafeI.err (Safe.err (.inl ⟨g, cs, by simp [hl, hg], hg', ?_, hrest⟩))
      rw [hg]; exact behind_plus _ _ rfl
    · rename_i hs
      have hs := hnone hs
      subst hs
      exact SafeI.err (Safe.err (.inl ⟨cs, hl, behind_plus _ _ rfl, hrest⟩))

/-! ### Keywords -/

theorem lower_eq (c : Char) : toAsciiLower c = c.toLower := by
  unfold toAsciiLower Char.toLower
  by_cases h : 'A' ≤ c ∧ c ≤ 'Z'
  · have h' : c.val ≥ 'A'.val ∧ c.val ≤ 'Z'.val := h
    rw [if_pos h, dif_pos h']
    apply Char.ext
    apply UInt32.toNat_inj.1
    simp only [le_char_iff, Char.reduceToNat] at h
    have e : (Char.ofNat (c.toNat + 32)).val.toNat = c.toNat + 32 := by
      have : (c.toNat + 32).isValidChar := by left; omega
      rw [Char.ofNat, dif_pos this]
      rfl
    rw [e, UInt32.toNat_add]
    show c.toNat + 32 = (c.toNat + 32) % 2 ^ 32
    omega
  · have h' : ¬ (c.val ≥ 'A'.val ∧ c.val ≤ 'Z'.val) := h
    rw [if_neg h, dif_neg h']

theorem lower_upper {c : Char} (h : c.toLower ≠ c) : c.isUpper = true := by
  unfold Char.toLower at h
  split at h
  · rename_i hc
    unfold Char.isUpper
    exact decide_eq_true hc
  · exact absurd rfl h

theorem wordPart_snoc {a x : Str} {c : Char} (h : WordPart a x) : WordPart (a ++ [c]) (x ++ [c]) := by
  refine ⟨by simp, ?_⟩
  rcases h.2 with rfl | ⟨g, y, z, hg, rfl, rfl⟩
  · exact .inl rfl
  · exact .inr ⟨g, y, z ++ [c], hg, rfl, rfl⟩

theorem bareLoop_right {ex : Str} (hex : Keyword ex) : ∀ (s a x e : Str), lit = a ++ s →
    ex = x ++ e → WordPart a x →
    Safe (Right lit p) (bareLoop (Span.fromPosLen p (blen lit)) ex (blen a) s e) := by
  intro s
  induction s with
  | nil =>
    intro a x e hl he hw
    rw [List.append_nil] at hl
    cases e with
    | nil => exact Safe.ok _
    | cons e es =>
      unfold bareLoop
      exact Safe.err ⟨x, e :: es, hex, he, by simp, by rw [hl]; exact hw, behind_stop⟩
  | cons c cs ih =>
    intro a x e hl he hw
    cases e with
    | nil =>
      unfold bareLoop
      rw [List.append_nil] at he
      exact Safe.err ⟨a, hl, by simp, hex, by rw [he]; exact hw, by
        rw [behind_stop, behind_plus a _ rfl]⟩
    | cons e es =>
      unfold bareLoop
      split
      · rename_i hc
        subst hc
        have e1 : blen a + c.utf8Size = blen (a ++ [c]) := by simp
        rw [e1]
        exact ih _ (x ++ [c]) es (by simp [hl]) (by simp [he]) (wordPart_snoc hw)
      rename_i hc
      rw [lower_eq]
      split
      · rename_i hlow
        subst hlow
        exact Safe.err ⟨a, cs, x, es, hl, behind_plus _ _ rfl, hex, he,
          lower_upper (fun h => hc h.symm), .inr hw⟩
      · rename_i hlow
        exact Safe.err ⟨a, cs, x, e, es, hl, behind_plus _ _ rfl, hex, he, hlow, hw⟩

/-- A keyword without a sign. -/
theorem bare_right {ex x : Str} {c l : Char} {cs : Str} (hex : Keyword ex) (he : ex = l :: x)
    (hc : c = l ∨ c.toLower = l ∧ c.isUpper = true) (hl' : ¬ ('A' ≤ l ∧ l ≤ 'Z')) (hu : l.utf8Size = 1)
    (hl : lit = c :: cs) :
    Safe (Right lit p) (parseBareLiteral (Cur.adv 0 c cs) (Span.fromPosLen p (blen lit)) 0 c ex) := by
  unfold parseBareLiteral
  split
  · rename_i hup
    have hlow : c.toLower = l ∧ c.isUpper = true := by
      rcases hc with rfl | h
      · exact absurd hup hl'
      · exact h
    exact Safe.err ⟨[], cs, [], x, hl, rfl, hex, by simp [he, hlow.1], hlow.2, .inl ⟨rfl, rfl⟩⟩
  · rename_i hup
    have hcl : c = l := by
      rcases hc with h | ⟨-, h⟩
      · exact h
      · exact absurd (of_decide_eq_true h) hup
    subst hcl
    have := @bareLoop_right lit p ex hex cs [c] [c] x (by simp [hl]) (by simp [he]) ⟨by simp, .inl rfl⟩
    unfold Cur.adv
    simpa [he] using this

/-- A keyword with a sign. -/
theorem signed_bare_right {ex x : Str} {g c l : Char} {cs : Str} (hex : Keyword ex) (he : ex = l :: x)
    (hg : g = '+' ∨ g = '-') (hc : c.toLower = l) (hl : lit = g :: c :: cs) {i : Nat} (hi : i = blen [g]) :
    Safe (Right lit p) (parseBareLiteral (Cur.adv i c cs) (Span.fromPosLen p (blen lit)) i g ex) := by
  have hng : ¬ ('A' ≤ g ∧ g ≤ 'Z') := by rcases hg with rfl | rfl <;> decide
  unfold parseBareLiteral
  rw [if_neg hng]
  have := @bareLoop_right lit p ex hex cs [g, c] [l] x (by simp [hl]) (by simp [he])
    ⟨by simp, .inr ⟨g, c, [], hg, rfl, by rw [hc]⟩⟩
  unfold Cur.adv
  subst hi
  simpa [he, Nat.add_comm, Nat.add_left_comm] using this

theorem signStr_char {sign : Sign} {c : Char} (hs : signStr (some sign) = [c]) :
    c = (match (generalizing := false) sign with | .positive => '+' | .negative => '-') := by
  cases sign <;> simp [signStr] at hs <;> simp [← hs]

theorem signed_right {ovf : Bool} {cs : Str} {sign : Sign} {c : Char}
    (hs : signStr (some sign) = [c]) (hl : lit = c :: cs) :
    SafeI (RightO lit p) (parseSigned ovf lit (Span.fromPosLen p (blen lit)) c sign ⟨1, cs⟩) := by
  have hg : c = '+' ∨ c = '-' := by cases sign <;> simp [signStr] at hs <;> simp [← hs]
  have hsg := signStr_char hs
  have h1 : 1 = blen [c] := by rcases hg with rfl | rfl <;> decide
  unfold parseSigned
  rcases cs with _ | ⟨d, ds⟩
  · exact SafeI.err (Safe.err (.inl ⟨c, [], hl, hsg, by rw [behind_stop, hl], .inl rfl⟩))
  dsimp only
  split
  · rename_i hd
    subst hd
    have := @parsePrefixed_right lit p ovf (some sign) ds (by rw [hs, hl]; rfl)
    rw [hs] at this
    unfold Cur.adv
    rw [h1]
    simpa using this
  rename_i hd0
  split
  · rename_i hd
    have hdig : Dig d := by
      have := (isDigit19_iff d).1 hd
      exact (isDigit_iff_digitOf d).2 this.1
    unfold parseDecimalIntFloatOrDate Cur.adv
    have e : 1 + d.utf8Size = blen (signStr (some sign) ++ [d]) := by rw [hs]; simp [h1]
    dsimp only
    rw [e]
    refine decimal_right ds _ _ _ _ (by rw [hs, hl]; rfl) (Und.digit ⟨d, [], rfl, hdig, by
      intro _ h; cases h⟩ hdig) (fun h => by cases h)
  rename_i hd19
  have hnd : ¬ Dig d := by
    intro h
    exact hd19 ((isDigit19_iff d).2 ⟨(isDigit_iff_digitOf d).1 h, hd0⟩)
  split
  · rename_i hi
    refine SafeI.bind (f := fun _ => .float (.inf (sign = .negative))) (Safe.o ?_) (by simp)
    exact signed_bare_right (l := 'i') (x := ['n', 'f']) (by simp [Keyword]) rfl hg
      (by rcases hi with rfl | rfl <;> decide) hl h1
  rename_i hi
  split
  · rename_i hn
    refine SafeI.bind (f := fun _ => .float (.nan (sign = .negative))) (Safe.o ?_) (by simp)
    exact signed_bare_right (l := 'n') (x := ['a', 'n']) (by simp [Keyword]) rfl hg
      (by rcases hn with rfl | rfl <;> decide) hl h1
  rename_i hn
  split
  · rename_i hdot
    subst hdot
    exact SafeI.err (Safe.err (.inl ⟨c, '.' :: ds, hl, hsg, behind_plus _ _ h1, .inr rfl⟩))
  · rename_i hdot
    refine SafeI.err (Safe.err (.inl ⟨[c], ds, hl, behind_plus _ _ h1, hnd, .inl ⟨?_, ?_⟩⟩))
    · rcases hg with rfl | rfl <;> simp
    · simp only [List.mem_cons, List.not_mem_nil, or_false, not_or]
      exact ⟨hdot, fun h => hi (.inl h), fun h => hi (.inr h), fun h => hn (.inl h), fun h => hn (.inr h)⟩

theorem literal_right {ovf : Bool} (hlit : lit ≠ []) :
    SafeI (RightO lit p) (parseLiteral ovf lit (Span.fromPosLen p (blen lit))) := by
  obtain ⟨c, cs, hl⟩ : ∃ c cs, lit = c :: cs := by
    cases lit with
    | nil => exact absurd rfl hlit
    | cons c cs => exact ⟨c, cs, rfl⟩
  have key : parseLiteral ovf lit (Span.fromPosLen p (blen lit)) =
      parseLiteral ovf (c :: cs) (Span.fromPosLen p (blen lit)) := by rw [← hl]
  rw [key]
  unfold parseLiteral
  dsimp only
  rw [← hl]
  split
  · rename_i hc
    subst hc
    exact signed_right rfl hl
  rename_i hplus
  split
  · rename_i hc
    subst hc
    exact signed_right rfl hl
  rename_i hminus
  split
  · rename_i hc
    subst hc
    have := @parsePrefixed_right lit p ovf none cs (by simpa [signStr] using hl)
    exact this
  rename_i h0
  split
  · rename_i h19
    have hdig : Dig c := (isDigit_iff_digitOf c).2 ((isDigit19_iff c).1 h19).1
    unfold parseDecimalIntFloatOrDate Cur.adv
    have e : 0 + c.utf8Size = blen (signStr none ++ [c]) := by simp [signStr]
    dsimp only
    rw [e]
    refine decimal_right cs _ _ _ _ (by rw [hl]; rfl) (Und.digit ⟨c, [], rfl, hdig, by
      intro _ h; cases h⟩ hdig) ?_
    intro _ _
    refine ⟨rfl, ?_⟩
    have := numeral_snoc (a := []) hdig
    rw [List.nil_append, show numeral 10 [] = 0 from rfl, Nat.zero_mul, Nat.zero_add] at this
    show _ = ((numeral 10 [c] : Nat) : Int)
    rw [this]
    simp
  rename_i h19
  have hnd : ¬ Dig c := by
    intro h
    exact h19 ((isDigit19_iff c).2 ⟨(isDigit_iff_digitOf c).1 h, h0⟩)
  split
  · rename_i hf
    refine SafeI.bind (f := fun _ => .bool false) (Safe.o ?_) (by simp)
    exact bare_right (l := 'f') (x := "alse".toList) (by simp [Keyword]) rfl
      (by rcases hf with rfl | rfl <;> decide) (by decide) (by decide) hl
  rename_i hf
  split
  · rename_i ht
    refine SafeI.bind (f := fun _ => .bool true) (Safe.o ?_) (by simp)
    exact bare_right (l := 't') (x := "rue".toList) (by simp [Keyword]) rfl
      (by rcases ht with rfl | rfl <;> decide) (by decide) (by decide) hl
  rename_i ht
  split
  · rename_i hi
    refine SafeI.bind (f := fun _ => .float (.inf false)) (Safe.o ?_) (by simp)
    exact bare_right (l := 'i') (x := "nf".toList) (by simp [Keyword]) rfl
      (by rcases hi with rfl | rfl <;> decide) (by decide) (by decide) hl
  rename_i hi
  split
  · rename_i hn
    refine SafeI.bind (f := fun _ => .float (.nan false)) (Safe.o ?_) (by simp)
    exact bare_right (l := 'n') (x := "an".toList) (by simp [Keyword]) rfl
      (by rcases hn with rfl | rfl <;> decide) (by decide) (by decide) hl
  rename_i hn
  split
  · rename_i hu
    subst hu
    exact SafeI.err (Safe.err (.inl ⟨[], cs, hl, rfl, rfl⟩))
  · rename_i hu
    refine SafeI.err (Safe.err (.inl ⟨cs, hl, rfl, hnd, ?_⟩))
    simp only [List.mem_cons, List.not_mem_nil, or_false, not_or]
    exact ⟨hplus, hminus, hu, fun h => ht (.inl h), fun h => hf (.inl h), fun h => hi (.inl h),
      fun h => hn (.inl h), fun h => ht (.inr h), fun h => hf (.inr h), fun h => hi (.inr h),
      fun h => hn (.inr h)⟩

/-- Every diagnostic about a literal is right. -/
theorem literal_right_all {ovf : Bool} (hlit : lit ≠ []) {e : Error}
    (h : parseLiteral ovf lit (Span.fromPosLen p (blen lit)) = .err e ∨
      parseLiteral ovf lit (Span.fromPosLen p (blen lit)) = .ok (.invalidDateTime e)) :
    Right lit p e := by
  have hk := @literal_right lit p ovf hlit
  have he : RightO lit p e := by
    rcases h with h | h
    · exact hk.1.2 e h
    · exact hk.2 e h
  rcases he with he | ⟨s, rfl⟩
  · exact he
  · rcases h with h | h
    · obtain ⟨⟨n, h1, h2⟩, rfl⟩ := parseLiteral_ovf.1 h
      exact ⟨rfl, n, h1, h2⟩
    · exact absurd rfl ((parseLiteral_invalid h).notOvf s)

end Verif.Toml
