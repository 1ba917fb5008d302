import Verif.Toml.DateTop

/-!
# The canonical texts of date-times, and the relation of the strict to the loose grammar
-/

namespace Verif.Toml
open Verif Verif.Spec.Toml

theorem four_eq {y : Nat} : four y =
    [Nat.digitChar (y / 100 / 10), Nat.digitChar (y / 100 % 10),
      Nat.digitChar (y % 100 / 10), Nat.digitChar (y % 100 % 10)] := rfl

theorem valFrom_digitChar {a d : Nat} (hd : d < 10) (s : Str) :
    valFrom 10 a (Nat.digitChar d :: s) = valFrom 10 (a * 10 + d) s := by
  rw [valFrom_digit (isDigit_digitChar hd), digitVal_digitChar hd]

theorem looseDigits_of_all {s : Str} {k : Nat} (h : ∀ c ∈ s, isDigit c = true) (hk : s.length = k) :
    LooseDigits k (numeral 10 s) s := by
  have hu : isDigit '_' = false := by decide
  refine ⟨hk, fun c hc => .inl (h c hc), ?_, ?_, fun _ => h, rfl⟩
  · rintro ⟨a, b, rfl⟩
    have := h '_' (by simp)
    rw [hu] at this; cases this
  · intro hh
    rcases s with _ | ⟨c, cs⟩
    · simp at hh
    · simp only [List.head?_cons, Option.some.injEq] at hh
      subst hh
      have := h '_' (by simp)
      rw [hu] at this; cases this

theorem two_digits {n : Nat} (h : n < 100) : ∀ c ∈ two n, isDigit c = true := by
  intro c hc
  simp only [two, List.mem_cons, List.not_mem_nil, or_false] at hc
  rcases hc with rfl | rfl <;> exact isDigit_digitChar (by omega)

theorem numeral_two {n : Nat} (h : n < 100) : numeral 10 (two n) = n := by
  rw [numeral_eq, two, valFrom_digitChar (by omega), valFrom_digitChar (by omega), valFrom_nil]
  omega

theorem four_digits {n : Nat} (h : n < 10000) : ∀ c ∈ four n, isDigit c = true := by
  intro c hc
  unfold four at hc
  rw [List.mem_append] at hc
  rcases hc with hc | hc
  · exact two_digits (by omega) c hc
  · exact two_digits (by omega) c hc

theorem numeral_four {n : Nat} (h : n < 10000) : numeral 10 (four n) = n := by
  rw [numeral_eq, four_eq, valFrom_digitChar (by omega), valFrom_digitChar (by omega),
    valFrom_digitChar (by omega), valFrom_digitChar (by omega), valFrom_nil]
  omega

theorem looseDigits_four {y : Nat} (h : y ≤ 9999) : LooseDigits 4 y (four y) := by
  have := looseDigits_of_all (four_digits (n := y) (by omega)) (k := 4) rfl
  rwa [numeral_four (by omega)] at this

theorem looseDigits_two {y : Nat} (h : y < 100) : LooseDigits 2 y (two y) := by
  have := looseDigits_of_all (two_digits (n := y) (by omega)) (k := 2) rfl
  rwa [numeral_two (by omega)] at this

theorem looseDate_of_valid {d : Date} (h : ValidDate d) : LooseDate d (dateText d) :=
  ⟨four d.year, rfl, looseDigits_four h.1, h.2.1, h.2.2.1, h.2.2.2.1, h.2.2.2.2⟩

/-- The strict grammar is part of the loose one. -/
theorem loose_of_strict {dt : DateTime} {s : Str} (h : DateTimeText dt s) : LooseDateTime dt s := by
  cases h with
  | offset hd hs ht ho =>
    have := LooseDateTime.offset (junk := []) (looseDate_of_valid hd) hs ht ho
    simpa using this
  | loc hd hs ht => exact .loc (looseDate_of_valid hd) hs ht
  | date hd => exact .date (looseDate_of_valid hd)
  | @time t _ ht =>
    obtain ⟨rest, rfl, hh, hm⟩ := ht
    exact .time (looseDigits_two (by omega)) hh hm

theorem nine_digits {n : Nat} : ∀ c ∈ nine n, isDigit c = true := by
  intro c hc
  unfold nine at hc
  simp only [List.cons_append, List.mem_cons, List.mem_append] at hc
  rcases hc with rfl | hc | hc
  · exact isDigit_digitChar (by omega)
  · exact four_digits (by omega) c hc
  · exact four_digits (by omega) c hc

theorem numeral_nine {n : Nat} (h : n < 1000000000) : numeral 10 (nine n) = n := by
  rw [numeral_eq]
  unfold nine
  rw [List.cons_append, valFrom_digitChar (by omega), valFrom_append, four_eq, four_eq]
  rw [valFrom_digitChar (by omega), valFrom_digitChar (by omega),
    valFrom_digitChar (by omega), valFrom_digitChar (by omega), valFrom_nil,
    valFrom_digitChar (by omega), valFrom_digitChar (by omega),
    valFrom_digitChar (by omega), valFrom_digitChar (by omega), valFrom_nil]
  omega

theorem secFrac_nine {n : Nat} (h : n < 1000000000) : SecFrac n ('.' :: nine n) := by
  refine .inr ⟨nine n, rfl, by simp [nine], nine_digits, ?_⟩
  have hl : (nine n).length = 9 := rfl
  rw [List.take_append_of_le_length (by omega), List.take_of_length_le (by omega),
    numeral_nine h]

theorem showTime_text {t : Time} (h : ValidTime t) : TimeText t (showTime t) := by
  refine ⟨two t.minute ++ ':' :: two t.second ++ '.' :: nine t.nanos, by simp [showTime], h.1,
    '.' :: nine t.nanos, rfl, h.2.1, h.2.2.1, secFrac_nine h.2.2.2⟩

theorem showOffset_text {o : Offset} (h : ValidOffset o) : OffsetText o (showOffset o) := by
  cases o with
  | utc => exact .utc (.inl rfl)
  | custom m =>
    obtain ⟨h1, h2⟩ := h
    unfold showOffset
    by_cases hm : m < 0
    · have := @OffsetText.west (m.natAbs / 60) (m.natAbs % 60) (by omega) (by omega)
      rw [show -((60 * (m.natAbs / 60 : Nat) : Int) + ((m.natAbs % 60 : Nat) : Int)) = m by omega]
        at this
      simp only [if_pos hm]
      exact this
    · have := @OffsetText.east (m.natAbs / 60) (m.natAbs % 60) (by omega) (by omega)
      rw [show ((60 * (m.natAbs / 60 : Nat) : Int) + ((m.natAbs % 60 : Nat) : Int)) = m by omega]
        at this
      simp only [if_neg hm]
      exact this

theorem showDateTime_text {dt : DateTime} (h : ValidDateTime dt) :
    DateTimeText dt (showDateTime dt) := by
  cases dt with
  | offsetDateTime d t o =>
    exact .offset h.1 (.inl rfl) (showTime_text h.2.1) (showOffset_text h.2.2)
  | localDateTime d t => exact .loc h.1 (.inl rfl) (showTime_text h.2)
  | localDate d => exact .date h
  | localTime t => exact .time (showTime_text h)

/-! ## Values of the loose grammar are valid -/

theorem valFrom_lt {s : Str} (h : ∀ c ∈ s, isDigit c = true ∨ c = '_') :
    ∀ a, valFrom 10 a s < (a + 1) * 10 ^ s.length := by
  induction s with
  | nil => intro a; simp
  | cons c cs ih =>
    intro a
    have ih' := ih (fun x hx => h x (by simp [hx]))
    rw [List.length_cons, Nat.pow_succ]
    rcases h c (by simp) with hc | rfl
    · rw [valFrom_digit hc]
      have hd := digitVal_lt hc
      refine Nat.lt_of_lt_of_le (ih' _) ?_
      rw [Nat.mul_comm (10 ^ cs.length) 10, ← Nat.mul_assoc]
      exact Nat.mul_le_mul_right _ (by omega)
    · rw [valFrom_cons, if_pos rfl]
      refine Nat.lt_of_lt_of_le (ih' _) ?_
      exact Nat.mul_le_mul_left _ (by omega)

theorem _root_.Verif.Spec.Toml.LooseDigits.lt {k n : Nat} {s : Str} (h : LooseDigits k n s) : n < 10 ^ k := by
  obtain ⟨h1, h2, -, -, -, rfl⟩ := h
  have := valFrom_lt h2 0
  rw [numeral_eq, ← h1]
  omega

theorem secFrac_lt {n : Nat} {s : Str} (h : SecFrac n s) : n < 1000000000 := by
  rcases h with ⟨-, rfl⟩ | ⟨ds, -, -, h, rfl⟩
  · omega
  · have hall : ∀ c ∈ (ds ++ List.replicate 9 '0').take 9, isDigit c = true ∨ c = '_' := by
      intro c hc
      have := List.mem_of_mem_take hc
      rw [List.mem_append] at this
      rcases this with hc | hc
      · exact .inl (h c hc)
      · have := List.eq_of_mem_replicate hc
        subst this
        exact .inl (by decide)
    have := valFrom_lt hall 0
    have hl : ((ds ++ List.replicate 9 '0').take 9).length = 9 := by simp
    rw [hl] at this
    rw [numeral_eq]
    omega

theorem _root_.Verif.Spec.Toml.LooseDate.valid {d : Date} {s : Str} (h : LooseDate d s) : ValidDate d := by
  obtain ⟨ys, -, h1, h2, h3, h4, h5⟩ := h
  have := h1.lt
  exact ⟨by omega, h2, h3, h4, h5⟩

theorem _root_.Verif.Spec.Toml.MinSecText.valid {t : Time} {s : Str} (h : MinSecText t s) (hh : t.hour ≤ 23) :
    ValidTime t := by
  obtain ⟨frac, -, h1, h2, h3⟩ := h
  exact ⟨hh, h1, h2, secFrac_lt h3⟩

theorem _root_.Verif.Spec.Toml.TimeText.valid {t : Time} {s : Str} (h : TimeText t s) : ValidTime t := by
  obtain ⟨rest, -, h1, h2⟩ := h
  exact h2.valid h1

theorem _root_.Verif.Spec.Toml.OffsetText.valid {o : Offset} {s : Str} (h : OffsetText o s) : ValidOffset o := by
  cases h with
  | utc => trivial
  | east h1 h2 => exact ⟨by omega, by omega⟩
  | west h1 h2 => exact ⟨by omega, by omega⟩

theorem _root_.Verif.Spec.Toml.LooseDateTime.valid {dt : DateTime} {s : Str} (h : LooseDateTime dt s) :
    ValidDateTime dt := by
  cases h with
  | offset h1 _ h2 h3 => exact ⟨h1.valid, h2.valid, h3.valid⟩
  | loc h1 _ h2 => exact ⟨h1.valid, h2.valid⟩
  | date h1 => exact h1.valid
  | time _ h2 h3 => exact h3.valid h2

/-! ## No underscore: the strict grammar -/

theorem digits_four_of {a b c d : Char} (ha : isDigit a = true) (hb : isDigit b = true)
    (hc : isDigit c = true) (hd : isDigit d = true) :
    [a, b, c, d] = four (numeral 10 [a, b, c, d]) := by
  have h1 := digitVal_lt ha
  have h2 := digitVal_lt hb
  have h3 := digitVal_lt hc
  have h4 := digitVal_lt hd
  have e : numeral 10 [a, b, c, d] =
      ((digitVal a * 10 + digitVal b) * 10 + digitVal c) * 10 + digitVal d := by
    rw [numeral_eq, valFrom_digit ha, valFrom_digit hb, valFrom_digit hc, valFrom_digit hd,
      valFrom_nil]; omega
  rw [e, four_eq]
  have e1 : (((digitVal a * 10 + digitVal b) * 10 + digitVal c) * 10 + digitVal d) / 100 / 10 =
    digitVal a := by omega
  have e2 : (((digitVal a * 10 + digitVal b) * 10 + digitVal c) * 10 + digitVal d) / 100 % 10 =
    digitVal b := by omega
  have e3 : (((digitVal a * 10 + digitVal b) * 10 + digitVal c) * 10 + digitVal d) % 100 / 10 =
    digitVal c := by omega
  have e4 : (((digitVal a * 10 + digitVal b) * 10 + digitVal c) * 10 + digitVal d) % 100 % 10 =
    digitVal d := by omega
  rw [e1, e2, e3, e4, digitChar_digitVal ha, digitChar_digitVal hb, digitChar_digitVal hc,
    digitChar_digitVal hd]

theorem digits_two_of {a b : Char} (ha : isDigit a = true) (hb : isDigit b = true) :
    [a, b] = two (numeral 10 [a, b]) := by
  have h1 := digitVal_lt ha
  have h2 := digitVal_lt hb
  have e : numeral 10 [a, b] = digitVal a * 10 + digitVal b := by
    rw [numeral_eq, valFrom_digit ha, valFrom_digit hb, valFrom_nil]; omega
  rw [e, two]
  have e1 : (digitVal a * 10 + digitVal b) / 10 = digitVal a := by omega
  have e2 : (digitVal a * 10 + digitVal b) % 10 = digitVal b := by omega
  rw [e1, e2, digitChar_digitVal ha, digitChar_digitVal hb]

theorem _root_.Verif.Spec.Toml.LooseDigits.four {n : Nat} {s : Str} (h : LooseDigits 4 n s) (hu : '_' ∉ s) :
    s = four n := by
  obtain ⟨h1, h2, -, -, -, rfl⟩ := h
  have hall : ∀ c ∈ s, isDigit c = true := by
    intro c hc
    rcases h2 c hc with h | rfl
    · exact h
    · exact absurd hc hu
  match s, h1, hall with
  | [a, b, c, d], _, hall =>
    exact digits_four_of (hall a (by simp)) (hall b (by simp)) (hall c (by simp)) (hall d (by simp))

theorem _root_.Verif.Spec.Toml.LooseDigits.two {n : Nat} {s : Str} (h : LooseDigits 2 n s) (hu : '_' ∉ s) :
    s = two n := by
  obtain ⟨h1, h2, -, -, -, rfl⟩ := h
  have hall : ∀ c ∈ s, isDigit c = true := by
    intro c hc
    rcases h2 c hc with h | rfl
    · exact h
    · exact absurd hc hu
  match s, h1, hall with
  | [a, b], _, hall =>
    exact digits_two_of (hall a (by simp)) (hall b (by simp))

theorem _root_.Verif.Spec.Toml.LooseDate.strict {d : Date} {s : Str} (h : LooseDate d s) (hu : '_' ∉ s) :
    s = dateText d := by
  obtain ⟨ys, rfl, h1, -⟩ := h
  have : '_' ∉ ys := fun hm => hu (by simp [hm])
  rw [h1.four this]
  rfl

/-- Without underscores, the loose grammar is the strict one up to what follows an offset. -/
theorem _root_.Verif.Spec.Toml.LooseDateTime.strict {dt : DateTime} {s : Str} (h : LooseDateTime dt s) (hu : '_' ∉ s) :
    ∃ text junk, s = text ++ junk ∧ DateTimeText dt text ∧
      (junk ≠ [] → ∃ d t o, dt = .offsetDateTime d t o) := by
  cases h with
  | @offset d t o sep ds ts os junk hd hs ht ho =>
    have : '_' ∉ ds := fun hm => hu (by simp [hm])
    have hds := hd.strict this
    subst hds
    exact ⟨_, junk, rfl, .offset hd.valid hs ht ho, fun _ => ⟨d, t, o, rfl⟩⟩
  | @loc d t sep ds ts hd hs ht =>
    have : '_' ∉ ds := fun hm => hu (by simp [hm])
    have hds := hd.strict this
    subst hds
    exact ⟨_, [], by simp, .loc hd.valid hs ht, by simp⟩
  | @date d ds hd =>
    have hds := hd.strict hu
    subst hds
    exact ⟨_, [], by simp, .date hd.valid, by simp⟩
  | @time t hs ms h1 h2 h3 =>
    have : '_' ∉ hs := fun hm => hu (by simp [hm])
    have hds := h1.two this
    subst hds
    exact ⟨_, [], by simp, .time ⟨ms, rfl, h2, h3⟩, by simp⟩

theorem looseDigits_of {k n : Nat} {s : Str} (h1 : s.length = k)
    (h2 : s.all (fun c => isDigit c || c == '_') = true)
    (h3 : (s.zip s.tail).all (fun p => !(p.1 == '_' && p.2 == '_')) = true)
    (h4 : s.head? ≠ some '_') (h5 : s.head? ≠ some '0') (h6 : n = numeral 10 s) :
    LooseDigits k n s := by
  refine ⟨h1, ?_, ?_, h4, fun h => absurd h h5, h6⟩
  · intro c hc
    have := List.all_eq_true.1 h2 c hc
    simpa using this
  · rintro ⟨a, b, rfl⟩
    have hm : ('_', '_') ∈ (a ++ '_' :: '_' :: b).zip (a ++ '_' :: '_' :: b).tail := by
      rcases a with _ | ⟨x, a⟩
      · simp
      · have : ∀ (a : Str) (x : Char), ('_', '_') ∈ (x :: (a ++ '_' :: '_' :: b)).zip (a ++ '_' :: '_' :: b) := by
          intro a
          induction a with
          | nil => intro x; simp
          | cons y a ih => intro x; simp only [List.cons_append, List.zip_cons_cons, List.mem_cons]; exact .inr (ih y)
        exact this a x
    have := List.all_eq_true.1 h3 _ hm
    simp at this

theorem digitChar_ne {n : Nat} (h : n < 10) : Nat.digitChar n ≠ '_' := by
  have : ∀ n : Fin 10, Nat.digitChar n ≠ '_' := by decide
  exact this ⟨n, h⟩

theorem two_no_us {n : Nat} (h : n < 100) : '_' ∉ two n := by
  unfold two
  have h1 := (digitChar_ne (n := n / 10) (by omega)).symm
  have h2 := (digitChar_ne (n := n % 10) (by omega)).symm
  simp [h1, h2]

theorem secFrac_no_us {n : Nat} {s : Str} (h : SecFrac n s) : '_' ∉ s := by
  rcases h with ⟨rfl, -⟩ | ⟨ds, rfl, -, h, -⟩
  · simp
  · simp only [List.mem_cons, not_or]
    exact ⟨by decide, fun hm => absurd (h _ hm) (by decide)⟩

theorem minSec_no_us {t : Time} {s : Str} (h : MinSecText t s) : '_' ∉ s := by
  obtain ⟨frac, rfl, h1, h2, h3⟩ := h
  simp only [List.mem_append, List.mem_cons, not_or]
  exact ⟨⟨two_no_us (by omega), by decide, two_no_us (by omega)⟩, secFrac_no_us h3⟩

theorem time_no_us {t : Time} {s : Str} (h : TimeText t s) : '_' ∉ s := by
  obtain ⟨rest, rfl, h1, h2⟩ := h
  simp only [List.mem_append, List.mem_cons, not_or]
  exact ⟨two_no_us (by omega), by decide, minSec_no_us h2⟩

theorem offset_no_us {o : Offset} {s : Str} (h : OffsetText o s) : '_' ∉ s := by
  cases h with
  | utc h => rcases h with rfl | rfl <;> decide
  | east h1 h2 =>
    simp only [List.mem_append, List.mem_cons, not_or]
    exact ⟨⟨by decide, two_no_us (by omega)⟩, by decide, two_no_us (by omega)⟩
  | west h1 h2 =>
    simp only [List.mem_append, List.mem_cons, not_or]
    exact ⟨⟨by decide, two_no_us (by omega)⟩, by decide, two_no_us (by omega)⟩

theorem looseDate_split {d : Date} {s : Str} (h : LooseDate d s) :
    ∃ a b, s = a ++ b ∧ a.length = 4 ∧ '_' ∉ b := by
  obtain ⟨ys, rfl, h1, h2, h3, h4, h5⟩ := h
  refine ⟨ys, '-' :: two d.month ++ '-' :: two d.day, by simp, h1.1, ?_⟩
  have : d.day ≤ 31 := Nat.le_trans h5 (by unfold daysIn; split <;> (try split) <;> omega)
  simp only [List.mem_append, List.mem_cons, not_or]
  exact ⟨⟨by decide, two_no_us (by omega)⟩, by decide, two_no_us (by omega)⟩

/-- Underscores stand in the first four characters or behind an offset only. -/
theorem looseDateTime_underscore {dt : DateTime} {s : Str} (h : LooseDateTime dt s) :
    ∃ a b junk, s = a ++ b ++ junk ∧ a.length ≤ 4 ∧ '_' ∉ b ∧
      (junk ≠ [] → ∃ d t o, dt = .offsetDateTime d t o) := by
  cases h with
  | @offset d t o sep ds ts os junk hd hs ht ho =>
    obtain ⟨a, b, rfl, h1, h2⟩ := looseDate_split hd
    refine ⟨a, b ++ sep :: ts ++ os, junk, by simp, by omega, ?_, fun _ => ⟨d, t, o, rfl⟩⟩
    simp only [List.mem_append, List.mem_cons, not_or]
    exact ⟨⟨h2, by rcases hs with rfl | rfl <;> decide, time_no_us ht⟩, offset_no_us ho⟩
  | @loc d t sep ds ts hd hs ht =>
    obtain ⟨a, b, rfl, h1, h2⟩ := looseDate_split hd
    refine ⟨a, b ++ sep :: ts, [], by simp, by omega, ?_, by simp⟩
    simp only [List.mem_append, List.mem_cons, not_or]
    exact ⟨h2, by rcases hs with rfl | rfl <;> decide, time_no_us ht⟩
  | @date d ds hd =>
    obtain ⟨a, b, rfl, h1, h2⟩ := looseDate_split hd
    exact ⟨a, b, [], by simp, by omega, h2, by simp⟩
  | @time t hs ms h1 h2 h3 =>
    refine ⟨hs, ':' :: ms, [], by simp, by have := h1.1; omega, ?_, by simp⟩
    simp only [List.mem_cons, not_or]
    exact ⟨by decide, minSec_no_us h3⟩

end Verif.Toml
