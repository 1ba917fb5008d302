import Verif.Toml.IntLemmas
import Verif.Toml.OvfLemmas
import Verif.Toml.FloatLemmas
import Verif.Toml.DateTop
import Verif.Toml.BoolLemmas
import Verif.Toml.ShowLemmas
import Verif.Toml.LitSafe

/-! # Properties C35-C44, C61, C62: bare TOML literals

`parseLiteral ovf lit span` is the parser of one bare literal; `ovf` says whether the build has
overflow checks.  `span` is the place of the literal in the document. -/

namespace Verif.Props
open Verif Verif.Toml Verif.Spec.Toml

variable {ovf : Bool} {lit : Str}

/-- The literal starts at `p` and lies on one line. -/
def spanOf (p : Pos) (lit : Str) : Span := ⟨p, ⟨p.line, p.char + blen lit⟩⟩

/-! ## C35: decimal integers -/

/-- C35: for a literal that is a TOML decimal integer denoting `n`: the result is exactly `n` if `n`
fits into 64 bits, and an overflow diagnostic on the whole literal otherwise. -/
theorem C35_decimal {n : Int} (p : Pos) (h : DecInt lit n) :
    (InRange n → parseLiteral ovf lit (spanOf p lit) = .ok (.int n)) ∧
    (¬ InRange n →
      parseLiteral ovf lit (spanOf p lit) = .err (.intLiteralOverflow (spanOf p lit))) :=
  ⟨fun hr => parseLiteral_int.2 (.inl ⟨h, hr⟩),
   fun hr => parseLiteral_ovf.2 ⟨⟨n, h, hr⟩, rfl⟩⟩

/-- C35: an integer result without a radix prefix is the number that is written, and fits. -/
theorem C35_exact {n : Int} {span : Span} (h : parseLiteral ovf lit span = .ok (.int n))
    (hp : ¬ ∃ m, PrefixedInt lit m) : DecInt lit n ∧ InRange n := by
  rcases parseLiteral_int.1 h with h | ⟨m, hm, -⟩
  · exact h
  · exact absurd ⟨m, hm⟩ hp

/-- C35: the overflow diagnostic is given only for decimal integers that do not fit. -/
theorem C35_overflow_only {sp : Span} (p : Pos)
    (h : parseLiteral ovf lit (spanOf p lit) = .err (.intLiteralOverflow sp)) :
    (∃ n, DecInt lit n ∧ ¬ InRange n) ∧ sp = spanOf p lit :=
  parseLiteral_ovf.1 h

theorem decInt_min : DecInt "-9_223_372_036_854_775_808".toList (-9223372036854775808) := by
  refine ⟨['-'], -1, "9_223_372_036_854_775_808".toList, rfl, .minus, ⟨?_, .inr (by decide)⟩,
    by decide⟩
  repeat first | exact .one (by decide) | apply Digits.under (by decide) | apply Digits.digit (by decide)

/-- The smallest integer, with underscores, meets the hypotheses. -/
example : parseLiteral true "-9_223_372_036_854_775_808".toList
    (spanOf ⟨3, 4⟩ "-9_223_372_036_854_775_808".toList) = .ok (.int (-9223372036854775808)) :=
  (C35_decimal ⟨3, 4⟩ decInt_min).1 (by unfold InRange; omega)

/-! ## C36: prefixed integers -/

/-- C36, the part that holds: a `0x`/`0o`/`0b` literal below 2^63 has exactly the value written. -/
theorem C36_prefixed_partial {m : Nat} {span : Span} (h : PrefixedInt lit m)
    (hm : m < 9223372036854775808) : parseLiteral ovf lit span = .ok (.int m) :=
  parseLiteral_int.2 (.inr ⟨m, h, ((wrap_iff _ _).2 ⟨by unfold InRange; omega, 0, by omega⟩).symm⟩)

/-- C36, the other direction as far as it holds: an accepted prefixed literal has the value written
up to a multiple of 2^64. -/
theorem C36_modulo {n : Int} {m : Nat} {span : Span} (h : PrefixedInt lit m) :
    parseLiteral ovf lit span = .ok (.int n) → InRange n ∧ ∃ k : Int, n = m - k * 18446744073709551616 := by
  intro hn
  have : n = wrapI64 m := by
    have h2 : parseLiteral ovf lit span = .ok (.int (wrapI64 m)) :=
      parseLiteral_int.2 (.inr ⟨m, h, rfl⟩)
    rw [h2] at hn
    simp only [Res.ok.injEq, PartialValue.int.injEq] at hn
    exact hn.symm
  obtain ⟨hr, k, hk⟩ := (wrap_iff _ _).1 this.symm
  exact ⟨hr, k, by omega⟩

/-- C36, exactly: every prefixed literal is accepted, in every build, and what is read is the written value
modulo 2^64, between -2^63 and 2^63 - 1. -/
theorem C36_exact {n : Int} {m : Nat} {span : Span} (h : PrefixedInt lit m) :
    parseLiteral ovf lit span = .ok (.int n) ↔ InRange n ∧ ∃ k : Int, n = m - k * 18446744073709551616 := by
  refine ⟨C36_modulo h, fun ⟨hr, k, hk⟩ => ?_⟩
  exact parseLiteral_int.2 (.inr ⟨m, h, ((wrap_iff _ _).2 ⟨hr, k, by omega⟩).symm⟩)

/-- C36, exactly: the value is the one that is written if and only if it is below 2^63. -/
theorem C36_right_iff {m : Nat} {span : Span} (h : PrefixedInt lit m) :
    parseLiteral ovf lit span = .ok (.int m) ↔ m < 9223372036854775808 := by
  rw [C36_exact h]
  unfold InRange
  constructor
  · rintro ⟨hr, -⟩; omega
  · intro hm; exact ⟨by omega, 0, by omega⟩

/-- C36 fails in full: the literal `0xffffffffffffffff` denotes 2^64-1 but is read as -1. -/
theorem C36_counterexample :
    PrefixedInt "0xffffffffffffffff".toList 18446744073709551615 ∧
    parseLiteral ovf "0xffffffffffffffff".toList ⟨.ZERO, ⟨0, 18⟩⟩ = .ok (.int (-1)) := by
  have h : PrefixedInt "0xffffffffffffffff".toList 18446744073709551615 := by
    have h := @PrefixedInt.hex "ffffffffffffffff".toList (by
      repeat first | exact .one (by decide) | apply Digits.digit (by decide))
    exact h
  exact ⟨h, parseLiteral_int.2 (.inr ⟨_, h, ((wrap_iff _ _).2 ⟨by unfold InRange; omega, 1, by omega⟩).symm⟩)⟩

/-! ## C37: underscores -/

/-- Every underscore of `s` has a digit of base `b` on both sides. -/
def UnderscoresBetweenDigits (b : Nat) (s : Str) : Prop :=
  ∀ pre post, s = pre ++ '_' :: post →
    (∃ pre' c, pre = pre' ++ [c] ∧ digitOf c < b) ∧ (∃ c post', post = c :: post' ∧ digitOf c < b)

theorem underscore_not_digit {b : Nat} (hb : b ≤ 16) : ¬ digitOf '_' < b := by
  have : digitOf '_' = 16 := by decide
  omega

theorem digits_head {b : Nat} {s : Str} (h : Digits b s) : ∃ c t, s = c :: t ∧ digitOf c < b := by
  cases h with
  | one h => exact ⟨_, _, rfl, h⟩
  | digit h _ => exact ⟨_, _, rfl, h⟩
  | under h _ => exact ⟨_, _, rfl, h⟩

theorem digits_underscores {b : Nat} (hb : b ≤ 16) {s : Str} (h : Digits b s) :
    UnderscoresBetweenDigits b s := by
  induction h with
  | @one c h =>
    intro pre post e
    rcases pre with _ | ⟨x, pre⟩
    · simp only [List.nil_append, List.cons.injEq] at e
      exact absurd (e.1 ▸ h) (underscore_not_digit hb)
    · simp at e
  | @digit c s h hs ih =>
    intro pre post e
    rcases pre with _ | ⟨x, pre⟩
    · simp only [List.nil_append, List.cons.injEq] at e
      exact absurd (e.1 ▸ h) (underscore_not_digit hb)
    · simp only [List.cons_append, List.cons.injEq] at e
      obtain ⟨⟨pre', d, rfl, hd⟩, hr⟩ := ih pre post e.2
      exact ⟨⟨x :: pre', d, rfl, hd⟩, hr⟩
  | @under c s h hs ih =>
    intro pre post e
    rcases pre with _ | ⟨x, pre⟩
    · simp only [List.nil_append, List.cons.injEq] at e
      exact absurd (e.1 ▸ h) (underscore_not_digit hb)
    · simp only [List.cons_append, List.cons.injEq] at e
      obtain ⟨rfl, e⟩ := e
      rcases pre with _ | ⟨y, pre⟩
      · simp only [List.nil_append, List.cons.injEq] at e
        obtain ⟨d, t, rfl, hd⟩ := digits_head hs
        exact ⟨⟨[], c, rfl, h⟩, ⟨d, t, e.2.symm, hd⟩⟩
      · simp only [List.cons_append, List.cons.injEq] at e
        obtain ⟨⟨pre', d, rfl, hd⟩, hr⟩ := ih pre post e.2
        exact ⟨⟨c :: y :: pre', d, rfl, hd⟩, hr⟩

/-- C37: an accepted integer literal is a sign or radix prefix and a body in which every underscore
stands between two digits of the base. -/
theorem C37_underscores {n : Int} {span : Span} (h : parseLiteral ovf lit span = .ok (.int n)) :
    ∃ b pre body, lit = pre ++ body ∧ body ≠ [] ∧ UnderscoresBetweenDigits b body ∧
      (b = 10 ∧ (pre = [] ∨ pre = ['+'] ∨ pre = ['-']) ∨ b = 16 ∧ pre = "0x".toList ∨
        b = 8 ∧ pre = "0o".toList ∨ b = 2 ∧ pre = "0b".toList) := by
  have hne : ∀ {b : Nat} {s : Str}, Digits b s → s ≠ [] := by
    intro b s h; obtain ⟨c, t, rfl, -⟩ := digits_head h; simp
  rcases parseLiteral_int.1 h with ⟨⟨sign, f, body, rfl, hs, hu, -⟩, -⟩ | ⟨m, hm, -⟩
  · refine ⟨10, sign, body, rfl, hne hu.1, digits_underscores (by omega) hu.1, .inl ⟨rfl, ?_⟩⟩
    cases hs <;> simp
  · cases hm with
    | @hex s hd => exact ⟨16, ['0', 'x'], s, rfl, hne hd, digits_underscores (by omega) hd, by simp⟩
    | @oct s hd => exact ⟨8, ['0', 'o'], s, rfl, hne hd, digits_underscores (by omega) hd, by simp⟩
    | @bin s hd => exact ⟨2, ['0', 'b'], s, rfl, hne hd, digits_underscores (by omega) hd, by simp⟩

/-- An accepted literal with underscores. -/
example : parseLiteral true "1_000_000".toList ⟨.ZERO, ⟨0, 9⟩⟩ = .ok (.int 1000000) :=
  (C35_decimal (ovf := true) (lit := "1_000_000".toList) Pos.ZERO (n := 1000000)
    ⟨[], 1, _, rfl, .none, ⟨by
      repeat first | exact .one (by decide) | apply Digits.under (by decide) | apply Digits.digit (by decide),
      .inr (by decide)⟩, by decide⟩).1 (by unfold InRange; omega)

/-! ## C38: floats -/

/-- C38: a literal is read as a finite-notation float if and only if it has the TOML float form, and
the text handed to the decimal-to-double conversion is the literal without its underscores. -/
theorem C38_float {t : Str} {span : Span} :
    parseLiteral ovf lit span = .ok (.float (.parsed t)) ↔
      FloatText lit ∧ t = lit.filter (fun c => c != '_') := by
  rw [parseLiteral_float]
  simp only [FloatVal.parsed.injEq, reduceCtorEq, and_false, exists_false, or_false]
  rfl

/-- `6_1.626e-3_4` is such a literal. -/
example : parseLiteral true "6_1.626e-3_4".toList ⟨.ZERO, ⟨0, 12⟩⟩ =
    .ok (.float (.parsed "61.626e-34".toList)) := by
  refine C38_float.2 ⟨⟨61, "6_1".toList, ".626".toList, "e-3_4".toList, rfl,
    ⟨[], 1, _, rfl, .none, ⟨?_, .inr (by decide)⟩, by decide⟩, .inl ⟨⟨_, rfl, ?_⟩, .inr
      ⟨'e', ['-'], -1, "3_4".toList, rfl, .inl rfl, .minus, ?_⟩⟩⟩, by decide⟩ <;>
  (repeat first | exact .one (by decide) | apply Digits.under (by decide) | apply Digits.digit (by decide))

/-! ## C39: date-time fields -/

/-- C39: every accepted date-time has valid fields. -/
theorem C39_valid {dt : DateTime} {span : Span}
    (h : parseLiteral ovf lit span = .ok (.dateTime dt)) : ValidDateTime dt :=
  (parseLiteral_dateTime.1 h).1.valid

/-- C39: every accepted date is a day that exists. -/
theorem C39_valid_date {d : Date} {span : Span}
    (h : parseLiteral ovf lit span = .ok (.partialDate d)) : ValidDate d :=
  (parseLiteral_date.1 h).valid

/-! ## C40: round trip -/

/-- A date alone is a date to which a time may still be added; all others are complete. -/
def asValue : DateTime → PartialValue
  | .localDate d => .partialDate d
  | dt => .dateTime dt

/-- C40: every RFC 3339 text of a date-time (separator `T`) is read as that date-time. -/
theorem C40_accepts {dt : DateTime} {span : Span} (h : DateTimeText dt lit) :
    parseLiteral ovf lit span =
      .ok (asValue dt) := by
  cases dt with
  | localDate d => exact parseLiteral_date.2 (loose_of_strict h)
  | _ => exact parseLiteral_dateTime.2 ⟨loose_of_strict h, by simp⟩

/-- C40: formatting a valid date-time and parsing it gives it back. -/
theorem C40_round_trip {dt : DateTime} {span : Span} (h : ValidDateTime dt) :
    parseLiteral ovf (showDateTime dt) span =
      .ok (asValue dt) :=
  C40_accepts (showDateTime_text h)

/-- A leap day with a negative offset. -/
example : ValidDateTime (.offsetDateTime ⟨2024, 2, 29⟩ ⟨23, 59, 59, 999999999⟩ (.custom (-330))) ∧
    showDateTime (.offsetDateTime ⟨2024, 2, 29⟩ ⟨23, 59, 59, 999999999⟩ (.custom (-330))) =
      "2024-02-29T23:59:59.999999999-05:30".toList := by
  refine ⟨⟨?_, ?_, ?_⟩, by decide⟩
  · unfold ValidDate; decide
  · unfold ValidTime; decide
  · unfold ValidOffset; omega

/-! ## C41: nothing follows a date-time -/

/-- C41, the part that holds: an accepted literal without underscores is the text of the date-time,
followed by nothing unless the date-time ends with an offset. -/
theorem C41_no_junk_partial {dt : DateTime} {span : Span}
    (h : parseLiteral ovf lit span = .ok (.dateTime dt)) (hu : '_' ∉ lit) :
    ∃ text junk, lit = text ++ junk ∧ DateTimeText dt text ∧
      (junk ≠ [] → ∃ d t o, dt = .offsetDateTime d t o) :=
  (parseLiteral_dateTime.1 h).1.strict hu

/-- C41 for a date: an accepted literal without underscores is exactly the text of the date. -/
theorem C41_date {d : Date} {span : Span}
    (h : parseLiteral ovf lit span = .ok (.partialDate d)) (hu : '_' ∉ lit) : lit = dateText d := by
  have h := parseLiteral_date.1 h
  cases h with
  | date h => exact h.strict hu

/-- C41, exactly: a literal without underscores is read as a date-time if and only if it is the text of the
date-time, followed by nothing unless the date-time ends with an offset; then by anything. -/
theorem C41_exact {dt : DateTime} {span : Span} (hu : '_' ∉ lit) :
    parseLiteral ovf lit span = .ok (asValue dt) ↔
      ∃ text junk, lit = text ++ junk ∧ DateTimeText dt text ∧
        (junk ≠ [] → ∃ d t o, dt = .offsetDateTime d t o) := by
  have key : parseLiteral ovf lit span = .ok (asValue dt) ↔ LooseDateTime dt lit := by
    cases dt with
    | localDate d => exact parseLiteral_date
    | _ => exact parseLiteral_dateTime.trans ⟨fun h => h.1, fun h => ⟨h, by simp⟩⟩
  rw [key]
  constructor
  · exact fun h => h.strict hu
  · rintro ⟨text, junk, rfl, h, hj⟩
    by_cases hn : junk = []
    · subst hn
      rw [List.append_nil]
      exact loose_of_strict h
    · obtain ⟨d, t, o, rfl⟩ := hj hn
      have hl := loose_of_strict h
      cases hl with
      | @offset _ _ _ sep ds ts os j h1 h2 h3 h4 =>
        rw [List.append_assoc _ j junk]
        exact .offset h1 h2 h3 h4

theorem junk_accepted (junk : Str) (span : Span) :
    parseLiteral ovf ("1979-05-27T07:32:00Z".toList ++ junk) span =
      .ok (.dateTime (.offsetDateTime ⟨1979, 5, 27⟩ ⟨7, 32, 0, 0⟩ .utc)) :=
  parseLiteral_dateTime.2 ⟨.offset (ds := "1979-05-27".toList) (ts := "07:32:00".toList)
    (looseDate_of_valid (d := ⟨1979, 5, 27⟩) (by unfold ValidDate; decide)) (.inl rfl)
    ⟨_, rfl, by decide, [], rfl, by decide, by decide, .inl ⟨rfl, rfl⟩⟩ (.utc (.inl rfl)), by simp⟩

/-- C41 fails in full: whatever stands behind `Z` is ignored. -/
theorem C41_counterexample :
    parseLiteral ovf "1979-05-27T07:32:00Zjunk".toList ⟨.ZERO, ⟨0, 24⟩⟩ =
      .ok (.dateTime (.offsetDateTime ⟨1979, 5, 27⟩ ⟨7, 32, 0, 0⟩ .utc)) ∧
    ¬ ∃ dt, DateTimeText dt "1979-05-27T07:32:00Zjunk".toList := by
  refine ⟨junk_accepted "junk".toList _, ?_⟩
  rintro ⟨dt, h⟩
  have hl := loose_of_strict h
  have h2 : dt = .offsetDateTime ⟨1979, 5, 27⟩ ⟨7, 32, 0, 0⟩ .utc := by
    have h1 := junk_accepted (ovf := true) "junk".toList ⟨.ZERO, .ZERO⟩
    by_cases hd : ∃ d, dt = .localDate d
    · obtain ⟨d, rfl⟩ := hd
      have h3 := (parseLiteral_date (ovf := true) (span := ⟨.ZERO, .ZERO⟩)).2 hl
      exact absurd (h1.symm.trans h3) (by simp)
    · have h3 := (parseLiteral_dateTime (ovf := true) (span := ⟨.ZERO, .ZERO⟩)).2
        ⟨hl, fun d e => hd ⟨d, e⟩⟩
      have h4 := h1.symm.trans h3
      simp only [Res.ok.injEq, PartialValue.dateTime.injEq] at h4
      exact h4.symm
  subst h2
  generalize hs : "1979-05-27T07:32:00Zjunk".toList = s at h
  cases h with
  | @offset d t o sep ts os hd hsep ht ho =>
    cases ho with
    | @utc z hz =>
      have hlast := congrArg List.getLast? hs
      rw [List.getLast?_append, List.getLast?_singleton, Option.some_or] at hlast
      have : some 'k' = some z := hlast
      rcases hz with rfl | rfl
      · exact absurd this (by decide)
      · exact absurd this (by decide)

/-! ## C42: underscores in date-times -/

/-- C42, the part that holds: apart from the first four characters (the year or the hour), an
accepted date-time has no underscore unless it stands behind an offset. -/
theorem C42_no_underscore_partial {dt : DateTime} {span : Span}
    (h : parseLiteral ovf lit span = .ok (.dateTime dt)) :
    ∃ a b junk, lit = a ++ b ++ junk ∧ a.length ≤ 4 ∧ '_' ∉ b ∧
      (junk ≠ [] → ∃ d t o, dt = .offsetDateTime d t o) := by
  exact looseDateTime_underscore (parseLiteral_dateTime.1 h).1

/-- C42, exactly: which texts are read as which date-time, in every build: the RFC 3339 texts, where the year and
the hour of a local time may have underscores behind their digits, and anything may stand behind an offset
(`LooseDateTime`). -/
theorem C42_exact {dt : DateTime} {span : Span} :
    parseLiteral ovf lit span = .ok (asValue dt) ↔ LooseDateTime dt lit := by
  cases dt with
  | localDate d => exact parseLiteral_date
  | _ => exact parseLiteral_dateTime.trans ⟨fun h => h.1, fun h => ⟨h, by simp⟩⟩

/-- C42 fails in full. -/
theorem C42_counterexample :
    parseLiteral ovf "1_:30:00".toList ⟨.ZERO, ⟨0, 8⟩⟩ = .ok (.dateTime (.localTime ⟨1, 30, 0, 0⟩)) ∧
    parseLiteral ovf "1_23-01-01".toList ⟨.ZERO, ⟨0, 10⟩⟩ = .ok (.partialDate ⟨123, 1, 1⟩) := by
  constructor
  · refine parseLiteral_dateTime.2 ⟨.time (hs := ['1', '_']) (ms := "30:00".toList) ?_ (by decide)
      ⟨[], rfl, by decide, by decide, .inl ⟨rfl, rfl⟩⟩, by simp⟩
    exact looseDigits_of (by decide) (by decide) (by decide) (by decide) (by decide) (by decide)
  · refine parseLiteral_date.2 (.date ⟨"1_23".toList, rfl, ?_, by decide, by decide, by decide,
      by decide⟩)
    exact looseDigits_of (by decide) (by decide) (by decide) (by decide) (by decide) (by decide)

/-! ## C43: infinity and NaN -/

/-- C43, the part that holds: a literal read as infinity or NaN is `inf`/`nan` with an optional sign,
or one of `+Inf`, `-Inf`, `+Nan`, `-Nan`. -/
theorem C43_special_partial {span : Span} {neg : Bool} :
    (parseLiteral ovf lit span = .ok (.float (.inf neg)) →
      (∃ f, SpecialFloat "inf".toList lit f ∧ neg = decide (f < 0)) ∨
        lit = (if neg then "-Inf" else "+Inf").toList) ∧
    (parseLiteral ovf lit span = .ok (.float (.nan neg)) →
      (∃ f, SpecialFloat "nan".toList lit f ∧ neg = decide (f < 0)) ∨
        lit = (if neg then "-Nan" else "+Nan").toList) := by
  constructor <;> intro h <;> have h := parseLiteral_float.1 h <;>
    simp only [reduceCtorEq, and_false, false_or, exists_false, or_false, FloatVal.inf.injEq,
      FloatVal.nan.injEq] at h <;>
    rcases h with h | ⟨rfl, rfl⟩ | ⟨rfl, rfl⟩ <;> first | exact .inl h | exact .inr rfl

/-- C43: all six spellings are accepted, with the sign that is written. -/
theorem C43_accepts {span : Span} {f : Int} :
    (SpecialFloat "inf".toList lit f → parseLiteral ovf lit span = .ok (.float (.inf (f < 0)))) ∧
    (SpecialFloat "nan".toList lit f → parseLiteral ovf lit span = .ok (.float (.nan (f < 0)))) :=
  ⟨fun h => parseLiteral_float.2 (.inr (.inl ⟨f, h, rfl⟩)),
   fun h => parseLiteral_float.2 (.inr (.inr (.inl ⟨f, h, rfl⟩)))⟩

/-- C43, exactly: the literals that are read as infinity or NaN, with their signs. -/
theorem C43_exact {span : Span} {neg : Bool} :
    (parseLiteral ovf lit span = .ok (.float (.inf neg)) ↔
      (∃ f, SpecialFloat "inf".toList lit f ∧ neg = decide (f < 0)) ∨
        lit = (if neg then "-Inf" else "+Inf").toList) ∧
    (parseLiteral ovf lit span = .ok (.float (.nan neg)) ↔
      (∃ f, SpecialFloat "nan".toList lit f ∧ neg = decide (f < 0)) ∨
        lit = (if neg then "-Nan" else "+Nan").toList) := by
  refine ⟨⟨C43_special_partial.1, ?_⟩, ⟨C43_special_partial.2, ?_⟩⟩
  · rintro (⟨f, h, rfl⟩ | rfl)
    · exact C43_accepts.1 h
    · cases neg <;> exact parseLiteral_float.2 (by simp)
  · rintro (⟨f, h, rfl⟩ | rfl)
    · exact C43_accepts.2 h
    · cases neg <;> exact parseLiteral_float.2 (by simp)

example : SpecialFloat "nan".toList "-nan".toList (-1) := ⟨['-'], rfl, .minus⟩

/-- C43 fails in full: a sign lets an upper-case first letter through. -/
theorem C43_counterexample :
    parseLiteral ovf "+Inf".toList ⟨.ZERO, ⟨0, 4⟩⟩ = .ok (.float (.inf false)) ∧
    parseLiteral ovf "-Nan".toList ⟨.ZERO, ⟨0, 4⟩⟩ = .ok (.float (.nan true)) :=
  ⟨parseLiteral_float.2 (by simp), parseLiteral_float.2 (by simp)⟩

/-! ## C44, C61: no panic; diagnostics inside the literal -/

/-- C44: parsing a non-empty literal (what the tokenizer produces) never panics. -/
theorem C44_no_panic (p : Pos) (h : lit ≠ []) : parseLiteral ovf lit (spanOf p lit) ≠ .panic :=
  (parseLiteral_safe h).1

/-- C61: the span of every diagnostic about a literal starts and ends inside the literal. -/
theorem C61_spans (p : Pos) (h : lit ≠ []) {e : Error}
    (he : parseLiteral ovf lit (spanOf p lit) = .err e) :
    e.span.start.line = p.line ∧ e.span.stop.line = p.line ∧ p.char ≤ e.span.start.char ∧
      e.span.start.char ≤ e.span.stop.char ∧ e.span.stop.char ≤ p.char + blen lit := by
  have h := (parseLiteral_safe (ovf := ovf) (p := p) h).2 e he
  rcases h with h | rfl
  · exact ⟨h.line1, h.line2, h.ge, h.le, h.stop⟩
  · exact ⟨rfl, rfl, Nat.le_refl _, Nat.le_add_right _ _, Nat.le_refl _⟩

/-- A literal with a diagnostic in the middle. -/
example : parseLiteral true "12:3x:00".toList (spanOf ⟨2, 5⟩ "12:3x:00".toList) =
    .err (.unexpectedCharInDateTime 'x' ⟨2, 9⟩) := by decide

/-! ## C62: booleans -/

/-- C62: a literal is a boolean if and only if it is spelled `true` or `false`. -/
theorem C62_bool {span : Span} {b : Bool} :
    parseLiteral ovf lit span = .ok (.bool b) ↔ lit = (if b then "true" else "false").toList :=
  parseLiteral_bool

end Verif.Props
