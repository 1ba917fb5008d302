import Verif.Toml.LitSafe

/-!
# Date-times: the literal parser and the grammar
-/

namespace Verif.Toml
open Verif Verif.Spec.Toml

/-! ## Fractions of a second -/

theorem valFrom_append (b a : Nat) (s t : Str) :
    valFrom b a (s ++ t) = valFrom b (valFrom b a s) t := by
  unfold valFrom; rw [List.foldl_append]

theorem valFrom_digit {c : Char} (hc : isDigit c = true) (a : Nat) (s : Str) :
    valFrom 10 a (c :: s) = valFrom 10 (a * 10 + digitVal c) s := by
  rw [valFrom_cons, if_neg (ne_under (by omega) ((isDigit_iff_digitOf c).1 hc)),
    digitOf_of_isDigit hc]

theorem valFrom_zeros (a k : Nat) : valFrom 10 a (List.replicate k '0') = a * 10 ^ k := by
  induction k generalizing a with
  | zero => simp
  | succ k ih =>
    rw [List.replicate_succ, valFrom_digit (by decide), ih, Nat.pow_succ]
    have : digitVal '0' = 0 := by decide
    rw [this, Nat.add_zero, Nat.mul_assoc, Nat.mul_comm 10]

/-- An offset or the end follows. -/
def OffsetHead (s : Str) : Prop := ∀ c ∈ s.head?, isOffsetStart c = true

theorem offsetHead_nil : OffsetHead [] := by simp [OffsetHead]

theorem isOffsetStart_iff {c : Char} :
    isOffsetStart c = true ↔ c = 'Z' ∨ c = 'z' ∨ c = '+' ∨ c = '-' := by
  simp [isOffsetStart, or_assoc]

theorem isOffsetStart_notDigit {c : Char} (h : isOffsetStart c = true) : isDigit c = false := by
  rcases isOffsetStart_iff.1 h with rfl | rfl | rfl | rfl <;> decide

theorem subsecLoop_ok {span : Span} {s : Str} : ∀ {i d m d' m' : Nat} {cur : Cur}, d ≤ 9 →
    (subsecLoop span i s d m = .ok (d', m', cur) ↔
      ∃ ds rest, s = ds ++ rest ∧ (∀ c ∈ ds, isDigit c = true) ∧ OffsetHead rest ∧
        d' = min 9 (d + ds.length) ∧ m' = valFrom 10 m (ds.take (9 - d)) ∧
        cur = ⟨i + ds.length, rest⟩) := by
  induction s with
  | nil =>
    intro i d m d' m' cur hd
    unfold subsecLoop
    simp only [Res.ok.injEq, Prod.mk.injEq]
    constructor
    · rintro ⟨rfl, rfl, rfl⟩
      exact ⟨[], [], rfl, by simp, offsetHead_nil, by simp; omega, by simp, rfl⟩
    · rintro ⟨ds, rest, h, -, -, rfl, rfl, rfl⟩
      simp only [List.nil_eq, List.append_eq_nil_iff] at h
      obtain ⟨rfl, rfl⟩ := h
      simp; omega
  | cons c cs ih =>
    intro i d m d' m' cur hd
    unfold subsecLoop
    by_cases hc : isDigit c = true
    · rw [if_pos hc]
      have hsplit : ∀ (P : Str → Str → Prop), (∃ ds rest, c :: cs = ds ++ rest ∧
          (∀ c ∈ ds, isDigit c = true) ∧ OffsetHead rest ∧ P ds rest) ↔
          ∃ ds rest, cs = ds ++ rest ∧ (∀ c ∈ ds, isDigit c = true) ∧ OffsetHead rest ∧
            P (c :: ds) rest := by
        intro P
        constructor
        · rintro ⟨ds, rest, h, h1, h2, h3⟩
          rcases ds with _ | ⟨x, ds⟩
          · simp only [List.nil_append] at h
            subst h
            have := isOffsetStart_notDigit (h2 c (by simp))
            rw [hc] at this; cases this
          · simp only [List.cons_append, List.cons.injEq] at h
            obtain ⟨rfl, rfl⟩ := h
            exact ⟨ds, rest, rfl, fun x hx => h1 x (by simp [hx]), h2, h3⟩
        · rintro ⟨ds, rest, rfl, h1, h2, h3⟩
          refine ⟨c :: ds, rest, rfl, ?_, h2, h3⟩
          intro x hx
          simp only [List.mem_cons] at hx
          rcases hx with rfl | hx
          · exact hc
          · exact h1 x hx
      rw [hsplit (fun ds rest => d' = min 9 (d + ds.length) ∧ m' = valFrom 10 m (ds.take (9 - d)) ∧
        cur = ⟨i + ds.length, rest⟩)]
      have h1 := isDigit_utf8Size hc
      by_cases h9 : d < 9
      · rw [if_pos h9, ih (by omega)]
        have e9 : 9 - d = (9 - (d + 1)) + 1 := by omega
        simp only [e9, List.take_succ_cons, valFrom_digit hc, List.length_cons, h1]
        constructor
        · rintro ⟨ds, rest, h1, h2, h3, h4, h5, h6⟩
          exact ⟨ds, rest, h1, h2, h3, by rw [h4]; congr 1; omega, h5, by rw [h6]; congr 1; omega⟩
        · rintro ⟨ds, rest, h1, h2, h3, h4, h5, h6⟩
          exact ⟨ds, rest, h1, h2, h3, by rw [h4]; congr 1; omega, h5, by rw [h6]; congr 1; omega⟩
      · have : d = 9 := by omega
        subst this
        rw [if_neg h9, ih (by omega)]
        simp only [Nat.sub_self, List.take_zero, List.length_cons, h1]
        constructor
        · rintro ⟨ds, rest, h1, h2, h3, h4, h5, h6⟩
          exact ⟨ds, rest, h1, h2, h3, by omega, h5, by rw [h6]; congr 1; omega⟩
        · rintro ⟨ds, rest, h1, h2, h3, h4, h5, h6⟩
          exact ⟨ds, rest, h1, h2, h3, by omega, h5, by rw [h6]; congr 1; omega⟩
    · rw [if_neg hc]
      have hds : ∀ {ds rest : Str}, c :: cs = ds ++ rest → (∀ c ∈ ds, isDigit c = true) →
          ds = [] ∧ rest = c :: cs := by
        intro ds rest h h1
        rcases ds with _ | ⟨x, ds⟩
        · exact ⟨rfl, by simpa using h.symm⟩
        · simp only [List.cons_append, List.cons.injEq] at h
          exact absurd (h1 x (by simp)) (by rw [← h.1]; exact hc)
      by_cases ho : isOffsetStart c = true
      · rw [if_pos ho]
        simp only [Res.ok.injEq, Prod.mk.injEq]
        constructor
        · rintro ⟨rfl, rfl, rfl⟩
          exact ⟨[], c :: cs, rfl, by simp, by intro x hx; simp at hx; subst hx; exact ho,
            by simp; omega, by simp, rfl⟩
        · rintro ⟨ds, rest, h, h1, -, rfl, rfl, rfl⟩
          obtain ⟨rfl, rfl⟩ := hds h h1
          simp; omega
      · rw [if_neg ho]
        simp only [unexpectedCharError, reduceCtorEq, false_iff]
        rintro ⟨ds, rest, h, h1, h2, -⟩
        obtain ⟨rfl, rfl⟩ := hds h h1
        exact ho (h2 c (by simp))

theorem nanos_eq (ds : Str) :
    valFrom 10 0 (ds.take 9) * 10 ^ (9 - min 9 ds.length) =
      numeral 10 ((ds ++ List.replicate 9 '0').take 9) := by
  rw [numeral_eq]
  by_cases h : ds.length ≤ 9
  · rw [List.take_append, List.take_of_length_le h, List.take_replicate, valFrom_append,
      valFrom_zeros]
    congr 2
    omega
  · rw [List.take_append_of_le_length (by omega)]
    have : min 9 ds.length = 9 := by omega
    rw [this]; simp

theorem parseSubsec_ok {span : Span} {i : Nat} {s : Str} {m : Nat} {cur : Cur} :
    parseSubsec ⟨i, s⟩ span = .ok (m, cur) ↔
      ∃ ds rest, s = ds ++ rest ∧ ds ≠ [] ∧ (∀ c ∈ ds, isDigit c = true) ∧ OffsetHead rest ∧
        m = numeral 10 ((ds ++ List.replicate 9 '0').take 9) ∧
        cur = ⟨i + ds.length, rest⟩ := by
  unfold parseSubsec
  simp only [Res.bind_eq_ok]
  constructor
  · rintro ⟨⟨d', m', cur'⟩, h, h2⟩
    obtain ⟨ds, rest, rfl, h3, h4, rfl, rfl, rfl⟩ := (subsecLoop_ok (by omega)).1 h
    dsimp only at h2
    split at h2
    · cases h2
    · rename_i hne
      simp only [Res.pure_eq, Res.ok.injEq, Prod.mk.injEq] at h2
      obtain ⟨rfl, rfl⟩ := h2
      refine ⟨ds, rest, rfl, ?_, h3, h4, ?_, rfl⟩
      · rintro rfl; simp at hne
      · rw [← nanos_eq]; simp
  · rintro ⟨ds, rest, rfl, hne, h3, h4, rfl, rfl⟩
    refine ⟨(min 9 ds.length, valFrom 10 0 (ds.take 9), ⟨i + ds.length, rest⟩),
      (subsecLoop_ok (by omega)).2 ⟨ds, rest, rfl, h3, h4, by simp, by simp, rfl⟩, ?_⟩
    have : ds.length ≠ 0 := by simpa using hne
    dsimp only
    rw [if_neg (by omega), nanos_eq]
    rfl

theorem isDigit_all_blen {ds : Str} (h : ∀ c ∈ ds, isDigit c = true) : blen ds = ds.length :=
  blen_eq_length_of_digits (by simpa using h)

theorem two_ne {m : Nat} : two m ≠ [] := by simp [two]

/-- `two` is injective on numbers below 100. -/
theorem two_append_inj {m k : Nat} {s t : Str} (hm : m < 100) (hk : k < 100)
    (h : two m ++ s = two k ++ t) : m = k ∧ s = t := by
  unfold two at h
  simp only [List.cons_append, List.nil_append, List.cons.injEq] at h
  obtain ⟨h1, h2, h3⟩ := h
  have e1 := congrArg digitVal h1
  have e2 := congrArg digitVal h2
  rw [digitVal_digitChar (by omega), digitVal_digitChar (by omega)] at e1 e2
  exact ⟨by omega, h3⟩

/-! ## Times -/

theorem optSubsec_ok {span : Span} {i : Nat} {s : Str} {m : Nat} {cur : Cur} :
    (∃ c1, optSubsec ⟨i, s⟩ span = .ok (m, c1) ∧ OffsetHead c1.rest ∧ cur = c1) ↔
      ∃ frac rest, s = frac ++ rest ∧ SecFrac m frac ∧ OffsetHead rest ∧
        cur = ⟨i + frac.length, rest⟩ := by
  unfold optSubsec
  rcases s with _ | ⟨c, cs⟩
  · simp only [Res.pure_eq, Res.ok.injEq, Prod.mk.injEq]
    constructor
    · rintro ⟨c1, ⟨rfl, rfl⟩, h, rfl⟩
      exact ⟨[], [], rfl, .inl ⟨rfl, rfl⟩, h, rfl⟩
    · rintro ⟨frac, rest, h, hs, ho, rfl⟩
      simp only [List.nil_eq, List.append_eq_nil_iff] at h
      obtain ⟨rfl, rfl⟩ := h
      rcases hs with ⟨-, rfl⟩ | ⟨ds, h, -⟩
      · exact ⟨_, ⟨rfl, rfl⟩, ho, rfl⟩
      · cases h
  · dsimp only
    by_cases hc : c = '.'
    · subst hc
      rw [if_pos rfl]
      unfold Cur.adv
      simp only [parseSubsec_ok, show '.'.utf8Size = 1 by decide]
      constructor
      · rintro ⟨c1, ⟨ds, rest, rfl, hne, h1, h2, rfl, rfl⟩, ho, rfl⟩
        exact ⟨'.' :: ds, rest, rfl, .inr ⟨ds, rfl, hne, h1, rfl⟩, h2, by
          simp only [List.length_cons, Cur.mk.injEq, and_true]; omega⟩
      · rintro ⟨frac, rest, h, hs, ho, rfl⟩
        rcases hs with ⟨rfl, -⟩ | ⟨ds, rfl, hne, h1, rfl⟩
        · simp only [List.nil_append] at h
          subst h
          exact absurd (ho '.' (by simp)) (by decide)
        · simp only [List.cons_append, List.cons.injEq, true_and] at h
          refine ⟨_, ⟨ds, rest, h, hne, h1, ho, rfl, rfl⟩, ho, ?_⟩
          simp only [List.length_cons, Cur.mk.injEq, and_true]; omega
    · rw [if_neg hc]
      simp only [Res.pure_eq, Res.ok.injEq, Prod.mk.injEq]
      constructor
      · rintro ⟨c1, ⟨rfl, rfl⟩, h, rfl⟩
        exact ⟨[], c :: cs, rfl, .inl ⟨rfl, rfl⟩, h, rfl⟩
      · rintro ⟨frac, rest, h, hs, ho, rfl⟩
        rcases hs with ⟨rfl, rfl⟩ | ⟨ds, rfl, -⟩
        · simp only [List.nil_append] at h; subst h
          exact ⟨_, ⟨rfl, rfl⟩, ho, rfl⟩
        · simp only [List.cons_append, List.cons.injEq] at h
          exact absurd h.1 hc

theorem colon_utf8 : ':'.utf8Size = 1 := by decide
theorem dash_utf8 : '-'.utf8Size = 1 := by decide

theorem continueParsingTime_ok {span : Span} {i : Nat} {s : Str} {hour : Nat} {t : Time}
    {cur : Cur} :
    continueParsingTime ⟨i, s⟩ span hour = .ok (t, cur) ↔
      ∃ ms rest, s = ms ++ rest ∧ MinSecText t ms ∧ OffsetHead rest ∧ t.hour = hour ∧
        cur = ⟨i + ms.length, rest⟩ := by
  unfold continueParsingTime
  simp only [Res.bind_eq_ok]
  have hfin : ∀ (h m sec n : Nat) (c1 : Cur),
      ((match c1 with
        | ⟨i, c :: cs⟩ =>
          if isOffsetStart c then pure (⟨h, m, sec, n⟩, ⟨i, c :: cs⟩)
          else unexpectedCharError c span i
        | ⟨i, []⟩ => pure (⟨h, m, sec, n⟩, ⟨i, []⟩) : Res Error (Time × Cur)) = .ok (t, cur)) ↔
      t = ⟨h, m, sec, n⟩ ∧ OffsetHead c1.rest ∧ cur = c1 := by
    intro h m sec n c1
    rcases c1 with ⟨j, _ | ⟨c, cs⟩⟩
    · simp only [Res.pure_eq, Res.ok.injEq, Prod.mk.injEq, offsetHead_nil, true_and]
      exact ⟨fun h => ⟨h.1.symm, h.2.symm⟩, fun h => ⟨h.1.symm, h.2.symm⟩⟩
    · dsimp only
      by_cases ho : isOffsetStart c = true
      · rw [if_pos ho]
        have hoh : OffsetHead (c :: cs) := by
          intro x hx; simp at hx; subst hx; exact ho
        simp only [Res.pure_eq, Res.ok.injEq, Prod.mk.injEq, hoh, true_and]
        exact ⟨fun h => ⟨h.1.symm, h.2.symm⟩, fun h => ⟨h.1.symm, h.2.symm⟩⟩
      · rw [if_neg ho]
        have hoh : ¬ OffsetHead (c :: cs) := fun h => ho (h c (by simp))
        simp [unexpectedCharError, hoh]
  constructor
  · rintro ⟨⟨m, c1⟩, h1, c2, h2, ⟨sec, c3⟩, h3, ⟨n, c4⟩, h4, h5⟩
    obtain ⟨rfl, ho, rfl⟩ := (hfin _ _ _ _ _).1 h5
    obtain ⟨s1, rfl, rfl, -, hm⟩ := (expectNumIn_ok (by omega)).1 h1
    obtain ⟨s2, rfl, rfl⟩ := (expectChar_ok colon_utf8).1 h2
    obtain ⟨s3, rfl, rfl, -, hs⟩ := (expectNumIn_ok (by omega)).1 h3
    obtain ⟨frac, rest, rfl, hf, ho, rfl⟩ := optSubsec_ok.1 ⟨cur, h4, ho, rfl⟩
    refine ⟨two m ++ ':' :: two sec ++ frac, rest, by simp, ⟨frac, rfl, hm, hs, hf⟩, ho, rfl, ?_⟩
    simp only [Cur.mk.injEq, and_true, two, List.length_append, List.length_cons, List.length_nil]
    omega
  · rintro ⟨ms, rest, rfl, ⟨frac, rfl, hm, hs, hf⟩, ho, rfl, rfl⟩
    obtain ⟨c4, h4, ho', he⟩ := optSubsec_ok.2 (show ∃ frac' rest', frac ++ rest = frac' ++ rest' ∧
      SecFrac t.nanos frac' ∧ OffsetHead rest' ∧
        (⟨i + 2 + 1 + 2 + frac.length, rest⟩ : Cur) = ⟨i + 2 + 1 + 2 + frac'.length, rest'⟩ from
      ⟨frac, rest, rfl, hf, ho, rfl⟩)
    subst he
    refine ⟨(t.minute, ⟨i + 2, ':' :: two t.second ++ (frac ++ rest)⟩),
      (expectNumIn_ok (by omega)).2 ⟨_, by simp, rfl, by omega, hm⟩,
      ⟨i + 2 + 1, two t.second ++ (frac ++ rest)⟩,
      (expectChar_ok colon_utf8).2 ⟨_, rfl, rfl⟩,
      (t.second, ⟨i + 2 + 1 + 2, frac ++ rest⟩),
      (expectNumIn_ok (by omega)).2 ⟨_, rfl, rfl, by omega, hs⟩,
      (t.nanos, _), h4, ?_⟩
    refine (hfin _ _ _ _ _).2 ⟨rfl, ho', ?_⟩
    simp only [Cur.mk.injEq, and_true, two, List.length_append, List.length_cons, List.length_nil]
    omega

theorem continueParsingLocalTime_ok {span : Span} {i : Nat} {s : Str} {hour : Nat} {t : Time} :
    continueParsingLocalTime ⟨i, s⟩ span hour = .ok t ↔
      MinSecText t s ∧ t.hour = hour ∧ hour ≤ 23 := by
  unfold continueParsingLocalTime
  simp only [Res.bind_eq_ok]
  constructor
  · rintro ⟨u1, h1, ⟨t', c1⟩, h2, u2, h3, h4⟩
    simp only [Res.pure_eq, Res.ok.injEq] at h4
    subst h4
    obtain ⟨ms, rest, rfl, hm, ho, rfl, rfl⟩ := continueParsingTime_ok.1 h2
    have hh : t'.hour ≤ 23 := by
      unfold checkRange at h1
      split at h1
      · omega
      · simp at h1
    rcases rest with _ | ⟨c, cs⟩
    · simpa using ⟨hm, hh⟩
    · simp [errorOnOffset] at h3
      split at h3 <;> simp at h3
  · rintro ⟨hm, rfl, hh⟩
    refine ⟨(), by simp [checkRange, hh], (t, ⟨i + s.length, []⟩),
      continueParsingTime_ok.2 ⟨s, [], by simp, hm, offsetHead_nil, rfl, rfl⟩, (), rfl, rfl⟩

/-! ## Offsets -/

theorem parseOffset_ok {span : Span} {i : Nat} {s : Str} {m : Int} :
    (∃ cur, parseOffset ⟨i, s⟩ span = .ok (m, cur)) ↔
      ∃ h k rest, s = two h ++ ':' :: two k ++ rest ∧ h ≤ 23 ∧ k ≤ 59 ∧ m = 60 * (h : Int) + k := by
  unfold parseOffset
  simp only [Res.bind_eq_ok]
  constructor
  · rintro ⟨cur, ⟨h, c1⟩, h1, c2, h2, ⟨k, c3⟩, h3, h4⟩
    obtain ⟨s1, rfl, rfl, -, hh⟩ := (expectNumIn_ok (by omega)).1 h1
    obtain ⟨s2, rfl, rfl⟩ := (expectChar_ok colon_utf8).1 h2
    obtain ⟨s3, rfl, rfl, -, hk⟩ := (expectNumIn_ok (by omega)).1 h3
    simp only [Res.pure_eq, Res.ok.injEq, Prod.mk.injEq] at h4
    exact ⟨h, k, s3, by simp, hh, hk, h4.1.symm⟩
  · rintro ⟨h, k, rest, rfl, hh, hk, rfl⟩
    exact ⟨⟨i + 2 + 1 + 2, rest⟩, (h, ⟨i + 2, ':' :: two k ++ rest⟩),
      (expectNumIn_ok (by omega)).2 ⟨_, by simp, rfl, by omega, hh⟩,
      ⟨i + 2 + 1, two k ++ rest⟩, (expectChar_ok colon_utf8).2 ⟨_, rfl, rfl⟩,
      (k, ⟨i + 2 + 1 + 2, rest⟩), (expectNumIn_ok (by omega)).2 ⟨_, rfl, rfl, by omega, hk⟩, rfl⟩

/-- What may stand behind a time: nothing, or an offset and anything else. -/
def OffTail : Option Offset → Str → Prop
  | none, s => s = []
  | some o, s => ∃ os junk, s = os ++ junk ∧ OffsetText o os

theorem OffTail.head {o : Option Offset} {s : Str} (h : OffTail o s) : OffsetHead s := by
  cases o with
  | none => cases h; exact offsetHead_nil
  | some o =>
    obtain ⟨os, junk, rfl, ho⟩ := h
    intro c hc
    cases ho with
    | utc hz =>
      simp at hc; subst hc
      rcases hz with rfl | rfl <;> decide
    | east => simp at hc; subst hc; decide
    | west => simp at hc; subst hc; decide

theorem tryToParseOffset_ok {span : Span} {i : Nat} {s : Str} {o : Option Offset} :
    (∃ cur, tryToParseOffset ⟨i, s⟩ span = .ok (o, cur)) ↔ OffTail o s := by
  unfold tryToParseOffset
  rcases s with _ | ⟨c, cs⟩
  · simp only [Res.ok.injEq, Prod.mk.injEq]
    constructor
    · rintro ⟨cur, rfl, -⟩; rfl
    · intro h
      cases o with
      | none => exact ⟨_, rfl, rfl⟩
      | some o =>
        obtain ⟨os, junk, h, ho⟩ := h
        simp only [List.nil_eq, List.append_eq_nil_iff] at h
        rw [h.1] at ho
        cases ho
  · dsimp only
    by_cases hz : c = 'Z' ∨ c = 'z'
    · rw [if_pos hz]
      simp only [Res.ok.injEq, Prod.mk.injEq]
      constructor
      · rintro ⟨cur, rfl, -⟩
        exact ⟨[c], cs, rfl, .utc hz⟩
      · intro h
        cases o with
        | none => cases h
        | some o =>
          obtain ⟨os, junk, h, ho⟩ := h
          cases ho with
          | utc => exact ⟨_, rfl, rfl⟩
          | east =>
            simp only [List.cons_append, List.cons.injEq] at h
            rw [h.1] at hz; exact absurd hz (by decide)
          | west =>
            simp only [List.cons_append, List.cons.injEq] at h
            rw [h.1] at hz; exact absurd hz (by decide)
    rw [if_neg hz]
    by_cases hp : c = '+'
    · subst hp
      rw [if_pos rfl]
      simp only [Res.bind_eq_ok, Res.pure_eq, Res.ok.injEq, Prod.mk.injEq, Cur.adv]
      constructor
      · rintro ⟨cur, ⟨m, c1⟩, hpo, rfl, -⟩
        obtain ⟨h, k, rest, rfl, hh, hk, rfl⟩ := parseOffset_ok.1 ⟨c1, hpo⟩
        exact ⟨'+' :: two h ++ ':' :: two k, rest, by simp, .east hh hk⟩
      · intro h
        cases o with
        | none => cases h
        | some o =>
          obtain ⟨os, junk, h, ho⟩ := h
          cases ho with
          | utc hz' =>
            simp only [List.cons_append, List.cons.injEq] at h
            rw [h.1] at hz; exact absurd hz' hz
          | @east hh k h1 h2 =>
            simp only [List.cons_append, List.cons.injEq, true_and] at h
            obtain ⟨cur, hcur⟩ := parseOffset_ok.2
              (show ∃ h' k' rest, cs = two h' ++ ':' :: two k' ++ rest ∧ h' ≤ 23 ∧ k' ≤ 59 ∧
                (60 * (hh : Int) + k) = 60 * (h' : Int) + k' from
                ⟨hh, k, junk, by rw [h], h1, h2, rfl⟩)
            exact ⟨cur, (_, cur), hcur, rfl, rfl⟩
          | west =>
            simp only [List.cons_append, List.cons.injEq] at h
            exact absurd h.1 (by decide)
    rw [if_neg hp]
    by_cases hm : c = '-'
    · subst hm
      rw [if_pos rfl]
      simp only [Res.bind_eq_ok, Res.pure_eq, Res.ok.injEq, Prod.mk.injEq, Cur.adv]
      constructor
      · rintro ⟨cur, ⟨m, c1⟩, hpo, rfl, -⟩
        obtain ⟨h, k, rest, rfl, hh, hk, rfl⟩ := parseOffset_ok.1 ⟨c1, hpo⟩
        exact ⟨'-' :: two h ++ ':' :: two k, rest, by simp, .west hh hk⟩
      · intro h
        cases o with
        | none => cases h
        | some o =>
          obtain ⟨os, junk, h, ho⟩ := h
          cases ho with
          | utc hz' =>
            simp only [List.cons_append, List.cons.injEq] at h
            rw [h.1] at hz; exact absurd hz' hz
          | @west hh k h1 h2 =>
            simp only [List.cons_append, List.cons.injEq, true_and] at h
            obtain ⟨cur, hcur⟩ := parseOffset_ok.2
              (show ∃ h' k' rest, cs = two h' ++ ':' :: two k' ++ rest ∧ h' ≤ 23 ∧ k' ≤ 59 ∧
                (60 * (hh : Int) + k) = 60 * (h' : Int) + k' from
                ⟨hh, k, junk, by rw [h], h1, h2, rfl⟩)
            exact ⟨cur, (_, cur), hcur, rfl, rfl⟩
          | east =>
            simp only [List.cons_append, List.cons.injEq] at h
            exact absurd h.1 (by decide)
    rw [if_neg hm]
    simp only [unexpectedCharError, reduceCtorEq, exists_false, false_iff]
    intro h
    have := h.head c (by simp)
    rcases isOffsetStart_iff.1 this with rfl | rfl | rfl | rfl
    · exact hz (.inl rfl)
    · exact hz (.inr rfl)
    · exact hp rfl
    · exact hm rfl

theorem parseTimeAndOffset_ok {span : Span} {i : Nat} {s : Str} {t : Time} {o : Option Offset} :
    (∃ cur, parseTimeAndOffset ⟨i, s⟩ span = .ok ((t, o), cur)) ↔
      ∃ ts tail, s = ts ++ tail ∧ TimeText t ts ∧ OffTail o tail := by
  unfold parseTimeAndOffset
  simp only [Res.bind_eq_ok]
  constructor
  · rintro ⟨cur, ⟨h, c1⟩, h1, c2, h2, ⟨t', c3⟩, h3, ⟨o', c4⟩, h4, h5⟩
    obtain ⟨s1, rfl, rfl, -, hh⟩ := (expectNumIn_ok (by omega)).1 h1
    obtain ⟨s2, rfl, rfl⟩ := (expectChar_ok colon_utf8).1 h2
    obtain ⟨ms, rest, rfl, hm, ho, rfl, rfl⟩ := continueParsingTime_ok.1 h3
    simp only [Res.pure_eq, Res.ok.injEq, Prod.mk.injEq] at h5
    obtain ⟨⟨rfl, rfl⟩, rfl⟩ := h5
    have := tryToParseOffset_ok.1 ⟨c4, h4⟩
    exact ⟨two t'.hour ++ ':' :: ms, rest, by simp, ⟨ms, rfl, hh, hm⟩, this⟩
  · rintro ⟨ts, tail, rfl, ⟨ms, rfl, hh, hm⟩, ho⟩
    obtain ⟨c4, h4⟩ := tryToParseOffset_ok (span := span) (i := i + 2 + 1 + ms.length).2 ho
    exact ⟨c4, (t.hour, ⟨i + 2, ':' :: (ms ++ tail)⟩),
      (expectNumIn_ok (by omega)).2 ⟨_, by simp, rfl, by omega, hh⟩,
      ⟨i + 2 + 1, ms ++ tail⟩, (expectChar_ok colon_utf8).2 ⟨_, rfl, rfl⟩,
      (t, ⟨i + 2 + 1 + ms.length, tail⟩),
      continueParsingTime_ok.2 ⟨ms, tail, rfl, hm, ho.head, rfl, rfl⟩,
      (o, c4), h4, rfl⟩

/-! ## Dates -/

theorem maxDay_eq (y m : Nat) : maxDay y m = daysIn y m := by
  unfold maxDay daysIn
  dsimp only
  split
  · rename_i h; subst h
    have : (y % 4 = 0 ∧ (y % 100 ≠ 0 ∨ y % 400 = 0)) ↔
        (y % 400 = 0 ∨ y % 4 = 0 ∧ y % 100 ≠ 0) := by omega
    simp only [this]
  · split
    · rename_i h
      rcases h with rfl | rfl | rfl | rfl <;> rfl
    · rename_i h1 h2
      split
      · exact absurd rfl h1
      all_goals first | rfl | (exfalso; apply h2; simp)

theorem daysIn_lt (y m : Nat) : daysIn y m < 100 := by
  unfold daysIn
  split <;> first | omega | (split <;> omega)

/-- A month and a day of the given year. -/
def MonthDay (y m d : Nat) : Prop := 1 ≤ m ∧ m ≤ 12 ∧ 1 ≤ d ∧ d ≤ daysIn y m

theorem afterYear_ok {span : Span} {i : Nat} {s : Str} {y : Nat} {v : PartialValue} :
    continueParsingDateTimeAfterYear ⟨i, s⟩ span y = .ok v ↔
      ∃ m d rest, s = two m ++ '-' :: two d ++ rest ∧ MonthDay y m d ∧
        ((rest = [] ∧ v = .partialDate ⟨y, m, d⟩) ∨
          ∃ sep ts tail t o, rest = sep :: (ts ++ tail) ∧ (sep = 'T' ∨ sep = 't') ∧ TimeText t ts ∧
            OffTail o tail ∧ v = .dateTime (.fromOptionalOffset ⟨y, m, d⟩ t o)) := by
  unfold continueParsingDateTimeAfterYear
  simp only [Res.bind_eq_ok]
  constructor
  · rintro ⟨⟨m, c1⟩, h1, c2, h2, ⟨d, c3⟩, h3, h4⟩
    obtain ⟨s1, rfl, rfl, hm1, hm2⟩ := (expectNumIn_ok (by omega)).1 h1
    obtain ⟨s2, rfl, rfl⟩ := (expectChar_ok dash_utf8).1 h2
    rw [maxDay_eq] at h3
    obtain ⟨s3, rfl, rfl, hd1, hd2⟩ := (expectNumIn_ok (daysIn_lt y m)).1 h3
    refine ⟨m, d, s3, by simp, ⟨hm1, hm2, hd1, hd2⟩, ?_⟩
    rcases s3 with _ | ⟨c, cs⟩
    · simp only [Res.pure_eq, Res.ok.injEq] at h4
      exact .inl ⟨rfl, h4.symm⟩
    · dsimp only at h4
      split at h4
      · rename_i hT
        simp only [Res.bind_eq_ok] at h4
        obtain ⟨⟨⟨t, o⟩, c4⟩, h5, h6⟩ := h4
        simp only [Res.pure_eq, Res.ok.injEq] at h6
        obtain ⟨ts, tail, rfl, ht, ho⟩ := parseTimeAndOffset_ok.1 ⟨c4, h5⟩
        exact .inr ⟨c, ts, tail, t, o, rfl, hT, ht, ho, h6.symm⟩
      · split at h4 <;> simp at h4
  · rintro ⟨m, d, rest, rfl, ⟨hm1, hm2, hd1, hd2⟩, h⟩
    refine ⟨(m, ⟨i + 2, '-' :: two d ++ rest⟩),
      (expectNumIn_ok (by omega)).2 ⟨_, by simp, rfl, hm1, hm2⟩,
      ⟨i + 2 + 1, two d ++ rest⟩, (expectChar_ok dash_utf8).2 ⟨_, rfl, rfl⟩,
      (d, ⟨i + 2 + 1 + 2, rest⟩), ?_, ?_⟩
    · rw [maxDay_eq]
      exact (expectNumIn_ok (daysIn_lt y m)).2 ⟨_, rfl, rfl, hd1, hd2⟩
    · rcases h with ⟨rfl, rfl⟩ | ⟨sep, ts, tail, t, o, rfl, hT, ht, ho, rfl⟩
      · rfl
      · dsimp only
        rw [if_pos hT]
        obtain ⟨c4, h4⟩ := parseTimeAndOffset_ok (span := span)
          (i := i + 2 + 1 + 2 + sep.utf8Size).2 ⟨ts, tail, rfl, ht, ho⟩
        simp only [Res.bind_eq_ok]
        exact ⟨((t, o), c4), h4, rfl⟩

/-- The parsed value is a date, a time or both. -/
def Dateish (v : PartialValue) : Prop := (∃ d, v = .dateTime d) ∨ ∃ d, v = .partialDate d

theorem orInvalid_dateish {r : Res Error PartialValue} {v : PartialValue} (hv : Dateish v) :
    orInvalidDateTime r = .ok v ↔ r = .ok v := by
  cases r with
  | ok w => rfl
  | err e =>
    simp only [orInvalidDateTime, Res.ok.injEq, reduceCtorEq, iff_false]
    rintro rfl
    rcases hv with ⟨d, h⟩ | ⟨d, h⟩ <;> cases h
  | panic => simp [orInvalidDateTime]

/-- Digits with underscores that do not follow each other. -/
inductive UMid : Bool → Str → Prop
  | nil {l : Bool} : UMid l []
  | digit {c : Char} {s : Str} {l : Bool} : isDigit c = true → UMid false s → UMid l (c :: s)
  | under {s : Str} : UMid true s → UMid false ('_' :: s)

theorem umid_cons {l : Bool} {c : Char} {s : Str} :
    UMid l (c :: s) ↔ (isDigit c = true ∧ UMid false s) ∨ (c = '_' ∧ l = false ∧ UMid true s) := by
  constructor
  · intro h
    cases h with
    | digit h1 h2 => exact .inl ⟨h1, h2⟩
    | under h => exact .inr ⟨rfl, rfl, h⟩
  · rintro (⟨h1, h2⟩ | ⟨rfl, rfl, h⟩)
    · exact .digit h1 h2
    · exact .under h

theorem Dateish.ne_float {v : PartialValue} (hv : Dateish v) (f : FloatVal) : v ≠ .float f := by
  rintro rfl; rcases hv with ⟨d, h⟩ | ⟨d, h⟩ <;> cases h

theorem Dateish.ne_int {v : PartialValue} (hv : Dateish v) (f : Int) : v ≠ .int f := by
  rintro rfl; rcases hv with ⟨d, h⟩ | ⟨d, h⟩ <;> cases h

theorem Dateish.ne_bool {v : PartialValue} (hv : Dateish v) (f : Bool) : v ≠ .bool f := by
  rintro rfl; rcases hv with ⟨d, h⟩ | ⟨d, h⟩ <;> cases h

theorem Dateish.ne_invalid {v : PartialValue} (hv : Dateish v) (e : Error) :
    v ≠ .invalidDateTime e := by
  rintro rfl; rcases hv with ⟨d, h⟩ | ⟨d, h⟩ <;> cases h

/-- Behind four digits or behind a sign there is no date any more. -/
theorem decimalLoop_late {ovf : Bool} {lit : Str} {span : Span} {sg : Option Sign} {s : Str}
    {v : PartialValue} (hv : Dateish v) : ∀ {i : Nat} {acc : Int} {over last : Bool},
    (5 ≤ i ∨ sg ≠ none) → decimalLoop ovf lit span sg i s acc over last ≠ .ok v := by
  induction s with
  | nil =>
    intro i acc over last hi h
    unfold decimalLoop at h
    split at h
    · simp [Res.bind_eq_ok] at h
    · split at h
      · simp at h
      · simp only [Res.pure_eq, Res.ok.injEq] at h
        exact hv.ne_int _ h.symm
  | cons c cs ih =>
    intro i acc over last hi h
    have hi' : 5 ≤ i + c.utf8Size ∨ sg ≠ none := hi.imp (fun h => by omega) id
    unfold decimalLoop at h
    dsimp only at h
    split at h
    · split at h
      · exact ih hi' h
      · split at h <;> exact ih hi' h
    split at h
    · split at h
      · simp [Res.bind_eq_ok] at h
      · simp only [Res.bind_eq_ok, Res.pure_eq, Res.ok.injEq] at h
        obtain ⟨f, -, h⟩ := h
        exact hv.ne_float _ h.symm
    split at h
    · split at h
      · simp [Res.bind_eq_ok] at h
      · simp only [Res.bind_eq_ok, Res.pure_eq, Res.ok.injEq] at h
        obtain ⟨f, -, h⟩ := h
        exact hv.ne_float _ h.symm
    split at h
    · rename_i h'
      rcases hi with hi | hi
      · omega
      · exact hi h'.2.1
    split at h
    · rename_i h'
      rcases hi with hi | hi
      · omega
      · exact hi h'.2.1
    split at h
    · simp at h
    split at h
    · split at h
      · simp only [Res.pure_eq, Res.ok.injEq] at h
        exact hv.ne_invalid _ h.symm
      · split at h
        · simp only [Res.pure_eq, Res.ok.injEq] at h
          exact hv.ne_invalid _ h.symm
        · simp at h
    split at h
    · split at h
      · exact consec_ne_ok _ _ _ h
      · exact ih hi' h
    · simp at h

theorem truncU8 {a : Nat} (h : a < 256) : truncU 8 (a : Int) = a := by
  unfold truncU; omega

theorem truncU16 {a : Nat} (h : a < 65536) : truncU 16 (a : Int) = a := by
  unfold truncU; omega

/-- The text of a local time or a date behind the first digits. -/
def DateTail (last : Bool) (span : Span) (i a : Nat) (s : Str) (v : PartialValue) : Prop :=
  (∃ u r t, s = u ++ ':' :: r ∧ UMid last u ∧ i + u.length = 2 ∧
    continueParsingLocalTime ⟨3, r⟩ span (valFrom 10 a u) = .ok t ∧ v = .dateTime (.localTime t)) ∨
  (∃ u r, s = u ++ '-' :: r ∧ UMid last u ∧ i + u.length = 4 ∧
    continueParsingDateTimeAfterYear ⟨5, r⟩ span (valFrom 10 a u) = .ok v)

theorem UMid.chars {l : Bool} {u : Str} (h : UMid l u) : ∀ c ∈ u, isDigit c = true ∨ c = '_' := by
  induction h with
  | nil => simp
  | digit hc _ ih =>
    intro c hc'
    simp only [List.mem_cons] at hc'
    rcases hc' with rfl | hc'
    · exact .inl hc
    · exact ih c hc'
  | under _ ih =>
    intro c hc'
    simp only [List.mem_cons] at hc'
    rcases hc' with rfl | hc'
    · exact .inr rfl
    · exact ih c hc'

/-- `DateTail` steps over a digit or an underscore. -/
theorem dateTail_step {last last' : Bool} {span : Span} {i a a' : Nat} {c : Char} {s : Str}
    {v : PartialValue} (hv : ∀ u, valFrom 10 a (c :: u) = valFrom 10 a' u)
    (hc : isDigit c = true ∨ c = '_')
    (hu : ∀ u, UMid last (c :: u) ↔ UMid last' u) :
    DateTail last span i a (c :: s) v ↔ DateTail last' span (i + 1) a' s v := by
  have hne : c ≠ ':' ∧ c ≠ '-' := by
    rcases hc with hc | rfl
    · constructor <;> (rintro rfl; revert hc; decide)
    · decide
  unfold DateTail
  constructor
  · rintro (⟨u, r, t, h, hm, hl, h1, h2⟩ | ⟨u, r, h, hm, hl, h1⟩)
    · rcases u with _ | ⟨x, u⟩
      · simp only [List.nil_append, List.cons.injEq] at h
        exact absurd h.1 hne.1
      · simp only [List.cons_append, List.cons.injEq] at h
        obtain ⟨rfl, rfl⟩ := h
        rw [hv] at h1
        simp only [List.length_cons] at hl
        exact .inl ⟨u, r, t, rfl, (hu u).1 hm, by omega, h1, h2⟩
    · rcases u with _ | ⟨x, u⟩
      · simp only [List.nil_append, List.cons.injEq] at h
        exact absurd h.1 hne.2
      · simp only [List.cons_append, List.cons.injEq] at h
        obtain ⟨rfl, rfl⟩ := h
        rw [hv] at h1
        simp only [List.length_cons] at hl
        exact .inr ⟨u, r, rfl, (hu u).1 hm, by omega, h1⟩
  · rintro (⟨u, r, t, rfl, hm, hl, h1, h2⟩ | ⟨u, r, rfl, hm, hl, h1⟩)
    · exact .inl ⟨c :: u, r, t, rfl, (hu u).2 hm, by simp; omega, by rw [hv]; exact h1, h2⟩
    · exact .inr ⟨c :: u, r, rfl, (hu u).2 hm, by simp; omega, by rw [hv]; exact h1⟩

theorem dateTail_late {last : Bool} {span : Span} {i a : Nat} {s : Str} {v : PartialValue}
    (hi : 5 ≤ i) : ¬ DateTail last span i a s v := by
  rintro (⟨u, r, t, -, -, h, -⟩ | ⟨u, r, -, -, h, -⟩) <;> omega

/-- Neither `:` nor `-` nor a digit or underscore comes next. -/
theorem dateTail_other {last : Bool} {span : Span} {i a : Nat} {c : Char} {s : Str}
    {v : PartialValue} (h1 : isDigit c = false) (h2 : c ≠ '_') (h3 : c = ':' → i ≠ 2)
    (h4 : c = '-' → i ≠ 4) : ¬ DateTail last span i a (c :: s) v := by
  have key : ∀ {u r : Str} {x : Char}, UMid last u → c :: s = u ++ x :: r → u = [] ∧ c = x := by
    intro u r x hu h
    rcases u with _ | ⟨y, u⟩
    · simp only [List.nil_append, List.cons.injEq] at h
      exact ⟨rfl, h.1⟩
    · simp only [List.cons_append, List.cons.injEq] at h
      rcases hu.chars y (by simp) with hy | hy
      · rw [← h.1, h1] at hy; cases hy
      · exact absurd (h.1.trans hy) h2
  rintro (⟨u, r, t, h, hu, hl, -⟩ | ⟨u, r, h, hu, hl, -⟩)
  · obtain ⟨rfl, hc⟩ := key hu h
    exact h3 hc (by simpa using hl)
  · obtain ⟨rfl, hc⟩ := key hu h
    exact h4 hc (by simpa using hl)

theorem pushDigit_small {a d : Nat} (ha : a < 10000) (hd : d < 10) :
    pushDigit (a : Int) ((none : Option Sign).elim 1 Sign.val) d =
      some ((a * 10 + d : Nat) : Int) := by
  rw [Option.elim_none]
  have e := pushDigit_eq (f := 1) (.inl rfl) a d
  rw [Int.one_mul, Int.one_mul] at e
  rw [e, if_pos]
  rw [inI64_iff]
  unfold InRange
  omega

/-- `a` has at most `i` digits. -/
structure Small (i a : Nat) : Prop where
  pos : 1 ≤ i
  h1 : i = 1 → a < 10
  h2 : i = 2 → a < 100
  h3 : i = 3 → a < 1000
  h4 : i = 4 → a < 10000

theorem Small.lt {i a : Nat} (h : Small i a) (hi : i ≤ 4) : a < 10000 := by
  obtain ⟨h0, h1, h2, h3, h4⟩ := h
  omega

theorem Small.push {i a d : Nat} (h : Small i a) (hd : d < 10) : Small (i + 1) (a * 10 + d) := by
  obtain ⟨h0, h1, h2, h3, h4⟩ := h
  constructor <;> omega

theorem Small.skip {i a : Nat} (h : Small i a) : Small (i + 1) a := by
  obtain ⟨h0, h1, h2, h3, h4⟩ := h
  constructor <;> omega

theorem decimalLoop_date {ovf : Bool} {lit : Str} {span : Span} {s : Str}
    {v : PartialValue} (hv : Dateish v) : ∀ {i a : Nat} {last : Bool}, i ≤ 4 → Small i a →
    (decimalLoop ovf lit span none i s (a : Int) false last = .ok v ↔
      DateTail last span i a s v) := by
  induction s with
  | nil =>
    intro i a last hi ha
    have hr : ¬ DateTail last span i a [] v := by
      rintro (⟨u, r, t, h, -⟩ | ⟨u, r, h, -⟩) <;> simp at h
    simp only [hr, iff_false]
    unfold decimalLoop
    intro h
    split at h
    · simp [Res.bind_eq_ok] at h
    · simp only [Bool.false_eq_true, if_false, Res.pure_eq, Res.ok.injEq] at h
      exact hv.ne_int _ h.symm
  | cons c cs ih =>
    intro i a last hi ha
    -- continuing with the next character
    have hnext : ∀ {a' : Nat} {l : Bool}, Small (i + 1) a' →
        (decimalLoop ovf lit span none (i + 1) cs (a' : Int) false l = .ok v ↔
          DateTail l span (i + 1) a' cs v) := by
      intro a' l ha'
      by_cases h : i + 1 ≤ 4
      · exact ih h ha'
      · constructor
        · intro h'; exact absurd h' (decimalLoop_late hv (.inl (by omega)))
        · intro h'; exact absurd h' (dateTail_late (by omega))
    unfold decimalLoop
    simp only [Bool.false_eq_true, if_false]
    by_cases hd : isDigit c = true
    · rw [if_pos hd]
      have hd10 := digitVal_lt hd
      have e := pushDigit_small (a := a) (d := digitVal c) (ha.lt hi) hd10
      simp only [e, isDigit_utf8Size hd]
      rw [hnext (ha.push hd10)]
      exact (dateTail_step (fun u => valFrom_digit hd a u) (.inl hd) (fun u => by
        rw [umid_cons]
        have : c ≠ '_' := by rintro rfl; revert hd; decide
        simp [hd, this])).symm
    · rw [if_neg hd]
      have hd' : isDigit c = false := by simpa using hd
      by_cases h1 : c = '.'
      · subst h1
        simp only [if_true]
        have : ¬ DateTail last span i a ('.' :: cs) v :=
          dateTail_other hd' (by decide) (by simp) (by simp)
        simp only [this, iff_false]
        intro h
        split at h
        · simp [Res.bind_eq_ok] at h
        · simp only [Res.bind_eq_ok, Res.pure_eq, Res.ok.injEq] at h
          obtain ⟨f, -, h⟩ := h
          exact hv.ne_float _ h.symm
      rw [if_neg h1]
      by_cases h2 : c = 'e' ∨ c = 'E'
      · rw [if_pos h2]
        have : ¬ DateTail last span i a (c :: cs) v :=
          dateTail_other hd' (by rintro rfl; exact absurd h2 (by decide))
            (by rintro rfl; exact absurd h2 (by decide))
            (by rintro rfl; exact absurd h2 (by decide))
        simp only [this, iff_false]
        intro h
        split at h
        · simp [Res.bind_eq_ok] at h
        · simp only [Res.bind_eq_ok, Res.pure_eq, Res.ok.injEq] at h
          obtain ⟨f, -, h⟩ := h
          exact hv.ne_float _ h.symm
      rw [if_neg h2]
      simp only [true_and]
      by_cases h3 : c = ':' ∧ i = 2
      · rw [if_pos h3]
        obtain ⟨rfl, rfl⟩ := h3
        have ha2 := ha.h2 rfl
        rw [truncU8 (by omega)]
        simp only [Res.bind_eq_ok, Res.pure_eq, Res.ok.injEq, Cur.adv, colon_utf8]
        constructor
        · rintro ⟨t, h, rfl⟩
          exact .inl ⟨[], cs, t, rfl, .nil, rfl, by rw [valFrom_nil]; exact h, rfl⟩
        · rintro (⟨u, r, t, h, hu, hl, h1, h2⟩ | ⟨u, r, h, hu, hl, -⟩)
          · have : u = [] := by
              have : u.length = 0 := by omega
              simpa using this
            subst this
            simp only [List.nil_append, List.cons.injEq, true_and] at h
            subst h
            rw [valFrom_nil] at h1
            exact ⟨t, h1, h2.symm⟩
          · rcases u with _ | ⟨x, u⟩
            · simp at hl
            · simp only [List.cons_append, List.cons.injEq] at h
              rcases hu.chars x (by simp) with hx | hx
              · rw [← h.1] at hx; exact absurd hx (by decide)
              · rw [← h.1] at hx; exact absurd hx (by decide)
      rw [if_neg h3]
      by_cases h4 : c = '-' ∧ i = 4
      · rw [if_pos h4]
        obtain ⟨rfl, rfl⟩ := h4
        have ha4 := ha.h4 rfl
        rw [truncU16 (by omega), orInvalid_dateish hv]
        simp only [Cur.adv, dash_utf8]
        constructor
        · intro h
          exact .inr ⟨[], cs, rfl, .nil, rfl, by rw [valFrom_nil]; exact h⟩
        · rintro (⟨u, r, t, h, hu, hl, -⟩ | ⟨u, r, h, hu, hl, h1⟩)
          · omega
          · have : u = [] := by
              have : u.length = 0 := by omega
              simpa using this
            subst this
            simp only [List.nil_append, List.cons.injEq, true_and] at h
            subst h
            rw [valFrom_nil] at h1
            exact h1
      rw [if_neg h4]
      by_cases h7 : c = '_'
      · subst h7
        rw [if_neg (by simp), if_neg (by simp), if_pos rfl]
        simp only [show '_'.utf8Size = 1 by decide]
        cases last
        · simp only [Bool.false_eq_true, if_false]
          rw [hnext ha.skip]
          exact (dateTail_step (fun u => by rw [valFrom_cons, if_pos rfl]) (.inr rfl) (fun u => by
            rw [umid_cons]; simp [hd'])).symm
        · simp only [if_true]
          have : ¬ DateTail true span i a ('_' :: cs) v := by
            have key : ∀ {u r : Str} {x : Char}, UMid true u → x ≠ '_' →
                '_' :: cs ≠ u ++ x :: r := by
              intro u r x hu hx h
              rcases u with _ | ⟨y, u⟩
              · simp only [List.nil_append, List.cons.injEq] at h
                exact hx h.1.symm
              · simp only [List.cons_append, List.cons.injEq] at h
                rw [umid_cons, ← h.1] at hu
                rcases hu with ⟨hu, -⟩ | ⟨-, hu, -⟩
                · revert hu; decide
                · cases hu
            rintro (⟨u, r, t, h, hu, -⟩ | ⟨u, r, h, hu, -⟩)
            · exact key hu (by decide) h
            · exact key hu (by decide) h
          simp only [this, iff_false]
          exact consec_ne_ok _ _ _
      have hother : ¬ DateTail last span i a (c :: cs) v :=
        dateTail_other hd' h7 (fun h h' => h3 ⟨h, h'⟩) (fun h h' => h4 ⟨h, h'⟩)
      simp only [hother, iff_false]
      intro h
      split at h
      · simp at h
      split at h
      · split at h
        · simp only [Res.pure_eq, Res.ok.injEq] at h
          exact hv.ne_invalid _ h.symm
        · split at h
          · simp only [Res.pure_eq, Res.ok.injEq] at h
            exact hv.ne_invalid _ h.symm
          · simp at h
      · simp [h7] at h

end Verif.Toml
