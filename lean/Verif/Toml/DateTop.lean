import Verif.Toml.DateLemmas

/-!
# Date-times at the top level of the literal parser
-/

namespace Verif.Toml
open Verif Verif.Spec.Toml

theorem umid_iff {s : Str} : ∀ {l : Bool}, UMid l s ↔
    (∀ c ∈ s, isDigit c = true ∨ c = '_') ∧ (¬ ∃ a b, s = a ++ '_' :: '_' :: b) ∧
      (l = true → s.head? ≠ some '_') := by
  induction s with
  | nil => intro l; simp [UMid.nil]
  | cons c cs ih =>
    intro l
    rw [umid_cons]
    have hdu : isDigit '_' = false := by decide
    constructor
    · rintro (⟨hc, h⟩ | ⟨rfl, rfl, h⟩)
      · obtain ⟨h1, h2, -⟩ := ih.1 h
        have hne : c ≠ '_' := by rintro rfl; rw [hdu] at hc; cases hc
        refine ⟨?_, ?_, fun _ => by simpa using hne⟩
        · intro x hx
          simp only [List.mem_cons] at hx
          rcases hx with rfl | hx
          · exact .inl hc
          · exact h1 x hx
        · rintro ⟨a, b, hab⟩
          rcases a with _ | ⟨y, a⟩
          · simp only [List.nil_append, List.cons.injEq] at hab
            exact hne hab.1
          · simp only [List.cons_append, List.cons.injEq] at hab
            exact h2 ⟨a, b, hab.2⟩
      · obtain ⟨h1, h2, h3⟩ := ih.1 h
        refine ⟨?_, ?_, by simp⟩
        · intro x hx
          simp only [List.mem_cons] at hx
          rcases hx with rfl | hx
          · exact .inr rfl
          · exact h1 x hx
        · rintro ⟨a, b, hab⟩
          rcases a with _ | ⟨y, a⟩
          · simp only [List.nil_append, List.cons.injEq, true_and] at hab
            exact h3 rfl (by rw [hab]; rfl)
          · simp only [List.cons_append, List.cons.injEq] at hab
            exact h2 ⟨a, b, hab.2⟩
    · rintro ⟨h1, h2, h3⟩
      have h1' : ∀ x ∈ cs, isDigit x = true ∨ x = '_' := fun x hx => h1 x (by simp [hx])
      have h2' : ¬ ∃ a b, cs = a ++ '_' :: '_' :: b := by
        rintro ⟨a, b, h⟩
        exact h2 ⟨c :: a, b, by rw [h]; rfl⟩
      rcases h1 c (by simp) with hc | rfl
      · exact .inl ⟨hc, ih.2 ⟨h1', h2', by simp⟩⟩
      · refine .inr ⟨rfl, ?_, ih.2 ⟨h1', h2', ?_⟩⟩
        · cases l with
          | false => rfl
          | true => exact absurd (h3 rfl) (by simp)
        · intro _ hh
          rcases cs with _ | ⟨x, xs⟩
          · simp at hh
          · simp only [List.head?_cons, Option.some.injEq] at hh
            subst hh
            exact h2 ⟨[], xs, rfl⟩

theorem looseDigits_19 {k n : Nat} {c : Char} {u : Str} (hc : isDigit c = true) (h0 : c ≠ '0') :
    LooseDigits k n (c :: u) ↔
      UMid false u ∧ 1 + u.length = k ∧ n = valFrom 10 (digitVal c) u := by
  have hne : c ≠ '_' := by rintro rfl; revert hc; decide
  have hnum : numeral 10 (c :: u) = valFrom 10 (digitVal c) u := by
    rw [numeral_cons (by omega) ((isDigit_iff_digitOf c).1 hc), digitOf_of_isDigit hc]
  have hmid : UMid false (c :: u) ↔ UMid false u := by rw [umid_cons]; simp [hc, hne]
  unfold LooseDigits
  rw [← hmid, umid_iff, hnum]
  simp only [List.length_cons, List.head?_cons, Option.some.injEq, hne, h0, ne_eq,
    not_false_eq_true, true_and, Bool.false_eq_true, false_implies, and_true]
  constructor
  · rintro ⟨h1, h2, h3, h4⟩; exact ⟨⟨h2, h3⟩, by omega, h4⟩
  · rintro ⟨⟨h2, h3⟩, h1, h4⟩; exact ⟨by omega, h2, h3, h4⟩

theorem looseDigits_0 {k n : Nat} {u : Str} :
    LooseDigits k n ('0' :: u) ↔
      (∀ c ∈ u, isDigit c = true) ∧ 1 + u.length = k ∧ n = valFrom 10 0 u := by
  have hnum : numeral 10 ('0' :: u) = valFrom 10 0 u := by
    rw [numeral_cons (by omega) (by decide)]; rfl
  unfold LooseDigits
  rw [hnum]
  constructor
  · rintro ⟨h1, -, -, -, h2, h3⟩
    refine ⟨fun c hc => h2 rfl c (by simp [hc]), by simp at h1; omega, h3⟩
  · rintro ⟨h1, h2, h3⟩
    have hall : ∀ c ∈ '0' :: u, isDigit c = true := by
      intro c hc
      simp only [List.mem_cons] at hc
      rcases hc with rfl | hc
      · decide
      · exact h1 c hc
    refine ⟨by simp; omega, fun c hc => .inl (hall c hc), ?_, by simp, fun _ => hall, h3⟩
    rintro ⟨a, b, h⟩
    have := hall '_' (by rw [h]; simp)
    revert this; decide

/-- The parsed value stands for the date-time. -/
def Yields (v : PartialValue) (dt : DateTime) : Prop :=
  (v = .dateTime dt ∧ ∀ d, dt ≠ .localDate d) ∨ ∃ d, v = .partialDate d ∧ dt = .localDate d

/-- The form of `afterYear_ok`. -/
def YearTail (y : Nat) (s : Str) (v : PartialValue) : Prop :=
  ∃ m d rest, s = two m ++ '-' :: two d ++ rest ∧ MonthDay y m d ∧
    ((rest = [] ∧ v = .partialDate ⟨y, m, d⟩) ∨
      ∃ sep ts tail t o, rest = sep :: (ts ++ tail) ∧ (sep = 'T' ∨ sep = 't') ∧ TimeText t ts ∧
        OffTail o tail ∧ v = .dateTime (.fromOptionalOffset ⟨y, m, d⟩ t o))

/-- Loose dates and times, with the parsed value. -/
def LooseForm (lit : Str) (v : PartialValue) : Prop :=
  (∃ hs ms t, lit = hs ++ ':' :: ms ∧ LooseDigits 2 t.hour hs ∧ t.hour ≤ 23 ∧ MinSecText t ms ∧
    v = .dateTime (.localTime t)) ∨
  (∃ ys r y, lit = ys ++ '-' :: r ∧ LooseDigits 4 y ys ∧ YearTail y r v)

theorem looseForm_iff {lit : Str} {v : PartialValue} :
    LooseForm lit v ↔ ∃ dt, Yields v dt ∧ LooseDateTime dt lit := by
  constructor
  · rintro (⟨hs, ms, t, rfl, h1, h2, h3, rfl⟩ | ⟨ys, r, y, rfl, h1, m, d, rest, rfl, hmd, h⟩)
    · exact ⟨.localTime t, .inl ⟨rfl, by simp⟩, .time h1 h2 h3⟩
    · have hd : LooseDate ⟨y, m, d⟩ (ys ++ '-' :: (two m ++ '-' :: two d)) :=
        ⟨ys, by simp, h1, hmd.1, hmd.2.1, hmd.2.2.1, hmd.2.2.2⟩
      rcases h with ⟨rfl, rfl⟩ | ⟨sep, ts, tail, t, o, rfl, hsep, ht, ho, rfl⟩
      · refine ⟨.localDate ⟨y, m, d⟩, .inr ⟨_, rfl, rfl⟩, ?_⟩
        have := LooseDateTime.date hd
        simpa using this
      · cases o with
        | none =>
          cases ho
          refine ⟨_, .inl ⟨rfl, by simp [DateTime.fromOptionalOffset]⟩, ?_⟩
          have := LooseDateTime.loc hd hsep ht
          simpa [DateTime.fromOptionalOffset] using this
        | some o =>
          obtain ⟨os, junk, rfl, ho⟩ := ho
          refine ⟨_, .inl ⟨rfl, by simp [DateTime.fromOptionalOffset]⟩, ?_⟩
          have := LooseDateTime.offset (junk := junk) hd hsep ht ho
          simpa [DateTime.fromOptionalOffset] using this
  · rintro ⟨dt, hy, hl⟩
    cases hl with
    | @offset d t o sep ds ts os junk hd hsep ht ho =>
      obtain ⟨ys, rfl, h1, h2, h3, h4, h5⟩ := hd
      rcases hy with ⟨rfl, -⟩ | ⟨d', -, h⟩
      · exact .inr ⟨ys, two d.month ++ '-' :: two d.day ++ sep :: (ts ++ (os ++ junk)), d.year,
          by simp, h1, d.month, d.day, _, rfl, ⟨h2, h3, h4, h5⟩,
          .inr ⟨sep, ts, os ++ junk, t, some o, rfl, hsep, ht, ⟨os, junk, rfl, ho⟩, rfl⟩⟩
      · cases h
    | @loc d t sep ds ts hd hsep ht =>
      obtain ⟨ys, rfl, h1, h2, h3, h4, h5⟩ := hd
      rcases hy with ⟨rfl, -⟩ | ⟨d', -, h⟩
      · exact .inr ⟨ys, two d.month ++ '-' :: two d.day ++ sep :: (ts ++ []), d.year,
          by simp, h1, d.month, d.day, _, rfl, ⟨h2, h3, h4, h5⟩,
          .inr ⟨sep, ts, [], t, none, rfl, hsep, ht, rfl, rfl⟩⟩
      · cases h
    | @date d ds hd =>
      obtain ⟨ys, rfl, h1, h2, h3, h4, h5⟩ := hd
      rcases hy with ⟨-, h⟩ | ⟨d', rfl, h⟩
      · exact absurd rfl (h d)
      · cases h
        exact .inr ⟨ys, two d.month ++ '-' :: two d.day ++ [], d.year,
          by simp, h1, d.month, d.day, _, rfl, ⟨h2, h3, h4, h5⟩, .inl ⟨rfl, rfl⟩⟩
    | @time t hs ms h1 h2 h3 =>
      rcases hy with ⟨rfl, -⟩ | ⟨d', -, h⟩
      · exact .inl ⟨hs, ms, t, rfl, h1, h2, h3, rfl⟩
      · cases h

/-- A first digit from 1 to 9. -/
theorem dateTail_loose {span : Span} {c : Char} {cs : Str} {v : PartialValue}
    (hc : isDigit c = true) (h0 : c ≠ '0') :
    DateTail false span 1 (digitVal c) cs v ↔ LooseForm (c :: cs) v := by
  have hcc : c ≠ ':' := by rintro rfl; revert hc; decide
  have hcd : c ≠ '-' := by rintro rfl; revert hc; decide
  unfold DateTail LooseForm
  simp only [continueParsingLocalTime_ok, afterYear_ok]
  constructor
  · rintro (⟨u, r, t, rfl, hu, hl, ⟨h1, h2, h3⟩, rfl⟩ | ⟨u, r, rfl, hu, hl, h⟩)
    · exact .inl ⟨c :: u, r, t, rfl, (looseDigits_19 hc h0).2 ⟨hu, hl, h2⟩, by omega, h1, rfl⟩
    · exact .inr ⟨c :: u, r, _, rfl, (looseDigits_19 hc h0).2 ⟨hu, hl, rfl⟩, h⟩
  · rintro (⟨hs, ms, t, h, h1, h2, h3, rfl⟩ | ⟨ys, r, y, h, h1, h2⟩)
    · rcases hs with _ | ⟨x, u⟩
      · simp only [List.nil_append, List.cons.injEq] at h; exact absurd h.1 hcc
      · simp only [List.cons_append, List.cons.injEq] at h
        obtain ⟨rfl, rfl⟩ := h
        obtain ⟨a, b, e⟩ := (looseDigits_19 hc h0).1 h1
        exact .inl ⟨u, ms, t, rfl, a, b, ⟨h3, e, by omega⟩, rfl⟩
    · rcases ys with _ | ⟨x, u⟩
      · simp only [List.nil_append, List.cons.injEq] at h; exact absurd h.1 hcd
      · simp only [List.cons_append, List.cons.injEq] at h
        obtain ⟨rfl, rfl⟩ := h
        obtain ⟨a, b, rfl⟩ := (looseDigits_19 hc h0).1 h1
        exact .inr ⟨u, r, rfl, a, b, h2⟩

theorem parseDecimal_date {ovf : Bool} {c : Char} {cs : Str} {lit : Str} {span : Span}
    {v : PartialValue} (hc : isDigit19 c = true) (hv : Dateish v) :
    parseDecimalIntFloatOrDate ovf ⟨1, cs⟩ lit span (digitVal c) none = .ok v ↔
      LooseForm (c :: cs) v := by
  have hc' := (isDigit19_iff c).1 hc
  have hd : isDigit c = true := (isDigit_iff_digitOf c).2 hc'.1
  have hlt := digitVal_lt hd
  unfold parseDecimalIntFloatOrDate
  rw [Option.elim_none, Int.mul_one,
    decimalLoop_date hv (i := 1) (by decide)
      ⟨Nat.le_refl _, fun _ => hlt, by omega, by omega, by omega⟩]
  exact dateTail_loose hd hc'.2

theorem list_all_digits_two {x y : Char} :
    (∀ c ∈ [x, y], isDigit c = true) ↔ isDigit x = true ∧ isDigit y = true := by simp

/-- A leading zero and a second digit. -/
theorem continueParsingDateTime_date {span : Span} {c : Char} {cs : Str} {v : PartialValue}
    (hc : isDigit c = true) (hv : Dateish v) :
    continueParsingDateTime ⟨2, cs⟩ span (digitVal c) = .ok v ↔ LooseForm ('0' :: c :: cs) v := by
  -- the shape of a loose form here
  have hform : LooseForm ('0' :: c :: cs) v ↔
      (∃ ms t, cs = ':' :: ms ∧ t.hour = digitVal c ∧ t.hour ≤ 23 ∧ MinSecText t ms ∧
        v = .dateTime (.localTime t)) ∨
      (∃ x y r, cs = x :: y :: '-' :: r ∧ isDigit x = true ∧ isDigit y = true ∧
        YearTail (100 * digitVal c + 10 * digitVal x + digitVal y) r v) := by
    unfold LooseForm
    constructor
    · rintro (⟨hs, ms, t, h, h1, h2, h3, rfl⟩ | ⟨ys, r, y, h, h1, h2⟩)
      · rcases hs with _ | ⟨a, u⟩
        · simp at h
        simp only [List.cons_append, List.cons.injEq] at h
        obtain ⟨rfl, h⟩ := h
        obtain ⟨h4, h5, h6⟩ := looseDigits_0.1 h1
        rcases u with _ | ⟨b, _ | ⟨b', u⟩⟩
        · simp at h5
        · simp only [List.cons_append, List.nil_append, List.cons.injEq] at h
          obtain ⟨rfl, rfl⟩ := h
          rw [valFrom_digit hc] at h6
          exact .inl ⟨ms, t, rfl, by simpa using h6, h2, h3, rfl⟩
        · simp at h5; omega
      · rcases ys with _ | ⟨a, u⟩
        · simp at h
        simp only [List.cons_append, List.cons.injEq] at h
        obtain ⟨rfl, h⟩ := h
        obtain ⟨h4, h5, h6⟩ := looseDigits_0.1 h1
        rcases u with _ | ⟨b, _ | ⟨x, _ | ⟨y', _ | ⟨z, u⟩⟩⟩⟩
        · simp at h5
        · simp at h5
        · simp at h5
        · simp only [List.cons_append, List.nil_append, List.cons.injEq] at h
          obtain ⟨rfl, rfl⟩ := h
          have hx := h4 x (by simp)
          have hy := h4 y' (by simp)
          rw [valFrom_digit hc, valFrom_digit hx, valFrom_digit hy, valFrom_nil] at h6
          refine .inr ⟨x, y', r, rfl, hx, hy, ?_⟩
          rw [show 100 * digitVal c + 10 * digitVal x + digitVal y' = y by omega]
          exact h2
        · simp at h5; omega
    · rintro (⟨ms, t, rfl, h1, h2, h3, rfl⟩ | ⟨x, y, r, rfl, hx, hy, h⟩)
      · refine .inl ⟨['0', c], ms, t, rfl, looseDigits_0.2 ⟨by simpa using hc, rfl, ?_⟩, h2, h3, rfl⟩
        rw [valFrom_digit hc, valFrom_nil]; omega
      · refine .inr ⟨['0', c, x, y], r, _, rfl, looseDigits_0.2 ⟨?_, rfl, ?_⟩, h⟩
        · simp [hc, hx, hy]
        · rw [valFrom_digit hc, valFrom_digit hx, valFrom_digit hy, valFrom_nil]; omega
  rw [hform]
  unfold continueParsingDateTime
  have hyce : ∀ {x : Char} {i : Nat}, yearCharError x i span ≠ Res.ok v := by
    intro x i
    unfold yearCharError
    split
    · simp
    · split <;> simp
  rcases cs with _ | ⟨x, xs⟩
  · simp
  dsimp only
  by_cases hx : isDigit x = true
  · rw [if_pos hx]
    have hxc : x ≠ ':' := by rintro rfl; revert hx; decide
    rcases xs with _ | ⟨y, ys⟩
    · simp [Cur.adv, hxc]
    simp only [Cur.adv]
    by_cases hy : isDigit y = true
    · rw [if_pos hy]
      simp only [Res.bind_eq_ok]
      constructor
      · rintro ⟨c1, h1, h2⟩
        obtain ⟨r, rfl, rfl⟩ := (expectChar_ok dash_utf8).1 h1
        exact .inr ⟨x, y, r, rfl, hx, hy, afterYear_ok.1 h2⟩
      · rintro (⟨ms, t, h, -⟩ | ⟨x', y', r, h, -, -, h2⟩)
        · simp only [List.cons.injEq] at h; exact absurd h.1 hxc
        · simp only [List.cons.injEq] at h
          obtain ⟨rfl, rfl, rfl⟩ := h
          exact ⟨_, (expectChar_ok dash_utf8).2 ⟨r, rfl, rfl⟩, afterYear_ok.2 h2⟩
    · rw [if_neg hy]
      simp only [hyce, false_iff]
      rintro (⟨ms, t, h, -⟩ | ⟨x', y', r, h, -, h1, h2⟩)
      · simp only [List.cons.injEq] at h; exact absurd h.1 hxc
      · simp only [List.cons.injEq] at h
        obtain ⟨rfl, rfl, rfl⟩ := h
        exact hy h1
  · rw [if_neg hx]
    have hno : ∀ {P : Prop}, (∃ x' y r, x :: xs = x' :: y :: '-' :: r ∧ isDigit x' = true ∧
        isDigit y = true ∧ YearTail (100 * digitVal c + 10 * digitVal x' + digitVal y) r v) → P := by
      rintro P ⟨x', y', r, h, h1, -⟩
      simp only [List.cons.injEq] at h
      obtain ⟨rfl, -⟩ := h
      exact absurd h1 hx
    by_cases hcol : x = ':'
    · subst hcol
      rw [if_pos rfl]
      simp only [Res.bind_eq_ok, Res.pure_eq, Res.ok.injEq, Cur.adv, continueParsingLocalTime_ok]
      constructor
      · rintro ⟨t, ⟨h1, h2, h3⟩, rfl⟩
        exact .inl ⟨xs, t, rfl, h2, by omega, h1, rfl⟩
      · rintro (⟨ms, t, h, h1, h2, h3, rfl⟩ | h)
        · simp only [List.cons.injEq, true_and] at h
          subst h
          exact ⟨t, ⟨h3, h1, by omega⟩, rfl⟩
        · exact hno h
    · rw [if_neg hcol]
      simp only [hyce, false_iff]
      rintro (⟨ms, t, h, -⟩ | h)
      · simp only [List.cons.injEq] at h; exact hcol h.1
      · exact hno h

theorem looseForm_head {c : Char} {cs : Str} {v : PartialValue} (h : LooseForm (c :: cs) v) :
    isDigit c = true := by
  have key : ∀ {k n : Nat} {s r : Str} {x : Char}, c :: cs = s ++ x :: r → LooseDigits k n s →
      0 < k → isDigit c = true := by
    intro k n s r x h hl hk
    rcases s with _ | ⟨y, s⟩
    · have := hl.1; simp at this; omega
    · simp only [List.cons_append, List.cons.injEq] at h
      obtain ⟨rfl, -⟩ := h
      rcases hl.2.1 c (by simp) with h | h
      · exact h
      · exact absurd (by simp [h]) hl.2.2.2.1
  rcases h with ⟨hs, ms, t, h, h1, -⟩ | ⟨ys, r, y, h, h1, -⟩
  · exact key h h1 (by omega)
  · exact key h h1 (by omega)

theorem parsePrefixed_date {ovf : Bool} {cs lit : Str} {span : Span} {sg : Option Sign}
    {v : PartialValue} (hv : Dateish v) :
    parsePrefixedIntFloatOrDate ovf ⟨1, cs⟩ lit span sg = .ok v ↔
      sg = none ∧ LooseForm ('0' :: cs) v := by
  have hsecond : ∀ {cs : Str}, LooseForm ('0' :: cs) v →
      ∃ c cs', cs = c :: cs' ∧ isDigit c = true := by
    intro cs h
    have key : ∀ {k n : Nat} {s r : Str} {x : Char}, '0' :: cs = s ++ x :: r → LooseDigits k n s →
        1 < k → ∃ c cs', cs = c :: cs' ∧ isDigit c = true := by
      intro k n s r x h hl hk
      rcases s with _ | ⟨y, _ | ⟨z, s⟩⟩
      · have := hl.1; simp at this; omega
      · have := hl.1; simp at this; omega
      · simp only [List.cons_append, List.cons.injEq] at h
        obtain ⟨rfl, rfl⟩ := h
        exact ⟨z, _, rfl, hl.2.2.2.2.1 rfl z (by simp)⟩
    rcases h with ⟨hs, ms, t, h, h1, -⟩ | ⟨ys, r, y, h, h1, -⟩
    · exact key h h1 (by omega)
    · exact key h h1 (by omega)
  unfold parsePrefixedIntFloatOrDate
  rcases cs with _ | ⟨c, cs⟩
  · constructor
    · intro h
      simp only [Res.pure_eq, Res.ok.injEq] at h
      exact absurd h.symm (hv.ne_int _)
    · rintro ⟨-, h⟩
      obtain ⟨c, cs, h, -⟩ := hsecond h
      cases h
  dsimp only
  have hdig : sg = none ∧ LooseForm ('0' :: c :: cs) v → isDigit c = true := by
    rintro ⟨-, h⟩
    obtain ⟨c', cs', h, hc⟩ := hsecond h
    simp only [List.cons.injEq] at h
    rw [h.1]; exact hc
  cases hr : radixOf c with
  | some pre =>
    dsimp only
    constructor
    · intro h
      split at h
      · simp at h
      split at h
      · simp at h
      · simp only [Res.bind_eq_ok, Res.pure_eq, Res.ok.injEq] at h
        obtain ⟨n, -, h⟩ := h
        exact absurd h.symm (hv.ne_int _)
    · intro h
      exfalso
      have := hdig h
      have hb : isDigit 'b' = false ∧ isDigit 'B' = false ∧ isDigit 'o' = false ∧
        isDigit 'O' = false ∧ isDigit 'x' = false ∧ isDigit 'X' = false := by decide
      unfold radixOf at hr
      split at hr
      · rename_i h; rcases h with rfl | rfl <;> simp [hb] at this
      split at hr
      · rename_i h; rcases h with rfl | rfl <;> simp [hb] at this
      split at hr
      · rename_i h; rcases h with rfl | rfl <;> simp [hb] at this
      · cases hr
  | none =>
    dsimp only
    by_cases h1 : c = '.'
    · rw [if_pos h1]
      constructor
      · intro h
        simp only [Res.bind_eq_ok, Res.pure_eq, Res.ok.injEq] at h
        obtain ⟨f, -, h⟩ := h
        exact absurd h.symm (hv.ne_float _)
      · intro h
        have := hdig h
        rw [h1] at this
        exact absurd this (by decide)
    rw [if_neg h1]
    by_cases h2 : c = 'e' ∨ c = 'E'
    · rw [if_pos h2]
      constructor
      · intro h
        simp only [Res.bind_eq_ok, Res.pure_eq, Res.ok.injEq] at h
        obtain ⟨f, -, h⟩ := h
        exact absurd h.symm (hv.ne_float _)
      · intro h
        have := hdig h
        rcases h2 with rfl | rfl <;> exact absurd this (by decide)
    rw [if_neg h2]
    by_cases h3 : isDigit c = true ∧ sg = none
    · rw [if_pos h3, orInvalid_dateish hv]
      have : Cur.adv 1 c cs = ⟨2, cs⟩ := by simp [Cur.adv, isDigit_utf8Size h3.1]
      rw [this, continueParsingDateTime_date h3.1 hv]
      simp [h3.2]
    rw [if_neg h3]
    constructor
    · intro h
      split at h
      · simp at h
      split at h <;> simp at h
    · intro h
      exact absurd ⟨hdig h, h.1⟩ h3

/-- **Dates and times**: exactly the texts of the loose grammar. -/
theorem parseLiteral_dateish {ovf : Bool} {lit : Str} {span : Span} {v : PartialValue}
    (hv : Dateish v) :
    parseLiteral ovf lit span = .ok v ↔ ∃ dt, Yields v dt ∧ LooseDateTime dt lit := by
  rw [← looseForm_iff]
  unfold parseLiteral
  rcases lit with _ | ⟨c, cs⟩
  · simp only [reduceCtorEq, false_iff]
    rintro (⟨hs, ms, t, h, -⟩ | ⟨ys, r, y, h, -⟩) <;> simp at h
  dsimp only
  have hs : ∀ {sign : Sign}, (c = '+' ∨ c = '-') →
      (parseSigned ovf (c :: cs) span c sign (Cur.adv 0 c cs) = .ok v ↔ LooseForm (c :: cs) v) := by
    intro sign hc
    have h1 : ¬ LooseForm (c :: cs) v := by
      intro h
      have := looseForm_head h
      rcases hc with rfl | rfl <;> exact absurd this (by decide)
    simp only [h1, iff_false]
    have hadv : Cur.adv 0 c cs = ⟨1, cs⟩ := by
      rcases hc with rfl | rfl <;> rfl
    rw [hadv]
    unfold parseSigned
    rcases cs with _ | ⟨d, ds⟩
    · simp
    intro h
    dsimp only at h
    split at h
    · -- a zero behind the sign
      unfold parsePrefixedIntFloatOrDate at h
      rcases ds with _ | ⟨x, xs⟩
      · simp only [Cur.adv, Res.pure_eq, Res.ok.injEq] at h
        exact hv.ne_int _ h.symm
      dsimp only [Cur.adv] at h
      split at h
      · simp at h
      · split at h
        · simp only [Res.bind_eq_ok, Res.pure_eq, Res.ok.injEq] at h
          obtain ⟨f, -, h⟩ := h
          exact hv.ne_float _ h.symm
        split at h
        · simp only [Res.bind_eq_ok, Res.pure_eq, Res.ok.injEq] at h
          obtain ⟨f, -, h⟩ := h
          exact hv.ne_float _ h.symm
        split at h
        · rename_i h'; cases h'.2
        split at h
        · simp at h
        · simp at h
    split at h
    · unfold parseDecimalIntFloatOrDate at h
      exact decimalLoop_late hv (.inr (by simp)) h
    split at h
    · simp only [Res.bind_eq_ok, Res.pure_eq, Res.ok.injEq] at h
      obtain ⟨f, -, h⟩ := h
      exact hv.ne_float _ h.symm
    split at h
    · simp only [Res.bind_eq_ok, Res.pure_eq, Res.ok.injEq] at h
      obtain ⟨f, -, h⟩ := h
      exact hv.ne_float _ h.symm
    split at h <;> simp at h
  by_cases hp : c = '+'
  · rw [if_pos hp]; exact hs (.inl hp)
  rw [if_neg hp]
  by_cases hm : c = '-'
  · rw [if_pos hm]; exact hs (.inr hm)
  rw [if_neg hm]
  by_cases h0 : c = '0'
  · subst h0
    rw [if_pos rfl]
    have : Cur.adv 0 '0' cs = ⟨1, cs⟩ := rfl
    rw [this, parsePrefixed_date hv]
    simp
  rw [if_neg h0]
  by_cases h19 : isDigit19 c = true
  · rw [if_pos h19]
    have : Cur.adv 0 c cs = ⟨1, cs⟩ := by simp [Cur.adv, isDigit19_utf8 h19]
    rw [this, parseDecimal_date h19 hv]
  rw [if_neg h19]
  have hno : ¬ LooseForm (c :: cs) v := by
    intro h
    have := looseForm_head h
    exact h19 ((isDigit19_iff c).2 ⟨(isDigit_iff_digitOf c).1 this, h0⟩)
  simp only [hno, iff_false]
  intro h
  split at h
  · simp only [Res.bind_eq_ok, Res.pure_eq, Res.ok.injEq] at h
    obtain ⟨f, -, h⟩ := h
    exact hv.ne_bool _ h.symm
  split at h
  · simp only [Res.bind_eq_ok, Res.pure_eq, Res.ok.injEq] at h
    obtain ⟨f, -, h⟩ := h
    exact hv.ne_bool _ h.symm
  split at h
  · simp only [Res.bind_eq_ok, Res.pure_eq, Res.ok.injEq] at h
    obtain ⟨f, -, h⟩ := h
    exact hv.ne_float _ h.symm
  split at h
  · simp only [Res.bind_eq_ok, Res.pure_eq, Res.ok.injEq] at h
    obtain ⟨f, -, h⟩ := h
    exact hv.ne_float _ h.symm
  split at h <;> simp at h

theorem parseLiteral_dateTime {ovf : Bool} {lit : Str} {span : Span} {dt : DateTime} :
    parseLiteral ovf lit span = .ok (.dateTime dt) ↔
      LooseDateTime dt lit ∧ ∀ d, dt ≠ .localDate d := by
  rw [parseLiteral_dateish (.inl ⟨_, rfl⟩)]
  constructor
  · rintro ⟨dt', hy, hl⟩
    rcases hy with ⟨h, h'⟩ | ⟨d, h, -⟩
    · cases h; exact ⟨hl, h'⟩
    · cases h
  · rintro ⟨hl, h⟩
    exact ⟨dt, .inl ⟨rfl, h⟩, hl⟩

theorem parseLiteral_date {ovf : Bool} {lit : Str} {span : Span} {d : Date} :
    parseLiteral ovf lit span = .ok (.partialDate d) ↔ LooseDateTime (.localDate d) lit := by
  rw [parseLiteral_dateish (.inr ⟨_, rfl⟩)]
  constructor
  · rintro ⟨dt', hy, hl⟩
    rcases hy with ⟨h, h'⟩ | ⟨d, h, rfl⟩
    · cases h
    · cases h; exact hl
  · intro hl
    exact ⟨_, .inr ⟨d, rfl, rfl⟩, hl⟩

end Verif.Toml
