import Verif.Spec.LitTruth
import Verif.Toml.LitBound
import Verif.Toml.DateLemmas

/-!
# The diagnostics about dates and times are right
-/

namespace Verif.Toml
open Verif Verif.Spec.Toml

variable {lit : Str} {p : Pos}

theorem behind_plus (a : Str) (n : Nat) (h : n = blen a) :
    (Span.fromPosLen p (blen lit)).start.plus n = behind p a := by subst h; rfl

theorem behind_stop : (Span.fromPosLen p (blen lit)).stop = behind p lit := rfl

theorem dig_ok {c : Char} : isDigit c = true ↔ Dig c := Iff.rfl

theorem two_digs {n : Nat} (h : n < 100) : ∀ c ∈ two n, Dig c := by
  intro c hc
  simp only [two, List.mem_cons, List.not_mem_nil, or_false] at hc
  rcases hc with rfl | rfl <;> exact isDigit_digitChar (by omega)

theorem two_digsU {n : Nat} (h : n < 100) : DigsU (two n) := fun c hc => .inl (two_digs h c hc)

theorem two_length (n : Nat) : (two n).length = 2 := rfl

theorem expectTwo_right {f : DateTimeField} {next : List Char} {a s : Str} (hf : f ≠ .year)
    (hB : Before f a) (hn : next = sepAfter f) (hl : lit = a ++ s) :
    Safe (Right lit p) (expectTwoDigitNum ⟨blen a, s⟩ next (Span.fromPosLen p (blen lit)) f) := by
  unfold expectTwoDigitNum
  rcases s with _ | ⟨c, cs⟩
  · exact Safe.err ⟨a, [], hl, hB, by rw [behind_stop, hl]; simp, .inl rfl⟩
  dsimp only [Cur.adv]
  split
  · rename_i hc
    rcases cs with _ | ⟨d, ds⟩
    · refine Safe.err ⟨a, [c], [], by simp [hl], hB, by rw [behind_stop, hl], ?_, by simp,
        .inl ?_, .inl rfl⟩
      · intro x hx; rw [List.mem_singleton.1 hx]; exact .inl hc
      · rw [if_neg hf]; simp
    dsimp only
    split
    · exact Safe.ok _
    · rename_i hd
      have hp : blen a + c.utf8Size = blen (a ++ [c]) := by simp
      split
      · rename_i hm
        refine Safe.err ⟨a, [c], d :: ds, by simp [hl], hB, behind_plus _ _ hp, ?_, by simp,
          .inl ?_, .inr ⟨d, ds, rfl, ?_⟩⟩
        · intro x hx; rw [List.mem_singleton.1 hx]; exact .inl hc
        · rw [if_neg hf]; simp
        · rw [← hn]; simpa using hm
      · rename_i hm
        refine Safe.err ⟨a ++ [c], ds, by simp [hl], behind_plus _ _ hp, .field hB hf (by simp) ?_ hd ?_⟩
        · intro x hx; rw [List.mem_singleton.1 hx]; exact hc
        · rw [← hn]; simpa using hm
  · rename_i hc
    split
    · rename_i hm
      refine Safe.err ⟨a, c :: cs, hl, hB, behind_plus _ _ rfl, .inr ⟨c, cs, rfl, ?_⟩⟩
      rw [← hn]; simpa using hm
    · rename_i hm
      refine Safe.err ⟨a, cs, hl, behind_plus _ _ rfl, ?_⟩
      have := StrayInDate.field (ds := []) hB hf (by simp) (by simp) hc (c := c)
        (by rw [← hn]; simpa using hm)
      simpa using this

theorem expectNum_right {f : DateTimeField} {next : List Char} {a s : Str} {lo hi : Nat}
    (hf : f ≠ .year) (hB : Before f a) (hn : next = sepAfter f) (hA : FieldRange f a lo hi)
    (hl : lit = a ++ s) :
    Safe (Right lit p) (expectNumIn ⟨blen a, s⟩ next (Span.fromPosLen p (blen lit)) f lo hi) := by
  unfold expectNumIn
  refine Safe.bind (expectTwo_right hf hB hn hl) ?_
  rintro ⟨m, sp, cur⟩ hok
  obtain ⟨cs, hm, rfl, rfl, rfl⟩ := expectTwoDigitNum_ok.1 hok
  refine Safe.bind ?_ (fun _ _ => Safe.pure _)
  unfold checkRange
  split
  · exact Safe.ok _
  · rename_i h
    refine Safe.err ⟨a, cs, by simp [hl], hm, hB, ?_, hA, by omega⟩
    simp [behind, Pos.plus, Span.fromPosLen, blen_two hm, Nat.add_assoc]

theorem expectNum_ok {f : DateTimeField} {next : List Char} {a s : Str} {lo hi m : Nat} {cur : Cur}
    (hhi : hi < 100) (hok : expectNumIn ⟨blen a, s⟩ next (Span.fromPosLen p (blen lit)) f lo hi = .ok (m, cur)) :
    ∃ cs, s = two m ++ cs ∧ cur = ⟨blen (a ++ two m), cs⟩ ∧ m < 100 := by
  obtain ⟨cs, rfl, rfl, h1, h2⟩ := (expectNumIn_ok hhi).1 hok
  exact ⟨cs, rfl, by rw [blen_append, blen_two (by omega)], by omega⟩

theorem expectChar_right {f : DateTimeField} {x : Char} {a ds s : Str} (hB : Before f a)
    (hd : DigsU ds) (hlen : ds.length = (if f = .year then 4 else 2)) (hx : sepAfter f = [x])
    (hl : lit = a ++ ds ++ s) :
    Safe (Right lit p) (expectChar ⟨blen (a ++ ds), s⟩ (Span.fromPosLen p (blen lit)) f x) := by
  unfold expectChar
  rcases s with _ | ⟨c, cs⟩
  · exact Safe.err ⟨a, ds, [], hl, hB, by rw [behind_stop, hl]; simp, hd, hlen, by simp [hx], .inl rfl⟩
  dsimp only
  split
  · exact Safe.ok _
  · rename_i hc
    exact Safe.err ⟨a, ds, cs, hl, hB, behind_plus _ _ rfl, hd, hlen, hx, hc⟩

theorem expectChar_ok' {f : DateTimeField} {x : Char} {a s : Str} {cur : Cur} {span : Span}
    (hx : x.utf8Size = 1) (hok : expectChar ⟨blen a, s⟩ span f x = .ok cur) :
    ∃ cs, s = x :: cs ∧ cur = ⟨blen (a ++ [x]), cs⟩ := by
  obtain ⟨cs, rfl, rfl⟩ := (expectChar_ok hx).1 hok
  exact ⟨cs, rfl, by simp [hx]⟩

/-- Nothing follows, or something that may be an offset. -/
def OffOrEnd (s : Str) : Prop := s = [] ∨ ∃ c cs, s = c :: cs ∧ OffStart c

theorem subsecLoop_right {a : Str} {sec : Nat} (hB : Before .second a) (hs : sec < 100) :
    ∀ (s ds : Str) (d m : Nat), lit = a ++ two sec ++ '.' :: ds ++ s → (∀ c ∈ ds, Dig c) →
      (d = 0 ↔ ds = []) →
      Safe (Right lit p) (subsecLoop (Span.fromPosLen p (blen lit))
        (blen (a ++ two sec ++ '.' :: ds)) s d m) ∧
      ∀ d' m' cur, subsecLoop (Span.fromPosLen p (blen lit))
        (blen (a ++ two sec ++ '.' :: ds)) s d m = .ok (d', m', cur) →
        ∃ ds', (∀ c ∈ ds', Dig c) ∧ (d' = 0 ↔ ds' = []) ∧
          lit = a ++ two sec ++ '.' :: ds' ++ cur.rest ∧
          cur.i = blen (a ++ two sec ++ '.' :: ds') ∧ OffOrEnd cur.rest := by
  intro s
  induction s with
  | nil =>
    intro ds d m hl hd h0
    unfold subsecLoop
    refine ⟨Safe.ok _, ?_⟩
    intro d' m' cur h'
    simp only [Res.ok.injEq, Prod.mk.injEq] at h'
    obtain ⟨rfl, rfl, rfl⟩ := h'
    exact ⟨ds, hd, h0, hl, rfl, .inl rfl⟩
  | cons c cs ih =>
    intro ds d m hl hd h0
    unfold subsecLoop
    split
    · rename_i hc
      have e : blen (a ++ two sec ++ '.' :: ds) + c.utf8Size =
          blen (a ++ two sec ++ '.' :: (ds ++ [c])) := by simp; omega
      have hd' : ∀ x ∈ ds ++ [c], Dig x := by
        intro x hx
        rcases List.mem_append.1 hx with hx | hx
        · exact hd x hx
        · rw [List.mem_singleton.1 hx]; exact hc
      rw [e]
      split
      · exact ih (ds ++ [c]) _ _ (by simp [hl]) hd' (by simp)
      · refine ih (ds ++ [c]) _ _ (by simp [hl]) hd' ?_
        simp only [List.append_eq_nil_iff, List.cons_ne_nil, and_false, iff_false]
        omega
    · rename_i hc
      split
      · rename_i ho
        refine ⟨Safe.ok _, ?_⟩
        intro d' m' cur h'
        simp only [Res.ok.injEq, Prod.mk.injEq] at h'
        obtain ⟨rfl, rfl, rfl⟩ := h'
        exact ⟨ds, hd, h0, hl, rfl, .inr ⟨c, cs, rfl, isOffsetStart_iff.1 ho⟩⟩
      · rename_i ho
        rw [isOffsetStart_iff] at ho
        refine ⟨?_, ?_⟩
        · unfold unexpectedCharError
          exact Safe.err ⟨_, cs, hl, behind_plus _ _ rfl, .fraction hB hs hd hc ho⟩
        · intro d' m' cur h'
          simp [unexpectedCharError] at h'

theorem optSubsec_right {a s : Str} {sec : Nat} (hB : Before .second a) (hs : sec < 100)
    (hl : lit = a ++ two sec ++ s) :
    Safe (Right lit p) (optSubsec ⟨blen (a ++ two sec), s⟩ (Span.fromPosLen p (blen lit))) ∧
    ∀ m cur, optSubsec ⟨blen (a ++ two sec), s⟩ (Span.fromPosLen p (blen lit)) = .ok (m, cur) →
      ∃ frac, OptFrac frac ∧ lit = a ++ two sec ++ frac ++ cur.rest ∧
        cur.i = blen (a ++ two sec ++ frac) ∧
        (frac = [] → cur.rest.head? ≠ some '.') ∧ (frac ≠ [] → OffOrEnd cur.rest) := by
  unfold optSubsec
  rcases s with _ | ⟨c, cs⟩
  · refine ⟨Safe.pure _, fun m cur h' => ?_⟩
    simp only [Res.pure_eq, Res.ok.injEq, Prod.mk.injEq] at h'
    obtain ⟨rfl, rfl⟩ := h'
    exact ⟨[], .inl rfl, by simpa using hl, by simp, by simp, by simp⟩
  dsimp only [Cur.adv]
  split
  · rename_i hc
    subst hc
    have e : blen (a ++ two sec) + '.'.utf8Size = blen (a ++ two sec ++ '.' :: []) := by simp; omega
    rw [e]
    have hk := @subsecLoop_right lit p a sec hB hs cs [] 0 0 (by simpa using hl) (by simp) (by simp)
    unfold parseSubsec
    dsimp only
    constructor
    · refine Safe.bind hk.1 ?_
      rintro ⟨d', m', cur⟩ hok
      obtain ⟨ds', hd', h0, hl', hi', ho⟩ := hk.2 _ _ _ hok
      dsimp only
      split
      · rename_i hd0
        rw [h0.1 hd0] at hl'
        exact Safe.err ⟨a, sec, cur.rest, by simpa using hl', hB, hs, behind_stop, ho⟩
      · exact Safe.pure _
    · intro m cur hok
      simp only [Res.bind_eq_ok] at hok
      obtain ⟨⟨d', m', cur'⟩, h1, h2⟩ := hok
      obtain ⟨ds', hd', h0, hl', hi', ho⟩ := hk.2 _ _ _ h1
      split at h2
      · simp at h2
      · rename_i hd0
        simp only [Res.pure_eq, Res.ok.injEq, Prod.mk.injEq] at h2
        obtain ⟨rfl, rfl⟩ := h2
        exact ⟨'.' :: ds', .inr ⟨ds', rfl, fun h => hd0 (h0.2 h), hd'⟩, hl', hi', by simp, fun _ => ho⟩
  · rename_i hc
    refine ⟨Safe.pure _, fun m cur h' => ?_⟩
    simp only [Res.pure_eq, Res.ok.injEq, Prod.mk.injEq] at h'
    obtain ⟨rfl, rfl⟩ := h'
    exact ⟨[], .inl rfl, by simpa using hl, by simp, by simpa using hc, by simp⟩

theorem continueTime_right {a s : Str} {hour : Nat} (hB : Before .minute a) (hl : lit = a ++ s) :
    Safe (Right lit p) (continueParsingTime ⟨blen a, s⟩ (Span.fromPosLen p (blen lit)) hour) ∧
    ∀ t cur, continueParsingTime ⟨blen a, s⟩ (Span.fromPosLen p (blen lit)) hour = .ok (t, cur) →
      ∃ m sec frac, m < 100 ∧ sec < 100 ∧ OptFrac frac ∧
        lit = a ++ two m ++ [':'] ++ two sec ++ frac ++ cur.rest ∧
        cur.i = blen (a ++ two m ++ [':'] ++ two sec ++ frac) ∧ OffOrEnd cur.rest := by
  unfold continueParsingTime
  constructor
  · refine Safe.bind (expectNum_right (by simp) hB rfl ⟨rfl, rfl⟩ hl) ?_
    rintro ⟨m, c1⟩ h1
    obtain ⟨s1, rfl, rfl, hm⟩ := expectNum_ok (by omega) h1
    refine Safe.bind (expectChar_right hB (two_digsU hm) (two_length m) rfl (by simp [hl])) ?_
    rintro c2 h2
    obtain ⟨s2, rfl, rfl⟩ := expectChar_ok' (by decide) h2
    have hB2 := Before.second hB hm
    refine Safe.bind (expectNum_right (by simp) hB2 rfl ⟨rfl, rfl⟩ (by simp [hl])) ?_
    rintro ⟨sec, c3⟩ h3
    obtain ⟨s3, rfl, rfl, hs⟩ := expectNum_ok (by omega) h3
    have hk := @optSubsec_right lit p _ s3 sec hB2 hs (by simp [hl])
    refine Safe.bind hk.1 ?_
    rintro ⟨nn, c4⟩ h4
    obtain ⟨frac, hfr, hl4, hi4, hne, ho⟩ := hk.2 _ _ h4
    rcases c4 with ⟨j, _ | ⟨c, cs⟩⟩
    · exact Safe.pure _
    · dsimp only at hl4 hi4 hne ho ⊢
      split
      · exact Safe.pure _
      · rename_i hc
        rw [isOffsetStart_iff] at hc
        unfold unexpectedCharError
        by_cases hf : frac = []
        · subst hf
          refine Safe.err ⟨_, cs, hl4, behind_plus _ _ hi4, ?_⟩
          rw [List.append_nil]
          exact .second hB2 hs hc (by simpa using hne rfl)
        · rcases ho hf with h | ⟨x, xs, h, hx⟩
          · cases h
          · cases h; exact absurd hx hc
  · intro t cur hok
    simp only [Res.bind_eq_ok] at hok
    obtain ⟨⟨m, c1⟩, h1, c2, h2, ⟨sec, c3⟩, h3, ⟨nn, c4⟩, h4, h5⟩ := hok
    obtain ⟨s1, rfl, rfl, hm⟩ := expectNum_ok (by omega) h1
    obtain ⟨s2, rfl, rfl⟩ := expectChar_ok' (by decide) h2
    obtain ⟨s3, rfl, rfl, hs⟩ := expectNum_ok (by omega) h3
    have hB2 := Before.second hB hm
    obtain ⟨frac, hfr, hl4, hi4, hne, ho⟩ :=
      (@optSubsec_right lit p _ s3 sec hB2 hs (by simp [hl])).2 _ _ h4
    rcases c4 with ⟨j, _ | ⟨c, cs⟩⟩
    · simp only [Res.pure_eq, Res.ok.injEq, Prod.mk.injEq] at h5
      obtain ⟨-, rfl⟩ := h5
      exact ⟨m, sec, frac, hm, hs, hfr, hl4, hi4, .inl rfl⟩
    · dsimp only at h5
      split at h5
      · rename_i hc
        simp only [Res.pure_eq, Res.ok.injEq, Prod.mk.injEq] at h5
        obtain ⟨-, rfl⟩ := h5
        exact ⟨m, sec, frac, hm, hs, hfr, hl4, hi4, .inr ⟨c, cs, rfl, isOffsetStart_iff.1 hc⟩⟩
      · simp [unexpectedCharError] at h5

theorem parseOffset_right {a s : Str} (hB : Before .offsetHour a) (hl : lit = a ++ s) :
    Safe (Right lit p) (parseOffset ⟨blen a, s⟩ (Span.fromPosLen p (blen lit))) := by
  unfold parseOffset
  refine Safe.bind (expectNum_right (by simp) hB rfl ⟨rfl, rfl⟩ hl) ?_
  rintro ⟨m, c1⟩ h1
  obtain ⟨s1, rfl, rfl, hm⟩ := expectNum_ok (by omega) h1
  refine Safe.bind (expectChar_right hB (two_digsU hm) (two_length m) rfl (by simp [hl])) ?_
  rintro c2 h2
  obtain ⟨s2, rfl, rfl⟩ := expectChar_ok' (by decide) h2
  have hB2 := Before.offsetMinute hB hm
  refine Safe.bind (expectNum_right (by simp) hB2 rfl ⟨rfl, rfl⟩ (by simp [hl])) ?_
  rintro ⟨sec, c3⟩ h3
  exact Safe.pure _

theorem parseTimeAndOffset_right {a s : Str} (hB : Before .hour a) (hl : lit = a ++ s) :
    Safe (Right lit p) (parseTimeAndOffset ⟨blen a, s⟩ (Span.fromPosLen p (blen lit))) := by
  unfold parseTimeAndOffset
  refine Safe.bind (expectNum_right (by simp) hB rfl ⟨rfl, rfl⟩ hl) ?_
  rintro ⟨h, c1⟩ h1
  obtain ⟨s1, rfl, rfl, hm⟩ := expectNum_ok (by omega) h1
  refine Safe.bind (expectChar_right hB (two_digsU hm) (two_length h) rfl (by simp [hl])) ?_
  rintro c2 h2
  obtain ⟨s2, rfl, rfl⟩ := expectChar_ok' (by decide) h2
  have hB2 := Before.minute hB hm
  have ht := @continueTime_right lit p _ s2 h hB2 (by simp [hl])
  refine Safe.bind ht.1 ?_
  rintro ⟨t, ⟨i, s3⟩⟩ h3
  obtain ⟨m, sec, frac, hm', hs', hfr, hl3, hi3, ho⟩ := ht.2 _ _ h3
  dsimp only at hl3 hi3 ho
  subst hi3
  refine Safe.bind ?_ (fun _ _ => Safe.pure _)
  unfold tryToParseOffset
  rcases s3 with _ | ⟨c, cs⟩
  · exact Safe.ok _
  dsimp only [Cur.adv]
  have hBo : ∀ g, g = '+' ∨ g = '-' → Before .offsetHour (a ++ two h ++ [':'] ++ two m ++ [':'] ++
      two sec ++ frac ++ [g]) := fun g hg => Before.offsetHour (Before.second hB2 hm') hs' hfr hg
  split
  · exact Safe.ok _
  split
  · rename_i hc
    subst hc
    refine Safe.bind ?_ (fun _ _ => Safe.pure _)
    have := @parseOffset_right lit p _ cs (hBo '+' (.inl rfl)) (by simp [hl3])
    rw [blen_append] at this
    simpa using this
  split
  · rename_i hc
    subst hc
    refine Safe.bind ?_ (fun _ _ => Safe.pure _)
    have := @parseOffset_right lit p _ cs (hBo '-' (.inr rfl)) (by simp [hl3])
    rw [blen_append] at this
    simpa using this
  · exfalso
    rename_i n1 n2 n3
    rcases ho with h | ⟨x, xs, h, hx⟩
    · cases h
    · cases h
      rcases hx with rfl | rfl | rfl | rfl <;> simp at n1 n2 n3

theorem localTime_right {h s : Str} {hour : Nat} (hlen : h.length = 2) (hd : DigsU h)
    (hh : hour ≤ 23 ∨ hour < 100 ∧ h = two hour) (hl : lit = h ++ [':'] ++ s) :
    Safe (Right lit p) (continueParsingLocalTime ⟨blen (h ++ [':']), s⟩
      (Span.fromPosLen p (blen lit)) hour) := by
  unfold continueParsingLocalTime
  refine Safe.bind ?_ ?_
  · unfold checkRange
    split
    · exact Safe.ok _
    · rename_i hr
      rcases hh with hh | ⟨hh, rfl⟩
      · omega
      · refine Safe.err ⟨[], [':'] ++ s, by simp [hl], hh, .localHour, ?_, ⟨rfl, rfl⟩, by omega⟩
        simp [Span.fromPosLen, behind, blen_two hh, Pos.plus]
  rintro ⟨⟩ -
  have ht := @continueTime_right lit p _ s hour (.localMinute hlen hd) hl
  refine Safe.bind ht.1 ?_
  rintro ⟨t, ⟨i, s3⟩⟩ h3
  obtain ⟨m, sec, frac, hm', hs', hfr, hl3, hi3, ho⟩ := ht.2 _ _ h3
  dsimp only at hl3 hi3 ho
  refine Safe.bind ?_ (fun _ _ => Safe.pure _)
  unfold errorOnOffset
  rcases ho with rfl | ⟨c, cs, rfl, hc⟩
  · exact Safe.ok _
  dsimp only
  rw [if_pos (isOffsetStart_iff.2 hc)]
  refine Safe.err ⟨h, m, sec, frac, c, cs, by simp [hl3], hlen, hd, hm', hs', hfr, hc, ?_⟩
  exact behind_plus _ _ (by rw [hi3]; simp)

theorem afterYear_right {y s : Str} (hlen : y.length = 4) (hd : DigsU y) (hl : lit = y ++ ['-'] ++ s) :
    Safe (Right lit p) (continueParsingDateTimeAfterYear ⟨blen (y ++ ['-']), s⟩
      (Span.fromPosLen p (blen lit)) (numeral 10 y)) := by
  unfold continueParsingDateTimeAfterYear
  have hB : Before .month (y ++ ['-']) := .month hlen hd
  refine Safe.bind (expectNum_right (by simp) hB rfl ⟨rfl, rfl⟩ hl) ?_
  rintro ⟨m, c1⟩ h1
  obtain ⟨s1, rfl, rfl, hm⟩ := expectNum_ok (by omega) h1
  refine Safe.bind (expectChar_right hB (two_digsU hm) (two_length m) rfl (by simp [hl])) ?_
  rintro c2 h2
  obtain ⟨s2, rfl, rfl⟩ := expectChar_ok' (by decide) h2
  have hB2 := Before.day hB hm
  have hmax : maxDay (numeral 10 y) m < 100 := by
    unfold maxDay; dsimp only; split <;> (try split) <;> omega
  refine Safe.bind (expectNum_right (by simp) hB2 rfl
    ⟨y, m, by simp, hlen, rfl, maxDay_eq _ _⟩ (by simp [hl])) ?_
  rintro ⟨d, c3⟩ h3
  obtain ⟨s3, rfl, rfl, hdd⟩ := expectNum_ok hmax h3
  rcases s3 with _ | ⟨c, cs⟩
  · exact Safe.pure _
  dsimp only [Cur.adv]
  split
  · rename_i hc
    have e : blen (y ++ ['-'] ++ two m ++ ['-'] ++ two d) + c.utf8Size =
      blen (y ++ ['-'] ++ two m ++ ['-'] ++ two d ++ [c]) := by
        rw [blen_append (y ++ ['-'] ++ two m ++ ['-'] ++ two d)]; simp
    rw [e]
    refine Safe.bind (parseTimeAndOffset_right (.hour hB2 hdd hc) (by simp [hl])) ?_
    exact fun _ _ => Safe.pure _
  rename_i hc
  split
  · rename_i hcd
    exact Safe.err ⟨_, two d, c :: cs, by simp [hl], hB2, behind_plus _ _ rfl, two_digsU hdd,
      two_length d, by simp [sepAfter], .inr ⟨rfl, c, cs, rfl, hcd⟩⟩
  · rename_i hcd
    refine Safe.err ⟨_, cs, ?_, behind_plus _ _ rfl, .day hB2 hdd hcd (fun h => hc (.inl h))
      (fun h => hc (.inr h))⟩
    simp [hl]

theorem yearChar_right {α : Type} {a : Str} {c : Char} {cs : Str} (hl : lit = a ++ c :: cs)
    (hlen : a.length = 2 ∨ a.length = 3) (h0 : a.head? = some '0') (hd : ∀ d ∈ a, Dig d)
    (hc : ¬ Dig c) (hcol : a.length = 2 → c ≠ ':') :
    Safe (Right lit p) (yearCharError c (blen a) (Span.fromPosLen p (blen lit)) : Res Error α) := by
  unfold yearCharError
  split
  · obtain ⟨b, a', rfl⟩ : ∃ b a', a = '0' :: b :: a' := by
      rcases a with _ | ⟨x, _ | ⟨b, a'⟩⟩
      · simp at hlen
      · simp at hlen
      · simp at h0; subst h0; exact ⟨b, a', rfl⟩
    exact Safe.err ⟨[], b, a' ++ c :: cs, by simp [hl], .inl rfl, by simp [behind, Span.fromPosLen],
      .inl (hd b (by simp))⟩
  rename_i h1
  split
  · rename_i h2
    subst h2
    refine Safe.err ⟨[], a, '-' :: cs, by simp [hl], .year, behind_plus _ _ rfl,
      fun d hdm => .inl (hd d hdm), ?_, .inl ?_, .inr ⟨'-', cs, rfl, by simp [sepAfter]⟩⟩
    · rintro rfl; simp at hlen
    · rw [if_pos rfl]; omega
  · rename_i h2
    exact Safe.err ⟨a, cs, hl, behind_plus _ _ rfl, .year hlen hd hc (fun h => h1 (.inl h))
      (fun h => h1 (.inr h)) h2 hcol⟩

theorem numeral_digit_two {c d : Char} (hc : Dig c) (hd : Dig d) (s : Str) :
    numeral 10 (c :: d :: s) = valFrom 10 (10 * digitVal c + digitVal d) s := by
  have e1 := digitOf_of_isDigit hc
  have e2 := digitOf_of_isDigit hd
  have n1 := ne_under (by omega) ((isDigit_iff_digitOf c).1 hc)
  have n2 := ne_under (by omega) ((isDigit_iff_digitOf d).1 hd)
  simp only [numeral_eq, valFrom, List.foldl_cons, n1, n2, if_false, e1, e2]
  congr 1; omega

theorem continueDate_right {d : Char} {s : Str} (hd : Dig d) (hl : lit = '0' :: d :: s) :
    Safe (Right lit p) (continueParsingDateTime ⟨2, s⟩ (Span.fromPosLen p (blen lit)) (digitVal d)) := by
  unfold continueParsingDateTime
  have h0 : Dig '0' := by unfold Dig; decide
  have e2 : 2 = blen ['0', d] := by simp [isDigit_utf8Size hd, show '0'.utf8Size = 1 by decide]
  have hdd : ∀ x ∈ ['0', d], Dig x := by simp [h0, hd]
  rcases s with _ | ⟨c2, cs2⟩
  · exact Safe.err ⟨[], ['0', d], [], by simp [hl], .year, by rw [behind_stop, hl]; rfl,
      fun x hx => .inl (hdd x hx), by simp, .inl (by simp), .inl rfl⟩
  dsimp only [Cur.adv]
  split
  · rename_i hc2
    have e3 : 2 + c2.utf8Size = blen ['0', d, c2] := by rw [e2]; simp; omega
    have hdd3 : ∀ x ∈ ['0', d, c2], Dig x := by simp [h0, hd, dig_ok.1 hc2]
    rcases cs2 with _ | ⟨c3, cs3⟩
    · exact Safe.err ⟨[], ['0', d, c2], [], by simp [hl], .year, by rw [behind_stop, hl]; rfl,
        fun x hx => .inl (hdd3 x hx), by simp, .inl (by simp), .inl rfl⟩
    dsimp only
    rw [e3]
    split
    · rename_i hc3
      have hdd4 : DigsU ['0', d, c2, c3] := by
        intro x hx
        simp only [List.mem_cons, List.not_mem_nil, or_false] at hx
        rcases hx with rfl | rfl | rfl | rfl
        · exact .inl h0
        · exact .inl hd
        · exact .inl hc2
        · exact .inl hc3
      have e4 : blen ['0', d, c2] + c3.utf8Size = blen ([] ++ ['0', d, c2, c3]) := by simp; omega
      rw [e4]
      refine Safe.bind (expectChar_right .year hdd4 (by simp) rfl (by simp [hl])) ?_
      rintro cur h3
      obtain ⟨s4, rfl, rfl⟩ := expectChar_ok' (by decide) h3
      have := @afterYear_right lit p ['0', d, c2, c3] s4 (by simp) hdd4 (by simp [hl])
      have hy : numeral 10 ['0', d, c2, c3] = 100 * digitVal d + 10 * digitVal c2 + digitVal c3 := by
        rw [numeral_digit_two h0 hd]
        have e1 := digitOf_of_isDigit hc2
        have e2 := digitOf_of_isDigit hc3
        have n1 := ne_under (by omega) ((isDigit_iff_digitOf c2).1 hc2)
        have n2 := ne_under (by omega) ((isDigit_iff_digitOf c3).1 hc3)
        simp only [valFrom, List.foldl_cons, List.foldl_nil, n1, n2, if_false, e1, e2,
          show digitVal '0' = 0 by decide]
        omega
      rw [hy] at this
      exact this
    · rename_i hc3
      exact yearChar_right (cs := cs3) (by simp [hl]) (by simp) rfl hdd3 hc3 (by simp)
  · rename_i hc2
    split
    · rename_i hcol
      subst hcol
      refine Safe.bind ?_ (fun _ _ => Safe.pure _)
      have := @localTime_right lit p ['0', d] cs2 (digitVal d) rfl (fun x hx => .inl (hdd x hx))
        (.inl (by have := digitVal_lt hd; omega)) (by simp [hl])
      rw [blen_append, ← e2] at this
      simpa using this
    · rename_i hcol
      rw [e2]
      exact yearChar_right (cs := cs2) (by simp [hl]) (by simp) rfl hdd hc2 (fun _ => hcol)

end Verif.Toml
