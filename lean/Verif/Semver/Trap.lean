import Verif.Semver.Wrap

/-! # When the parsers of versions and requirements panic -/

namespace Verif.Semver
open Verif Verif.Spec Verif.Spec.Semver

theorem noDigit_iff {s : Str} : NoDigit s ↔ startsWith isDigit s = false := by
  cases s with
  | nil => simp [NoDigit, startsWith]
  | cons c cs => simp [NoDigit, startsWith]

theorem intLoop_trap (start : Pos) (a idx : Nat) (s : Str) (ha : a < 2 ^ 32) :
    intLoop true start (some a) idx s = .panic ↔
      ∃ k, k < (s.takeWhile isDigit).length ∧ 2 ^ 32 ≤ runVal a s / 10 ^ k ∧ runVal a s / 10 ^ k ≤ 2 ^ 32 + 3 := by
  induction s generalizing a idx with
  | nil => simp [intLoop]
  | cons c cs ih =>
    by_cases hc : isDigit c = true
    · rw [runVal_cons_digit hc]
      simp only [intLoop, hc, if_true, List.takeWhile_cons, List.length_cons]
      have hd := digitVal_lt hc
      generalize ha' : a * 10 + digitVal c = a'
      have e := runVal_div a' cs
      generalize hL : (cs.takeWhile isDigit).length = L at *
      have hmono : ∀ k, k ≤ L → a' ≤ runVal a' cs / 10 ^ k := by
        intro k hk
        refine Nat.le_trans (Nat.le_of_eq e.symm) ?_
        exact Nat.div_le_div_left (Nat.pow_le_pow_right (by omega) hk) (Nat.pow_pos (by omega))
      by_cases h1 : a * 10 < 2 ^ 32
      · rw [if_pos h1]
        by_cases h2 : a' < 2 ^ 32
        · rw [if_pos h2, ih _ _ h2]
          constructor
          · rintro ⟨k, h, h'⟩; exact ⟨k, by omega, h'⟩
          · rintro ⟨k, h, h3, h4⟩
            by_cases hk : k = L
            · rw [hk, e] at h3; omega
            · exact ⟨k, by omega, h3, h4⟩
        · rw [if_neg h2]
          simp only [true_iff]
          exact ⟨L, by omega, by rw [e]; omega, by rw [e]; omega⟩
      · rw [if_neg h1, intLoop_none]
        constructor
        · intro h; cases h
        · rintro ⟨k, h, h3, h4⟩
          have := hmono k (by omega)
          omega
    · simp only [Bool.not_eq_true] at hc
      simp [intLoop, hc]

theorem parseInt_trap (c : Cur) (f : NumField) : parseInt true c f = .panic ↔
    ∃ N r, c.rest = decimal N ++ r ∧ NoDigit r ∧ Traps N := by
  obtain ⟨st, ix, rest⟩ := c
  have key : ∀ (x : Char) (cs : Str), x ≠ '0' → isDigit x = true →
      (parseInt true ⟨st, ix, x :: cs⟩ f = .panic ↔ Traps (runVal (digitVal x) cs)) := by
    intro x cs hx hd
    have hx10 := digitVal_lt hd
    have e1 : parseInt true ⟨st, ix, x :: cs⟩ f = .panic ↔ intLoop true st (some (digitVal x)) (ix + 1) cs = .panic := by
      simp only [parseInt, if_neg hx, hd, if_true]
      generalize intLoop true st (some (digitVal x)) (ix + 1) cs = r
      cases r with
      | ok p => obtain ⟨o, c'⟩ := p; cases o <;> simp
      | err => simp
      | panic => simp
    rw [e1, intLoop_trap _ _ _ _ (by omega)]
    constructor
    · rintro ⟨k, -, h⟩; exact ⟨k, h⟩
    · rintro ⟨k, h, h'⟩
      refine ⟨k, Nat.lt_of_not_le fun hk => ?_, h, h'⟩
      have := runVal_div (digitVal x) cs
      have h2 : runVal (digitVal x) cs / 10 ^ k ≤ runVal (digitVal x) cs / 10 ^ (cs.takeWhile isDigit).length :=
        Nat.div_le_div_left (Nat.pow_le_pow_right (by omega) hk) (Nat.pow_pos (by omega))
      omega
  constructor
  · intro h
    cases rest with
    | nil => simp [parseInt] at h
    | cons x cs =>
      by_cases hx : x = '0'
      · subst hx
        simp only [parseInt, if_true] at h
        split at h
        · split at h <;> cases h
        · cases h
      · by_cases hd : isDigit x = true
        · have hall : (x :: cs.takeWhile isDigit).all isDigit = true := by
            simp only [List.all_cons, Bool.and_eq_true]; exact ⟨hd, takeWhile_all _ _⟩
          have hdec := decimal_decVal hall hx
          refine ⟨decVal (x :: cs.takeWhile isDigit), cs.dropWhile isDigit, ?_, noDigit_iff.2 (startsWith_dropWhile _ _), ?_⟩
          · rw [hdec]; simp
          · rw [decVal_cons, ← runVal_eq]
            exact (key x cs hx hd).1 h
        · simp only [parseInt, if_neg hx, hd] at h
          cases h
  · rintro ⟨N, r, h, hr, ht⟩
    rw [noDigit_iff] at hr
    simp only at h
    subst h
    have hN : 0 < N := by
      obtain ⟨k, h, -⟩ := ht
      rcases Nat.eq_zero_or_pos N with rfl | h'
      · simp at h
      · exact h'
    obtain ⟨d, ds, hd, hne⟩ := decimal_head N hN
    have hall := decimal_all N
    have hv := decVal_decimal N
    rw [hd] at hall hv ⊢
    have hall' := hall
    simp only [List.all_cons, Bool.and_eq_true] at hall'
    rw [List.cons_append]
    apply (key d _ hne hall'.1).2
    have htw := takeWhile_append_of_stop hall'.2 hr
    rw [runVal_eq, htw.1, ← decVal_cons, hv]
    exact ht

theorem bind_panic {ε α β : Type} {x : Res ε α} {f : α → Res ε β} :
    (x >>= f) = .panic ↔ x = .panic ∨ ∃ a, x = .ok a ∧ f a = .panic := by
  cases x with
  | ok a => simp
  | err e => simp [Bind.bind, Res.bind]
  | panic => simp [Bind.bind, Res.bind]

theorem optIdent_no_panic (ch : Char) (f : IdentField) (c : Cur) : optIdent ch f c ≠ .panic := by
  intro h
  have hid : ∀ (start : Pos) (s : Str) (taken seg : Str) (nd : Bool) (idx : Nat),
      identLoop f start taken seg nd idx s ≠ .panic := by
    intro start s
    induction s with
    | nil =>
      intro taken seg nd idx h
      simp only [identLoop, identLoop.boundary] at h
      repeat' split at h
      all_goals cases h
    | cons c cs ih =>
      intro taken seg nd idx h
      simp only [identLoop, identLoop.boundary] at h
      repeat' split at h
      all_goals first | exact ih _ _ _ _ h | cases h
  unfold optIdent at h
  split at h
  · rw [bind_panic] at h
    rcases h with h | ⟨a, -, h⟩
    · exact hid _ _ _ _ _ _ h
    · cases h
  · cases h

theorem expectDot_no_panic (c : Cur) (f : NumField) : expectDot c f ≠ .panic := by
  intro h
  unfold expectDot at h
  repeat' split at h
  all_goals cases h

theorem noDigit_dot (s : Str) : startsWith isDigit ('.' :: s) = false := by
  rw [startsWith_cons]; decide

theorem decimal_not_space (n : Nat) (r : Str) : startsWith (· == ' ') (decimal n ++ r) = false := by
  refine decimal_startsWith fun c h => ?_
  exact digit_ne (by decide) c h

theorem parseVersion_trap (input : Str) (pos : Pos) : parseVersion true input pos = .panic ↔
    ∃ i s N rest, NumbersBefore s ∧ Traps N ∧ NoDigit rest ∧ input = spaces i ++ s ++ decimal N ++ rest := by
  constructor
  · intro h
    unfold parseVersion at h
    obtain ⟨i, r0, hin, -, hws⟩ := eatWs_spec (Cur.new pos input)
    simp only [hws] at h
    have hin' : input = spaces i ++ r0 := hin
    rw [bind_panic] at h
    rcases h with h | ⟨⟨M, c1⟩, h1, h⟩
    · obtain ⟨N, r, e, hr, ht⟩ := (parseInt_trap _ _).1 h
      exact ⟨i, [], N, r, .inl rfl, ht, hr, by rw [hin']; simpa using e⟩
    · have e1 := parseInt_sound _ _ _ _ h1
      simp only at h
      rw [bind_panic] at h
      rcases h with h | ⟨c2, h2, h⟩
      · exact absurd h (expectDot_no_panic _ _)
      have e2 := (expectDot_iff _ _ _).1 h2
      rw [bind_panic] at h
      rcases h with h | ⟨⟨m, c3⟩, h3, h⟩
      · obtain ⟨N, r, e, hr, ht⟩ := (parseInt_trap _ _).1 h
        refine ⟨i, decimal M ++ ['.'], N, r, .inr (.inl ⟨M, e1.fits, rfl⟩), ht, hr, ?_⟩
        have t1 := e1.text
        simp only at t1
        rw [hin', t1, e2.1, e]; simp
      · have e3 := parseInt_sound _ _ _ _ h3
        simp only at h
        rw [bind_panic] at h
        rcases h with h | ⟨c4, h4, h⟩
        · exact absurd h (expectDot_no_panic _ _)
        have e4 := (expectDot_iff _ _ _).1 h4
        rw [bind_panic] at h
        rcases h with h | ⟨⟨p, c5⟩, h5, h⟩
        · obtain ⟨N, r, e, hr, ht⟩ := (parseInt_trap _ _).1 h
          refine ⟨i, decimal M ++ ['.'] ++ decimal m ++ ['.'], N, r, .inr (.inr ⟨M, m, e1.fits, e3.fits, rfl⟩), ht, hr, ?_⟩
          have t1 := e1.text
          simp only at t1
          rw [hin', t1, e2.1, e3.text, e4.1, e]; simp
        · exfalso
          simp only [bind_panic] at h
          rcases h with h | ⟨⟨o, c6⟩, -, h⟩
          · exact optIdent_no_panic _ _ _ h
          simp only [bind_panic] at h
          rcases h with h | ⟨⟨o', c7⟩, -, h⟩
          · exact optIdent_no_panic _ _ _ h
          simp only at h
          split at h <;> cases h
  · rintro ⟨i, s, N, rest, hs, ht, hr, rfl⟩
    have hp : ∀ (ix : Nat) f, parseInt true ⟨pos, ix, decimal N ++ rest⟩ f = .panic :=
      fun ix f => (parseInt_trap _ _).2 ⟨N, rest, rfl, hr, ht⟩
    have hsp : ∀ (a : Nat) r, eatWs (Cur.new pos (spaces i ++ (decimal a ++ r))) = ⟨pos, 0 + i, decimal a ++ r⟩ :=
      fun a r => eatWs_eq (decimal_not_space a r)
    unfold parseVersion
    rcases hs with rfl | ⟨a, ha, rfl⟩ | ⟨a, b, ha, hb, rfl⟩
    · simp only [List.append_nil, List.append_assoc, hsp, hp]
      rfl
    · simp only [List.append_assoc, hsp, List.cons_append, List.nil_append]
      rw [parseInt_at true _ _ _ _ _ ha (noDigit_dot _)]
      simp only [Res.bind_ok]
      rw [expectDot_at]
      simp only [Res.bind_ok, hp]
      rfl
    · simp only [List.append_assoc, hsp, List.cons_append, List.nil_append]
      rw [parseInt_at true _ _ _ _ _ ha (noDigit_dot _)]
      simp only [Res.bind_ok]
      rw [expectDot_at]
      simp only [Res.bind_ok]
      rw [parseInt_at true _ _ _ _ _ hb (noDigit_dot _)]
      simp only [Res.bind_ok]
      rw [expectDot_at]
      simp only [Res.bind_ok, hp]
      rfl

theorem compVersion_trap (c : Cur) (op : Op) : compVersion true c op = .panic ↔
    ∃ s N rest, NumbersBefore s ∧ Traps N ∧ NoDigit rest ∧ c.rest = s ++ decimal N ++ rest := by
  constructor
  · intro h
    unfold compVersion at h
    rw [bind_panic] at h
    rcases h with h | ⟨⟨M, c1⟩, h1, h⟩
    · obtain ⟨N, r, e, hr, ht⟩ := (parseInt_trap _ _).1 h
      exact ⟨[], N, r, .inl rfl, ht, hr, by simpa using e⟩
    have e1 := parseInt_sound _ _ _ _ h1
    simp only at h
    cases hd1 : eatChar '.' c1 with
    | mk b1 c2 =>
      rw [hd1] at h
      cases b1 with
      | false => cases h
      | true =>
        rw [eatChar_true_iff] at hd1
        simp only at h
        cases hw1 : eatWildcard c2 with
        | some wc =>
          exfalso
          rw [hw1] at h
          simp only at h
          repeat' split at h
          all_goals cases h
        | none =>
          rw [hw1] at h
          simp only at h
          rw [bind_panic] at h
          rcases h with h | ⟨⟨m, c3⟩, h3, h⟩
          · obtain ⟨N, r, e, hr, ht⟩ := (parseInt_trap _ _).1 h
            refine ⟨decimal M ++ ['.'], N, r, .inr (.inl ⟨M, e1.fits, rfl⟩), ht, hr, ?_⟩
            rw [e1.text, hd1.1, e]; simp
          have e3 := parseInt_sound _ _ _ _ h3
          simp only at h
          cases hd2 : eatChar '.' c3 with
          | mk b2 c4 =>
            rw [hd2] at h
            cases b2 with
            | false => cases h
            | true =>
              rw [eatChar_true_iff] at hd2
              simp only at h
              cases hw2 : eatWildcard c4 with
              | some wc => rw [hw2] at h; cases h
              | none =>
                rw [hw2] at h
                simp only at h
                rw [bind_panic] at h
                rcases h with h | ⟨⟨p, c5⟩, h5, h⟩
                · obtain ⟨N, r, e, hr, ht⟩ := (parseInt_trap _ _).1 h
                  refine ⟨decimal M ++ ['.'] ++ decimal m ++ ['.'], N, r, .inr (.inr ⟨M, m, e1.fits, e3.fits, rfl⟩), ht, hr, ?_⟩
                  rw [e1.text, hd1.1, e3.text, hd2.1, e]; simp
                · exfalso
                  simp only [bind_panic] at h
                  rcases h with h | ⟨⟨o, c6⟩, -, h⟩
                  · exact optIdent_no_panic _ _ _ h
                  simp only [bind_panic] at h
                  rcases h with h | ⟨⟨o', c7⟩, -, h⟩
                  · exact optIdent_no_panic _ _ _ h
                  simp only at h
                  split at h <;> cases h
  · rintro ⟨s, N, rest, hs, ht, hr, hc⟩
    obtain ⟨st, ix, r0⟩ := c
    simp only at hc
    subst hc
    have hp : ∀ (ix : Nat) f, parseInt true ⟨st, ix, decimal N ++ rest⟩ f = .panic :=
      fun ix f => (parseInt_trap _ _).2 ⟨N, rest, rfl, hr, ht⟩
    have hwd : ∀ (n : Nat) (s : Str), startsWith isWl (decimal n ++ s) = false := fun n s =>
      decimal_startsWith digit_not_wl
    unfold compVersion
    rcases hs with rfl | ⟨a, ha, rfl⟩ | ⟨a, b, ha, hb, rfl⟩
    · simp only [List.nil_append, hp]
      rfl
    · simp only [List.append_assoc, List.cons_append, List.nil_append]
      rw [parseInt_at true _ _ _ _ _ ha (noDigit_dot _)]
      simp only [Res.bind_ok]
      rw [eatChar_at]
      simp only
      rw [eatWildcard_none (hwd _ _)]
      simp only [hp]
      rfl
    · simp only [List.append_assoc, List.cons_append, List.nil_append]
      rw [parseInt_at true _ _ _ _ _ ha (noDigit_dot _)]
      simp only [Res.bind_ok]
      rw [eatChar_at]
      simp only
      rw [eatWildcard_none (hwd _ _)]
      simp only
      rw [parseInt_at true _ _ _ _ _ hb (noDigit_dot _)]
      simp only [Res.bind_ok]
      rw [eatChar_at]
      simp only
      rw [eatWildcard_none (hwd _ _)]
      simp only [hp]
      rfl

theorem before_digit {s rest : Str} {N : Nat} (h : NumbersBefore s) : startsWith isDigit (s ++ decimal N ++ rest) = true := by
  rcases h with rfl | ⟨a, -, rfl⟩ | ⟨a, b, -, -, rfl⟩
  · simpa using decimal_startsWith_digit N rest
  · simp only [List.append_assoc]; exact decimal_startsWith_digit _ _
  · simp only [List.append_assoc]; exact decimal_startsWith_digit _ _

theorem wildcardArm_no_panic (pos : Pos) (w : WlChar) (b : Bool) (c : Cur) (cs : Str) : wildcardArm pos w b c cs ≠ .panic := by
  intro h
  unfold wildcardArm at h
  simp only at h
  split at h
  · cases h
  split at h
  · cases h
  split at h
  · split at h
    · split at h <;> cases h
    · cases h
  · rename_i hr
    simp only [expectCommaOrEnd, hr] at h
    cases h

theorem expectCommaOrEnd_no_panic (c : Cur) : expectCommaOrEnd c ≠ .panic := by
  intro h
  unfold expectCommaOrEnd at h
  repeat' split at h
  all_goals cases h

theorem comparatorStep_trap (pos : Pos) (n : Nat) (c : Cur) (b : Char) (cs : Str) (hc : c.rest = b :: cs) :
    comparatorStep true pos n c b cs = .panic ↔ n ≤ 31 ∧ ∃ op j s N rest, op ≠ .wl ∧ (op = .bl → j = 0) ∧
      NumbersBefore s ∧ Traps N ∧ NoDigit rest ∧ c.rest = opWritten op ++ spaces j ++ s ++ decimal N ++ rest := by
  constructor
  · intro h
    unfold comparatorStep at h
    split at h
    · cases h
    rename_i hn
    have hn' : n < 32 := by simpa [MAX_COMPARATORS] using hn
    refine ⟨by omega, ?_⟩
    simp only at h
    split at h
    · exact absurd h (wildcardArm_no_panic _ _ _ _ _)
    split at h
    · cases h
    rename_i op c1 ho
    obtain ⟨o1, o2, o3, o4, o5⟩ := parseOp_sound b cs c c1 op hc ho
    obtain ⟨k1, r1, hr1, hrs1, hws1⟩ := eatWs_spec c1
    rw [hws1, bind_panic] at h
    rcases h with h | ⟨⟨cv, op', c2⟩, h2, h⟩
    · obtain ⟨s, N, rest, hs, ht, hr, e⟩ := (compVersion_trap _ _).1 h
      refine ⟨op, k1, s, N, rest, o4, ?_, hs, ht, hr, ?_⟩
      · intro e
        have hd := o5 e
        subst e
        have : c1.rest = b :: cs := by rw [← hc, o1]; rfl
        rw [this] at hr1
        cases k1 with
        | zero => rfl
        | succ k =>
          simp [spaces, List.replicate_succ] at hr1
          rw [hr1.1] at hd; exact absurd hd (by decide)
      · simp only at e
        rw [o1, hr1, e]; simp
    · exfalso
      simp only [bind_panic] at h
      rcases h with h | ⟨a, -, h⟩
      · exact expectCommaOrEnd_no_panic _ h
      · cases h
  · rintro ⟨hn, op, j, s, N, rest, hop, hbl, hs, ht, hr, e⟩
    have hdig := before_digit (rest := rest) (N := N) hs
    generalize hv : s ++ decimal N ++ rest = v at *
    obtain ⟨st, ix, r0⟩ := c
    simp only at hc e
    subst hc
    have e' : b :: cs = opWritten op ++ (spaces j ++ v) := by rw [e, ← hv]; simp
    have hrdig : j = 0 → startsWith isDigit (spaces j ++ v) = true := by
      rintro rfl; simpa [spaces] using hdig
    have hr' : ∀ q : Char → Bool, q ' ' = false → (∀ c, isDigit c = true → q c = false) →
        startsWith q (spaces j ++ v) = false := by
      intro q h1 h2
      cases j with
      | zero => exact startsWith_false_of_digit (hrdig rfl) h2
      | succ k => simp only [spaces, List.replicate_succ, List.cons_append]; exact h1
    have hwl : wlOf b = none := by
      apply wlOf_none
      have : startsWith isWl (b :: cs) = false := by
        rw [e']
        cases op with
        | wl => exact absurd rfl hop
        | bl => exact startsWith_false_of_digit (hrdig (hbl rfl)) digit_not_wl
        | _ => simp only [opWritten, List.cons_append, startsWith_cons]; decide
      simpa using this
    unfold comparatorStep
    rw [if_neg (by simp [MAX_COMPARATORS]; omega)]
    simp only [hwl]
    rw [parseOp_complete op st ix _ b cs e' (hr' _ (by decide) (fun c h => digit_ne (by decide) c h))
      (by
        rintro (h | h)
        · exact absurd h hop
        · exact hrdig (hbl h))]
    simp only
    rw [eatWs_eq (startsWith_false_of_digit hdig (fun c h => digit_ne (by decide) c h)), bind_panic]
    exact .inl ((compVersion_trap _ _).2 ⟨s, N, rest, hs, ht, hr, hv.symm⟩)

theorem reqLoop_trap (pos : Pos) (fuel : Nat) (c : Cur) (comps : List Comparator) (lc : Option Nat)
    (hf : c.rest.length < fuel) : reqLoop true pos fuel c comps lc = .panic ↔
      ∃ its : List Item, ∃ i op j s N rest, comps.length + its.length ≤ 31 ∧ (∀ it ∈ its, it.Valid ∧ ∀ w, it.cv ≠ .wl w) ∧
        op ≠ .wl ∧ (op = .bl → j = 0) ∧ NumbersBefore s ∧ Traps N ∧ NoDigit rest ∧
        c.rest = its.flatMap (fun it => it.text ++ [',']) ++ (spaces i ++ opWritten op ++ spaces j) ++ s ++ decimal N ++ rest := by
  induction fuel generalizing c comps lc with
  | zero => omega
  | succ fuel ih =>
    constructor
    · intro h
      obtain ⟨n, r, hr, hrs, hws⟩ := eatWs_spec c
      simp only [reqLoop, hws] at h
      cases r with
      | nil => cases h
      | cons b cs =>
        simp only [bind_panic] at h
        rcases h with h | ⟨⟨comp, c1⟩, h1, h⟩
        · obtain ⟨hn, op, j, s, N, rest, g1, g2, g3, g4, g5, g6⟩ := (comparatorStep_trap _ _ _ _ _ rfl).1 h
          refine ⟨[], n, op, j, s, N, rest, by simpa using hn, by simp, g1, g2, g3, g4, g5, ?_⟩
          simp only at g6
          rw [hr, g6]; simp
        · obtain ⟨it, st⟩ := comparatorStep_sound _ _ _ _ _ _ rfl _ h1
          simp only at h
          have hlen : c1.rest.length < fuel := by
            have : c.rest.length = n + (b :: cs).length := by rw [hr]; simp [spaces]
            rcases st.text with ⟨-, t2, -⟩ | ⟨-, t2, -⟩
            · rw [t2]; simp at this ⊢; omega
            · simp only at t2
              rw [t2] at this
              simp at this; omega
          obtain ⟨its, i, op, j, s, N, rest, g1, g2, g3, g4, g5, g6, g7, g8⟩ := (ih _ _ _ hlen).1 h
          rcases st.text with ⟨t1, t2, -⟩ | ⟨t1, t2, -⟩
          · rw [t2] at g8
            have := congrArg List.length g8
            have hd := List.length_pos_iff.2 (decimal_ne_nil N)
            simp at this
            omega
          · refine ⟨it.lead n :: its, i, op, j, s, N, rest, by simp at g1 ⊢; omega, ?_, g3, g4, g5, g6, g7, ?_⟩
            · intro x hx
              rcases List.mem_cons.1 hx with rfl | hx
              · refine ⟨Item.lead_valid st.valid n, fun w hw => ?_⟩
                have := (st.bare w hw).2
                rw [t1] at this; cases this
              · exact g2 x hx
            · simp only at t2
              rw [hr, t2, g8, List.flatMap_cons, Item.lead_text st.sp0]; simp
    · rintro ⟨its, i, op, j, s, N, rest, g1, g2, g3, g4, g5, g6, g7, g8⟩
      obtain ⟨st, ix, r0⟩ := c
      simp only at g8 hf
      cases its with
      | nil =>
        have hdig := before_digit (rest := rest) (N := N) g5
        have e : r0 = spaces i ++ (opWritten op ++ spaces j ++ s ++ decimal N ++ rest) := by rw [g8]; simp
        have hns : startsWith (· == ' ') (opWritten op ++ spaces j ++ s ++ decimal N ++ rest) = false := by
          cases op with
          | wl => exact absurd rfl g3
          | bl =>
            rw [g4 rfl]
            simp only [opWritten, spaces, List.replicate_zero, List.nil_append]
            exact startsWith_false_of_digit hdig (fun c h => digit_ne (by decide) c h)
          | _ => simp only [opWritten, List.cons_append, startsWith_cons]; decide
        rw [e]
        simp only [reqLoop]
        rw [eatWs_eq hns]
        obtain ⟨b, cs, hbc⟩ := List.exists_cons_of_ne_nil
          (show opWritten op ++ spaces j ++ s ++ decimal N ++ rest ≠ [] by
            intro h
            have := congrArg List.length h
            have hd := List.length_pos_iff.2 (decimal_ne_nil N)
            simp at this
            exact absurd this.2.2.2.1 (decimal_ne_nil N))
        simp only [hbc, bind_panic]
        refine .inl ((comparatorStep_trap _ _ _ _ _ rfl).2 ⟨by simpa using g1, op, j, s, N, rest, g3, g4, g5, g6, g7, hbc.symm⟩)
      | cons it its =>
        have e : r0 = it.text ++ ',' :: (its.flatMap (fun it => it.text ++ [',']) ++ (spaces i ++ opWritten op ++ spaces j) ++
            s ++ decimal N ++ rest) := by rw [g8]; simp
        simp at g1
        rw [e, reqLoop_item true pos st fuel ix comps lc it (g2 it (by simp)).1 (by omega) _ (some (ix + it.text.length))
          ⟨st, ix + it.text.length + 1, _⟩ (.inr ⟨_, rfl, rfl, rfl⟩)
          (fun w hw => absurd hw ((g2 it (by simp)).2 w))]
        refine (ih _ _ _ ?_).2 ⟨its, i, op, j, s, N, rest, by simp; omega, fun x hx => g2 x (by simp [hx]), g3, g4, g5, g6, g7, rfl⟩
        rw [e] at hf
        simp at hf ⊢
        omega

theorem parseRequirement_trap (input : Str) (pos : Pos) : parseRequirement true input pos = .panic ↔
    ∃ b s N rest, ItemsBefore b ∧ NumbersBefore s ∧ Traps N ∧ NoDigit rest ∧ input = b ++ s ++ decimal N ++ rest := by
  have h1 : parseRequirement true input pos = .panic ↔
      reqLoop true pos (input.length + 1) (Cur.new pos input) [] none = .panic := by
    unfold parseRequirement
    rw [bind_panic]
    constructor
    · rintro (h | ⟨⟨cs, lc⟩, -, h⟩)
      · exact h
      · simp only at h
        repeat' split at h
        all_goals cases h
    · exact .inl
  rw [h1, reqLoop_trap _ _ _ _ _ (by simp [Cur.new])]
  constructor
  · rintro ⟨its, i, op, j, s, N, rest, g1, g2, g3, g4, g5, g6, g7, g8⟩
    exact ⟨_, s, N, rest, ⟨its, i, op, j, by simpa using g1, g2, g3, g4, rfl⟩, g5, g6, g7, g8⟩
  · rintro ⟨_, s, N, rest, ⟨its, i, op, j, g1, g2, g3, g4, rfl⟩, g5, g6, g7, g8⟩
    exact ⟨its, i, op, j, s, N, rest, by simpa using g1, g2, g3, g4, g5, g6, g7, g8⟩

end Verif.Semver
