import Verif.Spec.Wrap
import Verif.Semver.MoreLemmas

/-! # The parsers of versions and requirements, in every build -/

namespace Verif.Semver
open Verif Verif.Spec Verif.Spec.Semver

/-! ## Numbers -/

/-- The number read so far can be multiplied by ten at every digit. -/
def OkDigits : Nat → Str → Prop
  | _, [] => True
  | a, c :: cs => isDigit c = true → a % 2 ^ 32 * 10 < 2 ^ 32 ∧ OkDigits (a * 10 + digitVal c) cs

theorem intLoop_wrap (start : Pos) (a idx : Nat) (s : Str) :
    (OkDigits a s → intLoop false start (some (a % 2 ^ 32)) idx s =
      .ok (some (runVal a s % 2 ^ 32), afterDigits start idx s)) ∧
    (¬ OkDigits a s → intLoop false start (some (a % 2 ^ 32)) idx s = .ok (none, afterDigits start idx s)) := by
  induction s generalizing a idx with
  | nil => simp [OkDigits, intLoop, runVal, afterDigits]
  | cons c cs ih =>
    by_cases hc : isDigit c = true
    · rw [runVal_cons_digit hc, afterDigits_cons hc]
      simp only [intLoop, hc, if_true, OkDigits, forall_const]
      have hd := digitVal_lt hc
      by_cases h1 : a % 2 ^ 32 * 10 < 2 ^ 32
      · have e : (if a % 2 ^ 32 * 10 + digitVal c < 2 ^ 32 then
            intLoop false start (some (a % 2 ^ 32 * 10 + digitVal c)) (idx + 1) cs
          else if false = true then .panic
          else intLoop false start (some ((a % 2 ^ 32 * 10 + digitVal c) % 2 ^ 32)) (idx + 1) cs) =
          intLoop false start (some ((a * 10 + digitVal c) % 2 ^ 32)) (idx + 1) cs := by
          split
          · rename_i h2
            have : (a * 10 + digitVal c) % 2 ^ 32 = a % 2 ^ 32 * 10 + digitVal c := by omega
            rw [this]
          · have : (a * 10 + digitVal c) % 2 ^ 32 = (a % 2 ^ 32 * 10 + digitVal c) % 2 ^ 32 := by omega
            rw [this]
            rfl
        rw [if_pos h1, e]
        simpa [h1] using ih (a * 10 + digitVal c) (idx + 1)
      · rw [if_neg h1]
        simp [h1, intLoop_none]
    · simp only [Bool.not_eq_true] at hc
      simp [intLoop, runVal, afterDigits, hc, OkDigits]

theorem runVal_div (a : Nat) (s : Str) : runVal a s / 10 ^ (s.takeWhile isDigit).length = a := by
  rw [runVal_eq]
  have := decVal_lt (takeWhile_all isDigit s)
  rw [Nat.mul_comm, Nat.mul_add_div (Nat.pow_pos (by omega)), Nat.div_eq_of_lt this]
  rfl

theorem okDigits_iff (a : Nat) (s : Str) : OkDigits a s ↔
    ∀ k, k < (s.takeWhile isDigit).length → runVal a s / 10 ^ (k + 1) % 2 ^ 32 * 10 < 2 ^ 32 := by
  induction s generalizing a with
  | nil => simp [OkDigits]
  | cons c cs ih =>
    by_cases hc : isDigit c = true
    · rw [runVal_cons_digit hc]
      simp only [OkDigits, hc, forall_const, ih, List.takeWhile_cons, if_true, List.length_cons]
      have e : runVal (a * 10 + digitVal c) cs / 10 ^ ((cs.takeWhile isDigit).length + 1) = a := by
        rw [Nat.pow_succ, ← Nat.div_div_eq_div_mul, runVal_div]
        have := digitVal_lt hc
        omega
      constructor
      · rintro ⟨h1, h2⟩ k hk
        by_cases hk' : k = (cs.takeWhile isDigit).length
        · rw [hk', e]; exact h1
        · exact h2 k (by omega)
      · intro h
        refine ⟨?_, fun k hk => h k (by omega)⟩
        have := h (cs.takeWhile isDigit).length (by omega)
        rwa [e] at this
    · simp only [Bool.not_eq_true] at hc
      simp [OkDigits, hc]

theorem okDigits_accepted (a : Nat) (s : Str) (ha : a < 10) :
    OkDigits a s ↔ Accepted false (runVal a s) := by
  rw [okDigits_iff]
  unfold Accepted
  simp only [Bool.false_eq_true, if_false]
  constructor
  · intro h k
    by_cases hk : k < (s.takeWhile isDigit).length
    · exact h k hk
    · have : runVal a s / 10 ^ (k + 1) = 0 := by
        have e : 10 ^ (k + 1) = 10 ^ (s.takeWhile isDigit).length * 10 ^ (k + 1 - (s.takeWhile isDigit).length) := by
          rw [← Nat.pow_add]; congr 1; omega
        rw [e, ← Nat.div_div_eq_div_mul, runVal_div]
        apply Nat.div_eq_of_lt
        calc a < 10 ^ 1 := by omega
          _ ≤ _ := Nat.pow_le_pow_right (by omega) (by omega)
      rw [this]
      decide
  · intro h k _
    exact h k

/-- What a successful `parse_int` has read. -/
structure IntReadW (ovf : Bool) (N : Nat) (c c' : Cur) : Prop where
  text : c.rest = decimal N ++ c'.rest
  fits : Accepted ovf N
  start : c'.start = c.start
  idx : c'.idx = c.idx + (decimal N).length
  stop : startsWith isDigit c'.rest = false

theorem IntReadW.of_true {N : Nat} {c c' : Cur} : IntReadW true N c c' ↔ IntRead N c c' :=
  ⟨fun h => ⟨h.text, h.fits, h.start, h.idx, h.stop⟩, fun h => ⟨h.text, h.fits, h.start, h.idx, h.stop⟩⟩

theorem parseInt_wide (ovf : Bool) (c c' : Cur) (f : NumField) (n : Nat) :
    parseInt ovf c f = .ok (n, c') ↔ ∃ N, IntReadW ovf N c c' ∧ n = N % 2 ^ 32 := by
  cases ovf with
  | true =>
    constructor
    · intro h
      have := parseInt_sound _ _ _ _ h
      exact ⟨n, IntReadW.of_true.2 this, (Nat.mod_eq_of_lt this.fits).symm⟩
    · rintro ⟨N, h, rfl⟩
      rw [IntReadW.of_true] at h
      rw [Nat.mod_eq_of_lt h.fits]
      exact parseInt_complete true _ _ _ _ h
  | false =>
    constructor
    · intro h
      obtain ⟨st, ix, rest⟩ := c
      cases rest with
      | nil => simp [parseInt] at h
      | cons x cs =>
        simp only [parseInt] at h
        have h0 : Accepted false 0 := by intro k; simp
        by_cases hx : x = '0'
        · subst hx
          simp only [if_true] at h
          cases cs with
          | nil =>
            simp [Cur.step] at h; obtain ⟨rfl, rfl⟩ := h
            exact ⟨0, ⟨by simp [decimal_zero], h0, rfl, by simp [decimal_zero], rfl⟩, rfl⟩
          | cons y ys =>
            by_cases hy : isDigit y = true
            · simp [hy] at h
            · simp only [Bool.not_eq_true] at hy
              simp [hy, Cur.step] at h; obtain ⟨rfl, rfl⟩ := h
              exact ⟨0, ⟨by simp [decimal_zero], h0, rfl, by simp [decimal_zero], by simpa using hy⟩, rfl⟩
        · rw [if_neg hx] at h
          by_cases hd : isDigit x = true
          · rw [if_pos hd] at h
            have hx10 := digitVal_lt hd
            have hall : (x :: cs.takeWhile isDigit).all isDigit = true := by
              simp only [List.all_cons, Bool.and_eq_true]; exact ⟨hd, takeWhile_all _ _⟩
            have hrun : runVal (digitVal x) cs = decVal (x :: cs.takeWhile isDigit) := by
              rw [runVal_eq, ← decVal_cons]
            have hw := intLoop_wrap st (digitVal x) (ix + 1) cs
            rw [show digitVal x % 2 ^ 32 = digitVal x by omega] at hw
            by_cases hf : OkDigits (digitVal x) cs
            · rw [hw.1 hf] at h
              simp only [Res.ok.injEq, Prod.mk.injEq] at h
              obtain ⟨rfl, rfl⟩ := h
              have hdec := decimal_decVal hall hx
              rw [← hrun] at hdec
              refine ⟨_, ⟨?_, (okDigits_accepted _ _ hx10).1 hf, rfl, ?_, startsWith_dropWhile _ _⟩, rfl⟩
              · simp only [hdec, afterDigits, List.cons_append, List.takeWhile_append_dropWhile]
              · simp only [hdec, afterDigits, List.length_cons]; omega
            · rw [hw.2 hf] at h; cases h
          · rw [if_neg hd] at h; cases h
    · rintro ⟨n, ⟨ht, hn, hs, hi, hr⟩, rfl⟩
      obtain ⟨st, ix, rest⟩ := c
      obtain ⟨st', ix', r⟩ := c'
      simp only at ht hs hi hr
      subst hs
      by_cases h0 : n = 0
      · subst h0
        rw [decimal_zero] at ht hi
        subst ht hi
        cases r with
        | nil => rfl
        | cons y ys => simp at hr; simp [parseInt, hr, Cur.step]
      · obtain ⟨d, ds, hd, hne⟩ := decimal_head n (by omega)
        have hall := decimal_all n
        have hv := decVal_decimal n
        rw [hd] at ht hi hall hv
        subst ht hi
        have hall' := hall
        simp only [List.all_cons, Bool.and_eq_true] at hall'
        have htw := takeWhile_append_of_stop hall'.2 hr
        have hrun : runVal (digitVal d) (ds ++ r) = n := by
          rw [runVal_eq, htw.1, ← decVal_cons, hv]
        have hx10 := digitVal_lt hall'.1
        have hw := (intLoop_wrap st' (digitVal d) (ix + 1) (ds ++ r)).1
          ((okDigits_accepted _ _ hx10).2 (by rw [hrun]; exact hn))
        rw [show digitVal d % 2 ^ 32 = digitVal d by omega] at hw
        simp only [parseInt, List.cons_append, if_neg hne, hall'.1, if_true, hw, hrun, afterDigits,
          htw.1, htw.2]
        simp; omega

theorem parseInt_atW {ovf : Bool} (st : Pos) (ix n : Nat) (r : Str) (f : NumField)
    (hn : Accepted ovf n) (hr : startsWith isDigit r = false) :
    parseInt ovf ⟨st, ix, decimal n ++ r⟩ f = .ok (n % 2 ^ 32, ⟨st, ix + (decimal n).length, r⟩) :=
  (parseInt_wide ovf _ _ f _).2 ⟨n, ⟨rfl, hn, rfl, rfl, hr⟩, rfl⟩

/-! ## Versions and requirements -/

theorem parseVersion_completeW (ovf : Bool) (input : Str) (pos : Pos) (v : Version)
    (h : WideText ovf input v) : parseVersion ovf input pos = .ok v := by
  obtain ⟨v, ⟨hM, hm, hp, hpre, hbuild⟩, rfl, i, j, rfl⟩ := h
  rw [versionText_eq]
  -- name the intermediate texts
  have hd0 : ∀ n, startsWith (· == ' ') (decimal n) = false := by
    intro n
    have := decimal_all n
    cases hn : decimal n with
    | nil => rfl
    | cons c cs =>
      rw [hn] at this; simp only [List.all_cons, Bool.and_eq_true] at this
      have := this.1
      simp; rintro rfl; revert this; decide
  let t3 := optText '+' (tagOpt v.build) ++ spaces j
  let t2 := optText '-' (tagOpt v.pre) ++ t3
  let t1 := decimal v.minor ++ '.' :: (decimal v.patch ++ t2)
  have hin : spaces i ++ (decimal v.major ++ '.' :: (decimal v.minor ++ '.' :: (decimal v.patch ++
      (optText '-' (tagOpt v.pre) ++ optText '+' (tagOpt v.build))))) ++ spaces j =
      spaces i ++ (decimal v.major ++ '.' :: t1) := by simp [t1, t2, t3]
  rw [hin]
  have hws : eatWs (Cur.new pos (spaces i ++ (decimal v.major ++ '.' :: t1))) =
      ⟨pos, 0 + i, decimal v.major ++ '.' :: t1⟩ :=
    eatWs_eq (by rw [startsWith_append_of_ne_nil (decimal_ne_nil _)]; exact hd0 _)
  unfold parseVersion
  simp only [hws]
  rw [parseInt_atW _ _ _ _ _ hM (by rw [startsWith_cons]; decide)]
  simp only [Res.bind_ok]
  rw [expectDot_at]
  simp only [Res.bind_ok, t1]
  rw [parseInt_atW _ _ _ _ _ hm (by rw [startsWith_cons]; decide)]
  simp only [Res.bind_ok]
  rw [expectDot_at]
  simp only [Res.bind_ok]
  have ht3 : ∀ p : Char → Bool, p ' ' = false → p '+' = false → startsWith p t3 = false := by
    intro p h1 h2
    simp only [t3, tagOpt]; split
    · simpa [optText] using startsWith_spaces h1 j
    · simpa [optText] using h2
  have ht2 : startsWith isDigit t2 = false := by
    simp only [t2, tagOpt]; split
    · simpa [optText] using ht3 isDigit (by decide) (by decide)
    · simp [optText]; decide
  rw [parseInt_atW _ _ _ _ _ hp ht2]
  simp only [Res.bind_ok]
  have hopt1 : ∀ ix, optIdent '-' .prerelease ⟨pos, ix, t2⟩ =
      .ok (tagOpt v.pre, ⟨pos, ix + (optText '-' (tagOpt v.pre)).length, t3⟩) := by
    intro ix
    refine (optIdent_iff ..).2 (optRead_mk pos ix t3 ?_ ?_ ?_)
    · intro s hs
      simp only [tagOpt] at hs; split at hs
      · cases hs
      · rename_i hne; simp at hs; subst hs
        exact (preTag_iff _).1 (hpre.resolve_left hne)
    · intro _; exact ht3 _ (by decide) (by decide)
    · intro _; exact ht3 _ (by decide) (by decide)
  have hopt2 : ∀ ix, optIdent '+' .buildMetadata ⟨pos, ix, t3⟩ =
      .ok (tagOpt v.build, ⟨pos, ix + (optText '+' (tagOpt v.build)).length, spaces j⟩) := by
    intro ix
    refine (optIdent_iff ..).2 (optRead_mk pos ix (spaces j) ?_ ?_ ?_)
    · intro s hs
      simp only [tagOpt] at hs; split at hs
      · cases hs
      · rename_i hne; simp at hs; subst hs
        exact (buildTag_iff _).1 (hbuild.resolve_left hne)
    · intro _; exact startsWith_spaces (by decide) j
    · intro _; exact startsWith_spaces (by decide) j
  rw [hopt1]
  simp only [Res.bind_ok]
  rw [hopt2]
  simp only [Res.bind_ok]
  have hend : ∀ ix, eatWs ⟨pos, ix, spaces j⟩ = ⟨pos, ix + j, []⟩ := by
    intro ix
    have := eatWs_eq (start := pos) (idx := ix) (n := j) (r := []) rfl
    simpa using this
  rw [hend]
  have hg : ∀ s : Str, (tagOpt s).getD [] = s := by
    intro s; unfold tagOpt; split <;> simp_all
  simp [hg, wrapVersion]

theorem parseVersion_soundW (ovf : Bool) (input : Str) (pos : Pos) (v : Version)
    (h : parseVersion ovf input pos = .ok v) : WideText ovf input v := by
  unfold parseVersion at h
  obtain ⟨i, r0, hin, -, hws⟩ := eatWs_spec (Cur.new pos input)
  simp only [hws, Res.bind_eq_ok] at h
  obtain ⟨⟨M, c1⟩, h1, c2, h2, ⟨m, c3⟩, h3, c4, h4, ⟨p, c5⟩, h5, ⟨opre, c6⟩, h6, ⟨obuild, c7⟩, h7, h8⟩ := h
  simp only at h2 h3 h4 h5 h6 h7 h8
  obtain ⟨N1, e1, n1⟩ := (parseInt_wide _ _ _ _ _).1 h1
  have e2 := (expectDot_iff _ _ _).1 h2
  obtain ⟨N3, e3, n3⟩ := (parseInt_wide _ _ _ _ _).1 h3
  have e4 := (expectDot_iff _ _ _).1 h4
  obtain ⟨N5, e5, n5⟩ := (parseInt_wide _ _ _ _ _).1 h5
  have e6 := (optIdent_iff _ _ _ _ _).1 h6
  have e7 := (optIdent_iff _ _ _ _ _).1 h7
  obtain ⟨j, r, hr, hrs, hws2⟩ := eatWs_spec c7
  rw [hws2] at h8
  cases r with
  | cons x xs => simp at h8
  | nil =>
    simp only [Res.ok.injEq] at h8
    subst h8
    have hopt : ∀ (ch : Char) (f : IdentField) (o : Option Str) (c c' : Cur), OptRead ch f o c c' →
        tagOpt (o.getD []) = o := by
      intro ch f o c c' h
      cases o with
      | none => rfl
      | some s => simp [tagOpt, segs_ne_nil h.segs]
    refine ⟨⟨N1, N3, N5, opre.getD [], obuild.getD []⟩, ⟨e1.fits, e3.fits, e5.fits, ?_, ?_⟩, by simp [wrapVersion, n1, n3, n5], i, j, ?_⟩
    · cases opre with
      | none => exact .inl rfl
      | some s => exact .inr ((preTag_iff _).2 e6.segs)
    · cases obuild with
      | none => exact .inl rfl
      | some s => exact .inr ((buildTag_iff _).2 e7.segs)
    · rw [versionText_eq]
      simp only [hopt _ _ _ _ _ e6, hopt _ _ _ _ _ e7]
      have hin' : input = spaces i ++ r0 := hin
      have t1 := e1.text
      simp only at t1
      rw [hin', t1, e2.1, e3.text, e4.1, e5.text, e6.text, e7.text, hr]
      simp

/-- What a successful `comp_version` has read. -/
structure CvReadW (ovf : Bool) (W : CompVersion) (c c' : Cur) : Prop where
  text : c.rest = cvText W ++ c'.rest
  start : c'.start = c.start
  idx : c'.idx = c.idx + (cvText W).length
  valid : WideCv ovf W
  notBare : ∀ w, W ≠ .wl w

theorem opAfter_wrap (W : CompVersion) (op : Op) : opAfter (wrapCv W) op = opAfter W op := by
  cases W with
  | major a w => cases w <;> rfl
  | minor a b w => cases w <;> rfl
  | _ => rfl

theorem compVersion_soundW (ovf : Bool) (c c' : Cur) (op op' : Op) (cv : CompVersion)
    (h : compVersion ovf c op = .ok (cv, op', c')) :
    ∃ W, CvReadW ovf W c c' ∧ cv = wrapCv W ∧ op' = opAfter W op := by
  unfold compVersion at h
  rw [Res.bind_eq_ok] at h
  obtain ⟨⟨M, c1⟩, h1, h⟩ := h
  obtain ⟨N1, e1, n1⟩ := (parseInt_wide _ _ _ _ _).1 h1
  subst n1
  simp only at h
  cases hd1 : eatChar '.' c1 with
  | mk b1 c2 =>
    rw [hd1] at h
    cases b1 with
    | false =>
      rw [eatChar_false_iff] at hd1
      obtain ⟨rfl, -⟩ := hd1
      simp at h
      obtain ⟨rfl, rfl, rfl⟩ := h
      exact ⟨.major N1 none, ⟨e1.text, e1.start, e1.idx, e1.fits, by simp⟩, rfl, rfl⟩
    | true =>
      rw [eatChar_true_iff] at hd1
      simp only at h
      cases hw1 : eatWildcard c2 with
      | some wc =>
        obtain ⟨w1, c3⟩ := wc
        rw [hw1] at h
        rw [eatWildcard_some_iff] at hw1
        simp only at h
        cases hd2 : eatChar '.' c3 with
        | mk b2 c4 =>
          rw [hd2] at h
          cases b2 with
          | false =>
            rw [eatChar_false_iff] at hd2
            obtain ⟨rfl, -⟩ := hd2
            simp at h
            obtain ⟨rfl, rfl, rfl⟩ := h
            refine ⟨.major N1 (some (w1, none)), ⟨?_, ?_, ?_, e1.fits, by simp⟩, rfl, rfl⟩
            · rw [e1.text, hd1.1, hw1.1]; simp [cvText]
            · rw [hw1.2.1, hd1.2.1, e1.start]
            · rw [hw1.2.2, hd1.2.2, e1.idx]; simp [cvText]; omega
          | true =>
            rw [eatChar_true_iff] at hd2
            simp only at h
            cases hw2 : eatWildcard c4 with
            | some wc2 =>
              obtain ⟨w2, c5⟩ := wc2
              rw [hw2] at h
              rw [eatWildcard_some_iff] at hw2
              simp at h
              obtain ⟨rfl, rfl, rfl⟩ := h
              refine ⟨.major N1 (some (w1, some w2)), ⟨?_, ?_, ?_, e1.fits, by simp⟩, rfl, rfl⟩
              · rw [e1.text, hd1.1, hw1.1, hd2.1, hw2.1]; simp [cvText]
              · rw [hw2.2.1, hd2.2.1, hw1.2.1, hd1.2.1, e1.start]
              · rw [hw2.2.2, hd2.2.2, hw1.2.2, hd1.2.2, e1.idx]; simp [cvText]; omega
            | none =>
              rw [hw2] at h
              simp only at h
              split at h <;> cases h
      | none =>
        rw [hw1] at h
        simp only at h
        rw [Res.bind_eq_ok] at h
        obtain ⟨⟨m, c3⟩, h3, h⟩ := h
        obtain ⟨N3, e3, n3⟩ := (parseInt_wide _ _ _ _ _).1 h3
        subst n3
        simp only at h
        cases hd2 : eatChar '.' c3 with
        | mk b2 c4 =>
          rw [hd2] at h
          cases b2 with
          | false =>
            rw [eatChar_false_iff] at hd2
            obtain ⟨rfl, -⟩ := hd2
            simp at h
            obtain ⟨rfl, rfl, rfl⟩ := h
            refine ⟨.minor N1 N3 none, ⟨?_, ?_, ?_, ⟨e1.fits, e3.fits⟩, by simp⟩, rfl, rfl⟩
            · rw [e1.text, hd1.1, e3.text]; simp [cvText]
            · rw [e3.start, hd1.2.1, e1.start]
            · rw [e3.idx, hd1.2.2, e1.idx]; simp [cvText]; omega
          | true =>
            rw [eatChar_true_iff] at hd2
            simp only at h
            cases hw2 : eatWildcard c4 with
            | some wc2 =>
              obtain ⟨w2, c5⟩ := wc2
              rw [hw2] at h
              rw [eatWildcard_some_iff] at hw2
              simp at h
              obtain ⟨rfl, rfl, rfl⟩ := h
              refine ⟨.minor N1 N3 (some w2), ⟨?_, ?_, ?_, ⟨e1.fits, e3.fits⟩, by simp⟩, rfl, rfl⟩
              · rw [e1.text, hd1.1, e3.text, hd2.1, hw2.1]; simp [cvText]
              · rw [hw2.2.1, hd2.2.1, e3.start, hd1.2.1, e1.start]
              · rw [hw2.2.2, hd2.2.2, e3.idx, hd1.2.2, e1.idx]; simp [cvText]; omega
            | none =>
              rw [hw2] at h
              simp only [Res.bind_eq_ok] at h
              obtain ⟨⟨p, c5⟩, h5, ⟨opre, c6⟩, h6, ⟨obuild, c7⟩, h7, h8⟩ := h
              simp only at h6 h7 h8
              obtain ⟨N5, e5, n5⟩ := (parseInt_wide _ _ _ _ _).1 h5
              subst n5
              have e6 := (optIdent_iff _ _ _ _ _).1 h6
              have e7 := (optIdent_iff _ _ _ _ _).1 h7
              have hbt : ∀ x, obuild = some x → BuildTag x := by
                rintro x rfl; exact (buildTag_iff _).2 e7.segs
              have htext : c.rest = decimal N1 ++ '.' :: (decimal N3 ++ '.' :: (decimal N5 ++
                  (optText '-' opre ++ (optText '+' obuild ++ c7.rest)))) := by
                rw [e1.text, hd1.1, e3.text, hd2.1, e5.text, e6.text, e7.text]
              have hst : c7.start = c.start := by
                rw [e7.start_eq, e6.start_eq, e5.start, hd2.2.1, e3.start, hd1.2.1, e1.start]
              have hix : c7.idx = c.idx + ((decimal N1).length + (decimal N3).length +
                  (decimal N5).length + 2 + (optText '-' opre).length +
                  (optText '+' obuild).length) := by
                rw [e7.idx, e6.idx, e5.idx, hd2.2.2, e3.idx, hd1.2.2, e1.idx]; omega
              cases opre with
              | none =>
                simp at h8
                obtain ⟨rfl, rfl, rfl⟩ := h8
                refine ⟨.patch N1 N3 N5 obuild, ⟨?_, hst, ?_, ⟨e1.fits, e3.fits, e5.fits, hbt⟩, by simp⟩, rfl, rfl⟩
                · rw [htext]; cases obuild <;> simp [cvText, optText]
                · rw [hix]; cases obuild <;> simp [cvText, optText] <;> omega
              | some s =>
                simp at h8
                obtain ⟨rfl, rfl, rfl⟩ := h8
                refine ⟨.pre N1 N3 N5 s obuild, ⟨?_, hst, ?_, ⟨e1.fits, e3.fits, e5.fits, (preTag_iff _).2 e6.segs, hbt⟩,
                  by simp⟩, rfl, rfl⟩
                · rw [htext]; cases obuild <;> simp [cvText, optText]
                · rw [hix]; cases obuild <;> simp [cvText, optText] <;> omega

theorem compVersion_completeW (ovf : Bool) (cv : CompVersion) (op : Op) (st : Pos) (ix : Nat)
    (r : Str) (hv : WideCv ovf cv) (hb : ∀ w, cv ≠ .wl w) (hr : EndOk r) :
    compVersion ovf ⟨st, ix, cvText cv ++ r⟩ op =
      .ok (wrapCv cv, opAfter cv op, ⟨st, ix + (cvText cv).length, r⟩) := by
  have hdig : startsWith isDigit r = false := hr.startsWith (by decide) (by decide)
  have hdot : startsWith (· == '.') r = false := hr.startsWith (by decide) (by decide)
  have hplus : startsWith (· == '+') r = false := hr.startsWith (by decide) (by decide)
  have hhyp : startsWith (· == '-') r = false := hr.startsWith (by decide) (by decide)
  have hid : startsWith identOrDot r = false := hr.startsWith (by decide) (by decide)
  have hdd : ∀ s : Str, startsWith isDigit ('.' :: s) = false := fun s => by
    rw [startsWith_cons]; decide
  have hwd : ∀ (n : Nat) (s : Str), startsWith isWl (decimal n ++ s) = false := fun n s =>
    decimal_startsWith digit_not_wl
  have full : ∀ (a b p : Nat) (opre obuild : Option Str), Accepted ovf a → Accepted ovf b → Accepted ovf p →
      (∀ x, opre = some x → PreTag x) → (∀ x, obuild = some x → BuildTag x) →
      compVersion ovf ⟨st, ix, decimal a ++ '.' :: (decimal b ++ '.' :: (decimal p ++
        (optText '-' opre ++ (optText '+' obuild ++ r))))⟩ op =
      .ok (match opre with
        | none => .patch (a % 2 ^ 32) (b % 2 ^ 32) (p % 2 ^ 32) obuild
        | some pre => .pre (a % 2 ^ 32) (b % 2 ^ 32) (p % 2 ^ 32) pre obuild, op,
        ⟨st, ix + (decimal a).length + 1 + (decimal b).length + 1 + (decimal p).length +
          (optText '-' opre).length + (optText '+' obuild).length, r⟩) := by
    intro a b p opre obuild ha hb hp hpre hbuild
    have s3 : ∀ q : Char → Bool, q ' ' = false → q ',' = false → q '+' = false →
        startsWith q (optText '+' obuild ++ r) = false := by
      intro q h1 h2 h3
      cases obuild with
      | none => exact hr.startsWith h1 h2
      | some x => simpa [optText] using h3
    have s2 : startsWith isDigit (optText '-' opre ++ (optText '+' obuild ++ r)) = false := by
      cases opre with
      | none => exact s3 _ (by decide) (by decide) (by decide)
      | some x => simp only [optText, List.cons_append, startsWith_cons]; decide
    unfold compVersion
    rw [parseInt_atW _ _ _ _ _ ha (hdd _)]
    simp only [Res.bind_ok]
    rw [eatChar_at]
    simp only
    rw [eatWildcard_none (hwd _ _)]
    simp only
    rw [parseInt_atW _ _ _ _ _ hb (hdd _)]
    simp only [Res.bind_ok]
    rw [eatChar_at]
    simp only
    rw [eatWildcard_none (hwd _ _)]
    simp only
    rw [parseInt_atW _ _ _ _ _ hp s2]
    simp only [Res.bind_ok]
    rw [(optIdent_iff ..).2 (optRead_mk st _ _ (o := opre)
      (fun x hx => (preTag_iff _).1 (hpre x hx))
      (fun _ => s3 _ (by decide) (by decide) (by decide))
      (fun _ => s3 _ (by decide) (by decide) (by decide)))]
    simp only [Res.bind_ok]
    rw [(optIdent_iff ..).2 (optRead_mk st _ _ (o := obuild)
      (fun x hx => (buildTag_iff _).1 (hbuild x hx)) (fun _ => hplus) (fun _ => hid))]
    cases opre <;> rfl
  cases cv with
  | wl w => exact absurd rfl (hb w)
  | major a w =>
    simp only [WideCv] at hv
    cases w with
    | none =>
      simp only [cvText]
      unfold compVersion
      rw [parseInt_atW _ _ _ _ _ hv hdig]
      simp only [Res.bind_ok]
      rw [eatChar_not hdot]
      rfl
    | some ww =>
      obtain ⟨w1, w2⟩ := ww
      cases w2 with
      | none =>
        simp only [cvText, List.append_assoc, List.cons_append, List.nil_append]
        unfold compVersion
        rw [parseInt_atW _ _ _ _ _ hv (hdd _)]
        simp only [Res.bind_ok]
        rw [eatChar_at]
        simp only
        rw [eatWildcard_at]
        simp only
        rw [eatChar_not hdot]
        simp [opAfter, wrapCv]; omega
      | some w2 =>
        simp only [cvText, List.append_assoc, List.cons_append, List.nil_append]
        unfold compVersion
        rw [parseInt_atW _ _ _ _ _ hv (hdd _)]
        simp only [Res.bind_ok]
        rw [eatChar_at]
        simp only
        rw [eatWildcard_at]
        simp only
        rw [eatChar_at]
        simp only
        rw [eatWildcard_at]
        simp [opAfter, wrapCv]; omega
  | minor a b w =>
    simp only [WideCv] at hv
    cases w with
    | none =>
      simp only [cvText, List.append_assoc, List.cons_append, List.nil_append]
      unfold compVersion
      rw [parseInt_atW _ _ _ _ _ hv.1 (hdd _)]
      simp only [Res.bind_ok]
      rw [eatChar_at]
      simp only
      rw [eatWildcard_none (hwd _ _)]
      simp only
      rw [parseInt_atW _ _ _ _ _ hv.2 hdig]
      simp only [Res.bind_ok]
      rw [eatChar_not hdot]
      simp [opAfter, wrapCv]; omega
    | some w =>
      simp only [cvText, List.append_assoc, List.cons_append, List.nil_append]
      unfold compVersion
      rw [parseInt_atW _ _ _ _ _ hv.1 (hdd _)]
      simp only [Res.bind_ok]
      rw [eatChar_at]
      simp only
      rw [eatWildcard_none (hwd _ _)]
      simp only
      rw [parseInt_atW _ _ _ _ _ hv.2 (hdd _)]
      simp only [Res.bind_ok]
      rw [eatChar_at]
      simp only
      rw [eatWildcard_at]
      simp [opAfter, wrapCv]; omega
  | patch a b p m =>
    simp only [WideCv] at hv
    have := full a b p none m hv.1 hv.2.1 hv.2.2.1 (by simp) hv.2.2.2
    cases m <;> simp [optText] at this <;> simp [cvText, this, opAfter, wrapCv] <;> omega
  | pre a b p q m =>
    simp only [WideCv] at hv
    have := full a b p (some q) m hv.1 hv.2.1 hv.2.2.1 (by rintro x hx; cases hx; exact hv.2.2.2.1)
      hv.2.2.2.2
    cases m <;> simp [optText] at this <;> simp [cvText, this, opAfter, wrapCv] <;> omega

/-- What a successful iteration of the loop has read. -/
structure StepReadW (ovf : Bool) (n : Nat) (c : Cur) (it : Item) (comp : Comparator) (c' : Cur) : Prop where
  sp0 : it.sp0 = 0
  valid : WideItem ovf it
  bound : n < 32
  start : c'.start = c.start
  comp_eq : comp = ⟨c.idx, it.op, c.idx + (opWritten it.op).length + it.sp1, wrapCv it.cv, comp.comma⟩
  text : (comp.comma = none ∧ c'.rest = [] ∧ c.rest = it.text) ∨
    (comp.comma = some (c.idx + it.text.length) ∧ c.rest = it.text ++ ',' :: c'.rest ∧
      c'.idx = c.idx + it.text.length + 1)
  bare : ∀ w, it.cv = .wl w → n = 0 ∧ comp.comma = none

theorem wildcardArm_soundW (ovf : Bool) (pos : Pos) (w : WlChar) (n : Nat) (hn : n < 32) (c c' : Cur) (cs : Str)
    (hc : c.rest = w.char :: cs)
    (comp : Comparator) (h : wildcardArm pos w (n == 0) c cs = .ok (comp, c')) :
    ∃ it, StepReadW ovf n c it comp c' := by
  unfold wildcardArm at h
  simp only at h
  split at h
  · cases h
  rename_i hfirst
  have hn0 : n = 0 := by simpa using hfirst
  split at h
  · cases h
  obtain ⟨k, r, hr, hrs, hws⟩ := eatWs_spec (c.step cs)
  rw [hws] at h
  cases r with
  | cons x xs =>
    simp only at h
    split at h
    · split at h <;> cases h
    · cases h
  | nil =>
    simp only [expectCommaOrEnd, Res.bind_ok, Res.pure_eq, Res.ok.injEq, Prod.mk.injEq] at h
    obtain ⟨rfl, rfl⟩ := h
    refine ⟨⟨0, .wl, 0, .wl w, k⟩, rfl, ⟨trivial, fun _ => ⟨trivial, rfl⟩, by simp, by simp⟩, hn,
      rfl, by simp [opWritten, wrapCv], .inl ⟨rfl, rfl, ?_⟩, by simp [hn0]⟩
    rw [hc]
    simp [Cur.step] at hr
    simp [Item.text, spaces, opWritten, cvText]
    simpa [spaces] using hr

theorem comparatorStep_soundW (ovf : Bool) (pos : Pos) (n : Nat) (c c' : Cur) (b : Char) (cs : Str)
    (hc : c.rest = b :: cs) (comp : Comparator)
    (h : comparatorStep ovf pos n c b cs = .ok (comp, c')) :
    ∃ it, StepReadW ovf n c it comp c' := by
  unfold comparatorStep at h
  split at h
  · cases h
  rename_i hn
  have hn' : n < 32 := by simpa [MAX_COMPARATORS] using hn
  simp only at h
  cases hw : wlOf b with
  | some w =>
    rw [hw] at h
    have := wlOf_some hw
    subst this
    exact wildcardArm_soundW ovf pos w n hn' c c' cs hc comp h
  | none =>
    rw [hw] at h
    cases ho : parseOp b cs c with
    | none => rw [ho] at h; cases h
    | some oc =>
      obtain ⟨op, c1⟩ := oc
      rw [ho] at h
      obtain ⟨o1, o2, o3, o4, o5⟩ := parseOp_sound b cs c c1 op hc ho
      simp only at h
      obtain ⟨k1, r1, hr1, hrs1, hws1⟩ := eatWs_spec c1
      rw [hws1] at h
      simp only [Res.bind_eq_ok] at h
      obtain ⟨⟨cv0, op', c2⟩, h2, ⟨comma, c3⟩, h3, h4⟩ := h
      simp only [Res.pure_eq, Res.ok.injEq, Prod.mk.injEq] at h3 h4
      obtain ⟨rfl, rfl⟩ := h4
      obtain ⟨cv, ⟨v1, v2, v3, v4, v5⟩, rfl, rfl⟩ := compVersion_soundW _ _ _ _ _ _ h2
      obtain ⟨k2, r2, hr2, hrs2, hws2⟩ := eatWs_spec c2
      rw [hws2] at h3
      rw [expectCommaOrEnd_iff] at h3
      have hopt : opWritten (opAfter cv op) = opWritten op := by
        unfold opAfter
        split
        · split
          · rename_i e; rw [e]; rfl
          · rfl
        · split
          · rename_i e; rw [e]; rfl
          · rfl
        · rfl
      have hbk : op = .bl → k1 = 0 := by
        intro e
        have hd := o5 e
        subst e
        have : c1.rest = b :: cs := by rw [← hc, o1]; rfl
        rw [this] at hr1
        cases k1 with
        | zero => rfl
        | succ k =>
          simp [spaces, List.replicate_succ] at hr1
          rw [hr1.1] at hd; exact absurd hd (by decide)
      simp only at v1 v2 v3
      have hidx : c2.idx + k2 = c.idx + (opWritten op).length + k1 + (cvText cv).length + k2 := by
        rw [v3, o3]
      refine ⟨⟨0, opAfter cv op, k1, cv, k2⟩, rfl, ⟨v4, ?_, ?_, ?_⟩, hn', ?_, ?_, ?_, ?_⟩
      · -- wl
        intro e
        simp only at e
        have hwlbl : op = .bl ∧ HasWildcard cv := by
          unfold opAfter at e
          split at e
          · split at e
            · rename_i e'; exact ⟨e', by simp [HasWildcard]⟩
            · exact absurd e o4
          · split at e
            · rename_i e'; exact ⟨e', by simp [HasWildcard]⟩
            · exact absurd e o4
          · exact absurd e o4
        exact ⟨hwlbl.2, hbk hwlbl.1⟩
      · intro e
        simp only at e
        have hbl : op = .bl ∧ ¬ HasWildcard cv := by
          unfold opAfter at e
          split at e
          · split at e
            · cases e
            · rename_i e'; exact absurd e e'
          · split at e
            · cases e
            · rename_i e'; exact absurd e e'
          · rename_i g1 g2
            refine ⟨e, ?_⟩
            cases cv with
            | wl w => exact absurd rfl (v5 w)
            | major a w => cases w with
              | none => simp [HasWildcard]
              | some w => exact absurd rfl (g1 a w)
            | minor a b w => cases w with
              | none => simp [HasWildcard]
              | some w => exact absurd rfl (g2 a b w)
            | patch => simp [HasWildcard]
            | pre => simp [HasWildcard]
        exact ⟨hbl.2, hbk hbl.1⟩
      · intro w e; exact absurd e (v5 w)
      · rcases h3 with ⟨-, -, h3⟩ | ⟨-, -, h3, -⟩
        · rw [h3]; simp only; rw [v2, o2]
        · rw [h3]; simp only; rw [v2, o2]
      · simp only [hopt, o3]
      · have htext : c.rest = opWritten op ++ spaces k1 ++ cvText cv ++ spaces k2 ++ r2 := by
          rw [o1, hr1, v1, hr2]; simp
        rcases h3 with ⟨h31, h32, h33⟩ | ⟨h31, h32, -, h33⟩
        · left
          simp only at h32
          refine ⟨h31, by rw [h33]; exact h32, ?_⟩
          rw [htext, h32]; simp [Item.text, hopt, spaces]
        · right
          simp only at h32 h33
          refine ⟨?_, ?_, ?_⟩
          · simp only [h31, hidx, Item.text, hopt, List.length_append, spaces_length]
            congr 1; omega
          · rw [htext, h32]; simp [Item.text, hopt, spaces]
          · rw [h33, hidx]; simp only [Item.text, hopt, List.length_append, spaces_length]; omega
      · intro w e; exact absurd e (v5 w)

theorem wideItem_lead {ovf : Bool} {it : Item} (h : WideItem ovf it) (n : Nat) : WideItem ovf (it.lead n) :=
  ⟨h.cv, h.wl, h.bl, h.bare⟩

theorem reqLoop_soundW (ovf : Bool) (pos : Pos) (fuel : Nat) (c : Cur) (comps comps' : List Comparator)
    (lc : Option Nat) (h : reqLoop ovf pos fuel c comps lc = .ok (comps', none)) :
    (lc = none ∧ comps' = comps) ∨
    ∃ its, its ≠ [] ∧ c.rest = itemsText its ∧ (∀ it ∈ its, WideItem ovf it) ∧
      comps' = comps ++ (comparatorsAt c.idx its).map wrapComparator ∧ comps.length + its.length ≤ 32 ∧
      (∀ it ∈ its, ∀ w, it.cv = .wl w → comps = [] ∧ its.length = 1) := by
  induction fuel generalizing c comps lc with
  | zero => cases h
  | succ fuel ih =>
    obtain ⟨n, r, hr, hrs, hws⟩ := eatWs_spec c
    simp only [reqLoop, hws] at h
    cases r with
    | nil =>
      simp only [Res.ok.injEq, Prod.mk.injEq] at h
      exact .inl ⟨h.2, h.1.symm⟩
    | cons b cs =>
      simp only [Res.bind_eq_ok] at h
      obtain ⟨⟨comp, c1⟩, h1, h2⟩ := h
      obtain ⟨it, s⟩ := comparatorStep_soundW _ _ _ _ _ _ _ rfl _ h1
      simp only at h2
      right
      have hce := s.comp_eq
      have hb := s.bound
      rcases ih _ _ _ h2 with ⟨e1, e2⟩ | ⟨its, hne, ht, hv, hc', hlen, hsole⟩
      · rcases s.text with ⟨t1, t2, t3⟩ | ⟨t1, -, -⟩
        · refine ⟨[it.lead n], by simp, ?_, by simpa using wideItem_lead s.valid n, ?_, by simp; omega, ?_⟩
          · simp only [itemsText, Item.lead_text s.sp0]
            rw [hr]; simp only at t3; rw [t3]
          · rw [e2, hce, t1]; simp [comparatorsAt, Item.lead, wrapComparator]
          · intro i hi w hw
            simp only [List.mem_singleton] at hi
            subst hi
            have := (s.bare w hw).1
            simp at this
            exact ⟨this, rfl⟩
        · rw [e1] at t1; cases t1
      · rcases s.text with ⟨t1, t2, t3⟩ | ⟨t1, t2, t3⟩
        · exact absurd (by rw [← ht, t2]) (itemsText_ne_nil hne)
        · obtain ⟨it', its', rfl⟩ := List.exists_cons_of_ne_nil hne
          refine ⟨it.lead n :: it' :: its', by simp, ?_, ?_, ?_, ?_, ?_⟩
          · simp only [itemsText, Item.lead_text s.sp0]
            rw [hr]; simp only at t2; rw [t2, ht]; simp
          · intro i hi
            rcases List.mem_cons.1 hi with rfl | hi
            · exact wideItem_lead s.valid n
            · exact hv i hi
          · rw [hc', hce, t1, t3]
            have hl : (it.lead n).text.length = n + it.text.length := by
              rw [Item.lead_text s.sp0]; simp [spaces]
            simp only [comparatorsAt, hl, List.map_cons, wrapComparator]
            simp only [Item.lead, List.append_assoc, List.cons_append, List.nil_append]
            simp [Nat.add_assoc]
          · simp at hlen ⊢; omega
          · intro i hi w hw
            exfalso
            rcases List.mem_cons.1 hi with rfl | hi
            · have := (s.bare w hw).2
              rw [t1] at this; cases this
            · have := (hsole i hi w hw).1; simp at this

theorem ascii_cvTextW {ovf : Bool} {cv : CompVersion} (h : WideCv ovf cv) : blen (cvText cv) = (cvText cv).length := by
  have hd : ∀ n, blen (decimal n) = (decimal n).length := fun n =>
    blen_eq_length_of_digits (decimal_all n)
  have hw : ∀ w : WlChar, w.char.utf8Size = 1 := by intro w; cases w <;> decide
  have hdot : ('.' : Char).utf8Size = 1 := by decide
  have hpl : ('+' : Char).utf8Size = 1 := by decide
  have hhy : ('-' : Char).utf8Size = 1 := by decide
  have hseg : ∀ (f : IdentField) (s : Str), (∀ x ∈ splitDot s, SegOk f x) → blen s = s.length := by
    intro f s hs
    have : ∀ c ∈ s, c.utf8Size = 1 := by
      intro c hc
      by_cases hcd : c = '.'
      · subst hcd; decide
      · rw [← dotted_splitDot s] at hc
        obtain ⟨x, hx, hcx⟩ := mem_dotted hc hcd
        exact identChar_utf8 (List.all_eq_true.1 (hs x hx).2.1 _ hcx)
    clear hs
    induction s with
    | nil => rfl
    | cons c cs ih =>
      have := this c (by simp)
      simp [ih (fun c hc => by apply_assumption; simp [hc]), this]; omega
  have hb : ∀ s, BuildTag s → blen s = s.length := fun s hs => hseg _ _ ((buildTag_iff _).1 hs)
  have hp : ∀ s, PreTag s → blen s = s.length := fun s hs => hseg _ _ ((preTag_iff _).1 hs)
  cases cv with
  | wl w => simp [cvText, hw]
  | major a w => rcases w with _ | ⟨w, _ | w'⟩ <;> simp [cvText, hd, hw, hdot]
  | minor a b w => cases w <;> simp [cvText, hd, hw, hdot] <;> omega
  | patch a b c m =>
    cases m with
    | none => simp [cvText, hd, hdot]; omega
    | some m => simp [cvText, hd, hdot, hpl, hb m (h.2.2.2 m rfl)]; omega
  | pre a b c p m =>
    cases m with
    | none => simp [cvText, hd, hdot, hhy, hp p h.2.2.2.1]; omega
    | some m => simp [cvText, hd, hdot, hpl, hhy, hp p h.2.2.2.1, hb m (h.2.2.2.2 m rfl)]; omega

theorem ascii_itemW {ovf : Bool} {it : Item} (h : WideItem ovf it) : blen it.text = it.text.length := by
  have hs : ∀ n, blen (spaces n) = n := by
    intro n
    induction n with
    | zero => rfl
    | succ n ih =>
      have hsp : (' ' : Char).utf8Size = 1 := by decide
      simp only [spaces, List.replicate_succ, blen_cons] at ih ⊢
      rw [ih, hsp]; omega
  have ho : blen (opWritten it.op) = (opWritten it.op).length := by
    cases it.op <;> decide
  simp [Item.text, hs, ho, ascii_cvTextW h.cv, spaces_length]

theorem ascii_itemsW {ovf : Bool} {its : List Item} (h : ∀ it ∈ its, WideItem ovf it) :
    blen (itemsText its) = (itemsText its).length := by
  induction its with
  | nil => rfl
  | cons it its ih =>
    have h1 := ascii_itemW (h it (by simp))
    have h2 := ih (fun i hi => h i (by simp [hi]))
    cases its with
    | nil => simpa [itemsText] using h1
    | cons it' its =>
      have hc : (',' : Char).utf8Size = 1 := by decide
      simp [itemsText, h1, h2, hc]; omega

theorem parseRequirement_soundW (ovf : Bool) (input : Str) (pos : Pos) (req : VersionReq)
    (h : parseRequirement ovf input pos = .ok req) : WideReq ovf input pos req := by
  unfold parseRequirement at h
  rw [Res.bind_eq_ok] at h
  obtain ⟨⟨comps, lc⟩, h1, h2⟩ := h
  simp only at h2
  cases lc with
  | some o => cases h2
  | none =>
    simp only at h2
    split at h2
    · cases h2
    rename_i hne
    cases h2
    rcases reqLoop_soundW _ _ _ _ _ _ _ h1 with ⟨-, e⟩ | ⟨its, i1, i2, i3, i4, i5, i6⟩
    · exact absurd e hne
    · have hin : input = itemsText its := i2
      refine ⟨its, ⟨i1, by simpa using i5, i3, fun it hi w hw => (i6 it hi w hw).2⟩, hin, ?_⟩
      rw [hin, ascii_itemsW i3, i4]; rfl

theorem opAfter_rawOpW {ovf : Bool} {it : Item} (h : WideItem ovf it) (hb : ∀ w, it.cv ≠ .wl w) :
    opAfter it.cv (rawOp it.op) = it.op := by
  unfold rawOp
  by_cases hw : it.op = .wl
  · rw [if_pos hw, hw]
    have := (h.wl hw).1
    cases hcv : it.cv with
    | wl w => exact absurd hcv (hb w)
    | major a w => rw [hcv] at this; cases w with
      | none => exact absurd rfl this
      | some w => rfl
    | minor a b w => rw [hcv] at this; cases w with
      | none => exact absurd rfl this
      | some w => rfl
    | patch => rw [hcv] at this; exact this.elim
    | pre => rw [hcv] at this; exact this.elim
  · rw [if_neg hw]
    unfold opAfter
    split
    · rename_i e; rw [if_neg]; intro hh
      exact (h.bl hh).1 (by rw [e]; simp [HasWildcard])
    · rename_i e; rw [if_neg]; intro hh
      exact (h.bl hh).1 (by rw [e]; simp [HasWildcard])
    · rfl

theorem comparatorStep_completeW (ovf : Bool) (pos st : Pos) (n : Nat) (hn : n < 32) (it : Item)
    (hv : WideItem ovf it) (h0 : it.sp0 = 0) (ix : Nat) (b : Char) (cs tail : Str)
    (ht : b :: cs = it.text ++ tail) (comma : Option Nat) (c' : Cur)
    (ha : AfterItem (ix + it.text.length) tail comma st c')
    (hbare : ∀ w, it.cv = .wl w → n = 0 ∧ tail = []) :
    comparatorStep ovf pos n ⟨st, ix, b :: cs⟩ b cs =
      .ok (⟨ix, it.op, ix + (opWritten it.op).length + it.sp1, wrapCv it.cv, comma⟩, c') := by
  have htext : it.text = opWritten it.op ++ (spaces it.sp1 ++ (cvText it.cv ++ spaces it.sp2)) := by
    simp [Item.text, h0, spaces]
  have hlen : it.text.length = (opWritten it.op).length + it.sp1 + (cvText it.cv).length + it.sp2 := by
    rw [htext]; simp [spaces_length]; omega
  unfold comparatorStep
  rw [if_neg (by simp [MAX_COMPARATORS]; omega)]
  by_cases hb : ∃ w, it.cv = .wl w
  · obtain ⟨w, hw⟩ := hb
    obtain ⟨rfl, rfl⟩ := hbare w hw
    have hop := hv.bare w hw
    have hsp := (hv.wl hop).2
    have hcs : b = w.char ∧ cs = spaces it.sp2 := by
      rw [htext, hop, hsp, hw] at ht
      simpa [opWritten, spaces, cvText] using ht
    obtain ⟨rfl, rfl⟩ := hcs
    simp only [wlOf_char]
    unfold wildcardArm
    simp only [beq_self_eq_true, Bool.not_true, Bool.false_eq_true, if_false]
    have hws : eatWs (Cur.step ⟨st, ix, w.char :: spaces it.sp2⟩ (spaces it.sp2)) =
        ⟨st, ix + 1 + it.sp2, []⟩ := by
      have := eatWs_eq (start := st) (idx := ix + 1) (n := it.sp2) (r := []) rfl
      simpa [Cur.step] using this
    rw [hws]
    rcases ha with ⟨-, rfl, rfl⟩ | ⟨t, h, -, -⟩
    · rw [hlen, hop, hsp, hw]
      simp only [expectCommaOrEnd, opWritten, cvText, wrapCv]
      cases it.sp2 <;> simp [spaces, List.replicate_succ] <;> omega
    · cases h
  · have hb' : ∀ w, it.cv ≠ .wl w := fun w hw => hb ⟨w, hw⟩
    let r := spaces it.sp1 ++ (cvText it.cv ++ (spaces it.sp2 ++ tail))
    have hbr : b :: cs = opWritten it.op ++ r := by
      rw [ht, htext]; simp [r]
    have hcvd := cvText_startsWith_digit hb' (spaces it.sp2 ++ tail)
    have hrdig : it.sp1 = 0 → startsWith isDigit r = true := by
      intro e; simp only [r, e]; simpa [spaces] using hcvd
    have hr : ∀ q : Char → Bool, q ' ' = false → (∀ c, isDigit c = true → q c = false) →
        startsWith q r = false := by
      intro q h1 h2
      cases hs : it.sp1 with
      | zero => exact startsWith_false_of_digit (hrdig hs) h2
      | succ k => simp only [r, hs, spaces, List.replicate_succ, List.cons_append]; exact h1
    have hwl : wlOf b = none := by
      apply wlOf_none
      have : startsWith isWl (b :: cs) = false := by
        rw [hbr]
        cases ho : it.op with
        | wl => exact startsWith_false_of_digit (hrdig (hv.wl ho).2) digit_not_wl
        | bl => exact startsWith_false_of_digit (hrdig (hv.bl ho).2) digit_not_wl
        | _ => simp only [opWritten, List.cons_append, startsWith_cons]; decide
      simpa using this
    simp only [hwl]
    rw [parseOp_complete it.op st ix r b cs hbr (hr _ (by decide) (fun c h => digit_ne (by decide) c h))
      (by
        rintro (h | h)
        · exact hrdig (hv.wl h).2
        · exact hrdig (hv.bl h).2)]
    simp only
    rw [show r = spaces it.sp1 ++ (cvText it.cv ++ (spaces it.sp2 ++ tail)) from rfl,
      eatWs_eq (startsWith_false_of_digit hcvd (fun c h => digit_ne (by decide) c h))]
    simp only
    rw [compVersion_completeW ovf it.cv _ st _ _ hv.cv hb' (ha.endOk _)]
    simp only [Res.bind_ok]
    rw [eatWs_eq ha.nospace]
    rw [show ix + (opWritten it.op).length + it.sp1 + (cvText it.cv).length + it.sp2 =
      ix + it.text.length by rw [hlen]; omega, ha.expect]
    simp [opAfter_rawOpW hv hb']

theorem lead_startsWithW {ovf : Bool} {it : Item} (hv : WideItem ovf it) (r : Str) :
    startsWith (· == ' ') ((it.lead 0).text ++ r) = false := by
  have hw : ∀ w : WlChar, (w.char == ' ') = false := by intro w; cases w <;> decide
  have h1 : startsWith (· == ' ') (cvText it.cv ++ (spaces it.sp2 ++ r)) = false := by
    by_cases hb : ∃ w, it.cv = .wl w
    · obtain ⟨w, hcv⟩ := hb
      rw [hcv]; simpa [cvText] using hw w
    · exact startsWith_false_of_digit (cvText_startsWith_digit (fun w hw => hb ⟨w, hw⟩) _)
        (fun c h => digit_ne (by decide) c h)
  cases ho : it.op with
  | wl =>
    have := (hv.wl ho).2
    simpa [Item.text, Item.lead, ho, this, spaces, opWritten] using h1
  | bl =>
    have := (hv.bl ho).2
    simpa [Item.text, Item.lead, ho, this, spaces, opWritten] using h1
  | _ => simp only [Item.text, Item.lead, ho, spaces, opWritten, List.replicate_zero,
           List.nil_append, List.cons_append, startsWith_cons]; decide

theorem reqLoop_itemW (ovf : Bool) (pos st : Pos) (fuel : Nat) (ix : Nat) (comps : List Comparator)
    (lc : Option Nat) (it : Item) (hv : WideItem ovf it) (hn : comps.length < 32) (tail : Str)
    (comma : Option Nat) (c' : Cur) (ha : AfterItem (ix + it.text.length) tail comma st c')
    (hbare : ∀ w, it.cv = .wl w → comps = [] ∧ tail = []) :
    reqLoop ovf pos (fuel + 1) ⟨st, ix, it.text ++ tail⟩ comps lc =
      reqLoop ovf pos fuel c' (comps ++ [⟨ix + it.sp0, it.op,
        ix + it.sp0 + (opWritten it.op).length + it.sp1, wrapCv it.cv, comma⟩]) comma := by
  rw [Item_drop it, List.append_assoc]
  have hl : it.text.length = it.sp0 + (it.lead 0).text.length := by
    conv => lhs; rw [Item_drop it]
    simp [spaces]
  simp only [reqLoop]
  rw [eatWs_eq (lead_startsWithW hv tail)]
  simp only
  obtain ⟨b, cs, hbc⟩ := List.exists_cons_of_ne_nil
    (show (it.lead 0).text ++ tail ≠ [] by simp [Item.text_ne_nil])
  rw [hbc]
  simp only
  rw [comparatorStep_completeW ovf pos st comps.length hn (it.lead 0) (wideItem_lead hv 0) rfl
    (ix + it.sp0) b cs tail hbc.symm comma c' (by rwa [hl, ← Nat.add_assoc] at ha)
    (by intro w hw; exact ⟨by simp [(hbare w hw).1], (hbare w hw).2⟩)]
  rfl

theorem reqLoop_completeW (ovf : Bool) (pos st : Pos) (its : List Item) (fuel : Nat)
    (hf : its.length < fuel) (ix : Nat) (comps : List Comparator) (lc : Option Nat)
    (hne : its ≠ []) (hv : ∀ it ∈ its, WideItem ovf it) (hlen : comps.length + its.length ≤ 32)
    (hbare : ∀ it ∈ its, ∀ w, it.cv = .wl w → comps = [] ∧ its.length = 1) :
    reqLoop ovf pos fuel ⟨st, ix, itemsText its⟩ comps lc =
      .ok (comps ++ (comparatorsAt ix its).map wrapComparator, none) := by
  induction its generalizing fuel ix comps lc with
  | nil => exact absurd rfl hne
  | cons it its ih =>
    obtain ⟨fuel, rfl⟩ : ∃ f, fuel = f + 1 := ⟨fuel - 1, by simp at hf; omega⟩
    simp at hf hlen
    cases its with
    | nil =>
      obtain ⟨fuel, rfl⟩ : ∃ f, fuel = f + 1 := ⟨fuel - 1, by simp at hf; omega⟩
      simp only [itemsText]
      have := reqLoop_itemW ovf pos st (fuel + 1) ix comps lc it (hv it (by simp)) (by simp at hlen; omega)
        [] none ⟨st, ix + it.text.length, []⟩ (.inl ⟨rfl, rfl, rfl⟩)
        (fun w hw => ⟨(hbare it (by simp) w hw).1, rfl⟩)
      rw [List.append_nil] at this
      rw [this, reqLoop_nil]; rfl
    | cons it' its =>
      simp only [itemsText, List.append_assoc, List.cons_append, List.nil_append]
      rw [reqLoop_itemW ovf pos st fuel ix comps lc it (hv it (by simp)) (by simp at hlen; omega)
        (',' :: itemsText (it' :: its)) (some (ix + it.text.length))
        ⟨st, ix + it.text.length + 1, itemsText (it' :: its)⟩ (.inr ⟨_, rfl, rfl, rfl⟩)
        (fun w hw => by have := (hbare it (by simp) w hw).2; simp at this)]
      rw [ih fuel (by simp at hf ⊢; omega) _ _ _ (by simp) (fun i hi => hv i (by simp [hi]))
        (by simp at hlen ⊢; omega)
        (fun i hi w hw => by
          have := (hbare i (by simp only [List.mem_cons] at hi ⊢; exact .inr hi) w hw).2; simp at this)]
      simp [comparatorsAt, wrapComparator]

theorem parseRequirement_completeW (ovf : Bool) (input : Str) (pos : Pos) (req : VersionReq)
    (h : WideReq ovf input pos req) : parseRequirement ovf input pos = .ok req := by
  obtain ⟨its, hv, rfl, rfl⟩ := h
  unfold parseRequirement
  rw [Cur.new, reqLoop_completeW ovf pos pos its _
    (by have := items_length_le its hv.nonempty; omega) 0 [] none hv.nonempty hv.valid
    (by simpa using hv.bound) (fun it hi w hw => ⟨rfl, hv.sole it hi w hw⟩)]
  simp [comparatorsAt_ne_nil hv.nonempty, ascii_itemsW hv.valid]

end Verif.Semver
