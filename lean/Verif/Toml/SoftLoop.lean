import Verif.Toml.SoftVal

/-! # The loops over arrays and inline tables with damaged entries -/

namespace Verif.Toml
open Verif Verif.Spec.Toml

variable {α β : Type} {E : Env} {s s' s1 s2 : PS} {pre : Str}

theorem soft_start {n : Nat} {ts : List Tok} {P : Pat} {fs : List Fault} (h : Soft n ts P fs) :
    ∃ a p r, ts = (a, p) :: r ∧ Starts a := by
  cases h with
  | scalar h => exact val_start h
  | array _ => exact ⟨_, _, _, rfl, .inr (.inr (.inl rfl))⟩
  | table _ => exact ⟨_, _, _, rfl, .inr (.inr (.inr rfl))⟩

theorem Starts.notGap {a : View} (h : Starts a) : isGap a = false := by
  rcases h with ⟨_, _, _, rfl⟩ | ⟨_, rfl⟩ | rfl | rfl <;> rfl

theorem apart_append {ts rest : List Tok} (h : Apart ts rest) (hne : rest ≠ []) (r : List Tok) : Apart ts (rest ++ r) := by
  rcases h with h | ⟨t, r', rfl, h⟩ | ⟨p, x, v, h1, h2, h3, h4⟩
  · exact .inl h
  · exact .inr (.inl ⟨t, r' ++ r, rfl, h⟩)
  · refine .inr (.inr ⟨p, x, v, h1, h2, h3, ?_⟩)
    intro t r' he
    cases rest with
    | nil => exact absurd rfl hne
    | cons t' rest =>
      simp only [List.cons_append, List.cons.injEq] at he
      rw [← he.1]
      exact h4 _ _ rfl

theorem nextAt_ne {rest : List Tok} {q : Pos} (h : NextAt rest q) : rest ≠ [] := by
  obtain ⟨g, v, r, rfl, -⟩ := h
  simp

theorem noGap_of {v : View} (h : isGap v = false) (p : Pos) (r : List Tok) : NoGap ((v, p) :: r) := by
  rw [noGap_cons]
  constructor
  · rintro rfl; cases h
  · rintro x rfl; cases h

/-- A gap in front of a damaged entry. -/
theorem gap_front {g : List Tok} (hg : Gap g) : ∀ {X j R : List Tok} {d : Tok}, isGap d.1 = false → g ++ X = j ++ d :: R →
    ∃ j', j = g ++ j' ∧ X = j' ++ d :: R := by
  induction g with
  | nil => intro X j R d _ h; exact ⟨j, rfl, h⟩
  | cons t g ih =>
    intro X j R d hd h
    obtain ⟨ht, hg⟩ := gap_cons.1 hg
    cases j with
    | nil =>
      simp only [List.cons_append, List.nil_append, List.cons.injEq] at h
      rw [← h.1] at hd
      rcases ht with ht | ⟨x, ht⟩ <;> rw [ht] at hd <;> cases hd
    | cons t' j =>
      simp only [List.cons_append, List.cons.injEq] at h
      obtain ⟨rfl, h⟩ := h
      obtain ⟨j', rfl, h2⟩ := ih hg hd h
      exact ⟨j', rfl, h2⟩

theorem firstAt_gap {g : List Tok} (hg : Gap g) (j : List Tok) (p : Pos) : firstAt (g ++ j) p = firstAt j p := by
  induction g with
  | nil => rfl
  | cons t g ih =>
    rw [List.cons_append, firstAt, if_pos ((gap_junk hg t (by simp)).2), ih (gap_cons.1 hg).2]

/-! ## Arrays -/

theorem other_ty {v : View} {ty : TokenType} (ht : TyOf E v ty) : (v ≠ .punct ',' → ty ≠ .comma) ∧
    (v ≠ .punct ']' → ty ≠ .squareRight) ∧ (v ≠ .punct '}' → ty ≠ .curlyRight) := by
  refine ⟨?_, ?_, ?_⟩ <;>
  · rintro hn rfl
    cases v <;> simp [TyOf] at ht
    subst ht
    exact hn rfl

theorem arrayAfterValue_missing (hE : EnvEof E) {level : Nat} {st : ArrSt} {v : Value} {res : Round ArrSt}
    (hC : Cx E s) {g r : List Tok} {q : Pos} {w : View} (hg : Gap g) (hw : isGap w = false) (h1 : w ≠ .punct ',')
    (h2 : w ≠ .punct ']') (hv : V E s = g ++ (w, q) :: r) (h : arrayAfterValue E level st v s = .ok res s') :
    ∃ (st' : ArrSt) (s2 : PS), res = .continue st' ∧ tvals st' = tvals st ++ [valueOf v] ∧ s' = s2.err (.missingComma v.stop) ∧
      s2.errors = s.errors ∧ V E s' = (w, q) :: r ∧ Cx E s' := by
  unfold arrayAfterValue at h
  obtain ⟨vc, s1, h1', h⟩ := bind_inv h
  have w1 := hC.ate (still_markAbove _ _) (quiet_markAbove _ _) h1'
  obtain ⟨vc', s2, h2', h⟩ := bind_inv h
  have hng : NoGap ((w, q) :: r) := noGap_of hw _ _
  obtain ⟨g1, g2, rfl, a1, a2, w2, hv2⟩ := lineEnd_ate hE w1.cx hg hng (w1.left (a := []) hv) h2'
  rw [bind_budget] at h
  obtain ⟨cm, s3, h3, h⟩ := bind_inv h
  obtain ⟨w3, hv3⟩ := contained_ate hE w2.cx a2 hng hv2 h3
  obtain ⟨o1, o2, -⟩ := other_ty (w3.cx.view hv3).1
  rw [bind_peek, if_neg (o1 h1), if_neg (by
    rintro (e | e)
    · exact o2 h2 e
    · exact w3.cx.ne_eof hv3 e), bind_error] at h
  obtain ⟨rfl, rfl⟩ := pure_inv h
  exact ⟨_, s3, rfl, by simp [tvals], rfl, by rw [w3.errs, w2.errs, w1.errs], hv3, w3.cx.of_rest rfl⟩

/-- A round over a value. -/
theorem arrayRound_soft (hE : EnvEof E) {n level : Nat} {elem : M (Except Error Value)}
    (hel : ∀ ts P fs, Soft n ts P fs → SoftReads E elem ts P fs) {st : ArrSt} {rd : Round ArrSt} {g g0 ts r : List Tok}
    {P : Pat} {fs : List Fault} (hs : Soft n ts P fs) (hC : Cx E s) (hg : Gap g) (hg0 : Gap g0)
    (hV : g ++ V E s = g0 ++ (ts ++ r)) (hf : Follow r ∨ Apart ts r) (h : arrayRound E elem level st s = .ok rd s') :
    ∃ st1 v s1, arrayAfterValue E level st1 v s1 = .ok rd s' ∧ tvals st1 = tvals st ∧ Fits P (valueOf v) ∧ Cx E s1 ∧
      V E s1 = r ∧ FoundIn fs s.errors s1 ∧ ∃ pre, Ch E pre s1 ∧ v.stop = posOf pre ∧ ∀ q, Pos.le (firstAt ts q) v.stop := by
  obtain ⟨a, p, r', hts, hst⟩ := soft_start hs
  unfold arrayRound at h
  rw [bind_budget] at h
  obtain ⟨cm, s2, h3, h⟩ := bind_inv h
  have hng : NoGap (ts ++ r) := by rw [hts]; exact hst.noGap _ _
  obtain ⟨g1, a1, a2, a3⟩ := gap_left hg hg0 hng hV
  obtain ⟨w, hv2⟩ := contained_ate hE hC a1 hng a3 h3
  dsimp only at h
  have hview := w.cx.view (by rw [hv2, hts]; rfl)
  have hty := hst.ty hview.1
  rw [bind_peek, if_neg (by simp [hty.1, hty.2.1])] at h
  obtain ⟨rv, s3, h4, h⟩ := bind_inv h
  obtain ⟨v, rfl, e1, w3, e3, pre, e4, e5, e6⟩ := hel _ _ _ hs _ _ _ _ w.cx hv2 hf h4
  dsimp only at h
  refine ⟨_, v, s3, h, rfl, e1, w3.cx, w3.left hv2, by rw [← w.errs]; exact e3, pre, e4, e5, ?_⟩
  intro q
  rw [hts, firstAt, hst.notGap]
  rw [hview.2.1] at e6
  exact e6

theorem arrayLoop_soft (hE : EnvEof E) {n d level level' : Nat}
    (hel : ∀ ts P fs, Soft n ts P fs → SoftReads E (parseValue E d level') ts P fs) :
    ∀ {m : Nat} {ts : List Tok} {ps : List (Option Pat)} {fs : List Fault}, ts.length ≤ m → SoftArray n ts ps fs →
    ∀ {k : Nat} {st : ArrSt} {s s' : PS} {res : Except Error ArrSt} {g r : List Tok}, Cx E s → Gap g →
    g ++ V E s = ts ++ r → loopM (arrayRound E (parseValue E d level') level) k st s = .ok res s' →
    ∃ st' vs q, res = .ok st' ∧ tvals st' = tvals st ++ vs ∧ FitsArray ps vs ∧ V E s' = (.punct ']', q) :: r ∧
      Cx E s' ∧ FoundIn fs s.errors s' ∧ (.punct ']', q) ∈ ts := by
  intro m
  induction m with
  | zero =>
    intro ts ps fs hm hs
    exfalso
    have : ts ≠ [] := by
      cases hs with
      | missing h1 h2 h3 h4 h5 => intro he; simp [nextAt_ne h4] at he
      | _ => simp
    exact this (List.length_eq_zero_iff.1 (by omega))
  | succ m ih =>
    intro ts ps fs hm hs k st s s' res g r hC hg hV h
    cases k with
    | zero => cases h
    | succ k =>
      cases hs with
      | close h0 =>
        rename_i g0 p
        unfold loopM at h
        obtain ⟨rd, s1, h1, h2⟩ := bind_inv h
        unfold arrayRound at h1
        rw [bind_budget] at h1
        obtain ⟨cm, s2, h3, h1⟩ := bind_inv h1
        have hng : NoGap ((.punct ']', p) :: r) := by rw [noGap_cons]; simp
        obtain ⟨g1, a1, rfl, a3⟩ := gap_left hg h0 hng (by simpa using hV)
        obtain ⟨w, hv2⟩ := contained_ate hE hC a1 hng a3 h3
        dsimp only at h1
        have hty := ty_sr w.cx hv2
        rw [bind_peek, if_pos (.inl hty)] at h1
        obtain ⟨rfl, rfl⟩ := pure_inv h1
        obtain ⟨rfl, rfl⟩ := pure_inv h2
        exact ⟨_, [], p, rfl, by simp [tvals], .nil, hv2, w.cx, .none w.errs, by simp⟩
      | last h0 hs h0' =>
        rename_i g0 ts g' p P
        unfold loopM at h
        obtain ⟨rd, s1, h1, h2⟩ := bind_inv h
        obtain ⟨st1, v, s3, h3, e2, e3, e4, e5, e6, -⟩ := arrayRound_soft hE hel hs hC hg h0
          (r := g' ++ (.punct ']', p) :: r) (by simpa using hV) (.inl (follow_gap h0' (follow_sr _ _))) h1
        obtain ⟨st', rfl, c2, c3, c4, c5⟩ := arrayAfterValue_last hE e4 h0' e5 h3
        obtain ⟨rfl, rfl⟩ := pure_inv h2
        exact ⟨_, _, p, rfl, by rw [c2, e2], .right e3 .nil, c3, c4, e6.same c5, by simp⟩
      | more h0 hs h0' hrest =>
        rename_i g0 ts g' p P fs rest ps fs'
        unfold loopM at h
        obtain ⟨rd, s1, h1, h2⟩ := bind_inv h
        obtain ⟨st1, v, s3, h3, e2, e3, e4, e5, e6, -⟩ := arrayRound_soft hE hel hs hC hg h0
          (r := g' ++ (.punct ',', p) :: (rest ++ r)) (by simpa using hV) (.inl (follow_gap h0' (follow_comma _ _))) h1
        obtain ⟨st', g2, rfl, c2, c3, c4, c5, c6⟩ := arrayAfterValue_comma hE e4 h0' e5 h3
        dsimp only at h2
        obtain ⟨st2, vs, q, d1, d2, d3, d4, d5, d6, d7⟩ := ih (by simp at hm; omega) hrest c5 c3 c4 h2
        refine ⟨st2, _, q, d1, by rw [d2, c2, e2, List.append_assoc]; rfl, .right e3 d3, d4, d5, ?_, by simp [d7]⟩
        exact (e6.same c6).trans d6
      | missing h0 hs hrest hn ha =>
        rename_i g0 ts P fs rest ps fs' q
        unfold loopM at h
        obtain ⟨rd, s1, h1, h2⟩ := bind_inv h
        obtain ⟨st1, v, s3, h3, e2, e3, e4, e5, e6, pre, e7, e8, e9⟩ := arrayRound_soft hE hel hs hC hg h0
          (r := rest ++ r) (by simpa using hV) (.inr (apart_append ha (nextAt_ne hn) r)) h1
        obtain ⟨g2, w, r2, hr, k1, k2, k3, k4, -⟩ := hn
        have hV3 : V E s3 = g2 ++ (w, q) :: (r2 ++ r) := by rw [e5, hr]; simp
        obtain ⟨st', s4, rfl, c2, rfl, c4, c5, c6⟩ := arrayAfterValue_missing hE e4 k1 k2 k3 k4 hV3 h3
        dsimp only at h2
        have hlen : rest.length ≤ m := by
          obtain ⟨a, p, r', rfl, -⟩ := soft_start hs
          simp at hm; omega
        obtain ⟨st2, vs, q2, d1, d2, d3, d4, d5, d6, d7⟩ := ih (r := r) hlen hrest c6 k1 (by rw [c5, hr]; simp) h2
        refine ⟨st2, _, q2, d1, by rw [d2, c2, e2, List.append_assoc]; rfl, .right e3 d3, d4, d5, ?_, by simp [d7]⟩
        have hin : InF (firstAt ts q, q) v.stop := by
          refine ⟨e9 q, ?_⟩
          rw [e8]
          exact e7.asc.all (w, q) (by rw [hV3]; simp)
        have := ((e6.same c4).err (e := .missingComma v.stop) hin).trans d6
        simpa using this
      | damagedLast hj =>
        rename_i j p
        obtain ⟨j', rfl, hV'⟩ := gap_front hg (d := (.punct ']', p)) rfl (by simpa using hV)
        have hJ := JS.start (b := false) hE hC (.inr (.inl rfl)) hV' (fun t ht => hj t (by simp [ht])) (by simp)
        obtain ⟨st', ws, e1, ⟨k', s2, hp, -⟩ | ⟨rfl, hp⟩⟩ := arrayLoop_junk (.inr rfl) hJ h
        · exact absurd hp.comma (by simp)
        · refine ⟨st', ws, p, rfl, e1, by simpa using FitsArray.damaged (ws := ws) .nil, hp.view, hp.cx, ?_, by simp⟩
          rw [firstAt_gap hg]
          exact hp.errs.found
      | damaged hj hrest =>
        rename_i j p rest ps fs
        obtain ⟨j', rfl, hV'⟩ := gap_front hg (d := (.punct ',', p)) (R := rest ++ r) rfl (by simpa using hV)
        have hJ := JS.start (b := false) hE hC (.inl rfl) hV' (fun t ht => hj t (by simp [ht])) (by simp)
        obtain ⟨st', ws, e1, ⟨k', s2, hp, h2⟩ | ⟨rfl, hp⟩⟩ := arrayLoop_junk (.inl rfl) hJ h
        · obtain ⟨g2, k1, k2⟩ := hp.view
          obtain ⟨st2, vs, q2, d1, d2, d3, d4, d5, d6, d7⟩ := ih (by simp at hm; omega) hrest hp.cx k1 k2 h2
          refine ⟨st2, ws ++ vs, q2, d1, by rw [d2, e1, List.append_assoc], .damaged d3, d4, d5, ?_, by simp [d7]⟩
          rw [firstAt_gap hg]
          exact hp.errs.found.trans d6
        · exact absurd hp.bracket (by simp)

/-- The closing bracket. -/
theorem stops_par (hE : EnvEof E) (hC : Cx E s) {c : Char} {q : Pos} {r : List Tok} (hV : V E s = (.punct c, q) :: r)
    (hc : c = ']' ∨ c = '}') : ∃ pre, Ch E pre s.adv ∧ q.plus 1 = posOf pre := by
  have hv := hC.view hV
  obtain ⟨pre, hC'⟩ := hC
  obtain ⟨g, y, hN⟩ := hC'.next hE (hC'.cx.ne_eof hV)
  refine ⟨_, hN.ch, ?_⟩
  have ht := hN.tok.text
  have hst := hN.tok.start
  rw [hv.2.1] at hst
  have hy : y = [c] := by
    rcases hc with rfl | rfl
    · rw [ty_sr hC'.cx hV] at ht; exact ht
    · rw [ty_cr hC'.cx hV] at ht; exact ht
  rw [hst, hy]
  rcases hc with rfl | rfl
  · rw [posOf_plus (x := pre ++ g) (y := [']']) (by simp)]; rfl
  · rw [posOf_plus (x := pre ++ g) (y := ['}']) (by simp)]; rfl

theorem Ch.to {s' : PS} (h : Ch E pre s) (hr : s'.rest = s.rest) : Ch E pre s' := ⟨by rw [hr]; exact h.chain, by rw [hr]; exact h.com⟩

theorem softReads_array (hE : EnvEof E) {n d level level' : Nat} (hl : level < 100)
    (hel : ∀ ts P fs, Soft n ts P fs → SoftReads E (parseValue E d level') ts P fs) {p lp : Pos} {ts : List Tok}
    {ps : List (Option Pat)} {fs : List Fault} (hs : SoftArray n ts ps fs) :
    SoftReads E (parseArray E (parseValue E d level') level lp) ((.punct '[', p) :: ts) (.array ps) fs := by
  intro s r res s' hC hv hf h
  unfold parseArray at h
  rw [bind_next] at h
  have w1 := hC.eat hv
  have hv1 := w1.left (r := ts ++ r) hv
  rw [if_neg (by simp [RECURSION_LIMIT]; omega), bind_nextId] at h
  obtain ⟨cm, s2, h2, h⟩ := bind_inv h
  obtain ⟨g, a1, a2⟩ := lineEnd_went hE w1.cx h2
  have hq := (quiet_lineEnd _).out _ _ _ h2
  rw [bind_budget] at h
  obtain ⟨rl, s3, h3, h⟩ := bind_inv h
  obtain ⟨st', vs, q, rfl, c2, c3, c4, c5, c6, c7⟩ := arrayLoop_soft hE hel (Nat.le_refl _) hs a2.cx a1
    (by rw [← a2.view, hv1]) h3
  dsimp only at h
  obtain ⟨rp, s4, h4, h⟩ := bind_inv h
  unfold arrayClose at h4
  rw [bind_peek, if_pos (ty_sr c5 c4), bind_next] at h4
  obtain ⟨rfl, rfl⟩ := pure_inv h4
  have w4 := c5.eat c4
  rw [bind_nextId] at h
  obtain ⟨cm2, -, h⟩ := bind_lift_inv h
  obtain ⟨_, s5, h5, h⟩ := bind_inv h
  have hr5 := (still_markContained _ _).out _ _ _ h5
  have w5 := w4.cx.ate (still_markContained _ _) (quiet_markContained _ _) h5
  obtain ⟨rfl, rfl⟩ := pure_inv h
  refine ⟨_, rfl, ?_, ⟨?_, w5.cx⟩, ?_, ?_⟩
  · rw [valueOf, valuesOf_map]
    have : tvals ⟨cm, []⟩ = [] := rfl
    rw [this, List.nil_append] at c2
    have h : tvals st' = List.map (fun v => valueOf v.val) st'.values := rfl
    rw [← h, c2]
    exact .array c3
  · have e1 := w4.left (r := r) c4
    have e2 := w5.left (a := []) e1
    rw [hv, e2]
  · have he : s2.errors = s.errors := by rw [hq, w1.errs]
    rw [← he]
    exact c6.same (by rw [w5.errs, w4.errs])
  · obtain ⟨pre, k1, k2⟩ := stops_par hE c5 c4 (.inl rfl)
    have hstop : ∀ q', q' = q → (Value.inlineArray ⟨cm2, lp, st'.values, endOf lp (some q') (st'.values.getLast?.map (·.end))⟩).stop = q.plus 1 := by
      rintro _ rfl; rfl
    refine ⟨pre, k1.to hr5, ?_, ?_⟩
    · rw [← k2]; exact hstop _ (c5.view c4).2.1
    · rw [hstop _ (c5.view c4).2.1, (hC.view hv).2.1]
      obtain ⟨p0, ha⟩ := hC.asc
      rw [hv] at ha
      exact ple_trans (ha.2.all _ (List.mem_append_left _ c7)) (ple_plus _ _)


/-! ## Inline tables -/

/-- A round over an assignment, up to its value. -/
theorem tableRound_soft (hE : EnvEof E) {n : Nat} {elem : M (Except Error Value)}
    (hel : ∀ ts P fs, Soft n ts P fs → SoftReads E elem ts P fs) {st : TabSt} {rd : Round TabSt} {kt ts r : List Tok}
    {ns : List Str} {q : Pos} {P : Pat} {fs : List Fault} (hk : KeyToks kt ns) (hs : Soft n ts P fs) (hC : Cx E s)
    (hV : V E s = kt ++ (.punct '=', q) :: (ts ++ r)) (hf : Follow r ∨ Apart ts r)
    (h : tableRound E elem st s = .ok rd s') :
    ∃ a s1, tableAfterValue E st a s1 = .ok rd s' ∧ keyNames a.key = ns ∧ Fits P (valueOf a.val) ∧ Cx E s1 ∧
      V E s1 = r ∧ FoundIn fs s.errors s1 ∧
      ∃ pre, Ch E pre s1 ∧ a.val.stop = posOf pre ∧ Pos.le (firstAt kt q) a.val.stop := by
  unfold tableRound at h
  obtain ⟨v0, p0, r0, n0, h1, h2⟩ := key_start hk
  have hty : tableEnd (pk E s).ty = false := by
    rw [h1] at hV
    exact ((keyPart_starts h2).ty (hC.view hV).1).2.2
  rw [bind_peek, if_neg (by simp [hty])] at h
  obtain ⟨kr, s1, h3, h⟩ := bind_inv h
  obtain ⟨k, rfl, k2, w1⟩ := parseKey_complete hE hC hk hV (noDot_eq _ _) h3
  have hv1 := w1.left hV
  dsimp only at h
  unfold tableAfterKey at h
  rw [bind_peek, if_pos (ty_eq w1.cx hv1), bind_next] at h
  have w2 := w1.cx.eat hv1
  have hv2 := w2.left (r := ts ++ r) hv1
  obtain ⟨rv, s3, h4, h⟩ := bind_inv h
  obtain ⟨v, rfl, e1, w3, e3, pre, e4, e5, e6⟩ := hel _ _ _ hs _ _ _ _ w2.cx hv2 hf h4
  dsimp only at h
  refine ⟨_, s3, h, k2, e1, w3.cx, w3.left hv2, ?_, pre, e4, e5, ?_⟩
  · rw [← w1.errs, ← w2.errs]; exact e3
  · refine ple_trans ?_ e6
    obtain ⟨p1, ha⟩ := hC.asc
    obtain ⟨a, p, r', hts, hst⟩ := soft_start hs
    rw [(w2.cx.view (v := a) (p := p) (r := r' ++ r) (by rw [hv2, hts]; rfl)).2.1]
    rw [hV, h1] at ha
    rw [h1, firstAt, (keyPart_starts h2).notGap]
    refine ha.2.all (a, p) ?_
    rw [hts]; simp

theorem softTable_ne {n : Nat} {ts : List Tok} {ps : List (Option (List Str × Pat))} {fs : List Fault}
    (h : SoftTable n ts ps fs) : ∃ v p r, ts = (v, p) :: r ∧ isGap v = false := by
  have hkey : ∀ {kt : List Tok} {k : List Str}, KeyToks kt k → ∀ x, ∃ v p r, kt ++ x = (v, p) :: r ∧ isGap v = false := by
    intro kt k hk x
    obtain ⟨v0, p0, r0, n0, rfl, h2⟩ := key_start hk
    exact ⟨_, _, _, rfl, (keyPart_starts h2).notGap⟩
  have hjunk : ∀ {j : List Tok}, (∀ t ∈ j, isJunk t.1 = true ∧ isGap t.1 = false) → ∀ t x, isGap t.1 = false →
      ∃ v p r, j ++ t :: x = (v, p) :: r ∧ isGap v = false := by
    intro j hj t x ht
    cases j with
    | nil => exact ⟨_, _, _, rfl, ht⟩
    | cons a j => exact ⟨_, _, _, rfl, (hj a (by simp)).2⟩
  cases h with
  | close => exact ⟨_, _, _, rfl, rfl⟩
  | last h _ => exact hkey h _
  | more h _ _ => exact hkey h _
  | trailing h _ => exact hkey h _
  | missing h _ _ _ _ => exact hkey h _
  | damagedLast _ h => exact hjunk h _ _ rfl
  | damaged h _ => exact hjunk h _ _ rfl

theorem tableLoop_soft (hE : EnvEof E) {n d level' : Nat}
    (hel : ∀ ts P fs, Soft n ts P fs → SoftReads E (parseValue E d level') ts P fs) :
    ∀ {m : Nat} {ts : List Tok} {ps : List (Option (List Str × Pat))} {fs : List Fault}, ts.length ≤ m →
    SoftTable n ts ps fs → ∀ {k : Nat} {st : TabSt} {s s' : PS} {res : Except Error TabSt} {r : List Tok}, Cx E s →
    (ps = [] → st.comma = none) → V E s = ts ++ r → loopM (tableRound E (parseValue E d level')) k st s = .ok res s' →
    ∃ st' kvs q, res = .ok st' ∧ tpairs st' = tpairs st ++ kvs ∧ FitsTable ps kvs ∧ V E s' = (.punct '}', q) :: r ∧
      Cx E s' ∧ FoundIn fs s.errors s' ∧ (.punct '}', q) ∈ ts := by
  intro m
  induction m with
  | zero =>
    intro ts ps fs hm hs
    obtain ⟨v, p, r, rfl, -⟩ := softTable_ne hs
    simp at hm
  | succ m ih =>
    intro ts ps fs hm hs k st s s' res r hC hc hV h
    cases k with
    | zero => cases h
    | succ k =>
      cases hs with
      | close =>
        rename_i p
        unfold loopM at h
        obtain ⟨rd, s1, h1, h2⟩ := bind_inv h
        unfold tableRound at h1
        have hty := ty_cr hC hV
        rw [bind_peek, if_pos (by rw [hty]; rfl), hc rfl] at h1
        obtain ⟨rfl, rfl⟩ := pure_inv h1
        obtain ⟨rfl, rfl⟩ := pure_inv h2
        exact ⟨_, [], p, rfl, by simp [tpairs], .nil, hV, hC, .none rfl, by simp⟩
      | last hk hs =>
        rename_i kt ns q ts P p
        unfold loopM at h
        obtain ⟨rd, s1, h1, h2⟩ := bind_inv h
        obtain ⟨a, s3, h3, e2, e3, e4, e5, e6, -⟩ := tableRound_soft hE hel hk hs hC
          (r := (.punct '}', p) :: r) (by simpa using hV) (.inl (follow_cr _ _)) h1
        unfold tableAfterValue at h3
        have hty := ty_cr e4 e5
        rw [bind_peek, if_neg (by rw [hty]; simp), if_pos (by rw [hty]; rfl)] at h3
        obtain ⟨rfl, rfl⟩ := pure_inv h3
        obtain ⟨rfl, rfl⟩ := pure_inv h2
        exact ⟨_, [(ns, valueOf a.val)], p, rfl, by simp [tpairs, e2], .right e3 .nil, e5, e4, e6, by simp⟩
      | more hk hs hrest =>
        rename_i kt ns q ts P fs p rest x ps fs'
        unfold loopM at h
        obtain ⟨rd, s1, h1, h2⟩ := bind_inv h
        obtain ⟨a, s3, h3, e2, e3, e4, e5, e6, -⟩ := tableRound_soft hE hel hk hs hC
          (r := (.punct ',', p) :: (rest ++ r)) (by simpa using hV) (.inl (follow_comma _ _)) h1
        unfold tableAfterValue at h3
        have hty := ty_comma e4 e5
        rw [bind_peek, if_pos hty, bind_next] at h3
        have w3 := e4.eat e5
        have hv3 := w3.left (r := rest ++ r) e5
        obtain ⟨rfl, rfl⟩ := pure_inv h3
        dsimp only at h2
        obtain ⟨st2, vs, q2, d1, d2, d3, d4, d5, d6, d7⟩ := ih (by simp at hm; omega) hrest w3.cx (by simp) hv3 h2
        refine ⟨st2, (ns, valueOf a.val) :: vs, q2, d1, by rw [d2]; simp [tpairs, e2], .right e3 d3, d4, d5, ?_, by simp [d7]⟩
        exact (e6.same w3.errs).trans d6
      | trailing hk hs =>
        rename_i kt ns q ts P fs p p'
        unfold loopM at h
        obtain ⟨rd, s1, h1, h2⟩ := bind_inv h
        obtain ⟨a, s3, h3, e2, e3, e4, e5, e6, -⟩ := tableRound_soft hE hel hk hs hC
          (r := (.punct ',', p) :: (.punct '}', p') :: r) (by simpa using hV) (.inl (follow_comma _ _)) h1
        unfold tableAfterValue at h3
        have hty := ty_comma e4 e5
        rw [bind_peek, if_pos hty, bind_next] at h3
        have w3 := e4.eat e5
        have hv3 := w3.left (r := (.punct '}', p') :: r) e5
        obtain ⟨rfl, rfl⟩ := pure_inv h3
        dsimp only at h2
        cases k with
        | zero => cases h2
        | succ k =>
          unfold loopM at h2
          obtain ⟨rd, s4, h4, h2⟩ := bind_inv h2
          unfold tableRound at h4
          have hty := ty_cr w3.cx hv3
          rw [bind_peek, if_pos (by rw [hty]; rfl)] at h4
          unfold trailingComma at h4
          dsimp only at h4
          rw [bind_error] at h4
          obtain ⟨rfl, rfl⟩ := pure_inv h4
          obtain ⟨rfl, rfl⟩ := pure_inv h2
          refine ⟨_, [(ns, valueOf a.val)], p', rfl, by simp [tpairs, e2], .right e3 .nil, hv3, w3.cx.of_rest rfl, ?_, by simp⟩
          refine (e6.same w3.errs).err ?_
          rw [(e4.view e5).2.1]
          exact ⟨ple_refl _, ple_refl _⟩
      | missing hk hs hrest hn ha =>
        rename_i kt ns q ts P fs rest ps fs' q'
        unfold loopM at h
        obtain ⟨rd, s1, h1, h2⟩ := bind_inv h
        obtain ⟨a, s3, h3, e2, e3, e4, e5, e6, pre, e7, e8, e9⟩ := tableRound_soft hE hel hk hs hC
          (r := rest ++ r) (by simpa using hV) (.inr (apart_append ha (nextAt_ne hn) r)) h1
        obtain ⟨g2, w, r2, hr, k1, k2, k3, -, k5⟩ := hn
        have hps : ps = [] → False := by
          rintro rfl
          cases hrest
          cases g2 with
          | nil =>
            simp only [List.nil_append, List.cons.injEq, Prod.mk.injEq] at hr
            exact k5 hr.1.1.symm
          | cons t g2 => simp at hr
        have hg2 : g2 = [] := by
          obtain ⟨v, p, r', hr', hv⟩ := softTable_ne hrest
          cases g2 with
          | nil => rfl
          | cons t g2 =>
            rw [hr'] at hr
            simp only [List.cons_append, List.cons.injEq] at hr
            have := (gap_junk k1 t (by simp)).2
            rw [← hr.1, hv] at this
            cases this
        subst hg2
        rw [List.nil_append] at hr
        have hV3 : V E s3 = (w, q') :: (r2 ++ r) := by rw [e5, hr]; simp
        unfold tableAfterValue at h3
        obtain ⟨o1, -, o3⟩ := other_ty (e4.view hV3).1
        have hte : tableEnd (pk E s3).ty = false := by
          have n1 := e4.ne_eof hV3
          have hvw := (e4.view hV3).1
          have n2 : (pk E s3).ty ≠ .newline := by
            intro he; rw [he] at hvw
            cases w <;> simp [TyOf] at hvw
            cases k2
          have n3 : ∀ id, (pk E s3).ty ≠ .comment id := by
            intro id he; rw [he] at hvw
            cases w <;> simp [TyOf] at hvw
            cases k2
          have n4 := o3 k5
          generalize (pk E s3).ty = ty at n1 n2 n3 n4
          cases ty <;> first
            | rfl
            | exact absurd rfl n1
            | exact absurd rfl n2
            | exact absurd rfl (n3 _)
            | exact absurd rfl n4
        rw [bind_peek, if_neg (o1 k3), if_neg (by rw [hte]; simp), bind_error] at h3
        obtain ⟨rfl, rfl⟩ := pure_inv h3
        dsimp only at h2
        have hlen : rest.length ≤ m := by simp at hm; omega
        obtain ⟨st2, vs, q2, d1, d2, d3, d4, d5, d6, d7⟩ := ih hlen hrest (e4.of_rest rfl)
          (fun he => (hps he).elim) (s := s3.err _) e5 h2
        refine ⟨st2, (ns, valueOf a.val) :: vs, q2, d1, by rw [d2]; simp [tpairs, e2], .right e3 d3, d4, d5, ?_, by simp [d7]⟩
        have hin : InF (firstAt kt q, q') a.val.stop := by
          refine ⟨e9, ?_⟩
          rw [e8]
          exact e7.asc.all (w, q') (by rw [hV3]; simp)
        have := (e6.err (e := .missingComma a.val.stop) hin).trans d6
        simpa using this
      | damagedLast hne hj =>
        rename_i j p
        have hV' : V E s = j ++ (.punct '}', p) :: r := by simpa using hV
        have hJ := JS.start (b := true) hE hC (.inr (.inr rfl)) hV' (fun t ht => (hj t ht).1) (fun _ t ht => (hj t ht).2)
        obtain ⟨st', ws, e1, ⟨k', s2, hp, -⟩ | ⟨rfl, hp⟩⟩ := tableLoop_junk (.inr rfl) hJ (by
          intro _ he
          rw [hV'] at he
          cases j with
          | nil => exact hne rfl
          | cons t j =>
            simp only [List.cons_append, List.cons.injEq] at he
            have := (hj t (by simp)).1
            rw [he.1] at this
            cases this) h
        · exact absurd hp.comma (by simp)
        · exact ⟨st', ws, p, rfl, e1, by simpa using FitsTable.damaged (ws := ws) .nil, hp.view, hp.cx, hp.errs.found, by simp⟩
      | damaged hj hrest =>
        rename_i j p rest x ps fs
        have hV' : V E s = j ++ (.punct ',', p) :: (rest ++ r) := by simpa using hV
        have hJ := JS.start (b := true) hE hC (.inl rfl) hV' (fun t ht => (hj t ht).1) (fun _ t ht => (hj t ht).2)
        obtain ⟨st', ws, e1, ⟨k', s2, hp, h2⟩ | ⟨rfl, hp⟩⟩ := tableLoop_junk (.inl rfl) hJ (by simp) h
        · obtain ⟨st2, vs, q2, d1, d2, d3, d4, d5, d6, d7⟩ := ih (by simp at hm; omega) hrest hp.cx (by simp) hp.view h2
          exact ⟨st2, ws ++ vs, q2, d1, by rw [d2, e1, List.append_assoc], .damaged d3, d4, d5, hp.errs.found.trans d6, by simp [d7]⟩
        · exact absurd hp.bracket (by simp)

theorem softReads_table (hE : EnvEof E) {n d level level' : Nat} (hl : level < 100)
    (hel : ∀ ts P fs, Soft n ts P fs → SoftReads E (parseValue E d level') ts P fs) {p lp : Pos} {ts : List Tok}
    {ps : List (Option (List Str × Pat))} {fs : List Fault} (hs : SoftTable n ts ps fs) :
    SoftReads E (parseTable E (parseValue E d level') level lp) ((.punct '{', p) :: ts) (.table ps) fs := by
  intro s r res s' hC hv hf h
  unfold parseTable at h
  rw [bind_next] at h
  have w1 := hC.eat hv
  have hv1 := w1.left (r := ts ++ r) hv
  rw [if_neg (by simp [RECURSION_LIMIT]; omega), bind_budget] at h
  obtain ⟨rl, s3, h3, h⟩ := bind_inv h
  obtain ⟨st', vs, q, rfl, c2, c3, c4, c5, c6, c7⟩ := tableLoop_soft hE hel (Nat.le_refl _) hs w1.cx (fun _ => rfl) hv1 h3
  dsimp only at h
  obtain ⟨rp, s4, h4, h⟩ := bind_inv h
  unfold tableClose at h4
  rw [bind_peek, if_pos (ty_cr c5 c4), bind_next] at h4
  obtain ⟨rfl, rfl⟩ := pure_inv h4
  have w4 := c5.eat c4
  obtain ⟨rfl, rfl⟩ := pure_inv h
  refine ⟨_, rfl, ?_, ⟨?_, w4.cx⟩, ?_, ?_⟩
  · rw [valueOf, pairsOf_map]
    have : tpairs ⟨[], none⟩ = [] := rfl
    rw [this, List.nil_append] at c2
    have h : tpairs st' = st'.assignments.map fun a => (keyNames a.assignment.key, valueOf a.assignment.val) := rfl
    rw [← h, c2]
    exact .table c3
  · rw [hv, w4.left (r := r) c4]
  · rw [← w1.errs]
    exact c6.same w4.errs
  · obtain ⟨pre, k1, k2⟩ := stops_par hE c5 c4 (.inr rfl)
    have hstop : ∀ q', q' = q → (Value.inlineTable ⟨lp, st'.assignments, endOf lp (some q') (st'.assignments.getLast?.map (·.end))⟩).stop = q.plus 1 := by
      rintro _ rfl; rfl
    refine ⟨pre, k1, ?_, ?_⟩
    · rw [← k2]; exact hstop _ (c5.view c4).2.1
    · rw [hstop _ (c5.view c4).2.1, (hC.view hv).2.1]
      obtain ⟨p0, ha⟩ := hC.asc
      rw [hv] at ha
      exact ple_trans (ha.2.all _ (List.mem_append_left _ c7)) (ple_plus _ _)

/-- Values. -/
theorem parseValue_soft (hE : EnvEof E) : ∀ {n d level : Nat} {ts : List Tok} {P : Pat} {fs : List Fault},
    n + level ≤ 100 → Soft n ts P fs → SoftReads E (parseValue E d level) ts P fs := by
  intro n
  induction n with
  | zero =>
    intro d level ts P fs _ h
    cases h with
    | scalar h => exact softReads_scalar hE h
  | succ n ih =>
    intro d level ts P fs hl h
    cases h with
    | scalar h => exact softReads_scalar hE h
    | array h =>
      intro s r res s' hC hv hf hr
      cases d with
      | zero => cases hr
      | succ d =>
        unfold parseValue at hr
        rw [bind_peek, ty_sl hC hv] at hr
        dsimp only at hr
        exact softReads_array hE (by omega) (fun _ _ _ hs => ih (by omega) hs) h s r res s' hC hv hf hr
    | table h =>
      intro s r res s' hC hv hf hr
      cases d with
      | zero => cases hr
      | succ d =>
        unfold parseValue at hr
        rw [bind_peek, ty_cl hC hv] at hr
        dsimp only at hr
        exact softReads_table hE (by omega) (fun _ _ _ hs => ih (by omega) hs) h s r res s' hC hv hf hr

end Verif.Toml
