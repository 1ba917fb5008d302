import Verif.Toml.JunkLogic

/-! # The loops over arrays and inline tables on the tokens of a damaged entry -/

namespace Verif.Toml
open Verif Verif.Spec.Toml

variable {α β : Type} {E : Env} {s s' s1 s2 : PS} {pre : Str} {b : Bool} {d : Tok} {R : List Tok} {lo : Pos}
  {es0 : List Error}

theorem gap_junk {g : List Tok} (hg : Gap g) : ∀ t ∈ g, isJunk t.1 = true ∧ isGap t.1 = true := by
  intro t ht
  rcases hg t ht with h | ⟨x, h⟩ <;> rw [h] <;> exact ⟨rfl, rfl⟩

theorem JS.contained (h : JS E b d R lo es0 s) {n : Nat} {r r' : CommentRange}
    (hr : containedComments E n r s = .ok r' s') :
    JS E b d R lo es0 s' ∧ (Toml.pk E s').ty ≠ .newline ∧ ∀ id, (Toml.pk E s').ty ≠ .comment id := by
  obtain ⟨g', a1, a2, a3⟩ := contained_went h.eofTy _ h.cx hr
  have hj := (h.went a2 (fun t ht => (gap_junk a1 t ht).1) (h.errs.same ((quiet_contained _ _).out _ _ _ hr))).1
  refine ⟨hj, ?_⟩
  obtain ⟨a, h1, -⟩ := hj.seg
  have key : ∀ {v : View} {p : Pos} {r : List Tok}, V E s' = (v, p) :: r →
      (Toml.pk E s').ty ≠ .newline ∧ ∀ id, (Toml.pk E s').ty ≠ .comment id := by
    intro v p r hv
    obtain ⟨k1, k2⟩ := a3 v p r hv
    have g := (hj.cx.view hv).1
    cases v with
    | string q lit txt => obtain ⟨_, _, _, g, -⟩ := g; rw [g]; simp
    | word w => obtain ⟨_, g, -⟩ := g; rw [g]; simp
    | comment w => exact absurd rfl (k2 w)
    | newline => exact absurd rfl k1
    | punct c =>
      constructor
      · intro he; rw [he] at g; simp [TyOf] at g
      · intro id he; rw [he] at g; simp [TyOf] at g
  cases a with
  | nil => exact key (v := d.1) (p := d.2) h1
  | cons t a => exact key (v := t.1) (p := t.2) h1

theorem JS.lineEnd (h : JS E b d R lo es0 s) {r r' : CommentRange} (hr : lineEndComment E r s = .ok r' s') :
    JS E b d R lo es0 s' := by
  obtain ⟨g', a1, a2⟩ := lineEnd_went h.eofTy h.cx hr
  exact (h.went a2 (fun t ht => (gap_junk a1 t ht).1) (h.errs.same ((quiet_lineEnd _).out _ _ _ hr))).1

/-- The next token is the end. -/
theorem JS.atComma (h : JS E b d R lo es0 s) (hty : (Toml.pk E s).ty = .comma) : d.1 = .punct ',' ∧ V E s = d :: R := by
  rcases h.pk with ⟨g, -⟩ | ⟨v, r, -, hj, g, -⟩
  · rcases h.delimTy g with ⟨e, e'⟩ | ⟨e, e'⟩ | ⟨e, e'⟩
    · exact ⟨e, g⟩
    · rw [hty] at e'; cases e'
    · rw [hty] at e'; cases e'
  · exfalso
    rw [hty] at g
    cases v with
    | punct c =>
      simp only [isJunk, Bool.or_eq_true, decide_eq_true_eq] at hj
      rcases hj with rfl | rfl <;> simp [TyOf] at g
    | _ => simp [TyOf] at g

theorem JS.atSquare (h : JS E b d R lo es0 s) (hty : (Toml.pk E s).ty = .squareRight) : d.1 = .punct ']' ∧ V E s = d :: R := by
  rcases h.pk with ⟨g, -⟩ | ⟨v, r, -, hj, g, -⟩
  · rcases h.delimTy g with ⟨e, e'⟩ | ⟨e, e'⟩ | ⟨e, e'⟩
    · rw [hty] at e'; cases e'
    · exact ⟨e, g⟩
    · rw [hty] at e'; cases e'
  · exfalso
    rw [hty] at g
    cases v with
    | punct c =>
      simp only [isJunk, Bool.or_eq_true, decide_eq_true_eq] at hj
      rcases hj with rfl | rfl <;> simp [TyOf] at g
    | _ => simp [TyOf] at g

theorem JS.atCurly (h : JS E b d R lo es0 s) (hty : (Toml.pk E s).ty = .curlyRight) : d.1 = .punct '}' ∧ V E s = d :: R := by
  rcases h.pk with ⟨g, -⟩ | ⟨v, r, -, hj, g, -⟩
  · rcases h.delimTy g with ⟨e, e'⟩ | ⟨e, e'⟩ | ⟨e, e'⟩
    · rw [hty] at e'; cases e'
    · rw [hty] at e'; cases e'
    · exact ⟨e, g⟩
  · exfalso
    rw [hty] at g
    cases v with
    | punct c =>
      simp only [isJunk, Bool.or_eq_true, decide_eq_true_eq] at hj
      rcases hj with rfl | rfl <;> simp [TyOf] at g
    | _ => simp [TyOf] at g

/-! ## Arrays -/

/-- Behind the comma that ends the damaged entry. -/
structure Past (E : Env) (d : Tok) (R : List Tok) (lo : Pos) (es0 : List Error) (s : PS) : Prop where
  comma : d.1 = .punct ','
  cx : Cx E s
  view : ∃ g, Gap g ∧ g ++ V E s = R
  errs : ErrsIn (lo, d.2) es0 s

/-- In front of the bracket that ends the damaged entry. -/
structure StopJ (E : Env) (c : Char) (d : Tok) (R : List Tok) (lo : Pos) (es0 : List Error) (s : PS) : Prop where
  bracket : d.1 = .punct c
  cx : Cx E s
  view : V E s = d :: R
  errs : ErrsIn (lo, d.2) es0 s

/-- How a round over a damaged element ends. -/
def ArrOut (E : Env) (d : Tok) (R : List Tok) (lo : Pos) (es0 : List Error) (st : ArrSt) (res : Round ArrSt) (s : PS) : Prop :=
  ∃ st' ws, tvals st' = tvals st ++ ws ∧
    ((res = .continue st' ∧ (JS E false d R lo es0 s ∨ Past E d R lo es0 s)) ∨
      (res = .break st' ∧ StopJ E ']' d R lo es0 s))

theorem arrayRecover_junk {st : ArrSt} {res : Round ArrSt} (h : JS E false d R lo es0 s)
    (hd : d.1 = .punct ',' ∨ d.1 = .punct ']') (hr : arrayRecover E st s = .ok res s') :
    ArrOut E d R lo es0 st res s' := by
  unfold arrayRecover at hr
  obtain ⟨u, s1, h1, hr⟩ := bind_inv hr
  obtain ⟨hj, hst⟩ := recover_junk (by rcases hd with hd | hd <;> simp [hd, arrayStop]) h h1
  clear h1
  rw [bind_peek] at hr
  generalize hty : (pk E s1).ty = ty at hr hst
  split at hr
  · obtain ⟨rfl, rfl⟩ := pure_inv hr
    obtain ⟨k1, k2⟩ := hj.atSquare hty
    exact ⟨st, [], by simp, .inr ⟨rfl, k1, hj.cx, k2, hj.errs⟩⟩
  · exact absurd hty hj.ne_eof
  · rename_i hn1 hn2
    rw [bind_next] at hr
    obtain ⟨rfl, rfl⟩ := pure_inv hr
    refine ⟨st, [], by simp, .inl ⟨rfl, ?_⟩⟩
    by_cases hc : ty = .comma
    · obtain ⟨k1, k2⟩ := hj.atComma (hty.trans hc)
      have w := hj.cx.eat (v := d.1) (p := d.2) k2
      exact .inr ⟨k1, w.cx, ⟨[], by simp [Gap], w.left (r := R) k2⟩, hj.errs.same w.errs⟩
    · refine .inl (hj.adv (by rw [hty]; exact hc) (by rw [hty]; exact hn1) (by
        rw [hty]
        intro e
        rw [e] at hst
        cases hst))

theorem arrayAfterValue_junk {level : Nat} {st : ArrSt} {v : Value} {res : Round ArrSt} (h : JS E false d R lo es0 s)
    (hv : InF (lo, d.2) v.stop) (hr : arrayAfterValue E level st v s = .ok res s') :
    ArrOut E d R lo es0 st res s' := by
  unfold arrayAfterValue at hr
  obtain ⟨vc, s1, h1, hr⟩ := bind_inv hr
  have j1 := h.still (still_markAbove _ _) (quiet_markAbove _ _) h1
  obtain ⟨vc', s2, h2, hr⟩ := bind_inv hr
  have j2 := j1.lineEnd h2
  rw [bind_budget] at hr
  obtain ⟨cm, s3, h3, hr⟩ := bind_inv hr
  have j3 := (j2.contained h3).1
  clear h1 h2 h3 j1 j2 h
  rw [bind_peek] at hr
  split at hr
  · rename_i hty
    obtain ⟨k1, k2⟩ := j3.atComma hty
    rw [bind_nextId] at hr
    obtain ⟨vc3, -, hr⟩ := bind_lift_inv hr
    obtain ⟨_, s4, h4, hr⟩ := bind_inv hr
    have w4 := j3.cx.ate (still_markContained _ _) (quiet_markContained _ _) h4
    have hv4 := w4.left (a := []) k2
    rw [bind_next] at hr
    have w5 := w4.cx.eat (v := d.1) (p := d.2) hv4
    have hv5 := w5.left (r := R) hv4
    obtain ⟨vc5, s5, h5, hr⟩ := bind_inv hr
    obtain ⟨g3, b1, b2⟩ := lineEnd_went j3.eofTy w5.cx h5
    have hq := (quiet_lineEnd _).out _ _ _ h5
    obtain ⟨rfl, rfl⟩ := pure_inv hr
    refine ⟨_, [valueOf v], by simp [tvals], .inl ⟨rfl, .inr ⟨k1, b2.cx, ⟨g3, b1, by rw [← b2.view, hv5]⟩, ?_⟩⟩⟩
    exact j3.errs.same (by rw [hq, w5.errs, w4.errs])
  · split at hr
    · rename_i hty
      rcases hty with hty | hty
      · obtain ⟨k1, k2⟩ := j3.atSquare hty
        obtain ⟨rfl, rfl⟩ := pure_inv hr
        exact ⟨_, [valueOf v], by simp [tvals], .inr ⟨rfl, k1, j3.cx, k2, j3.errs⟩⟩
      · exact absurd hty j3.ne_eof
    · rw [bind_error] at hr
      obtain ⟨rfl, rfl⟩ := pure_inv hr
      exact ⟨_, [valueOf v], by simp [tvals], .inl ⟨rfl, .inl (j3.err hv)⟩⟩

theorem arrayRound_junk {n level level' : Nat} {st : ArrSt} {res : Round ArrSt} (h : JS E false d R lo es0 s)
    (hd : d.1 = .punct ',' ∨ d.1 = .punct ']') (hr : arrayRound E (parseValue E n level') level st s = .ok res s') :
    ArrOut E d R lo es0 st res s' := by
  unfold arrayRound at hr
  rw [bind_budget] at hr
  obtain ⟨cm, s1, h1, hr⟩ := bind_inv hr
  obtain ⟨j1, n1, n2⟩ := h.contained h1
  clear h1 h
  dsimp only at hr
  rw [bind_peek] at hr
  split at hr
  · rename_i hty
    rcases hty with hty | hty
    · obtain ⟨k1, k2⟩ := j1.atSquare hty
      obtain ⟨rfl, rfl⟩ := pure_inv hr
      exact ⟨_, [], by simp [tvals], .inr ⟨rfl, k1, j1.cx, k2, j1.errs⟩⟩
    · exact absurd hty j1.ne_eof
  · obtain ⟨rv, s2, h2, hr⟩ := bind_inv hr
    obtain ⟨j2, hv⟩ := parseValue_junk j1 n1 n2 h2
    clear h2
    split at hr
    · obtain ⟨st', ws, k1, k2⟩ := arrayAfterValue_junk j2 hv hr
      exact ⟨st', ws, by rw [k1]; rfl, k2⟩
    · exact absurd rfl (hv.2 _)
    · rw [bind_error] at hr
      obtain ⟨st', ws, k1, k2⟩ := arrayRecover_junk (j2.err hv.1) hd hr
      exact ⟨st', ws, by rw [k1]; rfl, k2⟩

/-- The loop over an array passes a damaged element. -/
theorem arrayLoop_junk {n level level' : Nat} (hd : d.1 = .punct ',' ∨ d.1 = .punct ']') :
    ∀ {k : Nat} {st : ArrSt} {s : PS} {res : Except Error ArrSt}, JS E false d R lo es0 s →
    loopM (arrayRound E (parseValue E n level') level) k st s = .ok res s' →
    ∃ st' ws, tvals st' = tvals st ++ ws ∧
      ((∃ k' s1, Past E d R lo es0 s1 ∧ loopM (arrayRound E (parseValue E n level') level) k' st' s1 = .ok res s') ∨
        (res = .ok st' ∧ StopJ E ']' d R lo es0 s')) := by
  intro k
  induction k with
  | zero => intro st s res _ h; cases h
  | succ k ih =>
    intro st s res h hr
    unfold loopM at hr
    obtain ⟨rd, s1, h1, hr⟩ := bind_inv hr
    obtain ⟨st1, ws, e1, ⟨rfl, hj | hp⟩ | ⟨rfl, hs⟩⟩ := arrayRound_junk h hd h1
    · obtain ⟨st', ws', e2, e3⟩ := ih hj hr
      exact ⟨st', ws ++ ws', by rw [e2, e1, List.append_assoc], e3⟩
    · exact ⟨st1, ws, e1, .inl ⟨k, s1, hp, hr⟩⟩
    · obtain ⟨rfl, rfl⟩ := pure_inv hr
      exact ⟨st1, ws, e1, .inr ⟨rfl, hs⟩⟩

/-! ## Inline tables -/

/-- Behind the comma that ends the damaged assignment. -/
structure PastT (E : Env) (d : Tok) (R : List Tok) (lo : Pos) (es0 : List Error) (s : PS) : Prop where
  comma : d.1 = .punct ','
  cx : Cx E s
  view : V E s = R
  errs : ErrsIn (lo, d.2) es0 s

/-- How a round over a damaged assignment ends. -/
def TabOut (E : Env) (d : Tok) (R : List Tok) (lo : Pos) (es0 : List Error) (st : TabSt) (res : Round TabSt) (s : PS) : Prop :=
  ∃ st' ws, tpairs st' = tpairs st ++ ws ∧
    ((res = .continue st' ∧ ((JS E true d R lo es0 s ∧ V E s ≠ d :: R) ∨ PastT E d R lo es0 s)) ∨
      (res = .break st' ∧ StopJ E '}' d R lo es0 s))

theorem tableRecover_junk {st : TabSt} {res : Round TabSt} (h : JS E true d R lo es0 s)
    (hd : d.1 = .punct ',' ∨ d.1 = .punct '}') (hr : tableRecover E st s = .ok res s') :
    TabOut E d R lo es0 st res s' := by
  unfold tableRecover at hr
  obtain ⟨u, s1, h1, hr⟩ := bind_inv hr
  obtain ⟨hj, hst⟩ := recover_junk (by rcases hd with hd | hd <;> simp [hd, tableStop, tableEnd]) h h1
  clear h1
  rw [bind_peek] at hr
  split at hr
  · rename_i hty
    obtain ⟨k1, k2⟩ := hj.atComma hty
    rw [bind_next] at hr
    obtain ⟨rfl, rfl⟩ := pure_inv hr
    have w := hj.cx.eat (v := d.1) (p := d.2) k2
    exact ⟨st, [], by simp, .inl ⟨rfl, .inr ⟨k1, w.cx, w.left (r := R) k2, hj.errs.same w.errs⟩⟩⟩
  · rename_i hty
    obtain ⟨rfl, rfl⟩ := pure_inv hr
    obtain ⟨n1, n2⟩ := hj.noGap
    have n3 := hj.ne_eof
    have : (pk E s1).ty = .curlyRight := by
      generalize (pk E s1).ty = ty at hst hty n1 n2 n3
      cases ty <;> first
        | rfl
        | exact absurd rfl hty
        | exact absurd rfl n1
        | exact absurd rfl (n2 _)
        | exact absurd rfl n3
        | cases hst
    obtain ⟨k1, k2⟩ := hj.atCurly this
    exact ⟨st, [], by simp, .inr ⟨rfl, k1, hj.cx, k2, hj.errs⟩⟩

theorem tableAfterValue_junk {st : TabSt} {a : Assignment} {res : Round TabSt} (h : JS E true d R lo es0 s)
    (hd : d.1 = .punct ',' ∨ d.1 = .punct '}') (hv : InF (lo, d.2) a.val.stop) (hr : tableAfterValue E st a s = .ok res s') :
    TabOut E d R lo es0 st res s' := by
  unfold tableAfterValue at hr
  rw [bind_peek] at hr
  split at hr
  · rename_i hty
    obtain ⟨k1, k2⟩ := h.atComma hty
    rw [bind_next] at hr
    obtain ⟨rfl, rfl⟩ := pure_inv hr
    have w := h.cx.eat (v := d.1) (p := d.2) k2
    exact ⟨_, [(keyNames a.key, valueOf a.val)], by simp [tpairs], .inl ⟨rfl, .inr ⟨k1, w.cx, w.left (r := R) k2, h.errs.same w.errs⟩⟩⟩
  · rename_i hty
    split at hr
    · rename_i hte
      obtain ⟨rfl, rfl⟩ := pure_inv hr
      obtain ⟨n1, n2⟩ := h.noGap
      have n3 := h.ne_eof
      have : (pk E s).ty = .curlyRight := by
        generalize (pk E s).ty = ty at hte hty n1 n2 n3
        cases ty <;> first
          | rfl
          | exact absurd rfl n1
          | exact absurd rfl (n2 _)
          | exact absurd rfl n3
          | cases hte
      obtain ⟨k1, k2⟩ := h.atCurly this
      exact ⟨_, [(keyNames a.key, valueOf a.val)], by simp [tpairs], .inr ⟨rfl, k1, h.cx, k2, h.errs⟩⟩
    · rename_i hte
      rw [bind_error] at hr
      obtain ⟨rfl, rfl⟩ := pure_inv hr
      refine ⟨_, [(keyNames a.key, valueOf a.val)], by simp [tpairs], .inl ⟨rfl, .inl ⟨h.err hv, ?_⟩⟩⟩
      intro he
      have he : V E s = d :: R := he
      rcases h.delimTy he with ⟨-, e⟩ | ⟨e', e⟩ | ⟨-, e⟩
      · exact hty e
      · rcases hd with hd | hd <;> rw [hd] at e' <;> simp at e'
      · rw [e] at hte; exact hte rfl

theorem tableRound_junk {n level' : Nat} {st : TabSt} {res : Round TabSt} (h : JS E true d R lo es0 s)
    (hd : d.1 = .punct ',' ∨ d.1 = .punct '}') (hne : d.1 = .punct '}' → V E s ≠ d :: R)
    (hr : tableRound E (parseValue E n level') st s = .ok res s') : TabOut E d R lo es0 st res s' := by
  unfold tableRound at hr
  rw [bind_peek] at hr
  split at hr
  · rename_i hte
    exfalso
    obtain ⟨n1, n2⟩ := h.noGap
    have n3 := h.ne_eof
    have : (pk E s).ty = .curlyRight := by
      generalize (pk E s).ty = ty at hte n1 n2 n3
      cases ty <;> first
        | rfl
        | exact absurd rfl n1
        | exact absurd rfl (n2 _)
        | exact absurd rfl n3
        | cases hte
    obtain ⟨k1, k2⟩ := h.atCurly this
    exact hne k1 k2
  · obtain ⟨kr, s1, h1, hr⟩ := bind_inv hr
    obtain ⟨j1, hk⟩ := parseKey_junk h h1
    clear h1 h hne
    split at hr
    · unfold tableAfterKey at hr
      have hl := j1.here j1.noGap.1 j1.noGap.2
      rw [bind_peek] at hr
      split at hr
      · rename_i he
        rw [bind_next] at hr
        obtain ⟨rv, s2, h2, hr⟩ := bind_inv hr
        have ja := j1.adv (by rw [he]; simp) (by rw [he]; simp) (by rw [he]; simp)
        obtain ⟨j2, hv⟩ := parseValue_junk ja ja.noGap.1 ja.noGap.2 h2
        clear h2
        split at hr
        · exact tableAfterValue_junk (a := ⟨_, _, _⟩) j2 hd hv hr
        · exact absurd rfl (hv.2 _)
        · rw [bind_error] at hr
          exact tableRecover_junk (j2.err hv.1) hd hr
      · obtain ⟨f, sp, hsp, hr⟩ := bind_fmt_inv hr
        dsimp only at hr
        rw [bind_error] at hr
        exact tableRecover_junk (j1.err (by show InF _ sp.start; rw [hsp]; exact hl)) hd hr
    · exact hk.elim
    · rw [bind_error] at hr
      exact tableRecover_junk (j1.err hk) hd hr

/-- The loop over an inline table passes a damaged assignment. -/
theorem tableLoop_junk {n level' : Nat} (hd : d.1 = .punct ',' ∨ d.1 = .punct '}') :
    ∀ {k : Nat} {st : TabSt} {s : PS} {res : Except Error TabSt}, JS E true d R lo es0 s →
    (d.1 = .punct '}' → V E s ≠ d :: R) →
    loopM (tableRound E (parseValue E n level')) k st s = .ok res s' →
    ∃ st' ws, tpairs st' = tpairs st ++ ws ∧
      ((∃ k' s1, PastT E d R lo es0 s1 ∧ loopM (tableRound E (parseValue E n level')) k' st' s1 = .ok res s') ∨
        (res = .ok st' ∧ StopJ E '}' d R lo es0 s')) := by
  intro k
  induction k with
  | zero => intro st s res _ _ h; cases h
  | succ k ih =>
    intro st s res h hne hr
    unfold loopM at hr
    obtain ⟨rd, s1, h1, hr⟩ := bind_inv hr
    obtain ⟨st1, ws, e1, ⟨rfl, ⟨hj, hj'⟩ | hp⟩ | ⟨rfl, hs⟩⟩ := tableRound_junk h hd hne h1
    · obtain ⟨st', ws', e2, e3⟩ := ih hj (fun _ => hj') hr
      exact ⟨st', ws ++ ws', by rw [e2, e1, List.append_assoc], e3⟩
    · exact ⟨st1, ws, e1, .inl ⟨k, s1, hp, hr⟩⟩
    · obtain ⟨rfl, rfl⟩ := pure_inv hr
      exact ⟨st1, ws, e1, .inr ⟨rfl, hs⟩⟩

/-- In front of a damaged entry. -/
theorem JS.start (hE : EnvEof E) (hC : Cx E s) {j : List Tok} {p : Pos} {v : View} (hd : isDelim v)
    (hV : V E s = j ++ (v, p) :: R) (hj : ∀ t ∈ j, isJunk t.1 = true) (hb : b = true → ∀ t ∈ j, isGap t.1 = false) :
    JS E b (v, p) R (firstAt j p) s.errors s := by
  refine ⟨hE, hC, hd, ⟨j, hV, hj, ?_, hb⟩, [], by simp, by simp⟩
  obtain ⟨p0, ha⟩ := hC.asc
  rw [hV] at ha
  clear hV hj hb
  induction j generalizing p0 with
  | nil =>
    intro t ht hg
    simp only [List.nil_append, List.mem_singleton] at ht
    rw [ht]; exact ple_refl _
  | cons x j ih =>
    intro t ht hg
    unfold firstAt
    rw [List.cons_append, List.mem_cons] at ht
    split
    · rename_i hx
      rcases ht with rfl | ht
      · rw [hx] at hg; cases hg
      · exact ih _ ha.2 t ht hg
    · rcases ht with rfl | ht
      · exact ple_refl _
      · refine ha.2.all t ?_
        rcases List.mem_append.1 ht with ht | ht
        · simp [ht]
        · rw [List.mem_singleton.1 ht]; simp

end Verif.Toml
