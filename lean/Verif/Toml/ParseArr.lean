import Verif.Toml.ParseVal

/-! # Lemmas for the parser: arrays, inline tables and nesting -/

namespace Verif.Toml
open Verif Verif.Spec.Toml

variable {α β σ : Type} {P : Prop} {E : Env} {toks : List Token} {es0 : List Error}
variable {pre p1 p2 : Str} {s s1 s2 : PS} {u v : List Token} {h : List Comment}

theorem _root_.Verif.Spec.Toml.RangeIn.mono {n m : Nat} {r : CommentRange} (h : RangeIn n r) (hm : n ≤ m) : RangeIn m r := by
  unfold RangeIn at *; omega

theorem extendTo_eq {r : CommentRange} {id : Nat} (hr : r.start ≤ id) :
    r.extendTo id = some ⟨r.start, id - r.start, r.level⟩ := by
  unfold CommentRange.extendTo subU
  rw [if_pos hr]; rfl

/-- A diagnostic, and then anything. -/
theorem Nw.err_then {e : Error} (h1 : Nw E toks es0 pre s u p1 s1) (he : Loc E toks e)
    (h2 : Nw E toks es0 p1 (s1.err e) v p2 s2) : Nx E toks es0 pre s (u ++ v) p2 s2 h := by
  have h3 := h1.trans ((h1.good.err (h := []) he).toNw.trans h2)
  refine Nx.of_err h3 fun hh => ?_
  have a := h1.errs.length_le
  have b := h2.errs.length_le
  have c : (s1.err e).errors.length = s1.errors.length + 1 := by simp [PS.err]
  rw [hh] at b
  omega

theorem PS.adv_errors (s : PS) : s.adv.errors = s.errors := by
  unfold PS.adv; split <;> rfl

theorem PS.adv_storage (s : PS) : s.adv.storage = s.storage := by
  unfold PS.adv; split <;> rfl

/-- Consuming a token that is one character and no comment. -/
theorem Good.char (hG : Good E toks es0 pre s) (hne : (pk E s).ty ≠ .eof)
    (hc : ∀ id, (pk E s).ty ≠ .comment id) :
    ∃ x y, pre <+: x ∧ TokAt E (pk E s) x y ∧ Nx E toks es0 pre s [pk E s] (x ++ y) s.adv [] ∧
      s.adv.rest.length < s.rest.length := by
  obtain ⟨g, y, h1, h2, h3, h4⟩ := hG.adv' hne
  rw [coms_of_ne hc] at h4
  exact ⟨pre ++ g, y, List.prefix_append _ _, h2, h4, by rw [h3]; simp⟩

/-- The next token, if there is one. -/
theorem Good.nextSome (hG : Good E toks es0 pre s) (hne : (pk E s).ty ≠ .eof) :
    ∃ v b, Verif.Toml.views E toks = Verif.Toml.views E s.done.reverse ++ (v, (pk E s).start) :: b ∧
      resolve E.strings E.literals (pk E s) = some (v, (pk E s).start) ∧ Kin (pk E s).ty (some v) := by
  obtain ⟨g, y, h1, h2, h3, h4⟩ := hG.adv' hne
  obtain ⟨v, hv, -⟩ := h2.view
  rw [← h2.start] at hv
  refine ⟨v, Verif.Toml.views E s.adv.rest, ?_, hv, Kin.some hv⟩
  rw [hG.views, h3]
  simp [Verif.Toml.views, hv]

/-- A missing comma in front of the next token. -/
theorem Good.missingComma (hG : Good E toks es0 pre s) (hN : Nw E toks es0 pre s u p1 s1) {b : Str}
    (hE : Ended E pre s (posOf b)) (hu : ∀ t ∈ u, endsLine t.ty = true) (hb : b <+: pre)
    (h1 : (pk E s1).ty ≠ .comma) (h2 : endsLine (pk E s1).ty = false) :
    Loc E toks (.missingComma (posOf b)) := by
  have hG1 := hN.good
  obtain ⟨v, r, e1, e0, e2⟩ := hG1.nextSome (fun h => by rw [h] at h2; cases h2)
  obtain ⟨x, x1, x2, x3⟩ := hG1.pk_start
  have hb1 : b <+: p1 := hb.trans hN.seg.prefix
  have hle : Pos.le (posOf b) (pk E s1).start := by
    rw [x3]
    obtain ⟨z, rfl⟩ := hb1.trans x1
    exact posOf_mono _ _
  have hvc : v ≠ .punct ',' := by rintro rfl; exact h1 (e2.comma.1 rfl)
  have hvl : ¬ LineEnd (some v) := by
    intro hl
    have := e2.line.1 hl
    rw [h2] at this; cases this
  have hlu : ∀ t ∈ Verif.Toml.views E u, LineEnd (some t.1) := by
    intro t ht
    obtain ⟨t', h3, h4⟩ := List.mem_filterMap.1 ht
    obtain ⟨w, p⟩ := t
    exact (resolve_ty h4).2.1.2 (hu t' h3)
  rw [hN.done_eq hG, views_append] at e1
  refine ⟨spanIn_of (List.prefix_refl _) (hb1.trans hG1.chain.prefix), trivial, ?_⟩
  rcases hE with ⟨g1, t, d, x', y', g2, g3, g4, g5⟩ | hr | ⟨x', b', g1, g2, g3, g4, g5⟩
  · obtain ⟨w, k1, k2⟩ := g3.view
    refine ⟨Verif.Toml.views E d.reverse, [(w, posOf x')], Verif.Toml.views E u, v, _, r, ?_, hle, hvc, hvl, hlu,
      .inl ⟨w, x', y', rfl, k2, ?_, by rw [g1, g4]⟩⟩
    · rw [e1, g2, List.reverse_cons, views_append]
      simp [Verif.Toml.views, k1]
    · intro hl
      have := (resolve_ty k1).2.1.1 hl
      rw [g5] at this; cases this
  · have hr1 := hN.rest
    rw [hr] at hr1
    rw [hG1.pk_eof (List.append_eq_nil_iff.1 hr1.symm).2, hG1.eofTy] at h2
    cases h2
  · obtain ⟨a, m, hm⟩ := List.append_of_mem g1
    refine ⟨a, (.punct '{', posOf x') :: m, Verif.Toml.views E u, v, _, r, ?_, hle, hvc, hvl, hlu,
      .inr ⟨posOf x', rfl, ?_, ?_⟩⟩
    · rw [e1, hm]
    · rw [g4]
      have hp : (posOf x').plus 1 = posOf (x' ++ ['{']) := by
        rw [posOf_plus (by decide)]; rfl
      rw [hp]
      obtain ⟨z, rfl⟩ := g2
      exact posOf_mono _ _
    · intro hc
      have hun : u = [] := by
        cases u with
        | nil => rfl
        | cons t u' =>
          obtain ⟨y, z, hy⟩ : ∃ y z, TokAt E t y z := by
            have := hN.seg
            cases this with
            | cons _ h _ => exact ⟨_, _, h⟩
          obtain ⟨w, k1, -⟩ := hy.view
          simp [Verif.Toml.views, k1] at hc
      subst hun
      have hpk : pk E s1 = pk E s := by
        have := hN.rest
        unfold pk; rw [this]; rfl
      rintro rfl
      exact g5 (by rw [← hpk]; exact e2.cr.1 rfl)

/-- Consuming tokens does not add brackets. -/
theorem Nw.openToks_le (h : Nw E toks es0 pre s u p1 s1) : openToks s1.rest ≤ openToks s.rest := by
  rw [h.rest, openToks_append]; omega

theorem openToks_adv (hr : s.rest = pk E s :: s.adv.rest)
    (h : (pk E s).ty = .squareLeft ∨ (pk E s).ty = .curlyLeft) :
    openToks s.rest = openToks s.adv.rest + 1 := by
  have e : s.rest = [pk E s] ++ s.adv.rest := hr
  rw [e, openToks_append]
  have : openToks [pk E s] = 1 := by
    rcases h with h | h <;> simp [openToks, h]
  omega

/-- A key that is followed neither by `=` nor by a dot. -/
theorem Good.eqOrDot (hG : Good E toks es0 pre s) {o : Option View} {sp : Span} {f : Str}
    (k1 : NextIs E.input (Verif.Toml.views E toks) (Verif.Toml.views E s.done.reverse) o sp)
    (k2 : Kin (pk E s).ty o) (k3 : Called o f) (hlk : s.LastKey) (h1 : (pk E s).ty ≠ .equal)
    (h2 : (pk E s).ty ≠ .dot) :
    Claims E.input (Verif.Toml.views E toks) (.expectedEqOrDotFound f sp) := by
  obtain ⟨t, d, hd, hk⟩ := hlk
  obtain ⟨v, e1, e2⟩ := hG.last hd
  rw [e2] at k1
  exact ⟨_, v, _, o, k1, k3, (resolve_ty e1).1.2 hk, fun h => h1 (k2.eq.1 h), fun h => h2 (k2.dot.1 h)⟩

/-- The limit of nesting. -/
theorem Good.limit (hG : Good E toks es0 pre s) {level : Nat} (hlev : RECURSION_LIMIT ≤ level)
    (h : (pk E s).ty = .squareLeft ∨ (pk E s).ty = .curlyLeft)
    (hn : level + openToks s.rest ≤ openToks toks + 1) :
    Claims E.input (Verif.Toml.views E toks) (.recursionLimitExceeded (pk E s).start) := by
  obtain ⟨v, r, e1, -, e2⟩ := hG.nextSome (by rcases h with h | h <;> rw [h] <;> simp)
  have hc : ∃ c, (c = '[' ∨ c = '{') ∧ v = .punct c := by
    rcases h with h | h
    · exact ⟨'[', .inl rfl, by simpa using e2.sl.2 h⟩
    · exact ⟨'{', .inr rfl, by simpa using e2.cl.2 h⟩
  obtain ⟨c, hc, rfl⟩ := hc
  refine ⟨_, c, r, e1, hc, ?_⟩
  rw [opens_views]
  have := congrArg openToks hG.all
  rw [openToks_append] at this
  unfold RECURSION_LIMIT at hlev
  omega

/-! ## Arrays -/

/-- The values of an array behind the bracket at the end of `lp`. -/
structure ArrInv (E : Env) (lp p : Str) (s : PS) (st : ArrSt) : Prop where
  com : RangeIn s.storage.length st.comments
  pre : lp <+: p
  val : ∀ v ∈ st.values, RangeIn s.storage.length v.comments ∧
    (∀ c, v.comma = some c → CharAt E.input c ',') ∧ ValueAt E.input s.storage.length v.val
  run : ∃ b, InOrder lp (valsPlaces st.values) b ∧ b <+: p ∧ (st.values = [] → b = lp) ∧
    ∀ v, st.values.getLast? = some v → v.end = posOf b

theorem ArrInv.mono {lp p p' : Str} {s s' : PS} {st : ArrSt} (h : ArrInv E lp p s st)
    (hp : p <+: p') (hs : s.storage.length ≤ s'.storage.length) : ArrInv E lp p' s' st := by
  refine ⟨h.com.mono hs, h.pre.trans hp, fun v hv => ?_, ?_⟩
  · obtain ⟨a, b, c⟩ := h.val v hv
    exact ⟨a.mono hs, b, c.mono hs⟩
  · obtain ⟨b, h1, h2, h3⟩ := h.run
    exact ⟨b, h1, h2.trans hp, h3⟩

theorem arrayStop_of {t : TokenType} (h : arrayStop t = true) (h1 : t ≠ .squareRight) (h2 : t ≠ .eof) :
    t = .comma ∨ t = .newline ∨ ∃ id, t = .comment id := by
  cases t <;> simp_all [arrayStop]

theorem arrayRecover_post {lp : Str} {st : ArrSt} (hG : Good E toks es0 pre s)
    (hI : ArrInv E lp pre s st) : Sat P (arrayRecover E st s) (fun r s' => ∃ u p',
      Nw E toks es0 pre s u p' s' ∧ ArrInv E lp p' s' st ∧
      (r = .break st ∧ ((pk E s').ty = .squareRight ∨ (pk E s').ty = .eof) ∨
        (r = .continue st ∧ s'.rest.length < s.rest.length))) := by
  unfold arrayRecover
  refine Sat.bind (recoverOn_post rfl hG) ?_
  rintro _ s1 ⟨u, p1, g1, g2, g3, g4, g5⟩
  rw [bind_peek]
  have hI1 : ArrInv E lp p1 s1 st := hI.mono g1.seg.prefix g1.stor
  generalize he : (pk E s1).ty = ty
  split
  · exact Sat.pure ⟨u, p1, g1, hI1, .inl ⟨rfl, .inl he⟩⟩
  · exact Sat.pure ⟨u, p1, g1, hI1, .inl ⟨rfl, .inr he⟩⟩
  · rename_i hn1 hn2
    rw [bind_next]
    obtain ⟨g, y, h1, h2, h3, h4⟩ := g1.good.adv' (by rw [he]; exact hn2)
    refine Sat.pure ⟨_, _, g1.trans h4.toNw, hI1.mono h4.seg.prefix h4.stor, .inr ⟨rfl, ?_⟩⟩
    have := (g1.trans h4.toNw).len
    simp at this; omega

theorem arrayAfterValue_post {lp p0 : Str} {s0 : PS} {st : ArrSt} {val : Value} {level : Nat}
    (hG : Good E toks es0 pre s) (hI : ArrInv E lp p0 s0 st) (hp0 : p0 <+: pre)
    (hs0 : s0.storage.length ≤ s.storage.length) (hv : VP E p0 pre s.storage.length val)
    (hE : Ended E pre s val.stop) :
    Sat P (arrayAfterValue E level st val s) (fun r s' => ∃ u p', Nx E toks es0 pre s u p' s' [] ∧
      ∃ st', (r = .continue st' ∨ r = .break st' ∧ ((pk E s').ty = .squareRight ∨ (pk E s').ty = .eof)) ∧
        ArrInv E lp p' s' st') := by
  have hval : ∀ {n : Nat}, s.storage.length ≤ n → ValueAt E.input n val := fun hn => hv.val.mono hn
  obtain ⟨-, va, vb, v1, v2, v3, v4⟩ := hv
  have hstop : val.stop = posOf vb := by rw [Value.stop_span, v4]
  unfold arrayAfterValue
  refine Sat.bind (markCommentsAbove_post hG) ?_
  rintro r1 s1 ⟨a1, a2, a3, a4⟩
  refine Sat.bind (lineEndComment_post a1.good a2) ?_
  rintro r2 s2 ⟨u2, q2, b1, b2, b3, b4, b5⟩
  rw [bind_budget]
  have ab := a1.trans b1
  refine Sat.bind (containedComments_post _ b1.good (Nat.lt_succ_self _) ((hI.com.mono hs0).mono ab.stor)) ?_
  rintro r3 s3 ⟨u3, q3, c1, c2, c3, c4, ⟨c5, c6⟩, c7⟩
  have abc := ab.trans c1
  rw [bind_peek]
  have hI3 : ArrInv E lp q3 s3 st := hI.mono (hp0.trans abc.seg.prefix) (Nat.le_trans hs0 abc.stor)
  have hdone : ∀ {p' : Str} {s' : PS} {rr : CommentRange}, q3 <+: p' →
      s3.storage.length ≤ s'.storage.length → RangeIn s'.storage.length rr →
      ∀ {cm : Option Pos}, (∀ c, cm = some c → CharAt E.input c ',' ∧ ∃ x, q3 <+: x ∧ x ++ [','] <+: p' ∧
        c = posOf x) →
      ArrInv E lp p' s' ⟨r3, st.values ++ [⟨rr, val, cm⟩]⟩ := by
    intro p' s' rr hp hs hr cm hcm
    have hI' := hI3.mono hp hs
    refine ⟨c2.mono hs, hI'.pre, fun v hv => ?_, ?_⟩
    · rcases List.mem_append.1 hv with hv | hv
      · exact hI'.val v hv
      · rw [List.mem_singleton] at hv
        subst hv
        exact ⟨hr, fun c hc => (hcm c hc).1, hval (Nat.le_trans abc.stor hs)⟩
    · obtain ⟨b, r1, r2, -⟩ := hI.run
      have hrun : InOrder lp (valsPlaces st.values ++ valPlaces val) vb := r1.append (v2.from_ (r2.trans v1))
      simp only [valsPlaces_append, valsPlaces_one, ← List.append_assoc]
      cases cm with
      | none =>
        refine ⟨vb, by simpa [optPlace] using hrun, v3.trans (abc.seg.prefix.trans hp), by simp, ?_⟩
        intro v hv
        rw [List.getLast?_concat] at hv
        cases hv
        exact hstop
      | some c =>
        obtain ⟨-, x, x1, x2, x3⟩ := hcm c rfl
        refine ⟨x ++ [','], hrun.append (.char (by decide) (by decide) x3
          (v3.trans (abc.seg.prefix.trans x1)) (List.prefix_refl _)), x2, by simp, ?_⟩
        intro v hv
        rw [List.getLast?_concat] at hv
        cases hv
        show c.plus 1 = _
        rw [posOf_plus (by decide), x3]
        rfl
  generalize he : (pk E s3).ty = ty
  split
  · rename_i hcm
    rw [bind_nextId]
    have hr2 : r2.start ≤ s3.storage.length := by
      have := b2; have := c1.stor; unfold RangeIn at *; omega
    rw [bind_lift _ _ (extendTo_eq hr2)]
    have hrr : RangeIn s3.storage.length ⟨r2.start, s3.storage.length - r2.start, r2.level⟩ := by
      unfold RangeIn; simp only; omega
    refine Sat.bind (markContained_post c1.good hrr) ?_
    rintro _ s4 ⟨d1, d2, d3, d4⟩
    rw [bind_next]
    have hpk : pk E s4 = pk E s3 := by unfold pk; rw [d4]
    obtain ⟨x, y, e1, e2, e3, e4⟩ := d1.good.char (by rw [hpk, he, hcm]; simp) (by rw [hpk, he, hcm]; simp)
    have hy := e2.text
    rw [hpk, he, hcm] at hy
    simp only at hy
    subst hy
    refine Sat.bind (lineEndComment_post e3.good ((hrr.mono d1.stor).mono e3.stor)) ?_
    rintro r5 s5 ⟨u5, q5, f1, f2, f3, f4, -⟩
    refine Sat.pure ⟨_, q5, ((abc.trans d1).trans e3).trans f1, _, .inl rfl,
      hdone (e1.trans ((List.prefix_append _ _).trans f1.seg.prefix))
        (Nat.le_trans d1.stor (Nat.le_trans e3.stor f1.stor)) f2 ?_⟩
    intro c hc
    simp only [Option.some.injEq] at hc
    subst hc
    exact ⟨e2.charAt rfl e3.good.chain.prefix, x, e1, f1.seg.prefix, e2.start⟩
  · rename_i hnc
    split
    · rename_i hstp
      exact Sat.pure ⟨_, q3, abc, _, .inr ⟨rfl, by rw [he]; exact hstp⟩, hdone (List.prefix_refl _) (Nat.le_refl _)
        (b2.mono c1.stor) (by simp)⟩
    · rename_i hstp
      rw [bind_error]
      have hloc : Loc E toks (.missingComma val.stop) := by
        rw [hstop] at hE ⊢
        refine hG.missingComma abc.toNw hE ?_ v3 (by rw [he]; exact hnc) ?_
        · intro t ht
          simp only [List.nil_append, List.mem_append] at ht
          exact ht.elim (b5 t) (c7 t)
        rw [he] at c5 c6 ⊢
        unfold endsLine
        split
        · exact absurd rfl c6
        · exact absurd rfl (c5 _)
        · exact absurd (.inr rfl) hstp
        · rfl
      have g := c1.good.err (h := []) hloc
      exact Sat.pure ⟨_, q3, abc.trans g, _, .inl rfl, hdone (List.prefix_refl _) g.stor
        ((b2.mono c1.stor).mono g.stor) (by simp)⟩

/-- Behind the loop over an array. -/
def ArrEnd (E : Env) (lp p : Str) (s : PS) (st : ArrSt) : Prop :=
  ArrInv E lp p s st ∧ ((pk E s).ty = .squareRight ∨ (pk E s).ty = .eof)

theorem arrayRound_post {elem : M (Except Error Value)} {lp : Str} {st : ArrSt} {level k : Nat}
    (helem : ∀ {pre : Str} {s : PS}, Good E toks es0 pre s → openToks s.rest ≤ k →
      Sat P (elem s) (ValPost E toks es0 pre s))
    (hG : Good E toks es0 pre s) (hI : ArrInv E lp pre s st) (hk : openToks s.rest ≤ k) :
    Sat P (arrayRound E elem level st s) (RoundPost E toks es0 pre s (ArrInv E lp) (ArrEnd E lp)) := by
  unfold arrayRound
  rw [bind_budget]
  refine Sat.bind (containedComments_post _ hG (Nat.lt_succ_self _) hI.com) ?_
  rintro r1 s1 ⟨u1, q1, a1, a2, a3, a4, -⟩
  have hI1 : ArrInv E lp q1 s1 ⟨r1, st.values⟩ :=
    have := hI.mono a1.seg.prefix a1.stor
    ⟨a2, this.pre, this.val, this.run⟩
  simp only []
  rw [bind_peek]
  split
  · rename_i hst
    exact Sat.pure (Q := RoundPost E toks es0 pre s (ArrInv E lp) (ArrEnd E lp)) ⟨u1, q1, a1, hI1, hst⟩
  · refine Sat.bind (helem a1.good (Nat.le_trans a1.toNw.openToks_le hk)) ?_
    rintro res s2 hr
    split
    · rename_i val
      obtain ⟨u2, q2, b1, b2, b3, -, b4⟩ := hr
      refine (arrayAfterValue_post b1.good hI1 b1.seg.prefix b1.stor b2 b4).mono ?_
      rintro r s3 ⟨u3, q3, c1, st', c2, c3⟩
      have hN := (a1.trans b1).trans c1
      rcases c2 with rfl | ⟨rfl, c2⟩
      · refine ⟨_, _, hN, c3, ?_⟩
        have l1 := a1.toNw.len
        have l3 := c1.toNw.len
        omega
      · exact ⟨_, _, hN, c3, c2⟩
    · rename_i p
      obtain ⟨u2, q2, b1, b2, b3⟩ := hr
      refine Sat.pure (Q := RoundPost E toks es0 pre s (ArrInv E lp) (ArrEnd E lp))
        ⟨_, _, a1.toNw.trans b1, b2, ?_⟩
      rcases b3 with b3 | ⟨-, b3⟩
      · exact b3
      · exact absurd rfl (b3 p)
    · rename_i e _
      obtain ⟨u2, q2, b1, b2, -⟩ := hr
      rw [bind_error]
      have hI2 := hI1.mono b1.seg.prefix b1.stor
      have g := b1.good.err (h := []) b2
      refine (arrayRecover_post g.good (hI2.mono (List.prefix_refl _) g.stor)).mono ?_
      rintro r s3 ⟨u3, q3, c1, c2, c3⟩
      have hN := (a1.toNw.trans b1).err_then (h := []) b2 c1
      rcases c3 with ⟨rfl, c3⟩ | ⟨rfl, c3⟩
      · exact ⟨_, _, hN, c2, c3⟩
      · refine ⟨_, _, hN, c2, ?_⟩
        have l1 := a1.toNw.len
        have l2 := b1.len
        have : (s2.err e).rest = s2.rest := rfl
        rw [this] at c3
        omega

theorem arrayClose_post {lPar : Pos} (hG : Good E toks es0 pre s)
    (hL : CharAt E.input lPar '[') (hM : (.punct '[', lPar) ∈ views E s.done.reverse)
    (hJ : (pk E s).ty = .squareRight ∨ (pk E s).ty = .eof) :
    Sat P (arrayClose E lPar s) (fun o s' => ∃ u p', Nx E toks es0 pre s u p' s' [] ∧
      s'.storage = s.storage ∧ (s'.rest = [] ∨ s'.LastNot) ∧
      (∀ p, o = some p → (∃ x, pre <+: x ∧ p' = x ++ [']'] ∧ p = posOf x) ∧ LastAt E p' s') ∧
      (o = none → s'.rest = [])) := by
  unfold arrayClose
  rw [bind_peek]
  generalize he : (pk E s).ty = ty
  split
  · rename_i hcm
    rw [bind_next]
    obtain ⟨x, y, e1, e2, e3, e4⟩ := hG.char (by rw [he, hcm]; simp) (by rw [he, hcm]; simp)
    have hy := e2.text
    rw [he, hcm] at hy
    simp only at hy
    subst hy
    have hno : ∀ t ∈ [pk E s], endsLine t.ty = false := by
      intro t ht
      rw [List.mem_singleton] at ht
      rw [ht, he, hcm]; rfl
    refine Sat.pure ⟨_, _, e3, s.adv_storage, .inr (e3.toNw.lastNot_of hG (by simp) hno), ?_, by simp⟩
    intro p hp
    simp only [Option.some.injEq] at hp
    subst hp
    exact ⟨⟨x, e1, rfl, e2.start⟩, e3.toNw.lastAt hG (by simp) hno⟩
  · rename_i hnr
    obtain ⟨f, sp, f1, ⟨ov, ⟨k1, k2, -⟩, k3⟩, f2⟩ := hG.fmt (β := Option Pos)
    rw [f2]
    simp only []
    rw [bind_peekPrev, bind_error]
    have heof : (pk E s).ty = .eof := by
      rcases hJ with h | h
      · rw [he] at h; exact absurd h hnr
      · exact h
    obtain rfl := k2.eof.2 heof
    have hrest : s.rest = [] := by
      cases hr : s.rest with
      | nil => rfl
      | cons t ts =>
        obtain ⟨g, y, h1, h2, h3, h4⟩ := hG.adv hr
        have := h2.text
        rw [← h3, heof] at this
        exact this.elim
    have hloc : ∀ sp', SpanIn E.input sp' → (sp' = sp ∨ ∃ q, (views E s.done.reverse).getLast? =
        some (.newline, q) ∧ sp' = ⟨q, q⟩) → Loc E toks (.expectedRightSquareFound f lPar sp') :=
      fun sp' h h' => ⟨h, hL, _, none, sp, k1, k3, hM, by simp, .inl ⟨rfl, h'⟩⟩
    refine Sat.pure ⟨_, _, hG.err (hloc _ ?_ ?_), rfl, .inl hrest, by simp, fun _ => hrest⟩
    · split
      · rename_i p hp
        split
        · obtain ⟨⟨a, b, h1, h2⟩, -⟩ := hG.done p (List.mem_of_mem_head? hp)
          rw [h2]
          exact spanIn_of (List.prefix_refl _) ⟨b, h1.symm⟩
        · exact f1
      · exact f1
    · split
      · rename_i p hp
        split
        · rename_i hnl
          cases hd : s.done with
          | nil => rw [hd] at hp; cases hp
          | cons t d =>
            rw [hd] at hp
            simp only [List.head?_cons, Option.some.injEq] at hp
            subst hp
            obtain ⟨v, h1, h2⟩ := hG.last hd
            have := (resolve_ty h1).2.2.2.2.2.2.2.2.2.2 hnl.2
            subst this
            refine .inr ⟨t.start, ?_, rfl⟩
            rw [← hd, h2, List.getLast?_concat]
        · exact .inl rfl
      · exact .inl rfl

/-- The end of a value with brackets. -/
theorem endOf_at {x0 p p' : Str} {l r : Char} (hl : l ≠ '\n') (hr : r ≠ '\n') (hl1 : l.utf8Size = 1)
    (hr1 : r.utf8Size = 1) {o last : Option Pos} (hp : p' <+: E.input) (hpp : p <+: p')
    (hx : x0 ++ [l] <+: p) (ho : ∀ q, o = some q → ∃ x, p <+: x ∧ p' = x ++ [r] ∧ q = posOf x)
    {b0 : Str} {L : List Span} (hrun : InOrder (x0 ++ [l]) L b0) (hb0 : b0 <+: p)
    (hnone : last = none → b0 = x0 ++ [l]) (hlast : ∀ q, last = some q → q = posOf b0) :
    EndAt E.input r (endOf (posOf x0) o last) ∧
      ∃ b, x0 ++ [l] <+: b ∧ b <+: p' ∧ (endOf (posOf x0) o last).endPos = posOf b ∧
        InOrder x0 (Span.asciiChar (posOf x0) :: L ++ [endPlace (endOf (posOf x0) o last)]) b := by
  have hrun' : InOrder x0 (Span.asciiChar (posOf x0) :: L) b0 :=
    InOrder.append (l := [_]) (.char hl hl1 rfl (List.prefix_refl _) (List.prefix_refl _)) hrun
  have hpl : ∀ (x : Str) (c : Char), c ≠ '\n' → c.utf8Size = 1 → (posOf x).plus 1 = posOf (x ++ [c]) := by
    intro x c hc h1
    rw [posOf_plus (by simpa using hc.symm)]
    congr 1
    show 1 = c.utf8Size + 0
    omega
  cases o with
  | some q =>
    obtain ⟨x, h1, h2, rfl⟩ := ho q rfl
    obtain ⟨z, hz⟩ := hp
    refine ⟨.par ⟨x, z, by rw [← hz, h2]; simp, rfl⟩, p', hx.trans hpp, List.prefix_refl _, ?_, ?_⟩
    · show (posOf x).plus 1 = _
      rw [h2, hpl x r hr hr1]
    · exact hrun'.append (.char hr hr1 rfl (hb0.trans h1) (by rw [h2]; exact List.prefix_refl _))
  | none =>
    cases last with
    | some q =>
      obtain rfl := hlast q rfl
      exact ⟨.none (seg_posIn hb0 (hpp.trans hp)), b0, hrun.prefix, hb0.trans hpp, rfl,
        hrun'.append (.one (List.prefix_refl _) (List.prefix_refl _) (List.prefix_refl _))⟩
    | none =>
      have e : (posOf x0).plus 1 = posOf (x0 ++ [l]) := hpl x0 l hl hl1
      obtain rfl := hnone rfl
      refine ⟨.none ?_, x0 ++ [l], List.prefix_refl _, hx.trans hpp, e, ?_⟩
      · show PosIn E.input ((posOf x0).plus 1)
        rw [e]
        exact seg_posIn hx (hpp.trans hp)
      · refine hrun'.append (.one' (x := x0 ++ [l]) (y := x0 ++ [l]) ?_ (List.prefix_refl _) (List.prefix_refl _) (List.prefix_refl _))
        show Span.ofPos ((posOf x0).plus 1) = _
        rw [e]; rfl

theorem parseArray_post {elem : M (Except Error Value)} {level : Nat}
    (helem : level < RECURSION_LIMIT → ∀ {pre : Str} {s1 : PS}, Good E toks es0 pre s1 →
      openToks s1.rest < openToks s.rest → Sat P (elem s1) (ValPost E toks es0 pre s1))
    (hG : Good E toks es0 pre s) (he : (pk E s).ty = .squareLeft)
    (hn : level + openToks s.rest ≤ openToks toks + 1) :
    Sat P (parseArray E elem level (pk E s).start s) (ValPost E toks es0 pre s) := by
  obtain ⟨x, y, e1, e2, e3, e4⟩ := hG.char (by rw [he]; simp) (by rw [he]; simp)
  have hy := e2.text
  rw [he] at hy
  simp only at hy
  subst hy
  have hchar := e2.charAt rfl e3.good.chain.prefix
  have hsr : s.rest = pk E s :: s.adv.rest := e3.rest
  have hopen := openToks_adv hsr (.inl he)
  obtain ⟨v, b, w1, w2, w3⟩ := hG.nextSome (by rw [he]; simp)
  have hv := w3.sl.2 he
  simp only [Option.some.injEq] at hv
  subst hv
  have hM : (View.punct '[', (pk E s).start) ∈ views E s.adv.done.reverse :=
    e3.good.mem_done (by rw [adv_done hsr]; simp) w2
  unfold parseArray
  rw [bind_next]
  split
  · rename_i hlev
    refine Sat.bind (jumpToEnd_post e3.good) ?_
    rintro _ s1 ⟨u1, q1, a1, a2, a3⟩
    refine Sat.pure (Q := ValPost E toks es0 pre s) ⟨_, _, e3.toNw.trans a1,
      ⟨?_, trivial, hG.limit hlev (.inl he) hn⟩, .inl a3⟩
    show SpanIn E.input (Span.asciiChar (pk E s).start)
    rw [e2.start]
    have := posOf_plus (x := x) (y := ['[']) (by decide)
    have e : Span.asciiChar (posOf x) = ⟨posOf x, posOf (x ++ ['['])⟩ := by rw [this]; rfl
    rw [e]
    exact spanIn_of (List.prefix_append _ _) e3.good.chain.prefix
  · rename_i hlev
    rw [bind_nextId]
    refine Sat.bind (lineEndComment_post e3.good (r := ⟨_, 0, level⟩) (by unfold RangeIn; simp)) ?_
    rintro r1 s1 ⟨u1, q1, a1, a2, a3, a4, -⟩
    rw [bind_budget]
    have hI0 : ArrInv E (x ++ ['[']) q1 s1 ⟨r1, []⟩ := ⟨a2, a1.seg.prefix, by simp, _, .refl, a1.seg.prefix, by simp, by simp⟩
    refine Sat.bind (loopM_post
      (I := fun p s1 st => ArrInv E (x ++ ['[']) p s1 st ∧ openToks s1.rest ≤ openToks s.adv.rest)
      (J := ArrEnd E (x ++ ['[']))
      (fun hG hI => (arrayRound_post (fun hG hk => helem (by omega) hG (by omega)) hG hI.1 hI.2).mono
        fun _ _ h => h.rest (K := fun r => openToks r ≤ openToks s.adv.rest)
          (fun u v h => by rw [openToks_append] at h; omega) hI.2) _ a1.good
      ⟨hI0, a1.toNw.openToks_le⟩ (Nat.lt_succ_self _)) ?_
    rintro (e | st) s2 ⟨hr, hz⟩
    · obtain ⟨u2, q2, b1, b2, -⟩ := hr
      exact Sat.pure (Q := ValPost E toks es0 pre s) ⟨_, _, (e3.trans a1).toNw.trans b1, b2,
        .inl (hz e rfl)⟩
    · obtain ⟨u2, q2, b1, b2, bJ⟩ := hr
      simp only []
      refine Sat.bind (arrayClose_post b1.good hchar ((a1.trans b1).toNw.mem_views e3.good hM) bJ) ?_
      rintro o s3 ⟨u3, q3, c1, c2, cL, c3, c4⟩
      rw [bind_nextId]
      have hb : RangeIn s3.storage.length st.comments := b2.com.mono c1.stor
      have hs : st.comments.start ≤ s3.storage.length := by unfold RangeIn at hb; omega
      rw [bind_lift _ _ (extendTo_eq hs)]
      have hrr : RangeIn s3.storage.length
          ⟨st.comments.start, s3.storage.length - st.comments.start, st.comments.level⟩ := by
        unfold RangeIn; simp only; omega
      refine Sat.bind (markContained_post c1.good hrr) ?_
      rintro _ s4 ⟨d1, d2, d3, d4⟩
      have hN := (((e3.trans a1).trans b1).trans c1).trans d1
      obtain ⟨b0, r1, r2, r3, r4⟩ := b2.run
      have hlast : ∀ q, st.values.getLast?.map (·.end) = some q → q = posOf b0 := by
        intro q hq
        obtain ⟨v, hv, rfl⟩ := Option.map_eq_some_iff.1 hq
        exact r4 v hv
      obtain ⟨E1, b, f1, f2, f3, f4⟩ := endOf_at (E := E) (by decide) (by decide) (by decide) (by decide)
        c1.good.chain.prefix c1.seg.prefix b2.pre (fun p hp => (c3 p hp).1) r1 r2
        (fun hn => r3 (List.getLast?_eq_none_iff.1 (by simpa using hn))) hlast
      rw [← e2.start] at E1 f3 f4
      refine Sat.pure (Q := ValPost E toks es0 pre s) ⟨_, _, hN, ?_, ?_⟩
      · have hsp : SpanIn E.input ⟨(pk E s).start, (endOf (pk E s).start o
            (st.values.getLast?.map (·.end))).endPos⟩ := by
          rw [f3, e2.start]
          exact spanIn_of ((List.prefix_append _ _).trans f1) (f2.trans c1.good.chain.prefix)
        refine ⟨.inlineArray hchar E1 hsp (hrr.mono d1.stor) ?_ ?_, x, b, e1,
          by simpa only [valPlaces] using f4, f2.trans d1.seg.prefix, ?_⟩
        · intro v hv
          obtain ⟨g1, g2, -⟩ := b2.val v hv
          exact ⟨(g1.mono c1.stor).mono d1.stor, g2⟩
        · intro v hv
          exact (((b2.val v hv).2.2).mono c1.stor).mono d1.stor
        · show (⟨_, _⟩ : Span) = _
          rw [f3, e2.start]
      · refine ⟨?_, ?_, ?_⟩
        · have := hN.toNw.len
          simp at this; omega
        · rw [d4]
          refine cL.imp id fun hl => d1.toNw.lastNot c1.good hl (by simp)
        · cases o with
          | none => exact .inr (.inl (by rw [d4]; exact c4 rfl))
          | some q =>
            obtain ⟨⟨x', -, h1, h2⟩, t, d, x2, y2, g1, g2⟩ := c3 q rfl
            refine .inl ⟨?_, t, d, x2, y2, by rw [d1.toNw.done_eq' c1.good, ← g1]; rfl, g2⟩
            show q.plus 1 = _
            rw [h1, h2, posOf_plus (by decide)]
            rfl

/-! ## Inline tables -/

theorem _root_.Verif.Spec.Toml.CharAt.spanIn {input : Str} {p : Pos} {c : Char} (h : CharAt input p c)
    (hc : c ≠ '\n') (h1 : c.utf8Size = 1) : SpanIn input (Span.asciiChar p) := by
  obtain ⟨x, z, h2, rfl⟩ := h
  have e : Span.asciiChar (posOf x) = ⟨posOf x, posOf (x ++ [c])⟩ := by
    rw [posOf_plus (by simpa using hc.symm)]
    show Span.mk _ _ = Span.mk _ _
    congr 2
    show 1 = c.utf8Size + 0
    omega
  rw [e]
  exact spanIn_of (List.prefix_append _ _) ⟨z, by rw [h2]; simp⟩

/-- The assignments of an inline table behind the bracket at the end of `lp`. -/
structure TabInv (E : Env) (lp p : Str) (s : PS) (st : TabSt) : Prop where
  pre : lp <+: p
  com : ∀ c, st.comma = some c → CharAt E.input c ','
  val : ∀ a ∈ st.assignments, KeyAt E.input a.assignment.key ∧ CharAt E.input a.assignment.eq '=' ∧
    (∀ c, a.comma = some c → CharAt E.input c ',') ∧
    ValueAt E.input s.storage.length a.assignment.val
  run : ∃ b, InOrder lp (pairsPlaces st.assignments) b ∧ b <+: p ∧ (st.assignments = [] → b = lp) ∧
    ∀ v, st.assignments.getLast? = some v → v.end = posOf b

theorem TabInv.mono {lp p p' : Str} {s s' : PS} {st : TabSt} (h : TabInv E lp p s st)
    (hp : p <+: p') (hs : s.storage.length ≤ s'.storage.length) : TabInv E lp p' s' st := by
  refine ⟨h.pre.trans hp, h.com, fun v hv => ?_, ?_⟩
  · obtain ⟨a, b, c, d⟩ := h.val v hv
    exact ⟨a, b, c, d.mono hs⟩
  · obtain ⟨b, h1, h2, h3⟩ := h.run
    exact ⟨b, h1, h2.trans hp, h3⟩

/-- In the loop over an inline table. -/
structure TabMid (E : Env) (lp p : Str) (s : PS) (st : TabSt) : Prop extends TabInv E lp p s st where
  last : s.LastNot
  comma : ∀ c, st.comma = some c → (.punct ',', c) ∈ views E s.done.reverse ∧
    ∃ t d, s.done = t :: d ∧ t.ty = .comma

/-- Behind the loop over an inline table. -/
def TabEnd (E : Env) (lp p : Str) (s : PS) (st : TabSt) : Prop :=
  TabInv E lp p s st ∧ (s.rest = [] ∨ s.LastNot)

theorem tableRecover_post {lp : Str} {st : TabSt} (hG : Good E toks es0 pre s)
    (hI : TabInv E lp pre s st) (hl : s.rest = [] ∨ s.LastNot)
    (hc : ∀ c, st.comma = some c → (.punct ',', c) ∈ views E s.done.reverse) :
    Sat P (tableRecover E st s) (fun r s' => ∃ u p', Nw E toks es0 pre s u p' s' ∧
      (r = .break st ∧ TabEnd E lp p' s' st ∨
        (r = .continue st ∧ TabMid E lp p' s' st ∧ s'.rest.length < s.rest.length))) := by
  unfold tableRecover
  refine Sat.bind (recoverOn_post rfl hG) ?_
  rintro _ s1 ⟨u, p1, g1, g2, g3, g4, g5⟩
  rw [bind_peek]
  have hI1 : TabInv E lp p1 s1 st := hI.mono g1.seg.prefix g1.stor
  generalize he : (pk E s1).ty = ty
  split
  · rename_i hc'
    rw [bind_next]
    obtain ⟨g, y, h1, h2, h3, h4⟩ := g1.good.adv' (by rw [he, hc']; simp)
    refine Sat.pure ⟨_, _, g1.trans h4.toNw, .inr ⟨rfl, ⟨hI1.mono h4.seg.prefix h4.stor, ?_, ?_⟩, ?_⟩⟩
    · exact ⟨_, _, adv_done h3, by rw [he, hc']; simp⟩
    · intro c hcc
      exact ⟨(g1.trans h4.toNw).mem_views hG (hc c hcc), _, _, adv_done h3, by rw [he, hc']⟩
    · have := (g1.trans h4.toNw).len
      simp at this; omega
  · refine Sat.pure ⟨u, p1, g1, .inl ⟨rfl, hI1, ?_⟩⟩
    rcases hl with hl | hl
    · have := g1.rest
      rw [hl] at this
      exact .inl (List.append_eq_nil_iff.1 this.symm).2
    · refine .inr (g1.lastNot hG hl fun t ht => ?_)
      have := g5 t ht
      cases hty : t.ty <;> rw [hty] at this <;> first | rfl | cases this

theorem tableAfterValue_post {lp p0 pk0 peq : Str} {s0 : PS} {st : TabSt} {a : Assignment}
    (hG : Good E toks es0 pre s) (hI : TabInv E lp p0 s0 st) (hp0 : p0 <+: pre)
    (hs0 : s0.storage.length ≤ s.storage.length) (hk : KeyAt E.input a.key)
    (hkr : InOrder p0 (keyPlaces a.key) pk0) (hpe : pk0 <+: peq) (heqp : a.eq = posOf peq)
    (heq : CharAt E.input a.eq '=') (hv : VP E (peq ++ ['=']) pre s.storage.length a.val)
    (hl : s.rest = [] ∨ s.LastNot) (hE : Ended E pre s a.val.stop) :
    Sat P (tableAfterValue E st a s) (fun r s' => ∃ u p', Nx E toks es0 pre s u p' s' [] ∧
      ∃ st', r = .continue st' ∧ TabMid E lp p' s' st' ∨ r = .break st' ∧ TabEnd E lp p' s' st') := by
  have hval : ∀ {n : Nat}, s.storage.length ≤ n → ValueAt E.input n a.val := fun hn => hv.val.mono hn
  obtain ⟨-, va, vb, v1, v2, v3, v4⟩ := hv
  have hstop : a.val.stop = posOf vb := by rw [Value.stop_span, v4]
  unfold tableAfterValue
  rw [bind_peek]
  have hdone : ∀ {p' : Str} {s' : PS}, pre <+: p' → s.storage.length ≤ s'.storage.length →
      ∀ {cm cm' : Option Pos}, (∀ c, cm = some c → CharAt E.input c ',' ∧
        ∃ x, pre <+: x ∧ x ++ [','] <+: p' ∧ c = posOf x) →
      (∀ c, cm' = some c → CharAt E.input c ',') →
      TabInv E lp p' s' ⟨st.assignments ++ [⟨a, cm⟩], cm'⟩ := by
    intro p' s' hp hs cm cm' hcm hcm'
    have hI' := hI.mono (hp0.trans hp) (Nat.le_trans hs0 hs)
    refine ⟨hI'.pre, hcm', fun v hv => ?_, ?_⟩
    · rcases List.mem_append.1 hv with hv | hv
      · exact hI'.val v hv
      · rw [List.mem_singleton] at hv
        subst hv
        exact ⟨hk, heq, fun c hc => (hcm c hc).1, hval hs⟩
    · obtain ⟨b, r1, r2, -⟩ := hI.run
      have hrun : InOrder lp (pairsPlaces st.assignments ++ (keyPlaces a.key ++ [Span.asciiChar a.eq] ++
          valPlaces a.val)) vb :=
        r1.append (((hkr.from_ r2).append (.char (by decide) (by decide) heqp hpe
          (List.prefix_refl _))).append (v2.from_ v1))
      obtain ⟨k, q, w⟩ := a
      simp only [pairsPlaces_append, pairsPlaces_one, ← List.append_assoc] at hrun ⊢
      cases cm with
      | none =>
        refine ⟨vb, by simpa [optPlace] using hrun, v3.trans hp, by simp, ?_⟩
        intro v hv
        rw [List.getLast?_concat] at hv
        cases hv
        exact hstop
      | some c =>
        obtain ⟨-, x, x1, x2, x3⟩ := hcm c rfl
        refine ⟨x ++ [','], hrun.append (.char (by decide) (by decide) x3
          (v3.trans x1) (List.prefix_refl _)), x2, by simp, ?_⟩
        intro v hv
        rw [List.getLast?_concat] at hv
        cases hv
        show c.plus 1 = _
        rw [posOf_plus (by decide), x3]
        rfl
  generalize he : (pk E s).ty = ty
  split
  · rename_i hcm
    rw [bind_next]
    obtain ⟨x, y, e1, e2, e3, e4⟩ := hG.char (by rw [he, hcm]; simp) (by rw [he, hcm]; simp)
    have hy := e2.text
    rw [he, hcm] at hy
    simp only at hy
    subst hy
    have hch := e2.charAt rfl e3.good.chain.prefix
    have hsr : s.rest = pk E s :: s.adv.rest := e3.rest
    refine Sat.pure ⟨_, _, e3, _, .inl ⟨rfl, hdone e3.seg.prefix e3.stor ?_ ?_, ?_, ?_⟩⟩
    · intro c hc
      simp only [Option.some.injEq] at hc
      subst hc
      exact ⟨hch, x, e1, List.prefix_refl _, e2.start⟩
    · intro c hc
      simp only [Option.some.injEq] at hc
      subst hc
      exact hch
    · exact ⟨_, _, adv_done hsr, by rw [he, hcm]; simp⟩
    · intro c hc
      simp only [Option.some.injEq] at hc
      subst hc
      refine ⟨?_, _, _, adv_done hsr, by rw [he, hcm]⟩
      obtain ⟨v, b, w1, w2, w3⟩ := hG.nextSome (by rw [he, hcm]; simp)
      have hv := w3.comma.2 (by rw [he, hcm])
      simp only [Option.some.injEq] at hv
      subst hv
      exact e3.good.mem_done (by rw [adv_done hsr]; simp) w2
  · rename_i hnc
    split
    · exact Sat.pure ⟨_, _, Nx.refl hG, _, .inr ⟨rfl, hdone (List.prefix_refl _) (Nat.le_refl _)
        (by simp) hI.com, hl⟩⟩
    · rename_i hte
      rw [bind_error]
      have hel : endsLine (pk E s).ty = false := by
        rw [he]
        cases ty <;> first | rfl | exact absurd rfl hte
      have hloc : Loc E toks (.missingComma a.val.stop) := by
        rw [hstop] at hE ⊢
        exact hG.missingComma (Nx.refl hG).toNw hE (by simp) v3 (by rw [he]; exact hnc) hel
      have g := hG.err (h := []) hloc
      refine Sat.pure ⟨_, _, g, _, .inl ⟨rfl, hdone (List.prefix_refl _) g.stor (by simp) (by simp), ?_, by simp⟩⟩
      rcases hl with hl | hl
      · rw [hG.pk_eof hl, hG.eofTy] at hel; cases hel
      · exact hl

theorem tableAfterKey_post {elem : M (Except Error Value)} {lp p0 : Str} {s0 : PS} {st : TabSt} {key : Key}
    {k : Nat}
    (helem : ∀ {pre : Str} {s : PS}, Good E toks es0 pre s → openToks s.rest ≤ k →
      Sat P (elem s) (ValPost E toks es0 pre s))
    (hG : Good E toks es0 pre s) (hI0 : TabInv E lp p0 s0 st) (hp0 : p0 <+: pre)
    (hs0 : s0.storage.length ≤ s.storage.length) (hk : KeyAt E.input key)
    (hkr : InOrder p0 (keyPlaces key) pre) (hno : openToks s.rest ≤ k) (hlk : s.LastKey)
    (hnd : (pk E s).ty ≠ .dot)
    (hcm : ∀ c, st.comma = some c → (.punct ',', c) ∈ views E s.done.reverse) :
    Sat P (tableAfterKey E elem st key s) (RoundPost E toks es0 pre s (TabMid E lp) (TabEnd E lp)) := by
  have hI := hI0.mono hp0 hs0
  have hrec : ∀ {e : Error} {u : List Token} {q : Str} {s2 : PS}, Nw E toks es0 pre s u q s2 →
      (s2.rest = [] ∨ s2.LastNot) →
      Loc E toks e → Sat P ((do error e; tableRecover E st : M (Round TabSt)) s2)
        (RoundPost E toks es0 pre s (TabMid E lp) (TabEnd E lp)) := by
    intro e u q s2 b1 bl b2
    rw [bind_error]
    have hI2 := hI.mono b1.seg.prefix b1.stor
    have g := b1.good.err (h := []) b2
    refine (tableRecover_post g.good (hI2.mono (List.prefix_refl _) g.stor) bl
      (fun c hc => b1.mem_views hG (hcm c hc))).mono ?_
    rintro r s3 ⟨u3, q3, c1, c2⟩
    have hN := b1.err_then (h := []) b2 c1
    rcases c2 with ⟨rfl, c2⟩ | ⟨rfl, c2, c3⟩
    · exact ⟨_, _, hN, c2⟩
    · refine ⟨_, _, hN, c2, ?_⟩
      have l2 := b1.len
      have : (s2.err e).rest = s2.rest := rfl
      rw [this] at c3
      omega
  unfold tableAfterKey
  rw [bind_peek]
  generalize he : (pk E s).ty = ty
  split
  · rename_i hcm
    rw [bind_next]
    obtain ⟨x, y, e1, e2, e3, e4⟩ := hG.char (by rw [he, hcm]; simp) (by rw [he, hcm]; simp)
    have hy := e2.text
    rw [he, hcm] at hy
    simp only at hy
    subst hy
    have hch := e2.charAt rfl e3.good.chain.prefix
    refine Sat.bind (helem e3.good (Nat.le_trans e3.toNw.openToks_le hno)) ?_
    rintro res s2 hr
    split
    · rename_i val
      obtain ⟨u2, q2, b1, b2, b3, b4, b5⟩ := hr
      refine (tableAfterValue_post (a := ⟨key, (pk E s).start, val⟩) b1.good hI0
        (hp0.trans (e3.seg.prefix.trans b1.seg.prefix))
        (Nat.le_trans hs0 (Nat.le_trans e3.stor b1.stor)) hk hkr e1 e2.start hch b2 b4 b5).mono ?_
      rintro r s3 ⟨u3, q3, c1, st', c2⟩
      have hN := (e3.trans b1).trans c1
      rcases c2 with ⟨rfl, c3⟩ | ⟨rfl, c3⟩
      · refine ⟨_, _, hN, c3, ?_⟩
        have l3 := c1.toNw.len
        omega
      · exact ⟨_, _, hN, c3⟩
    · rename_i p
      obtain ⟨u2, q2, b1, b2, b3⟩ := hr
      refine Sat.pure (Q := RoundPost E toks es0 pre s (TabMid E lp) (TabEnd E lp))
        ⟨_, _, e3.toNw.trans b1, b2, ?_⟩
      rcases b3 with b3 | ⟨-, b3⟩
      · exact b3
      · exact absurd rfl (b3 p)
    · obtain ⟨u2, q2, b1, b2, b3⟩ := hr
      refine hrec (e3.toNw.trans b1) ?_ b2
      refine b3.imp id fun hh => (e3.toNw.trans b1).lastNot_of hG (by simp) fun t ht => ?_
      rcases List.mem_append.1 ht with ht | ht
      · rw [List.mem_singleton] at ht
        rw [ht, he, hcm]; rfl
      · exact hh.1 t ht
  · rename_i hne
    obtain ⟨f, sp, f1, ⟨ov, ⟨k1, k2, -⟩, k3⟩, f2⟩ := hG.fmt (β := Round TabSt)
    rw [f2]
    exact hrec (Nx.refl hG).toNw (.inr hlk.lastNot)
      ⟨f1, trivial, hG.eqOrDot k1 k2 k3 hlk (by rw [he]; exact hne) hnd⟩

theorem tableRound_post {elem : M (Except Error Value)} {lp : Str} {st : TabSt} {k : Nat}
    (helem : ∀ {pre : Str} {s : PS}, Good E toks es0 pre s → openToks s.rest ≤ k →
      Sat P (elem s) (ValPost E toks es0 pre s))
    (hG : Good E toks es0 pre s) (hI : TabMid E lp pre s st) (hno : openToks s.rest ≤ k) :
    Sat P (tableRound E elem st s) (RoundPost E toks es0 pre s (TabMid E lp) (TabEnd E lp)) := by
  unfold tableRound
  rw [bind_peek]
  split
  · rename_i hte
    unfold trailingComma
    cases hc : st.comma with
    | none =>
      exact Sat.pure (Q := RoundPost E toks es0 pre s (TabMid E lp) (TabEnd E lp))
        ⟨[], pre, Nx.refl hG, hI.toTabInv, .inr hI.last⟩
    | some c =>
      simp only []
      rw [bind_error]
      obtain ⟨f, sp, f1, ⟨ov, ⟨k1, k2, -⟩, k3⟩, f2⟩ := hG.fmt (β := Round TabSt)
      obtain ⟨hm, t, d, hd, ht⟩ := hI.comma c hc
      obtain ⟨v, e1, e2⟩ := hG.last hd
      obtain rfl := (resolve_ty e1).2.2.2.2.2.2.2.1.2 ht
      rw [e2] at k1 hm
      have g := hG.err (h := []) (e := .inlineTableTrailingComma c)
        ⟨(hI.com c hc).spanIn (by decide) (by decide), trivial, _, _, ov, sp, k1, ?_, hm⟩
      · exact Sat.pure (Q := RoundPost E toks es0 pre s (TabMid E lp) (TabEnd E lp))
          ⟨_, _, g, hI.toTabInv.mono g.seg.prefix g.stor, .inr hI.last⟩
      · unfold tableEnd at hte
        split at hte
        · rename_i hcr
          exact .inl (k2.cr.2 hcr)
        · exact .inr (k2.line.2 hte)
  · refine Sat.bind (parseKey_post hG) ?_
    rintro res s1 ⟨u1, q1, a1, a2, a3, a4, a5⟩
    have hI1 := hI.toTabInv.mono a1.seg.prefix a1.stor
    have hcm : ∀ c, st.comma = some c → (.punct ',', c) ∈ views E s1.done.reverse :=
      fun c hc => a1.toNw.mem_views hG (hI.comma c hc).1
    split
    · refine (tableAfterKey_post helem a1.good hI.toTabInv a1.seg.prefix a1.stor a3.1 a3.2
        (Nat.le_trans a1.toNw.openToks_le hno) (a4 trivial).2 (a5 _ rfl) hcm).mono ?_
      rintro (st' | st' | e) s2 hr
      · obtain ⟨u2, q2, b1, b2, b3⟩ := hr
        exact ⟨_, _, a1.trans b1, b2, by have := a1.toNw.len; omega⟩
      · obtain ⟨u2, q2, b1, b2⟩ := hr
        exact ⟨_, _, a1.trans b1, b2⟩
      · obtain ⟨u2, q2, b1, b2⟩ := hr
        exact ⟨_, _, a1.toNw.trans b1, b2⟩
    · exact Sat.pure (Q := RoundPost E toks es0 pre s (TabMid E lp) (TabEnd E lp))
        ⟨_, _, a1, hI1, .inr (a4 trivial).2.lastNot⟩
    · rename_i e
      rw [bind_error]
      have g := a1.good.err (h := []) a3
      refine (tableRecover_post g.good (hI1.mono (List.prefix_refl _) g.stor)
        (.inr (show s1.LastNot from a1.toNw.lastNot hG hI.last a2)) hcm).mono ?_
      rintro r s3 ⟨u3, q3, c1, c2⟩
      have hN := a1.toNw.err_then (h := []) a3 c1
      rcases c2 with ⟨rfl, c2⟩ | ⟨rfl, c2, c3⟩
      · exact ⟨_, _, hN, c2⟩
      · refine ⟨_, _, hN, c2, ?_⟩
        have l1 := a1.toNw.len
        have : (s1.err e).rest = s1.rest := rfl
        rw [this] at c3
        omega

theorem tableClose_post {lPar : Pos} (hG : Good E toks es0 pre s)
    (hL : CharAt E.input lPar '{') (hM : (.punct '{', lPar) ∈ views E s.done.reverse)
    (hl : s.rest = [] ∨ s.LastNot) :
    Sat P (tableClose E lPar s) (fun o s' => ∃ u p', Nx E toks es0 pre s u p' s' [] ∧
      s'.storage = s.storage ∧ (s'.rest = [] ∨ s'.LastNot) ∧
      (∀ p, o = some p → (∃ x, pre <+: x ∧ p' = x ++ ['}'] ∧ p = posOf x) ∧ LastAt E p' s') ∧
      (o = none → (pk E s').ty ≠ .curlyRight)) := by
  unfold tableClose
  rw [bind_peek]
  generalize he : (pk E s).ty = ty
  split
  · rename_i hcm
    rw [bind_next]
    obtain ⟨x, y, e1, e2, e3, e4⟩ := hG.char (by rw [he, hcm]; simp) (by rw [he, hcm]; simp)
    have hy := e2.text
    rw [he, hcm] at hy
    simp only at hy
    subst hy
    have hno : ∀ t ∈ [pk E s], endsLine t.ty = false := by
      intro t ht
      rw [List.mem_singleton] at ht
      rw [ht, he, hcm]; rfl
    refine Sat.pure ⟨_, _, e3, s.adv_storage, .inr (e3.toNw.lastNot_of hG (by simp) hno), ?_, by simp⟩
    intro p hp
    simp only [Option.some.injEq] at hp
    subst hp
    exact ⟨⟨x, e1, rfl, e2.start⟩, e3.toNw.lastAt hG (by simp) hno⟩
  · rename_i hnr
    obtain ⟨f, sp, f1, ⟨ov, ⟨k1, k2, -⟩, k3⟩, f2⟩ := hG.fmt (β := Option Pos)
    rw [f2]
    simp only []
    rw [bind_error]
    exact Sat.pure ⟨_, _, hG.err ⟨f1, hL, _, ov, k1, k3, hM, fun h => hnr (by rw [← he]; exact k2.cr.1 h)⟩,
      rfl, hl, by simp, fun _ => by
        show (pk E s).ty ≠ _
        rw [he]; exact hnr⟩

theorem parseTable_post {elem : M (Except Error Value)} {level : Nat}
    (helem : level < RECURSION_LIMIT → ∀ {pre : Str} {s1 : PS}, Good E toks es0 pre s1 →
      openToks s1.rest < openToks s.rest → Sat P (elem s1) (ValPost E toks es0 pre s1))
    (hG : Good E toks es0 pre s) (he : (pk E s).ty = .curlyLeft)
    (hn : level + openToks s.rest ≤ openToks toks + 1) :
    Sat P (parseTable E elem level (pk E s).start s) (ValPost E toks es0 pre s) := by
  obtain ⟨x, y, e1, e2, e3, e4⟩ := hG.char (by rw [he]; simp) (by rw [he]; simp)
  have hy := e2.text
  rw [he] at hy
  simp only at hy
  subst hy
  have hchar := e2.charAt rfl e3.good.chain.prefix
  have hsr : s.rest = pk E s :: s.adv.rest := e3.rest
  have hopen := openToks_adv hsr (.inr he)
  obtain ⟨v, b, w1, w2, w3⟩ := hG.nextSome (by rw [he]; simp)
  have hv := w3.cl.2 he
  simp only [Option.some.injEq] at hv
  subst hv
  have hM : (View.punct '{', (pk E s).start) ∈ views E s.adv.done.reverse :=
    e3.good.mem_done (by rw [adv_done hsr]; simp) w2
  unfold parseTable
  rw [bind_next]
  split
  · rename_i hlev
    refine Sat.bind (jumpToEnd_post e3.good) ?_
    rintro _ s1 ⟨u1, q1, a1, a2, a3⟩
    exact Sat.pure (Q := ValPost E toks es0 pre s) ⟨_, _, e3.toNw.trans a1,
      ⟨hchar.spanIn (by decide) (by decide), trivial, hG.limit hlev (.inr he) hn⟩, .inl a3⟩
  · rename_i hlev
    rw [bind_budget]
    have hI0 : TabInv E (x ++ ['{']) (x ++ ['{']) s.adv ⟨[], none⟩ :=
      ⟨List.prefix_refl _, by simp, by simp, _, .refl, List.prefix_refl _, by simp, by simp⟩
    have hM0 : TabMid E (x ++ ['{']) (x ++ ['{']) s.adv ⟨[], none⟩ :=
      ⟨hI0, ⟨_, _, adv_done hsr, by rw [he]; simp⟩, by simp⟩
    refine Sat.bind (loopM_post
      (I := fun p s1 st => TabMid E (x ++ ['{']) p s1 st ∧ openToks s1.rest ≤ openToks s.adv.rest)
      (J := TabEnd E (x ++ ['{']))
      (fun hG hI => (tableRound_post (fun hG hk => helem (by omega) hG (by omega)) hG hI.1 hI.2).mono
        fun _ _ h => h.rest (K := fun r => openToks r ≤ openToks s.adv.rest)
          (fun u v h => by rw [openToks_append] at h; omega) hI.2) _ e3.good
      ⟨hM0, Nat.le_refl _⟩ (Nat.lt_succ_self _)) ?_
    rintro (e | st) s2 ⟨hr, hz⟩
    · obtain ⟨u2, q2, b1, b2, -⟩ := hr
      exact Sat.pure (Q := ValPost E toks es0 pre s) ⟨_, _, e3.toNw.trans b1, b2, .inl (hz e rfl)⟩
    · obtain ⟨u2, q2, b1, b2, bJ⟩ := hr
      simp only []
      refine Sat.bind (tableClose_post b1.good hchar (b1.toNw.mem_views e3.good hM) bJ) ?_
      rintro o s3 ⟨u3, q3, c1, c2, cL, c3, c4⟩
      have hN := (e3.trans b1).trans c1
      obtain ⟨b0, r1, r2, r3, r4⟩ := b2.run
      have hlast : ∀ q, st.assignments.getLast?.map (·.end) = some q → q = posOf b0 := by
        intro q hq
        obtain ⟨v, hv, rfl⟩ := Option.map_eq_some_iff.1 hq
        exact r4 v hv
      obtain ⟨E1, b, f1, f2, f3, f4⟩ := endOf_at (E := E) (by decide) (by decide) (by decide) (by decide)
        c1.good.chain.prefix c1.seg.prefix b2.pre (fun p hp => (c3 p hp).1) r1 r2
        (fun hn => r3 (List.getLast?_eq_none_iff.1 (by simpa using hn))) hlast
      rw [← e2.start] at E1 f3 f4
      refine Sat.pure (Q := ValPost E toks es0 pre s) ⟨_, _, hN, ?_, ?_⟩
      · have hsp : SpanIn E.input ⟨(pk E s).start, (endOf (pk E s).start o
            (st.assignments.getLast?.map (·.end))).endPos⟩ := by
          rw [f3, e2.start]
          exact spanIn_of ((List.prefix_append _ _).trans f1) (f2.trans c1.good.chain.prefix)
        refine ⟨.inlineTable hchar E1 hsp ?_ ?_, x, b, e1,
          by simpa only [valPlaces] using f4, f2, ?_⟩
        · intro v hv
          obtain ⟨g1, g2, g3, -⟩ := b2.val v hv
          exact ⟨g1, g2, g3⟩
        · intro v hv
          exact ((b2.val v hv).2.2.2).mono c1.stor
        · show (⟨_, _⟩ : Span) = _
          rw [f3, e2.start]
      · refine ⟨?_, cL, ?_⟩
        · have := hN.toNw.len
          simp at this; omega
        · cases o with
          | none =>
            refine .inr (.inr ⟨x, b, ?_, f1, f2, f3, c4 rfl⟩)
            rw [← e2.start]
            exact (b1.trans c1).toNw.mem_views e3.good hM
          | some q =>
            obtain ⟨⟨x', -, h1, h2⟩, hla⟩ := c3 q rfl
            refine .inl ⟨?_, hla⟩
            show q.plus 1 = _
            rw [h1, h2, posOf_plus (by decide)]
            rfl

/-! ## Nesting -/

/-- A value: the depth budget is never used up. -/
theorem parseValue_post : ∀ (d level : Nat), RECURSION_LIMIT < d + level → 1 ≤ d →
    ∀ {pre : Str} {s : PS}, Good E toks es0 pre s → level + openToks s.rest ≤ openToks toks + 1 →
    Sat P (parseValue E d level s) (ValPost E toks es0 pre s) := by
  intro d
  induction d with
  | zero => intro level _ h; omega
  | succ d ih =>
    intro level hl _ pre s hG hn
    unfold parseValue
    rw [bind_peek]
    have helem : level < RECURSION_LIMIT → ∀ {pre : Str} {s1 : PS}, Good E toks es0 pre s1 →
        openToks s1.rest < openToks s.rest →
        Sat P (parseValue E d (level + 1) s1) (ValPost E toks es0 pre s1) :=
      fun hlt {pre s1} hG ho => ih (level + 1) (by omega) (by omega) hG (by omega)
    generalize he : (pk E s).ty = ty
    split
    · exact parseStringValue_post hG he
    · exact parseLiteralValue_post hG he
    · exact parseDotValue_post hG he
    · exact parseArray_post helem hG he hn
    · exact parseTable_post helem hG he hn
    · rename_i n1 n2 n3 n4 n5
      obtain ⟨f, sp, f1, ⟨ov, ⟨k1, k2, -⟩, k3⟩, f2⟩ := hG.fmt (β := Except Error Value)
      rw [f2]
      refine Sat.pure (Q := ValPost E toks es0 pre s) ⟨[], pre, (Nx.refl hG).toNw,
        ⟨f1, trivial, _, ov, k1, k3, ?_⟩, .inr ⟨by simp, by simp⟩⟩
      rintro v hv hvl
      rw [he] at k2
      cases hvl with
      | key h =>
        rcases (k2.key _ hv).1 h with ⟨id, h⟩ | ⟨id, h⟩
        · exact n1 id h
        · exact n2 id h
      | array => exact n4 (k2.sl.1 hv)
      | table => exact n5 (k2.cl.1 hv)

end Verif.Toml
