import Verif.Toml.CompKey

/-! # What follows the grammar is read without diagnostics: values -/

namespace Verif.Toml
open Verif Verif.Spec.Toml

variable {α β σ : Type} {E : Env} {s s' s1 s2 : PS} {pre : Str}

/-! ## Line breaks and comments -/

theorem noGap_cons {v : View} {p : Pos} {r : List Tok} : NoGap ((v, p) :: r) ↔
    v ≠ .newline ∧ ∀ x, v ≠ .comment x := by
  constructor
  · intro h; exact h v p r rfl
  · intro h v' p' r' he
    simp only [List.cons.injEq, Prod.mk.injEq] at he
    obtain ⟨⟨rfl, -⟩, -⟩ := he
    exact h

theorem gap_cons {t : Tok} {r : List Tok} : Gap (t :: r) ↔ (t.1 = .newline ∨ ∃ x, t.1 = .comment x) ∧ Gap r := by
  simp [Gap]

/-- What is left of a gap. -/
theorem gap_left {g : List Tok} (hg : Gap g) : ∀ {g0 r r0 : List Tok}, Gap g0 → NoGap r0 → g ++ r = g0 ++ r0 →
    ∃ g1, Gap g1 ∧ g0 = g ++ g1 ∧ r = g1 ++ r0 := by
  induction g with
  | nil => intro g0 r r0 h0 _ he; exact ⟨g0, h0, rfl, he⟩
  | cons t g ih =>
    intro g0 r r0 h0 hr he
    obtain ⟨ht, hg⟩ := gap_cons.1 hg
    cases g0 with
    | nil =>
      obtain ⟨v, p⟩ := t
      obtain ⟨h1, h2⟩ := hr v p _ he.symm
      rcases ht with ht | ⟨x, ht⟩
      · exact absurd ht h1
      · exact absurd ht (h2 x)
    | cons t0 g0 =>
      simp only [List.cons_append, List.cons.injEq] at he
      obtain ⟨rfl, he⟩ := he
      obtain ⟨g1, a, rfl, c⟩ := ih hg (gap_cons.1 h0).2 hr he
      exact ⟨g1, a, rfl, c⟩

theorem gap_all {g g0 r r0 : List Tok} (hg : Gap g) (h0 : Gap g0) (hr : NoGap r) (hr0 : NoGap r0)
    (he : g ++ r = g0 ++ r0) : g = g0 ∧ r = r0 := by
  obtain ⟨g1, a, rfl, rfl⟩ := gap_left hg h0 hr0 he
  cases g1 with
  | nil => simp
  | cons t g1 =>
    obtain ⟨v, p⟩ := t
    obtain ⟨ht, -⟩ := gap_cons.1 a
    obtain ⟨h1, h2⟩ := noGap_cons.1 hr
    rcases ht with ht | ⟨x, ht⟩
    · exact absurd ht h1
    · exact absurd ht (h2 x)

theorem contained_ate (hE : EnvEof E) {n : Nat} {r r' : CommentRange} (hC : Cx E s) {g r0 : List Tok}
    (hg : Gap g) (hr : NoGap r0) (hv : V E s = g ++ r0) (h : containedComments E n r s = .ok r' s') :
    Ate E s g s' ∧ V E s' = r0 := by
  obtain ⟨g', a1, a2, a3⟩ := contained_went hE _ hC h
  obtain ⟨rfl, h2⟩ := gap_all a1 hg a3 hr (by rw [← a2.view, hv])
  exact ⟨⟨a2, (quiet_contained _ _).out _ _ _ h⟩, h2⟩

theorem lineEnd_ate (hE : EnvEof E) {r r' : CommentRange} (hC : Cx E s) {g r0 : List Tok}
    (hg : Gap g) (hr : NoGap r0) (hv : V E s = g ++ r0) (h : lineEndComment E r s = .ok r' s') :
    ∃ g1 g2, g = g1 ++ g2 ∧ Gap g1 ∧ Gap g2 ∧ Ate E s g1 s' ∧ V E s' = g2 ++ r0 := by
  obtain ⟨g', a1, a2⟩ := lineEnd_went hE hC h
  obtain ⟨g2, b1, b2, b3⟩ := gap_left a1 hg hr (by rw [← a2.view, hv])
  exact ⟨g', g2, b2, a1, b1, ⟨a2, (quiet_lineEnd _).out _ _ _ h⟩, b3⟩

theorem Cx.ate {m : M α} {a : α} (hC : Cx E s) (hm : Still m) (hq : Quiet m) (h : m s = .ok a s') :
    Ate E s [] s' := ⟨hC.still hm h, hq.out _ _ _ h⟩

theorem follow_gap {g r : List Tok} (hg : Gap g) (hr : Follow r) : Follow (g ++ r) := by
  cases g with
  | nil => exact hr
  | cons t g =>
    intro v p r' he
    simp only [List.cons_append, List.cons.injEq] at he
    obtain ⟨rfl, -⟩ := he
    rcases (gap_cons.1 hg).1 with h | h
    · exact .inl h
    · exact .inr (.inl h)

theorem follow_comma (p : Pos) (r : List Tok) : Follow ((.punct ',', p) :: r) := by
  intro v q r' he
  simp only [List.cons.injEq, Prod.mk.injEq] at he
  exact .inr (.inr (.inl he.1.1.symm))

theorem follow_sr (p : Pos) (r : List Tok) : Follow ((.punct ']', p) :: r) := by
  intro v q r' he
  simp only [List.cons.injEq, Prod.mk.injEq] at he
  exact .inr (.inr (.inr (.inl he.1.1.symm)))

theorem follow_cr (p : Pos) (r : List Tok) : Follow ((.punct '}', p) :: r) := by
  intro v q r' he
  simp only [List.cons.injEq, Prod.mk.injEq] at he
  exact .inr (.inr (.inr (.inr he.1.1.symm)))

/-! ## Values -/

/-- The first token of a value. -/
def Starts (v : View) : Prop :=
  (∃ q lit txt, v = .string q lit txt) ∨ (∃ w, v = .word w) ∨ v = .punct '[' ∨ v = .punct '{'

theorem val_start {n : Nat} {ts : List Tok} {v : TVal} (h : Val n ts v) :
    ∃ a p r, ts = (a, p) :: r ∧ Starts a := by
  cases h with
  | string => exact ⟨_, _, _, rfl, .inl ⟨_, _, _, rfl⟩⟩
  | bare hb _ =>
    obtain ⟨w, ts', y, rfl, -, -⟩ := hb
    exact ⟨_, _, _, rfl, .inr (.inl ⟨_, rfl⟩)⟩
  | spaced hb _ _ _ =>
    obtain ⟨w, ts', y, rfl, -, -⟩ := hb
    exact ⟨_, _, _, rfl, .inr (.inl ⟨_, rfl⟩)⟩
  | array _ _ _ => exact ⟨_, _, _, rfl, .inr (.inr (.inl rfl))⟩
  | table _ _ _ => exact ⟨_, _, _, rfl, .inr (.inr (.inr rfl))⟩

theorem Starts.noGap {a : View} (h : Starts a) (p : Pos) (r : List Tok) : NoGap ((a, p) :: r) := by
  rw [noGap_cons]
  rcases h with ⟨_, _, _, rfl⟩ | ⟨_, rfl⟩ | rfl | rfl <;> simp

theorem Starts.ty {a : View} {ty : TokenType} (h : Starts a) (ht : TyOf E a ty) :
    ty ≠ .squareRight ∧ ty ≠ .eof ∧ tableEnd ty = false := by
  rcases h with ⟨_, _, _, rfl⟩ | ⟨_, rfl⟩ | rfl | rfl
  · obtain ⟨_, _, _, rfl, _⟩ := ht; simp [tableEnd, endsLine]
  · obtain ⟨_, rfl, _⟩ := ht; simp [tableEnd, endsLine]
  · have : ty = .squareLeft := by simpa [TyOf] using ht
    subst this; simp [tableEnd, endsLine]
  · have : ty = .curlyLeft := by simpa [TyOf] using ht
    subst this; simp [tableEnd, endsLine]

/-- `elem` reads the value `tv`, written as `ts`. -/
def Reads (E : Env) (elem : M (Except Error Value)) (ts : List Tok) (tv : TVal) : Prop :=
  ∀ s r res s', Cx E s → V E s = ts ++ r → Follow r → elem s = .ok res s' →
    ∃ v, res = .ok v ∧ valueOf v = tv ∧ Ate E s ts s'

/-! ## Arrays -/

theorem ty_comma (hC : Cx E s) {p : Pos} {r : List Tok} (hv : V E s = (.punct ',', p) :: r) :
    (pk E s).ty = .comma := by
  have := (hC.view hv).1
  simpa [TyOf] using this
theorem ty_sr (hC : Cx E s) {p : Pos} {r : List Tok} (hv : V E s = (.punct ']', p) :: r) :
    (pk E s).ty = .squareRight := by
  have := (hC.view hv).1
  simpa [TyOf] using this
theorem ty_sl (hC : Cx E s) {p : Pos} {r : List Tok} (hv : V E s = (.punct '[', p) :: r) :
    (pk E s).ty = .squareLeft := by
  have := (hC.view hv).1
  simpa [TyOf] using this
theorem ty_cr (hC : Cx E s) {p : Pos} {r : List Tok} (hv : V E s = (.punct '}', p) :: r) :
    (pk E s).ty = .curlyRight := by
  have := (hC.view hv).1
  simpa [TyOf] using this
theorem ty_cl (hC : Cx E s) {p : Pos} {r : List Tok} (hv : V E s = (.punct '{', p) :: r) :
    (pk E s).ty = .curlyLeft := by
  have := (hC.view hv).1
  simpa [TyOf] using this
theorem ty_eq (hC : Cx E s) {p : Pos} {r : List Tok} (hv : V E s = (.punct '=', p) :: r) :
    (pk E s).ty = .equal := by
  have := (hC.view hv).1
  simpa [TyOf] using this

/-- The values of the state of an array loop. -/
def tvals (st : ArrSt) : List TVal := st.values.map fun v => valueOf v.val

theorem arrayAfterValue_comma (hE : EnvEof E) {level : Nat} {st : ArrSt} {v : Value} {res : Round ArrSt}
    (hC : Cx E s) {g r : List Tok} {p : Pos} (hg : Gap g) (hv : V E s = g ++ (.punct ',', p) :: r)
    (h : arrayAfterValue E level st v s = .ok res s') :
    ∃ st' g', res = .continue st' ∧ tvals st' = tvals st ++ [valueOf v] ∧ Gap g' ∧ g' ++ V E s' = r ∧
      Cx E s' ∧ s'.errors = s.errors := by
  unfold arrayAfterValue at h
  obtain ⟨vc, s1, h1, h⟩ := bind_inv h
  have w1 := hC.ate (still_markAbove _ _) (quiet_markAbove _ _) h1
  obtain ⟨vc', s2, h2, h⟩ := bind_inv h
  have hng : NoGap ((.punct ',', p) :: r) := by rw [noGap_cons]; simp
  obtain ⟨g1, g2, rfl, a1, a2, w2, hv2⟩ := lineEnd_ate hE w1.cx hg hng (w1.left (a := []) hv) h2
  rw [bind_budget] at h
  obtain ⟨cm, s3, h3, h⟩ := bind_inv h
  obtain ⟨w3, hv3⟩ := contained_ate hE w2.cx a2 hng hv2 h3
  rw [bind_peek, if_pos (ty_comma w3.cx hv3), bind_nextId] at h
  obtain ⟨vc3, hvc, h⟩ := bind_lift_inv h
  obtain ⟨_, s4, h4, h⟩ := bind_inv h
  have w4 := w3.cx.ate (still_markContained _ _) (quiet_markContained _ _) h4
  have hv4 := w4.left (a := []) hv3
  rw [bind_next] at h
  have w5 := w4.cx.eat hv4
  have hv5 := w5.left (r := r) hv4
  obtain ⟨vc5, s5, h5, h⟩ := bind_inv h
  obtain ⟨g3, b1, b2⟩ := lineEnd_went hE w5.cx h5
  have hq := (quiet_lineEnd _).out _ _ _ h5
  obtain ⟨rfl, rfl⟩ := pure_inv h
  refine ⟨_, g3, rfl, by simp [tvals], b1, by rw [← b2.view, hv5], b2.cx, ?_⟩
  rw [hq, w5.errs, w4.errs, w3.errs, w2.errs, w1.errs]

theorem arrayAfterValue_last (hE : EnvEof E) {level : Nat} {st : ArrSt} {v : Value} {res : Round ArrSt}
    (hC : Cx E s) {g r : List Tok} {p : Pos} (hg : Gap g) (hv : V E s = g ++ (.punct ']', p) :: r)
    (h : arrayAfterValue E level st v s = .ok res s') :
    ∃ st', res = .break st' ∧ tvals st' = tvals st ++ [valueOf v] ∧ V E s' = (.punct ']', p) :: r ∧
      Cx E s' ∧ s'.errors = s.errors := by
  unfold arrayAfterValue at h
  obtain ⟨vc, s1, h1, h⟩ := bind_inv h
  have w1 := hC.ate (still_markAbove _ _) (quiet_markAbove _ _) h1
  obtain ⟨vc', s2, h2, h⟩ := bind_inv h
  have hng : NoGap ((.punct ']', p) :: r) := by rw [noGap_cons]; simp
  obtain ⟨g1, g2, rfl, a1, a2, w2, hv2⟩ := lineEnd_ate hE w1.cx hg hng (w1.left (a := []) hv) h2
  rw [bind_budget] at h
  obtain ⟨cm, s3, h3, h⟩ := bind_inv h
  obtain ⟨w3, hv3⟩ := contained_ate hE w2.cx a2 hng hv2 h3
  have hty := ty_sr w3.cx hv3
  rw [bind_peek, if_neg (by rw [hty]; simp), if_pos (.inl hty)] at h
  obtain ⟨rfl, rfl⟩ := pure_inv h
  exact ⟨_, rfl, by simp [tvals], hv3, w3.cx, by rw [w3.errs, w2.errs, w1.errs]⟩

theorem arrayLoop_complete (hE : EnvEof E) {level : Nat} {elem : M (Except Error Value)} {es : List Elem}
    {ts : List Tok} (hb : ArrayBody es ts) (hg : ∀ e ∈ es, Gap e.before ∧ Gap e.after)
    (hst : ∀ e ∈ es, ∃ a p r, e.toks = (a, p) :: r ∧ Starts a) (hel : ∀ e ∈ es, Reads E elem e.toks e.val) :
    ∀ {k : Nat} {st : ArrSt} {s : PS} {res : Except Error ArrSt} {g r : List Tok}, Cx E s → Gap g →
    g ++ V E s = ts ++ r → loopM (arrayRound E elem level) k st s = .ok res s' →
    ∃ st' p, res = .ok st' ∧ tvals st' = tvals st ++ es.map (·.val) ∧ V E s' = (.punct ']', p) :: r ∧
      Cx E s' ∧ s'.errors = s.errors := by
  induction hb with
  | @close g0 p h0 =>
    intro k st s res g r hC hgg hv h
    cases k with
    | zero => cases h
    | succ k =>
      unfold loopM at h
      obtain ⟨rd, s1, h1, h2⟩ := bind_inv h
      unfold arrayRound at h1
      rw [bind_budget] at h1
      obtain ⟨cm, s2, h3, h1⟩ := bind_inv h1
      have hng : NoGap ((.punct ']', p) :: r) := by rw [noGap_cons]; simp
      obtain ⟨g1, a1, rfl, a3⟩ := gap_left hgg h0 hng (by simpa using hv)
      obtain ⟨w, hv2⟩ := contained_ate hE hC a1 hng a3 h3
      dsimp only at h1
      have hty := ty_sr w.cx hv2
      rw [bind_peek, if_pos (.inl hty)] at h1
      obtain ⟨rfl, rfl⟩ := pure_inv h1
      obtain ⟨rfl, rfl⟩ := pure_inv h2
      exact ⟨_, p, rfl, by simp [tvals], hv2, w.cx, w.errs⟩
  | @last e p =>
    intro k st s res g r hC hgg hv h
    obtain ⟨hg1, hg2⟩ := hg e (by simp)
    obtain ⟨a, q, r', hst1, hst2⟩ := hst e (by simp)
    have hel := hel e (by simp)
    cases k with
    | zero => cases h
    | succ k =>
      unfold loopM at h
      obtain ⟨rd, s1, h1, h2⟩ := bind_inv h
      unfold arrayRound at h1
      rw [bind_budget] at h1
      obtain ⟨cm, s2, h3, h1⟩ := bind_inv h1
      have hng : NoGap (e.toks ++ (e.after ++ (.punct ']', p) :: r)) := by
        rw [hst1]; exact hst2.noGap _ _
      obtain ⟨g1, a1, a2, a3⟩ := gap_left hgg hg1 hng (by simpa using hv)
      obtain ⟨w, hv2⟩ := contained_ate hE hC a1 hng a3 h3
      dsimp only at h1
      have hty := hst2.ty (w.cx.view (by rw [hv2, hst1]; rfl)).1
      rw [bind_peek, if_neg (by simp [hty.1, hty.2.1])] at h1
      obtain ⟨rv, s3, h4, h1⟩ := bind_inv h1
      obtain ⟨v, rfl, e1, w3⟩ := hel _ _ _ _ w.cx hv2 (follow_gap hg2 (follow_sr _ _)) h4
      dsimp only at h1
      obtain ⟨st', rfl, c2, c3, c4, c5⟩ := arrayAfterValue_last hE w3.cx hg2 (w3.left hv2) h1
      obtain ⟨rfl, rfl⟩ := pure_inv h2
      exact ⟨_, p, rfl, by rw [c2, e1]; rfl, c3, c4, by rw [c5, w3.errs, w.errs]⟩
  | @more e es ts p hb ih =>
    intro k st s res g r hC hgg hv h
    obtain ⟨hg1, hg2⟩ := hg e (by simp)
    obtain ⟨a, q, r', hst1, hst2⟩ := hst e (by simp)
    have hel1 := hel e (by simp)
    cases k with
    | zero => cases h
    | succ k =>
      unfold loopM at h
      obtain ⟨rd, s1, h1, h2⟩ := bind_inv h
      unfold arrayRound at h1
      rw [bind_budget] at h1
      obtain ⟨cm, s2, h3, h1⟩ := bind_inv h1
      have hng : NoGap (e.toks ++ (e.after ++ (.punct ',', p) :: (ts ++ r))) := by
        rw [hst1]; exact hst2.noGap _ _
      obtain ⟨g1, a1, a2, a3⟩ := gap_left hgg hg1 hng (by simpa using hv)
      obtain ⟨w, hv2⟩ := contained_ate hE hC a1 hng a3 h3
      dsimp only at h1
      have hty := hst2.ty (w.cx.view (by rw [hv2, hst1]; rfl)).1
      rw [bind_peek, if_neg (by simp [hty.1, hty.2.1])] at h1
      obtain ⟨rv, s3, h4, h1⟩ := bind_inv h1
      obtain ⟨v, rfl, e1, w3⟩ := hel1 _ _ _ _ w.cx hv2 (follow_gap hg2 (follow_comma _ _)) h4
      dsimp only at h1
      obtain ⟨st', g', rfl, c2, c3, c4, c5, c6⟩ := arrayAfterValue_comma hE w3.cx hg2 (w3.left hv2) h1
      dsimp only at h2
      obtain ⟨st2, p2, d1, d2, d3, d4, d5⟩ := ih (fun e' he => hg e' (by simp [he]))
        (fun e' he => hst e' (by simp [he])) (fun e' he => hel e' (by simp [he])) c5 c3 c4 h2
      refine ⟨st2, p2, d1, ?_, d3, d4, by rw [d5, c6, w3.errs, w.errs]⟩
      rw [d2, c2, e1]
      simp [tvals]

theorem parseArray_complete (hE : EnvEof E) {level : Nat} (hl : level < 100) {elem : M (Except Error Value)}
    {es : List Elem} {ts : List Tok} {p : Pos} {lp : Pos} (hb : ArrayBody es ts)
    (hg : ∀ e ∈ es, Gap e.before ∧ Gap e.after)
    (hst : ∀ e ∈ es, ∃ a p r, e.toks = (a, p) :: r ∧ Starts a) (hel : ∀ e ∈ es, Reads E elem e.toks e.val) :
    Reads E (parseArray E elem level lp) ((.punct '[', p) :: ts) (.array (es.map (·.val))) := by
  intro s r res s' hC hv hf h
  unfold parseArray at h
  rw [bind_next] at h
  have w1 := hC.eat hv
  have hv1 := w1.left (r := ts ++ r) hv
  rw [if_neg (by simp [RECURSION_LIMIT]; omega), bind_nextId] at h
  obtain ⟨cm, s2, h2, h⟩ := bind_inv h
  obtain ⟨g, a1, a2⟩ := lineEnd_went hE w1.cx h2
  have hq := (quiet_lineEnd _).out _ _ _ h2
  rw [bind_budget] at h
  obtain ⟨rl, s3, h3, h⟩ := bind_inv h
  obtain ⟨st', q, rfl, c2, c3, c4, c5⟩ := arrayLoop_complete hE hb hg hst hel a2.cx a1
    (by rw [← a2.view, hv1]) h3
  dsimp only at h
  obtain ⟨rp, s4, h4, h⟩ := bind_inv h
  unfold arrayClose at h4
  rw [bind_peek, if_pos (ty_sr c4 c3), bind_next] at h4
  obtain ⟨rfl, rfl⟩ := pure_inv h4
  have w4 := c4.eat c3
  rw [bind_nextId] at h
  obtain ⟨cm2, -, h⟩ := bind_lift_inv h
  obtain ⟨_, s5, h5, h⟩ := bind_inv h
  have w5 := w4.cx.ate (still_markContained _ _) (quiet_markContained _ _) h5
  obtain ⟨rfl, rfl⟩ := pure_inv h
  refine ⟨_, rfl, ?_, ⟨?_, w5.cx⟩, by rw [w5.errs, w4.errs, c5, hq, w1.errs]⟩
  · rw [valueOf, valuesOf_map]
    have : tvals ⟨cm, []⟩ = [] := rfl
    rw [this, List.nil_append] at c2
    rw [← c2]; rfl
  · have e1 := w4.left (r := r) c3
    have e2 := w5.left (a := []) e1
    rw [hv, e2]

/-! ## Inline tables -/

/-- The values of the state of the loop over an inline table. -/
def tpairs (st : TabSt) : List (List Str × TVal) :=
  st.assignments.map fun a => (keyNames a.assignment.key, valueOf a.assignment.val)

theorem key_start {ts : List Tok} {ns : List Str} (h : KeyToks ts ns) :
    ∃ v p r n, ts = (v, p) :: r ∧ KeyPart v n := by
  cases h with
  | one h => exact ⟨_, _, _, _, rfl, h⟩
  | dot h _ => exact ⟨_, _, _, _, rfl, h⟩

theorem keyPart_starts {v : View} {n : Str} (h : KeyPart v n) : Starts v := by
  cases h with
  | bare _ => exact .inr (.inl ⟨_, rfl⟩)
  | quoted _ => exact .inl ⟨_, _, _, rfl⟩

theorem noDot_eq (p : Pos) (r : List Tok) : NoDot ((.punct '=', p) :: r) := by
  intro q r' he; simp at he

/-- An assignment in an inline table up to its value. -/
theorem tableRound_complete (hE : EnvEof E) {elem : M (Except Error Value)} {e : Entry}
    (hk : KeyToks e.key e.names) (hel : Reads E elem e.toks e.val) {st : TabSt} {res : Round TabSt}
    (hC : Cx E s) {r : List Tok} (hv : V E s = e.all ++ r) (hf : Follow r)
    (h : tableRound E elem st s = .ok res s') :
    ∃ a s1, (e.names, e.val) = (keyNames a.key, valueOf a.val) ∧ Ate E s e.all s1 ∧
      tableAfterValue E st a s1 = .ok res s' := by
  unfold tableRound at h
  have hv' : V E s = e.key ++ ((.punct '=', e.eq) :: (e.toks ++ r)) := by
    rw [hv]; simp [Entry.all]
  have hty : tableEnd (pk E s).ty = false := by
    obtain ⟨v, p, r', n, h1, h2⟩ := key_start hk
    rw [h1] at hv'
    exact ((keyPart_starts h2).ty (hC.view hv').1).2.2
  rw [bind_peek, if_neg (by simp [hty])] at h
  obtain ⟨kr, s1, h1, h⟩ := bind_inv h
  obtain ⟨k, rfl, k2, w1⟩ := parseKey_complete hE hC hk hv' (noDot_eq _ _) h1
  have hv1 := w1.left hv'
  dsimp only at h
  unfold tableAfterKey at h
  rw [bind_peek, if_pos (ty_eq w1.cx hv1), bind_next] at h
  have w2 := w1.cx.eat hv1
  have hv2 := w2.left (r := e.toks ++ r) hv1
  obtain ⟨rv, s3, h3, h⟩ := bind_inv h
  obtain ⟨v, rfl, e1, w3⟩ := hel _ _ _ _ w2.cx hv2 hf h3
  dsimp only at h
  refine ⟨_, s3, ?_, ?_, h⟩
  · rw [k2, e1]
  · exact w1.trans (w2.trans w3)

theorem tableLoop_complete (hE : EnvEof E) {elem : M (Except Error Value)} {es : List Entry}
    {ts : List Tok} (hb : TableBody es ts) (hk : ∀ e ∈ es, KeyToks e.key e.names)
    (hel : ∀ e ∈ es, Reads E elem e.toks e.val) :
    ∀ {k : Nat} {st : TabSt} {s : PS} {res : Except Error TabSt} {r : List Tok}, Cx E s →
    (es = [] → st.comma = none) →
    V E s = ts ++ r → loopM (tableRound E elem) k st s = .ok res s' →
    ∃ st' p, res = .ok st' ∧ tpairs st' = tpairs st ++ es.map (fun e => (e.names, e.val)) ∧
      V E s' = (.punct '}', p) :: r ∧ Cx E s' ∧ s'.errors = s.errors := by
  induction hb with
  | @close p =>
    intro k st s res r hC hc hv h
    cases k with
    | zero => cases h
    | succ k =>
      unfold loopM at h
      obtain ⟨rd, s1, h1, h2⟩ := bind_inv h
      unfold tableRound at h1
      have hty := ty_cr hC hv
      rw [bind_peek, if_pos (by rw [hty]; rfl), hc rfl] at h1
      obtain ⟨rfl, rfl⟩ := pure_inv h1
      obtain ⟨rfl, rfl⟩ := pure_inv h2
      exact ⟨_, p, rfl, by simp [tpairs], hv, hC, rfl⟩
  | @last e p =>
    intro k st s res r hC hc hv h
    cases k with
    | zero => cases h
    | succ k =>
      unfold loopM at h
      obtain ⟨rd, s1, h1, h2⟩ := bind_inv h
      rw [List.append_assoc] at hv
      obtain ⟨a, s2, e1, w, h3⟩ := tableRound_complete hE (hk e (by simp)) (hel e (by simp)) hC hv
        (follow_cr p r) h1
      have hv2 := w.left hv
      unfold tableAfterValue at h3
      have hty := ty_cr w.cx hv2
      rw [bind_peek, if_neg (by rw [hty]; simp), if_pos (by rw [hty]; rfl)] at h3
      obtain ⟨rfl, rfl⟩ := pure_inv h3
      obtain ⟨rfl, rfl⟩ := pure_inv h2
      exact ⟨_, p, rfl, by simp [tpairs, e1], hv2, w.cx, w.errs⟩
  | @more e e' es ts p hb ih =>
    intro k st s res r hC hc hv h
    cases k with
    | zero => cases h
    | succ k =>
      unfold loopM at h
      obtain ⟨rd, s1, h1, h2⟩ := bind_inv h
      rw [List.append_assoc] at hv
      obtain ⟨a, s2, e1, w, h3⟩ := tableRound_complete hE (hk e (by simp)) (hel e (by simp)) hC hv
        (follow_comma p _) h1
      have hv2 := w.left hv
      unfold tableAfterValue at h3
      have hty := ty_comma w.cx hv2
      rw [bind_peek, if_pos hty, bind_next] at h3
      have w3 := w.cx.eat hv2
      have hv3 := w3.left (r := ts ++ r) hv2
      obtain ⟨rfl, rfl⟩ := pure_inv h3
      dsimp only at h2
      obtain ⟨st2, p2, d1, d2, d3, d4, d5⟩ := ih (fun e' he => hk e' (by simp [he]))
        (fun e' he => hel e' (by simp [he])) w3.cx (by simp) hv3 h2
      refine ⟨st2, p2, d1, ?_, d3, d4, by rw [d5, w3.errs, w.errs]⟩
      rw [d2]
      simp [tpairs, e1]

theorem parseTable_complete (hE : EnvEof E) {level : Nat} (hl : level < 100) {elem : M (Except Error Value)}
    {es : List Entry} {ts : List Tok} {p : Pos} {lp : Pos} (hb : TableBody es ts)
    (hk : ∀ e ∈ es, KeyToks e.key e.names) (hel : ∀ e ∈ es, Reads E elem e.toks e.val) :
    Reads E (parseTable E elem level lp) ((.punct '{', p) :: ts)
      (.table (es.map fun e => (e.names, e.val))) := by
  intro s r res s' hC hv hf h
  unfold parseTable at h
  rw [bind_next] at h
  have w1 := hC.eat hv
  have hv1 := w1.left (r := ts ++ r) hv
  rw [if_neg (by simp [RECURSION_LIMIT]; omega), bind_budget] at h
  obtain ⟨rl, s3, h3, h⟩ := bind_inv h
  obtain ⟨st', q, rfl, c2, c3, c4, c5⟩ := tableLoop_complete hE hb hk hel w1.cx (fun _ => rfl) hv1 h3
  dsimp only at h
  obtain ⟨rp, s4, h4, h⟩ := bind_inv h
  unfold tableClose at h4
  rw [bind_peek, if_pos (ty_cr c4 c3), bind_next] at h4
  obtain ⟨rfl, rfl⟩ := pure_inv h4
  have w4 := c4.eat c3
  obtain ⟨rfl, rfl⟩ := pure_inv h
  refine ⟨_, rfl, ?_, ⟨?_, w4.cx⟩, by rw [w4.errs, c5, w1.errs]⟩
  · rw [valueOf, pairsOf_map]
    have : tpairs ⟨[], none⟩ = [] := rfl
    rw [this, List.nil_append] at c2
    rw [← c2]; rfl
  · rw [hv, w4.left (r := r) c3]

/-- Values. -/
theorem parseValue_complete (hE : EnvEof E) {n : Nat} {ts : List Tok} {tv : TVal} (hv : Val n ts tv) :
    ∀ (d level : Nat), n + level ≤ 100 → Reads E (parseValue E d level) ts tv := by
  induction hv with
  | @string n q lit txt p =>
    intro d level hl s r res s' hC hv hf h
    cases d with
    | zero => cases h
    | succ d =>
      unfold parseValue at h
      obtain ⟨⟨id, o, e, hty, hs, -⟩, -⟩ := hC.view hv
      rw [bind_peek, hty] at h
      dsimp only at h
      obtain ⟨v, s1, h1, h2⟩ := bind_inv h
      obtain ⟨rfl, rfl⟩ := pure_inv h2
      unfold parseStringValue getString at h1
      rw [bind_next, bind_lift _ _ hs] at h1
      obtain ⟨rfl, rfl⟩ := pure_inv h1
      exact ⟨_, rfl, rfl, hC.eat hv⟩
  | @bare n p ts x v hb hs =>
    intro d level hl s r res s' hC hv hf h
    cases d with
    | zero => cases h
    | succ d =>
      unfold parseValue at h
      obtain ⟨id, hty, -⟩ := bare_ty hC hb hv
      rw [bind_peek, hty] at h
      dsimp only at h
      obtain ⟨v, s1, h1, h2⟩ := bind_inv h
      obtain ⟨rfl, rfl⟩ := pure_inv h2
      obtain ⟨e1, e2, -⟩ := parseLiteralValue_bare hE hC hb hs hv (hf.notAt _) (.inr hf) hty h1
      exact ⟨v, rfl, e1, e2⟩
  | @spaced n p q ts ts' x y dt hb hb' hq hs =>
    intro d level hl s r res s' hC hv hf h
    cases d with
    | zero => cases h
    | succ d =>
      unfold parseValue at h
      obtain ⟨id, hty, -⟩ := bare_ty hC hb (by rw [hv, List.append_assoc])
      rw [bind_peek, hty] at h
      dsimp only at h
      obtain ⟨v, s1, h1, h2⟩ := bind_inv h
      obtain ⟨rfl, rfl⟩ := pure_inv h2
      obtain ⟨e1, e2, -⟩ := parseLiteralValue_spaced hE hC hb hb' hq hs hv hf hty h1
      exact ⟨v, rfl, e1, e2⟩
  | @array n p es ts hg hval hb ih =>
    intro d level hl s r res s' hC hv hf h
    cases d with
    | zero => cases h
    | succ d =>
      unfold parseValue at h
      rw [bind_peek, ty_sl hC hv] at h
      dsimp only at h
      exact parseArray_complete hE (by omega) hb hg (fun e he => val_start (hval e he))
        (fun e he => ih e he d (level + 1) (by omega)) s r res s' hC hv hf h
  | @table n p es ts hk hval hb ih =>
    intro d level hl s r res s' hC hv hf h
    cases d with
    | zero => cases h
    | succ d =>
      unfold parseValue at h
      rw [bind_peek, ty_cl hC hv] at h
      dsimp only at h
      exact parseTable_complete hE (by omega) hb hk
        (fun e he => ih e he d (level + 1) (by omega)) s r res s' hC hv hf h

end Verif.Toml
