import Verif.Toml.AssocLine

/-! # Comments: the lines of a document, one after the other -/

namespace Verif.Toml
open Verif Verif.Spec.Toml

variable {α β : Type} {E : Env} {s s' s1 s2 : PS} {pre : Str} {toks : List Token} {es0 : List Error}

/-- The last stored comment is not directly above the line `ℓ`, or not to be marked. -/
def Sealed (st : List AssocComment) (ℓ : Nat) : Prop :=
  ∀ c, st.getLast? = some c → c.pos = .contained → c.comment.span.start.line + 1 < ℓ

theorem Sealed.mono {st : List AssocComment} {ℓ ℓ' : Nat} (h : Sealed st ℓ) (hl : ℓ ≤ ℓ') : Sealed st ℓ' :=
  fun c h1 h2 => Nat.lt_of_lt_of_le (h c h1 h2) hl

/-- What holds in every round. -/
structure Base (E : Env) (toks : List Token) (es0 : List Error) (b : Bool) (pre : Str) (s : PS) (r : RootSt) : Prop where
  good : Good E toks es0 pre s
  inv : RootInv E toks es0 pre s r
  ri : RI b r.asts
  lstr : LineStr (V E s)

/-- At the start of a line, behind the lines `xs`. -/
structure AtStart (E : Env) (toks : List Token) (es0 : List Error) (b : Bool) (xs : List Ln) (pre : Str) (s : PS) (r : RootSt) : Prop
    extends Base E toks es0 b pre s r where
  req : r.newlineRequired = false
  reach : Reach xs ⟨r.asts, s.storage, r.prevComments⟩
  pend : Pend xs (posOf pre).line r.prevComments
  sealed : Sealed s.storage (posOf pre).line

/-- At the end of the last one of the lines `xs`. -/
structure AtEnd (E : Env) (toks : List Token) (es0 : List Error) (b : Bool) (xs : List Ln) (pre : Str) (s : PS) (r : RootSt) : Prop
    extends Base E toks es0 b pre s r where
  reach : Reach xs ⟨r.asts, s.storage, r.prevComments⟩
  pend : Pend xs ((posOf pre).line + 1) r.prevComments
  sealed : Sealed s.storage ((posOf pre).line + 1)

/-- Behind a header or an assignment, which is the line `f o` with the comment `o` at its end. -/
structure AtTail (E : Env) (toks : List Token) (es0 : List Error) (b : Bool) (xs : List Ln) (f : Option Spec.Toml.Com → Ln) (pre : Str) (s : PS)
    (r : RootSt) : Prop extends Base E toks es0 b pre s r where
  req : r.newlineRequired = true
  prev : r.prevComments = []
  expr : ∀ o, (f o).isComment = false
  reach : Reach (xs ++ [f none]) ⟨r.asts, s.storage, []⟩
  tail : ∀ d : Comment, ∃ asts a a', r.asts = asts ++ [a] ∧ a.appendComment s.storage.length = some a' ∧
    Reach (xs ++ [f (some (Spec.Toml.comOf d))]) ⟨asts ++ [a'], s.storage ++ [⟨.lineEnd, 0, d⟩], []⟩
  sealed : Sealed s.storage ((posOf pre).line + 1)

theorem AtTail.fin {b : Bool} {xs : List Ln} {f : Option Spec.Toml.Com → Ln} {r : RootSt} (h : AtTail E toks es0 b xs f pre s r) :
    AtEnd E toks es0 b (xs ++ [f none]) pre s r :=
  ⟨h.toBase, by rw [h.prev]; exact h.reach, by rw [h.prev]; exact Pend.expr _ _ (h.expr _), h.sealed⟩

theorem AtStart.blank {b : Bool} {xs : List Ln} {r : RootSt} (h : AtStart E toks es0 b xs pre s r) :
    AtEnd E toks es0 b (xs ++ [.blank]) pre s r :=
  ⟨h.toBase, h.reach.blank, h.pend.blank, h.sealed.mono (by omega)⟩

/-! ## One token -/

theorem one_token {u : List Token} {p1 : Str} (hN : Nw E toks es0 pre s u p1 s') (hr : s'.rest = s.adv.rest)
    (hne : (pk E s).ty ≠ .eof) (hG : Good E toks es0 pre s) : ∃ g y, Blank g ∧ TokAt E (pk E s) (pre ++ g) y ∧ p1 = pre ++ g ++ y := by
  obtain ⟨g, y, h1, h2, h3, h4⟩ := hG.adv' hne
  have hu : u = [pk E s] := by
    have := hN.rest
    rw [h3, hr] at this
    have : [pk E s] ++ s.adv.rest = u ++ s.adv.rest := by simpa using this
    exact (List.append_cancel_right this).symm
  have hs := hN.seg
  rw [hu] at hs
  cases hs with
  | cons a1 a2 a3 =>
    cases a3
    exact ⟨_, _, a1, a2, rfl⟩

theorem count_nonl {g : Str} (h : '\n' ∉ g) : g.count '\n' = 0 := List.count_eq_zero.2 h

theorem AtEnd.newline {b : Bool} {xs : List Ln} {r : RootSt} (h : AtEnd E toks es0 b xs pre s r) {p : Pos} {ts : List Tok}
    (hV : V E s = (.newline, p) :: ts) : (pk E s).ty = .newline ∧ V E s.adv = ts ∧ s.adv.rest.length < s.rest.length ∧
      ∃ pre', AtStart E toks es0 b xs pre' s.adv { r with newlineRequired := false } := by
  have hC := h.good.cx
  have hty : (pk E s).ty = .newline := (hC.view hV).1
  obtain ⟨u, p1, h1, h2, h3⟩ := rootNewline_post h.good h.inv hty
  obtain ⟨g, y, a1, a2, rfl⟩ := one_token h2 rfl (by rw [hty]; simp) h.good
  have hl := h2.len
  have : 0 < u.length := List.length_pos_iff.2 h1
  have hy := a2.text
  rw [hty] at hy
  have hline : (posOf (pre ++ g ++ y)).line = (posOf pre).line + 1 := by
    rw [posOf_line_append, posOf_line_append, isNewline_count hy, count_nonl a1.nonl]
  have hst : s.adv.storage = s.storage := by unfold PS.adv; split <;> rfl
  have w := hC.eat hV
  refine ⟨hty, w.left hV, by omega, _, ⟨⟨h2.good, h3, h.ri, h.lstr.mono (by rw [w.view]; simp +contextual)⟩, rfl, ?_, ?_, ?_⟩⟩
  · rw [hst]; exact h.reach
  · rw [hline]; exact h.pend
  · rw [hline, hst]; exact h.sealed

/-- A comment token: its comment. -/
theorem comment_run {x : Str} {p : Pos} {ts : List Tok} (hG : Good E toks es0 pre s) (hV : V E s = (.comment x, p) :: ts) {id : Nat}
    (hty : (pk E s).ty = .comment id) {r r' : RootSt} (h : rootComment E (pk E s) id r s = .ok r' s') :
    ∃ d, Spec.Toml.comOf d = (x, p) ∧ d.span.start.line = (posOf pre).line ∧ s'.rest = s.adv.rest ∧
      (r.newlineRequired = false → s'.storage = s.storage ∧ r' = { r with prevComments := r.prevComments ++ [d] }) ∧
      (r.newlineRequired = true → s'.storage = s.storage ++ [⟨.lineEnd, 0, d⟩] ∧
        ∀ asts a a', r.asts = asts ++ [a] → a.appendComment s.storage.length = some a' → r' = { r with asts := asts ++ [a'] }) := by
  obtain ⟨hv, hp, -⟩ := hG.cx.view hV
  obtain ⟨id', hty', hx⟩ := hv
  rw [hty] at hty'
  cases hty'
  obtain ⟨g, y, h1, h2, h3, h4⟩ := hG.adv' (by rw [hty]; simp)
  have hst : s.adv.storage = s.storage := by unfold PS.adv; split <;> rfl
  unfold rootComment at h
  rw [bind_next] at h
  unfold getComment at h
  obtain ⟨d, hd, h⟩ := bind_lift_inv h
  rw [hx] at hd
  cases hd
  dsimp only at h
  refine ⟨⟨Span.fromPosLen (pk E s).start (1 + blen x), x⟩, by rw [← hp]; rfl, ?_, ?_⟩
  · show (pk E s).start.line = _
    rw [h2.start, posOf_line_append, count_nonl h1.nonl]; rfl
  · cases hr : r.newlineRequired with
    | false =>
      rw [hr, if_neg (by simp)] at h
      obtain ⟨rfl, rfl⟩ := pure_inv h
      exact ⟨rfl, fun _ => ⟨hst, rfl⟩, by simp⟩
    | true =>
      rw [hr, if_pos rfl] at h
      obtain ⟨cid, s2, h5, h⟩ := bind_inv h
      cases h5
      generalize hla : r.asts.getLast? = la at h
      cases la with
      | none => cases h
      | some a =>
        dsimp only at h
        obtain ⟨a', ha, h⟩ := bind_lift_inv h
        obtain ⟨rfl, rfl⟩ := pure_inv h
        refine ⟨rfl, by simp, fun _ => ⟨by show s.adv.storage ++ _ = _; rw [hst], ?_⟩⟩
        intro asts b b' hb hb'
        rw [hb] at hla
        simp only [List.getLast?_append, List.getLast?_singleton, Option.some_or, Option.some.injEq] at hla
        subst hla
        rw [hst, hb'] at ha
        cases ha
        rw [hb, List.dropLast_concat]

theorem comment_same_line {u : List Token} {p1 : Str} (hG : Good E toks es0 pre s) (hN : Nw E toks es0 pre s u p1 s')
    (hr : s'.rest = s.adv.rest) {id : Nat} (hty : (pk E s).ty = .comment id) : (posOf p1).line = (posOf pre).line := by
  obtain ⟨g, y, a1, a2, rfl⟩ := one_token hN hr (by rw [hty]; simp) hG
  have hy := a2.text
  rw [hty] at hy
  obtain ⟨txt, -, rfl, hn⟩ := hy
  rw [posOf_line_append, posOf_line_append, count_nonl a1.nonl, count_nonl (by simp [hn])]; rfl

/-- One round of the loop for a comment. -/
theorem round_comment {b : Bool} {r : RootSt} (h : Base E toks es0 b pre s r) {x : Str} {p : Pos} {ts : List Tok}
    (hV : V E s = (.comment x, p) :: ts) : ∃ id r1 s1 u p1, (pk E s).ty = .comment id ∧ rootComment E (pk E s) id r s = .ok r1 s1 ∧
      Nw E toks es0 pre s u p1 s1 ∧ Base E toks es0 b p1 s1 r1 ∧ V E s1 = ts ∧ s1.rest.length < s.rest.length ∧ s1.errors = s.errors ∧
      r1.newlineRequired = r.newlineRequired := by
  have hC := h.good.cx
  obtain ⟨id, hty, -⟩ := (hC.view hV).1
  obtain ⟨r1, s1, h1, u, p1, hu, hN, hI⟩ := (rootComment_post (P := False) h.good h.inv hty).run
  obtain ⟨⟨x', p', w⟩, c1, c2, c3⟩ := rootComment_went ⟨h.good.eofTy⟩ hC hty h.ri h1
  have hv := w.view
  rw [hV] at hv
  simp only [List.cons_append, List.nil_append, List.cons.injEq] at hv
  have hl := hN.len
  have : 0 < u.length := List.length_pos_iff.2 hu
  exact ⟨id, r1, s1, u, p1, hty, h1, hN, ⟨hN.good, hI, c1, h.lstr.mono (by rw [w.view]; simp +contextual)⟩, hv.2.symm, by omega,
    (quiet_rootComment _ _ _).out _ _ _ h1, c3⟩

theorem AtStart.comment {b : Bool} {xs : List Ln} {r : RootSt} (h : AtStart E toks es0 b xs pre s r) {x : Str} {p : Pos} {ts : List Tok}
    (hV : V E s = (.comment x, p) :: ts) : ∃ id r1 s1 p1, (pk E s).ty = .comment id ∧ rootComment E (pk E s) id r s = .ok r1 s1 ∧
      AtEnd E toks es0 b (xs ++ [.comment (x, p)]) p1 s1 r1 ∧ V E s1 = ts ∧ s1.rest.length < s.rest.length ∧ s1.errors = s.errors := by
  obtain ⟨id, r1, s1, u, p1, hty, h1, hN, hB, hV1, hl, he, -⟩ := round_comment h.toBase hV
  obtain ⟨d, d1, d2, d3, d0, -⟩ := comment_run h.good hV hty h1
  obtain ⟨d4, d5⟩ := d0 h.req
  clear d0
  subst d5
  have hline := comment_same_line h.good hN d3 hty
  refine ⟨id, _, s1, p1, hty, h1, ⟨hB, ?_, ?_, ?_⟩, hV1, hl, he⟩
  · rw [d4, ← d1]; exact h.reach.comment
  · rw [hline, ← d1]; exact h.pend.comment d2
  · rw [hline, d4]; exact h.sealed.mono (by omega)

theorem AtTail.comment {b : Bool} {xs : List Ln} {f : Option Spec.Toml.Com → Ln} {r : RootSt} (h : AtTail E toks es0 b xs f pre s r) {x : Str}
    {p : Pos} {ts : List Tok} (hV : V E s = (.comment x, p) :: ts) :
    ∃ id r1 s1 p1, (pk E s).ty = .comment id ∧ rootComment E (pk E s) id r s = .ok r1 s1 ∧
      AtEnd E toks es0 b (xs ++ [f (some (x, p))]) p1 s1 r1 ∧ V E s1 = ts ∧ s1.rest.length < s.rest.length ∧ s1.errors = s.errors := by
  obtain ⟨id, r1, s1, u, p1, hty, h1, hN, hB, hV1, hl, he, -⟩ := round_comment h.toBase hV
  obtain ⟨d, d1, d2, d3, -, d0⟩ := comment_run h.good hV hty h1
  obtain ⟨d4, d5⟩ := d0 h.req
  clear d0
  obtain ⟨asts, a, a', e1, e2, e3⟩ := h.tail d
  have e4 := d5 _ _ _ e1 e2
  clear d5
  subst e4
  refine ⟨id, _, s1, p1, hty, h1, ⟨hB, ?_, ?_, ?_⟩, hV1, hl, he⟩
  · simp only [d4, ← d1, h.prev]; exact e3
  · simp only [h.prev]; exact Pend.expr _ _ (h.expr _)
  · rw [d4]
    intro c hc hp
    simp only [List.getLast?_append, List.getLast?_singleton, Option.some_or, Option.some.injEq] at hc
    subst hc; cases hp

/-! ## Headers -/

theorem sealed_abv {st : List AssocComment} {ℓ n : Nat} {cs : List Comment} (h : Sealed st ℓ) : Sealed (st ++ abv n cs) ℓ := by
  intro c h1 h2
  rcases last_stored h1 with h1 | ⟨-, h1⟩
  · rw [mem_abv h1] at h2; cases h2
  · exact h c h1 h2

theorem AtStart.header {b : Bool} {xs : List Ln} {r r1 : RootSt} (h : AtStart E toks es0 b xs pre s r) {p : Pos} {ts0 ts : List Tok}
    (hV : V E s = (.punct '[', p) :: ts0) {ts1 : List Tok} {i : Item} (hi : hasHeader [i] = true)
    (h1 : rootHeader E (pk E s) r s = .ok r1 s1) (hd : ExprDone E b r s ts1 i r1 s1) (hV1 : V E s1 = ts) :
    ∃ p1, AtTail E toks es0 true xs (.header p) p1 s1 r1 ∧ s1.rest.length < s.rest.length := by
  have hC := h.good.cx
  have hty := ty_sl hC hV
  have hp := (hC.view hV).2.1
  have h3 := rootHeader_post h.good h.inv hty
  rw [h1] at h3
  obtain ⟨u, p1, hu, hN, hI⟩ := h3
  have hl := hN.len
  have : 0 < u.length := List.length_pos_iff.2 hu
  obtain ⟨g, y, g1, g2, -, -⟩ := h.good.adv' (by rw [hty]; simp)
  have hpl : p.line = (posOf pre).line := by
    rw [← hp, g2.start, posOf_line_append, count_nonl g1.nonl]; rfl
  have hl1 := posOf_line_mono (seg_prefix hN.seg)
  obtain ⟨la, key, q, s2, e1, e2⟩ := rootHeader_run h.req h1
  rw [hp] at e2
  obtain ⟨loose, run, a1, a2, a3, a4⟩ := h.pend
  rw [← hpl] at a3 a4
  obtain ⟨x, b1, b2, b3, b4, b5⟩ := finishHeader_run a1 a3 a4 e2
  have hst : s1.storage = s.storage ++ abv 0 run := by rw [b3]; simp [PS.stored, e1]
  rw [e1] at b2
  have hri := hd.ri
  rw [hi, Bool.or_true] at hri
  refine ⟨p1, ⟨⟨hN.good, hI, hri, h.lstr.mono (by rw [hd.ate.view]; simp +contextual)⟩, b5, b4, fun _ => rfl, ?_, fun d => ?_, ?_⟩, by omega⟩
  · have := Reach.header (p := p) (o := none) h.reach a1 a2 (by simpa using b2)
    rw [b1, hst]
    simpa [tl] using this
  · obtain ⟨x', c1, c2⟩ := appendComment_header (id := s1.storage.length) b2 (by rw [hst]; simp)
    refine ⟨_, x, x', b1, c1, ?_⟩
    have := Reach.header (p := p) (o := some d) (x := x') h.reach a1 a2 (by
      rw [c2, hst]; simp [abv])
    rw [hst]
    simpa [tl] using this
  · rw [hst]; exact (sealed_abv h.sealed).mono (by omega)

/-! ## Assignments -/

theorem val_last {n : Nat} {ts : List Tok} {v : TVal} (h : Val n ts v) : ∃ a t, ts = a ++ [t] ∧ ∀ x, t.1 ≠ .comment x := by
  have hp : ∀ {p : Pos} {ts : List Tok} {x : Str}, Pieces p ts x → ∀ (a : List Tok) (t0 : Tok), (∀ x, t0.1 ≠ .comment x) →
      ∃ b t, a ++ t0 :: ts = b ++ [t] ∧ ∀ x, t.1 ≠ .comment x := by
    intro p ts x h
    induction h with
    | nil => intro a t0 h0; exact ⟨a, t0, rfl, h0⟩
    | @dot q ts x h ih =>
      intro a t0 h0
      obtain ⟨b, t, h1, h2⟩ := ih (a ++ [t0]) (.punct '.', q) (by simp)
      exact ⟨b, t, by rw [← h1]; simp, h2⟩
    | @word q w ts x h ih =>
      intro a t0 h0
      obtain ⟨b, t, h1, h2⟩ := ih (a ++ [t0]) (.word w, q) (by simp)
      exact ⟨b, t, by rw [← h1]; simp, h2⟩
  have hb : ∀ {p : Pos} {ts : List Tok} {x : Str}, Bare p ts x → ∃ b t, ts = b ++ [t] ∧ ∀ x, t.1 ≠ .comment x := by
    rintro p ts x ⟨w, ts', y, rfl, -, h⟩
    simpa using hp h [] (.word w, p) (by simp)
  cases h with
  | string => exact ⟨[], _, rfl, by simp⟩
  | bare h _ => exact hb h
  | spaced h h' _ _ =>
    obtain ⟨b, t, rfl, h2⟩ := hb h'
    exact ⟨_, t, (List.append_assoc _ _ _).symm, h2⟩
  | @array n p es ts _ _ hb =>
    have : ∃ a q, ts = a ++ [(.punct ']', q)] := by
      clear hp
      induction hb with
      | close _ => exact ⟨_, _, rfl⟩
      | last => exact ⟨_, _, rfl⟩
      | more _ ih =>
        obtain ⟨a, q, rfl⟩ := ih (fun e he => by rename_i h _; exact h e (by simp [he])) (fun e he => by rename_i h; exact h e (by simp [he]))
        exact ⟨_, q, by rw [← List.cons_append, ← List.append_assoc]⟩
    obtain ⟨a, q, rfl⟩ := this
    exact ⟨_ :: a, _, rfl, by simp⟩
  | @table n p es ts _ _ hb =>
    have : ∃ a q, ts = a ++ [(.punct '}', q)] := by
      clear hp
      induction hb with
      | close => exact ⟨[], _, rfl⟩
      | last => exact ⟨_, _, rfl⟩
      | more _ ih =>
        obtain ⟨a, q, rfl⟩ := ih (fun e he => by rename_i h _; exact h e (by simp [he])) (fun e he => by rename_i h; exact h e (by simp [he]))
        exact ⟨_, q, by rw [← List.cons_append, ← List.append_assoc]⟩
    obtain ⟨a, q, rfl⟩ := this
    exact ⟨_ :: a, _, rfl, by simp⟩

theorem seg_lit {pre' : Str} {u : List Token} (h : Seg E pre u pre') : ∀ t ∈ u, ∀ id, t.ty = .comment id →
    ∃ w, vw E t = (.comment w, t.start) := by
  induction h with
  | nil => simp
  | cons hg ht hs ih =>
    intro t hm id hty
    rcases List.mem_cons.1 hm with rfl | hm
    · have hx := ht.text
      rw [hty] at hx
      obtain ⟨w, hw, -⟩ := hx
      exact ⟨w, vw_comment hty hw⟩
    · exact ih t hm id hty

theorem AtStart.assignment {b : Bool} {xs : List Ln} {r : RootSt} (h : AtStart E toks es0 b xs pre s r)
    {kt vt rest : List Tok} {k : List Str} {p : Pos} {v : TVal} (hk : KeyToks kt k) (hv : Val (depthLimit b) vt v)
    (hV : V E s = kt ++ (.punct '=', p) :: (vt ++ rest)) (hf : Follow rest) :
    ∃ r1 s1 p1, rootAssignment E (pk E s) r s = .ok r1 s1 ∧ AtTail E toks es0 b xs (.keyVal p (commentsIn vt)) p1 s1 r1 ∧
      V E s1 = rest ∧ s1.rest.length < s.rest.length ∧ s1.errors = s.errors := by
  have hE : EnvEof E := ⟨h.good.eofTy⟩
  have hC := h.good.cx
  obtain ⟨r1, s1, h1, hd⟩ := rootAssignment_complete (rest := rest) (v := v) (p := p) hE h.good h.inv h.ri h.req hk hv hV hf
  have h3 := rootAssignment_post (P := False) h.good h.inv (by
    rcases key_not_sl hC hk hV with ⟨id, h⟩ | ⟨id, h⟩ <;> rw [h] <;> rfl)
  rw [h1] at h3
  obtain ⟨U, p1, hu, hN, hI⟩ := h3
  have hl := hN.len
  have : 0 < U.length := List.length_pos_iff.2 hu
  have hVs1 : V E s1 = rest := hd.ate.left (by rw [hV]; simp)
  have hl1 := posOf_line_mono (seg_prefix hN.seg)
  -- the key and the equal sign
  obtain ⟨z, hz, hz'⟩ := Ch.ahead hE kt ⟨h.good.chain, h.good.com⟩ hV (key_oneLine hk (h.lstr.mono (by rw [hV]; simp +contextual)))
  have hpl : p.line = (posOf pre).line := by rw [hz, posOf_line_append, count_nonl hz']; rfl
  have h1' := h1
  unfold rootAssignment at h1'
  rw [bind_mark] at h1'
  obtain ⟨kr, s2, k1, h1'⟩ := bind_inv h1'
  have hkp := parseKey_post (P := False) h.good
  rw [k1] at hkp
  obtain ⟨u2, q2, n1, -⟩ := hkp
  have hcalm := calm_parseKey.out _ _ _ k1
  obtain ⟨key, rfl, -, w1⟩ := parseKey_complete hE hC hk hV (noDot_eq _ _) k1
  dsimp only at h1'
  have hV1 := w1.left hV
  have hte := ty_eq w1.cx hV1
  have hpe := (w1.cx.view hV1).2.1
  unfold rootEq at h1'
  rw [bind_peek, if_pos hte, bind_next, h.req, bind_ok checkNewline_false, if_pos rfl, hpe] at h1'
  have w2 := w1.cx.eat hV1
  obtain ⟨g, y, g1, g2, g3, g4⟩ := n1.good.adv' (by rw [hte]; simp)
  have hy := g2.text
  rw [hte] at hy
  dsimp only at hy
  subst hy
  have hst : s2.adv.storage = s.storage := by rw [← hcalm]; unfold PS.adv; split <;> rfl
  have hq : p.line = (posOf (q2 ++ g ++ ['='])).line := by
    rw [← hpe, g2.start, posOf_line_append (q2 ++ g)]; rfl
  obtain ⟨loose, run, a1, a2, a3, a4⟩ := h.pend
  rw [← hpl] at a3 a4
  obtain ⟨mid, u, b1, b2, b3, b4, b5, b6⟩ := rootValue_run hE g4.good (fun c hc => h.inv.prevAt c hc)
    (by rw [hst]; exact h.inv.asts) h.ri a1 a3 a4 hq
    (by rw [hst]; intro c c1 c2; rw [hpl]; exact h.sealed c c1 c2) hv (w2.left (r := vt ++ rest) hV1) hf h1'
  rw [hst] at b1
  -- the comments inside are above the end
  have hU : U = u2 ++ pk E s2 :: u := by
    have r1 := hN.rest
    rw [n1.rest, g3, b4] at r1
    have : (u2 ++ pk E s2 :: u) ++ s1.rest = U ++ s1.rest := by simpa using r1
    exact (List.append_cancel_right this).symm
  have hmid : ∀ c ∈ mid, c.comment.span.start.line < (posOf p1).line := by
    intro c hc
    have hc' : c.comment ∈ coms E U := by
      rw [hU, coms_append, show pk E s2 :: u = [pk E s2] ++ u from rfl, coms_append, ← b5]
      simp only [List.mem_append]
      exact .inr (.inr (List.mem_map_of_mem hc))
    refine seg_before hN.seg (comToks_prefix (r := s1.rest) (by rw [← hN.rest]; exact h.good.com)) ?_ _ hc'
    intro t ht id hid
    obtain ⟨w, hw⟩ := seg_lit hN.seg t (List.mem_of_getLast? ht) id hid
    have hmap : U.map (vw E) = kt ++ (.punct '=', p) :: vt := by
      have := hd.ate.view
      unfold V at this
      rw [hN.rest, List.map_append] at this
      exact List.append_cancel_right this
    obtain ⟨a, t', rfl, ht'⟩ := val_last hv
    have e1 : (U.map (vw E)).getLast? = some (vw E t) := by rw [List.getLast?_map, ht]; rfl
    rw [hmap, ← List.cons_append, ← List.append_assoc, List.getLast?_append] at e1
    simp only [List.getLast?_singleton, Option.some_or, Option.some.injEq] at e1
    rw [e1, hw] at ht'
    exact ht' w rfl
  have hbase : Base E toks es0 b p1 s1 r1 := ⟨hN.good, hI, by simpa [hasHeader] using hd.ri,
    h.lstr.mono (by rw [hd.ate.view]; simp +contextual)⟩
  refine ⟨r1, s1, p1, h1, ?_, hVs1, by omega, hd.ate.errs⟩
  cases b1 with
  | @root a c1 c2 c3 c4 c5 =>
    refine ⟨hbase, b3, b2, fun _ => rfl, ?_, fun d => ?_, ?_⟩
    · have := Reach.root (o := none) (a := a) (mid := mid) h.reach c1 a1 a2 (by rw [c3]; simp)
      rw [c4, c5, ← c2, ← b6]
      simpa [tl] using this
    · refine ⟨_, .assignment a, .assignment { a with comments := _ }, c4, by
        simp only [Ast.appendComment]
        rw [append_le (by rw [c3, c5]; simp)]
        rfl, ?_⟩
      have := Reach.root (o := some d) (a := { a with comments := ⟨s.storage.length, run.length + mid.length + 1, 0⟩ }) (mid := mid)
        h.reach c1 a1 a2 (by simp)
      have e : s1.storage.length - a.comments.start + 1 = run.length + mid.length + 1 := by
        rw [c3, c5]; simp [abv]
      rw [c5, ← c2, ← b6]
      rw [c5] at e
      rw [e, c3]
      simpa [tl] using this
    · rw [c5, ← List.append_assoc]
      intro c e1 e2
      rcases last_stored e1 with e1 | ⟨-, e1⟩
      · have := hmid c e1; omega
      · exact (sealed_abv h.sealed).mono (by omega) c e1 e2
  | @inTable asts0 x x' q rg as a c1 c2 c3 c4 c5 c6 c7 =>
    refine ⟨hbase, b3, b2, fun _ => rfl, ?_, fun d => ?_, ?_⟩
    · have := Reach.inTable (o := none) (a := a) (mid := mid) h.reach c1 c2 a1 a2 c4 (by rw [c5]; simp)
      rw [c6, c7, ← c3, ← b6]
      simpa [tl] using this
    · obtain ⟨x2, d1, d2⟩ := appendComment_inTable (id := s1.storage.length) c4 (by rw [c5, c7]; simp [ctd])
      refine ⟨_, x', x2, c6, d1, ?_⟩
      have e : s1.storage.length - a.comments.start + 1 = run.length + mid.length + 1 := by
        rw [c5, c7]; simp [abv, ctd]; omega
      rw [e, c5] at d2
      have := Reach.inTable (o := some d) (mid := mid) (x' := x2)
        (a := { a with comments := ⟨s.storage.length + loose.length, run.length + mid.length + 1, 1⟩ }) h.reach c1 c2 a1 a2 d2 (by simp)
      rw [c7, ← c3, ← b6]
      simpa [tl] using this
    · rw [c7, ← List.append_assoc, ← List.append_assoc]
      intro c e1 e2
      rcases last_stored e1 with e1 | ⟨-, e1⟩
      · have := hmid c e1; omega
      · refine sealed_abv (ℓ := (posOf p1).line + 1) ?_ c e1 e2
        intro c e1 e2
        rcases last_stored e1 with e1 | ⟨-, e1⟩
        · obtain ⟨d, hd, rfl⟩ := List.mem_map.1 e1
          have := a4 d hd
          simp only; omega
        · exact h.sealed.mono (by omega) c e1 e2

/-! ## Lines -/

/-- The end of a line. -/
def EndsHere (ts : List Tok) : Prop := ts = [] ∨ ∃ p ts', ts = (.newline, p) :: ts'

theorem EndsHere.follow {ts : List Tok} (h : EndsHere ts) (o : Option Spec.Toml.Com) : Follow (tailTok o ++ ts) := by
  intro v p r he
  cases o with
  | some c => simp only [tailTok, List.cons_append, List.cons.injEq, Prod.mk.injEq] at he; exact .inr (.inl ⟨_, he.1.1.symm⟩)
  | none =>
    rcases h with rfl | ⟨p, ts', rfl⟩
    · cases he
    · cases he; exact .inl rfl

theorem AtTail.line {b : Bool} {xs : List Ln} {f : Option Spec.Toml.Com → Ln} {r : RootSt} (h : AtTail E toks es0 b xs f pre s r) {o : Option Spec.Toml.Com}
    {ts : List Tok} (hV : V E s = tailTok o ++ ts) {n : Nat} (hn : s.rest.length < n) :
    ∃ n' r1 s1 p1, rootLoop E n r s = rootLoop E n' r1 s1 ∧ AtEnd E toks es0 b (xs ++ [f o]) p1 s1 r1 ∧ V E s1 = ts ∧
      s1.rest.length < n' ∧ s1.errors = s.errors := by
  cases o with
  | none => exact ⟨n, r, s, pre, rfl, h.fin, hV, hn, rfl⟩
  | some c =>
    obtain ⟨id, r1, s1, p1, h1, h2, h3, h4, h5, h6⟩ := h.comment (x := c.1) (p := c.2) (ts := ts) (by rw [hV]; rfl)
    cases n with
    | zero => omega
    | succ n =>
      refine ⟨n, r1, s1, p1, ?_, h3, h4, by omega, h6⟩
      conv => lhs; unfold rootLoop
      rw [bind_peek, h1]
      dsimp only
      rw [bind_ok h2]

theorem line_run {b : Bool} {xs : List Ln} {ts : List Tok} {l : Ln} (hl : LineIs b ts l) {r : RootSt}
    (h : AtStart E toks es0 b xs pre s r) {rest : List Tok} (hV : V E s = ts ++ rest) (hf : EndsHere rest) {n : Nat}
    (hn : s.rest.length < n) :
    ∃ n' r1 s1 p1, rootLoop E n r s = rootLoop E n' r1 s1 ∧ AtEnd E toks es0 (b || l.isHeader) (xs ++ [l]) p1 s1 r1 ∧ V E s1 = rest ∧
      s1.rest.length < n' ∧ s1.errors = s.errors := by
  have hC := h.good.cx
  have hE : EnvEof E := ⟨h.good.eofTy⟩
  cases n with
  | zero => omega
  | succ n =>
  cases hl with
  | blank => exact ⟨n + 1, r, s, pre, rfl, by simpa [Ln.isHeader] using h.blank, by simpa using hV, hn, rfl⟩
  | @comment x p =>
    obtain ⟨id, r1, s1, p1, h1, h2, h3, h4, h5, h6⟩ := h.comment (x := x) (p := p) (ts := rest) (by rw [hV]; rfl)
    refine ⟨n, r1, s1, p1, ?_, by simpa [Ln.isHeader] using h3, h4, by omega, h6⟩
    conv => lhs; unfold rootLoop
    rw [bind_peek, h1]
    dsimp only
    rw [bind_ok h2]
  | @keyVal kt k p vt v o hk hv =>
    have hV' : V E s = kt ++ (.punct '=', p) :: (vt ++ (tailTok o ++ rest)) := by rw [hV]; simp
    obtain ⟨r1, s1, p1, h1, h2, h3, h4, h5⟩ := h.assignment hk hv hV' (hf.follow o)
    obtain ⟨n', r2, s2, p2, e1, e2, e3, e4, e5⟩ := h2.line h3 (n := n) (by omega)
    refine ⟨n', r2, s2, p2, ?_, by simpa [Ln.isHeader] using e2, e3, e4, by rw [e5, h5]⟩
    rw [← e1]
    conv => lhs; unfold rootLoop
    rw [bind_peek]
    rcases key_not_sl hC hk hV' with ⟨id, h⟩ | ⟨id, h⟩ <;> rw [h] <;> dsimp only <;> rw [bind_ok h1]
  | @table p q kt k o hk =>
    have hV' : V E s = (.punct '[', p) :: (kt ++ (.punct ']', q) :: (tailTok o ++ rest)) := by rw [hV]; simp
    obtain ⟨r1, s1, h1, hd⟩ := rootHeader_table (p := p) (q := q) hE h.good h.inv h.ri h.req h.lstr hk hV'
    have h3 : V E s1 = tailTok o ++ rest := hd.ate.left (by rw [hV']; simp)
    obtain ⟨p1, h2, h4⟩ := h.header hV' (by simp [hasHeader]) h1 hd h3
    obtain ⟨n', r2, s2, p2, e1, e2, e3, e4, e5⟩ := h2.line h3 (n := n) (by omega)
    refine ⟨n', r2, s2, p2, ?_, by simpa [Ln.isHeader] using e2, e3, e4, by rw [e5, hd.ate.errs]⟩
    rw [← e1]
    conv => lhs; unfold rootLoop
    rw [bind_peek, ty_sl hC hV']
    dsimp only
    rw [bind_ok h1]
  | @arrayTable p q kt k o hk =>
    have hV' : V E s = (.punct '[', p) :: (.punct '[', p.plus 1) ::
        (kt ++ (.punct ']', q) :: (.punct ']', q.plus 1) :: (tailTok o ++ rest)) := by rw [hV]; simp
    obtain ⟨r1, s1, h1, hd⟩ := rootHeader_array (p := p) (q := q) hE h.good h.inv h.ri h.req h.lstr hk hV'
    have h3 : V E s1 = tailTok o ++ rest := hd.ate.left (by rw [hV']; simp)
    obtain ⟨p1, h2, h4⟩ := h.header hV' (by simp [hasHeader]) h1 hd h3
    obtain ⟨n', r2, s2, p2, e1, e2, e3, e4, e5⟩ := h2.line h3 (n := n) (by omega)
    refine ⟨n', r2, s2, p2, ?_, by simpa [Ln.isHeader] using e2, e3, e4, by rw [e5, hd.ate.errs]⟩
    rw [← e1]
    conv => lhs; unfold rootLoop
    rw [bind_peek, ty_sl hC hV']
    dsimp only
    rw [bind_ok h1]

/-- The loop over all lines. -/
theorem lines_run {b : Bool} {ts : List Tok} {ls : List Ln} (hd : DocLines b ts ls) : ∀ {xs : List Ln} {pre : Str} {s : PS} {r : RootSt}
    {n : Nat}, AtStart E toks es0 b xs pre s r → V E s = ts → s.rest.length < n →
    ∃ r' s', rootLoop E n r s = .ok r' s' ∧ s'.errors = s.errors ∧ Reach (xs ++ ls) ⟨r'.asts, s'.storage, r'.prevComments⟩ := by
  induction hd with
  | @last b ts l hl =>
    intro xs pre s r n h hV hn
    obtain ⟨n', r1, s1, p1, e1, e2, e3, e4, e5⟩ := line_run hl h (rest := []) (by rw [hV]; simp) (.inl rfl) hn
    refine ⟨r1, s1, ?_, e5, e2.reach⟩
    rw [e1]
    cases n' with
    | zero => omega
    | succ n' =>
      unfold rootLoop
      rw [bind_peek, pk_nil ⟨h.good.eofTy⟩ e3]
      rfl
  | @more b ts l p ts' ls hl hd ih =>
    intro xs pre s r n h hV hn
    obtain ⟨n', r1, s1, p1, e1, e2, e3, e4, e5⟩ := line_run hl h (rest := (.newline, p) :: ts') hV (.inr ⟨_, _, rfl⟩) hn
    cases n' with
    | zero => omega
    | succ n' =>
      obtain ⟨f1, f2, f3, p2, f4⟩ := e2.newline e3
      obtain ⟨r', s', g1, g2, g3⟩ := ih f4 f2 (n := n') (by omega)
      refine ⟨r', s', ?_, ?_, by simpa using g3⟩
      · rw [e1]
        conv => lhs; unfold rootLoop
        rw [bind_peek, f1]
        dsimp only
        rw [bind_next]
        exact g1
      · rw [g2, ← e5]
        exact adv_errors

end Verif.Toml
