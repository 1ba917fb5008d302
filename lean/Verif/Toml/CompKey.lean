import Verif.Toml.SoundRoot

/-! # What follows the grammar is read without diagnostics: keys and literals -/

namespace Verif.Toml
open Verif Verif.Spec.Toml

variable {α β : Type} {E : Env} {s s' s1 s2 : PS} {pre : Str}

/-- From `s` to `s'`, the tokens `ts` have been consumed, without diagnostics. -/
structure Ate (E : Env) (s : PS) (ts : List Tok) (s' : PS) : Prop extends Went E s ts s' where
  errs : s'.errors = s.errors

theorem Ate.refl (h : Cx E s) : Ate E s [] s := ⟨.refl h, rfl⟩

theorem Ate.trans {a b : List Tok} (h1 : Ate E s a s1) (h2 : Ate E s1 b s2) : Ate E s (a ++ b) s2 :=
  ⟨h1.toWent.trans h2.toWent, by rw [h2.errs, h1.errs]⟩

/-- What is left behind the consumed tokens. -/
theorem Went.left {a r : List Tok} (h : Went E s a s') (hv : V E s = a ++ r) : V E s' = r := by
  have := h.view
  rw [hv] at this
  exact (List.append_cancel_left this).symm

/-- The next token. -/
theorem Cx.eat (hC : Cx E s) {v : View} {p : Pos} {r : List Tok} (h : V E s = (v, p) :: r) :
    Ate E s [(v, p)] s.adv := by
  obtain ⟨-, -, h3, h4⟩ := hC.view h
  exact ⟨⟨by rw [h, h3]; rfl, h4⟩, adv_errors⟩

/-! ## Keys -/

theorem parseIdent_complete (hE : EnvEof E) (hC : Cx E s) {v : View} {p : Pos} {n : Str} {r : List Tok}
    (hk : KeyPart v n) (hv : V E s = (v, p) :: r) :
    ∃ i, parseIdent E s = .ok (.inl i) s.adv ∧ i.text = n := by
  obtain ⟨h1, h2, h3, h4⟩ := hC.view hv
  unfold parseIdent
  rw [bind_peek]
  cases hk with
  | bare hb =>
    obtain ⟨id, hty, hl⟩ := h1
    rw [hty]
    dsimp only
    unfold literal
    rw [hl, Option.map_some, bind_lift _ _ rfl]
    dsimp only
    rw [findInvalidChar_none.2 hb]
    dsimp only
    rw [bind_next]
    exact ⟨_, rfl, rfl⟩
  | @quoted q lit txt hm =>
    obtain ⟨id, o, e, hty, hs, hcl⟩ := h1
    rw [hty]
    dsimp only
    unfold getString
    rw [bind_lift _ _ hs]
    dsimp only
    cases q with
    | basicMultiline => simp [isMulti] at hm
    | literalMultiline => simp [isMulti] at hm
    | basic =>
      dsimp only
      rw [bind_next, if_neg (by simp_all)]
      exact ⟨_, rfl, rfl⟩
    | literal =>
      dsimp only
      rw [bind_next, if_neg (by simp_all)]
      exact ⟨_, rfl, rfl⟩

/-- The tokens do not start with a dot. -/
def NoDot (r : List Tok) : Prop := ∀ p r', r ≠ (.punct '.', p) :: r'

theorem pk_dot (hE : EnvEof E) (hC : Cx E s) (h : NoDot (V E s)) : (pk E s).ty ≠ .dot := by
  intro hty
  have w := hC.step hE (by rw [hty]; simp)
  rw [vw_dot hty] at w
  exact h _ _ w.view

theorem parseKeyLoop_complete (hE : EnvEof E) {ts : List Tok} {ns : List Str} (hk : KeyToks ts ns) :
    ∀ {n : Nat} {ids : List DottedIdent} {s : PS} {res : KeyResult} {r : List Tok}, Cx E s →
    V E s = ts ++ r → NoDot r → parseKeyLoop E n ids s = .ok res s' →
    ∃ k, res = .ok k ∧ keyNames k = ids.map (·.ident.text) ++ ns ∧ Ate E s ts s' := by
  induction hk with
  | @one v p x hp =>
    intro n ids s res r hC hv hd h
    cases n with
    | zero => cases h
    | succ n =>
      unfold parseKeyLoop at h
      obtain ⟨i, hi, rfl⟩ := parseIdent_complete hE hC hp hv
      rw [bind_ok hi] at h
      dsimp only at h
      rw [bind_peek] at h
      have w := hC.eat hv
      rw [if_neg (pk_dot hE w.cx (by rw [w.left hv]; exact hd))] at h
      split at h
      · rename_i hemp
        obtain ⟨rfl, rfl⟩ := pure_inv h
        have : ids = [] := by simpa using hemp
        subst this
        exact ⟨_, rfl, by simp [keyNames, Key.idents], w⟩
      · obtain ⟨rfl, rfl⟩ := pure_inv h
        exact ⟨_, rfl, by simp [keyNames, Key.idents], w⟩
  | @dot v p q x ts ns hp hk ih =>
    intro n ids s res r hC hv hd h
    cases n with
    | zero => cases h
    | succ n =>
      unfold parseKeyLoop at h
      obtain ⟨i, hi, rfl⟩ := parseIdent_complete hE hC hp hv
      rw [bind_ok hi] at h
      dsimp only at h
      rw [bind_peek] at h
      have w := hC.eat hv
      have hv1 := w.left (r := (.punct '.', q) :: (ts ++ r)) hv
      have w1 := w.cx.eat hv1
      have hty : (pk E s.adv).ty = .dot := by
        have := (w.cx.view hv1).1
        simpa [TyOf] using this
      rw [if_pos hty, bind_next] at h
      obtain ⟨k, h1, h2, h3⟩ := ih w1.cx (w1.left (r := ts ++ r) hv1) hd h
      exact ⟨k, h1, by rw [h2]; simp, w.trans (w1.trans h3)⟩

theorem parseKey_complete (hE : EnvEof E) (hC : Cx E s) {ts : List Tok} {ns : List Str} (hk : KeyToks ts ns)
    {res : KeyResult} {r : List Tok} (hv : V E s = ts ++ r) (hd : NoDot r)
    (h : parseKey E s = .ok res s') : ∃ k, res = .ok k ∧ keyNames k = ns ∧ Ate E s ts s' := by
  unfold parseKey at h
  rw [bind_budget] at h
  obtain ⟨k, h1, h2, h3⟩ := parseKeyLoop_complete hE hk hC hv hd h
  exact ⟨k, h1, by simpa using h2, h3⟩

/-! ## Literals -/

/-- A value can end in front of the tokens: there is nothing, a line break, a comment, a comma, or a
closing bracket. -/
def Follow (r : List Tok) : Prop := ∀ v p r', r = (v, p) :: r' →
  v = .newline ∨ (∃ x, v = .comment x) ∨ v = .punct ',' ∨ v = .punct ']' ∨ v = .punct '}'

theorem Follow.notAt {r : List Tok} (h : Follow r) (p : Pos) : NotAt p r := by
  intro v r' he
  rcases h v p r' he with rfl | ⟨x, rfl⟩ | rfl | rfl | rfl
  · exact ⟨by simp, by simp⟩
  · exact ⟨by simp, by simp⟩
  · exact ⟨by simp, by simp⟩
  · exact ⟨by simp, by simp⟩
  · exact ⟨by simp, by simp⟩

theorem plus_plus (p : Pos) (a b : Nat) : (p.plus a).plus b = p.plus (a + b) := by
  simp [Pos.plus, Nat.add_assoc]

theorem pieces_unique {p : Pos} {a : List Tok} {x : Str} (h : Pieces p a x) :
    ∀ {b : List Tok} {y : Str} {r r' : List Tok}, Pieces p b y → a ++ r = b ++ r' →
    NotAt (p.plus (blen x)) r → NotAt (p.plus (blen y)) r' → a = b ∧ x = y := by
  induction h with
  | @nil p =>
    intro b y r r' hb he h1 h2
    cases hb with
    | nil => exact ⟨rfl, rfl⟩
    | dot hb => exact absurd rfl (h1 _ _ he).1
    | word hb => exact absurd rfl ((h1 _ _ he).2 _)
  | @dot p ts x ha ih =>
    intro b y r r' hb he h1 h2
    cases hb with
    | nil => exact absurd rfl (h2 _ _ he.symm).1
    | @dot _ ts' y hb =>
      simp only [List.cons_append, List.cons.injEq, true_and] at he
      obtain ⟨rfl, rfl⟩ := ih hb he (by rw [plus_plus]; rw [blen_cons] at h1; exact h1)
        (by rw [plus_plus]; rw [blen_cons] at h2; exact h2)
      exact ⟨rfl, rfl⟩
    | word hb => simp at he
  | @word p w ts x ha ih =>
    intro b y r r' hb he h1 h2
    cases hb with
    | nil => exact absurd rfl ((h2 _ _ he.symm).2 _)
    | dot hb => simp at he
    | @word _ w' ts' y hb =>
      simp only [List.cons_append, List.cons.injEq, Prod.mk.injEq, View.word.injEq, and_true] at he
      obtain ⟨rfl, he⟩ := he
      obtain ⟨rfl, rfl⟩ := ih hb he (by rw [plus_plus]; rw [blen_append] at h1; exact h1)
        (by rw [plus_plus]; rw [blen_append] at h2; exact h2)
      exact ⟨rfl, rfl⟩

theorem bare_unique {p q : Pos} {a b : List Tok} {x y : Str} {r r' : List Tok} (h : Bare p a x)
    (h' : Bare q b y) (he : a ++ r = b ++ r') (h1 : NotAt (p.plus (blen x)) r)
    (h2 : NotAt (q.plus (blen y)) r') : a = b ∧ x = y ∧ p = q ∧ r = r' := by
  obtain ⟨w, ts, z, rfl, rfl, hp⟩ := h
  obtain ⟨w', ts', z', rfl, rfl, hp'⟩ := h'
  have he' := he
  simp only [List.cons_append, List.cons.injEq, Prod.mk.injEq, View.word.injEq] at he'
  obtain ⟨⟨rfl, rfl⟩, he'⟩ := he'
  obtain ⟨rfl, rfl⟩ := pieces_unique hp hp' he' (by rw [plus_plus]; rw [blen_append] at h1; exact h1)
    (by rw [plus_plus]; rw [blen_append] at h2; exact h2)
  exact ⟨rfl, rfl, rfl, List.append_cancel_left he⟩

theorem bare_ty (hC : Cx E s) {p : Pos} {ts : List Tok} {x : Str} {r : List Tok} (hb : Bare p ts x)
    (hv : V E s = ts ++ r) : ∃ id, (pk E s).ty = .literalOrIdent id ∧ (pk E s).start = p := by
  obtain ⟨w, ts', y, rfl, -, -⟩ := hb
  obtain ⟨⟨id, h1, -⟩, h2, -⟩ := hC.view hv
  exact ⟨id, h1, h2⟩

/-- Reading the tokens of a bare literal. -/
theorem munch_bare (hE : EnvEof E) (hC : Ch E pre s) {p : Pos} {ts : List Tok} {x : Str} {r : List Tok}
    (hb : Bare p ts x) (hv : V E s = ts ++ r) (hn : NotAt (p.plus (blen x)) r) {id : Nat}
    (hty : (pk E s).ty = .literalOrIdent id) (k : Slice × Span → M β) :
    ∃ g l sp s', Munched E s (pre ++ g) x l sp ts s' ∧ Blank g ∧ p = posOf (pre ++ g) ∧ V E s' = r ∧
      (do let token ← next E
          let lit ← literal E id token.start
          let r ← combineAdjacentDotAndLit E lit (Span.fromPosLen token.start (blen lit.text))
          k r : M β) s = k (l, sp) s' := by
  obtain ⟨g, y, l, sp, us, s', hM, hB, hr⟩ := munch hE hC hty k
  obtain ⟨rfl, rfl, rfl, hrr⟩ := bare_unique hb hM.bare (by rw [← hv, hM.view]) hn (by
    have := hM.stop
    rw [posOf_plus (y := y) hM.lit.nonl] at this
    exact this)
  exact ⟨g, l, sp, s', hM, hB, rfl, hrr.symm, hr⟩

theorem pk_word (hE : EnvEof E) (hC : Cx E s) (h : Follow (V E s)) (id : Nat) :
    (pk E s).ty ≠ .literalOrIdent id := by
  intro hty
  have w := hC.step hE (by rw [hty]; simp)
  cases hv : V E s with
  | nil => have := w.view; rw [hv] at this; simp at this
  | cons t r =>
    obtain ⟨v, p⟩ := t
    have h1 := (hC.view hv).1
    rw [hty] at h1
    rcases h v p r hv with rfl | ⟨x, rfl⟩ | rfl | rfl | rfl <;> simp [TyOf] at h1

/-- A value that was read from `s` on ends where `s'` is. -/
def StopsAt (E : Env) (s : PS) (v : Value) (s' : PS) : Prop :=
  ∃ pre, Ch E pre s' ∧ v.stop = posOf pre ∧ Pos.le (pk E s).start v.stop

/-- A bare literal. -/
theorem parseLiteralValue_bare (hE : EnvEof E) (hC : Cx E s) {p : Pos} {ts : List Tok} {x : Str} {tv : TVal}
    {r : List Tok} (hb : Bare p ts x) (hs : Scalar x tv) (hv : V E s = ts ++ r) (hn : NotAt (p.plus (blen x)) r)
    (hf : (∀ d, tv ≠ .dateTime d) ∨ Follow r) {id : Nat}
    (hty : (pk E s).ty = .literalOrIdent id) {v : Value} (h : parseLiteralValue E id s = .ok v s') :
    valueOf v = tv ∧ Ate E s ts s' ∧ StopsAt E s v s' := by
  obtain ⟨pre, hC⟩ := hC
  obtain ⟨id', -, hst⟩ := bare_ty hC.cx hb hv
  obtain ⟨g, l, sp, s1, hM, hB, rfl, hr, hrun⟩ := munch_bare hE hC hb hv hn hty
    (fun r => literalValue E r.1 r.2)
  have hstop : ∀ w : Value, w.stop = sp.stop → StopsAt E s w s1 := by
    intro w hw
    refine ⟨_, hM.ch, by rw [hw, hM.lit.span], ?_⟩
    rw [hw, hM.lit.span, hst]
    exact posOf_mono _ _
  have h : literalValue E l sp s1 = .ok v s' := by rw [← hrun]; exact h
  have hat : Ate E s ts s1 := ⟨hM.went, hM.errors⟩
  unfold literalValue at h
  have htx : l.text = x := by rw [hM.lit.lit]
  obtain ⟨pv, h1, h2⟩ := parseLiteral_scalar (ovf := E.ovf) (span := sp).1 hs
  rw [htx, h1] at h
  cases pv with
  | float f => obtain ⟨rfl, rfl⟩ := pure_inv h; cases h2; exact ⟨rfl, hat, hstop _ rfl⟩
  | int f => obtain ⟨rfl, rfl⟩ := pure_inv h; cases h2; exact ⟨rfl, hat, hstop _ rfl⟩
  | bool f => obtain ⟨rfl, rfl⟩ := pure_inv h; cases h2; exact ⟨rfl, hat, hstop _ rfl⟩
  | dateTime f => obtain ⟨rfl, rfl⟩ := pure_inv h; cases h2; exact ⟨rfl, hat, hstop _ rfl⟩
  | invalidDateTime e => cases h2
  | partialDate d =>
    cases h2
    dsimp only at h
    unfold tryToParseTimePart at h
    rw [bind_peek] at h
    have hw := pk_word hE hM.ch.cx (by
      rw [hr]
      rcases hf with hf | hf
      · exact absurd rfl (hf _)
      · exact hf)
    generalize (pk E s1).ty = ty at h hw
    split at h
    · exact absurd rfl (hw _)
    · obtain ⟨rfl, rfl⟩ := pure_inv h
      exact ⟨rfl, hat, hstop _ rfl⟩

/-- A date and a time behind a blank. -/
theorem parseLiteralValue_spaced (hE : EnvEof E) (hC : Cx E s) {p q : Pos} {ts ts' : List Tok} {x y : Str}
    {dt : DateTime} {r : List Tok} (hb : Bare p ts x) (hb' : Bare q ts' y)
    (hq : q = (p.plus (blen x)).plus 1) (hs : Spaced x y dt) (hv : V E s = ts ++ ts' ++ r) (hf : Follow r)
    {id : Nat} (hty : (pk E s).ty = .literalOrIdent id) {v : Value}
    (h : parseLiteralValue E id s = .ok v s') :
    valueOf v = .dateTime dt ∧ Ate E s (ts ++ ts') s' ∧ StopsAt E s v s' := by
  obtain ⟨pre, hC⟩ := hC
  rw [List.append_assoc] at hv
  obtain ⟨id0, -, hst⟩ := bare_ty hC.cx hb hv
  have hn : NotAt (p.plus (blen x)) (ts' ++ r) := by
    obtain ⟨w, ts'', z, rfl, -, -⟩ := hb'
    intro v r' he
    simp only [List.cons_append, List.cons.injEq, Prod.mk.injEq] at he
    obtain ⟨⟨-, he⟩, -⟩ := he
    rw [he] at hq
    simp [Pos.plus] at hq
  obtain ⟨g, l, sp, s1, hM, hB, rfl, hr, hrun⟩ := munch_bare hE hC hb hv hn hty
    (fun r => literalValue E r.1 r.2)
  have h : literalValue E l sp s1 = .ok v s' := by rw [← hrun]; exact h
  have hat : Ate E s ts s1 := ⟨hM.went, hM.errors⟩
  unfold literalValue at h
  have htx : l.text = x := by rw [hM.lit.lit]
  have hd : ∃ d, LooseDate d x := by
    obtain ⟨d, _, _, _, hd, -⟩ := spaced_run sp hs
    exact ⟨d, hd⟩
  obtain ⟨id', hty', hst'⟩ := bare_ty hM.ch.cx hb' hr
  obtain ⟨g', l', sp', s2, hM', hB', hq', hr', hrun'⟩ := munch_bare hE hM.ch hb' hr (hf.notAt _) hty'
    (fun r => (timePart E l sp (Classical.choose hd) r.1 r.2))
  obtain ⟨d, t, o, cur, hd1, hp, rfl⟩ := spaced_run sp' hs
  have hlit : parseLiteral E.ovf x sp = .ok (.partialDate d) := parseLiteral_date.2 (.date hd1)
  rw [htx, hlit] at h
  dsimp only at h
  have hdd : Classical.choose hd = d := by
    have h1 : parseLiteral E.ovf x sp = .ok (.partialDate (Classical.choose hd)) :=
      parseLiteral_date.2 (.date (Classical.choose_spec hd))
    rw [hlit] at h1
    cases h1; rfl
  rw [hdd] at hrun'
  unfold tryToParseTimePart at h
  rw [bind_peek, hty'] at h
  have h : timePart E l sp d l' sp' s2 = .ok v s' := by rw [← hrun']; exact h
  have hat' : Ate E s1 ts' s2 := ⟨hM'.went, hM'.errors⟩
  unfold timePart at h
  have hnear : ¬ sp'.start.char > sp.stop.char + 1 := by
    have e1 := hM.lit.span
    have e2 := hM'.lit.span
    subst e1 e2
    dsimp only
    rw [posOf_plus (x := pre ++ g) (y := x) hM.lit.nonl, ← hq', hq]
    simp [Pos.plus]
  rw [if_neg hnear] at h
  dsimp only at h
  obtain ⟨-, hcat⟩ := Lit.across (β := Value) hM.lit hM'.lit rfl hB'.nonl
  rw [hcat] at h
  dsimp only at h
  have htx' : l'.text = y := by rw [hM'.lit.lit]
  rw [htx', hp] at h
  dsimp only at h
  obtain ⟨rfl, rfl⟩ := pure_inv h
  refine ⟨rfl, hat.trans hat', _, hM'.ch, ?_, ?_⟩
  · show (Span.across sp sp').stop = _
    rw [show (Span.across sp sp').stop = sp'.stop from rfl, hM'.lit.span]
  · show Pos.le _ (Span.across sp sp').stop
    rw [show (Span.across sp sp').stop = sp'.stop from rfl, hM'.lit.span, hst]
    have := posOf_mono (pre ++ g) (x ++ g' ++ y)
    simpa using this

end Verif.Toml
