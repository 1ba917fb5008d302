import Verif.Toml.LineLogic
import Verif.Spec.Soft

/-! # The parser on the tokens of a damaged entry -/

namespace Verif.Toml
open Verif Verif.Spec.Toml

variable {α β : Type} {E : Env} {s s' s1 s2 : PS} {pre : Str}

/-! ## Places of tokens -/

theorem ple_refl (p : Pos) : Pos.le p p := by unfold Pos.le; omega

theorem ple_trans {p q r : Pos} (h1 : Pos.le p q) (h2 : Pos.le q r) : Pos.le p r := by unfold Pos.le at *; omega

theorem ple_plus (p : Pos) (n : Nat) : Pos.le p (p.plus n) := by unfold Pos.le Pos.plus; simp

theorem ple_plus_plus (p : Pos) {m n : Nat} (h : m ≤ n) : Pos.le (p.plus m) (p.plus n) := by
  unfold Pos.le Pos.plus; simp [h]

/-- The tokens are in the order of their places, and none is in front of `p`. -/
def Asc : Pos → List Tok → Prop
  | _, [] => True
  | p, t :: ts => Pos.le p t.2 ∧ Asc t.2 ts

theorem Asc.all {ts : List Tok} : ∀ {p : Pos}, Asc p ts → ∀ t ∈ ts, Pos.le p t.2 := by
  induction ts with
  | nil => intro p _ t ht; cases ht
  | cons a ts ih =>
    intro p h t ht
    rcases List.mem_cons.1 ht with rfl | ht
    · exact h.1
    · exact ple_trans h.1 (ih h.2 t ht)

theorem Asc.mono {ts : List Tok} {p q : Pos} (h : Asc p ts) (hq : Pos.le q p) : Asc q ts := by
  cases ts with
  | nil => trivial
  | cons a ts => exact ⟨ple_trans hq h.1, h.2⟩

theorem Asc.right {a b : List Tok} : ∀ {p : Pos}, Asc p (a ++ b) → Asc p b := by
  induction a with
  | nil => intro p h; exact h
  | cons t a ih => intro p h; exact (ih h.2).mono h.1

/-- In front of a token. -/
theorem Asc.before {a b : List Tok} {d : Tok} {p : Pos} (h : Asc p (a ++ d :: b)) : ∀ t ∈ a, Pos.le t.2 d.2 := by
  induction a generalizing p with
  | nil => intro t ht; cases ht
  | cons x a ih =>
    intro t ht
    rcases List.mem_cons.1 ht with rfl | ht
    · exact h.2.right.1
    · exact ih h.2 t ht

theorem Chain.asc : ∀ {ts : List Token} {pre : Str}, Chain E pre ts → Asc (posOf pre) (ts.map (vw E)) := by
  intro ts
  induction ts with
  | nil => intros; trivial
  | cons t ts ih =>
    intro pre h
    obtain ⟨g, y, -, h2, h3⟩ := h.cons_inv
    rw [List.map_cons]
    have hp : (vw E t).2 = posOf (pre ++ g) := by rw [h2.tyOf.2, h2.start]
    refine ⟨by rw [hp]; exact posOf_mono _ _, (ih h3).mono ?_⟩
    rw [hp]; exact posOf_mono _ _

theorem Ch.asc (h : Ch E pre s) : Asc (posOf pre) (V E s) := h.chain.asc

theorem Cx.asc (h : Cx E s) : ∃ p, Asc p (V E s) := by
  obtain ⟨pre, h⟩ := h
  exact ⟨_, h.asc⟩

/-- What a token reaches to. -/
theorem NextTok.here {g y : Str} (h : NextTok E pre s g y) : (pk E s).start = posOf (pre ++ g) ∧
    vw E (pk E s) = ((vw E (pk E s)).1, posOf (pre ++ g)) := by
  refine ⟨h.tok.start, ?_⟩
  rw [← h.tok.start, ← h.tok.tyOf.2]

/-! ## Diagnostics in a part of the text -/

/-- The place is in a part of the text. -/
def InF (f : Fault) (p : Pos) : Prop := Pos.le f.1 p ∧ Pos.le p f.2

/-- The diagnostics other than `es0` begin in the part `f`. -/
def ErrsIn (f : Fault) (es0 : List Error) (s : PS) : Prop :=
  ∃ new, s.errors = es0 ++ new ∧ ∀ e ∈ new, InF f e.span.start

theorem ErrsIn.same {f : Fault} {es0 : List Error} (h : ErrsIn f es0 s) (he : s'.errors = s.errors) : ErrsIn f es0 s' := by
  unfold ErrsIn; rw [he]; exact h

theorem ErrsIn.err {f : Fault} {es0 : List Error} (h : ErrsIn f es0 s) {e : Error} (he : InF f e.span.start) :
    ErrsIn f es0 (s.err e) := by
  obtain ⟨new, h1, h2⟩ := h
  refine ⟨new ++ [e], by simp [PS.err, h1], ?_⟩
  intro e' he'
  rcases List.mem_append.1 he' with h | h
  · exact h2 e' h
  · rw [List.mem_singleton.1 h]; exact he

/-! ## Damaged entries -/

/-- A comma or a closing bracket. -/
def isDelim (v : View) : Prop := v = .punct ',' ∨ v = .punct ']' ∨ v = .punct '}'

/-- The parser is in a damaged entry, which ends with `d`; if `b`, there are no line breaks and comments in it. -/
structure JS (E : Env) (b : Bool) (d : Tok) (R : List Tok) (lo : Pos) (es0 : List Error) (s : PS) : Prop where
  eofTy : EnvEof E
  cx : Cx E s
  delim : isDelim d.1
  seg : ∃ a, V E s = a ++ d :: R ∧ (∀ t ∈ a, isJunk t.1 = true) ∧
    (∀ t ∈ a ++ [d], isGap t.1 = false → Pos.le lo t.2) ∧ (b = true → ∀ t ∈ a, isGap t.1 = false)
  errs : ErrsIn (lo, d.2) es0 s

variable {b : Bool} {d : Tok} {R : List Tok} {lo : Pos} {es0 : List Error}

theorem delim_junk {v : View} (h : isDelim v) : isJunk v = false := by
  rcases h with rfl | rfl | rfl <;> rfl

theorem delim_gap {v : View} (h : isDelim v) : isGap v = false := by
  rcases h with rfl | rfl | rfl <;> rfl

theorem JS.same (h : JS E b d R lo es0 s) (hr : s'.rest = s.rest) (he : s'.errors = s.errors) : JS E b d R lo es0 s' := by
  refine ⟨h.eofTy, h.cx.of_rest hr, h.delim, ?_, h.errs.same he⟩
  have : V E s' = V E s := by unfold V; rw [hr]
  rw [this]; exact h.seg

theorem JS.still {m : M α} {a : α} (h : JS E b d R lo es0 s) (hm : Still m) (hq : Quiet m) (hr : m s = .ok a s') :
    JS E b d R lo es0 s' := h.same (hm.out _ _ _ hr) (hq.out _ _ _ hr)

theorem JS.err (h : JS E b d R lo es0 s) {e : Error} (he : InF (lo, d.2) e.span.start) : JS E b d R lo es0 (s.err e) :=
  ⟨h.eofTy, h.cx.of_rest rfl, h.delim, h.seg, h.errs.err he⟩

/-- Text in front of the cursor is in front of the end of the entry. -/
theorem JS.upper (h : JS E b d R lo es0 s) (hC : Ch E pre s) : Pos.le (posOf pre) d.2 := by
  obtain ⟨a, h1, -⟩ := h.seg
  exact hC.asc.all d (by rw [h1]; simp)

/-- What is consumed, other than the end. -/
theorem JS.went (h : JS E b d R lo es0 s) {us : List Tok} (hw : Went E s us s') (hj : ∀ t ∈ us, isJunk t.1 = true)
    (he : ErrsIn (lo, d.2) es0 s') : JS E b d R lo es0 s' ∧ ∀ t ∈ us, isGap t.1 = false → Pos.le lo t.2 := by
  obtain ⟨a, h1, h2, h3, h4⟩ := h.seg
  have hsplit : ∀ {a us w : List Tok}, (∀ t ∈ us, isJunk t.1 = true) → a ++ d :: R = us ++ w →
      ∃ a', a = us ++ a' ∧ w = a' ++ d :: R := by
    intro a us w hj he
    induction us generalizing a with
    | nil => exact ⟨a, rfl, he.symm⟩
    | cons t us ih =>
      cases a with
      | nil =>
        simp only [List.nil_append, List.cons_append, List.cons.injEq] at he
        have := hj t (by simp)
        rw [← he.1, delim_junk h.delim] at this
        cases this
      | cons x a =>
        simp only [List.cons_append, List.cons.injEq] at he
        obtain ⟨rfl, he⟩ := he
        obtain ⟨a', rfl, hw⟩ := ih (fun t ht => hj t (by simp [ht])) he
        exact ⟨a', rfl, hw⟩
  obtain ⟨a', rfl, hv⟩ := hsplit hj (h1.symm.trans hw.view)
  exact ⟨⟨h.eofTy, hw.cx, h.delim, ⟨a', hv, fun t ht => h2 t (by simp [ht]), fun t ht => h3 t (by
    rcases List.mem_append.1 ht with ht | ht <;> simp [ht]), fun hb t ht => h4 hb t (by simp [ht])⟩, he⟩, fun t ht => h3 t (by simp [ht])⟩

/-- The next token: the end, or another one. -/
theorem JS.pk (h : JS E b d R lo es0 s) : (V E s = d :: R ∧ TyOf E d.1 (Toml.pk E s).ty ∧ (Toml.pk E s).start = d.2) ∨
    (∃ v r, V E s = (v, (Toml.pk E s).start) :: r ∧ isJunk v = true ∧ TyOf E v (Toml.pk E s).ty ∧
      (isGap v = false → Pos.le lo (Toml.pk E s).start) ∧ JS E b d R lo es0 s.adv) := by
  obtain ⟨a, h1, h2, h3, h4⟩ := h.seg
  cases a with
  | nil =>
    obtain ⟨g1, g2, -⟩ := h.cx.view (v := d.1) (p := d.2) h1
    exact .inl ⟨h1, g1, g2⟩
  | cons t a =>
    obtain ⟨v, p⟩ := t
    obtain ⟨g1, g2, g3, g4⟩ := h.cx.view h1
    have w := h.cx.eat h1
    refine .inr ⟨v, a ++ d :: R, by rw [h1, g2]; rfl, h2 (v, p) (by simp), g1, ?_, ?_⟩
    · intro hg; rw [g2]; exact h3 (v, p) (by simp) hg
    · exact (h.went w.toWent (by intro t ht; rw [List.mem_singleton.1 ht]; exact h2 (v, p) (by simp)) (h.errs.same w.errs)).1

theorem JS.ne_eof (h : JS E b d R lo es0 s) : (Toml.pk E s).ty ≠ .eof := by
  obtain ⟨a, h1, -⟩ := h.seg
  cases a with
  | nil => exact h.cx.ne_eof h1
  | cons t a => exact h.cx.ne_eof h1

/-- The next token is no opening bracket and no comma or closing bracket other than `d`. -/
theorem JS.adv (h : JS E b d R lo es0 s) (h1 : (Toml.pk E s).ty ≠ .comma) (h2 : (Toml.pk E s).ty ≠ .squareRight)
    (h3 : (Toml.pk E s).ty ≠ .curlyRight) : JS E b d R lo es0 s.adv := by
  rcases h.pk with ⟨-, g, -⟩ | ⟨_, _, -, -, -, -, g⟩
  · rcases h.delim with e | e | e <;> rw [e] at g <;> simp [TyOf] at g
    · exact absurd g h1
    · exact absurd g h2
    · exact absurd g h3
  · exact g

theorem JS.noOpen (h : JS E b d R lo es0 s) : (Toml.pk E s).ty ≠ .squareLeft ∧ (Toml.pk E s).ty ≠ .curlyLeft := by
  rcases h.pk with ⟨-, g, -⟩ | ⟨v, _, -, hj, g, -, -⟩
  · rcases h.delim with e | e | e <;> rw [e] at g <;> simp [TyOf] at g <;> rw [g] <;> simp
  · cases v with
    | string q lit txt => obtain ⟨_, _, _, g, -⟩ := g; rw [g]; simp
    | word w => obtain ⟨_, g, -⟩ := g; rw [g]; simp
    | comment w => obtain ⟨_, g, -⟩ := g; rw [g]; simp
    | newline => have g : _ = _ := g; rw [g]; simp
    | punct c =>
      simp only [isJunk, Bool.or_eq_true, decide_eq_true_eq] at hj
      rcases hj with rfl | rfl <;> simp [TyOf] at g <;> rw [g] <;> simp

/-- The place of the next token, unless it is a line break or a comment. -/
theorem JS.here (h : JS E b d R lo es0 s) (h1 : (Toml.pk E s).ty ≠ .newline) (h2 : ∀ id, (Toml.pk E s).ty ≠ .comment id) :
    InF (lo, d.2) (Toml.pk E s).start := by
  obtain ⟨a, e1, e2, e3, -⟩ := h.seg
  obtain ⟨p0, hasc⟩ := h.cx.asc
  rw [e1] at hasc
  cases a with
  | nil =>
    obtain ⟨-, g2, -⟩ := h.cx.view (v := d.1) (p := d.2) e1
    rw [g2]
    exact ⟨e3 d (by simp) (delim_gap h.delim), ple_refl _⟩
  | cons t a =>
    obtain ⟨v, p⟩ := t
    obtain ⟨g1, g2, -⟩ := h.cx.view e1
    rw [g2]
    refine ⟨e3 (v, p) (by simp) ?_, hasc.before (v, p) (by simp)⟩
    cases v with
    | newline => exact absurd g1 h1
    | comment x => obtain ⟨id, g, -⟩ := g1; exact absurd g (h2 id)
    | string => rfl
    | word => rfl
    | punct => rfl

theorem JS.noGap (h : JS E true d R lo es0 s) : (Toml.pk E s).ty ≠ .newline ∧ ∀ id, (Toml.pk E s).ty ≠ .comment id := by
  obtain ⟨a, e1, -, -, e4⟩ := h.seg
  cases a with
  | nil =>
    obtain ⟨g, -⟩ := h.cx.view (v := d.1) (p := d.2) e1
    rcases h.delim with e | e | e <;> rw [e] at g <;> simp [TyOf] at g <;> rw [g] <;> simp
  | cons t a =>
    obtain ⟨v, p⟩ := t
    obtain ⟨g, -⟩ := h.cx.view e1
    have hv := e4 rfl (v, p) (by simp)
    cases v with
    | string q lit txt => obtain ⟨_, _, _, g, -⟩ := g; rw [g]; simp
    | word w => obtain ⟨_, g, -⟩ := g; rw [g]; simp
    | comment w => cases hv
    | newline => cases hv
    | punct c =>
      constructor
      · intro he; rw [he] at g; simp [TyOf] at g
      · intro id he; rw [he] at g; simp [TyOf] at g

theorem JS.delimTy (h : JS E b d R lo es0 s) (hv : V E s = d :: R) :
    (d.1 = .punct ',' ∧ (Toml.pk E s).ty = .comma) ∨ (d.1 = .punct ']' ∧ (Toml.pk E s).ty = .squareRight) ∨
    (d.1 = .punct '}' ∧ (Toml.pk E s).ty = .curlyRight) := by
  have g := (h.cx.view (v := d.1) (p := d.2) hv).1
  rcases h.delim with e | e | e <;> rw [e] at g ⊢ <;> simp [TyOf] at g <;> simp [g]

/-! ## Recovery -/

theorem skipUntil_same {stop : TokenType → Bool} : ∀ (ts : List Token) (a b : PS), a.done = b.done → a.errors = b.errors →
    a.storage = b.storage → skipUntil E stop ts a = skipUntil E stop ts b := by
  intro ts
  induction ts with
  | nil =>
    intro a b e1 e2 e3
    unfold skipUntil
    obtain ⟨_, _, _, _⟩ := a; obtain ⟨_, _, _, _⟩ := b
    simp only at e1 e2 e3; subst e1 e2 e3; rfl
  | cons t ts ih =>
    intro a b e1 e2 e3
    unfold skipUntil
    split
    · obtain ⟨_, _, _, _⟩ := a; obtain ⟨_, _, _, _⟩ := b
      simp only at e1 e2 e3; subst e1 e2 e3; rfl
    · exact ih _ _ (by simp [e1]) e2 e3

/-- The recovery stops at the end of the entry, or before. -/
theorem skip_junk {stop : TokenType → Bool}
    (hstop : (d.1 = .punct ',' ∧ stop .comma = true) ∨ (d.1 = .punct ']' ∧ stop .squareRight = true) ∨
      (d.1 = .punct '}' ∧ stop .curlyRight = true)) :
    ∀ (ts : List Token) (s : PS), ts = s.rest → JS E b d R lo es0 s → skipUntil E stop ts s = .ok () s' →
    JS E b d R lo es0 s' ∧ stop (pk E s').ty = true := by
  intro ts
  induction ts with
  | nil =>
    intro s hs h hr
    exfalso
    obtain ⟨a, h1, -⟩ := h.seg
    unfold V at h1
    rw [← hs] at h1
    simp at h1
  | cons t ts ih =>
    intro s hs h hr
    have hp : pk E s = t := by unfold pk; rw [← hs]; rfl
    unfold skipUntil at hr
    split at hr
    · rename_i hst
      cases hr
      exact ⟨h.same hs rfl, by unfold pk; exact hst⟩
    · rename_i hst
      have hadv : ({ s with done := t :: s.done, rest := ts } : PS) = s.adv := by
        unfold PS.adv; rw [← hs]
      have hl : JS E b d R lo es0 s.adv := by
        rcases h.pk with ⟨g, -⟩ | ⟨_, _, -, -, -, -, g⟩
        · exfalso
          rw [← hp] at hst
          rcases h.delimTy g with ⟨e, e'⟩ | ⟨e, e'⟩ | ⟨e, e'⟩ <;> rw [e'] at hst <;>
            rcases hstop with ⟨k, k'⟩ | ⟨k, k'⟩ | ⟨k, k'⟩ <;>
            first
              | exact hst k'
              | (rw [e] at k; simp at k)
        · exact g
      refine ih _ (by rw [← hadv]) hl ?_
      rw [← hr, ← hadv]
      exact skipUntil_same _ _ _ rfl rfl rfl

theorem recover_junk {stop : TokenType → Bool} {u : Unit}
    (hstop : (d.1 = .punct ',' ∧ stop .comma = true) ∨ (d.1 = .punct ']' ∧ stop .squareRight = true) ∨
      (d.1 = .punct '}' ∧ stop .curlyRight = true))
    (h : JS E b d R lo es0 s) (hr : recoverOn E stop s = .ok u s') :
    JS E b d R lo es0 s' ∧ stop (pk E s').ty = true := skip_junk hstop _ _ rfl h hr

/-! ## Keys -/

/-- A failed key has its diagnostic in the part `f`; no string is open. -/
def KeyIn (f : Fault) : KeyResult → Prop
  | .err e => InF f e.span.start
  | .unterminatedStr _ => False
  | .ok _ => True

/-- The next token is a word. -/
theorem JS.word (h : JS E b d R lo es0 s) {id : Nat} (hty : (Toml.pk E s).ty = .literalOrIdent id) :
    ∃ y, E.literals[id]? = some y ∧ (∀ n, n ≤ blen y → InF (lo, d.2) ((Toml.pk E s).start.plus n)) ∧
      JS E b d R lo es0 s.adv ∧
      ∃ o, ∀ {β : Type} (s0 : PS) (k : Slice → M β), (literal E id (Toml.pk E s).start >>= k) s0 = k ⟨o, y⟩ s0 := by
  obtain ⟨pre, hC⟩ := h.cx
  obtain ⟨g, y, hN⟩ := hC.next h.eofTy h.ne_eof
  obtain ⟨b1, b2, b3, b4, b5⟩ := hN.lit hty
  have hadv := h.adv (by rw [hty]; simp) (by rw [hty]; simp) (by rw [hty]; simp)
  have hin := h.here (by rw [hty]; simp) (by rw [hty]; simp)
  refine ⟨y, b3, ?_, hadv, blen (pre ++ g), ?_⟩
  · intro n hn
    refine ⟨ple_trans hin.1 (ple_plus _ _), ?_⟩
    have := hadv.upper hN.ch
    rw [posOf_plus b2, ← hN.tok.start] at this
    exact ple_trans (ple_plus_plus _ hn) this
  · intro β s0 k
    rw [b4, bind_lift _ _ rfl]

theorem JS.string (h : JS E b d R lo es0 s) {id : Nat} (hty : (Toml.pk E s).ty = .string id) :
    ∃ st, E.strings[id]? = some st ∧ st.textOffset.endChar ≠ 0 ∧ JS E b d R lo es0 s.adv ∧ InF (lo, d.2) (Toml.pk E s).start ∧
      InF (lo, d.2) st.litEnd := by
  have hadv := h.adv (by rw [hty]; simp) (by rw [hty]; simp) (by rw [hty]; simp)
  have hin := h.here (by rw [hty]; simp) (by rw [hty]; simp)
  obtain ⟨pre, hC⟩ := h.cx
  obtain ⟨g, y, hN⟩ := hC.next h.eofTy h.ne_eof
  have ht := hN.tok.text
  rw [hty] at ht
  obtain ⟨q, txt, o, hs, -⟩ := ht
  refine ⟨_, hs, ?_, hadv, hin, ?_, hadv.upper hN.ch⟩
  · rcases h.pk with ⟨g, -⟩ | ⟨v, r, hv, hj, hv', -⟩
    · rcases h.delimTy g with ⟨-, e⟩ | ⟨-, e⟩ | ⟨-, e⟩ <;> rw [hty] at e <;> cases e
    · cases v with
      | string q lit txt =>
        obtain ⟨id', o', e', k1, k2, k3⟩ := hv'
        rw [hty] at k1
        cases k1
        rw [hs] at k2
        cases k2
        exact k3
      | word w => obtain ⟨_, g, -⟩ := hv'; rw [hty] at g; cases g
      | comment w => obtain ⟨_, g, -⟩ := hv'; rw [hty] at g; cases g
      | newline => have g : _ = _ := hv'; rw [hty] at g; cases g
      | punct c =>
        simp only [isJunk, Bool.or_eq_true, decide_eq_true_eq] at hj
        rcases hj with rfl | rfl <;> simp [TyOf, hty] at hv'
  · refine ple_trans hin.1 ?_
    rw [hN.tok.start]
    exact posOf_mono _ _

theorem fmt_in {t : Token} {f : Str × Span → M β} {r : β} (hr : (tokenFmtStrAndSpan E t >>= f) s = .ok r s') :
    ∃ g sp, sp.start = t.start ∧ f (g, sp) s = .ok r s' := bind_fmt_inv hr

theorem parseIdent_junk {r : Ident ⊕ KeyResult} (h : JS E true d R lo es0 s) (hr : parseIdent E s = .ok r s') :
    JS E true d R lo es0 s' ∧ ∀ kr, r = .inr kr → KeyIn (lo, d.2) kr := by
  have hl := h.here h.noGap.1 h.noGap.2
  unfold parseIdent at hr
  rw [bind_peek] at hr
  generalize hty : (pk E s).ty = ty at hr
  split at hr
  · rename_i id
    obtain ⟨st, hst, hcl, ha, -, -⟩ := h.string hty
    have : getString E id = (M.lift (some st) : M StringToken) := by unfold getString; rw [hst]
    rw [this, bind_lift _ _ rfl] at hr
    dsimp only at hr
    generalize st.quote = q at hr
    split at hr
    · obtain ⟨rfl, rfl⟩ := pure_inv hr
      exact ⟨h, by rintro kr h; cases h; exact hl⟩
    · obtain ⟨rfl, rfl⟩ := pure_inv hr
      exact ⟨h, by rintro kr h; cases h; exact hl⟩
    · rw [bind_next, if_neg (fun hh => hcl hh.2)] at hr
      obtain ⟨rfl, rfl⟩ := pure_inv hr
      exact ⟨ha, by rintro kr h; cases h⟩
  · rename_i id
    obtain ⟨y, hy, hin, ha, o, hlit⟩ := h.word hty
    rw [hlit] at hr
    dsimp only at hr
    generalize hf : findInvalidChar 0 y = q at hr
    split at hr
    · rw [bind_next] at hr
      obtain ⟨rfl, rfl⟩ := pure_inv hr
      exact ⟨ha, by rintro kr h; cases h⟩
    · rename_i i c
      obtain ⟨a, b, e1, e2, e3, e4⟩ := findInvalidChar_some _ _ _ _ hf
      have hi : i ≤ blen y := by rw [e1, blen_append]; omega
      split at hr
      · obtain ⟨rfl, rfl⟩ := pure_inv hr
        exact ⟨h, by rintro kr h; cases h; exact hin i hi⟩
      · rw [bind_error, bind_next] at hr
        obtain ⟨rfl, rfl⟩ := pure_inv hr
        refine ⟨?_, by rintro kr h; cases h⟩
        have h1 := h.err (e := .invalidCharInIdentifier c ((pk E s).start.plus i)) (hin i hi)
        exact h1.adv (by show (pk E s).ty ≠ _; rw [hty]; simp) (by show (pk E s).ty ≠ _; rw [hty]; simp)
          (by show (pk E s).ty ≠ _; rw [hty]; simp)
  · obtain ⟨f, sp, hsp, hr⟩ := bind_fmt_inv hr
    dsimp only at hr
    obtain ⟨rfl, rfl⟩ := pure_inv hr
    exact ⟨h, by rintro kr h; cases h; show InF _ sp.start; rw [hsp]; exact hl⟩

theorem parseKeyLoop_junk : ∀ (n : Nat) {ids : List DottedIdent} {s : PS} {r : KeyResult},
    JS E true d R lo es0 s → parseKeyLoop E n ids s = .ok r s' → JS E true d R lo es0 s' ∧ KeyIn (lo, d.2) r := by
  intro n
  induction n with
  | zero => intro ids s r _ h; cases h
  | succ n ih =>
    intro ids s r h hr
    unfold parseKeyLoop at hr
    obtain ⟨r1, s1, h1, hr⟩ := bind_inv hr
    obtain ⟨h2, h3⟩ := parseIdent_junk h h1
    clear h1
    cases r1 with
    | inr kr =>
      obtain ⟨rfl, rfl⟩ := pure_inv hr
      exact ⟨h2, h3 _ rfl⟩
    | inl i =>
      simp only [] at hr
      rw [bind_peek] at hr
      split at hr
      · rename_i hd
        rw [bind_next] at hr
        exact ih (h2.adv (by rw [hd]; simp) (by rw [hd]; simp) (by rw [hd]; simp)) hr
      · split at hr <;> obtain ⟨rfl, rfl⟩ := pure_inv hr <;> exact ⟨h2, trivial⟩

theorem parseKey_junk {r : KeyResult} (h : JS E true d R lo es0 s) (hr : parseKey E s = .ok r s') :
    JS E true d R lo es0 s' ∧ KeyIn (lo, d.2) r := by
  unfold parseKey at hr
  rw [bind_budget] at hr
  exact parseKeyLoop_junk _ h hr

/-! ## Literals -/

theorem pieces_junk {p : Pos} {us : List Tok} {x : Str} (h : Pieces p us x) : ∀ t ∈ us, isJunk t.1 = true ∧ isGap t.1 = false := by
  induction h with
  | nil => intro t ht; cases ht
  | dot _ ih =>
    intro t ht
    rcases List.mem_cons.1 ht with rfl | ht
    · exact ⟨rfl, rfl⟩
    · exact ih t ht
  | word _ ih =>
    intro t ht
    rcases List.mem_cons.1 ht with rfl | ht
    · exact ⟨rfl, rfl⟩
    · exact ih t ht

theorem bare_junk {p : Pos} {us : List Tok} {x : Str} (h : Bare p us x) : ∀ t ∈ us, isJunk t.1 = true ∧ isGap t.1 = false := by
  obtain ⟨w, ts, y, rfl, -, hp⟩ := h
  intro t ht
  rcases List.mem_cons.1 ht with rfl | ht
  · exact ⟨rfl, rfl⟩
  · exact pieces_junk hp t ht

/-- A literal, with the tokens that are stuck to it. -/
theorem munched_junk {x y : Str} {l : Slice} {sp : Span} {us : List Tok} (h : JS E b d R lo es0 s)
    (hM : Munched E s x y l sp us s') : JS E b d R lo es0 s' ∧ Pos.le lo (posOf x) ∧ Pos.le (posOf (x ++ y)) d.2 := by
  obtain ⟨h1, h2⟩ := h.went hM.went (fun t ht => (bare_junk hM.bare t ht).1) (h.errs.same hM.errors)
  refine ⟨h1, ?_, h1.upper hM.ch⟩
  obtain ⟨w, ts, z, hu, -, -⟩ := hM.bare
  exact h2 (.word w, posOf x) (by rw [hu]; simp) rfl

/-- In a literal. -/
theorem Lit.inF {x y : Str} {l : Slice} {sp : Span} (hL : Lit E x y l sp) (h1 : Pos.le lo (posOf x))
    (h2 : Pos.le (posOf (x ++ y)) d.2) : (∀ n, n ≤ blen y → InF (lo, d.2) ((posOf x).plus n)) ∧ InF (lo, d.2) sp.stop := by
  rw [hL.span]
  refine ⟨fun n hn => ⟨ple_trans h1 (ple_plus _ _), ?_⟩, ple_trans h1 (posOf_mono _ _), h2⟩
  rw [posOf_plus hL.nonl] at h2
  exact ple_trans (ple_plus_plus _ hn) h2

theorem Bnd.le_len {lit : Str} {o : Nat} (h : Bnd lit o) : o ≤ blen lit := by
  obtain ⟨a, b, rfl, rfl⟩ := h
  rw [blen_append]; omega

theorem Bd.inF {y : Str} {p : Pos} {e : Error} (h : Bd y p e) {f : Fault} (hy : ∀ n, n ≤ blen y → InF f (p.plus n)) :
    InF f e.span.start := by
  obtain ⟨o1, o2, h1, -, h2, -⟩ := h.at_
  rw [h1]; exact hy o1 h2.le_len

theorem timePart_junk {x y : Str} {a l : Slice} {sa sp : Span} {dt : Date} {r : Value} (h : JS E b d R lo es0 s)
    (hs : InF (lo, d.2) sa.stop) (hL : Lit E x y l sp) (hy : ∀ n, n ≤ blen y → InF (lo, d.2) ((posOf x).plus n))
    (hend : InF (lo, d.2) sp.stop)
    (hr : timePart E a sa dt l sp s = .ok r s') : JS E b d R lo es0 s' ∧ InF (lo, d.2) r.stop := by
  have hkey : ∀ {s1 : PS}, JS E b d R lo es0 s1 → (do
      let lit ← concatStrs E a l
      let span := Span.across sa sp
      match parseTimeAndOffset ⟨0, l.text⟩ sp with
      | .ok ((time, offset), _) =>
        pure (.dateTime lit.text span (DateTime.fromOptionalOffset dt time offset))
      | .err e => do
        error e
        pure (.invalid lit.text span)
      | .panic => M.panic : M Value) s1 = .ok r s' → JS E b d R lo es0 s' ∧ InF (lo, d.2) r.stop := by
    intro s1 h1 hr
    obtain ⟨c, -, hr⟩ := bind_lift_inv hr
    dsimp only at hr
    generalize hp : parseTimeAndOffset ⟨0, l.text⟩ sp = res at hr
    split at hr
    · obtain ⟨rfl, rfl⟩ := pure_inv hr
      exact ⟨h1, hend⟩
    · rename_i e
      rw [bind_error] at hr
      obtain ⟨rfl, rfl⟩ := pure_inv hr
      refine ⟨h1.err ?_, hend⟩
      have hbd := parseTimeAndOffset_bd (p := posOf x) (lit := y) (cur := ⟨0, y⟩) CurAt.zero
      rw [hL.fromPosLen, hL.lit] at hp
      exact (hbd.2 e hp).inF hy
    · cases hr
  unfold timePart at hr
  split at hr
  · rw [bind_error] at hr
    exact hkey (h.err (e := .dateAndTimeTooFarApart (Span.between sa sp)) hs) hr
  · exact hkey h hr

theorem tryToParseTimePart_junk {a : Slice} {sa : Span} {dt : Date} {r : Value}
    (h : JS E b d R lo es0 s) (hs : InF (lo, d.2) sa.stop)
    (hr : tryToParseTimePart E a sa dt s = .ok r s') : JS E b d R lo es0 s' ∧ InF (lo, d.2) r.stop := by
  unfold tryToParseTimePart at hr
  rw [bind_peek] at hr
  generalize hty : (pk E s).ty = ty at hr
  split at hr
  · rename_i id
    obtain ⟨pre, hC⟩ := h.cx
    obtain ⟨g, y, l, sp, us, s2, hM, -, hrun⟩ := munch h.eofTy hC hty (fun r => timePart E a sa dt r.1 r.2)
    have hr : timePart E a sa dt l sp s2 = .ok r s' := by rw [← hrun]; exact hr
    obtain ⟨g1, g2, g3⟩ := munched_junk h hM
    obtain ⟨k1, k2⟩ := hM.lit.inF g2 g3
    exact timePart_junk g1 hs hM.lit k1 k2 hr
  · obtain ⟨rfl, rfl⟩ := pure_inv hr
    exact ⟨h, hs⟩

/-- Tokens that are stuck to a literal. -/
theorem combine_junk {x y : Str} {lit l : Slice} {span sp : Span} (h : JS E b d R lo es0 s) (hL : Lit E x y lit span)
    (hC : Ch E (x ++ y) s) (hx : Pos.le lo (posOf x))
    (hr : combineAdjacentDotAndLit E lit span s = .ok (l, sp) s') : JS E b d R lo es0 s' ∧ InF (lo, d.2) sp.stop := by
  unfold combineAdjacentDotAndLit at hr
  rw [bind_budget] at hr
  obtain ⟨l', sp', y', us, s2, a1, a2, a3⟩ := combineLoop_exact h.eofTy (s.rest.length + 1) hL hC (by omega)
  have := hr.symm.trans a1
  cases this
  obtain ⟨h1, -⟩ := h.went ⟨a3.view, a3.ch.cx⟩ (fun t ht => (pieces_junk a3.pieces t ht).1) (h.errs.same a3.errors)
  exact ⟨h1, (a2.inF hx (h1.upper a3.ch)).2⟩

theorem tryCombineTimePart_junk {x y : Str} {a : Slice} {sa : Span} {r : Value} (h : JS E b d R lo es0 s)
    (hL : Lit E x y a sa) (hC : Ch E (x ++ y) s) (hx : Pos.le lo (posOf x))
    (hr : tryCombineTimePart E a sa s = .ok r s') : JS E b d R lo es0 s' ∧ InF (lo, d.2) r.stop := by
  have hs : InF (lo, d.2) sa.stop := (hL.inF hx (h.upper hC)).2
  unfold tryCombineTimePart at hr
  rw [bind_peek] at hr
  generalize hty : (pk E s).ty = ty at hr
  split at hr
  · rename_i id
    obtain ⟨g, yy, hN⟩ := hC.next h.eofTy (by rw [hty]; simp)
    obtain ⟨b1, b2, b3, b4, b5⟩ := hN.lit hty
    rw [b4, bind_lift _ _ rfl] at hr
    dsimp only at hr
    split at hr
    · obtain ⟨rfl, rfl⟩ := pure_inv hr
      exact ⟨h, hs⟩
    · rw [bind_next] at hr
      obtain ⟨hL2, hcat⟩ := Lit.across (β := Value) hL b5 rfl hN.blank.nonl
      rw [hcat] at hr
      obtain ⟨⟨l, sp⟩, s2, h2, hr⟩ := bind_inv hr
      have hC2 := hN.ch
      rw [show x ++ y ++ g ++ yy = x ++ (y ++ g ++ yy) by simp] at hC2
      obtain ⟨g1, g2⟩ := combine_junk (h.adv (by rw [hty]; simp) (by rw [hty]; simp) (by rw [hty]; simp)) hL2 hC2 hx h2
      obtain ⟨rfl, rfl⟩ := pure_inv hr
      exact ⟨g1, g2⟩
  · obtain ⟨rfl, rfl⟩ := pure_inv hr
    exact ⟨h, hs⟩

theorem literalValue_junk {x y : Str} {l : Slice} {sp : Span} {r : Value} (h : JS E b d R lo es0 s)
    (hC : Ch E (x ++ y) s) (hL : Lit E x y l sp) (hx : Pos.le lo (posOf x))
    (hr : literalValue E l sp s = .ok r s') : JS E b d R lo es0 s' ∧ InF (lo, d.2) r.stop := by
  obtain ⟨hy, hend⟩ := hL.inF hx (h.upper hC)
  have hbd := parseLiteral_bd (p := posOf x) (ovf := E.ovf) hL.ne
  rw [← hL.fromPosLen] at hbd
  have htx : l.text = y := by rw [hL.lit]
  unfold literalValue at hr
  rw [htx] at hr
  generalize hp : parseLiteral E.ovf y sp = res at hr
  split at hr
  · obtain ⟨rfl, rfl⟩ := pure_inv hr; exact ⟨h, hend⟩
  · obtain ⟨rfl, rfl⟩ := pure_inv hr; exact ⟨h, hend⟩
  · obtain ⟨rfl, rfl⟩ := pure_inv hr; exact ⟨h, hend⟩
  · obtain ⟨rfl, rfl⟩ := pure_inv hr; exact ⟨h, hend⟩
  · exact tryToParseTimePart_junk h hend hr
  · rename_i e
    rw [bind_error] at hr
    have h1 := h.err (e := e) ((hbd.2 e hp).inF hy)
    split at hr
    · obtain ⟨rfl, rfl⟩ := pure_inv hr; exact ⟨h1, hend⟩
    · exact tryCombineTimePart_junk h1 hL ⟨hC.chain, hC.com⟩ hx hr
  · rename_i e
    rw [bind_error] at hr
    have h1 := h.err (e := e) ((hbd.1.2 e hp).inF hy)
    obtain ⟨rfl, rfl⟩ := pure_inv hr; exact ⟨h1, hend⟩
  · cases hr

/-! ## Values -/

/-- The outcome of a value in the part `f`. -/
def ValIn (f : Fault) : Except Error Value → Prop
  | .ok w => InF f w.stop
  | .error e => InF f e.span.start ∧ ∀ p, e ≠ .recursionLimitExceeded p

theorem parseDotValue_junk {r : Except Error Value} (h : JS E b d R lo es0 s) (hty : (pk E s).ty = .dot)
    (hr : parseDotValue E (pk E s) s = .ok r s') : JS E b d R lo es0 s' ∧ ValIn (lo, d.2) r := by
  have hl := h.here (by rw [hty]; simp) (by rw [hty]; simp)
  obtain ⟨pre, hC⟩ := h.cx
  obtain ⟨g, y, hN⟩ := hC.next h.eofTy h.ne_eof
  have hy := hN.tok.text
  rw [hty] at hy
  simp only at hy
  subst hy
  unfold parseDotValue at hr
  rw [bind_next, bind_error, bind_peek] at hr
  have h1 := (h.adv (by rw [hty]; simp) (by rw [hty]; simp) (by rw [hty]; simp)).err
    (e := .unexpectedLiteralStart '.' (pk E s).start) hl
  have hC1 : Ch E (pre ++ g ++ ['.']) (s.adv.err (.unexpectedLiteralStart '.' (pk E s).start)) := ⟨hN.ch.chain, hN.ch.com⟩
  generalize s.adv.err _ = s0 at h1 hr hC1
  have hbad : ∀ {s1 : PS}, JS E b d R lo es0 s1 → (do
      let (f, s) ← tokenFmtStrAndSpan E (pk E s)
      pure (.error (.expectedValueFound f s)) : M (Except Error Value)) s1 = .ok r s' →
      JS E b d R lo es0 s' ∧ ValIn (lo, d.2) r := by
    intro s1 h1 hr
    obtain ⟨f, sp, hsp, hr⟩ := bind_fmt_inv hr
    dsimp only at hr
    obtain ⟨rfl, rfl⟩ := pure_inv hr
    exact ⟨h1, by show InF _ sp.start; rw [hsp]; exact hl, by simp⟩
  generalize hty0 : (pk E s0).ty = ty at hr
  split at hr
  · rename_i id
    split at hr
    · rename_i hst
      obtain ⟨g', yy, hN'⟩ := hC1.next h.eofTy (by rw [hty0]; simp)
      obtain ⟨b1, b2, b3, b4, b5⟩ := hN'.lit hty0
      have hg' : g' = [] := by
        by_cases hg : g' = []
        · exact hg
        · have := posOf_plus (x := pre ++ g) (y := ['.']) (by decide)
          have hb : blen ['.'] = 1 := by decide
          rw [hb, ← hN.tok.start] at this
          have hs := hst.symm.trans hN'.tok.start
          rw [← this] at hs
          exact absurd hs (posOf_ne hg)
      subst hg'
      rw [bind_next, b4, bind_lift _ _ rfl] at hr
      simp only [List.append_nil] at hr
      have hp : pre ++ g ++ '.' :: yy <+: E.input := by simpa using hN'.inp
      have hsl : (do
          let off ← subU (blen (pre ++ g ++ ['.'])) 1
          let t ← slice E.input off (off + (blen yy + 1))
          pure (⟨off, t⟩ : Slice)) = some ⟨blen (pre ++ g), '.' :: yy⟩ := by
        have hb : blen (pre ++ g ++ ['.']) = blen (pre ++ g) + 1 := by
          rw [blen_append]; rfl
        have := slice_prefix (input := E.input) (x := pre ++ g) (y := '.' :: yy) (z := [])
          (by simpa using hp)
        rw [hb]
        simp only [subU, if_pos (show 1 ≤ blen (pre ++ g) + 1 by omega), Nat.add_sub_cancel,
          Option.bind_eq_bind, Option.bind_some]
        have hb2 : blen ('.' :: yy) = blen yy + 1 := by
          rw [blen_cons, Nat.add_comm]; rfl
        rw [hb2] at this
        rw [this]; rfl
      unfold extendStrFront at hr
      rw [bind_lift _ _ hsl] at hr
      have hL : Lit E (pre ++ g) ('.' :: yy) ⟨blen (pre ++ g), '.' :: yy⟩
          (Span.fromPosLen (pk E s).start (blen yy + 1)) := by
        have hn : '\n' ∉ '.' :: yy := by simp [b2]
        refine ⟨rfl, ?_, hn, by simp, hp⟩
        rw [posOf_plus hn, hN.tok.start, blen_cons, Nat.add_comm]
        rfl
      obtain ⟨⟨l, sp⟩, s2, h2, hr⟩ := bind_inv hr
      have hC2 : Ch E (pre ++ g ++ '.' :: yy) s0.adv := by simpa using hN'.ch
      have hlo := hl.1
      rw [hN.tok.start] at hlo
      obtain ⟨g1, g2⟩ := combine_junk (h1.adv (by rw [hty0]; simp) (by rw [hty0]; simp) (by rw [hty0]; simp)) hL hC2 hlo h2
      obtain ⟨rfl, rfl⟩ := pure_inv hr
      exact ⟨g1, g2⟩
    · exact hbad h1 hr
  · exact hbad h1 hr

/-- Values. -/
theorem parseValue_junk {n level : Nat} {r : Except Error Value} (h : JS E b d R lo es0 s)
    (hn : (pk E s).ty ≠ .newline) (hc : ∀ id, (pk E s).ty ≠ .comment id) (hr : parseValue E n level s = .ok r s') :
    JS E b d R lo es0 s' ∧ ValIn (lo, d.2) r := by
  have hl := h.here hn hc
  cases n with
  | zero => cases hr
  | succ n =>
    unfold parseValue at hr
    rw [bind_peek] at hr
    have hno := h.noOpen
    generalize hty : (pk E s).ty = ty at hr hno
    split at hr
    · rename_i id
      obtain ⟨w, s1, h1, hr⟩ := bind_inv hr
      obtain ⟨rfl, rfl⟩ := pure_inv hr
      obtain ⟨st, hst, -, ha, -, he⟩ := h.string hty
      unfold parseStringValue getString at h1
      rw [bind_next, bind_lift _ _ hst] at h1
      obtain ⟨rfl, rfl⟩ := pure_inv h1
      exact ⟨ha, he⟩
    · rename_i id
      obtain ⟨w, s1, h1, hr⟩ := bind_inv hr
      obtain ⟨rfl, rfl⟩ := pure_inv hr
      obtain ⟨pre, hC⟩ := h.cx
      obtain ⟨g, y, l, sp, us, s2, hM, -, hrun⟩ := munch h.eofTy hC hty (fun r => literalValue E r.1 r.2)
      have h1 : literalValue E l sp s2 = .ok w s1 := by rw [← hrun]; exact h1
      obtain ⟨g1, g2, g3⟩ := munched_junk h hM
      exact literalValue_junk g1 hM.ch hM.lit g2 h1
    · exact parseDotValue_junk h hty hr
    · exact absurd rfl hno.1
    · exact absurd rfl hno.2
    · obtain ⟨f, sp, hsp, hr⟩ := bind_fmt_inv hr
      dsimp only at hr
      obtain ⟨rfl, rfl⟩ := pure_inv hr
      exact ⟨h, by show InF _ sp.start; rw [hsp]; exact hl, by simp⟩

end Verif.Toml
