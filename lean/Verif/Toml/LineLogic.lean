import Verif.Toml.CompRoot

/-! # The parser on the tokens of one line

Whatever is on a line: as long as the parser begins no array there and nests no more tables than allowed, it
does not leave the line, and its diagnostics begin on the line. -/

namespace Verif.Toml
open Verif Verif.Spec.Toml

variable {α β : Type} {E : Env} {s s' s1 s2 : PS} {ℓ : Nat} {b : List Token} {es0 : List Error} {v : Bool} {k : Nat}

/-- The token is on the line `ℓ`. -/
structure TokOn (E : Env) (ℓ : Nat) (t : Token) : Prop where
  nl : t.ty ≠ .newline
  eof : t.ty ≠ .eof
  start : t.start.line = ℓ
  str : ∀ id st, t.ty = .string id → E.strings[id]? = some st → st.litEnd.line = ℓ

/-- The line `ℓ` ends with the tokens `b` behind it. -/
def EndL (E : Env) (ℓ : Nat) (b : List Token) : Prop :=
  (b = [] ∧ E.eof.start.line = ℓ) ∨ ∃ t b', b = t :: b' ∧ t.ty = .newline ∧ t.start.line = ℓ

/-- No `[` behind a `=`, and none at all if `v`. -/
def Arr : Bool → List Token → Prop
  | _, [] => True
  | v, t :: a => (v = true → t.ty ≠ .squareLeft) ∧ Arr (v || decide (t.ty = .equal)) a

theorem Arr.mono {a : List Token} : ∀ {v v' : Bool}, Arr v a → (v' = true → v = true) → Arr v' a := by
  induction a with
  | nil => intros; trivial
  | cons t a ih =>
    intro v v' h hv
    refine ⟨fun h' => h.1 (hv h'), ih h.2 ?_⟩
    simp only [Bool.or_eq_true, decide_eq_true_eq]
    rintro (h' | h')
    · exact .inl (hv h')
    · exact .inr h'

/-- The number of opening curly brackets. -/
def curls (a : List Token) : Nat := a.countP (fun t => decide (t.ty = .curlyLeft))

/-- The parser is on the line `ℓ`; the diagnostics other than `es0` begin on that line. -/
structure LS (E : Env) (ℓ : Nat) (b : List Token) (es0 : List Error) (v : Bool) (k : Nat) (s : PS) : Prop where
  eofTy : EnvEof E
  fin : EndL E ℓ b
  cx : Cx E s
  line : ∃ a, s.rest = a ++ b ∧ (∀ t ∈ a, TokOn E ℓ t) ∧ Arr v a ∧ curls a ≤ k
  errs : ∃ new, s.errors = es0 ++ new ∧ ∀ e ∈ new, e.span.start.line = ℓ

theorem LS.same (h : LS E ℓ b es0 v k s) (hr : s'.rest = s.rest) (he : s'.errors = s.errors) :
    LS E ℓ b es0 v k s' := by
  refine ⟨h.eofTy, h.fin, ?_, by rw [hr]; exact h.line, by rw [he]; exact h.errs⟩
  obtain ⟨pre, hc⟩ := h.cx
  exact ⟨pre, by rw [hr]; exact hc.chain, by rw [hr]; exact hc.com⟩

theorem LS.still {m : M α} {a : α} (h : LS E ℓ b es0 v k s) (hm : Still m) (hq : Quiet m) (hr : m s = .ok a s') :
    LS E ℓ b es0 v k s' := h.same (hm.out _ _ _ hr) (hq.out _ _ _ hr)

theorem LS.err (h : LS E ℓ b es0 v k s) {e : Error} (he : e.span.start.line = ℓ) :
    LS E ℓ b es0 v k (s.err e) := by
  obtain ⟨new, h1, h2⟩ := h.errs
  refine ⟨h.eofTy, h.fin, ?_, h.line, new ++ [e], by simp [PS.err, h1], ?_⟩
  · obtain ⟨pre, hc⟩ := h.cx
    exact ⟨pre, hc.chain, hc.com⟩
  · intro e' he'
    rcases List.mem_append.1 he' with h | h
    · exact h2 e' h
    · rw [List.mem_singleton.1 h]; exact he

theorem LS.weaken {v' : Bool} {k' : Nat} (h : LS E ℓ b es0 v k s) (hv : v' = true → v = true) (hk : k ≤ k') :
    LS E ℓ b es0 v' k' s := by
  obtain ⟨a, h1, h2, h3, h4⟩ := h.line
  exact ⟨h.eofTy, h.fin, h.cx, ⟨a, h1, h2, h3.mono hv, by omega⟩, h.errs⟩

/-- The next token. -/
theorem LS.pk (h : LS E ℓ b es0 v k s) : (pk E s).start.line = ℓ ∧
    (∀ id st, (pk E s).ty = .string id → E.strings[id]? = some st → st.litEnd.line = ℓ) ∧
    ((pk E s).ty ≠ .newline → (pk E s).ty ≠ .eof → ∃ a, s.rest = Toml.pk E s :: a ++ b ∧ s.adv.rest = a ++ b ∧
      (∀ t ∈ Toml.pk E s :: a, TokOn E ℓ t) ∧ Arr v (Toml.pk E s :: a) ∧ curls (Toml.pk E s :: a) ≤ k) := by
  obtain ⟨a, h1, h2, h3, h4⟩ := h.line
  cases a with
  | nil =>
    rcases h.fin with ⟨rfl, hl⟩ | ⟨t, b', rfl, h5, h6⟩
    · have hp : Toml.pk E s = E.eof := by unfold Toml.pk; rw [h1]; rfl
      rw [hp]
      exact ⟨hl, (by intro id st hh; rw [h.eofTy.eof] at hh; cases hh), fun _ hh => absurd h.eofTy.eof hh⟩
    · have hp : Toml.pk E s = t := by unfold Toml.pk; rw [h1]; rfl
      rw [hp]
      exact ⟨h6, (by intro id st hh; rw [h5] at hh; cases hh), fun hh => absurd h5 hh⟩
  | cons t a =>
    have hp : Toml.pk E s = t := by unfold Toml.pk; rw [h1]; rfl
    rw [hp]
    have ht := h2 t (by simp)
    exact ⟨ht.start, ht.str, fun _ _ => ⟨a, h1, by unfold PS.adv; rw [h1]; rfl, h2, h3, h4⟩⟩

theorem LS.pkLine (h : LS E ℓ b es0 v k s) : (Toml.pk E s).start.line = ℓ := h.pk.1

theorem LS.adv' (h : LS E ℓ b es0 v k s) (h1 : (Toml.pk E s).ty ≠ .newline) (h2 : (Toml.pk E s).ty ≠ .eof) :
    LS E ℓ b es0 (v || decide ((Toml.pk E s).ty = .equal))
      (if (Toml.pk E s).ty = .curlyLeft then k - 1 else k) s.adv ∧
    ((Toml.pk E s).ty = .curlyLeft → 0 < k) ∧ (v = true → (Toml.pk E s).ty ≠ .squareLeft) := by
  obtain ⟨a, e1, e2, e3, e4, e5⟩ := h.pk.2.2 h1 h2
  unfold curls at e5
  rw [List.countP_cons] at e5
  refine ⟨⟨h.eofTy, h.fin, (h.cx.step h.eofTy h2).cx, ⟨a, e2, fun t ht => e3 t (by simp [ht]), e4.2, ?_⟩, ?_⟩, ?_, e4.1⟩
  · unfold curls
    split
    · rename_i hc
      rw [if_pos (by simpa using hc)] at e5
      omega
    · omega
  · rw [adv_errors]; exact h.errs
  · intro hc
    rw [if_pos (by simpa using hc)] at e5
    omega

theorem LS.adv (h : LS E ℓ b es0 v k s) (h1 : (Toml.pk E s).ty ≠ .newline) (h2 : (Toml.pk E s).ty ≠ .eof) :
    LS E ℓ b es0 v k s.adv := by
  refine (h.adv' h1 h2).1.weaken ?_ ?_
  · intro hv; simp [hv]
  · split <;> omega

/-! ## Spans of tokens -/

theorem fmt_line {t : Token} {f : Str} {sp : Span} (hr : tokenFmtStrAndSpan E t s = .ok (f, sp) s') :
    s' = s ∧ sp.start = t.start := by
  unfold tokenFmtStrAndSpan at hr
  obtain ⟨f', s1, h1, hr⟩ := bind_inv hr
  obtain ⟨sp', s2, h2, hr⟩ := bind_inv hr
  obtain ⟨h3, rfl⟩ := pure_inv hr
  cases h3
  obtain ⟨-, rfl⟩ := lift_inv h1
  obtain ⟨h4, rfl⟩ := lift_inv h2
  refine ⟨rfl, ?_⟩
  split at h4
  · obtain ⟨st, -, rfl⟩ := Option.map_eq_some_iff.1 h4; rfl
  · obtain ⟨st, -, rfl⟩ := Option.map_eq_some_iff.1 h4; rfl
  · obtain ⟨st, -, rfl⟩ := Option.map_eq_some_iff.1 h4; rfl
  · cases h4; rfl
  · cases h4; rfl
  · cases h4; rfl

theorem bind_fmt_inv {t : Token} {f : Str × Span → M β} {r : β} (hr : (tokenFmtStrAndSpan E t >>= f) s = .ok r s') :
    ∃ g sp, sp.start = t.start ∧ f (g, sp) s = .ok r s' := by
  obtain ⟨⟨g, sp⟩, s1, h1, h2⟩ := bind_inv hr
  obtain ⟨rfl, hsp⟩ := fmt_line h1
  exact ⟨g, sp, hsp, h2⟩

theorem skip_line {stop : TokenType → Bool} (h1 : stop .newline = true) (h2 : stop .eof = true) :
    ∀ (ts : List Token) (s : PS), ts = s.rest → LS E ℓ b es0 v k s → skipUntil E stop ts s = .ok () s' →
    LS E ℓ b es0 v k s' ∧ stop (pk E s').ty = true := by
  intro ts
  induction ts with
  | nil =>
    intro s hs h hr
    unfold skipUntil at hr
    rw [h.eofTy.eof, h2, if_pos rfl] at hr
    cases hr
    refine ⟨h.same hs rfl, ?_⟩
    unfold pk
    simp only [List.head?_nil, Option.getD_none]
    rw [h.eofTy.eof]; exact h2
  | cons t ts ih =>
    intro s hs h hr
    have hp : pk E s = t := by unfold pk; rw [← hs]; rfl
    unfold skipUntil at hr
    split at hr
    · rename_i hst
      cases hr
      exact ⟨h.same hs rfl, by unfold pk; exact hst⟩
    · rename_i hst
      have hadv : ({ s with done := t :: s.done, rest := ts } : PS) = s.adv := by
        unfold PS.adv; rw [← hs]
      have hl := h.adv (by rw [hp]; intro e; rw [e] at hst; exact hst h1)
        (by rw [hp]; intro e; rw [e] at hst; exact hst h2)
      refine ih _ ?_ hl ?_
      · rw [← hadv]
      · have : ∀ (ts : List Token) (a b : PS), a.done = b.done → a.errors = b.errors → a.storage = b.storage →
            skipUntil E stop ts a = skipUntil E stop ts b := by
          intro ts
          induction ts with
          | nil =>
            intro a b e1 e2 e3
            unfold skipUntil
            obtain ⟨_, _, _, _⟩ := a; obtain ⟨_, _, _, _⟩ := b
            simp only at e1 e2 e3; subst e1 e2 e3; rfl
          | cons t ts ih =>
            intro a b e1 e2 e3
            unfold skipUntil
            split
            · obtain ⟨_, _, _, _⟩ := a; obtain ⟨_, _, _, _⟩ := b
              simp only at e1 e2 e3; subst e1 e2 e3; rfl
            · exact ih _ _ (by simp [e1]) e2 e3
        rw [← hr, ← hadv]
        exact this _ _ _ rfl rfl rfl

theorem recover_line {stop : TokenType → Bool} (h1 : stop .newline = true) (h2 : stop .eof = true) {u : Unit}
    (h : LS E ℓ b es0 v k s) (hr : recoverOn E stop s = .ok u s') :
    LS E ℓ b es0 v k s' ∧ stop (pk E s').ty = true := skip_line h1 h2 _ _ rfl h hr

/-! ## Keys -/

/-- A failed key begins its diagnostic on the line. -/
def KeyLine (ℓ : Nat) : KeyResult → Prop
  | .err e => e.span.start.line = ℓ
  | _ => True

theorem parseIdent_line {r : Ident ⊕ KeyResult} (h : LS E ℓ b es0 v k s) (hr : parseIdent E s = .ok r s') :
    LS E ℓ b es0 v k s' ∧ ∀ kr, r = .inr kr → KeyLine ℓ kr := by
  have hl := h.pkLine
  have ha := fun h1 h2 => h.adv h1 h2
  unfold parseIdent at hr
  rw [bind_peek] at hr
  generalize hty : (pk E s).ty = ty at hr
  rw [hty] at ha
  split at hr
  · rename_i id
    replace ha := ha (by simp) (by simp)
    obtain ⟨st, hst, hr⟩ := bind_lift_inv hr
    dsimp only at hr
    generalize st.quote = q at hr
    split at hr
    · obtain ⟨rfl, rfl⟩ := pure_inv hr
      exact ⟨h, by rintro kr h; cases h; exact hl⟩
    · obtain ⟨rfl, rfl⟩ := pure_inv hr
      exact ⟨h, by rintro kr h; cases h; exact hl⟩
    · rw [bind_next] at hr
      split at hr
      · obtain ⟨rfl, rfl⟩ := pure_inv hr
        exact ⟨ha, by rintro kr h; cases h; trivial⟩
      · obtain ⟨rfl, rfl⟩ := pure_inv hr
        exact ⟨ha, by rintro kr h; cases h⟩
  · rename_i id
    replace ha := ha (by simp) (by simp)
    obtain ⟨st, hst, hr⟩ := bind_lift_inv hr
    dsimp only at hr
    generalize findInvalidChar 0 st.text = q at hr
    split at hr
    · rw [bind_next] at hr
      obtain ⟨rfl, rfl⟩ := pure_inv hr
      exact ⟨ha, by rintro kr h; cases h⟩
    · rename_i i c
      split at hr
      · obtain ⟨rfl, rfl⟩ := pure_inv hr
        exact ⟨h, by rintro kr h; cases h; exact hl⟩
      · rw [bind_error, bind_next] at hr
        obtain ⟨rfl, rfl⟩ := pure_inv hr
        refine ⟨?_, by rintro kr h; cases h⟩
        have h1 := h.err (e := .invalidCharInIdentifier c ((pk E s).start.plus i)) hl
        exact h1.adv (by show (pk E s).ty ≠ _; rw [hty]; simp) (by show (pk E s).ty ≠ _; rw [hty]; simp)
  · obtain ⟨f, sp, hsp, hr⟩ := bind_fmt_inv hr
    dsimp only at hr
    obtain ⟨rfl, rfl⟩ := pure_inv hr
    exact ⟨h, by rintro kr h; cases h; show sp.start.line = ℓ; rw [hsp]; exact hl⟩

theorem parseKeyLoop_line : ∀ (n : Nat) {ids : List DottedIdent} {s : PS} {r : KeyResult},
    LS E ℓ b es0 v k s → parseKeyLoop E n ids s = .ok r s' → LS E ℓ b es0 v k s' ∧ KeyLine ℓ r := by
  intro n
  induction n with
  | zero => intro ids s r _ h; cases h
  | succ n ih =>
    intro ids s r h hr
    unfold parseKeyLoop at hr
    obtain ⟨r1, s1, h1, hr⟩ := bind_inv hr
    obtain ⟨h2, h3⟩ := parseIdent_line h h1
    clear h1
    cases r1 with
    | inr kr =>
      obtain ⟨rfl, rfl⟩ := pure_inv hr
      exact ⟨h2, h3 _ rfl⟩
    | inl i =>
      simp only [] at hr
      rw [bind_peek] at hr
      split at hr
      · rename_i hd
        rw [bind_next] at hr
        exact ih (h2.adv (by rw [hd]; simp) (by rw [hd]; simp)) hr
      · split at hr <;> obtain ⟨rfl, rfl⟩ := pure_inv hr <;> exact ⟨h2, trivial⟩

theorem parseKey_line {r : KeyResult} (h : LS E ℓ b es0 v k s) (hr : parseKey E s = .ok r s') :
    LS E ℓ b es0 v k s' ∧ KeyLine ℓ r := by
  unfold parseKey at hr
  rw [bind_budget] at hr
  exact parseKeyLoop_line _ h hr

/-! ## Literals -/

theorem combineLoop_line : ∀ (n : Nat) {lit : Slice} {span : Span} {s : PS} {l : Slice} {sp : Span},
    LS E ℓ b es0 v k s → combineLoop E n lit span s = .ok (l, sp) s' →
    LS E ℓ b es0 v k s' ∧ sp.start = span.start ∧ sp.stop.line = span.stop.line := by
  intro n
  induction n with
  | zero => intro lit span s l sp _ h; cases h
  | succ n ih =>
    intro lit span s l sp h hr
    unfold combineLoop at hr
    rw [bind_peek] at hr
    split at hr
    · obtain ⟨h1, rfl⟩ := pure_inv hr
      cases h1
      exact ⟨h, rfl, rfl⟩
    · generalize hty : (pk E s).ty = ty at hr
      have ha := fun h1 h2 => h.adv h1 h2
      rw [hty] at ha
      split at hr
      · obtain ⟨l1, h1, hr⟩ := bind_lift_inv hr
        rw [bind_next] at hr
        obtain ⟨g1, g2, g3⟩ := ih (ha (by simp) (by simp)) hr
        exact ⟨g1, g2, g3⟩
      · obtain ⟨l1, h1, hr⟩ := bind_lift_inv hr
        obtain ⟨l2, h2, hr⟩ := bind_lift_inv hr
        rw [bind_next] at hr
        obtain ⟨g1, g2, g3⟩ := ih (ha (by simp) (by simp)) hr
        exact ⟨g1, g2, g3⟩
      · obtain ⟨h1, rfl⟩ := pure_inv hr
        cases h1
        exact ⟨h, rfl, rfl⟩

theorem combine_line {lit l : Slice} {span sp : Span} (h : LS E ℓ b es0 v k s)
    (hr : combineAdjacentDotAndLit E lit span s = .ok (l, sp) s') :
    LS E ℓ b es0 v k s' ∧ sp.start = span.start ∧ sp.stop.line = span.stop.line := by
  unfold combineAdjacentDotAndLit at hr
  rw [bind_budget] at hr
  exact combineLoop_line _ h hr

/-- A literal, with the tokens that are stuck to it. -/
theorem munched_line {pre : Str} (h : LS E ℓ b es0 v k s) (hC : Ch E pre s) {id : Nat}
    (hty : (pk E s).ty = .literalOrIdent id) {lit l : Slice} {sp : Span}
    (h1 : literal E id (pk E s).start s.adv = .ok lit s1)
    (h2 : combineAdjacentDotAndLit E lit (Span.fromPosLen (pk E s).start (blen lit.text)) s1 = .ok (l, sp) s') :
    ∃ g y, Blank g ∧ Lit E (pre ++ g) y l sp ∧ Ch E (pre ++ g ++ y) s' ∧ LS E ℓ b es0 v k s' ∧
      (posOf (pre ++ g)).line = ℓ := by
  obtain ⟨g, yy, hN⟩ := hC.next h.eofTy (by rw [hty]; simp)
  obtain ⟨b1, b2, b3, b4, b5⟩ := hN.lit hty
  rw [b4] at h1
  obtain ⟨h3, rfl⟩ := lift_inv h1
  cases h3
  have ha := h.adv (by rw [hty]; simp) (by rw [hty]; simp)
  have hl := (combine_line ha h2).1
  unfold combineAdjacentDotAndLit at h2
  rw [bind_budget] at h2
  obtain ⟨l', sp', y', us, s2, a1, a2, a3⟩ := combineLoop_exact h.eofTy (s.adv.rest.length + 1) b5 hN.ch (by omega)
  have := h2.symm.trans a1
  cases this
  refine ⟨g, yy ++ y', hN.blank, a2, by simpa using a3.ch, hl, ?_⟩
  rw [← hN.tok.start]; exact h.pkLine

theorem Lit.stopLine {x y : Str} {l : Slice} {sp : Span} (h : Lit E x y l sp) : sp.stop.line = (posOf x).line := by
  rw [h.span]
  show (posOf (x ++ y)).line = _
  rw [posOf_plus h.nonl]; rfl

theorem Bd.line {lit : Str} {p : Pos} {e : Error} (h : Bd lit p e) : e.span.start.line = p.line := by
  obtain ⟨o1, o2, h1, -⟩ := h.at_
  rw [h1]; rfl

theorem timePart_line {x y : Str} {a l : Slice} {sa sp : Span} {d : Date} {r : Value} (h : LS E ℓ b es0 v k s)
    (hs : sa.stop.line = ℓ) (hL : Lit E x y l sp) (hx : (posOf x).line = ℓ)
    (hr : timePart E a sa d l sp s = .ok r s') : LS E ℓ b es0 v k s' ∧ r.stop.line = ℓ := by
  have hend : sp.stop.line = ℓ := by rw [hL.stopLine, hx]
  have hkey : ∀ {s1 : PS}, LS E ℓ b es0 v k s1 → (do
      let lit ← concatStrs E a l
      let span := Span.across sa sp
      match parseTimeAndOffset ⟨0, l.text⟩ sp with
      | .ok ((time, offset), _) =>
        pure (.dateTime lit.text span (DateTime.fromOptionalOffset d time offset))
      | .err e => do
        error e
        pure (.invalid lit.text span)
      | .panic => M.panic : M Value) s1 = .ok r s' → LS E ℓ b es0 v k s' ∧ r.stop.line = ℓ := by
    intro s1 h1 hr
    obtain ⟨c, -, hr⟩ := bind_lift_inv hr
    dsimp only at hr
    generalize hp : parseTimeAndOffset ⟨0, l.text⟩ sp = res at hr
    split at hr
    · obtain ⟨rfl, rfl⟩ := pure_inv hr
      exact ⟨h1, hend⟩
    · rename_i e
      rw [bind_error] at hr
      obtain ⟨rfl, rfl⟩ := pure_inv hr
      refine ⟨h1.err ?_, hend⟩
      have hbd := parseTimeAndOffset_bd (p := posOf x) (lit := y) (cur := ⟨0, y⟩) CurAt.zero
      rw [hL.fromPosLen, hL.lit] at hp
      rw [(hbd.2 e hp).line, hx]
    · cases hr
  unfold timePart at hr
  split at hr
  · rw [bind_error] at hr
    exact hkey (h.err (e := .dateAndTimeTooFarApart (Span.between sa sp)) hs) hr
  · exact hkey h hr

theorem tryToParseTimePart_line {pre : Str} {a : Slice} {sa : Span} {d : Date} {r : Value}
    (h : LS E ℓ b es0 v k s) (hC : Ch E pre s) (hs : sa.stop.line = ℓ)
    (hr : tryToParseTimePart E a sa d s = .ok r s') : LS E ℓ b es0 v k s' ∧ r.stop.line = ℓ := by
  unfold tryToParseTimePart at hr
  rw [bind_peek] at hr
  generalize hty : (pk E s).ty = ty at hr
  split at hr
  · rename_i id
    rw [bind_next] at hr
    obtain ⟨lit, s1, h1, hr⟩ := bind_inv hr
    obtain ⟨⟨l, sp⟩, s2, h2, hr⟩ := bind_inv hr
    obtain ⟨g, y, -, hL, -, hl, hx⟩ := munched_line h hC hty h1 h2
    exact timePart_line hl hs hL hx hr
  · obtain ⟨rfl, rfl⟩ := pure_inv hr
    exact ⟨h, hs⟩

theorem tryCombineTimePart_line {a : Slice} {sa : Span} {r : Value} (h : LS E ℓ b es0 v k s)
    (hs : sa.stop.line = ℓ) (hr : tryCombineTimePart E a sa s = .ok r s') :
    LS E ℓ b es0 v k s' ∧ r.stop.line = ℓ := by
  unfold tryCombineTimePart at hr
  rw [bind_peek] at hr
  generalize hty : (pk E s).ty = ty at hr
  split at hr
  · rename_i id
    obtain ⟨lit, -, hr⟩ := bind_lift_inv hr
    dsimp only at hr
    split at hr
    · obtain ⟨rfl, rfl⟩ := pure_inv hr
      exact ⟨h, hs⟩
    · rw [bind_next] at hr
      obtain ⟨lit, -, hr⟩ := bind_lift_inv hr
      obtain ⟨⟨l, sp⟩, s2, h2, hr⟩ := bind_inv hr
      obtain ⟨g1, g2, g3⟩ := combine_line (h.adv (by rw [hty]; simp) (by rw [hty]; simp)) h2
      obtain ⟨rfl, rfl⟩ := pure_inv hr
      exact ⟨g1, by rw [show (Value.invalid l.text sp).stop = sp.stop from rfl, g3]; exact h.pkLine⟩
  · obtain ⟨rfl, rfl⟩ := pure_inv hr
    exact ⟨h, hs⟩

theorem literalValue_line {x y : Str} {l : Slice} {sp : Span} {r : Value} (h : LS E ℓ b es0 v k s)
    (hC : Ch E (x ++ y) s) (hL : Lit E x y l sp) (hx : (posOf x).line = ℓ)
    (hr : literalValue E l sp s = .ok r s') : LS E ℓ b es0 v k s' ∧ r.stop.line = ℓ := by
  have hend : sp.stop.line = ℓ := by rw [hL.stopLine, hx]
  have hbd := parseLiteral_bd (p := posOf x) (ovf := E.ovf) hL.ne
  rw [← hL.fromPosLen] at hbd
  have htx : l.text = y := by rw [hL.lit]
  unfold literalValue at hr
  rw [htx] at hr
  generalize hp : parseLiteral E.ovf y sp = res at hr
  split at hr
  · obtain ⟨rfl, rfl⟩ := pure_inv hr; exact ⟨h, hend⟩
  · obtain ⟨rfl, rfl⟩ := pure_inv hr; exact ⟨h, hend⟩
  · obtain ⟨rfl, rfl⟩ := pure_inv hr; exact ⟨h, hend⟩
  · obtain ⟨rfl, rfl⟩ := pure_inv hr; exact ⟨h, hend⟩
  · exact tryToParseTimePart_line h hC hend hr
  · rename_i e
    rw [bind_error] at hr
    have h1 := h.err (e := e) (by rw [(hbd.2 e hp).line, hx])
    split at hr
    · obtain ⟨rfl, rfl⟩ := pure_inv hr; exact ⟨h1, hend⟩
    · exact tryCombineTimePart_line h1 hend hr
  · rename_i e
    rw [bind_error] at hr
    have h1 := h.err (e := e) (by rw [(hbd.1.2 e hp).line, hx])
    obtain ⟨rfl, rfl⟩ := pure_inv hr; exact ⟨h1, hend⟩
  · cases hr

/-! ## Values -/

/-- The outcome of a value on the line. -/
def ValLine (ℓ : Nat) : Except Error Value → Prop
  | .ok w => w.stop.line = ℓ
  | .error e => e.span.start.line = ℓ ∧ ∀ p, e ≠ .recursionLimitExceeded p

theorem parseStringValue_line {id : Nat} {r : Value} (h : LS E ℓ b es0 v k s) (hty : (pk E s).ty = .string id)
    (hr : parseStringValue E id s = .ok r s') : LS E ℓ b es0 v k s' ∧ r.stop.line = ℓ := by
  unfold parseStringValue at hr
  rw [bind_next] at hr
  obtain ⟨st, hst, hr⟩ := bind_lift_inv hr
  obtain ⟨rfl, rfl⟩ := pure_inv hr
  exact ⟨h.adv (by rw [hty]; simp) (by rw [hty]; simp), h.pk.2.1 id st hty hst⟩

theorem parseLiteralValue_line {id : Nat} {r : Value} (h : LS E ℓ b es0 v k s)
    (hty : (pk E s).ty = .literalOrIdent id) (hr : parseLiteralValue E id s = .ok r s') :
    LS E ℓ b es0 v k s' ∧ r.stop.line = ℓ := by
  obtain ⟨pre, hC⟩ := h.cx
  unfold parseLiteralValue at hr
  rw [bind_next] at hr
  obtain ⟨lit, s1, h1, hr⟩ := bind_inv hr
  obtain ⟨⟨l, sp⟩, s2, h2, hr⟩ := bind_inv hr
  obtain ⟨g, y, -, hL, hC', hl, hx⟩ := munched_line h hC hty h1 h2
  exact literalValue_line hl hC' hL hx hr

theorem parseDotValue_line {r : Except Error Value} (h : LS E ℓ b es0 v k s) (hty : (pk E s).ty = .dot)
    (hr : parseDotValue E (pk E s) s = .ok r s') : LS E ℓ b es0 v k s' ∧ ValLine ℓ r := by
  have hl := h.pkLine
  unfold parseDotValue at hr
  rw [bind_next, bind_error, bind_peek] at hr
  have h1 := (h.adv (by rw [hty]; simp) (by rw [hty]; simp)).err
    (e := .unexpectedLiteralStart '.' (pk E s).start) hl
  generalize s.adv.err _ = s0 at h1 hr
  have hbad : ∀ {s1 : PS}, LS E ℓ b es0 v k s1 → (do
      let (f, s) ← tokenFmtStrAndSpan E (pk E s)
      pure (.error (.expectedValueFound f s)) : M (Except Error Value)) s1 = .ok r s' →
      LS E ℓ b es0 v k s' ∧ ValLine ℓ r := by
    intro s1 h1 hr
    obtain ⟨f, sp, hsp, hr⟩ := bind_fmt_inv hr
    dsimp only at hr
    obtain ⟨rfl, rfl⟩ := pure_inv hr
    exact ⟨h1, by show sp.start.line = ℓ; rw [hsp]; exact hl, by simp⟩
  generalize hty0 : (pk E s0).ty = ty at hr
  split at hr
  · rename_i id
    split at hr
    · rw [bind_next] at hr
      obtain ⟨l1, e1, hr⟩ := bind_lift_inv hr
      obtain ⟨l2, e2, hr⟩ := bind_lift_inv hr
      obtain ⟨⟨l, sp⟩, s2, h2, hr⟩ := bind_inv hr
      obtain ⟨g1, g2, g3⟩ := combine_line (h1.adv (by rw [hty0]; simp) (by rw [hty0]; simp)) h2
      obtain ⟨rfl, rfl⟩ := pure_inv hr
      exact ⟨g1, by show sp.stop.line = ℓ; rw [g3]; exact hl⟩
    · exact hbad h1 hr
  · exact hbad h1 hr

/-! ## Inline tables -/

/-- The entries end on the line. -/
structure TabLine (ℓ : Nat) (st : TabSt) : Prop where
  as : ∀ a ∈ st.assignments, a.end.line = ℓ
  comma : ∀ p, st.comma = some p → p.line = ℓ

/-- How a round over the line ends. -/
def RoundLine (ℓ : Nat) : Round TabSt → Prop
  | .continue st => TabLine ℓ st
  | .break st => TabLine ℓ st
  | .return _ => False

theorem tableRecover_line {st : TabSt} {r : Round TabSt} (h : LS E ℓ b es0 v k s) (hst : TabLine ℓ st)
    (hr : tableRecover E st s = .ok r s') : LS E ℓ b es0 v k s' ∧ RoundLine ℓ r := by
  unfold tableRecover at hr
  obtain ⟨u, s1, h1, hr⟩ := bind_inv hr
  obtain ⟨g1, -⟩ := recover_line rfl rfl h h1
  rw [bind_peek] at hr
  split at hr
  · rename_i hc
    rw [bind_next] at hr
    obtain ⟨rfl, rfl⟩ := pure_inv hr
    exact ⟨g1.adv (by rw [hc]; simp) (by rw [hc]; simp), hst⟩
  · obtain ⟨rfl, rfl⟩ := pure_inv hr
    exact ⟨g1, hst⟩

theorem TabLine.push {st : TabSt} (h : TabLine ℓ st) {a : Assignment} {c c' : Option Pos}
    (ha : a.val.stop.line = ℓ) (hc : ∀ p, c = some p → p.line = ℓ) (hc' : ∀ p, c' = some p → p.line = ℓ) :
    TabLine ℓ ⟨st.assignments ++ [⟨a, c⟩], c'⟩ := by
  refine ⟨?_, hc'⟩
  intro x hx
  rcases List.mem_append.1 hx with hx | hx
  · exact h.as x hx
  · rw [List.mem_singleton.1 hx]
    unfold InlineTableAssignmentF.end
    cases c with
    | none => exact ha
    | some p => exact hc p rfl

theorem tableAfterValue_line {st : TabSt} {r : Round TabSt} {a : Assignment} (h : LS E ℓ b es0 v k s)
    (hst : TabLine ℓ st) (ha : a.val.stop.line = ℓ) (hr : tableAfterValue E st a s = .ok r s') :
    LS E ℓ b es0 v k s' ∧ RoundLine ℓ r := by
  have hl := h.pkLine
  unfold tableAfterValue at hr
  rw [bind_peek] at hr
  split at hr
  · rename_i hc
    rw [bind_next] at hr
    obtain ⟨rfl, rfl⟩ := pure_inv hr
    exact ⟨h.adv (by rw [hc]; simp) (by rw [hc]; simp),
      hst.push ha (by rintro p h; cases h; exact hl) (by rintro p h; cases h; exact hl)⟩
  · split at hr
    · obtain ⟨rfl, rfl⟩ := pure_inv hr
      exact ⟨h, hst.push ha (by simp) hst.comma⟩
    · rw [bind_error] at hr
      obtain ⟨rfl, rfl⟩ := pure_inv hr
      exact ⟨h.err ha, hst.push ha (by simp) (by simp)⟩

/-- A value parser that stays on the line. -/
def ElemLine (E : Env) (ℓ : Nat) (b : List Token) (es0 : List Error) (k : Nat) (elem : M (Except Error Value)) :
    Prop := ∀ s r s', LS E ℓ b es0 true k s → elem s = .ok r s' → LS E ℓ b es0 true k s' ∧ ValLine ℓ r

theorem tableAfterKey_line {elem : M (Except Error Value)} (hel : ElemLine E ℓ b es0 k elem) {st : TabSt}
    {r : Round TabSt} {key : Key} (h : LS E ℓ b es0 true k s) (hst : TabLine ℓ st)
    (hr : tableAfterKey E elem st key s = .ok r s') : LS E ℓ b es0 true k s' ∧ RoundLine ℓ r := by
  have hl := h.pkLine
  unfold tableAfterKey at hr
  rw [bind_peek] at hr
  split at hr
  · rename_i he
    rw [bind_next] at hr
    obtain ⟨rv, s1, h1, hr⟩ := bind_inv hr
    obtain ⟨g1, g2⟩ := hel _ _ _ (h.adv (by rw [he]; simp) (by rw [he]; simp)) h1
    clear h1
    split at hr
    · exact tableAfterValue_line (a := ⟨key, _, _⟩) g1 hst g2 hr
    · exact absurd rfl (g2.2 _)
    · rw [bind_error] at hr
      exact tableRecover_line (g1.err g2.1) hst hr
  · obtain ⟨f, sp, hsp, hr⟩ := bind_fmt_inv hr
    dsimp only at hr
    rw [bind_error] at hr
    exact tableRecover_line (h.err (by show sp.start.line = ℓ; rw [hsp]; exact hl)) hst hr

theorem tableRound_line {elem : M (Except Error Value)} (hel : ElemLine E ℓ b es0 k elem) {st : TabSt}
    {r : Round TabSt} (h : LS E ℓ b es0 true k s) (hst : TabLine ℓ st)
    (hr : tableRound E elem st s = .ok r s') : LS E ℓ b es0 true k s' ∧ RoundLine ℓ r := by
  unfold tableRound at hr
  rw [bind_peek] at hr
  split at hr
  · unfold trailingComma at hr
    generalize hc : st.comma = c at hr
    cases c with
    | some p =>
      simp only [] at hr
      rw [bind_error] at hr
      obtain ⟨rfl, rfl⟩ := pure_inv hr
      exact ⟨h.err (hst.comma p hc), hst⟩
    | none =>
      simp only [] at hr
      rw [bind_pure] at hr
      obtain ⟨rfl, rfl⟩ := pure_inv hr
      exact ⟨h, hst⟩
  · obtain ⟨kr, s1, h1, hr⟩ := bind_inv hr
    obtain ⟨g1, g2⟩ := parseKey_line h h1
    clear h1
    split at hr
    · exact tableAfterKey_line hel g1 hst hr
    · obtain ⟨rfl, rfl⟩ := pure_inv hr
      exact ⟨g1, hst⟩
    · rw [bind_error] at hr
      exact tableRecover_line (g1.err g2) hst hr

theorem tableLoop_line {elem : M (Except Error Value)} (hel : ElemLine E ℓ b es0 k elem) :
    ∀ (n : Nat) {st : TabSt} {s : PS} {r : Except Error TabSt}, LS E ℓ b es0 true k s → TabLine ℓ st →
    loopM (tableRound E elem) n st s = .ok r s' →
    LS E ℓ b es0 true k s' ∧ ∃ st', r = .ok st' ∧ TabLine ℓ st' := by
  intro n
  induction n with
  | zero => intro st s r _ _ h; cases h
  | succ n ih =>
    intro st s r h hst hr
    unfold loopM at hr
    obtain ⟨rr, s1, h1, hr⟩ := bind_inv hr
    obtain ⟨g1, g2⟩ := tableRound_line hel h hst h1
    clear h1
    split at hr
    · exact ih g1 g2 hr
    · obtain ⟨rfl, rfl⟩ := pure_inv hr
      exact ⟨g1, _, rfl, g2⟩
    · exact g2.elim

theorem tableClose_line {p : Pos} {r : Option Pos} (h : LS E ℓ b es0 v k s)
    (hr : tableClose E p s = .ok r s') : LS E ℓ b es0 v k s' ∧ ∀ q, r = some q → q.line = ℓ := by
  have hl := h.pkLine
  unfold tableClose at hr
  rw [bind_peek] at hr
  split at hr
  · rename_i hc
    rw [bind_next] at hr
    obtain ⟨rfl, rfl⟩ := pure_inv hr
    exact ⟨h.adv (by rw [hc]; simp) (by rw [hc]; simp), by rintro q h; cases h; exact hl⟩
  · obtain ⟨f, sp, hsp, hr⟩ := bind_fmt_inv hr
    dsimp only at hr
    rw [bind_error] at hr
    obtain ⟨rfl, rfl⟩ := pure_inv hr
    exact ⟨h.err (by show sp.start.line = ℓ; rw [hsp]; exact hl), by simp⟩

theorem endOf_line {lPar : Pos} {r l : Option Pos} (h0 : lPar.line = ℓ) (h1 : ∀ q, r = some q → q.line = ℓ)
    (h2 : ∀ q, l = some q → q.line = ℓ) : (endOf lPar r l).endPos.line = ℓ := by
  unfold endOf
  cases r with
  | some q => exact h1 q rfl
  | none =>
    cases l with
    | none => exact h0
    | some q => exact h2 q rfl

theorem parseTable_line {elem : M (Except Error Value)} {level : Nat} {r : Except Error Value}
    (hel : ElemLine E ℓ b es0 (k - 1) elem) (h : LS E ℓ b es0 true k s) (hty : (pk E s).ty = .curlyLeft)
    (hlv : level + k ≤ 100) (hr : parseTable E elem level (pk E s).start s = .ok r s') :
    LS E ℓ b es0 true k s' ∧ ValLine ℓ r := by
  have hl := h.pkLine
  obtain ⟨h1, h2, -⟩ := h.adv' (by rw [hty]; simp) (by rw [hty]; simp)
  have hk := h2 hty
  rw [if_pos hty] at h1
  unfold parseTable at hr
  rw [bind_next, if_neg (by unfold RECURSION_LIMIT; omega), bind_budget] at hr
  obtain ⟨lr, s1, h3, hr⟩ := bind_inv hr
  obtain ⟨g1, st, rfl, g2⟩ := tableLoop_line hel _ (h1.weaken (v' := true) (by simp) (Nat.le_refl _))
    ⟨by simp, by simp⟩ h3
  clear h3
  dsimp only at hr
  obtain ⟨rp, s2, h4, hr⟩ := bind_inv hr
  obtain ⟨g3, g4⟩ := tableClose_line g1 h4
  obtain ⟨rfl, rfl⟩ := pure_inv hr
  refine ⟨g3.weaken (by simp) (by omega), endOf_line hl g4 ?_⟩
  intro q hq
  obtain ⟨a, ha, rfl⟩ := Option.map_eq_some_iff.1 hq
  exact g2.as a (List.mem_of_getLast? ha)

theorem parseValue_line : ∀ (d level : Nat) {k : Nat} {r : Except Error Value} {s s' : PS}, level + k ≤ 100 →
    LS E ℓ b es0 true k s → parseValue E d level s = .ok r s' → LS E ℓ b es0 true k s' ∧ ValLine ℓ r := by
  intro d
  induction d with
  | zero => intro level k r s s' _ _ h; cases h
  | succ d ih =>
    intro level k r s s' hlv h hr
    have hl := h.pkLine
    unfold parseValue at hr
    rw [bind_peek] at hr
    generalize hty : (pk E s).ty = ty at hr
    split at hr
    · obtain ⟨w, s1, h1, hr⟩ := bind_inv hr
      obtain ⟨rfl, rfl⟩ := pure_inv hr
      exact parseStringValue_line h hty h1
    · obtain ⟨w, s1, h1, hr⟩ := bind_inv hr
      obtain ⟨rfl, rfl⟩ := pure_inv hr
      exact parseLiteralValue_line h hty h1
    · exact parseDotValue_line h hty hr
    · exact absurd hty ((h.adv' (by rw [hty]; simp) (by rw [hty]; simp)).2.2 rfl)
    · have hk := (h.adv' (by rw [hty]; simp) (by rw [hty]; simp)).2.1 hty
      exact parseTable_line (fun s r s' h1 h2 => ih (level + 1) (by omega) h1 h2) h hty hlv hr
    · obtain ⟨f, sp, hsp, hr⟩ := bind_fmt_inv hr
      dsimp only at hr
      obtain ⟨rfl, rfl⟩ := pure_inv hr
      exact ⟨h, by show sp.start.line = ℓ; rw [hsp]; exact hl, by simp⟩

end Verif.Toml
