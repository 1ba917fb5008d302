import Verif.Toml.ParseKey
import Verif.Toml.LitBound
import Verif.Toml.BoolLemmas

/-! # Lemmas for the parser: values -/

namespace Verif.Toml
open Verif Verif.Spec.Toml

variable {α β σ : Type} {P : Prop} {E : Env} {toks : List Token} {es0 : List Error}
variable {pre p1 p2 : Str} {s s1 s2 : PS} {u v : List Token} {h : List Comment}

/-! ## Results -/

theorem _root_.Verif.Spec.Toml.ValueAt.mono {input : Str} {n m : Nat} (hnm : n ≤ m) {v : Value} (h : ValueAt input n v) :
    ValueAt input m v := by
  induction h with
  | string h => exact .string h
  | int h => exact .int h
  | float h => exact .float h
  | bool h => exact .bool h
  | dateTime h => exact .dateTime h
  | invalid h => exact .invalid h
  | inlineTable h1 h2 h3 h4 _ ih => exact .inlineTable h1 h2 h3 h4 ih
  | inlineArray h1 h2 h3 h4 h5 _ ih =>
    refine .inlineArray h1 h2 h3 ?_ ?_ ih
    · unfold RangeIn at *; omega
    · intro v hv
      obtain ⟨a, b⟩ := h5 v hv
      refine ⟨?_, b⟩
      unfold RangeIn at *; omega

/-- A value that lies between `pre` and `pre'`. -/
structure VP (E : Env) (pre pre' : Str) (n : Nat) (v : Value) : Prop where
  val : ValueAt E.input n v
  span : ∃ a b, pre <+: a ∧ InOrder a (valPlaces v) b ∧ b <+: pre' ∧ v.span = ⟨posOf a, posOf b⟩

theorem Value.stop_span (v : Value) : v.stop = v.span.stop := by cases v <;> rfl

/-- The outcome of a computation that may fail with a diagnostic that is still to be reported. -/
def ResPost (E : Env) (toks : List Token) (es0 : List Error) (pre : Str) (s : PS)
    (I : Str → PS → α → Prop) : Except Error α → PS → Prop
  | .ok a, s' => ∃ u p', Nx E toks es0 pre s u p' s' [] ∧ I p' s' a
  | .error e, s' => ∃ u p', Nw E toks es0 pre s u p' s' ∧ Loc E toks e ∧
      (s'.rest = [] ∨ (∀ t ∈ u, endsLine t.ty = false) ∧ ∀ q, e ≠ .recursionLimitExceeded q)

/-- The outcome of a round of a loop. -/
def RoundPost (E : Env) (toks : List Token) (es0 : List Error) (pre : Str) (s : PS)
    (I J : Str → PS → σ → Prop) : Round σ → PS → Prop
  | .continue a, s' => ∃ u p', Nx E toks es0 pre s u p' s' [] ∧ I p' s' a ∧
      s'.rest.length < s.rest.length
  | .break a, s' => ∃ u p', Nx E toks es0 pre s u p' s' [] ∧ J p' s' a
  | .return e, s' => ∃ u p', Nw E toks es0 pre s u p' s' ∧ Loc E toks e ∧ s'.rest = []

/-- A property of the remaining tokens is kept. -/
theorem RoundPost.rest {I J : Str → PS → σ → Prop} {K : List Token → Prop}
    (hK : ∀ u v : List Token, K (u ++ v) → K v) (hs : K s.rest) {r : Round σ} {s' : PS}
    (h : RoundPost E toks es0 pre s I J r s') :
    RoundPost E toks es0 pre s (fun p s st => I p s st ∧ K s.rest) J r s' := by
  cases r with
  | «continue» a =>
    obtain ⟨u, p', h1, h2, h3⟩ := h
    exact ⟨u, p', h1, ⟨h2, hK u _ (by rw [← h1.rest]; exact hs)⟩, h3⟩
  | «break» a => exact h
  | «return» e => exact h

theorem loopM_post {round : σ → M (Round σ)} {I J : Str → PS → σ → Prop}
    (hround : ∀ {pre : Str} {s : PS} {st : σ}, Good E toks es0 pre s → I pre s st →
      Sat P (round st s) (RoundPost E toks es0 pre s I J)) :
    ∀ (n : Nat) {pre : Str} {s : PS} {st : σ}, Good E toks es0 pre s → I pre s st →
      s.rest.length < n → Sat P (loopM round n st s) (fun r s' => ResPost E toks es0 pre s J r s' ∧
        ∀ e, r = .error e → s'.rest = []) := by
  intro n
  induction n with
  | zero => intro pre s st _ _ hn; omega
  | succ n ih =>
    intro pre s st hG hI hn
    unfold loopM
    refine Sat.bind (hround hG hI) ?_
    rintro (st' | st' | e) s' hr
    · obtain ⟨u, p', h1, h2, h3⟩ := hr
      refine (ih h1.good h2 (by omega)).mono ?_
      rintro (e | st'') s'' ⟨hh, hz⟩
      · obtain ⟨v, p'', g1, g2, -⟩ := hh
        exact ⟨⟨_, p'', h1.toNw.trans g1, g2, .inl (hz e rfl)⟩, hz⟩
      · obtain ⟨v, p'', g1, g2⟩ := hh
        exact ⟨⟨_, p'', h1.trans g1, g2⟩, hz⟩
    · obtain ⟨u, p', h1, h2⟩ := hr
      exact Sat.pure (Q := fun r s' => ResPost E toks es0 pre s J r s' ∧
        ∀ e, r = .error e → s'.rest = []) ⟨⟨u, p', h1, h2⟩, by simp⟩
    · obtain ⟨u, p', h1, h2, h3⟩ := hr
      exact Sat.pure (Q := fun r s' => ResPost E toks es0 pre s J r s' ∧
        ∀ e, r = .error e → s'.rest = []) ⟨⟨u, p', h1, h2, .inl h3⟩, fun _ _ => h3⟩

/-! ## Literals -/

/-- The literal `y` behind `x`. -/
structure Lit (E : Env) (x y : Str) (lit : Slice) (span : Span) : Prop where
  lit : lit = ⟨blen x, y⟩
  span : span = ⟨posOf x, posOf (x ++ y)⟩
  nonl : '\n' ∉ y
  ne : y ≠ []
  inp : x ++ y <+: E.input

theorem Lit.fromPosLen {x y : Str} {lit : Slice} {span : Span} (h : Lit E x y lit span) :
    span = Span.fromPosLen (posOf x) (blen y) := by
  rw [h.span, posOf_plus h.nonl]; rfl

theorem Lit.textAt {x y : Str} {lit : Slice} {span : Span} (h : Lit E x y lit span) :
    TextAt E.input span y := by
  obtain ⟨z, hz⟩ := h.inp
  exact ⟨x, z, hz.symm, h.span⟩

/-- The literal of the next token. -/
theorem Good.literal (hG : Good E toks es0 pre s) {id : Nat} (he : (pk E s).ty = .literalOrIdent id) :
    ∃ g y, Blank g ∧ TokAt E (pk E s) (pre ++ g) y ∧ s.rest = pk E s :: s.adv.rest ∧
      Nx E toks es0 pre s [pk E s] (pre ++ g ++ y) s.adv [] ∧
      (∀ (s' : PS) (k : Slice → M β), (literal E id (pk E s).start >>= k) s' =
        k ⟨blen (pre ++ g), y⟩ s') ∧
      Lit E (pre ++ g) y ⟨blen (pre ++ g), y⟩ (Span.fromPosLen (pk E s).start (blen y)) := by
  obtain ⟨g, y, h1, h2, h3, h4⟩ := hG.adv' (by rw [he]; simp)
  have ht := h2.text
  rw [he] at ht
  obtain ⟨ht, hn, -⟩ := ht
  rw [coms_of_ne (by rw [he]; simp)] at h4
  refine ⟨g, y, h1, h2, h3, h4, ?_, rfl, ?_, hn, h2.ne, h4.good.chain.prefix⟩
  · intro s' k
    unfold Verif.Toml.literal
    refine bind_lift _ _ ?_
    rw [ht, Option.map_some, h2.start]
    obtain ⟨z, hz⟩ := h4.good.chain.prefix
    rw [← hz, List.append_assoc, byteOff_posOf]
  · rw [posOf_plus hn, h2.start]; rfl

/-- The literal `y` behind `x` starts with a word. -/
def WordAt (E : Env) (toks : List Token) (x y : Str) : Prop :=
  ∃ w, (.word w, posOf x) ∈ views E toks ∧ w <+: y

theorem WordAt.mono {x y y' : Str} (h : WordAt E toks x y) (hy : y <+: y') : WordAt E toks x y' := by
  obtain ⟨w, h1, h2⟩ := h
  exact ⟨w, h1, h2.trans hy⟩

theorem Good.wordAt (hG : Good E toks es0 pre s) {id : Nat} (he : (pk E s).ty = .literalOrIdent id)
    {x y : Str} (ht : TokAt E (pk E s) x y) (hr : s.rest = pk E s :: s.adv.rest) :
    WordAt E toks x y := by
  have h := ht.text
  rw [he] at h
  refine ⟨y, ?_, List.prefix_refl _⟩
  rw [hG.views, hr]
  simp [Verif.Toml.views, resolve, he, h.1, ht.start]

theorem Lit.claims {x y : Str} {lit : Slice} {span : Span} (hL : Lit E x y lit span)
    (hw : WordAt E toks x y) {e : Error} (he : Right y (posOf x) e) :
    Claims E.input (views E toks) e := by
  obtain ⟨w, h1, h2⟩ := hw
  obtain ⟨z, hz⟩ := hL.inp
  have hc : LitClaim E.input (views E toks) e := ⟨x, y, z, w, hz.symm, h1, h2, he⟩
  cases e <;> first | exact hc | exact .inr hc | exact he.elim

theorem slice_prefix {input x y z : Str} (h : x ++ y ++ z <+: input) :
    slice input (blen x) (blen x + blen y) = some y := by
  obtain ⟨w, hw⟩ := h
  refine slice_of (z := z ++ w) ?_ rfl (by simp)
  rw [← hw]; simp

theorem combineLoop_post : ∀ (n : Nat) {x y : Str} {lit : Slice} {span : Span} {s : PS},
    Lit E x y lit span → Good E toks es0 (x ++ y) s → s.rest.length < n →
    Sat P (combineLoop E n lit span s) (fun r s' => ∃ u y', Nx E toks es0 (x ++ y) s u (x ++ y') s' [] ∧
      Lit E x y' r.1 r.2 ∧ s'.errors = s.errors ∧ y <+: y' ∧
      (∀ t ∈ u, endsLine t.ty = false)) := by
  intro n
  induction n with
  | zero => intro x y lit span s _ _ hn; omega
  | succ n ih =>
    intro x y lit span s hL hG hn
    have hdone : Sat P ((pure (lit, span) : M (Slice × Span)) s) (fun r s' => ∃ u y',
        Nx E toks es0 (x ++ y) s u (x ++ y') s' [] ∧
        Lit E x y' r.1 r.2 ∧ s'.errors = s.errors ∧ y <+: y' ∧
        (∀ t ∈ u, endsLine t.ty = false)) :=
      Sat.pure ⟨[], y, Nx.refl hG, hL, rfl, List.prefix_refl _, by simp⟩
    unfold combineLoop
    rw [bind_peek]
    split
    · exact hdone
    · rename_i hst
      have hst : (pk E s).start = posOf (x ++ y) := by
        have := Decidable.of_not_not hst
        rw [this, hL.span]
      have hadj : ∀ {g yy : Str}, TokAt E (pk E s) (x ++ y ++ g) yy →
          x ++ y ++ g ++ yy <+: E.input → g = [] := by
        intro g yy ht hp
        by_cases hg : g = []
        · exact hg
        · exact absurd (hst.symm.trans ht.start) (posOf_ne hg)
      generalize he : (pk E s).ty = ty
      split
      · obtain ⟨g, yy, h1, h2, h3, h4⟩ := hG.adv' (by rw [he]; simp)
        obtain rfl := hadj h2 h4.good.chain.prefix
        have hy := h2.text
        rw [he] at hy
        subst hy
        rw [coms_of_ne (by rw [he]; simp)] at h4
        have hp := h4.good.chain.prefix
        simp only [List.append_nil] at hp h4
        unfold extendStrBack
        have hlit : lit = ⟨blen x, y⟩ := hL.lit
        have hsl : (slice E.input lit.off (lit.off + (blen lit.text + 1))).map
            (fun t => (⟨lit.off, t⟩ : Slice)) = some ⟨blen x, y ++ ['.']⟩ := by
          rw [hlit]
          have := slice_prefix (input := E.input) (x := x) (y := y ++ ['.']) (z := [])
            (by simpa using hp)
          rw [blen_append, show blen ['.'] = 1 from by decide] at this
          simp only [this]
          rfl
        rw [bind_lift _ _ hsl, bind_next]
        have hL' : Lit E x (y ++ ['.']) ⟨blen x, y ++ ['.']⟩ ⟨span.start, span.stop.plus 1⟩ := by
          refine ⟨rfl, ?_, ?_, by simp, by simpa using hp⟩
          · rw [hL.span, ← List.append_assoc, posOf_plus (x := x ++ y) (y := ['.']) (by decide)]
            rfl
          · intro hh
            rcases List.mem_append.1 hh with hh | hh
            · exact hL.nonl hh
            · exact absurd hh (by decide)
        have hl := h4.toNw.len
        have h4' : Nx E toks es0 (x ++ y) s [pk E s] (x ++ (y ++ ['.'])) s.adv [] := by
          simpa using h4
        refine (ih hL' h4'.good (by simp at hl; omega)).mono ?_
        rintro r s' ⟨u, y', a1, a2, a3, a4, a5⟩
        refine ⟨_, y', h4'.trans a1, a2, ?_, ?_, ?_⟩
        · rw [a3]; unfold PS.adv; rw [h3]
        · exact (List.prefix_append _ _).trans a4
        · intro t ht
          rcases List.mem_append.1 ht with ht | ht
          · rw [List.mem_singleton.1 ht, he]; rfl
          · exact a5 t ht
      · rename_i id
        obtain ⟨g, yy, h1, h2, h3, h4, h5, h6⟩ := hG.literal (β := Slice × Span) he
        obtain rfl := hadj h2 h4.good.chain.prefix
        rw [h5]
        simp only [List.append_nil] at h4 h6
        have hp := h4.good.chain.prefix
        unfold concatStrs
        have hlit : lit = ⟨blen x, y⟩ := hL.lit
        have hsl : (slice E.input lit.off (blen (x ++ y ++ []) + blen yy)).map
            (fun t => (⟨lit.off, t⟩ : Slice)) = some ⟨blen x, y ++ yy⟩ := by
          rw [hlit]
          have := slice_prefix (input := E.input) (x := x) (y := y ++ yy) (z := [])
            (by simpa using hp)
          rw [blen_append] at this
          simp only [List.append_nil, blen_append, Nat.add_assoc, this]
          rfl
        rw [bind_lift _ _ hsl, bind_next]
        have hL' : Lit E x (y ++ yy) ⟨blen x, y ++ yy⟩ ⟨span.start, span.stop.plus (blen yy)⟩ := by
          refine ⟨rfl, ?_, ?_, by simp [hL.ne], by simpa using hp⟩
          · rw [hL.span, ← List.append_assoc, posOf_plus (x := x ++ y) (y := yy) h6.nonl]
          · intro hh
            rcases List.mem_append.1 hh with hh | hh
            · exact hL.nonl hh
            · exact h6.nonl hh
        have hl := h4.toNw.len
        have h4' : Nx E toks es0 (x ++ y) s [pk E s] (x ++ (y ++ yy)) s.adv [] := by
          simpa using h4
        refine (ih hL' h4'.good (by simp at hl; omega)).mono ?_
        rintro r s' ⟨u, y', a1, a2, a3, a4, a5⟩
        refine ⟨_, y', h4'.trans a1, a2, ?_, ?_, ?_⟩
        · rw [a3]; unfold PS.adv; rw [h3]
        · exact (List.prefix_append _ _).trans a4
        · intro t ht
          rcases List.mem_append.1 ht with ht | ht
          · rw [List.mem_singleton.1 ht, he]; rfl
          · exact a5 t ht
      · exact hdone

theorem combine_post {x y : Str} {lit : Slice} {span : Span} (hL : Lit E x y lit span)
    (hG : Good E toks es0 (x ++ y) s) :
    Sat P (combineAdjacentDotAndLit E lit span s) (fun r s' => ∃ u y',
      Nx E toks es0 (x ++ y) s u (x ++ y') s' [] ∧
      Lit E x y' r.1 r.2 ∧ s'.errors = s.errors ∧ y <+: y' ∧
      (∀ t ∈ u, endsLine t.ty = false)) := by
  unfold combineAdjacentDotAndLit
  rw [bind_budget]
  exact combineLoop_post _ hL hG (by omega)

/-- The outcome of parsing a literal that starts at `x`. -/
def LitPost (E : Env) (toks : List Token) (es0 : List Error) (pre : Str) (s : PS) (x : Str)
    (v : Value) (s' : PS) : Prop :=
  ∃ u p', Nx E toks es0 pre s u p' s' [] ∧ VP E x p' s'.storage.length v ∧
    (∀ t ∈ u, endsLine t.ty = false) ∧ v.stop = posOf p'

theorem Lit.vp {x y p' : Str} {lit : Slice} {span : Span} {n : Nat} (hL : Lit E x y lit span)
    (hp : x ++ y <+: p') {v : Value} (hv : ValueAt E.input n v) (hs : v.span = span)
    (hl : valPlaces v = [v.span]) : VP E x p' n v :=
  ⟨hv, x, x ++ y, List.prefix_refl _, by
    rw [hl, hs, hL.span]
    exact .one (List.prefix_refl _) (List.prefix_append _ _) (List.prefix_refl _), hp,
    by rw [hs, hL.span]⟩

/-- A literal made of two with something between them. -/
theorem Lit.across {x y x' y' m : Str} {a b : Slice} {sa sb : Span} (ha : Lit E x y a sa)
    (hb : Lit E x' y' b sb) (hx : x' = x ++ y ++ m) (hm : '\n' ∉ m) :
    Lit E x (y ++ m ++ y') ⟨blen x, y ++ m ++ y'⟩ (Span.across sa sb) ∧
    (∀ (s' : PS) (k : Slice → M β), (concatStrs E a b >>= k) s' = k ⟨blen x, y ++ m ++ y'⟩ s') := by
  subst hx
  have hp := hb.inp
  constructor
  · refine ⟨rfl, ?_, ?_, by simp [ha.ne], by simpa using hp⟩
    · rw [ha.span, hb.span]; simp [Span.across]
    · intro hh
      simp only [List.mem_append] at hh
      rcases hh with (hh | hh) | hh
      · exact ha.nonl hh
      · exact hm hh
      · exact hb.nonl hh
  · intro s' k
    unfold concatStrs
    refine bind_lift _ _ ?_
    rw [ha.lit, hb.lit]
    have := slice_prefix (input := E.input) (x := x) (y := y ++ m ++ y') (z := [])
      (by simpa using hp)
    simp only [blen_append, Nat.add_assoc] at this ⊢
    rw [this]; rfl

theorem parseTimeAndOffset_loc {x y : Str} {lit : Slice} {span : Span} (hL : Lit E x y lit span)
    (hw : WordAt E toks x y) :
    Safe (fun e => Loc E toks e) (parseTimeAndOffset ⟨0, lit.text⟩ span) := by
  have h := parseTimeAndOffset_bd (p := posOf x) (lit := y) (cur := ⟨0, y⟩) CurAt.zero
  have hr := parseTimeAndOffset_right (p := posOf x) (lit := y) (a := []) (s := y) .localHour rfl
  rw [hL.fromPosLen, hL.lit]
  obtain ⟨z, hz⟩ := hL.inp
  exact ⟨h.1, fun e he => (h.2 e he).loc hz.symm hL.nonl (hL.claims hw (hr.2 e he))⟩

theorem timePart_post {x y x' y' m p : Str} {a b : Slice} {sa sb : Span} {date : Date}
    (ha : Lit E x y a sa) (hb : Lit E x' y' b sb) (hx : x' = x ++ y ++ m) (hm' : Blank m)
    (hw : WordAt E toks x' y') (hG : Good E toks es0 p s) (hp : p = x' ++ y') :
    Sat P (timePart E a sa date b sb s) (LitPost E toks es0 p s x) := by
  have hm := hm'.nonl
  obtain ⟨hL, hcat⟩ := Lit.across (β := Value) ha hb hx hm
  have hsp : SpanIn E.input (Span.between sa sb) := by
    rw [ha.span, hb.span]
    show SpanIn E.input ⟨posOf (x ++ y), posOf x'⟩
    rw [hx]
    refine spanIn_of (List.prefix_append _ _) (List.IsPrefix.trans ?_ hb.inp)
    rw [hx]; exact List.prefix_append _ _
  have hlp : sb.start.char > sa.stop.char + 1 →
      Loc E toks (.dateAndTimeTooFarApart (Span.between sa sb)) := by
    intro hgt
    obtain ⟨w, w1, w2⟩ := hw
    refine ⟨hsp, trivial, x ++ y, m, w, ?_, by rw [← hx]; exact w1, hm', ?_, ?_⟩
    · rw [← hx]
      exact List.IsPrefix.trans ((List.prefix_append_right_inj _).2 w2) hb.inp
    · rw [ha.span, hb.span, hx] at hgt
      simp only [posOf_plus (x := x ++ y) hm, Pos.plus] at hgt
      have : blen m = m.length := by
        clear hx hcat hgt hL
        induction m with
        | nil => rfl
        | cons c m ih =>
          have hc : c.utf8Size = 1 := by
            rcases hm' c (by simp) with rfl | rfl <;> decide
          rw [blen_cons, hc, ih (fun d hd => hm' d (by simp [hd])) (fun hh => hm (by simp [hh])),
            List.length_cons]
          omega
      omega
    · rw [ha.span, hb.span, hx]; rfl
  have hkey : ∀ {s1 : PS}, Nx E toks es0 p s [] p s1 [] → Sat P ((do
      let lit ← concatStrs E a b
      let span := Span.across sa sb
      match parseTimeAndOffset ⟨0, b.text⟩ sb with
      | .ok ((time, offset), _) =>
        pure (.dateTime lit.text span (DateTime.fromOptionalOffset date time offset))
      | .err e => do
        error e
        pure (.invalid lit.text span)
      | .panic => M.panic : M Value) s1) (LitPost E toks es0 p s x) := by
    intro s1 h1
    rw [hcat]
    simp only []
    have hs := parseTimeAndOffset_loc hb hw
    have hpre : x ++ (y ++ m ++ y') = p := by
      rw [hp, hx]; simp
    have hend : (Span.across sa sb).stop = posOf p := by rw [hL.span, hpre]
    cases hr : parseTimeAndOffset ⟨0, b.text⟩ sb with
    | ok r =>
      obtain ⟨⟨time, offset⟩, c⟩ := r
      exact Sat.pure (Q := LitPost E toks es0 p s x)
        ⟨_, p, h1, hL.vp (by rw [hpre]; exact List.prefix_refl _) (.dateTime hL.textAt) rfl rfl, by simp, hend⟩
    | err e =>
      simp only []
      rw [bind_error]
      have h2 := h1.good.err (h := []) (hs.2 e hr)
      exact Sat.pure (Q := LitPost E toks es0 p s x)
        ⟨_, p, h1.trans h2, hL.vp (by rw [hpre]; exact List.prefix_refl _) (.invalid hL.textAt) rfl rfl, by simp, hend⟩
    | panic => exact absurd hr hs.1
  unfold timePart
  split
  · rename_i hgt
    rw [bind_error]
    exact hkey (hG.err (hlp hgt))
  · exact hkey (Nx.refl hG)

theorem tryToParseTimePart_post {x y : Str} {a : Slice} {sa : Span} {date : Date}
    (ha : Lit E x y a sa) (hG : Good E toks es0 (x ++ y) s) :
    Sat P (tryToParseTimePart E a sa date s) (LitPost E toks es0 (x ++ y) s x) := by
  unfold tryToParseTimePart
  rw [bind_peek]
  generalize he : (pk E s).ty = ty
  split
  · rename_i id
    rw [bind_next]
    obtain ⟨g, yy, h1, h2, h3, h4, h5, h6⟩ := hG.literal (β := Value) he
    rw [h5]
    simp only []
    refine Sat.bind (combine_post h6 h4.good) ?_
    rintro ⟨tl, ts⟩ s1 ⟨u, y', a1, a2, a3, a4, a5⟩
    simp only [] at a2 ⊢
    refine (timePart_post ha a2 rfl h1 ((hG.wordAt he h2 h3).mono a4) a1.good rfl).mono ?_
    rintro v s' ⟨w, p', b1, b2, b3, b4⟩
    refine ⟨_, p', (h4.trans a1).trans b1, b2, ?_, b4⟩
    intro t ht
    simp only [List.mem_append, List.mem_singleton] at ht
    rcases ht with (rfl | ht) | ht
    · rw [he]; rfl
    · exact a5 t ht
    · exact b3 t ht
  · refine Sat.pure (Q := LitPost E toks es0 (x ++ y) s x) ⟨[], x ++ y, Nx.refl hG, ?_, by simp,
      by show sa.stop = _; rw [ha.span]⟩
    have hl := ha.lit
    subst hl
    exact ha.vp (List.prefix_refl _) (.dateTime ha.textAt) rfl rfl

theorem tryCombineTimePart_post {x y : Str} {a : Slice} {sa : Span}
    (ha : Lit E x y a sa) (hG : Good E toks es0 (x ++ y) s) :
    Sat P (tryCombineTimePart E a sa s) (LitPost E toks es0 (x ++ y) s x) := by
  have hdone : Sat P ((pure (.invalid a.text sa) : M Value) s) (LitPost E toks es0 (x ++ y) s x) := by
    refine Sat.pure (Q := LitPost E toks es0 (x ++ y) s x) ⟨[], x ++ y, Nx.refl hG, ?_, by simp,
      by show sa.stop = _; rw [ha.span]⟩
    have hl := ha.lit
    subst hl
    exact ha.vp (List.prefix_refl _) (.invalid ha.textAt) rfl rfl
  unfold tryCombineTimePart
  rw [bind_peek]
  generalize he : (pk E s).ty = ty
  split
  · rename_i id
    obtain ⟨g, yy, h1, h2, h3, h4, h5, h6⟩ := hG.literal (β := Value) he
    rw [h5]
    simp only []
    split
    · exact hdone
    · rw [bind_next]
      obtain ⟨hL, hcat⟩ := Lit.across (β := Value) ha h6 rfl h1.nonl
      rw [hcat]
      have h4' : Nx E toks es0 (x ++ y) s [pk E s] (x ++ (y ++ g ++ yy)) s.adv [] := by
        simpa using h4
      refine Sat.bind (combine_post hL h4'.good) ?_
      rintro ⟨tl, ts⟩ s1 ⟨u, y', a1, a2, a3, a4, a5⟩
      simp only [] at a2 ⊢
      refine Sat.pure (Q := LitPost E toks es0 (x ++ y) s x) ⟨_, _, h4'.trans a1, ?_, ?_,
        by show ts.stop = _; rw [a2.span]⟩
      rotate_left
      · intro t ht
        simp only [List.mem_append, List.mem_singleton] at ht
        rcases ht with rfl | ht
        · rw [he]; rfl
        · exact a5 t ht
      have hl := a2.lit
      subst hl
      exact a2.vp (List.prefix_refl _) (.invalid a2.textAt) rfl rfl
  · exact hdone

theorem literalValue_post {x y : Str} {a : Slice} {sa : Span}
    (ha : Lit E x y a sa) (hw : WordAt E toks x y) (hG : Good E toks es0 (x ++ y) s) :
    Sat P (literalValue E a sa s) (LitPost E toks es0 (x ++ y) s x) := by
  have hsafe := parseLiteral_bd (p := posOf x) (ovf := E.ovf) ha.ne
  obtain ⟨z, hz⟩ := ha.inp
  have hf := ha.fromPosLen
  have hl := ha.lit
  subst hl
  unfold literalValue
  simp only [hf]
  rw [← hf]
  have hloc : ∀ e, Bd y (posOf x) e → Right y (posOf x) e → Loc E toks e :=
    fun e he hr => he.loc hz.symm ha.nonl (ha.claims hw hr)
  have hdone : ∀ v s', Nx E toks es0 (x ++ y) s [] (x ++ y) s' [] → ValueAt E.input s'.storage.length v →
      v.span = sa → valPlaces v = [v.span] → LitPost E toks es0 (x ++ y) s x v s' :=
    fun v s' h1 h2 h3 h4 => ⟨[], _, h1, ha.vp (List.prefix_refl _) h2 h3 h4, by simp,
      by rw [Value.stop_span, h3, ha.span]⟩
  cases hr : parseLiteral E.ovf y sa with
  | ok r =>
    cases r with
    | float f => exact Sat.pure (hdone _ _ (Nx.refl hG) (.float ha.textAt) rfl rfl)
    | int i => exact Sat.pure (hdone _ _ (Nx.refl hG) (.int ha.textAt) rfl rfl)
    | bool b =>
      refine Sat.pure (hdone _ _ (Nx.refl hG) (.bool ?_) rfl rfl)
      have := parseLiteral_bool.1 hr
      have ht := ha.textAt
      rw [this] at ht
      cases b <;> exact ht
    | dateTime d => exact Sat.pure (hdone _ _ (Nx.refl hG) (.dateTime ha.textAt) rfl rfl)
    | partialDate d => exact tryToParseTimePart_post ha hG
    | invalidDateTime e =>
      simp only []
      rw [bind_error]
      have he : Loc E toks e := hloc e (hsafe.2 e (by rw [← hf]; exact hr))
        (literal_right_all (ovf := E.ovf) ha.ne (.inr (by rw [← hf]; exact hr)))
      have h1 := hG.err (h := []) he
      split
      · exact Sat.pure (hdone _ _ h1 (.invalid ha.textAt) rfl rfl)
      · refine (tryCombineTimePart_post ha h1.good).mono ?_
        rintro v s' ⟨u, p', g1, g2, g3, g4⟩
        exact ⟨_, p', h1.trans g1, g2, by simpa using g3, g4⟩
  | err e =>
    simp only []
    rw [bind_error]
    have he : Loc E toks e := hloc e (hsafe.1.2 e (by rw [← hf]; exact hr))
      (literal_right_all (ovf := E.ovf) ha.ne (.inl (by rw [← hf]; exact hr)))
    exact Sat.pure (hdone _ _ (hG.err he) (.invalid ha.textAt) rfl rfl)
  | panic => exact absurd (by rw [← hf]; exact hr) hsafe.1.1

/-- The outcome of `parse_value`. -/
abbrev ValPost (E : Env) (toks : List Token) (es0 : List Error) (pre : Str) (s : PS) :
    Except Error Value → PS → Prop :=
  ResPost E toks es0 pre s fun p' s' v =>
    VP E pre p' s'.storage.length v ∧ s'.rest.length < s.rest.length ∧ (s'.rest = [] ∨ s'.LastNot) ∧
      Ended E p' s' v.stop

theorem VP.weaken {a b c d : Str} {n : Nat} {v : Value} (h : VP E b c n v) (hab : a <+: b)
    (hcd : c <+: d) : VP E a d n v := by
  obtain ⟨h1, x, y, e1, e2, e3, e4⟩ := h
  exact ⟨h1, x, y, hab.trans e1, e2, e3.trans hcd, e4⟩

theorem bind_val {x : M Value} {Q : Value → PS → Prop} (hx : Sat P (x s) Q)
    (hq : ∀ v s', Q v s' → ValPost E toks es0 pre s (.ok v) s') :
    Sat P ((x >>= fun v => (pure (.ok v) : M (Except Error Value))) s) (ValPost E toks es0 pre s) :=
  Sat.bind hx fun v s' h => Sat.pure (hq v s' h)

theorem parseStringValue_post (hG : Good E toks es0 pre s) {id : Nat}
    (he : (pk E s).ty = .string id) :
    Sat P ((parseStringValue E id >>= fun v => (pure (.ok v) : M (Except Error Value))) s)
      (ValPost E toks es0 pre s) := by
  obtain ⟨g, y, h1, h2, h3, h4⟩ := hG.adv' (by rw [he]; simp)
  have ht := h2.text
  rw [he] at ht
  obtain ⟨q, txt, o, ht, o1, t1, d1, rfl, rfl, hq1, hd1, hone1, hpl1⟩ := ht
  obtain ⟨z, hz⟩ := h4.good.chain.prefix
  rw [coms_of_ne (by rw [he]; simp)] at h4
  refine bind_val (Q := fun v s' => v = .string ⟨o1 ++ t1 ++ d1, ⟨(pk E s).start, posOf (pre ++ g ++ (o1 ++ t1 ++ d1))⟩, txt, offOf o1 d1, q⟩ ∧
    s' = s.adv) ?_ ?_
  · unfold parseStringValue
    rw [bind_next]
    unfold getString
    rw [bind_lift _ _ ht]
    exact Sat.pure ⟨rfl, rfl⟩
  · rintro v s' ⟨rfl, rfl⟩
    obtain ⟨ts, t1', t2, t3, t4, t5⟩ := applyTo_offOf (x := pre ++ g) (o := o1) (t := t1) hd1
    refine ⟨_, _, h4, ⟨.string ⟨pre ++ g, o1, t1, d1, z, by rw [hz], rfl, by rw [h2.start], hq1, hd1, hone1, hpl1,
      ts, ?_, t2, t3, t4, t5⟩, pre ++ g, pre ++ g ++ (o1 ++ t1 ++ d1),
      List.prefix_append _ _, ?_, List.prefix_refl _, ?_⟩, ?_, .inr ⟨_, _, adv_done h3, by rw [he]; simp⟩,
      .inl ⟨rfl, h4.toNw.lastAt hG (by simp) (by simp [he, endsLine])⟩⟩
    · rw [← t1', h2.start]
    · exact .one' (by show (⟨_, _⟩ : Span) = _; rw [h2.start]) (List.prefix_refl _)
        (List.prefix_append _ _) (List.prefix_refl _)
    · show (⟨_, _⟩ : Span) = _
      rw [h2.start]
    · rw [h3]; simp

theorem parseLiteralValue_post (hG : Good E toks es0 pre s) {id : Nat}
    (he : (pk E s).ty = .literalOrIdent id) :
    Sat P ((parseLiteralValue E id >>= fun v => (pure (.ok v) : M (Except Error Value))) s)
      (ValPost E toks es0 pre s) := by
  obtain ⟨g, yy, h1, h2, h3, h4, h5, h6⟩ := hG.literal (β := Value) he
  refine bind_val (Q := fun v s' => ∃ u p', Nx E toks es0 pre s u p' s' [] ∧
    VP E (pre ++ g) p' s'.storage.length v ∧ s'.rest.length < s.rest.length ∧
    (s'.rest = [] ∨ s'.LastNot) ∧ Ended E p' s' v.stop) ?_ ?_
  · unfold parseLiteralValue
    rw [bind_next, h5]
    simp only []
    refine Sat.bind (combine_post h6 h4.good) ?_
    rintro ⟨tl, ts⟩ s1 ⟨u, y', a1, a2, a3, a4, a5⟩
    simp only [] at a2 ⊢
    refine (literalValue_post a2 ((hG.wordAt he h2 h3).mono a4) a1.good).mono ?_
    rintro v s' ⟨w, p', b1, b2, b3, b4⟩
    have hno : ∀ t ∈ [pk E s] ++ u ++ w, endsLine t.ty = false := by
      intro t ht
      simp only [List.mem_append, List.mem_singleton] at ht
      rcases ht with (rfl | ht) | ht
      · rw [he]; rfl
      · exact a5 t ht
      · exact b3 t ht
    refine ⟨_, p', (h4.trans a1).trans b1, b2, ?_, .inr ?_, .inl ⟨b4, ?_⟩⟩
    · have := ((h4.trans a1).trans b1).toNw.len
      simp at this; omega
    · exact ((h4.trans a1).trans b1).toNw.lastNot_of hG (by simp) hno
    · exact ((h4.trans a1).trans b1).toNw.lastAt hG (by simp) hno
  · rintro v s' ⟨u, p', b1, b2, b3⟩
    exact ⟨u, p', b1, b2.weaken (List.prefix_append _ _) (List.prefix_refl _), b3⟩

theorem parseDotValue_post (hG : Good E toks es0 pre s) (he : (pk E s).ty = .dot) :
    Sat P (parseDotValue E (pk E s) s) (ValPost E toks es0 pre s) := by
  obtain ⟨g, y, h1, h2, h3, h4⟩ := hG.adv' (by rw [he]; simp)
  have hy := h2.text
  rw [he] at hy
  subst hy
  rw [coms_of_ne (by rw [he]; simp)] at h4
  unfold parseDotValue
  rw [bind_next, bind_error, bind_peek]
  have hloc : Loc E toks (.unexpectedLiteralStart '.' (pk E s).start) := by
    have hmem : (View.punct '.', (pk E s).start) ∈ views E toks := by
      rw [hG.views, h3]
      simp [views, resolve, he]
    refine ⟨?_, trivial, .inl ⟨rfl, hmem⟩⟩
    show SpanIn E.input (Span.fromPosLen _ _)
    rw [h2.start]
    have := posOf_plus (x := pre ++ g) (y := ['.']) (by decide)
    have e : Span.fromPosLen (posOf (pre ++ g)) ('.').utf8Size = ⟨posOf (pre ++ g), posOf (pre ++ g ++ ['.'])⟩ := by
      rw [this]; rfl
    rw [e]
    exact spanIn_of (List.prefix_append _ _) h4.good.chain.prefix
  have h5 := h4.good.err (h := []) hloc
  obtain ⟨f, sp, e1, ⟨ov, ⟨k1, k2, -⟩, k3⟩, e2⟩ := hG.fmt (β := Except Error Value)
  have hfail : Sat P ((do
      let (f, s) ← tokenFmtStrAndSpan E (pk E s)
      pure (.error (.expectedValueFound f s)) : M (Except Error Value))
        (s.adv.err (.unexpectedLiteralStart '.' (pk E s).start))) (ValPost E toks es0 pre s) := by
    rw [e2]
    refine Sat.pure (Q := ValPost E toks es0 pre s) ⟨_, _, (h4.trans h5).toNw,
      ⟨e1, trivial, _, ov, k1, k3, ?_⟩, .inr ⟨?_, by simp⟩⟩
    · rintro v hv hvl
      have hd := k2.dot.2 he
      rw [hv] at hd
      cases hd
      cases hvl with
      | key h => cases h
    · intro t ht
      rw [List.append_nil, List.mem_singleton] at ht
      rw [ht, he]; rfl
  generalize he2 : (pk E (s.adv.err _)).ty = ty
  split
  · rename_i id
    split
    · rename_i hst
      rw [bind_next]
      obtain ⟨g', yy, a1, a2, a3, a4, a5, a6⟩ := h5.good.literal (β := Except Error Value) he2
      have hg' : g' = [] := by
        by_cases hg : g' = []
        · exact hg
        · have := posOf_plus (x := pre ++ g) (y := ['.']) (by decide)
          have hb : blen ['.'] = 1 := by decide
          rw [hb, ← h2.start] at this
          have hs := hst.symm.trans a2.start
          rw [← this] at hs
          exact absurd hs (posOf_ne hg)
      subst hg'
      simp only [List.append_nil] at a4 a5 a6
      rw [a5]
      unfold extendStrFront
      have hp := a4.good.chain.prefix
      have hsl : (do
          let off ← subU (blen (pre ++ g ++ ['.'])) 1
          let t ← slice E.input off (off + (blen yy + 1))
          pure (⟨off, t⟩ : Slice)) = some ⟨blen (pre ++ g), '.' :: yy⟩ := by
        have hb : blen (pre ++ g ++ ['.']) = blen (pre ++ g) + 1 := by
          rw [blen_append]; rfl
        have := slice_prefix (input := E.input) (x := pre ++ g) (y := '.' :: yy) (z := [])
          (by simpa using hp)
        rw [hb]
        simp only [subU, if_pos (show 1 ≤ blen (pre ++ g) + 1 by omega), Nat.add_sub_cancel,
          Option.bind_eq_bind, Option.bind_some]
        have hb2 : blen ('.' :: yy) = blen yy + 1 := by
          rw [blen_cons, Nat.add_comm]; rfl
        rw [hb2] at this
        rw [this]; rfl
      rw [bind_lift _ _ hsl]
      have hL : Lit E (pre ++ g) ('.' :: yy) ⟨blen (pre ++ g), '.' :: yy⟩
          (Span.fromPosLen (pk E s).start (blen yy + 1)) := by
        have hn : '\n' ∉ '.' :: yy := by simp [a6.nonl]
        refine ⟨rfl, ?_, hn, by simp, by simpa using hp⟩
        rw [posOf_plus hn, h2.start, blen_cons, Nat.add_comm]
        rfl
      have hp1 : pre ++ g ++ ['.'] ++ yy = pre ++ g ++ '.' :: yy := by simp
      rw [hp1] at a4
      refine Sat.bind (combine_post hL a4.good) ?_
      rintro ⟨tl, ts⟩ s1 ⟨u, y', b1, b2, b3, b4, b5⟩
      simp only [] at b2 ⊢
      have hl := b2.lit
      subst hl
      have hno : ∀ t ∈ [pk E s] ++ [] ++ [pk E (s.adv.err (.unexpectedLiteralStart '.' (pk E s).start))] ++ u,
          endsLine t.ty = false := by
        intro t ht
        simp only [List.append_nil, List.mem_append, List.mem_singleton] at ht
        rcases ht with (rfl | rfl) | ht
        · rw [he]; rfl
        · rw [he2]; rfl
        · exact b5 t ht
      refine Sat.pure (Q := ValPost E toks es0 pre s) ⟨_, _, ((h4.trans h5).trans a4).trans b1, ?_, ?_,
        .inr ((((h4.trans h5).trans a4).trans b1).toNw.lastNot_of hG (by simp) hno),
        .inl ⟨?_, (((h4.trans h5).trans a4).trans b1).toNw.lastAt hG (by simp) hno⟩⟩
      · exact (b2.vp (List.prefix_refl _) (.invalid b2.textAt) rfl rfl).weaken (List.prefix_append _ _)
          (List.prefix_refl _)
      · have := (((h4.trans h5).trans a4).trans b1).toNw.len
        simp at this; omega
      · show ts.stop = _
        rw [b2.span]
    · exact hfail
  · exact hfail

end Verif.Toml
