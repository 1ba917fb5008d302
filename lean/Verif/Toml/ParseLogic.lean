import Verif.Toml.ParseBase
import Verif.Toml.ParseTold
import Verif.Toml.LitBound

/-! # A program logic for the parser -/

namespace Verif.Toml
open Verif Verif.Spec.Toml

/-! ## Outcomes -/

/-- The outcome satisfies `Q`, or is a panic and `P` holds; it is not a timeout. -/
def Sat {α : Type} (P : Prop) (r : Run α) (Q : α → PS → Prop) : Prop :=
  match r with
  | .ok a s => Q a s
  | .panic => P
  | .timeout => False

variable {α β : Type} {P : Prop}

theorem Sat.bind {x : M α} {f : α → M β} {s : PS} {Q : α → PS → Prop} {R : β → PS → Prop}
    (h : Sat P (x s) Q) (hf : ∀ a s', Q a s' → Sat P (f a s') R) : Sat P ((x >>= f) s) R := by
  show Sat P (M.bind x f s) R
  unfold M.bind
  cases hx : x s with
  | ok a s' => rw [hx] at h; exact hf a s' h
  | panic => rw [hx] at h; exact h
  | timeout => rw [hx] at h; exact h

theorem Sat.mono {r : Run α} {Q R : α → PS → Prop} (h : Sat P r Q) (hq : ∀ a s, Q a s → R a s) :
    Sat P r R := by
  cases r with
  | ok a s => exact hq a s h
  | panic => exact h
  | timeout => exact h

theorem Sat.pure {a : α} {s : PS} {Q : α → PS → Prop} (h : Q a s) : Sat P ((Pure.pure a : M α) s) Q := h

theorem Sat.ok {a : α} {s : PS} {Q : α → PS → Prop} (h : Q a s) : Sat P (Run.ok a s) Q := h

/-- The next token. -/
def pk (E : Env) (s : PS) : Token := s.rest.head?.getD E.eof

/-- The state behind the next token. -/
def PS.adv (s : PS) : PS :=
  match s.rest with
  | t :: ts => { s with done := t :: s.done, rest := ts }
  | [] => s

/-- The state with another diagnostic. -/
def PS.err (s : PS) (e : Error) : PS := { s with errors := s.errors ++ [e] }

theorem next_eq (E : Env) (s : PS) : next E s = .ok (pk E s) s.adv := by
  unfold next pk PS.adv
  cases s.rest <;> rfl

theorem peek_eq (E : Env) (s : PS) : peek E s = .ok (pk E s) s := rfl

theorem bind_peek (E : Env) (f : Token → M β) (s : PS) : (peek E >>= f) s = f (pk E s) s := rfl

theorem bind_next (E : Env) (f : Token → M β) (s : PS) : (next E >>= f) s = f (pk E s) s.adv := by
  show M.bind (next E) f s = _
  rw [M.bind, next_eq]

theorem bind_pure (a : α) (f : α → M β) (s : PS) : ((pure a : M α) >>= f) s = f a s := rfl

theorem bind_error (e : Error) (f : Unit → M β) (s : PS) : (error e >>= f) s = f () (s.err e) := rfl

theorem bind_budget (f : Nat → M β) (s : PS) : (budget >>= f) s = f (s.rest.length + 1) s := rfl

theorem bind_nextId (f : Nat → M β) (s : PS) : (nextCommentId >>= f) s = f s.storage.length s := rfl

theorem bind_mark (f : Nat → M β) (s : PS) : (mark >>= f) s = f s.errors.length s := rfl

theorem bind_peekPrev (f : Option Token → M β) (s : PS) : (peekPrev >>= f) s = f s.done.head? s := rfl

theorem bind_lift {o : Option α} {a : α} (f : α → M β) (s : PS) (h : o = some a) :
    (M.lift o >>= f) s = f a s := by subst h; rfl

theorem lift_eq {o : Option α} {a : α} (s : PS) (h : o = some a) : M.lift o s = .ok a s := by
  subst h; rfl

/-! ## The invariant -/

/-- What else is known of a diagnostic of the parser: the opening bracket named in it is one, and it
is not one about the entries of tables. -/
def LocX (input : Str) : Error → Prop
  | .expectedRightCurlyFound _ p _ => CharAt input p '{'
  | .expectedRightSquareFound _ p _ => CharAt input p '['
  | .expectedDotOrRightSquareFound _ p _ => CharAt input p '['
  | e => ExpOk e

theorem ExpOk.locX {input : Str} {e : Error} (h : ExpOk e) : LocX input e := by
  cases e <;> first | exact h | exact h.elim

/-- Where a diagnostic of the parser points to, and what it says is true. -/
structure Loc (E : Env) (toks : List Token) (e : Error) : Prop where
  span : SpanIn E.input e.span
  extra : LocX E.input e
  told : Claims E.input (views E toks) e

/-- An error in a literal. -/
theorem Bd.loc {E : Env} {toks : List Token} {x y z : Str} {e : Error} (h : Bd y (posOf x) e)
    (hi : E.input = x ++ y ++ z) (hn : '\n' ∉ y) (hc : Claims E.input (views E toks) e) :
    Loc E toks e := by
  obtain ⟨⟨o1, o2, hs, hle, ⟨a1, b1, rfl, rfl⟩, ⟨a2, b2, h2, rfl⟩⟩, hx⟩ := h
  refine ⟨?_, hx.locX, hc⟩
  rcases List.append_eq_append_iff.1 h2 with ⟨m, rfl, rfl⟩ | ⟨m, rfl, rfl⟩
  · refine ⟨x ++ a1, m, b2 ++ z, by rw [hi]; simp, ?_⟩
    rw [hs, posOf_plus (fun hh => hn (by simp [hh])), List.append_assoc,
      posOf_plus (fun hh => hn (by simpa [or_assoc] using Or.inl (List.mem_append.1 hh)))]
  · rw [blen_append] at hle
    have : m = [] := by
      cases m with
      | nil => rfl
      | cons c cs => rw [blen_cons] at hle; have := utf8Size_pos' c; omega
    subst this
    refine ⟨x ++ a2, [], b1 ++ z, by rw [hi]; simp, ?_⟩
    simp only [List.append_nil] at hs ⊢
    rw [hs, posOf_plus (fun hh => hn (by simp [hh]))]

/-- The comment of a token. -/
def comOf (E : Env) (t : Token) : Option Comment :=
  match t.ty with
  | .comment id => E.literals[id]?.map fun l => ⟨Span.fromPosLen t.start (1 + blen l), l⟩
  | _ => none

/-- The comments of tokens. -/
def coms (E : Env) (u : List Token) : List Comment := u.filterMap (comOf E)

theorem coms_append (E : Env) (u v : List Token) : coms E (u ++ v) = coms E u ++ coms E v := by
  simp [coms]

/-- The comments in the storage. -/
def PS.coms (s : PS) : List Comment := s.storage.map (·.comment)

variable {E : Env} {toks : List Token} {es0 : List Error}

/-- The invariant of the parser behind the text `pre`. -/
structure Good (E : Env) (toks : List Token) (es0 : List Error) (pre : Str) (s : PS) : Prop where
  chain : Chain E pre s.rest
  com : ComToks s.rest
  all : toks = s.done.reverse ++ s.rest
  done : ∀ t ∈ s.done, PosIn E.input t.start ∧
    ∃ v, resolve E.strings E.literals t = some (v, t.start)
  errs : ∃ new, s.errors = es0 ++ new ∧ ∀ e ∈ new, Loc E toks e
  stor : ∀ c ∈ s.storage, CommentAt E.input c.comment
  eofTy : E.eof.ty = .eof
  eofStart : E.eof.start = posOf E.input

/-- From the state `s` behind `pre`, the tokens `u` have been consumed. -/
structure Nw (E : Env) (toks : List Token) (es0 : List Error) (pre : Str) (s : PS) (u : List Token)
    (pre' : Str) (s' : PS) : Prop where
  good : Good E toks es0 pre' s'
  seg : Seg E pre u pre'
  rest : s.rest = u ++ s'.rest
  errs : s.errors <+: s'.errors
  stor : s.storage.length ≤ s'.storage.length

/-- Also, the consumed comments have been stored, unless there is a new diagnostic; `h` are the
comments at hand. -/
structure Nx (E : Env) (toks : List Token) (es0 : List Error) (pre : Str) (s : PS) (u : List Token)
    (pre' : Str) (s' : PS) (h : List Comment) : Prop extends Nw E toks es0 pre s u pre' s' where
  comm : s'.errors = s.errors → s'.coms ++ h = s.coms ++ coms E u

variable {pre p1 p2 : Str} {s s1 s2 : PS} {u v : List Token} {h : List Comment}

theorem Nx.refl (hG : Good E toks es0 pre s) : Nx E toks es0 pre s [] pre s [] :=
  ⟨⟨hG, .nil, rfl, List.prefix_refl _, Nat.le_refl _⟩, fun _ => by simp [Verif.Toml.coms]⟩

theorem Nw.trans (h1 : Nw E toks es0 pre s u p1 s1) (h2 : Nw E toks es0 p1 s1 v p2 s2) :
    Nw E toks es0 pre s (u ++ v) p2 s2 :=
  ⟨h2.good, h1.seg.append h2.seg, by rw [h1.rest, h2.rest]; simp, h1.errs.trans h2.errs,
    Nat.le_trans h1.stor h2.stor⟩

theorem Nx.trans (h1 : Nx E toks es0 pre s u p1 s1 []) (h2 : Nx E toks es0 p1 s1 v p2 s2 h) :
    Nx E toks es0 pre s (u ++ v) p2 s2 h := by
  refine ⟨h1.toNw.trans h2.toNw, fun he => ?_⟩
  have a : s1.errors = s.errors := by
    have e1 := h1.errs
    have e2 := h2.errs
    rw [he] at e2
    exact (e1.eq_of_length_le e2.length_le).symm
  have b : s2.errors = s1.errors := by rw [he, a]
  have c1 := h1.comm a
  rw [List.append_nil] at c1
  rw [h2.comm b, c1, coms_append, List.append_assoc]

theorem Nx.of_err (h1 : Nw E toks es0 pre s u p1 s1) (hne : s1.errors ≠ s.errors) :
    Nx E toks es0 pre s u p1 s1 h := ⟨h1, fun e => absurd e hne⟩

/-! ## Elementary steps -/

theorem seg_posIn {a b x : Str} (hs : a <+: b) (hb : b <+: x) : PosIn x (posOf a) := by
  obtain ⟨z, hz⟩ := hs.trans hb
  exact ⟨a, z, hz.symm, rfl⟩

theorem Good.adv (hG : Good E toks es0 pre s) {t : Token} {ts : List Token} (hr : s.rest = t :: ts) :
    ∃ g y, Blank g ∧ TokAt E t (pre ++ g) y ∧ pk E s = t ∧
      Nx E toks es0 pre s [t] (pre ++ g ++ y) s.adv (coms E [t]) := by
  have hc := hG.chain
  rw [hr] at hc
  obtain ⟨g, y, h1, h2, h3⟩ := hc.cons_inv
  have hadv : s.adv = { s with done := t :: s.done, rest := ts } := by
    unfold PS.adv; rw [hr]
  refine ⟨g, y, h1, h2, by unfold pk; rw [hr]; rfl, ?_⟩
  rw [hadv]
  refine ⟨⟨⟨h3, ?_, ?_, ?_, hG.errs, hG.stor, hG.eofTy, hG.eofStart⟩, .cons h1 h2 .nil, hr,
    List.prefix_refl _, Nat.le_refl _⟩, fun _ => rfl⟩
  · intro a b id t' e
    exact hG.com (t :: a) b id t' (by rw [hr]; simpa using e)
  · rw [hG.all, hr]; simp
  · intro t' ht'
    rcases List.mem_cons.1 ht' with rfl | ht'
    · obtain ⟨v, hv, -⟩ := h2.view
      refine ⟨?_, v, by rw [hv, h2.start]⟩
      rw [h2.start]
      exact seg_posIn (List.prefix_append _ y) h3.prefix
    · exact hG.done t' ht'

theorem Good.pk_eof (hG : Good E toks es0 pre s) (hr : s.rest = []) : pk E s = E.eof := by
  unfold pk; rw [hr]; rfl

/-- The next token is not the end, and so it is consumed by `next`. -/
theorem Good.adv' (hG : Good E toks es0 pre s) (hne : (pk E s).ty ≠ .eof) :
    ∃ g y, Blank g ∧ TokAt E (pk E s) (pre ++ g) y ∧ s.rest = pk E s :: s.adv.rest ∧
      Nx E toks es0 pre s [pk E s] (pre ++ g ++ y) s.adv (coms E [pk E s]) := by
  cases hr : s.rest with
  | nil => exact absurd (by rw [hG.pk_eof hr]; exact hG.eofTy) hne
  | cons t ts =>
    obtain ⟨g, y, h1, h2, h3, h4⟩ := hG.adv hr
    rw [h3]
    refine ⟨g, y, h1, h2, ?_, h4⟩
    have := h4.rest
    rw [hr] at this
    simpa using this

theorem Good.err (hG : Good E toks es0 pre s) {e : Error} (he : Loc E toks e) :
    Nx E toks es0 pre s [] pre (s.err e) h := by
  obtain ⟨new, h1, h2⟩ := hG.errs
  refine Nx.of_err ⟨⟨hG.chain, hG.com, hG.all, hG.done, ⟨new ++ [e], ?_, ?_⟩, hG.stor, hG.eofTy,
    hG.eofStart⟩, .nil, rfl, ⟨[e], rfl⟩, Nat.le_refl _⟩ ?_
  · show s.errors ++ [e] = _
    rw [h1]; simp
  · intro e' he'
    rcases List.mem_append.1 he' with he' | he'
    · exact h2 e' he'
    · rw [List.mem_singleton.1 he']; exact he
  · show s.errors ++ [e] ≠ s.errors
    intro hh
    have := congrArg List.length hh
    simp at this

theorem comOf_of_ne {t : Token} (ht : ∀ id, t.ty ≠ .comment id) : comOf E t = none := by
  unfold comOf
  split
  · rename_i id he; exact absurd he (ht id)
  · rfl

theorem coms_of_ne {t : Token} (ht : ∀ id, t.ty ≠ .comment id) : coms E [t] = [] := by
  simp [coms, comOf_of_ne ht]

theorem coms_nil_of {u : List Token} (hu : ∀ t ∈ u, endsLine t.ty = false) : coms E u = [] := by
  unfold coms
  rw [List.filterMap_eq_nil_iff]
  intro t ht
  refine comOf_of_ne (fun id he => ?_)
  have := hu t ht
  rw [he] at this
  cases this

theorem coms_comment {t : Token} {id : Nat} {l : Str} (ht : t.ty = .comment id)
    (hl : E.literals[id]? = some l) :
    coms E [t] = [⟨Span.fromPosLen t.start (1 + blen l), l⟩] := by
  simp [coms, comOf, ht, hl]

/-! ## Spans and names of tokens -/

theorem TokAt.commentAt {t : Token} {x y z : Str} {id : Nat} (h : TokAt E t x y) (ht : t.ty = .comment id)
    (hin : E.input = x ++ y ++ z) : ∃ l, E.literals[id]? = some l ∧ y = '#' :: l ∧
      CommentAt E.input ⟨Span.fromPosLen t.start (1 + blen l), l⟩ := by
  have := h.text
  rw [ht] at this
  obtain ⟨l, h1, h2, h3⟩ := this
  refine ⟨l, h1, h2, h3, x, z, by rw [hin, h2], ?_⟩
  have hn : '\n' ∉ '#' :: l := by simp [h3]
  simp only []
  rw [posOf_plus hn, h.start]
  show Span.fromPosLen _ _ = Span.fromPosLen _ _
  congr 1

/-- The name and the span of a token exist; the span is the text of the token. -/
theorem TokAt.spanEq {t : Token} {x y : Str} (h : TokAt E t x y) :
    (∃ f, ∀ s, tokenFmtStr E t s = .ok f s) ∧
      ∃ sp, (∀ s, tokenSpan E t s = .ok sp s) ∧
        sp = (if t.ty = .newline then ⟨posOf x, posOf x⟩ else ⟨posOf x, posOf (x ++ y)⟩) := by
  have ht := h.text
  have hst := h.start
  unfold tokenFmtStr tokenSpan
  split at ht
  · rename_i id he
    obtain ⟨q, txt, o, h1, -⟩ := ht
    simp only [he, h1]
    exact ⟨⟨_, fun _ => rfl⟩, _, fun _ => rfl, by simp [hst]⟩
  · rename_i id he
    obtain ⟨h1, h2, -⟩ := ht
    simp only [he, h1]
    exact ⟨⟨_, fun _ => rfl⟩, _, fun _ => rfl, by simp [hst, posOf_plus h2, Span.fromPosLen]⟩
  · rename_i id he
    obtain ⟨l, h1, rfl, h3⟩ := ht
    simp only [he, h1]
    refine ⟨⟨_, fun _ => rfl⟩, _, fun _ => rfl, ?_⟩
    have hn : '\n' ∉ '#' :: l := by simp [h3]
    simp only [reduceCtorEq, if_false, hst, posOf_plus hn, Span.fromPosLen]
    rfl
  all_goals
    rename_i he
    simp only [he]
  all_goals try
    subst ht
    refine ⟨⟨_, fun _ => rfl⟩, _, fun _ => rfl, ?_⟩
    simp only [hst]
    rw [posOf_plus (by decide)]
    rfl
  · refine ⟨⟨_, fun _ => rfl⟩, _, fun _ => rfl, ?_⟩
    simp only [hst]
    rfl
  · exact ht.elim

theorem spanIn_of {input a b : Str} (h : a <+: b) (hb : b <+: input) : SpanIn input ⟨posOf a, posOf b⟩ := by
  obtain ⟨y, rfl⟩ := h
  obtain ⟨z, rfl⟩ := hb
  exact ⟨a, y, z, rfl, rfl⟩

theorem Nw.done_eq (hG : Good E toks es0 pre s) (hN : Nw E toks es0 pre s u p1 s1) :
    s1.done.reverse = s.done.reverse ++ u := by
  have h1 := hG.all
  have h2 := hN.good.all
  rw [hN.rest] at h1
  have := h2.symm.trans h1
  rw [← List.append_assoc] at this
  exact List.append_cancel_right this

theorem Nw.done_eq' (hG : Good E toks es0 pre s) (hN : Nw E toks es0 pre s u p1 s1) :
    s1.done = u.reverse ++ s.done := by
  have := congrArg List.reverse (hN.done_eq hG)
  simpa using this

/-- The tokens in front of and behind the cursor. -/
theorem Good.views (hG : Good E toks es0 pre s) :
    Verif.Toml.views E toks = Verif.Toml.views E s.done.reverse ++ Verif.Toml.views E s.rest := by
  rw [hG.all, views_append]

/-- A consumed token. -/
theorem Good.mem_done (hG : Good E toks es0 pre s) {t : Token} (ht : t ∈ s.done) {v : View} {p : Pos}
    (hv : resolve E.strings E.literals t = some (v, p)) :
    (v, p) ∈ Verif.Toml.views E s.done.reverse :=
  List.mem_filterMap.2 ⟨t, List.mem_reverse.2 ht, hv⟩

theorem Good.mem_toks (hG : Good E toks es0 pre s) {w : Tok}
    (hw : w ∈ Verif.Toml.views E s.done.reverse) : w ∈ Verif.Toml.views E toks := by
  rw [hG.views]; exact List.mem_append.2 (.inl hw)

theorem Nw.mem_views (hG : Good E toks es0 pre s) (hN : Nw E toks es0 pre s u p1 s1) {w : Tok}
    (hw : w ∈ Verif.Toml.views E s.done.reverse) : w ∈ Verif.Toml.views E s1.done.reverse := by
  rw [hN.done_eq hG, views_append]; exact List.mem_append.2 (.inl hw)

theorem Seg.lastTok {a b : Str} {u : List Token} {t : Token} (h : Seg E a (u ++ [t]) b) :
    ∃ x y, TokAt E t x y ∧ b = x ++ y := by
  induction u generalizing a with
  | nil =>
    cases h with
    | cons h1 h2 h3 => cases h3; exact ⟨_, _, h2, rfl⟩
  | cons t' u ih =>
    cases h with
    | cons h1 h2 h3 => exact ih h3

/-- The last consumed token ends at the end of `p`, and it is no end of a line. -/
def LastAt (E : Env) (p : Str) (s : PS) : Prop :=
  ∃ t d x y, s.done = t :: d ∧ TokAt E t x y ∧ p = x ++ y ∧ endsLine t.ty = false

theorem Nw.lastAt (hG : Good E toks es0 pre s) (hN : Nw E toks es0 pre s u p1 s1) (hne : u ≠ [])
    (hu : ∀ t ∈ u, endsLine t.ty = false) : LastAt E p1 s1 := by
  have hd := hN.done_eq' hG
  have hs := hN.seg
  rw [← List.dropLast_concat_getLast hne] at hs hd
  obtain ⟨x, y, h1, h2⟩ := hs.lastTok
  refine ⟨u.getLast hne, u.dropLast.reverse ++ s.done, x, y, by rw [hd]; simp, h1, h2, hu _ (List.getLast_mem hne)⟩

/-- A value that has been read up to `p` ends at `stop`: this is the end of the last token, or there are no
more tokens, or it is an inline table without a closing bracket. -/
def Ended (E : Env) (p : Str) (s : PS) (stop : Pos) : Prop :=
  stop = posOf p ∧ LastAt E p s ∨ s.rest = [] ∨
    ∃ x b, (.punct '{', posOf x) ∈ Verif.Toml.views E s.done.reverse ∧ x ++ ['{'] <+: b ∧ b <+: p ∧
      stop = posOf b ∧ (pk E s).ty ≠ .curlyRight

/-- The last consumed token. -/
theorem Good.last (hG : Good E toks es0 pre s) {t : Token} {d : List Token} (hd : s.done = t :: d) :
    ∃ v, resolve E.strings E.literals t = some (v, t.start) ∧
      Verif.Toml.views E s.done.reverse = Verif.Toml.views E d.reverse ++ [(v, t.start)] := by
  obtain ⟨-, v, hv⟩ := hG.done t (by rw [hd]; simp)
  refine ⟨v, hv, ?_⟩
  rw [hd, List.reverse_cons, views_append]
  congr 1
  simp [Verif.Toml.views, hv]

theorem adv_done {t : Token} {ts : List Token} (hr : s.rest = t :: ts) : s.adv.done = t :: s.done := by
  unfold PS.adv; rw [hr]

theorem Nw.lastNot_of (hG : Good E toks es0 pre s) (hN : Nw E toks es0 pre s u p1 s1) (hne : u ≠ [])
    (hu : ∀ t ∈ u, endsLine t.ty = false) : s1.LastNot := by
  have hd := hN.done_eq' hG
  obtain ⟨t, r, hr⟩ : ∃ t r, u.reverse = t :: r := by
    cases h : u.reverse with
    | nil => exact absurd (by simpa using h) hne
    | cons t r => exact ⟨t, r, rfl⟩
  refine ⟨t, r ++ s.done, by rw [hd, hr]; rfl, fun he => ?_⟩
  have := hu t (List.mem_reverse.1 (by rw [hr]; simp))
  rw [he] at this
  cases this

theorem Nw.lastNot (hG : Good E toks es0 pre s) (hN : Nw E toks es0 pre s u p1 s1) (hl : s.LastNot)
    (hu : ∀ t ∈ u, endsLine t.ty = false) : s1.LastNot := by
  by_cases hne : u = []
  · subst hne
    have hd := hN.done_eq' hG
    obtain ⟨t, d, h1, h2⟩ := hl
    exact ⟨t, d, by rw [hd]; exact h1, h2⟩
  · exact hN.lastNot_of hG hne hu

theorem PS.LastKey.lastNot (h : s.LastKey) : s.LastNot := by
  obtain ⟨t, d, h1, h2⟩ := h
  refine ⟨t, d, h1, fun he => ?_⟩
  rcases h2 with ⟨id, h2⟩ | ⟨id, h2⟩ <;> rw [he] at h2 <;> cases h2

/-- The next token, and what it says. -/
def Good.NextTok (E : Env) (toks : List Token) (s : PS) (o : Option View) (sp : Span) : Prop :=
  NextIs E.input (Verif.Toml.views E toks) (Verif.Toml.views E s.done.reverse) o sp ∧
    Kin (pk E s).ty o ∧ sp.start = (pk E s).start

/-- The next token as a token of the document. -/
theorem Good.tok (hG : Good E toks es0 pre s) {t : Token} {ts : List Token} (hr : s.rest = t :: ts)
    {x y : Str} (ht : TokAt E t x y) (hp : x ++ y <+: E.input) : ∃ v sp,
      resolve E.strings E.literals t = some (v, posOf x) ∧ Covers v y ∧
      sp = (if t.ty = .newline then ⟨posOf x, posOf x⟩ else ⟨posOf x, posOf (x ++ y)⟩) ∧
      Good.NextTok E toks s (some v) sp := by
  obtain ⟨v, hv, hc⟩ := ht.view
  have hk := Kin.some hv
  have hv' := hG.views
  have e : Verif.Toml.views E s.rest = (v, posOf x) :: Verif.Toml.views E ts := by
    rw [hr]; simp [Verif.Toml.views, hv]
  rw [e] at hv'
  have hpk : pk E s = t := by unfold pk; rw [hr]; rfl
  refine ⟨v, _, hv, hc, rfl, ?_, by rw [hpk]; exact hk, ?_⟩
  · split
    · rename_i hn
      have := hk.nl.2 hn
      cases this
      exact .newline hv' ((List.prefix_append _ _).trans hp)
    · rename_i hn
      exact .token hv' hp hc (fun e => hn (hk.nl.1 (by rw [e])))
  · rw [hpk, ht.start]; split <;> rfl

theorem Good.tokEnd (hG : Good E toks es0 pre s) (hr : s.rest = []) :
    Good.NextTok E toks s none ⟨posOf E.input, posOf E.input⟩ := by
  refine ⟨.stop ?_, ?_, ?_⟩
  · rw [hG.views, hr]; simp [Verif.Toml.views]
  · rw [hG.pk_eof hr, hG.eofTy]; exact Kin.end
  · rw [hG.pk_eof hr, hG.eofStart]

/-- The name and the span of the next token. -/
theorem Good.fmt (hG : Good E toks es0 pre s) : ∃ f sp, SpanIn E.input sp ∧
    (∃ o, Good.NextTok E toks s o sp ∧ Called o f) ∧
    ∀ (s' : PS) (k : Str × Span → M β), (tokenFmtStrAndSpan E (pk E s) >>= k) s' = k (f, sp) s' := by
  cases hr : s.rest with
  | nil =>
    have hT := hG.tokEnd hr
    rw [hG.pk_eof hr]
    refine ⟨"`EOF`".toList, Span.ofPos E.eof.start, ?_, ⟨none, ?_, .stop⟩, ?_⟩
    · rw [hG.eofStart]
      exact spanIn_of (List.prefix_refl _) (List.prefix_refl _)
    · rw [hG.eofStart]; exact hT
    · intro s' k
      show M.bind (tokenFmtStrAndSpan E E.eof) k s' = _
      have : tokenFmtStrAndSpan E E.eof s' = .ok ("`EOF`".toList, Span.ofPos E.eof.start) s' := by
        unfold tokenFmtStrAndSpan
        show M.bind _ _ s' = _
        unfold tokenFmtStr tokenSpan
        simp only [hG.eofTy]
        rfl
      rw [M.bind, this]
  | cons t ts =>
    obtain ⟨g, y, h1, h2, h3, h4⟩ := hG.adv hr
    obtain ⟨v, sp', a1, a2, a3, a4⟩ := hG.tok hr h2 h4.good.chain.prefix
    rw [h3]
    obtain ⟨⟨f, hf⟩, sp, hsp, hsp'⟩ := h2.spanEq
    refine ⟨f, sp, ?_, ⟨some v, ?_, resolve_called a1 (hf s)⟩, ?_⟩
    · rw [hsp']
      have hp := h4.good.chain.prefix
      split
      · exact spanIn_of (List.prefix_refl _) ((List.prefix_append _ y).trans hp)
      · exact spanIn_of (List.prefix_append _ y) hp
    · rw [hsp', ← a3]; exact a4
    · intro s' k
      show M.bind (tokenFmtStrAndSpan E t) k s' = _
      have : tokenFmtStrAndSpan E t s' = .ok (f, sp) s' := by
        unfold tokenFmtStrAndSpan
        show M.bind _ _ s' = _
        rw [M.bind, hf]
        show M.bind _ _ s' = _
        rw [M.bind, hsp]
        rfl
      rw [M.bind, this]

/-- The place of the next token. -/
theorem Good.pk_start (hG : Good E toks es0 pre s) : ∃ x, pre <+: x ∧ x <+: E.input ∧
    (pk E s).start = posOf x := by
  cases hr : s.rest with
  | nil =>
    rw [hG.pk_eof hr]
    exact ⟨E.input, hG.chain.prefix, List.prefix_refl _, hG.eofStart⟩
  | cons t ts =>
    obtain ⟨g, y, h1, h2, h3, h4⟩ := hG.adv hr
    rw [h3]
    exact ⟨pre ++ g, List.prefix_append _ _, (List.prefix_append _ y).trans h4.good.chain.prefix,
      h2.start⟩

/-! ## Skipping tokens -/

theorem Nw.cons (hG : Good E toks es0 pre s) {t : Token} {ts : List Token} (hr : s.rest = t :: ts) :
    ∃ p', Nw E toks es0 pre s [t] p' { s with done := t :: s.done, rest := ts } := by
  obtain ⟨g, y, h1, h2, h3, h4⟩ := hG.adv hr
  refine ⟨pre ++ g ++ y, ?_⟩
  have : s.adv = { s with done := t :: s.done, rest := ts } := by unfold PS.adv; rw [hr]
  rw [← this]
  exact h4.toNw

theorem skipUntil_rest {stop : TokenType → Bool} : ∀ (ts : List Token) (s : PS) (r : List Token),
    skipUntil E stop ts { s with rest := r } = skipUntil E stop ts s := by
  intro ts
  induction ts with
  | nil => intro s r; rfl
  | cons t ts ih =>
    intro s r
    simp only [skipUntil]
    split
    · rfl
    · exact ih { s with done := t :: s.done } r

theorem skipUntil_post {stop : TokenType → Bool} (hEof : stop .eof = true) : ∀ (ts : List Token) {pre : Str} {s : PS},
    Good E toks es0 pre s → s.rest = ts → Sat P (skipUntil E stop ts s) (fun _ s' => ∃ u p',
      Nw E toks es0 pre s u p' s' ∧ s'.errors = s.errors ∧ s'.storage = s.storage ∧
      stop (pk E s').ty = true ∧ ∀ t ∈ u, stop t.ty = false) := by
  intro ts
  induction ts with
  | nil =>
    intro pre s hG hr
    unfold skipUntil
    rw [hG.eofTy, hEof, if_pos rfl]
    have : ({ s with rest := [] } : PS) = s := by rw [← hr]
    rw [this]
    refine Sat.ok ⟨[], pre, (Nx.refl hG).toNw, rfl, rfl, ?_, by simp⟩
    rw [hG.pk_eof hr, hG.eofTy, hEof]
  | cons t ts ih =>
    intro pre s hG hr
    unfold skipUntil
    split
    · rename_i hs
      have : ({ s with rest := t :: ts } : PS) = s := by rw [← hr]
      rw [this]
      refine Sat.ok ⟨[], pre, (Nx.refl hG).toNw, rfl, rfl, ?_, by simp⟩
      unfold pk; rw [hr]; exact hs
    · rename_i hs
      obtain ⟨p1, h1⟩ := Nw.cons hG hr
      have h2 := ih h1.good rfl
      rw [← skipUntil_rest ts { s with done := t :: s.done } ts]
      refine h2.mono ?_
      rintro _ s' ⟨u, p', g1, g2, g3, g4, g5⟩
      refine ⟨t :: u, p', h1.trans g1, g2, g3, g4, ?_⟩
      intro t' ht'
      rcases List.mem_cons.1 ht' with rfl | ht'
      · simpa using hs
      · exact g5 t' ht'

theorem recoverOn_post {stop : TokenType → Bool} (hEof : stop .eof = true)
    (hG : Good E toks es0 pre s) : Sat P (recoverOn E stop s) (fun _ s' => ∃ u p',
      Nw E toks es0 pre s u p' s' ∧ s'.errors = s.errors ∧ s'.storage = s.storage ∧
      stop (pk E s').ty = true ∧ ∀ t ∈ u, stop t.ty = false) :=
  skipUntil_post hEof s.rest hG rfl

theorem jumpToEnd_post (hG : Good E toks es0 pre s) : Sat P (jumpToEnd s) (fun _ s' => ∃ u p',
      Nw E toks es0 pre s u p' s' ∧ s'.errors = s.errors ∧ s'.rest = []) := by
  obtain ⟨p', g, h1, h2, h3⟩ := hG.chain
  refine Sat.ok ⟨s.rest, p', ⟨⟨⟨p', g, .nil, h2, h3⟩, ?_, ?_, ?_, hG.errs, hG.stor, hG.eofTy,
    hG.eofStart⟩, h1, by simp, List.prefix_refl _, Nat.le_refl _⟩, rfl, rfl⟩
  · intro a b id t e hh
    have : b = [] := (List.append_eq_nil_iff.1 e.symm).2
    subst this; cases hh
  · rw [hG.all]; simp
  · intro t ht
    rcases List.mem_append.1 ht with ht | ht
    · rw [List.mem_reverse] at ht
      have : ∀ {a b : Str} {u : List Token}, Seg E a u b → b <+: E.input → t ∈ u →
          PosIn E.input t.start ∧ ∃ v, resolve E.strings E.literals t = some (v, t.start) := by
        intro a b u hs
        induction hs with
        | nil => intro _ hh; cases hh
        | cons a1 a2 a3 ih =>
          intro hb hh
          rcases List.mem_cons.1 hh with rfl | hh
          · obtain ⟨v, hv, -⟩ := a2.view
            refine ⟨?_, v, by rw [hv, a2.start]⟩
            rw [a2.start]
            exact seg_posIn (List.prefix_append _ _) (a3.prefix.trans hb)
          · exact ih hb hh
      exact this h1 ⟨g, h3.symm⟩ ht
    · exact hG.done t ht


/-! ## Comments -/

/-- The storage may be rewritten if its comments remain. -/
theorem Nx.setStor (hN : Nx E toks es0 pre s u p1 s1 h) {st : List AssocComment}
    (hst : st.map (·.comment) = s1.coms) : Nx E toks es0 pre s u p1 { s1 with storage := st } h := by
  have hl : st.length = s1.storage.length := by
    have := congrArg List.length hst
    simpa [PS.coms] using this
  have hG := hN.good
  refine ⟨⟨⟨hG.chain, hG.com, hG.all, hG.done, hG.errs, ?_, hG.eofTy, hG.eofStart⟩, hN.seg, hN.rest,
    hN.errs, by have := hN.stor; simp only; omega⟩, fun he => ?_⟩
  · intro c hc
    have : c.comment ∈ s1.coms := by rw [← hst]; exact List.mem_map.2 ⟨c, hc, rfl⟩
    obtain ⟨c', h1, h2⟩ := List.mem_map.1 this
    rw [← h2]
    exact hG.stor c' h1
  · rw [← hN.comm he]
    show st.map _ ++ _ = _
    rw [hst]

/-- Storing the comment at hand. -/
theorem Nx.store {c : Comment} (hN : Nx E toks es0 pre s u p1 s1 (c :: h)) (hc : CommentAt E.input c)
    {a : AssocComment} (ha : a.comment = c) :
    Nx E toks es0 pre s u p1 { s1 with storage := s1.storage ++ [a] } h := by
  have hG := hN.good
  refine ⟨⟨⟨hG.chain, hG.com, hG.all, hG.done, hG.errs, ?_, hG.eofTy, hG.eofStart⟩, hN.seg, hN.rest,
    hN.errs, by have := hN.stor; simp only [List.length_append]; omega⟩, fun he => ?_⟩
  · intro c' hc'
    rcases List.mem_append.1 hc' with hc' | hc'
    · exact hG.stor c' hc'
    · rw [List.mem_singleton.1 hc', ha]; exact hc
  · rw [← hN.comm he]
    simp [PS.coms, ha]

theorem addComment_eq {r : CommentRange} {c : Comment} {pos : AssocPos} (hr : r.start ≤ s.storage.length) :
    addComment r c pos s = .ok ⟨r.start, s.storage.length - r.start + 1, r.level⟩
      { s with storage := s.storage ++ [⟨pos, r.level, c⟩] } := by
  unfold addComment storeComment
  show M.bind _ _ s = _
  simp only [M.bind, M.lift, CommentRange.append, subU, if_pos hr, Option.bind_eq_bind,
    Option.bind_some, Option.pure_def]

theorem eatComment_post (hG : Good E toks es0 pre s) : Sat P (eatComment E s) (fun o s' => ∃ u p',
    Nx E toks es0 pre s u p' s' o.toList ∧ (∀ c, o = some c → CommentAt E.input c ∧ u ≠ []) ∧
    s'.errors = s.errors ∧ s'.storage = s.storage ∧
    (o = none → s' = s ∧ ∀ id, (pk E s).ty ≠ .comment id) ∧ ∀ t ∈ u, endsLine t.ty = true) := by
  unfold eatComment
  rw [bind_peek]
  generalize he : (pk E s).ty = ty
  split
  · rename_i id
    obtain ⟨g, y, h1, h2, h3, h4⟩ := hG.adv' (by rw [he]; simp)
    rw [bind_next]
    obtain ⟨z, hz⟩ := h4.good.chain.prefix
    obtain ⟨l, e1, e2, e3⟩ := h2.commentAt he (z := z) (by rw [hz])
    unfold getComment
    rw [bind_lift _ _ (by rw [e1]; rfl)]
    rw [coms_comment he e1] at h4
    refine Sat.pure ⟨_, _, h4, ?_, ?_, ?_, by simp, by simp [he, endsLine]⟩
    · intro c hc
      simp only [Option.some.injEq] at hc
      subst hc
      exact ⟨e3, by simp⟩
    · unfold PS.adv; rw [h3]
    · unfold PS.adv; rw [h3]
  · rename_i he'
    exact Sat.pure ⟨_, _, Nx.refl hG, by simp, rfl, rfl, fun _ => ⟨rfl, he'⟩, by simp⟩

theorem eatCommentAndNewlinesLoop_post : ∀ (n : Nat) {pre : Str} {s : PS},
    Good E toks es0 pre s → s.rest.length < n →
    Sat P (eatCommentAndNewlinesLoop E n s) (fun o s' => ∃ u p',
      Nx E toks es0 pre s u p' s' o.toList ∧ (∀ c, o = some c → CommentAt E.input c ∧ u ≠ []) ∧
      s'.errors = s.errors ∧ s'.storage = s.storage ∧
      (o = none → (∀ id, (pk E s').ty ≠ .comment id) ∧ (pk E s').ty ≠ .newline) ∧
      ∀ t ∈ u, endsLine t.ty = true) := by
  intro n
  induction n with
  | zero => intro pre s _ hn; omega
  | succ n ih =>
    intro pre s hG hn
    unfold eatCommentAndNewlinesLoop
    rw [bind_peek]
    generalize he : (pk E s).ty = ty
    split
    · rename_i id
      obtain ⟨g, y, h1, h2, h3, h4⟩ := hG.adv' (by rw [he]; simp)
      rw [bind_next]
      obtain ⟨z, hz⟩ := h4.good.chain.prefix
      obtain ⟨l, e1, e2, e3⟩ := h2.commentAt he (z := z) (by rw [hz])
      unfold getComment
      rw [bind_lift _ _ (by rw [e1]; rfl)]
      rw [coms_comment he e1] at h4
      refine Sat.pure ⟨_, _, h4, ?_, ?_, ?_, by simp, by simp [he, endsLine]⟩
      · intro c hc
        simp only [Option.some.injEq] at hc
        subst hc
        exact ⟨e3, by simp⟩
      · unfold PS.adv; rw [h3]
      · unfold PS.adv; rw [h3]
    · obtain ⟨g, y, h1, h2, h3, h4⟩ := hG.adv' (by rw [he]; simp)
      rw [bind_next]
      have hlen : s.adv.rest.length < n := by
        rw [h3] at hn; simp at hn; omega
      rw [coms_of_ne (by rw [he]; simp)] at h4
      have hae : s.adv.errors = s.errors := by unfold PS.adv; rw [h3]
      have has : s.adv.storage = s.storage := by unfold PS.adv; rw [h3]
      refine (ih h4.good hlen).mono ?_
      rintro o s' ⟨u, p', g1, g2, g3, g4, g5, g6⟩
      exact ⟨_, p', h4.trans g1, fun c hc => ⟨(g2 c hc).1, by simp⟩, g3.trans hae, g4.trans has, g5, by
        simpa [he, endsLine] using g6⟩
    · rename_i he1 he2
      exact Sat.pure ⟨_, _, Nx.refl hG, by simp, rfl, rfl, fun _ => by rw [he]; exact ⟨he1, he2⟩, by simp⟩

theorem eatCommentAndNewlines_post (hG : Good E toks es0 pre s) :
    Sat P (eatCommentAndNewlines E s) (fun o s' => ∃ u p',
      Nx E toks es0 pre s u p' s' o.toList ∧ (∀ c, o = some c → CommentAt E.input c ∧ u ≠ []) ∧
      s'.errors = s.errors ∧ s'.storage = s.storage ∧
      (o = none → (∀ id, (pk E s').ty ≠ .comment id) ∧ (pk E s').ty ≠ .newline) ∧
      ∀ t ∈ u, endsLine t.ty = true) := by
  unfold eatCommentAndNewlines
  rw [bind_budget]
  exact eatCommentAndNewlinesLoop_post _ hG (by omega)

theorem Nw.len (hN : Nw E toks es0 pre s u p1 s1) : s.rest.length = u.length + s1.rest.length := by
  rw [hN.rest]; simp

theorem containedComments_post : ∀ (n : Nat) {pre : Str} {s : PS} {r : CommentRange},
    Good E toks es0 pre s → s.rest.length < n → RangeIn s.storage.length r →
    Sat P (containedComments E n r s) (fun r' s' => ∃ u p',
      Nx E toks es0 pre s u p' s' [] ∧ RangeIn s'.storage.length r' ∧ r'.start = r.start ∧
      s'.errors = s.errors ∧ ((∀ id, (pk E s').ty ≠ .comment id) ∧ (pk E s').ty ≠ .newline) ∧
      ∀ t ∈ u, endsLine t.ty = true) := by
  intro n
  induction n with
  | zero => intro pre s r _ hn; omega
  | succ n ih =>
    intro pre s r hG hn hr
    unfold containedComments
    refine Sat.bind (eatCommentAndNewlines_post hG) ?_
    rintro (_ | c) s1 ⟨u, p1, g1, g2, g3, g4, g5, g6⟩
    · simp only []
      exact Sat.pure ⟨u, p1, g1, by rw [g4]; exact hr, rfl, g3, g5 rfl, g6⟩
    · simp only []
      obtain ⟨hc, hu⟩ := g2 c rfl
      have hrs : r.start ≤ s1.storage.length := by
        rw [g4]; unfold RangeIn at hr; omega
      have e : ∀ k : CommentRange → M CommentRange, (addComment r c .contained >>= k) s1 =
          k ⟨r.start, s1.storage.length - r.start + 1, r.level⟩
            { s1 with storage := s1.storage ++ [⟨.contained, r.level, c⟩] } := by
        intro k
        show M.bind _ _ s1 = _
        rw [M.bind, addComment_eq hrs]
      rw [e]
      have g1' := Nx.store (h := []) g1 hc (a := ⟨.contained, r.level, c⟩) rfl
      have hl := g1.toNw.len
      have : 0 < u.length := List.length_pos_iff.2 hu
      refine (ih g1'.good (by simp only; omega) ?_).mono ?_
      · unfold RangeIn; simp only [List.length_append, List.length_singleton]; omega
      · rintro r' s' ⟨v, p', a1, a2, a3, a4, a5, a6⟩
        refine ⟨_, p', g1'.trans a1, a2, a3, a4.trans g3, a5, fun t ht => ?_⟩
        exact (List.mem_append.1 ht).elim (g6 t) (a6 t)

theorem lineEndComment_post {r : CommentRange} (hG : Good E toks es0 pre s)
    (hr : RangeIn s.storage.length r) :
    Sat P (lineEndComment E r s) (fun r' s' => ∃ u p',
      Nx E toks es0 pre s u p' s' [] ∧ RangeIn s'.storage.length r' ∧ r'.start = r.start ∧
      s'.errors = s.errors ∧ ∀ t ∈ u, endsLine t.ty = true) := by
  unfold lineEndComment
  refine Sat.bind (eatComment_post hG) ?_
  rintro (_ | c) s1 ⟨u, p1, g1, g2, g3, g4, g5, g6⟩
  · simp only []
    exact Sat.pure ⟨u, p1, g1, by rw [g4]; exact hr, rfl, g3, g6⟩
  · simp only []
    obtain ⟨hc, hu⟩ := g2 c rfl
    have hrs : r.start ≤ s1.storage.length := by
      rw [g4]; unfold RangeIn at hr; omega
    rw [addComment_eq hrs]
    refine Sat.ok ⟨u, p1, Nx.store (h := []) g1 hc rfl, ?_, rfl, g3, g6⟩
    unfold RangeIn; simp only [List.length_append, List.length_singleton]; omega

theorem markAboveLoop_post (level : Nat) : ∀ (cs : List AssocComment) (line i : Nat),
    (markAboveLoop level cs line i).1.map (·.comment) = cs.map (·.comment) ∧
    ∀ k, (markAboveLoop level cs line i).2 = some k → i ≤ k ∧ k ≤ i + cs.length := by
  intro cs
  induction cs with
  | nil => intro line i; simp [markAboveLoop]
  | cons c cs ih =>
    intro line i
    unfold markAboveLoop
    split
    · obtain ⟨h1, h2⟩ := ih (line - 1) (i + 1)
      generalize markAboveLoop level cs (line - 1) (i + 1) = r at h1 h2
      obtain ⟨cs', l⟩ := r
      simp only [List.map_cons, List.length_cons] at *
      refine ⟨by rw [h1], fun k hk => ?_⟩
      have := h2 k hk
      omega
    · simp only [Option.some.injEq, List.length_cons, true_and]
      intro k hk; omega

theorem markCommentsAbove_post {line level : Nat} (hG : Good E toks es0 pre s) :
    Sat P (markCommentsAbove line level s) (fun r' s' =>
      Nx E toks es0 pre s [] pre s' [] ∧ RangeIn s'.storage.length r' ∧ s'.errors = s.errors ∧
      s'.rest = s.rest) := by
  unfold markCommentsAbove
  obtain ⟨h1, h2⟩ := markAboveLoop_post level s.storage.reverse line 0
  generalize hm : markAboveLoop level s.storage.reverse line 0 = r at h1 h2
  obtain ⟨st, l⟩ := r
  simp only at h1 h2
  have hst : st.reverse.map (·.comment) = s.coms := by
    rw [List.map_reverse, h1, List.map_reverse, List.reverse_reverse]; rfl
  refine Sat.ok ⟨(Nx.refl hG).setStor hst, ?_, rfl, rfl⟩
  have hl : st.length = s.storage.length := by
    have := congrArg List.length h1
    simpa using this
  unfold RangeIn
  simp only [List.length_reverse, hl]
  cases l with
  | none => simp
  | some k =>
    have := h2 k rfl
    simp only [List.length_reverse, Option.getD_some] at *
    omega

theorem markContained_post {r : CommentRange} {level : Nat} (hG : Good E toks es0 pre s)
    (hr : RangeIn s.storage.length r) :
    Sat P (markContainedComments r level s) (fun _ s' =>
      Nx E toks es0 pre s [] pre s' [] ∧ s'.storage.length = s.storage.length ∧
      s'.errors = s.errors ∧ s'.rest = s.rest) := by
  unfold markContainedComments
  unfold RangeIn at hr
  rw [if_pos hr]
  have hst : (s.storage.take r.start ++
      ((s.storage.drop r.start).take r.len).map (AssocComment.raise level) ++
      s.storage.drop (r.start + r.len)).map (·.comment) = s.coms := by
    have e : ∀ c : AssocComment, (c.raise level).comment = c.comment := by
      intro c; unfold AssocComment.raise; split <;> rfl
    simp only [List.map_append, List.map_map]
    have e' : ((fun x : AssocComment => x.comment) ∘ AssocComment.raise level) = (·.comment) := by
      funext c; exact e c
    rw [e', ← List.map_append, ← List.map_append, List.append_assoc, ← List.drop_drop,
      List.take_append_drop, List.take_append_drop]
    rfl
  refine Sat.ok ⟨(Nx.refl hG).setStor hst, ?_, rfl, rfl⟩
  have := congrArg List.length hst
  simpa [PS.coms] using this

end Verif.Toml
