import Verif.Toml.ParseArr

/-! # Lemmas for the parser: headers -/

namespace Verif.Toml
open Verif Verif.Spec.Toml

variable {α β σ : Type} {P : Prop} {E : Env} {toks : List Token} {es0 : List Error}
variable {pre p p1 p2 : Str} {s s0 s1 s2 : PS} {u v : List Token} {h : List Comment}

theorem posOf_same_line {x y : Str} (h : x <+: y) (hl : (posOf x).line = (posOf y).line) :
    ∃ n, posOf y = (posOf x).plus n ∧ (x ≠ y → 0 < n) := by
  obtain ⟨z, rfl⟩ := h
  have hz : '\n' ∉ z := by
    rw [posOf_line_append] at hl
    intro hh
    have := List.count_pos_iff.2 hh
    omega
  refine ⟨blen z, posOf_plus hz, fun hne => ?_⟩
  have : z ≠ [] := by rintro rfl; simp at hne
  cases z with
  | nil => exact absurd rfl this
  | cons c z => rw [blen_cons]; have := Char.utf8Size_pos c; omega

theorem seg_head {t : Token} {a b : Str} (hs : Seg E a (t :: u) b) :
    ∃ x y, a <+: x ∧ TokAt E t x y ∧ x ++ y <+: b := by
  cases hs with
  | cons h1 h2 h3 => exact ⟨_, _, List.prefix_append _ _, h2, h3.prefix⟩

/-- `q` is the place of a closing bracket among the tokens `u` behind `p`, on the same line as far as
tokens go. -/
def Closes (E : Env) (u : List Token) (p : Str) (q : Pos) : Prop :=
  ∃ m t n y, u = m ++ t :: n ∧ (∀ t ∈ m, endsLine t.ty = false) ∧ t.ty = .squareRight ∧
    t.start = q ∧ q = posOf y ∧ p <+: y ∧ CharAt E.input q ']'

theorem Closes.append {q : Pos} (hc : Closes E u p q) (v : List Token) : Closes E (u ++ v) p q := by
  obtain ⟨m, t, n, y, rfl, h⟩ := hc
  exact ⟨m, t, n ++ v, y, by simp, h⟩

theorem Closes.prepend {q : Pos} (hc : Closes E u p q) {m : List Token} {p0 : Str}
    (hm : ∀ t ∈ m, endsLine t.ty = false) (hp : p0 <+: p) : Closes E (m ++ u) p0 q := by
  obtain ⟨m', t, n, y, rfl, h1, h2, h3, h4, h5, h6⟩ := hc
  refine ⟨m ++ m', t, n, y, by simp, ?_, h2, h3, h4, hp.trans h5, h6⟩
  intro t' ht'
  rcases List.mem_append.1 ht' with ht' | ht'
  · exact hm t' ht'
  · exact h1 t' ht'

/-- A consumed bracket followed by another one that is not adjacent. -/
theorem Good.spaced (hG : Good E toks es0 pre s) {t : Token} {d : List Token} (hd : s.done = t :: d)
    {x : Str} (hts : t.start = posOf x) {ty : TokenType} {c : Char} (ht : t.ty = ty) (hp : (pk E s).ty = ty)
    (hx : pre = x ++ [c])
    (hc : ty = .squareLeft ∧ c = '[' ∨ ty = .squareRight ∧ c = ']')
    (hne : t.start.char + 1 ≠ (pk E s).start.char) :
    Loc E toks (.spaceBetweenArrayPars ⟨t.start.plus 1, (pk E s).start⟩) := by
  obtain ⟨x', x1, x2, x3⟩ := hG.pk_start
  obtain ⟨v, b, e1, -, e2⟩ := hG.nextSome (by rw [hp]; rcases hc with ⟨rfl, -⟩ | ⟨rfl, -⟩ <;> simp)
  obtain ⟨w, g1, g2⟩ := hG.last hd
  have hk := resolve_ty g1
  have hv : w = .punct c ∧ v = .punct c := by
    rcases hc with ⟨rfl, rfl⟩ | ⟨rfl, rfl⟩
    · exact ⟨hk.2.2.1.2 ht, by simpa using e2.sl.2 hp⟩
    · exact ⟨hk.2.2.2.1.2 ht, by simpa using e2.sr.2 hp⟩
  obtain ⟨rfl, rfl⟩ := hv
  refine ⟨?_, trivial, Verif.Toml.views E d.reverse, c, t.start, (pk E s).start, b, ?_, ?_, rfl, ?_⟩
  · show SpanIn E.input ⟨_, _⟩
    have : (posOf x).plus 1 = posOf pre := by
      rw [hx]
      rcases hc with ⟨-, rfl⟩ | ⟨-, rfl⟩ <;> rw [posOf_plus (by decide)] <;> rfl
    rw [hts, this, x3]
    exact spanIn_of x1 x2
  · rw [e1, g2]; simp
  · rcases hc with ⟨-, h⟩ | ⟨-, h⟩
    · exact .inl h
    · exact .inr h
  · intro h
    exact hne (by rw [← h]; rfl)

theorem openArray_post {x : Str} (hG : Good E toks es0 (x ++ ['[']) s)
    (hlast : ∃ t d, s.done = t :: d ∧ t.ty = .squareLeft ∧ t.start = posOf x) :
    Sat P (openArray E (posOf x) s) (fun o s' => ∃ u p', Nx E toks es0 (x ++ ['[']) s u p' s' [] ∧
      (∀ t ∈ u, endsLine t.ty = false) ∧
      (∀ q, o = some q → CharAt E.input q '[' ∧ (.punct '[', q) ∈ views E s'.done.reverse) ∧
      InOrder (x ++ ['[']) (optPlace o) p') := by
  unfold openArray
  rw [bind_peek]
  generalize he : (pk E s).ty = ty
  split
  · rename_i hc
    rw [bind_next]
    obtain ⟨x', y, e1, e2, e3, e4⟩ := hG.char (by rw [he, hc]; simp) (by rw [he, hc]; simp)
    have hy := e2.text
    rw [he, hc] at hy
    simp only at hy
    subst hy
    have hch := e2.charAt rfl e3.good.chain.prefix
    have hend : ∀ t ∈ [pk E s], endsLine t.ty = false := by
      intro t ht; rw [List.mem_singleton.1 ht, he, hc]; rfl
    have hsr : s.rest = pk E s :: s.adv.rest := e3.rest
    obtain ⟨v, b, w1, w2, w3⟩ := hG.nextSome (by rw [he, hc]; simp)
    have hv := w3.sl.2 (by rw [he, hc])
    simp only [Option.some.injEq] at hv
    subst hv
    have hM : (View.punct '[', (pk E s).start) ∈ views E s.adv.done.reverse :=
      e3.good.mem_done (by rw [adv_done hsr]; simp) w2
    have hsome : ∀ q, some (pk E s).start = some q → CharAt E.input q '[' ∧
        (.punct '[', q) ∈ views E s.adv.done.reverse := by
      intro q hq
      simp only [Option.some.injEq] at hq
      subst hq; exact ⟨hch, hM⟩
    have hrun : InOrder (x ++ ['[']) (optPlace (some (pk E s).start)) (x' ++ ['[']) :=
      .char (by decide) (by decide) e2.start e1 (List.prefix_refl _)
    split
    · rename_i hsp
      rw [bind_error]
      have hloc : Loc E toks (.spaceBetweenArrayPars ⟨(posOf x).plus 1, (pk E s).start⟩) := by
        obtain ⟨t, d, hd, t1, t2⟩ := hlast
        rw [← t2]
        exact hG.spaced hd t2 t1 (by rw [he, hc]) rfl (.inl ⟨rfl, rfl⟩) (by rw [t2]; exact hsp)
      exact Sat.pure ⟨_, _, e3.trans (e3.good.err hloc), by simpa using hend, hsome, hrun⟩
    · exact Sat.pure ⟨_, _, e3, hend, hsome, hrun⟩
  · exact Sat.pure ⟨_, _, Nx.refl hG, by simp, by simp, .refl⟩

theorem headerStop_endsLine {t : TokenType} (h : headerStop t = false) : endsLine t = false := by
  cases t <;> simp_all [headerStop, endsLine]

theorem headerKey_post (hG : Good E toks es0 pre s) :
    Sat P (headerKey E s) (fun r s' => ∃ u p', Nx E toks es0 pre s u p' s' [] ∧
      (∀ t ∈ u, endsLine t.ty = false) ∧ (∀ k, r.1 = some k → KeyAt E.input k) ∧
      InOrder pre (headKeyPlaces r.1) p' ∧ (r.2 = false → (pk E s').ty ≠ .dot)) := by
  unfold headerKey
  refine Sat.bind (parseKey_post hG) ?_
  rintro res s1 ⟨u1, q1, a1, a2, a3, a4, a5⟩
  split
  · refine Sat.pure ⟨_, _, a1, a2, ?_, a3.2, fun _ => a5 _ rfl⟩
    rintro k hk; cases hk; exact a3.1
  · refine Sat.pure ⟨_, _, a1, a2, ?_, a3.2, by simp⟩
    rintro k hk; cases hk; exact a3.1
  · rename_i e
    rw [bind_error]
    have g := a1.good.err (h := []) a3
    refine Sat.bind (recoverOn_post rfl g.good) ?_
    rintro _ s2 ⟨u2, q2, b1, b2, b3, b4, b5⟩
    refine Sat.pure ⟨_, _, a1.toNw.err_then a3 b1, ?_, by simp, .nil (a1.seg.prefix.trans b1.seg.prefix),
      fun _ hd => by rw [hd] at b4; cases b4⟩
    intro t ht
    rcases List.mem_append.1 ht with ht | ht
    · exact a2 t ht
    · exact headerStop_endsLine (b5 t ht)

theorem closes_one {x y : Str} (hp : p <+: x) (ht : TokAt E (pk E s) x y) (he : (pk E s).ty = .squareRight)
    (hin : x ++ y <+: E.input) : Closes E [pk E s] p (pk E s).start := by
  have hy := ht.text
  rw [he] at hy
  exact ⟨[], pk E s, [], x, rfl, by simp, he, rfl, ht.start, hp, ht.charAt hy hin⟩

/-- What is known of the last closing bracket of an array header. -/
def ClosedAt (s : PS) (p : Str) (q : Pos) : Prop :=
  (∃ y, p = y ++ [']'] ∧ q = posOf y) ∧ ∃ t d, s.done = t :: d ∧ t.ty = .squareRight ∧ t.start = q

theorem closeArray_post {l : Option Pos} (hG : Good E toks es0 pre s)
    (hL : ∀ q, l = some q → CharAt E.input q '[' ∧ (.punct '[', q) ∈ views E s.done.reverse)
    (hnd : (pk E s).ty ≠ .dot) :
    Sat P (closeArray E l s) (fun o s' => ∃ u p', Nx E toks es0 pre s u p' s' [] ∧
      (∀ t ∈ u, endsLine t.ty = false) ∧
      (∀ q, o = some q → Closes E u pre q ∧ ClosedAt s' p' q) ∧
      InOrder pre (optPlace o) p' ∧ (o = none → (pk E s').ty ≠ .dot)) := by
  unfold closeArray
  split
  · exact Sat.pure ⟨_, _, Nx.refl hG, by simp, by simp, .refl, fun _ => hnd⟩
  · rw [bind_peek]
    generalize he : (pk E s).ty = ty
    split
    · rename_i hc
      rw [bind_next]
      obtain ⟨x', y, e1, e2, e3, e4⟩ := hG.char (by rw [he, hc]; simp) (by rw [he, hc]; simp)
      have hy := e2.text
      rw [he, hc] at hy
      simp only at hy
      subst hy
      refine Sat.pure ⟨_, _, e3, ?_, ?_, .char (by decide) (by decide) e2.start e1 (List.prefix_refl _),
        by simp⟩
      · intro t ht; rw [List.mem_singleton.1 ht, he, hc]; rfl
      · intro q hq
        simp only [Option.some.injEq] at hq
        subst hq
        exact ⟨closes_one e1 e2 (by rw [he, hc]) e3.good.chain.prefix, ⟨_, rfl, e2.start⟩,
          _, _, adv_done e3.rest, by rw [he, hc], rfl⟩
    · rename_i hnr
      obtain ⟨f, sp, f1, ⟨ov, ⟨k1, k2, -⟩, k3⟩, f2⟩ := hG.fmt (β := Option Pos)
      rw [f2]
      simp only []
      rw [bind_error]
      obtain ⟨l1, l2⟩ := hL _ rfl
      exact Sat.pure ⟨_, _, hG.err ⟨f1, l1, _, ov, k1, k3, l2, fun h => hnr (by rw [← he]; exact k2.sr.1 h),
        fun h => hnd (k2.dot.1 h)⟩, by simp, by simp, .refl, fun _ => hnd⟩

theorem closeTable_post {lTable : Pos} {a : Option Pos} (hG : Good E toks es0 pre s)
    (hL : CharAt E.input lTable '[') (hM : (.punct '[', lTable) ∈ views E s.done.reverse)
    (ha : ∀ q, a = some q → ClosedAt s pre q) (hnd : a = none → (pk E s).ty ≠ .dot) :
    Sat P (closeTable E lTable a s) (fun o s' => ∃ u p', Nx E toks es0 pre s u p' s' [] ∧
      (∀ t ∈ u, endsLine t.ty = false) ∧ (∀ q, o = some q → Closes E u pre q) ∧
      InOrder pre (optPlace o) p') := by
  unfold closeTable
  rw [bind_peek]
  generalize he : (pk E s).ty = ty
  split
  · rename_i hc
    rw [bind_next]
    obtain ⟨x', y, e1, e2, e3, e4⟩ := hG.char (by rw [he, hc]; simp) (by rw [he, hc]; simp)
    have hend : ∀ t ∈ [pk E s], endsLine t.ty = false := by
      intro t ht; rw [List.mem_singleton.1 ht, he, hc]; rfl
    have hsome : ∀ q, some (pk E s).start = some q → Closes E [pk E s] pre q := by
      intro q hq
      simp only [Option.some.injEq] at hq
      subst hq
      exact closes_one e1 e2 (by rw [he, hc]) e3.good.chain.prefix
    refine Sat.bind (Q := fun _ s' => Nx E toks es0 pre s [pk E s] (x' ++ y) s' []) ?_ ?_
    · unfold checkSpace
      split
      · rename_i q
        obtain ⟨⟨z, hz, hqz⟩, t, d, hd, t1, t2⟩ := ha q rfl
        split
        · rename_i hsp
          have hloc : Loc E toks (.spaceBetweenArrayPars ⟨q.plus 1, (pk E s).start⟩) := by
            rw [← t2]
            exact hG.spaced hd (t2.trans hqz) t1 (by rw [he, hc]) hz (.inr ⟨rfl, rfl⟩) (by rw [t2]; exact hsp)
          have := e3.trans (e3.good.err (h := []) hloc)
          rw [List.append_nil] at this
          exact Sat.ok this
        · exact Sat.pure e3
      · exact Sat.pure e3
    · rintro _ s' hN
      have hy := e2.text
      rw [he, hc] at hy
      simp only at hy
      subst hy
      exact Sat.pure ⟨_, _, hN, hend, hsome,
        .char (by decide) (by decide) e2.start e1 (List.prefix_refl _)⟩
  · rename_i hnr
    obtain ⟨f, sp, f1, ⟨ov, ⟨k1, k2, -⟩, k3⟩, f2⟩ := hG.fmt (β := Option Pos)
    rw [f2]
    simp only []
    have hno : ov ≠ some (.punct ']') := fun h => hnr (by rw [← he]; exact k2.sr.1 h)
    split
    · rename_i hs
      rw [bind_error]
      obtain ⟨q, rfl⟩ := Option.isSome_iff_exists.1 hs
      obtain ⟨-, t, d, hd, t1, t2⟩ := ha q rfl
      obtain ⟨w, g1, g2⟩ := hG.last hd
      obtain rfl := (resolve_ty g1).2.2.2.1.2 t1
      exact Sat.pure ⟨_, _, hG.err ⟨f1, hL, _, ov, sp, k1, k3, hM, hno,
        .inr ⟨⟨t.start, by rw [g2, List.getLast?_concat]⟩, rfl⟩⟩, by simp, by simp, .refl⟩
    · rename_i hs
      rw [bind_error]
      have hnd := hnd (by cases a with | none => rfl | some q => exact absurd rfl hs)
      exact Sat.pure ⟨_, _, hG.err ⟨f1, hL, _, ov, k1, k3, hM, hno, fun h => hnd (k2.dot.1 h)⟩,
        by simp, by simp, .refl⟩

theorem closeHeader_post {lTable : Pos} {l : Option Pos} {skip : Bool} (hG : Good E toks es0 pre s)
    (hT : CharAt E.input lTable '[') (hM : (.punct '[', lTable) ∈ views E s.done.reverse)
    (hL : ∀ q, l = some q → CharAt E.input q '[' ∧ (.punct '[', q) ∈ views E s.done.reverse)
    (hnd : skip = false → (pk E s).ty ≠ .dot) :
    Sat P (closeHeader E lTable l skip s) (fun o s' => ∃ u p', Nx E toks es0 pre s u p' s' [] ∧
      (∀ t ∈ u, endsLine t.ty = false) ∧
      (∀ q, o.1 = some q → Closes E u pre q) ∧ (∀ q, o.2 = some q → Closes E u pre q) ∧
      InOrder pre (optPlace o.1 ++ optPlace o.2) p') := by
  unfold closeHeader
  split
  · exact Sat.pure ⟨_, _, Nx.refl hG, by simp, by simp, by simp, .refl⟩
  · rename_i hsk
    refine Sat.bind (closeArray_post hG hL (hnd (by simpa using hsk))) ?_
    rintro a s1 ⟨u1, q1, a1, a2, a3, a4, a5⟩
    refine Sat.bind (closeTable_post a1.good hT (a1.toNw.mem_views hG hM) (fun q hq => (a3 q hq).2) a5) ?_
    rintro b s2 ⟨u2, q2, b1, b2, b3, b4⟩
    refine Sat.pure ⟨_, _, a1.trans b1, ?_, fun q hq => (a3 q hq).1.append _,
      fun q hq => (b3 q hq).prepend a2 a1.seg.prefix, a4.append b4⟩
    intro t ht
    rcases List.mem_append.1 ht with ht | ht
    · exact a2 t ht
    · exact b2 t ht

/-! ## Missing newlines -/

theorem Good.fmtStr (hG : Good E toks es0 pre s) : ∃ f, (∀ (s' : PS) (k : Str → M β),
    (tokenFmtStr E (pk E s) >>= k) s' = k f s') ∧
    ∀ v p, resolve E.strings E.literals (pk E s) = some (v, p) → Called (some v) f := by
  cases hr : s.rest with
  | nil =>
    rw [hG.pk_eof hr]
    refine ⟨"`EOF`".toList, fun s' k => ?_, fun v p h => ?_⟩
    · unfold tokenFmtStr
      exact bind_lift _ _ (by simp only [hG.eofTy])
    · unfold resolve at h
      rw [hG.eofTy] at h
      cases h
  | cons t ts =>
    obtain ⟨g, y, h1, h2, h3, h4⟩ := hG.adv hr
    rw [h3]
    obtain ⟨⟨f, hf⟩, -⟩ := h2.spanEq
    refine ⟨f, fun s' k => ?_, fun v p h => resolve_called h (hf s)⟩
    show M.bind _ _ s' = _
    rw [M.bind, hf]

theorem Good.setErrs {new : List Error} (hG : Good E toks es0 pre s)
    (hn : ∀ e ∈ new, Loc E toks e) : Good E toks es0 pre { s with errors := es0 ++ new } :=
  ⟨hG.chain, hG.com, hG.all, hG.done, ⟨new, rfl, hn⟩, hG.stor, hG.eofTy, hG.eofStart⟩

/-- Report an item on a line that already has one. -/
theorem expectedNewline_post (hG : Good E toks es0 pre s0) (hN : Nw E toks es0 pre s0 u p s)
    (hu : u ≠ []) (hl : s0.LastNot) (hul : ∀ t ∈ u, endsLine t.ty = false)
    (hend : endsLine (pk E s).ty = true ∨ s.LastKey) : Sat P (expectedNewline E s0.errors.length (pk E s0) s) (fun _ s' =>
      Nw E toks es0 pre s0 u p s' ∧ s'.errors ≠ es0 ∧ s'.rest = s.rest ∧ s'.storage = s.storage) := by
  unfold expectedNewline
  obtain ⟨new, n1, n2⟩ := hG.errs
  have hr : ∀ (k : Unit → M Unit), (reset s0.errors.length >>= k) s = k () { s with errors := s0.errors } := by
    intro k
    show k () { s with errors := s.errors.take s0.errors.length } = _
    obtain ⟨z, hz⟩ := hN.errs
    rw [← hz, List.take_left]
  rw [hr]
  obtain ⟨f, hf, hfc⟩ := hG.fmtStr (β := Unit)
  rw [hf, bind_peek]
  obtain ⟨t, u', rfl⟩ : ∃ t u', u = t :: u' := by
    cases u with
    | nil => exact absurd rfl hu
    | cons t u' => exact ⟨t, u', rfl⟩
  have hpk : pk E s0 = t := by
    unfold pk; rw [hN.rest]; rfl
  obtain ⟨x, y, x1, x2, x3⟩ := seg_head hN.seg
  have hpk' : pk E { s with errors := s0.errors } = pk E s := rfl
  obtain ⟨y', y1, y2, y3⟩ := hN.good.pk_start
  have hloc : Loc E toks (.expectedNewlineFound f ⟨(pk E s0).start, (pk E s).start⟩) := by
    refine ⟨?_, trivial, ?_⟩
    · show SpanIn E.input ⟨_, _⟩
      rw [hpk, x2.start, y3]
      exact spanIn_of (((List.prefix_append _ _).trans x3).trans y1) y2
    · obtain ⟨tw, d, hd, htw⟩ := hl
      obtain ⟨w, g1, g2⟩ := hG.last hd
      have hdone := hN.done_eq hG
      obtain ⟨-, v, hv⟩ := hN.good.done t (by
        rw [← List.mem_reverse, hdone]; simp)
      obtain ⟨f', sp, -, ⟨ov, ⟨k1, k2, k4⟩, -⟩, -⟩ := hN.good.fmt (β := Unit)
      have hvu : views E (t :: u') = (v, t.start) :: views E u' := by simp [views, hv]
      have hvs : views E s.done.reverse = views E d.reverse ++ (w, tw.start) :: (v, t.start) :: views E u' := by
        rw [hdone, views_append, g2, hvu]; simp
      rw [hvs] at k1
      refine ⟨_, _, v, t.start, _, ov, sp, k1, fun e => htw ((resolve_ty g1).2.2.2.2.2.2.2.2.2.1 e),
        hfc v t.start (by rw [hpk]; exact hv), by rw [hpk, k4], ?_, ?_⟩
      · intro a ha hle
        rw [← hvu] at ha
        obtain ⟨t', h1, h2⟩ := List.mem_filterMap.1 ha
        have := (resolve_ty (v := a.1) (p := a.2) h2).2.1.1 hle
        rw [hul t' h1] at this
        cases this
      · rcases hend with h | ⟨t', d', h1, h2⟩
        · exact .inl (k2.line.2 h)
        · obtain ⟨w', b1, b2⟩ := hN.good.last h1
          refine .inr ⟨(w', t'.start), ?_, (resolve_ty b1).1.2 h2⟩
          have := congrArg List.getLast? (hvs.symm.trans b2)
          rw [List.getLast?_concat, List.getLast?_append] at this
          rw [List.getLast?_cons_cons] at this
          cases hgl : ((v, t.start) :: views E u').getLast? with
          | none => exact absurd (List.getLast?_eq_none_iff.1 hgl) (by simp)
          | some z => rw [hgl] at this; simpa using this
  rw [hpk']
  show Sat P (Run.ok () _) _
  refine Sat.ok ⟨⟨⟨hN.good.chain, hN.good.com, hN.good.all, hN.good.done, ⟨new ++ [.expectedNewlineFound f
    ⟨(pk E s0).start, (pk E s).start⟩], ?_, ?_⟩,
    hN.good.stor, hN.good.eofTy, hN.good.eofStart⟩, hN.seg, hN.rest, ⟨_, rfl⟩, hN.stor⟩, ?_, rfl, rfl⟩
  · simp only [n1, List.append_assoc]
  · intro e he
    rcases List.mem_append.1 he with he | he
    · exact n2 e he
    · rw [List.mem_singleton.1 he]; exact hloc
  · intro hh
    have := congrArg List.length hh
    simp [n1] at this

theorem checkNewline_post {req : Bool} (hG : Good E toks es0 pre s0)
    (hN : Nw E toks es0 pre s0 u p s) (hu : u ≠ []) (hul : ∀ t ∈ u, endsLine t.ty = false)
    (hl : req = true → s0.LastNot) :
    Sat P (checkNewline E req s0.errors.length (pk E s0) s) (fun b s' =>
      if b = true then Nx E toks es0 p s [] p s' [] ∧ s'.rest = s.rest ∧ s'.storage = s.storage ∧
        s'.done = s.done
      else req = true ∧ ∃ v p', Nw E toks es0 pre s0 (u ++ v) p' s' ∧ s'.errors ≠ es0 ∧
        ∀ t ∈ u ++ v, endsLine t.ty = false) := by
  unfold checkNewline
  split
  · rename_i hreq
    rw [bind_mark]
    split
    · rw [bind_error]
      have hloc : Loc E toks (.missingNewline (pk E s0).start) := by
        refine ⟨?_, trivial, ?_⟩
        · show SpanIn E.input (Span.ofPos _)
          obtain ⟨y', y1, y2, y3⟩ := hG.pk_start
          rw [y3]
          exact spanIn_of (List.prefix_refl _) y2
        · have hpu : endsLine (pk E s0).ty = false := by
            cases u with
            | nil => exact absurd rfl hu
            | cons t u' =>
              have : pk E s0 = t := by unfold pk; rw [hN.rest]; rfl
              rw [this]; exact hul t (by simp)
          obtain ⟨v, b, w1, w2, w3⟩ := hG.nextSome (by intro h; rw [h] at hpu; cases hpu)
          obtain ⟨tw, d, hd, htw⟩ := hl hreq
          obtain ⟨w, g1, g2⟩ := hG.last hd
          refine ⟨views E d.reverse, (w, tw.start), v, b, by rw [w1, g2]; simp,
            fun e => htw ((resolve_ty g1).2.2.2.2.2.2.2.2.2.1 e), fun hle => ?_⟩
          have := w3.line.1 hle
          rw [hpu] at this
          cases this
      refine Sat.pure ?_
      rw [if_pos rfl]
      exact ⟨hN.good.err hloc, rfl, rfl, rfl⟩
    · refine Sat.bind (recoverOn_post rfl hN.good) ?_
      rintro _ s2 ⟨u2, q2, b1, b2, b3, b4, b5⟩
      have hall : ∀ t ∈ u ++ u2, endsLine t.ty = false := by
        intro t ht
        rcases List.mem_append.1 ht with ht | ht
        · exact hul t ht
        · exact b5 t ht
      refine Sat.bind (expectedNewline_post hG (hN.trans b1) (by simp [hu]) (hl hreq) hall (.inl b4)) ?_
      rintro _ s3 ⟨c1, c2, c3, c4⟩
      refine Sat.pure ?_
      rw [if_neg (by simp)]
      exact ⟨hreq, _, _, c1, c2, hall⟩
  · refine Sat.pure ?_
    rw [if_pos rfl]
    exact ⟨Nx.refl hN.good, rfl, rfl, rfl⟩

end Verif.Toml
