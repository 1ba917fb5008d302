import Verif.Toml.Parse
import Verif.Toml.LexAll
import Verif.Spec.Parse

/-! # Lemmas for the parser: the tokens in the document, and a program logic -/

namespace Verif.Toml
open Verif Verif.Spec.Toml

/-! ## Positions -/

theorem posOf_ne {s t : Str} (ht : t ≠ []) : posOf s ≠ posOf (s ++ t) := by
  obtain ⟨t', c, rfl⟩ : ∃ t' c, t = t' ++ [c] := by
    induction t using snocRec with
    | nil => exact absurd rfl ht
    | append_singleton t c _ => exact ⟨t, c, rfl⟩
  intro h
  have hm := posOf_mono s t'
  rw [← List.append_assoc] at h
  by_cases hc : c = '\n'
  · subst hc
    rw [posOf_nl] at h
    rw [h] at hm
    unfold Pos.le at hm
    simp only at hm
    omega
  · rw [posOf_snoc _ hc] at h
    have := utf8Size_pos'' c
    rw [h] at hm
    unfold Pos.le at hm
    simp only at hm
    omega

theorem posOf_inj {x y x' y' : Str} (h : x ++ y = x' ++ y') (hp : posOf x = posOf x') : x = x' := by
  rcases List.append_eq_append_iff.1 h with ⟨a, h1, -⟩ | ⟨a, h1, -⟩
  · subst h1
    by_cases ha : a = []
    · subst ha; simp
    · exact absurd hp (posOf_ne ha)
  · subst h1
    by_cases ha : a = []
    · subst ha; simp
    · exact absurd hp.symm (posOf_ne ha)

theorem posOf_plus {x y : Str} (h : '\n' ∉ y) : posOf (x ++ y) = (posOf x).plus (blen y) :=
  posOf_app x h

theorem posOf_line_append (x y : Str) : (posOf (x ++ y)).line = (posOf x).line + y.count '\n' := by
  rw [posOf_line, posOf_line, List.count_append]

theorem posOf_cons' (c : Char) (x : Str) : posOf (c :: x) =
    if c = '\n' then ⟨(posOf x).line + 1, (posOf x).char⟩
    else if '\n' ∈ x then posOf x else ⟨(posOf x).line, c.utf8Size + (posOf x).char⟩ := by
  have hcount : (c :: x).count '\n' = x.count '\n' + if c = '\n' then 1 else 0 := by
    rw [List.count_cons]; simp
  have htw : (c :: x).reverse.takeWhile (· != '\n') =
      if '\n' ∈ x then x.reverse.takeWhile (· != '\n')
      else x.reverse ++ (if c = '\n' then [] else [c]) := by
    rw [List.reverse_cons]
    split
    · rename_i hx
      rw [List.takeWhile_append, if_neg]
      intro hl
      have hp := List.takeWhile_prefix (p := (· != '\n')) (l := x.reverse)
      have he := hp.eq_of_length hl
      have : '\n' ∈ x.reverse.takeWhile (· != '\n') := by rw [he]; simpa using hx
      exact absurd (List.all_takeWhile (p := (· != '\n')) (l := x.reverse))
        (by simp only [List.all_eq_true]; intro h; exact absurd (h _ this) (by decide))
    · rename_i hx
      have he : x.reverse.takeWhile (· != '\n') = x.reverse := by
        have : ∀ l : Str, '\n' ∉ l → l.takeWhile (· != '\n') = l := by
          intro l
          induction l with
          | nil => simp
          | cons a l ih =>
            intro h
            simp only [List.mem_cons, not_or] at h
            rw [List.takeWhile_cons, if_pos (by simpa using Ne.symm h.1), ih h.2]
        exact this _ (by simpa using hx)
      rw [List.takeWhile_append, he, if_pos rfl]
      by_cases hc : c = '\n'
      · subst hc; simp
      · rw [List.takeWhile_cons, if_pos (by simpa using hc)]; simp [hc]
  unfold posOf
  rw [hcount, htw]
  by_cases hc : c = '\n'
  · subst hc
    simp only [if_true]
    split
    · rfl
    · rename_i hx
      have he : x.reverse.takeWhile (· != '\n') = x.reverse := by
        have : ∀ l : Str, '\n' ∉ l → l.takeWhile (· != '\n') = l := by
          intro l
          induction l with
          | nil => simp
          | cons a l ih =>
            intro h
            simp only [List.mem_cons, not_or] at h
            rw [List.takeWhile_cons, if_pos (by simpa using Ne.symm h.1), ih h.2]
        exact this _ (by simpa using hx)
      rw [he]; simp
  · simp only [hc, if_false, Nat.add_zero]
    split
    · rfl
    · rename_i hx
      have he : x.reverse.takeWhile (· != '\n') = x.reverse := by
        have : ∀ l : Str, '\n' ∉ l → l.takeWhile (· != '\n') = l := by
          intro l
          induction l with
          | nil => simp
          | cons a l ih =>
            intro h
            simp only [List.mem_cons, not_or] at h
            rw [List.takeWhile_cons, if_pos (by simpa using Ne.symm h.1), ih h.2]
        exact this _ (by simpa using hx)
      rw [he]
      simp only [blen_append, blen_cons, blen_nil, Nat.add_zero, Pos.mk.injEq, true_and]
      omega

theorem byteOff_posOf (x y : Str) : byteOff (x ++ y) (posOf x).line (posOf x).char = blen x := by
  induction x with
  | nil => simp [byteOff]
  | cons c x ih =>
    rw [posOf_cons']
    by_cases hc : c = '\n'
    · subst hc
      simp only [if_true, List.cons_append, byteOff, ih, blen_cons]
    · simp only [hc, if_false]
      split
      · rename_i hx
        obtain ⟨k, hk⟩ : ∃ k, (posOf x).line = k + 1 := by
          have : 0 < x.count '\n' := List.count_pos_iff.2 hx
          exact ⟨x.count '\n' - 1, by rw [posOf_line]; omega⟩
        rw [hk] at ih ⊢
        simp only [List.cons_append, byteOff, if_neg hc, ih, blen_cons]
      · rename_i hx
        have h0 : (posOf x).line = 0 := by rw [posOf_line]; exact List.count_eq_zero.2 hx
        have h1 := posOf_plus (x := []) (y := x) hx
        rw [List.nil_append] at h1
        simp only [h0, byteOff, h1, Pos.plus, posOf_nil, blen_cons]
        omega

/-! ## Tokens in the document -/

/-- The token `t` stands behind `x` and is written `y`. -/
structure TokAt (E : Env) (t : Token) (x y : Str) : Prop where
  start : t.start = posOf x
  ne : y ≠ []
  text : match t.ty with
    | .string id => ∃ q txt off, E.strings[id]? = some ⟨q, y, posOf (x ++ y), txt, off⟩ ∧
        ∃ o t d, y = o ++ t ++ d ∧ off = offOf o d ∧ Opening q o ∧ (∀ c ∈ d, c = quoteChar q) ∧
          (isMulti q = false → '\n' ∉ y) ∧ (isMulti q = false → d.length ≤ 1 ∧ ('\\' ∉ t → txt = t))
    | .literalOrIdent id => E.literals[id]? = some y ∧ '\n' ∉ y ∧
        ∀ c ∈ y, c ≠ ' ' ∧ c ≠ '\t' ∧ c ≠ '"' ∧ c ≠ '\'' ∧ c ≠ '#' ∧ isPunct c = false
    | .comment id => ∃ txt, E.literals[id]? = some txt ∧ y = '#' :: txt ∧ '\n' ∉ txt
    | .squareLeft => y = ['[']
    | .squareRight => y = [']']
    | .curlyLeft => y = ['{']
    | .curlyRight => y = ['}']
    | .equal => y = ['=']
    | .comma => y = [',']
    | .dot => y = ['.']
    | .newline => IsNewline y
    | .eof => False

/-- The place of the contents of a string. -/
theorem applyTo_offOf {q : Quote} {x o t d : Str} (hd : ∀ c ∈ d, c = quoteChar q) :
    ∃ ts, (offOf o d).applyTo ⟨posOf x, posOf (x ++ (o ++ t ++ d))⟩ = some ts ∧
      ts.start.line = (posOf (x ++ o)).line ∧ ('\n' ∉ o → ts.start = posOf (x ++ o)) ∧
      ts.stop.line = (posOf (x ++ o ++ t)).line ∧ (d.length < 256 → ts.stop = posOf (x ++ o ++ t)) := by
  have hnd : '\n' ∉ d := fun hh => quoteChar_ne_nl q (hd _ hh).symm
  have hbd : blen d = d.length := blen_quotes hd
  have hp : posOf (x ++ (o ++ t ++ d)) =
      ⟨(posOf (x ++ o ++ t)).line, (posOf (x ++ o ++ t)).char + blen d⟩ := by
    rw [← posOf_app _ hnd]; simp
  have e2 : subU ((posOf (x ++ o ++ t)).char + blen d) (blen d % 256) =
      some ((posOf (x ++ o ++ t)).char + blen d - blen d % 256) := by
    rw [subU, if_pos]
    have := Nat.mod_le (blen d) 256
    omega
  unfold TextOffset.applyTo
  simp only [offOf, hp, e2]
  have e1 : subU (posOf (x ++ o ++ t)).line 0 = some (posOf (x ++ o ++ t)).line := by simp [subU]
  simp only [e1, Option.bind_eq_bind, Option.bind_some, Option.pure_def]
  refine ⟨_, rfl, ?_, ?_, rfl, ?_⟩
  · exact (posOf_line_append x o).symm
  · intro hn
    rw [posOf_app x hn, if_neg hn, List.count_eq_zero.2 hn]
    rfl
  · intro hl
    rw [Nat.mod_eq_of_lt (by omega)]
    simp

/-- Spaces and tabs. -/
def Blank (g : Str) : Prop := ∀ c ∈ g, c = ' ' ∨ c = '\t'

theorem Blank.nonl {g : Str} (h : Blank g) : '\n' ∉ g := fun hh => by
  rcases h _ hh with e | e <;> exact absurd e (by decide)

/-- The tokens `u` lie between `pre` and `pre'`. -/
inductive Seg (E : Env) : Str → List Token → Str → Prop
  | nil {pre} : Seg E pre [] pre
  | cons {pre g t y u pre'} : Blank g → TokAt E t (pre ++ g) y → Seg E (pre ++ g ++ y) u pre' →
      Seg E pre (t :: u) pre'

/-- The tokens `ts` lie behind `pre`, up to the end of the document. -/
def Chain (E : Env) (pre : Str) (ts : List Token) : Prop :=
  ∃ pre' g, Seg E pre ts pre' ∧ Blank g ∧ E.input = pre' ++ g

theorem Seg.append {E : Env} {a b c : Str} {u v : List Token} (h : Seg E a u b) (h' : Seg E b v c) :
    Seg E a (u ++ v) c := by
  induction h with
  | nil => exact h'
  | cons h1 h2 _ ih => exact .cons h1 h2 (ih h')

theorem Seg.prefix {E : Env} {a b : Str} {u : List Token} (h : Seg E a u b) : a <+: b := by
  induction h with
  | nil => exact List.prefix_refl _
  | cons _ _ _ ih => exact List.IsPrefix.trans ⟨_, by rw [List.append_assoc]⟩ ih

theorem Chain.prefix {E : Env} {a : Str} {ts : List Token} (h : Chain E a ts) : a <+: E.input := by
  obtain ⟨b, g, h1, -, h2⟩ := h
  rw [h2]
  exact h1.prefix.trans ⟨g, rfl⟩

theorem Chain.cons_inv {E : Env} {pre : Str} {t : Token} {ts : List Token} (h : Chain E pre (t :: ts)) :
    ∃ g y, Blank g ∧ TokAt E t (pre ++ g) y ∧ Chain E (pre ++ g ++ y) ts := by
  obtain ⟨b, g', h1, h2, h3⟩ := h
  cases h1 with
  | cons a1 a2 a3 => exact ⟨_, _, a1, a2, _, _, a3, h2, h3⟩

/-- A text, given forwards. -/
inductive Fwd : Str → Str → List (View × Pos) → Prop
  | nil {pre g} : Blank g → Fwd pre g []
  | cons {pre g y s v vs} : Blank g → Covers v y → Fwd (pre ++ g ++ y) s vs →
      Fwd pre (g ++ y ++ s) ((v, posOf (pre ++ g)) :: vs)

theorem Fwd.blank {pre s : Str} {vs : List (View × Pos)} {c : Char} (h : Fwd pre s vs)
    (hc : c = ' ' ∨ c = '\t') : Fwd pre (s ++ [c]) vs := by
  induction h with
  | nil h =>
    refine .nil (fun d hd => ?_)
    rcases List.mem_append.1 hd with hd | hd
    · exact h d hd
    · rw [List.mem_singleton.1 hd]; exact hc
  | cons h1 h2 _ ih =>
    rw [List.append_assoc]
    exact .cons h1 h2 ih

theorem Fwd.token {pre s t : Str} {vs : List (View × Pos)} {v : View} (h : Fwd pre s vs)
    (hc : Covers v t) : Fwd pre (s ++ t) (vs ++ [(v, posOf (pre ++ s))]) := by
  induction h with
  | @nil pre g h =>
    have := Fwd.cons (pre := pre) h hc (.nil (pre := pre ++ g ++ t) (g := []) (by simp [Blank]))
    simpa using this
  | cons h1 h2 _ ih =>
    rw [List.append_assoc]
    have := Fwd.cons h1 h2 ih
    simpa using this

theorem Laid.fwd {s : Str} {vs : List (View × Pos)} (h : Laid s vs) : Fwd [] s vs := by
  induction h with
  | nil => exact .nil (by simp [Blank])
  | blank _ h1 ih => exact ih.blank h1
  | token _ h1 ih => exact ih.token h1

theorem TokAt.of_resolve {E : Env} {tok : Token} {v : View} {p : Pos} {x y z : Str}
    (hr : resolve E.strings E.literals tok = some (v, p)) (hc : Covers v y) (hp : p = posOf x)
    (hin : E.input = x ++ y ++ z) (hs : StrTok E.input E.strings tok) : TokAt E tok x y := by
  subst hp
  have hstart : tok.start = posOf x := by
    unfold resolve at hr
    split at hr <;> simp at hr <;> grind
  refine ⟨hstart, ?_, ?_⟩
  · cases hc with
    | string h => intro e; rw [e] at h; cases h
    | word h => exact h
    | comment => simp
    | punct => simp
    | newline h => rcases h with rfl | rfl <;> simp
  · unfold resolve at hr
    split
    · rename_i id he
      obtain ⟨pre0, q, o, t, d, r, txt, e1, e2, e3, e4, e5⟩ := hs id he
      simp only [he, e3, Option.map_some, Option.some.injEq, Prod.mk.injEq] at hr
      obtain ⟨rfl, -⟩ := hr
      cases hc with
      | string h =>
        have hx : pre0 = x := by
          refine posOf_inj (y := (o ++ t ++ d) ++ r) (y' := (o ++ t ++ d) ++ z) ?_ ?_
          · rw [← List.append_assoc, ← e1, hin]; simp
          · rw [← e2, hstart]
        subst hx
        exact ⟨_, _, _, e3, o, t, d, rfl, rfl, e4, e5⟩
    all_goals
      rename_i he
      simp only [he] at hr
    · simp only [Option.map_eq_some_iff] at hr
      obtain ⟨w, h1, h2⟩ := hr
      simp only [Prod.mk.injEq] at h2
      obtain ⟨rfl, -⟩ := h2
      cases hc with
      | word _ h3 =>
        refine ⟨h1, fun hh => (h3 _ hh).2.2.1 rfl, fun c hc => ?_⟩
        obtain ⟨a1, a2, a3, a4, a5, a6, a7⟩ := h3 c hc
        exact ⟨a1, a2, a4, a5, a6, a7⟩
    · simp only [Option.map_eq_some_iff] at hr
      obtain ⟨w, h1, h2⟩ := hr
      simp only [Prod.mk.injEq] at h2
      obtain ⟨rfl, -⟩ := h2
      cases hc with
      | comment h3 => exact ⟨_, h1, rfl, h3⟩
    all_goals try
      simp only [Option.some.injEq, Prod.mk.injEq] at hr
      obtain ⟨rfl, -⟩ := hr
      cases hc
      first
        | rfl
        | assumption
    cases hr

theorem chain_of_fwd {E : Env} {pre s : Str} {vs : List (View × Pos)} (h : Fwd pre s vs) :
    ∀ {toks : List Token}, E.input = pre ++ s →
      toks.map (resolve E.strings E.literals) = vs.map some →
      (∀ t ∈ toks, StrTok E.input E.strings t) → Chain E pre toks := by
  induction h with
  | nil h =>
    intro toks h1 h2 _
    have : toks = [] := by simpa using h2
    subst this
    exact ⟨_, _, .nil, h, h1⟩
  | @cons pre g y s v vs h1 h2 _ ih =>
    intro toks e1 e2 e3
    cases toks with
    | nil => simp at e2
    | cons t toks =>
      simp only [List.map_cons, List.cons.injEq] at e2
      have htok : TokAt E t (pre ++ g) y :=
        TokAt.of_resolve (z := s) e2.1 h2 rfl (by rw [e1]; simp) (e3 t (by simp))
      obtain ⟨p', g', a1, a2, a3⟩ := ih (by rw [e1]; simp) e2.2 (fun t ht => e3 t (by simp [ht]))
      exact ⟨p', g', .cons h1 htok a1, a2, a3⟩

/-- Behind a comment token there is a line break or nothing. -/
def ComToks (ts : List Token) : Prop :=
  ∀ a b id t, ts = a ++ b → b.head?.map (·.ty) = some (.comment id) → b[1]? = some t → t.ty = .newline

theorem comToks_of {S : List StringToken} {I : List Str} {toks : List Token} {vs : List (View × Pos)}
    (h : toks.map (resolve S I) = vs.map some) (hc : CommentSeq vs) : ComToks toks := by
  intro a b id t he hh ht
  subst he
  match b, hh, ht with
  | c :: d :: b, hh, ht =>
    simp only [List.getElem?_cons_succ, List.getElem?_cons_zero, Option.some.injEq] at ht
    subst ht
    simp only [List.head?_cons, Option.map_some, Option.some.injEq] at hh
    rw [List.map_append] at h
    obtain ⟨va, vb, rfl, h1, h2⟩ := List.map_eq_append_iff.1 h.symm
    simp only [List.map_cons] at h2
    match vb, h2 with
    | [v1], h2 => simp at h2
    | v1 :: v2 :: vb, h2 =>
      simp only [List.map_cons, List.cons.injEq] at h2
      obtain ⟨g1, g2, -⟩ := h2
      have hv1 : ∃ txt p, v1 = (.comment txt, p) := by
        unfold resolve at g1
        rw [hh] at g1
        simp only [] at g1
        obtain ⟨w, -, hw⟩ := Option.map_eq_some_iff.1 g1.symm
        exact ⟨_, _, hw.symm⟩
      obtain ⟨txt, p, rfl⟩ := hv1
      have := hc va vb txt p v2 rfl
      obtain ⟨v2, p2⟩ := v2
      simp only at this
      subst this
      unfold resolve at g2
      split at g2 <;> first
        | assumption
        | (obtain ⟨w, -, hw⟩ := Option.map_eq_some_iff.1 g2.symm; simp at hw; done)
        | (simp at g2; done)

end Verif.Toml
