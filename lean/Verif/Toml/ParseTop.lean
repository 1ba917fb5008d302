import Verif.Toml.ParseRoot

/-! # The parser as a whole -/

namespace Verif.Toml
open Verif Verif.Spec.Toml

theorem good_start {ovf : Bool} {input : Str} {T : Tokens} {es : List Error} {vs : List (View × Pos)}
    (h1 : T.eof = ⟨.eof, posOf input⟩)
    (h2 : T.tokens.map (resolve T.strings T.literals) = vs.map some) (h3 : Laid input vs)
    (h4 : CommentSeq vs) (h5 : ∀ tok ∈ T.tokens, StrTok input T.strings tok) :
    Good (envOf ovf input T) T.tokens es [] ⟨[], T.tokens, es, []⟩ where
  chain := chain_of_fwd (E := envOf ovf input T) (Laid.fwd h3) rfl h2 h5
  com := comToks_of h2 h4
  all := rfl
  done := by simp
  errs := ⟨[], by simp, by simp⟩
  stor := by simp
  eofTy := by simp [envOf, h1]
  eofStart := by simp [envOf, h1]

theorem coms_views {E : Env} {toks : List Token} {vs : List (View × Pos)}
    (h : toks.map (resolve E.strings E.literals) = vs.map some) : coms E toks = viewComments vs := by
  induction toks generalizing vs with
  | nil =>
    have : vs = [] := by simpa using h.symm
    subst this; rfl
  | cons t ts ih =>
    cases vs with
    | nil => simp at h
    | cons v vs =>
      simp only [List.map_cons, List.cons.injEq] at h
      obtain ⟨ha, hb⟩ := h
      have ih := ih hb
      simp only [coms, viewComments, List.filterMap_cons] at ih ⊢
      rw [ih]
      congr 1
      unfold resolve at ha
      unfold comOf
      split at ha
      all_goals rename_i he
      all_goals rw [he]
      all_goals try (simp only [Option.map_eq_some_iff] at ha; obtain ⟨w, e1, rfl⟩ := ha; simp [e1]; done)
      all_goals try (simp only [Option.some.injEq] at ha; subst ha; rfl)
      cases ha

theorem parse_post (ovf : Bool) (input : Str) : ∃ T es vs, lex input = some (T, es) ∧
    T.tokens.map (resolve T.strings T.literals) = vs.map some ∧
    Sat (SplitBack ovf T.tokens) (parseDocument ovf input) (fun a s => s.rest = [] ∧
      s.done.reverse = T.tokens ∧ (∃ new, s.errors = es ++ new ∧ ∀ e ∈ new, Loc (envOf ovf input T) T.tokens e) ∧
      (∀ c ∈ a.comments, CommentAt input c.comment) ∧
      (∀ x ∈ a.asts, AstAt (¬ SplitPair T.tokens) input a.comments.length x) ∧
      (s.errors = es → (viewComments vs).Perm (a.comments.map (·.comment) ++ astComments a.asts)) ∧
      ∀ c, (c = true → ¬ SplitPair T.tokens) → InOrder [] (a.asts.flatMap (astPlaces c)) input) := by
  obtain ⟨T, es, vs, h0, h1, h2, h3, h4, h5, -⟩ := lex_post input
  refine ⟨T, es, vs, h0, h2, ?_⟩
  unfold parseDocument
  rw [h0]
  simp only [parse]
  have hG := good_start (ovf := ovf) (es := es) h1 h2 h3 h4 h5
  rw [bind_budget]
  refine Sat.bind (rootLoop_post _ hG (r := ⟨[], [], false⟩) ?_ (by simp)) ?_
  · refine ⟨by simp, by simp, by simp, by simp, by simp, fun _ => ?_, fun c _ => .refl, by simp⟩
    simp [coms, PS.coms, astComments]
  rintro r s ⟨u, p', n1, n2, n3⟩
  refine Sat.ok ?_
  have hall := n1.good.all
  rw [n3, List.append_nil] at hall
  refine ⟨n3, hall.symm, n1.good.errs, n1.good.stor, ?_, ?_, ?_⟩
  · intro x hx
    rcases List.mem_append.1 hx with hx | hx
    · exact n2.asts x hx
    · obtain ⟨c, hc, rfl⟩ := List.mem_map.1 hx
      exact .comment (n2.prevAt c hc)
  · intro he
    have := n2.comm he
    rw [← hall, coms_views (E := envOf ovf input T) h2] at this
    rw [astComments_append, astComments_map]
    exact this
  · intro c hc
    rw [List.flatMap_append, places_comments]
    exact (n2.run c hc).upto n1.good.chain.prefix

/-! ## Documents without strings over several lines -/

theorem seg_line {E : Env} {a b : Str} {u : List Token} (h : Seg E a u b)
    (hu : ∀ t ∈ u, t.ty ≠ .newline ∧ (∀ id, t.ty ≠ .comment id) ∧
      ∀ id s, t.ty = .string id → E.strings[id]? = some s → '\n' ∉ s.lit) :
    (posOf b).line = (posOf a).line := by
  induction h with
  | nil => rfl
  | @cons pre g t y u pre' h1 h2 h3 ih =>
    rw [ih (fun t ht => hu t (by simp [ht]))]
    obtain ⟨n1, n2, n3⟩ := hu t (by simp)
    have hy : '\n' ∉ y := by
      have ht := h2.text
      split at ht
      · rename_i id he
        obtain ⟨q, txt, o, hs, -⟩ := ht
        exact n3 id _ he hs
      · exact ht.2.1
      · rename_i id he; exact absurd he (n2 id)
      all_goals first
        | (rw [ht]; decide)
        | (rename_i he; exact absurd he n1)
        | exact ht.elim
    rw [posOf_plus hy, posOf_plus h1.nonl]
    rfl

theorem Seg.split {E : Env} {a b : Str} {u v : List Token} (h : Seg E a (u ++ v) b) :
    ∃ m, Seg E a u m ∧ Seg E m v b := by
  induction u generalizing a with
  | nil => exact ⟨a, .nil, h⟩
  | cons t u ih =>
    cases h with
    | cons h1 h2 h3 =>
      obtain ⟨m, g1, g2⟩ := ih h3
      exact ⟨m, .cons h1 h2 g1, g2⟩

theorem no_split {E : Env} {toks : List Token} (hc : Chain E [] toks)
    (hs : ∀ t ∈ toks, ∀ id s, t.ty = .string id → E.strings[id]? = some s → '\n' ∉ s.lit) :
    ¬ SplitPair toks := by
  rintro ⟨l, r, ⟨a, m, b, rfl, hl, hr, hm⟩, hne⟩
  obtain ⟨p', g, h1, -⟩ := hc
  rw [show a ++ l :: m ++ r :: b = a ++ (l :: m ++ r :: b) by simp] at h1
  obtain ⟨m1, -, h2⟩ := h1.split
  cases h2 with
  | cons a1 a2 a3 =>
    obtain ⟨m2, h3, h4⟩ := Seg.split (u := m) (v := r :: b) a3
    cases h4 with
    | cons b1 b2 b3 =>
      refine hne ?_
      have hl2 := a2.text
      rw [hl] at hl2
      simp only at hl2
      subst hl2
      have := seg_line h3 (fun t ht => ⟨(hm t ht).1, (hm t ht).2, hs t (by simp [ht])⟩)
      rw [a2.start, b2.start, posOf_plus b1.nonl, Pos.plus, this]
      rw [posOf_plus (y := ['[']) (by decide)]
      rfl

end Verif.Toml
