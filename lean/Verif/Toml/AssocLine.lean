import Verif.Toml.AssocStore

/-! # Comments: the lines of tokens, and the value of an assignment -/

namespace Verif.Toml
open Verif Verif.Spec.Toml

variable {α β : Type} {E : Env} {s s' s1 s2 : PS} {pre : Str} {toks : List Token} {es0 : List Error}

theorem seg_prefix {pre' : Str} {u : List Token} (h : Seg E pre u pre') : pre <+: pre' := by
  induction h with
  | nil => exact List.prefix_refl _
  | cons hg ht hs ih =>
    refine (List.prefix_append _ _).trans ((List.prefix_append _ _).trans ih)

theorem seg_later {pre' : Str} {u : List Token} (h : Seg E pre u pre') : ∀ t ∈ u, (posOf pre).line ≤ t.start.line := by
  induction h with
  | nil => simp
  | cons hg ht hs ih =>
    intro t hm
    rcases List.mem_cons.1 hm with rfl | hm
    · rw [ht.start]; exact posOf_line_mono (List.prefix_append _ _)
    · exact Nat.le_trans (posOf_line_mono ((List.prefix_append _ _).trans (List.prefix_append _ _))) (ih t hm)

theorem good_later (hG : Good E toks es0 pre s) : (∀ t ∈ s.rest, (posOf pre).line ≤ t.start.line) ∧
    (posOf pre).line ≤ E.eof.start.line := by
  obtain ⟨pre', g, h1, -, h2⟩ := hG.chain
  refine ⟨seg_later h1, ?_⟩
  rw [hG.eofStart, h2]
  exact posOf_line_mono ((seg_prefix h1).trans (List.prefix_append _ _))

theorem vw_not_comment {t : Token} (h : ∀ id, t.ty ≠ .comment id) : ∀ x, (vw E t).1 ≠ .comment x := by
  intro x
  unfold vw
  split
  · simp
  · unfold resolve
    cases hty : t.ty with
    | comment id => exact absurd hty (h id)
    | string id => cases hs : E.strings[id]? <;> simp [hs]
    | literalOrIdent id => cases hs : E.literals[id]? <;> simp [hs]
    | _ => simp

/-- The comments of tokens, as the tokens say. -/
theorem seg_comments {pre' : Str} {u : List Token} (h : Seg E pre u pre') :
    commentsIn (u.map (vw E)) = (coms E u).map Spec.Toml.comOf := by
  induction h with
  | nil => rfl
  | @cons pre g t y u pre' hg ht hs ih =>
    have e1 : commentsIn ((t :: u).map (vw E)) = commentsIn [vw E t] ++ commentsIn (u.map (vw E)) := by
      rw [List.map_cons, ← List.singleton_append]
      unfold commentsIn
      rw [List.filterMap_append]
    have e2 : coms E (t :: u) = coms E [t] ++ coms E u := by
      rw [← coms_append]; rfl
    rw [e1, e2, ih, List.map_append]
    congr 1
    by_cases hc : ∃ id, t.ty = .comment id
    · obtain ⟨id, hc⟩ := hc
      have hx := ht.text
      rw [hc] at hx
      obtain ⟨txt, h1, -⟩ := hx
      rw [vw_comment hc h1]
      simp [commentsIn, coms, Verif.Toml.comOf, hc, h1, Spec.Toml.comOf, Span.fromPosLen]
    · have h1 := vw_not_comment (E := E) (fun id hh => hc ⟨id, hh⟩)
      have h2 : Verif.Toml.comOf E t = none := by
        unfold Verif.Toml.comOf
        split
        · rename_i id hh; exact absurd ⟨id, hh⟩ hc
        · rfl
      simp only [commentsIn, coms, List.filterMap_cons, h2, List.filterMap_nil, List.map_nil]

theorem isNewline_count {y : Str} (h : IsNewline y) : y.count '\n' = 1 := by
  rcases h with rfl | rfl <;> decide

/-- Comments are on lines in front of a later token. -/
theorem seg_before {pre' : Str} {u : List Token} (h : Seg E pre u pre') (hc : ComToks u)
    (hl : ∀ t, u.getLast? = some t → ∀ id, t.ty ≠ .comment id) : ∀ c ∈ coms E u, c.span.start.line < (posOf pre').line := by
  induction h with
  | nil => simp [coms]
  | @cons pre g t y u pre' hg ht hs ih =>
    intro c hm
    have e2 : coms E (t :: u) = coms E [t] ++ coms E u := by
      rw [← coms_append]; rfl
    rw [e2] at hm
    have hc' : ComToks u := by
      intro a b id t' he h1 h2
      exact hc (t :: a) b id t' (by rw [he]; simp) h1 h2
    rcases List.mem_append.1 hm with hm1 | hm1
    · by_cases hh : ∃ id, t.ty = .comment id
      · obtain ⟨id, hh⟩ := hh
        cases u with
        | nil => exact absurd hh (hl t rfl id)
        | cons t2 u =>
          have hn := hc [] (t :: t2 :: u) id t2 rfl (by simp [hh]) rfl
          cases hs with
          | @cons _ g2 _ y2 _ _ hg2 ht2 hs2 =>
            have hy := ht2.text
            rw [hn] at hy
            have hy := isNewline_count hy
            simp only [coms, Verif.Toml.comOf, hh, List.filterMap_cons, List.filterMap_nil] at hm1
            split at hm1
            · cases hm1
            · rename_i b hb
              obtain ⟨l, -, rfl⟩ := Option.map_eq_some_iff.1 hb
              rw [List.mem_singleton.1 hm1]
              have h1 := posOf_line_mono (seg_prefix hs2)
              rw [posOf_line_append, hy, posOf_line_append, posOf_line_append] at h1
              show t.start.line < _
              rw [ht.start]
              omega
      · simp only [coms, List.filterMap_cons, List.filterMap_nil] at hm1
        have h2 : Verif.Toml.comOf E t = none := by
          unfold Verif.Toml.comOf
          split
          · rename_i id hi; exact absurd ⟨id, hi⟩ hh
          · rfl
        rw [h2] at hm1
        cases hm1
    · cases u with
      | nil => simp [coms] at hm1
      | cons t2 u =>
        exact ih hc' (fun t' h1 => hl t' (by rw [List.getLast?_cons_cons]; exact h1)) c hm1

theorem comToks_prefix {u r : List Token} (h : ComToks (u ++ r)) : ComToks u := by
  intro a b id t he h1 h2
  refine h a (b ++ r) id t (by rw [he]; simp) ?_ ?_
  · cases b with
    | nil => cases h1
    | cons b0 b => simpa using h1
  · match b, h2 with
    | b0 :: b1 :: b, h2 => simpa using h2

/-! ## The value of an assignment -/

/-- What an assignment stores, and where it goes. -/
inductive AsgRun (r : RootSt) (st : List AssocComment) (loose run : List Comment) (mid : List AssocComment) (eq : Pos) (r' : RootSt)
    (st' : List AssocComment) : Prop
  | root {a} : (∀ x, r.asts.getLast? = some x → tablePart x = none) → a.assignment.eq = eq →
      a.comments = ⟨st.length, run.length + mid.length, 0⟩ →
      r'.asts = r.asts ++ loose.map .comment ++ [.assignment a] → st' = st ++ (abv 0 run ++ mid) → AsgRun r st loose run mid eq r' st'
  | inTable {asts0 x x' q rg as a} : r.asts = asts0 ++ [x] → tablePart x = some (q, rg, as) → a.assignment.eq = eq →
      tablePart x' = some (q, grown rg st.length loose, as ++ [a]) →
      a.comments = ⟨st.length + loose.length, run.length + mid.length, 1⟩ →
      r'.asts = asts0 ++ [x'] → st' = st ++ (ctd rg.level loose ++ (abv 1 run ++ mid)) → AsgRun r st loose run mid eq r' st'

/-- The part of an assignment behind the comments in front of it. -/
theorem value_run (hE : EnvEof E) (hG : Good E toks es0 pre s) {level n : Nat} {ℓ : Nat} (hℓ : ℓ = (posOf pre).line)
    (hlev : level ≤ 1)
    (hseal : ∀ c, s.storage.getLast? = some c → c.pos = .contained → c.comment.span.start.line + 1 < ℓ)
    {vt rest : List Tok} {v : TVal} (hv : Val n vt v) (hn : n + level ≤ 100)
    (hV : V E s = vt ++ rest) (hf : Follow rest) {rv : Except Error Value}
    (h : parseValue E (RECURSION_LIMIT + 2) level s = .ok rv s') :
    ∃ val mid u, rv = .ok val ∧ s'.storage = s.storage ++ mid ∧ s.rest = u ++ s'.rest ∧ mid.map (·.comment) = coms E u ∧
      mid.map (fun c => Spec.Toml.comOf c.comment) = commentsIn vt := by
  obtain ⟨val, rfl, -, w⟩ := parseValue_complete hE hv (RECURSION_LIMIT + 2) level hn _ _ _ _ hG.cx hV hf h
  have hopen : level + openToks s.rest ≤ openToks toks + 1 := by
    have := congrArg openToks hG.all
    rw [openToks_append] at this
    omega
  have hp := parseValue_post (P := False) (RECURSION_LIMIT + 2) level (by omega) (by omega) hG hopen
  rw [h] at hp
  obtain ⟨u, p', hx, -⟩ := hp
  obtain ⟨l1, l2⟩ := good_later hG
  obtain ⟨⟨-, mid, h1, -⟩, -⟩ := (keeps_parseValue (E := E) (ℓ := ℓ) (old := s.storage) (by rw [hℓ]; exact l2) hseal
    (RECURSION_LIMIT + 2) level).out s _ s' ⟨by rw [hℓ]; exact l1, [], by simp, by simp⟩ h
  have hc := hx.comm w.errs
  unfold PS.coms at hc
  rw [h1, List.map_append, List.append_nil] at hc
  have hc := List.append_cancel_left hc
  refine ⟨val, mid, u, rfl, h1, hx.rest, hc, ?_⟩
  have hv' : vt = u.map (vw E) := by
    have := w.view
    unfold V at this
    rw [hx.rest, List.map_append] at this
    exact (List.append_cancel_right this).symm
  rw [hv', seg_comments hx.seg, ← hc, List.map_map]
  rfl

theorem last_stored {st new : List AssocComment} {c : AssocComment} (h : (st ++ new).getLast? = some c) :
    c ∈ new ∨ (new = [] ∧ st.getLast? = some c) := by
  rcases List.eq_nil_or_concat new with h1 | ⟨n, d, h1⟩
  · subst h1; exact .inr ⟨rfl, by simpa using h⟩
  · subst h1
    left
    simp only [List.concat_eq_append, ← List.append_assoc, List.getLast?_append, List.getLast?_singleton, Option.some_or,
      Option.some.injEq] at h
    subst h
    simp

theorem mem_abv {n : Nat} {cs : List Comment} {c : AssocComment} (h : c ∈ abv n cs) : c.pos = .above := by
  obtain ⟨d, -, rfl⟩ := List.mem_map.1 h; rfl

theorem rootValue_run (hE : EnvEof E) (hG : Good E toks es0 pre s) {r r' : RootSt} (hI : ∀ c ∈ r.prevComments, CommentAt E.input c)
    {o : Prop} (hA : ∀ a ∈ r.asts, AstAt o E.input s.storage.length a)
    {b : Bool} (hR : RI b r.asts) {key : Key} {eq : Pos} {loose run : List Comment} (hp : r.prevComments = loose ++ run)
    (hc : Consec run.reverse eq.line) (hl : ∀ c ∈ loose, c.span.start.line + 1 + run.length < eq.line)
    (heq : eq.line = (posOf pre).line)
    (hseal : ∀ c, s.storage.getLast? = some c → c.pos = .contained → c.comment.span.start.line + 1 < eq.line)
    {vt rest : List Tok} {v : TVal} (hv : Val (depthLimit b) vt v)
    (hV : V E s = vt ++ rest) (hf : Follow rest) (h : rootValue E r key eq s = .ok r' s') :
    ∃ mid u, AsgRun r s.storage loose run mid eq r' s'.storage ∧ r'.prevComments = [] ∧ r'.newlineRequired = true ∧
      s.rest = u ++ s'.rest ∧ mid.map (·.comment) = coms E u ∧ mid.map (fun c => Spec.Toml.comOf c.comment) = commentsIn vt := by
  unfold rootValue at h
  obtain ⟨pos, s1, h1, h⟩ := bind_inv h
  rw [hp] at h1
  obtain ⟨rfl, rfl⟩ := findAssoc_run hc hl h1
  obtain ⟨o, s2, h2, h⟩ := bind_inv h
  rw [hp, List.take_left] at h2
  rw [hp, List.drop_left] at h
  have o3 := (looseComments_items hR h2).2.2.2
  -- the rest, for comments stored so far
  have fin : ∀ (asts : List Ast) (level : Nat) (new : List AssocComment), o = (asts, level) → s2 = s1.stored new →
      (∀ c ∈ new.map (·.comment), CommentAt E.input c) → (∀ c ∈ new, c.comment.span.start.line + 1 + run.length < eq.line) →
      ∃ mid u val, r'.asts = pushAssignment asts ⟨⟨s1.storage.length + new.length, run.length + mid.length, level⟩, key, eq, val⟩ ∧
        s'.storage = s1.storage ++ (new ++ (abv level run ++ mid)) ∧ r'.prevComments = [] ∧ r'.newlineRequired = true ∧
        s1.rest = u ++ s'.rest ∧ mid.map (·.comment) = coms E u ∧ mid.map (fun c => Spec.Toml.comOf c.comment) = commentsIn vt := by
    rintro asts level new rfl rfl hnew hnl
    dsimp only at h o3
    obtain ⟨cm, s3, h3, h⟩ := bind_inv h
    obtain ⟨rfl, rfl⟩ := storeComments_run h3
    obtain ⟨rv, s4, h4, h⟩ := bind_inv h
    have hG1 := (hG.addStor hnew).good
    have hG2 : Good E toks es0 pre ((s1.stored new).stored (abv level run)) := (hG1.addStor (new := abv level run) (by
      intro c hc
      rw [abv, List.map_map] at hc
      obtain ⟨d, hd, rfl⟩ := List.mem_map.1 hc
      exact hI d (by rw [hp]; simp [hd]))).good
    have hvr := value_run hE hG2 (level := level) (n := depthLimit b) (ℓ := eq.line) heq (by rw [o3]; cases b <;> simp)
      (by
        intro c hc1 hc2
        rcases last_stored hc1 with hc1 | ⟨hc1, hc3⟩
        · rw [mem_abv hc1] at hc2; cases hc2
        · have hr0 : run = [] := by simpa [abv] using hc1
          rcases last_stored hc3 with hc3 | ⟨hc3, hc4⟩
          · have := hnl c hc3
            rw [hr0] at this; simpa using this
          · exact hseal c hc4 hc2) hv (by rw [o3]; cases b <;> simp [depthLimit]) hV hf h4
    obtain ⟨val, mid, u, rfl, e1, e2, e3, e4⟩ := hvr
    dsimp only at h
    rw [bind_nextId] at h
    obtain ⟨cm2, h5, h⟩ := bind_lift_inv h
    obtain ⟨rfl, rfl⟩ := pure_inv h
    refine ⟨mid, u, val, ?_, by rw [e1]; simp [PS.stored], rfl, rfl, e2, e3, e4⟩
    have hlen : s4.storage.length = s1.storage.length + new.length + run.length + mid.length := by
      rw [e1]; simp [PS.stored, abv]; omega
    rw [extendTo_eq (by rw [hlen]; simp [PS.stored]; omega)] at h5
    cases h5
    have : s4.storage.length - (s1.stored new).storage.length = run.length + mid.length := by
      rw [hlen]; simp [PS.stored]; omega
    rw [this]
    simp [PS.stored]
  by_cases hx : ∀ x, r.asts.getLast? = some x → tablePart x = none
  · obtain ⟨rfl, rfl⟩ := looseComments_root hx h2
    obtain ⟨mid, u, val, e1, e2, e3, e4, e5, e6, e7⟩ := fin _ _ [] rfl (by simp [PS.stored]) (by simp) (by simp)
    have hx' : ∀ x, (r.asts ++ loose.map Ast.comment).getLast? = some x → tablePart x = none := by
      intro x h3
      rcases List.eq_nil_or_concat loose with h4 | ⟨lo, c, h4⟩
      · subst h4; exact hx x (by simpa using h3)
      · subst h4
        simp only [List.concat_eq_append, List.map_append, List.map_cons, List.map_nil, ← List.append_assoc,
          List.getLast?_append, List.getLast?_singleton, Option.some_or, Option.some.injEq] at h3
        subst h3; rfl
    refine ⟨mid, u, .root (a := ⟨⟨s2.storage.length + ([] : List AssocComment).length, run.length + mid.length, 0⟩, key, eq, val⟩) hx rfl (by simp) (by rw [e1, push_root hx'])
      (by simpa using e2), e3, e4, e5, e6, e7⟩
  · obtain ⟨x, hx1, hx2⟩ : ∃ x, r.asts.getLast? = some x ∧ tablePart x ≠ none := by
      refine Classical.byContradiction fun hh => hx fun x h1 => ?_
      refine Classical.byContradiction fun h2 => hh ⟨x, h1, h2⟩
    obtain ⟨⟨q, rg, as⟩, hx3⟩ := Option.ne_none_iff_exists'.1 hx2
    obtain ⟨asts0, hx4⟩ : ∃ asts0, r.asts = asts0 ++ [x] := by
      rcases List.eq_nil_or_concat r.asts with h4 | ⟨lo, c, h4⟩
      · rw [h4] at hx1; cases hx1
      · rw [h4] at hx1
        simp only [List.concat_eq_append, List.getLast?_append, List.getLast?_singleton, Option.some_or, Option.some.injEq] at hx1
        subst hx1
        exact ⟨lo, by rw [h4]; simp⟩
    have hrg : rg.start ≤ s1.storage.length := by
      have := hA x (by rw [hx4]; simp)
      cases this with
      | assignment => cases hx3
      | comment => cases hx3
      | table h1 => cases hx3; unfold RangeIn at h1; omega
      | array h1 => cases hx3; unfold RangeIn at h1; omega
    obtain ⟨rfl, x1, rfl, hx5⟩ := looseComments_table hx4 hx3 hrg h2
    obtain ⟨mid, u, val, e1, e2, e3, e4, e5, e6, e7⟩ := fin _ _ _ rfl rfl
      (by
        intro c hc
        rw [ctd, List.map_map] at hc
        obtain ⟨d, hd, rfl⟩ := List.mem_map.1 hc
        exact hI d (by rw [hp]; simp [hd]))
      (by
        intro c hc
        obtain ⟨d, hd, rfl⟩ := List.mem_map.1 hc
        exact hl d hd)
    obtain ⟨x', e8, e9⟩ := push_table (asts := asts0) (a := ⟨⟨s1.storage.length + (ctd rg.level loose).length,
      run.length + mid.length, 1⟩, key, eq, val⟩) hx5
    refine ⟨mid, u, .inTable hx4 hx3 (a := ⟨⟨s1.storage.length + (ctd rg.level loose).length,
      run.length + mid.length, 1⟩, key, eq, val⟩) rfl e9 (by simp [ctd]) (by rw [e1, e8]) e2, e3, e4, e5, e6, e7⟩

end Verif.Toml
