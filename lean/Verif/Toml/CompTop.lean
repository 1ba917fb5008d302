import Verif.Toml.CompRoot

/-! # The parser and the grammar -/

namespace Verif.Toml
open Verif Verif.Spec.Toml

theorem escape_nonl {e : Str} {c : Char} (h : Escape e c) : '\n' ∉ e := by
  have hd : ∀ {x : Str}, (∀ c ∈ x, digitOf c < 16) → '\n' ∉ x := by
    intro x h hm
    exact absurd (h _ hm) (by decide)
  cases h with
  | unicode4 _ hh _ => simp [hd hh]
  | unicode8 _ hh _ => simp [hd hh]
  | _ => decide

theorem strTail_body {q : Quote} {src txt rest : Str} (h : StrTail q src txt rest) (hm : isMulti q = false) :
    ∃ body, src = body ++ rest ∧ '\n' ∉ body := by
  have hq : quoteChar q ≠ '\n' := by cases q <;> decide
  induction h with
  | close _ => exact ⟨[quoteChar q], rfl, by simpa using hq.symm⟩
  | @plain c src txt rest hp _ ih =>
    obtain ⟨b, rfl, hb⟩ := ih
    refine ⟨c :: b, rfl, ?_⟩
    have : c ≠ '\n' := by
      rintro rfl
      rcases hp.1 with h | ⟨h, -⟩ <;> exact absurd h (by decide)
    simp [hb, this.symm]
  | @escape e c src txt rest _ he _ ih =>
    obtain ⟨b, rfl, hb⟩ := ih
    exact ⟨'\\' :: (e ++ b), by simp, by simp [escape_nonl he, hb]⟩
  | lineEnding h _ => subst h; cases hm
  | closeMulti h => rw [h] at hm; cases hm
  | newline h => rw [h] at hm; cases hm
  | crlf h => rw [h] at hm; cases hm
  | oneQuote h => rw [h] at hm; cases hm
  | twoQuotes h => rw [h] at hm; cases hm

theorem stringAt_line {q : Quote} {s lit txt rest : Str} (h : StringAt q s lit txt rest)
    (hm : isMulti q = false) : '\n' ∉ lit := by
  have hq : quoteChar q ≠ '\n' := by cases q <;> decide
  cases h with
  | single _ _ ht he =>
    obtain ⟨b, rfl, hb⟩ := strTail_body ht hm
    rw [← List.cons_append] at he
    rw [← List.append_cancel_right he]
    simp [hb, hq.symm]
  | multi h => rw [h] at hm; cases hm

theorem tokenized_lines {pre s : Str} {ts : List Tok} (h : Tokenized pre s ts) : LineStr ts := by
  induction h with
  | nil => intro t ht; cases ht
  | blank _ _ ih => exact ih
  | newline _ _ ih | punct _ _ ih | word _ _ _ _ ih | comment _ _ _ ih =>
    intro t ht q lit txt he
    rcases List.mem_cons.1 ht with rfl | ht
    · cases he
    · exact ih t ht q lit txt he
  | string hs _ ih =>
    intro t ht q lit txt he
    rcases List.mem_cons.1 ht with rfl | ht
    · cases he; exact stringAt_line hs
    · exact ih t ht q lit txt he

theorem start_view {ovf : Bool} {input : Str} {T : Tokens} {es : List Error} {vs : List Tok}
    (h : T.tokens.map (resolve T.strings T.literals) = vs.map some)
    (hc : ∀ st ∈ T.strings, st.textOffset.endChar ≠ 0) :
    V (envOf ovf input T) ⟨[], T.tokens, es, []⟩ = vs := by
  have hu : ∀ t, unclosed (envOf ovf input T) t = false := by
    intro t
    unfold unclosed
    split
    · split
      · rename_i st hst
        simpa using hc _ (List.mem_of_getElem? hst)
      · rfl
    · rfl
  have hw : vw (envOf ovf input T) = fun t => (resolve T.strings T.literals t).getD (.newline, t.start) := by
    funext t
    simp only [vw, hu, if_false, Bool.false_eq_true]
    rfl
  unfold V
  rw [hw]
  dsimp only
  generalize T.tokens = l at h
  induction l generalizing vs with
  | nil => cases vs with
    | nil => rfl
    | cons v vs => simp at h
  | cons t ts ih =>
    cases vs with
    | nil => simp at h
    | cons v vs =>
      simp only [List.map_cons, List.cons.injEq] at h ⊢
      exact ⟨by rw [h.1]; rfl, ih h.2⟩

/-- Assignments are in front of headers. -/
theorem rootFirst_of {asts : List Ast} (h : asts.Pairwise (fun x y => isTab x = true → isAsg y = false)) :
    RootFirst asts := by
  intro a x c he
  rw [he, List.pairwise_append] at h
  have h3 := h.2.2
  show hasHeader (its a) = false
  rw [hasHeader_its, List.any_eq_false]
  intro y hy hty
  have := h3 y hy (.assignment x) (by simp) hty
  cases this

theorem RI.end {b : Bool} {asts : List Ast} (h : RI b asts) (cs : List Comment) :
    RootFirst (asts ++ cs.map Ast.comment) := by
  apply rootFirst_of
  have hc : ∀ x ∈ cs.map Ast.comment, isAsg x = false := by
    intro x hx
    obtain ⟨c, -, rfl⟩ := List.mem_map.1 hx
    rfl
  rw [List.pairwise_append]
  refine ⟨h.first, ?_, fun x hx y hy _ => hc y hy⟩
  refine List.Pairwise.imp_of_mem (R := fun _ _ => True) (fun _ hb _ _ => hc _ hb) ?_
  exact List.pairwise_of_forall (fun _ _ => trivial)

theorem RI.nil : RI false [] := ⟨by simp, .inr ⟨rfl, by simp⟩⟩

theorem rootInv_start {E : Env} {toks : List Token} {es : List Error} :
    RootInv E toks es [] ⟨[], toks, es, []⟩ ⟨[], [], false⟩ := by
  refine ⟨by simp, by simp, by simp, by simp, by simp, fun _ => ?_, fun _ _ => .nil (List.prefix_refl _), by simp⟩
  simp [coms, PS.coms, astComments]

theorem parse_sound {ovf : Bool} {input : Str} {a : Asts} {s : PS}
    (h : parseDocument ovf input = .ok a s) (he : s.errors = []) :
    ∃ vs, Tokenized [] input vs ∧ Doc false vs (a.asts.flatMap astItems) ∧ RootFirst a.asts := by
  obtain ⟨T, es, vs, h0, h1, h2, h3, h4, h5, -, h6, h7⟩ := lex_post input
  obtain ⟨T', es', vs', h0', -, hp⟩ := parse_post ovf input
  rw [h0] at h0'
  cases h0'
  rw [h] at hp
  obtain ⟨new, hn, -⟩ := hp.2.2.1
  have hes : es = [] := by
    rw [he] at hn
    exact (List.append_eq_nil_iff.1 hn.symm).1
  subst hes
  have htok : Tokenized [] input vs := by
    rcases h6 with ⟨-, h6⟩ | ⟨h6, -⟩
    · exact (h6 vs).2 rfl
    · exact absurd rfl h6
  unfold parseDocument at h
  rw [h0] at h
  dsimp only [parse] at h
  rw [bind_budget] at h
  obtain ⟨r, s1, hr, h⟩ := bind_inv h
  have hE : EnvOk (envOf ovf input T) := ⟨⟨by simp [envOf, h1]⟩, h7 rfl⟩
  have hG := good_start (ovf := ovf) (es := []) h1 h2 h3 h4 h5
  have hr' : (⟨r.asts ++ r.prevComments.map Ast.comment, s1.storage⟩ : Asts) = a ∧ s1 = s := by
    have : Run.ok (⟨r.asts ++ r.prevComments.map Ast.comment, s1.storage⟩ : Asts) s1 = .ok a s := h
    cases this
    exact ⟨rfl, rfl⟩
  obtain ⟨rfl, rfl⟩ := hr'
  obtain ⟨is, i1, ⟨b', i2⟩, i3, i4, -⟩ := rootLoop_sound hE _ hG.cx RI.nil hr he
  refine ⟨vs, htok, ?_, i2.end _⟩
  have hd := i4 rfl
  rw [start_view h2 (h7 rfl)] at hd
  have : (r.asts ++ r.prevComments.map Ast.comment).flatMap astItems = is := by
    show its _ = _
    rw [its_append, its_comments, List.append_nil, i1]
    rfl
  rw [this]
  exact hd

theorem parse_complete {input : Str} {vs : List Tok} {is : List Item}
    (ht : Tokenized [] input vs) (hd : Doc false vs is) (ovf : Bool) :
    ∃ a s, parseDocument ovf input = .ok a s ∧ s.errors = [] ∧ a.asts.flatMap astItems = is := by
  obtain ⟨T, es, vs', h0, h1, h2, h3, h4, h5, -, h6, h7⟩ := lex_post input
  rcases h6 with ⟨rfl, h6⟩ | ⟨-, h6⟩
  case inr => exact absurd ht (h6 vs)
  have := (h6 vs).1 ht
  subst this
  have hE : EnvOk (envOf ovf input T) := ⟨⟨by simp [envOf, h1]⟩, h7 rfl⟩
  have hG := good_start (ovf := ovf) (es := []) h1 h2 h3 h4 h5
  have hv : V (envOf ovf input T) ⟨[], T.tokens, [], []⟩ = vs := start_view h2 (h7 rfl)
  obtain ⟨r, s, e1, e2, e3⟩ := rootLoop_complete (r := ⟨[], [], false⟩) hE (T.tokens.length + 1) hG rootInv_start (by simp) RI.nil
    (by rw [hv]; exact tokenized_lines ht) (by rw [hv]; exact doc_ahead hd)
  refine ⟨⟨r.asts ++ r.prevComments.map Ast.comment, s.storage⟩, s, ?_, e2, ?_⟩
  · unfold parseDocument
    rw [h0]
    dsimp only [parse]
    rw [bind_budget, bind_ok e1]
    rfl
  · show its _ = _
    rw [its_append, its_comments, List.append_nil, e3]
    rfl

end Verif.Toml
