import Verif.Toml.LexDamage
import Verif.Toml.CompTop

/-! # Documents with damaged lines -/

namespace Verif.Toml
open Verif Verif.Spec.Toml

variable {L Lf : Lexer} {E : Env}

theorem vw_of {t : Token} {v : View × Pos} (h : resolve E.strings E.literals t = some v) (hc : Closed E.strings t) :
    vw E t = v := by
  have : unclosed E t = false := by
    unfold unclosed
    split
    · rename_i id hid
      obtain ⟨st, h1, h2⟩ := hc id hid
      rw [h1]
      simpa using h2
    · rfl
  unfold vw
  rw [this, h]
  rfl

theorem vws_of : ∀ {ts : List Token} {vs : List (View × Pos)},
    ts.map (resolve E.strings E.literals) = vs.map some → (∀ t ∈ ts, Closed E.strings t) → ts.map (vw E) = vs := by
  intro ts
  induction ts with
  | nil => intro vs h _; cases vs with
    | nil => rfl
    | cons => cases h
  | cons t ts ih =>
    intro vs h hc
    cases vs with
    | nil => cases h
    | cons v vs =>
      simp only [List.map_cons, List.cons.injEq] at h ⊢
      exact ⟨vw_of h.1 (hc t (by simp)), ih h.2 (fun t ht => hc t (by simp [ht]))⟩

theorem resolve_newline {S : List StringToken} {I : List Str} {t : Token} {p : Pos}
    (h : resolve S I t = some (.newline, p)) : t.ty = .newline := by
  unfold resolve at h
  split at h <;> simp_all

theorem map_len {α β : Type} {f : α → Option β} {a : List α} {b : List β} (h : a.map f = b.map some) : a.length = b.length := by
  have := congrArg List.length h
  simpa using this

/-- The views of the tokens in between. -/
theorem mid_views {S : List StringToken} {I : List Str} {A B C : List Token} {va vb vc : List (View × Pos)}
    (h : (A ++ B ++ C).map (resolve S I) = (va ++ vb ++ vc).map some) (hA : A.length = va.length)
    (hB : B.length = vb.length) : B.map (resolve S I) = vb.map some := by
  simp only [List.map_append] at h
  have h1 := List.append_inj_left h (by simp [hA, hB])
  exact List.append_inj_right h1 (by simp [hA])

theorem _root_.Verif.Spec.Toml.AnyLine.left {t : Str} (h : AnyLine t) : LineLeft false t :=
  ⟨h.oneLine, h.noBasic, h.noLiteral, h.noArray, by simp⟩

theorem TokOn.of {ℓ : Nat} {L1 : Lexer} {T : List Token} {t : Token} (h : LexOn ℓ L L1 T) (ht : t ∈ T)
    (hs : L1.strings <+: E.strings) (hn : t.ty ≠ .newline) : TokOn E ℓ t := by
  obtain ⟨g1, g2, g3⟩ := h.on t ht
  refine ⟨hn, g2, g1, fun id st hid hst => ?_⟩
  obtain ⟨st', k1, k2⟩ := g3 id hid
  obtain ⟨z, hz⟩ := hs
  rw [← hz, List.getElem?_append_left (List.getElem?_eq_some_iff.1 k1).1, k1] at hst
  cases hst
  exact k2

/-- The tokens of a document with damaged lines. -/
theorem lex_damaged {pre text : Str} {ps : List (List Item ⊕ Nat)} (h : Damaged pre text ps) :
    ∀ {L : Lexer} {vs : List (View × Pos)}, Main L pre [] text vs →
    ∃ Lf pre' vs' T, Fin' L text Lf ∧ Lf.input = L.input ∧ Main Lf pre' [] [] (vs ++ vs') ∧
      Lf.tokens = L.tokens ++ T ∧ L.strings <+: Lf.strings ∧
      (∃ es, Lf.errors = L.errors ++ es ∧ ∀ e ∈ es, .inr e.span.start.line ∈ ps) ∧
      ∀ E : Env, E.strings = Lf.strings → E.literals = Lf.literals → E.eof.start.line = Lf.lineIdx →
        Parts E T ps := by
  induction h with
  | @rightEnd pre t ts is ht hl =>
    intro L vs hM
    obtain ⟨Lf, pre', T, h1, h2, h3, h4, h5⟩ := right_end _ (Nat.le_refl _) hM (by simpa using tokTo_nil.2 ht)
    refine ⟨Lf, pre', ts, T, h1, h3, h4, h5.tokens, h5.strings, ⟨[], by simp [h2], by simp⟩, ?_⟩
    intro E hE1 hE2 _
    refine .goodEnd ?_
    have hv : T.map (resolve E.strings E.literals) = ts.map some := by
      have := h4.toks
      rw [h5.tokens, List.map_append, List.map_append] at this
      rw [hE1, hE2]
      exact List.append_inj_right this (by simpa using map_len hM.toks)
    rw [vws_of hv (by rw [hE1]; exact h5.closed rfl)]
    exact hl
  | @damagedEnd pre t ht =>
    intro L vs hM
    have hpos : L.lineIdx = (posOf pre).line := by simpa using hM.st.line
    obtain ⟨Lf, pre', a, vs', h1, h2, h3, h4, h5, h6, h7, h8⟩ := damaged_end _ (Nat.le_refl _) hM ht.left hpos (by
      intro hh
      rcases hM.lit with ⟨-, h, -⟩ | ⟨h, -⟩
      · exact absurd rfl h
      · rw [hh] at h; cases h)
    obtain ⟨es, e1, e2⟩ := h4.errors
    refine ⟨Lf, pre', vs', a, h1, h2, h3, h4.tokens, h4.strings, ⟨es, e1, fun e he => by rw [e2 e he]; simp⟩, ?_⟩
    intro E hE1 hE2 hE3
    exact .badEnd (fun t' ht' => TokOn.of h4 ht' (by rw [hE1]; exact List.prefix_refl _) (h5 t' ht')) h6
      (Nat.le_trans h7 ht.flat) (hE3.trans h8)
  | @right pre t ts p is text ps ht hl _ ih =>
    intro L vs hM
    obtain ⟨L1, pre1, T1, h1, h2, h3, h4, h5⟩ := right_chunk (R := text) _ (Nat.le_refl _) hM
      (by simpa using tokTo_ext text ht (.inr (by simp))) (.inl ⟨t, rfl⟩)
    have hpre : pre1 = pre ++ t ++ ['\n'] := by
      have e : pre1 ++ text = pre ++ t ++ ['\n'] ++ text := by
        have := h4.st.input
        rw [h3, hM.st.input] at this
        simpa using this.symm
      exact List.append_cancel_right e
    subst hpre
    obtain ⟨Lf, pre', vs2, T2, k1, k2, k3, k4, k5, ⟨es, k6, k7⟩, k8⟩ := ih h4
    refine ⟨Lf, pre', (ts ++ [(.newline, p)]) ++ vs2, T1 ++ T2, h1 Lf k1, k2.trans h3,
      by rw [← List.append_assoc]; exact k3, by rw [k4, h5.tokens, List.append_assoc], h5.strings.trans k5,
      ⟨es, by rw [k6, h2], fun e he => by simpa using k7 e he⟩, ?_⟩
    intro E hE1 hE2 hE3
    have hlen1 := map_len hM.toks
    have hlen2 : T1.length = (ts ++ [(View.newline, p)]).length := by
      have := map_len h4.toks
      rw [h5.tokens] at this
      simp only [List.length_append] at this ⊢
      omega
    have hv : T1.map (resolve E.strings E.literals) = (ts ++ [(View.newline, p)]).map some := by
      rw [hE1, hE2]
      refine mid_views (A := L.tokens) (C := T2) (va := vs) (vc := vs2) ?_ hlen1 hlen2
      have := k3.toks
      rw [k4, h5.tokens] at this
      exact this
    have hT1 : T1 ≠ [] := by intro e; rw [e] at hlen2; simp at hlen2
    obtain ⟨a, tk, rfl⟩ : ∃ a tk, T1 = a ++ [tk] := ⟨T1.dropLast, T1.getLast hT1, (List.dropLast_concat_getLast hT1).symm⟩
    rw [List.map_append, List.map_append] at hv
    have v1 := List.append_inj_left' hv (by simp)
    have v2 := List.append_inj_right' hv (by simp)
    simp only [List.map_cons, List.map_nil, List.cons.injEq, and_true] at v2
    rw [List.append_assoc]
    refine .good ?_ (resolve_newline v2) (k8 E hE1 hE2 hE3)
    rw [vws_of v1 (fun t' ht' => ?_)]
    · exact hl
    · rw [hE1]
      exact (h5.closed rfl t' (by simp [ht'])).mono k5
  | @damaged pre t text ps ht _ ih =>
    intro L vs hM
    have hpos : L.lineIdx = (posOf pre).line := by simpa using hM.st.line
    obtain ⟨L1, pre1, a, nl, vs1, h1, h2, h3, h4, h5, h6, h7, h8⟩ := damaged_chunk (R := text) _ (Nat.le_refl _) hM ht.left hpos (by
      intro hh
      rcases hM.lit with ⟨-, h, -⟩ | ⟨h, -⟩
      · exact absurd rfl h
      · rw [hh] at h; cases h)
    have hpre : pre1 = pre ++ t ++ ['\n'] := by
      have e : pre1 ++ text = pre ++ t ++ ['\n'] ++ text := by
        have := h3.st.input
        rw [h2, hM.st.input] at this
        simpa using this.symm
      exact List.append_cancel_right e
    subst hpre
    obtain ⟨es0, e1, e2⟩ := h4.errors
    obtain ⟨Lf, pre', vs2, T2, k1, k2, k3, k4, k5, ⟨es, k6, k7⟩, k8⟩ := ih h3
    refine ⟨Lf, pre', vs1 ++ vs2, (a ++ [nl]) ++ T2, h1 Lf k1, k2.trans h2,
      by rw [← List.append_assoc]; exact k3, by rw [k4, h4.tokens, List.append_assoc], h4.strings.trans k5,
      ⟨es0 ++ es, by rw [k6, e1, List.append_assoc], ?_⟩, ?_⟩
    · intro e he
      rcases List.mem_append.1 he with he | he
      · rw [e2 e he]; simp
      · simpa using .inr (k7 e he)
    · intro E hE1 hE2 hE3
      rw [List.append_assoc]
      refine .bad (fun t' ht' => TokOn.of h4 (by simp [ht']) (by rw [hE1]; exact k5) (h6 t' ht')) h7
        (Nat.le_trans h8 ht.flat) h5 (h4.on nl (by simp)).1 (k8 E hE1 hE2 hE3)

/-- Parsing a document with damaged lines. -/
theorem parse_damaged {input : Str} {ps : List (List Item ⊕ Nat)} (h : Damaged [] input ps) (ovf : Bool) :
    ∃ a s, parseDocument ovf input = .ok a s ∧ Filled ps (a.asts.flatMap astItems) ∧
      ∀ e ∈ s.errors, .inr e.span.start.line ∈ ps := by
  obtain ⟨T, es, vs', h0, h1, h2, h3, h4, h5, -, h6, h7⟩ := lex_post input
  have hM : Main (Lexer.new input) [] [] input [] :=
    ⟨St.new input, rfl, .nil, .inr ⟨rfl, rfl⟩, by simp, by simp [Lexer.new], .nil, by simp [Lexer.new]⟩
  obtain ⟨Lf, pre', vs2, T2, k1, k2, k3, k4, k5, ⟨es2, k6, k7⟩, k8⟩ := lex_damaged h hM
  have hlex := h0
  unfold lex at hlex
  have hrun := k1 (input.length + 1) (by omega)
  simp only [Option.bind_eq_bind] at hlex
  rw [← Option.bind_assoc, hrun] at hlex
  simp only [Option.bind_some, Option.bind_eq_some_iff, Option.pure_def, Option.some.injEq, Prod.mk.injEq] at hlex
  obtain ⟨p, hp, rfl, rfl⟩ := hlex
  have hp' : p.line = Lf.lineIdx := pos_line hp
  have hG := good_start (ovf := ovf) (es := Lf.errors) h1 h2 h3 h4 h5
  have hparts := k8 (envOf ovf input ⟨Lf.tokens, Lf.strings, Lf.literals, ⟨.eof, p⟩⟩) rfl rfl hp'
  have htok : Lf.tokens = T2 := by rw [k4]; rfl
  have herr : Lf.errors = es2 := by rw [k6]; rfl
  obtain ⟨r, s, is, new, f1, f2, f3, f4, f5⟩ := loop_parts hparts
    (toks := Lf.tokens) (es0 := Lf.errors) (n := Lf.tokens.length + 1) (r := ⟨[], [], false⟩)
    (s := ⟨[], Lf.tokens, Lf.errors, []⟩) ⟨⟨[], hG, rootInv_start⟩, by simp, ⟨_, RI.nil⟩⟩ rfl htok
  refine ⟨⟨r.asts ++ r.prevComments.map Ast.comment, s.storage⟩, s, ?_, ?_, ?_⟩
  · unfold parseDocument
    rw [h0]
    dsimp only [parse]
    rw [bind_budget, bind_ok f1]
    rfl
  · show Filled ps (its _)
    rw [its_append, its_comments, List.append_nil, f2]
    exact f3
  · intro e he
    rw [f4] at he
    rcases List.mem_append.1 he with he | he
    · exact k7 e (by rw [← herr]; exact he)
    · exact f5 e he

end Verif.Toml
