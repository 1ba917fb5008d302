import Verif.Toml.SoftLoop
import Verif.Toml.DamageTop

/-! # Documents with damaged entries -/

namespace Verif.Toml
open Verif Verif.Spec.Toml

variable {E : Env} {s s' s1 s2 : PS} {pre : Str} {toks : List Token} {es0 : List Error} {n : Nat} {r : RootSt}

/-! ## Assignments -/

theorem rootValue_soft (hE : EnvEof E) (hC : Cx E s) {r r' : RootSt} {key : Key} {eq : Pos}
    {b : Bool} (hR : RI b r.asts) {vt rest : List Tok} {P : Pat} {fs : List Fault} (hv : Soft 99 vt P fs)
    (hV : V E s = vt ++ rest) (hf : Follow rest) (h : rootValue E r key eq s = .ok r' s') :
    ∃ v, Fits P v ∧ V E s' = rest ∧ FoundIn fs s.errors s' ∧ its r'.asts = its r.asts ++ [.keyVal (keyNames key) v] ∧
      RI b r'.asts := by
  unfold rootValue at h
  obtain ⟨pos, s1, h1, h⟩ := bind_inv h
  have w1 := hC.ate (still_findAssoc _ _) (quiet_findAssoc _ _) h1
  obtain ⟨o, s2, h2, h⟩ := bind_inv h
  have w2 := w1.cx.ate (still_loose _ _) (quiet_loose _ _) h2
  obtain ⟨-, o1, o2, o3⟩ := looseComments_items hR h2
  clear h2
  obtain ⟨asts, level⟩ := o
  dsimp only at h o1 o2 o3
  obtain ⟨cm, s3, h3, h⟩ := bind_inv h
  have w3 := w2.cx.ate (still_storeComments _ _ _) (quiet_storeComments _ _ _) h3
  have w := w1.trans (w2.trans w3)
  obtain ⟨rv, s4, h4, h⟩ := bind_inv h
  obtain ⟨val, rfl, hval, w4, e4, -⟩ := parseValue_soft (d := RECURSION_LIMIT + 2) (level := level) hE
    (by rw [o3]; cases b <;> simp) hv _ _ _ _ w3.cx (w.left (a := []) hV) (.inl hf) h4
  dsimp only at h
  rw [bind_nextId] at h
  obtain ⟨cm2, -, h⟩ := bind_lift_inv h
  obtain ⟨rfl, rfl⟩ := pure_inv h
  obtain ⟨p1, p2⟩ := pushAssignment_items o1 ⟨cm2, key, eq, val⟩
  refine ⟨valueOf val, hval, w4.left (w.left (a := []) hV), by rw [← w.errs]; exact e4, ?_, p1⟩
  rw [p2, o2]
  simp [assignmentItem]

theorem rootAssignment_soft (hE : EnvEof E) (hC : Cx E s) {r r' : RootSt} {b : Bool} (hR : RI b r.asts)
    (hr : r.newlineRequired = false) {kt vt rest : List Tok} {k : List Str} {p : Pos} {P : Pat} {fs : List Fault}
    (hk : KeyToks kt k) (hv : Soft 99 vt P fs) (hV : V E s = kt ++ (.punct '=', p) :: (vt ++ rest)) (hf : Follow rest)
    (h : rootAssignment E (pk E s) r s = .ok r' s') :
    ∃ v, Fits P v ∧ V E s' = rest ∧ FoundIn fs s.errors s' ∧ its r'.asts = its r.asts ++ [.keyVal k v] ∧ RI b r'.asts := by
  unfold rootAssignment at h
  rw [bind_mark] at h
  obtain ⟨kr, s1, h1, h⟩ := bind_inv h
  obtain ⟨key, rfl, h2, w1⟩ := parseKey_complete hE hC hk hV (noDot_eq _ _) h1
  dsimp only at h
  have hV1 := w1.left hV
  unfold rootEq at h
  rw [bind_peek, if_pos (ty_eq w1.cx hV1), bind_next, hr, bind_ok checkNewline_false, if_pos rfl] at h
  have w2 := w1.cx.eat hV1
  obtain ⟨v, e1, e2, e3, e4, e5⟩ := rootValue_soft hE w2.cx hR hv (w2.left (r := vt ++ rest) hV1) hf h
  rw [h2] at e4
  refine ⟨v, e1, e2, ?_, e4, e5⟩
  have : s1.adv.errors = s.errors := by rw [w2.errs, w1.errs]
  rw [← this]
  exact e3

/-! ## Lines -/

theorem later_soft (h : LoopAt E toks es0 n r s) (hr : r.newlineRequired = false) {kt vt rest : List Tok} {k : List Str}
    {p : Pos} {P : Pat} {fs : List Fault} (hk : KeyToks kt k) (hv : Soft 99 vt P fs)
    (hV : V E s = kt ++ (.punct '=', p) :: (vt ++ rest)) (hf : Follow rest) :
    ∃ n2 r2 s2 v, Later E toks es0 n r s [.keyVal k v] n2 r2 s2 ∧ Fits P v ∧ V E s2 = rest ∧ FoundIn fs s.errors s2 := by
  have hC := h.cx
  have hE := h.eof
  obtain ⟨pre, hG, hI⟩ := h.at_
  obtain ⟨c, hR⟩ := h.ri
  obtain ⟨n, rfl⟩ : ∃ m, n = m + 1 := ⟨n - 1, by have := h.fuel; omega⟩
  have h3 := rootAssignment_post (P := False) hG hI (by
    rcases key_not_sl hC hk hV with ⟨id, h⟩ | ⟨id, h⟩ <;> rw [h] <;> rfl)
  obtain ⟨r1, s1, h1, h2⟩ := h3.run
  obtain ⟨v, e1, e2, e3, e4, e5⟩ := rootAssignment_soft hE hC hR hr hk hv hV hf h1
  refine ⟨n, r1, s1, v, (later_of_round h.fuel ?_ h1 h2 e5 e4).1, e1, e2, e3⟩
  conv => lhs; unfold rootLoop
  rw [bind_peek]
  rcases key_not_sl hC hk hV with ⟨id, h⟩ | ⟨id, h⟩ <;> rw [h]

theorem fitsItems_right : ∀ is : List Item, FitsItems (is.map .item) is
  | [] => .nil
  | _ :: is => .cons .item (fitsItems_right is)

theorem later_softLine (h : LoopAt E toks es0 n r s) (hr : r.newlineRequired = false) {ts rest : List Tok}
    {qs : List ItemPat} {fs : List Fault} (hx : SoftLine ts qs fs) (hV : V E s = ts ++ rest) (hf : LineEnd rest) :
    ∃ n2 r2 s2 is, Later E toks es0 n r s is n2 r2 s2 ∧ FitsItems qs is ∧ V E s2 = rest ∧ FoundIn fs s.errors s2 := by
  cases hx with
  | right hx =>
    obtain ⟨n2, r2, s2, h1, h2, h3⟩ := later_line h hr hx hV hf
    exact ⟨n2, r2, s2, _, h1, fitsItems_right _, h2, .none h3⟩
  | keyVal hk hv =>
    rename_i kt k p ts P
    obtain ⟨n2, r2, s2, v, h1, h2, h3, h4⟩ := later_soft (rest := rest) (p := p) h hr hk hv (by rw [hV]; simp) hf.follow
    exact ⟨n2, r2, s2, _, h1, .cons (.keyVal h2) .nil, h3, h4⟩
  | comment hk hv =>
    rename_i kt k p ts P x q
    obtain ⟨n1, r1, s1, v, h1, h2, h3, h4⟩ := later_soft (rest := (.comment x, q) :: rest) (p := p) h hr hk hv (by rw [hV]; simp)
      follow_comment
    obtain ⟨n2, r2, s2, g1, g2, g3⟩ := later_comment h1.at_ h3
    exact ⟨n2, r2, s2, _, h1.trans g1, by simpa using FitsItems.cons (.keyVal h2) .nil, g2, h4.same g3⟩

/-! ## The loop -/

/-- The tokens of a document whose lines may have damaged entries, or be damaged altogether. -/
inductive SoftParts (E : Env) : List Token → List (List ItemPat ⊕ Nat) → List Fault → Prop
  | softEnd {ts is fs} : SoftLine (ts.map (vw E)) is fs → SoftParts E ts [.inl is] fs
  | badEnd {ts ℓ} : (∀ t ∈ ts, TokOn E ℓ t) → Arr false ts → curls ts ≤ 99 → E.eof.start.line = ℓ →
      SoftParts E ts [.inr ℓ] []
  | soft {a t ts is fs ps fs'} : SoftLine (a.map (vw E)) is fs → t.ty = .newline → SoftParts E ts ps fs' →
      SoftParts E (a ++ t :: ts) (.inl is :: ps) (fs ++ fs')
  | bad {a t ts ℓ ps fs} : (∀ t ∈ a, TokOn E ℓ t) → Arr false a → curls a ≤ 99 → t.ty = .newline →
      t.start.line = ℓ → SoftParts E ts ps fs → SoftParts E (a ++ t :: ts) (.inr ℓ :: ps) fs

theorem loop_softParts {ts : List Token} {ps : List (List ItemPat ⊕ Nat)} {fs : List Fault} (hp : SoftParts E ts ps fs) :
    ∀ {n : Nat} {r : RootSt} {s : PS}, LoopAt E toks es0 n r s → r.newlineRequired = false → s.rest = ts →
    ∃ r' s' is new, rootLoop E n r s = .ok r' s' ∧ its r'.asts = its r.asts ++ is ∧ FitsDoc ps is ∧
      s'.errors = s.errors ++ new ∧ ∀ e ∈ new, FaultAt ps fs e.span.start := by
  induction hp with
  | @softEnd ts is fs hx =>
    intro n r s h hr hts
    obtain ⟨n2, r2, s2, is', h1, h2, h3, new, h4, h5⟩ := later_softLine (rest := []) h hr hx (by simp [V, hts]) (.inl rfl)
    have hs2 : s2.rest = [] := by simpa [V] using h3
    refine ⟨r2, s2, is', new, by rw [h1.loop, loop_end h1.at_ hs2], h1.its, ?_, h4, ?_⟩
    · simpa using FitsDoc.soft h2 .nil
    · intro e he; exact .inr (h5 e he)
  | @badEnd ts ℓ g1 g2 g3 g4 =>
    intro n r s h hr hts
    obtain ⟨n2, r2, s2, is, h1, h2, new, h3, h4⟩ := later_bad (ℓ := ℓ) (b := []) (k := 99) (by omega) _ (Nat.lt_succ_self _) h
      ⟨h.eof, .inl ⟨rfl, g4⟩, h.cx, ⟨ts, by simp [hts], g1, g2, g3⟩, [], by simp, by simp⟩
    refine ⟨r2, s2, is, new, by rw [h1.loop, loop_end h1.at_ h2], h1.its, ?_, h3, ?_⟩
    · simpa using FitsDoc.damaged (ℓ := ℓ) (is := is) .nil
    · intro e he; left; rw [h4 e he]; simp
  | @soft a t ts is fs ps fs' hx ht _ ih =>
    intro n r s h hr hts
    obtain ⟨n2, r2, s2, is1, h1, h2, h3, new1, h4, h5⟩ := later_softLine (rest := (t :: ts).map (vw E)) h hr hx (by simp [V, hts])
      (.inr ⟨_, _, by rw [List.map_cons, vw_nl ht]⟩)
    obtain ⟨u, hu⟩ := h1.rest
    obtain ⟨n3, s3, k1, k2, k3⟩ := later_newline h1.at_ (rest_of_view (hts.symm.trans hu) h3) ht
    have k4 := h1.trans k1
    obtain ⟨r', s', is', new, f1, f2, f3, f4, f5⟩ := ih k4.at_ rfl k2
    refine ⟨r', s', is1 ++ is', new1 ++ new, by rw [k4.loop, f1], ?_, .soft h2 f3, by rw [f4, k3, h4]; simp, ?_⟩
    · rw [f2, k4.its]; simp
    · intro e he
      rcases List.mem_append.1 he with he | he
      · obtain ⟨f, m1, m2⟩ := h5 e he
        exact .inr ⟨f, by simp [m1], m2⟩
      · rcases f5 e he with hh | ⟨f, m1, m2⟩
        · exact .inl (by simp [hh])
        · exact .inr ⟨f, by simp [m1], m2⟩
  | @bad a t ts ℓ ps fs g1 g2 g3 ht hl _ ih =>
    intro n r s h hr hts
    obtain ⟨n2, r2, s2, is, h1, h2, new1, h3, h4⟩ := later_bad (ℓ := ℓ) (b := t :: ts) (k := 99) (by omega) _ (Nat.lt_succ_self _) h
      ⟨h.eof, .inr ⟨_, _, rfl, ht, hl⟩, h.cx, ⟨a, hts, g1, g2, g3⟩, [], by simp, by simp⟩
    obtain ⟨n3, s3, k1, k2, k3⟩ := later_newline h1.at_ h2 ht
    have k4 := h1.trans k1
    obtain ⟨r', s', is', new, f1, f2, f3, f4, f5⟩ := ih k4.at_ rfl k2
    refine ⟨r', s', is ++ is', new1 ++ new, by rw [k4.loop, f1], ?_, .damaged f3, by rw [f4, k3, h3]; simp, ?_⟩
    · rw [f2, k4.its]; simp
    · intro e he
      rcases List.mem_append.1 he with he | he
      · left; rw [h4 e he]; simp
      · rcases f5 e he with hh | hh
        · exact .inl (by simp [hh])
        · exact .inr hh

/-! ## The text -/

/-- The tokens of a document with damaged entries. -/
theorem lex_soft {pre text : Str} {ps : List (List ItemPat ⊕ Nat)} {fs : List Fault} (h : SoftDoc pre text ps fs) :
    ∀ {L : Lexer} {vs : List (View × Pos)}, Main L pre [] text vs →
    ∃ Lf pre' vs' T, Fin' L text Lf ∧ Lf.input = L.input ∧ Main Lf pre' [] [] (vs ++ vs') ∧
      Lf.tokens = L.tokens ++ T ∧ L.strings <+: Lf.strings ∧
      (∃ es, Lf.errors = L.errors ++ es ∧ ∀ e ∈ es, .inr e.span.start.line ∈ ps) ∧
      ∀ E : Env, E.strings = Lf.strings → E.literals = Lf.literals → E.eof.start.line = Lf.lineIdx →
        SoftParts E T ps fs := by
  induction h with
  | @softEnd pre t ts is fs ht hl =>
    intro L vs hM
    obtain ⟨Lf, pre', T, h1, h2, h3, h4, h5⟩ := right_end _ (Nat.le_refl _) hM (by simpa using tokTo_nil.2 ht)
    refine ⟨Lf, pre', ts, T, h1, h3, h4, h5.tokens, h5.strings, ⟨[], by simp [h2], by simp⟩, ?_⟩
    intro E hE1 hE2 _
    refine .softEnd ?_
    have hv : T.map (resolve E.strings E.literals) = ts.map some := by
      have := h4.toks
      rw [h5.tokens, List.map_append, List.map_append] at this
      rw [hE1, hE2]
      exact List.append_inj_right this (by simpa using map_len hM.toks)
    rw [vws_of hv (by rw [hE1]; exact h5.closed rfl)]
    exact hl
  | @damagedEnd pre t ht =>
    intro L vs hM
    have hpos : L.lineIdx = (posOf pre).line := by simpa using hM.st.line
    obtain ⟨Lf, pre', a, vs', h1, h2, h3, h4, h5, h6, h7, h8⟩ := damaged_end _ (Nat.le_refl _) hM ht.left hpos (by
      intro hh
      rcases hM.lit with ⟨-, h, -⟩ | ⟨h, -⟩
      · exact absurd rfl h
      · rw [hh] at h; cases h)
    obtain ⟨es, e1, e2⟩ := h4.errors
    refine ⟨Lf, pre', vs', a, h1, h2, h3, h4.tokens, h4.strings, ⟨es, e1, fun e he => by rw [e2 e he]; simp⟩, ?_⟩
    intro E hE1 hE2 hE3
    exact .badEnd (fun t' ht' => TokOn.of h4 ht' (by rw [hE1]; exact List.prefix_refl _) (h5 t' ht')) h6
      (Nat.le_trans h7 ht.flat) (hE3.trans h8)
  | @soft pre t ts p is fs text ps fs' ht hl _ ih =>
    intro L vs hM
    obtain ⟨L1, pre1, T1, h1, h2, h3, h4, h5⟩ := right_chunk (R := text) _ (Nat.le_refl _) hM
      (by simpa using tokTo_ext text ht (.inr (by simp))) (.inl ⟨t, rfl⟩)
    have hpre : pre1 = pre ++ t ++ ['\n'] := by
      have e : pre1 ++ text = pre ++ t ++ ['\n'] ++ text := by
        have := h4.st.input
        rw [h3, hM.st.input] at this
        simpa using this.symm
      exact List.append_cancel_right e
    subst hpre
    obtain ⟨Lf, pre', vs2, T2, k1, k2, k3, k4, k5, ⟨es, k6, k7⟩, k8⟩ := ih h4
    refine ⟨Lf, pre', (ts ++ [(.newline, p)]) ++ vs2, T1 ++ T2, h1 Lf k1, k2.trans h3,
      by rw [← List.append_assoc]; exact k3, by rw [k4, h5.tokens, List.append_assoc], h5.strings.trans k5,
      ⟨es, by rw [k6, h2], fun e he => by simpa using k7 e he⟩, ?_⟩
    intro E hE1 hE2 hE3
    have hlen1 := map_len hM.toks
    have hlen2 : T1.length = (ts ++ [(View.newline, p)]).length := by
      have := map_len h4.toks
      rw [h5.tokens] at this
      simp only [List.length_append] at this ⊢
      omega
    have hv : T1.map (resolve E.strings E.literals) = (ts ++ [(View.newline, p)]).map some := by
      rw [hE1, hE2]
      refine mid_views (A := L.tokens) (C := T2) (va := vs) (vc := vs2) ?_ hlen1 hlen2
      have := k3.toks
      rw [k4, h5.tokens] at this
      exact this
    have hT1 : T1 ≠ [] := by intro e; rw [e] at hlen2; simp at hlen2
    obtain ⟨a, tk, rfl⟩ : ∃ a tk, T1 = a ++ [tk] := ⟨T1.dropLast, T1.getLast hT1, (List.dropLast_concat_getLast hT1).symm⟩
    rw [List.map_append, List.map_append] at hv
    have v1 := List.append_inj_left' hv (by simp)
    have v2 := List.append_inj_right' hv (by simp)
    simp only [List.map_cons, List.map_nil, List.cons.injEq, and_true] at v2
    rw [List.append_assoc]
    refine .soft ?_ (resolve_newline v2) (k8 E hE1 hE2 hE3)
    rw [vws_of v1 (fun t' ht' => ?_)]
    · exact hl
    · rw [hE1]
      exact (h5.closed rfl t' (by simp [ht'])).mono k5
  | @damaged pre t text ps fs ht _ ih =>
    intro L vs hM
    have hpos : L.lineIdx = (posOf pre).line := by simpa using hM.st.line
    obtain ⟨L1, pre1, a, nl, vs1, h1, h2, h3, h4, h5, h6, h7, h8⟩ := damaged_chunk (R := text) _ (Nat.le_refl _) hM ht.left hpos (by
      intro hh
      rcases hM.lit with ⟨-, h, -⟩ | ⟨h, -⟩
      · exact absurd rfl h
      · rw [hh] at h; cases h)
    have hpre : pre1 = pre ++ t ++ ['\n'] := by
      have e : pre1 ++ text = pre ++ t ++ ['\n'] ++ text := by
        have := h3.st.input
        rw [h2, hM.st.input] at this
        simpa using this.symm
      exact List.append_cancel_right e
    subst hpre
    obtain ⟨es0, e1, e2⟩ := h4.errors
    obtain ⟨Lf, pre', vs2, T2, k1, k2, k3, k4, k5, ⟨es, k6, k7⟩, k8⟩ := ih h3
    refine ⟨Lf, pre', vs1 ++ vs2, (a ++ [nl]) ++ T2, h1 Lf k1, k2.trans h2,
      by rw [← List.append_assoc]; exact k3, by rw [k4, h4.tokens, List.append_assoc], h4.strings.trans k5,
      ⟨es0 ++ es, by rw [k6, e1, List.append_assoc], ?_⟩, ?_⟩
    · intro e he
      rcases List.mem_append.1 he with he | he
      · rw [e2 e he]; simp
      · simpa using .inr (k7 e he)
    · intro E hE1 hE2 hE3
      rw [List.append_assoc]
      refine .bad (fun t' ht' => TokOn.of h4 (by simp [ht']) (by rw [hE1]; exact k5) (h6 t' ht')) h7
        (Nat.le_trans h8 ht.flat) h5 (h4.on nl (by simp)).1 (k8 E hE1 hE2 hE3)

/-- Parsing a document with damaged entries. -/
theorem parse_soft {input : Str} {ps : List (List ItemPat ⊕ Nat)} {fs : List Fault} (h : SoftDoc [] input ps fs) (ovf : Bool) :
    ∃ a s, parseDocument ovf input = .ok a s ∧ FitsDoc ps (a.asts.flatMap astItems) ∧
      ∀ e ∈ s.errors, FaultAt ps fs e.span.start := by
  obtain ⟨T, es, vs', h0, h1, h2, h3, h4, h5, -, h6, h7⟩ := lex_post input
  have hM : Main (Lexer.new input) [] [] input [] :=
    ⟨St.new input, rfl, .nil, .inr ⟨rfl, rfl⟩, by simp, by simp [Lexer.new], .nil, by simp [Lexer.new]⟩
  obtain ⟨Lf, pre', vs2, T2, k1, k2, k3, k4, k5, ⟨es2, k6, k7⟩, k8⟩ := lex_soft h hM
  have hlex := h0
  unfold lex at hlex
  have hrun := k1 (input.length + 1) (by omega)
  simp only [Option.bind_eq_bind] at hlex
  rw [← Option.bind_assoc, hrun] at hlex
  simp only [Option.bind_some, Option.bind_eq_some_iff, Option.pure_def, Option.some.injEq, Prod.mk.injEq] at hlex
  obtain ⟨p, hp, rfl, rfl⟩ := hlex
  have hp' : p.line = Lf.lineIdx := pos_line hp
  have hG := good_start (ovf := ovf) (es := Lf.errors) h1 h2 h3 h4 h5
  have hparts := k8 (envOf ovf input ⟨Lf.tokens, Lf.strings, Lf.literals, ⟨.eof, p⟩⟩) rfl rfl hp'
  have htok : Lf.tokens = T2 := by rw [k4]; rfl
  have herr : Lf.errors = es2 := by rw [k6]; rfl
  obtain ⟨r, s, is, new, f1, f2, f3, f4, f5⟩ := loop_softParts hparts
    (toks := Lf.tokens) (es0 := Lf.errors) (n := Lf.tokens.length + 1) (r := ⟨[], [], false⟩)
    (s := ⟨[], Lf.tokens, Lf.errors, []⟩) ⟨⟨[], hG, rootInv_start⟩, by simp, ⟨_, RI.nil⟩⟩ rfl htok
  refine ⟨⟨r.asts ++ r.prevComments.map Ast.comment, s.storage⟩, s, ?_, ?_, ?_⟩
  · unfold parseDocument
    rw [h0]
    dsimp only [parse]
    rw [bind_budget, bind_ok f1]
    rfl
  · show FitsDoc ps (its _)
    rw [its_append, its_comments, List.append_nil, f2]
    exact f3
  · intro e he
    rw [f4] at he
    rcases List.mem_append.1 he with he | he
    · exact .inl (k7 e (by rw [← herr]; exact he))
    · exact f5 e he

end Verif.Toml
