import Verif.Toml.Places

/-! # Lemmas for the parser: keys and literals -/

namespace Verif.Toml
open Verif Verif.Spec.Toml

variable {α β : Type} {P : Prop} {E : Env} {toks : List Token} {es0 : List Error}
variable {pre p1 p2 : Str} {s s1 s2 : PS} {u v : List Token} {h : List Comment}

/-! ## Keys -/

theorem bareChar_iff {c : Char} : BareChar c ↔ isBareKeyChar c = true := by
  unfold BareChar isBareKeyChar isAlpha isDigit
  simp only [Bool.or_eq_true, decide_eq_true_eq, Bool.and_eq_true]
  grind

theorem findInvalidChar_some : ∀ (l : Str) (k i : Nat) (c : Char), findInvalidChar k l = some (i, c) →
    ∃ a b, l = a ++ c :: b ∧ i = k + blen a ∧ (∀ d ∈ a, BareChar d) ∧ ¬ BareChar c := by
  intro l
  induction l with
  | nil => intro k i c h; cases h
  | cons d l ih =>
    intro k i c h
    unfold findInvalidChar at h
    split at h
    · rename_i hd
      obtain ⟨a, b, h1, h2, h3, h4⟩ := ih _ _ _ h
      refine ⟨d :: a, b, by rw [h1]; rfl, by rw [h2, blen_cons]; omega, ?_, h4⟩
      intro e he
      rcases List.mem_cons.1 he with rfl | he
      · exact bareChar_iff.2 hd
      · exact h3 e he
    · rename_i hd
      simp only [Option.some.injEq, Prod.mk.injEq] at h
      obtain ⟨rfl, rfl⟩ := h
      exact ⟨[], l, rfl, by simp, by simp, fun hb => hd (bareChar_iff.1 hb)⟩

theorem bare_span {x y : Str} (hn : '\n' ∉ y) : Span.fromPosLen (posOf x) (blen y) = ⟨posOf x, posOf (x ++ y)⟩ := by
  rw [posOf_plus hn]; rfl

theorem bare_ident {input x y z : Str} {p : Pos} (hin : input = x ++ y ++ z) (hp : p = posOf x) (hy : y ≠ []) (hn : '\n' ∉ y) :
    IdentAt input (Ident.fromPlainLit y (Span.fromPosLen p (blen y))) := by
  subst hp
  refine ⟨⟨x, z, hin, rfl⟩, hy, hn, fun _ => rfl, x, [], y, [], z, by simpa using hin, by simp [Ident.fromPlainLit], ?_, ⟨rfl, rfl⟩, ?_, fun _ => rfl⟩
  · show Span.fromPosLen (posOf x) (blen y) = _
    simpa using bare_span (x := x) hn
  · have : subU (blen y) (0 + 0) = some (blen y) := by simp [subU]
    unfold Ident.textSpan Ident.fromPlainLit
    simp only [this, Option.bind_eq_bind, Option.bind_some, Option.pure_def, List.append_nil]
    exact congrArg some (bare_span (x := x) hn)

theorem quoted_ident {input x o t d z txt : Str} {q : Quote} {k : IdentKind} {p e : Pos} (hin : input = x ++ (o ++ t ++ d) ++ z) (hp : p = posOf x)
    (ho : Opening q o) (hd : ∀ c ∈ d, c = quoteChar q) (hn : '\n' ∉ o ++ t ++ d)
    (htx : d.length ≤ 1 ∧ ('\\' ∉ t → txt = t)) (hk : q = .basic ∧ k = .basicString ∨ q = .literal ∧ k = .literalString) :
    IdentAt input (Ident.fromString (o ++ t ++ d) ⟨p, e⟩ txt (offOf o d) k) := by
  subst hp
  simp only [List.mem_append, not_or] at hn
  obtain ⟨⟨hno, hnt⟩, hnd⟩ := hn
  have hbd : blen d = d.length := blen_quotes hd
  have ho1 : o = [quoteChar q] := by
    cases ho with
    | single => rfl
    | multi h => rcases hk with ⟨rfl, -⟩ | ⟨rfl, -⟩ <;> cases h
    | multiLf h => rcases hk with ⟨rfl, -⟩ | ⟨rfl, -⟩ <;> cases h
    | multiCrlf h => rcases hk with ⟨rfl, -⟩ | ⟨rfl, -⟩ <;> cases h
  have hd1 : d = [] ∨ d = [quoteChar q] := by
    rcases d with _ | ⟨c, _ | ⟨c', d⟩⟩
    · exact .inl rfl
    · exact .inr (by rw [hd c (by simp)])
    · simp at htx
  have hall : '\n' ∉ o ++ t ++ d := by simp [hno, hnt, hnd]
  refine ⟨⟨x, z, hin, rfl⟩, by rw [ho1]; simp [Ident.fromString], hall, ?_, x, o, t, d, z, hin, rfl, bare_span hall, ?_, ?_, htx.2⟩
  · intro h
    rcases hk with ⟨-, rfl⟩ | ⟨-, rfl⟩ <;> cases h
  · rcases hk with ⟨rfl, rfl⟩ | ⟨rfl, rfl⟩
    · exact ⟨ho1, hd1⟩
    · exact ⟨ho1, hd1⟩
  · have e1 : subU (blen (o ++ t ++ d)) (blen o + blen d) = some (blen t) := by
      unfold subU
      simp only [blen_append]
      rw [if_pos (by omega)]
      congr 1
      omega
    unfold Ident.textSpan Ident.fromString offOf
    simp only [if_neg hno, Nat.mod_eq_of_lt (show blen d < 256 by omega), e1, Option.bind_eq_bind, Option.bind_some, Option.pure_def]
    rw [← posOf_plus hno, bare_span hnt]

/-- What a key parser returns. -/
def KeyOk (E : Env) (toks : List Token) (pre p : Str) : KeyResult → Prop
  | .ok k => KeyAt E.input k ∧ InOrder pre (keyPlaces k) p
  | .unterminatedStr k => KeyAt E.input k ∧ InOrder pre (keyPlaces k) p
  | .err e => Loc E toks e

/-- Is it a key? -/
def KeyResult.isKey : KeyResult → Prop
  | .err _ => False
  | _ => True

theorem parseIdent_post (hG : Good E toks es0 pre s) : Sat P (parseIdent E s) (fun r s' => ∃ u p',
    Nx E toks es0 pre s u p' s' [] ∧ (∀ t ∈ u, endsLine t.ty = false) ∧
    (∀ i, r = .inl i → IdentAt E.input i ∧ InOrder pre [i.litSpan] p' ∧ u ≠ [] ∧ s'.LastKey) ∧
    (∀ k, r = .inr k → KeyOk E toks pre p' k ∧ (∀ q, k ≠ .ok q) ∧ (k.isKey → u ≠ [] ∧ s'.LastKey))) := by
  unfold parseIdent
  rw [bind_peek]
  generalize he : (pk E s).ty = ty
  split
  · rename_i id
    obtain ⟨g, y, h1, h2, h3, h4⟩ := hG.adv' (by rw [he]; simp)
    have ht := h2.text
    rw [he] at ht
    obtain ⟨q, txt, o, ht, o1, t1, d1, hy1, ho1, hq1, hd1, hone1, htx⟩ := ht
    obtain ⟨z, hz⟩ := h4.good.chain.prefix
    rw [coms_of_ne (by rw [he]; simp)] at h4
    have hend : ∀ t ∈ [pk E s], endsLine t.ty = false := by
      intro t ht; rw [List.mem_singleton.1 ht, he]; rfl
    have hsp : SpanIn E.input ⟨(pk E s).start, posOf (pre ++ g ++ y)⟩ := by
      rw [h2.start]; exact spanIn_of (List.prefix_append _ _) h4.good.chain.prefix
    have hlast : s.adv.LastKey := ⟨_, _, adv_done h3, .inl ⟨id, he⟩⟩
    obtain ⟨vw, hvw, -⟩ := h2.view
    have hmem : (vw, posOf (pre ++ g)) ∈ views E toks := by
      rw [hG.views, h3]
      simp [views, hvw]
    unfold resolve at hvw
    simp only [he, ht, Option.map_some, Option.some.injEq, Prod.mk.injEq] at hvw
    obtain ⟨rfl, -⟩ := hvw
    unfold getString
    rw [bind_lift _ _ ht]
    have hone : isMulti q = false → ∀ k, (q = .basic ∧ k = IdentKind.basicString ∨ q = .literal ∧ k = .literalString) → Sat P ((do
        let ident := Ident.fromString y ⟨(pk E s).start, posOf (pre ++ g ++ y)⟩ txt o k
        let _ ← next E
        if o.endLine = 0 ∧ o.endChar = 0 then
          pure (.inr (.unterminatedStr (.one ident)))
        else pure (.inl ident) : M (Ident ⊕ KeyResult)) s) (fun r s' => ∃ u p',
        Nx E toks es0 pre s u p' s' [] ∧ (∀ t ∈ u, endsLine t.ty = false) ∧
        (∀ i, r = .inl i → IdentAt E.input i ∧ InOrder pre [i.litSpan] p' ∧ u ≠ [] ∧ s'.LastKey) ∧
        (∀ k, r = .inr k → KeyOk E toks pre p' k ∧ (∀ q, k ≠ .ok q) ∧ (k.isKey → u ≠ [] ∧ s'.LastKey))) := by
      intro hm k hk
      simp only [bind_next]
      have hrun : InOrder pre
          [(Ident.fromString y ⟨(pk E s).start, posOf (pre ++ g ++ y)⟩ txt o k).litSpan] (pre ++ g ++ y) := by
        refine .one' (x := pre ++ g) (y := pre ++ g ++ y) ?_ (List.prefix_append _ _)
          (List.prefix_append _ _) (List.prefix_refl _)
        rw [posOf_plus (hone1 hm)]
        show Span.fromPosLen (pk E s).start (blen y) = _
        rw [h2.start]; rfl
      have hid : IdentAt E.input
          (Ident.fromString y ⟨(pk E s).start, posOf (pre ++ g ++ y)⟩ txt o k) :=
        by subst hy1 ho1; exact quoted_ident hz.symm h2.start hq1 hd1 (hone1 hm) (htx hm) hk
      split
      · refine Sat.pure ⟨_, _, h4, hend, by simp, ?_⟩
        rintro k hk
        simp only [Sum.inr.injEq] at hk
        subst hk
        exact ⟨⟨.one hid, hrun⟩, by simp, fun _ => ⟨by simp, hlast⟩⟩
      · refine Sat.pure ⟨_, _, h4, hend, ?_, by simp⟩
        rintro i hi
        simp only [Sum.inl.injEq] at hi
        subst hi
        exact ⟨hid, hrun, by simp, hlast⟩
    cases q with
    | basicMultiline =>
      refine Sat.pure ⟨_, _, Nx.refl hG, by simp, by simp, ?_⟩
      rintro k hk
      simp only [Sum.inr.injEq] at hk
      subst hk
      refine ⟨⟨hsp, trivial, pre ++ g, _, _, hmem, h4.good.chain.prefix, by rw [h2.start]⟩, by simp,
        by simp [KeyResult.isKey]⟩
    | literalMultiline =>
      refine Sat.pure ⟨_, _, Nx.refl hG, by simp, by simp, ?_⟩
      rintro k hk
      simp only [Sum.inr.injEq] at hk
      subst hk
      refine ⟨⟨hsp, trivial, pre ++ g, _, _, hmem, h4.good.chain.prefix, by rw [h2.start]⟩, by simp,
        by simp [KeyResult.isKey]⟩
    | basic => exact hone rfl .basicString (.inl ⟨rfl, rfl⟩)
    | literal => exact hone rfl .literalString (.inr ⟨rfl, rfl⟩)
  · rename_i id
    obtain ⟨g, y, h1, h2, h3, h4⟩ := hG.adv' (by rw [he]; simp)
    have ht := h2.text
    rw [he] at ht
    obtain ⟨ht, hn, -⟩ := ht
    obtain ⟨z, hz⟩ := h4.good.chain.prefix
    rw [coms_of_ne (by rw [he]; simp)] at h4
    have hend : ∀ t ∈ [pk E s], endsLine t.ty = false := by
      intro t ht; rw [List.mem_singleton.1 ht, he]; rfl
    have hlast : s.adv.LastKey := ⟨_, _, adv_done h3, .inr ⟨id, he⟩⟩
    have hmem : (View.word y, posOf (pre ++ g)) ∈ views E toks := by
      rw [hG.views, h3]
      simp [views, resolve, he, ht, h2.start]
    unfold literal
    rw [bind_lift _ _ (by rw [ht]; rfl)]
    simp only []
    have hid : IdentAt E.input (Ident.fromPlainLit y (Span.fromPosLen (pk E s).start (blen y))) :=
      bare_ident hz.symm h2.start h2.ne hn
    have hrun : InOrder pre
        [(Ident.fromPlainLit y (Span.fromPosLen (pk E s).start (blen y))).litSpan] (pre ++ g ++ y) := by
      refine .one' (x := pre ++ g) (y := pre ++ g ++ y) ?_ (List.prefix_append _ _)
        (List.prefix_append _ _) (List.prefix_refl _)
      rw [posOf_plus hn]
      show Span.fromPosLen (pk E s).start (blen y) = _
      rw [h2.start]; rfl
    generalize hf : findInvalidChar 0 y = fc
    rcases fc with _ | ⟨i, c⟩
    · simp only [bind_next]
      refine Sat.pure ⟨_, _, h4, hend, ?_, by simp⟩
      rintro i hi
      simp only [Sum.inl.injEq] at hi
      subst hi
      exact ⟨hid, hrun, by simp, hlast⟩
    · simp only []
      obtain ⟨a, b, e1, e2, e3, e4⟩ := findInvalidChar_some _ _ _ _ hf
      have hloc : Loc E toks (.invalidCharInIdentifier c ((pk E s).start.plus i)) := by
        refine ⟨?_, trivial, y, posOf (pre ++ g), a, b, hmem, e1, e3, e4, by rw [h2.start, e2, Nat.zero_add]⟩
        have : (pk E s).start.plus i = posOf (pre ++ g ++ a) := by
          rw [posOf_plus (fun hh => hn (by rw [e1]; simp [hh])), h2.start, e2, Nat.zero_add]
        show SpanIn E.input (Span.ofPos _)
        rw [this]
        refine spanIn_of (List.prefix_refl _) (List.IsPrefix.trans ?_ h4.good.chain.prefix)
        rw [e1]
        exact ⟨c :: b, by simp⟩
      split
      · refine Sat.pure ⟨_, _, Nx.refl hG, by simp, by simp, ?_⟩
        rintro k hk
        simp only [Sum.inr.injEq] at hk
        subst hk
        exact ⟨hloc, by simp, by simp [KeyResult.isKey]⟩
      · rw [bind_error, bind_next]
        have hE := hG.err (h := []) hloc
        have hpk : pk E (s.err (.invalidCharInIdentifier c ((pk E s).start.plus i))) = pk E s := rfl
        obtain ⟨g', y', a1, a2, a3, a4⟩ := hE.good.adv' (by rw [hpk, he]; simp)
        rw [coms_of_ne (by rw [hpk, he]; simp)] at a4
        have hrun : InOrder pre
            [(Ident.fromPlainLit y (Span.fromPosLen (pk E s).start (blen y))).litSpan]
            (pre ++ g' ++ y') := by
          have ht' := a2.text
          rw [hpk, he] at ht'
          have hyy : y = y' := by
            have := ht.symm.trans ht'.1
            simpa using this
          subst hyy
          refine .one' (x := pre ++ g') (y := pre ++ g' ++ y) ?_ (List.prefix_append _ _)
            (List.prefix_append _ _) (List.prefix_refl _)
          rw [posOf_plus hn, ← a2.start]
          rfl
        refine Sat.pure ⟨_, _, hE.trans a4, ?_, ?_, by simp⟩
        · intro t ht
          rw [List.nil_append, hpk] at ht
          exact hend t ht
        · rintro i hi
          simp only [Sum.inl.injEq] at hi
          subst hi
          exact ⟨hid, hrun, by simp, _, _, adv_done a3, .inr ⟨id, by rw [hpk, he]⟩⟩
  · rename_i hk1 hk2
    obtain ⟨f, sp, e1, ⟨ov, ⟨k1, k2, -⟩, k3⟩, e2⟩ := hG.fmt (β := Ident ⊕ KeyResult)
    rw [e2]
    refine Sat.pure ⟨_, _, Nx.refl hG, by simp, by simp, ?_⟩
    rintro k hk
    simp only [Sum.inr.injEq] at hk
    subst hk
    refine ⟨⟨e1, trivial, _, ov, k1, k3, fun v hv hk => ?_⟩, by simp, by simp [KeyResult.isKey]⟩
    rcases (k2.key v hv).1 hk with ⟨id, hh⟩ | ⟨id, hh⟩
    · exact hk1 id (by rw [← he]; exact hh)
    · exact hk2 id (by rw [← he]; exact hh)

theorem TokAt.charAt {t : Token} {x y : Str} {c : Char} (hy : y = [c]) (h : TokAt E t x y)
    (hp : x ++ y <+: E.input) : CharAt E.input t.start c := by
  subst hy
  obtain ⟨z, hz⟩ := hp
  exact ⟨x, z, by rw [← hz]; simp, h.start⟩

theorem parseKeyLoop_post {q : Str} : ∀ (n : Nat) {idents : List DottedIdent} {pre : Str} {s : PS},
    Good E toks es0 pre s → s.rest.length < n → (∀ d ∈ idents, IdentAt E.input d.ident) →
    (∀ d ∈ idents, ∀ p, d.dot = some p → CharAt E.input p '.') →
    InOrder q (idents.flatMap fun d => d.ident.litSpan :: optPlace d.dot) pre →
    Sat P (parseKeyLoop E n idents s) (fun r s' => ∃ u p',
      Nx E toks es0 pre s u p' s' [] ∧ (∀ t ∈ u, endsLine t.ty = false) ∧
      KeyOk E toks q p' r ∧ (r.isKey → u ≠ [] ∧ s'.LastKey) ∧
      (∀ k, r = .ok k → (pk E s').ty ≠ .dot)) := by
  intro n
  induction n with
  | zero => intro idents pre s _ hn; omega
  | succ n ih =>
    intro idents pre s hG hn hI hD hR
    unfold parseKeyLoop
    refine Sat.bind (parseIdent_post hG) ?_
    rintro (i | r) s1 ⟨u, p1, g1, g2, g3, g4⟩
    · simp only []
      obtain ⟨hi, hri, hu, hlk⟩ := g3 i rfl
      rw [bind_peek]
      have hl := g1.toNw.len
      have hpos : 0 < u.length := List.length_pos_iff.2 hu
      split
      · rename_i hdot
        rw [bind_next]
        obtain ⟨g, y, a1, a2, a3, a4⟩ := g1.good.adv' (by rw [hdot]; simp)
        have hy := a2.text
        rw [hdot] at hy
        rw [coms_of_ne (by rw [hdot]; simp)] at a4
        have hl2 := a4.toNw.len
        refine (ih a4.good (by simp at hl2; omega) ?_ ?_ ?_).mono ?_
        · intro d hd
          rcases List.mem_append.1 hd with hd | hd
          · exact hI d hd
          · rw [List.mem_singleton.1 hd]; exact hi
        · intro d hd
          rcases List.mem_append.1 hd with hd | hd
          · exact hD d hd
          · rw [List.mem_singleton.1 hd]
            intro p hp
            simp only [Option.some.injEq] at hp
            subst hp
            exact a2.charAt hy a4.good.chain.prefix
        · rw [List.flatMap_append]
          refine hR.append ?_
          simp only [List.flatMap_cons, List.flatMap_nil, List.append_nil, optPlace]
          refine InOrder.append (l := [_]) hri ?_
          simp only at hy
          subst hy
          exact .char (by decide) (by decide) a2.start (List.prefix_append _ _) (List.prefix_refl _)
        · rintro r s' ⟨w, p', b1, b2, b3, b4, b5⟩
          refine ⟨_, p', (g1.trans a4).trans b1, ?_, b3, fun hk => ⟨by simp, (b4 hk).2⟩, b5⟩
          intro t ht
          simp only [List.mem_append, List.mem_singleton] at ht
          rcases ht with (ht | rfl) | ht
          · exact g2 t ht
          · rw [hdot]; rfl
          · exact b2 t ht
      · rename_i hnd
        split
        · rename_i hne
          have : idents = [] := by simpa using hne
          subst this
          exact Sat.pure ⟨u, p1, g1, g2, ⟨.one hi, hri.from_ hR.prefix⟩, fun _ => ⟨hu, hlk⟩,
            fun _ _ => hnd⟩
        · rename_i hne
          refine Sat.pure ⟨u, p1, g1, g2, ⟨.dotted ?_ ?_ ?_, ?_⟩, fun _ => ⟨hu, hlk⟩,
            fun _ _ => hnd⟩
          · have : 0 < idents.length := List.length_pos_iff.2 (by simpa using hne)
            simp only [List.length_append, List.length_singleton]
            omega
          · intro d hd
            rcases List.mem_append.1 hd with hd | hd
            · exact hI d hd
            · rw [List.mem_singleton.1 hd]; exact hi
          · intro d hd
            rcases List.mem_append.1 hd with hd | hd
            · exact hD d hd
            · rw [List.mem_singleton.1 hd]; simp
          · show InOrder q ((idents ++ _).flatMap _) p1
            rw [List.flatMap_append]
            refine hR.append ?_
            simpa only [List.flatMap_cons, List.flatMap_nil, List.append_nil, optPlace] using hri
    · simp only []
      obtain ⟨hk, hno, hu⟩ := g4 r rfl
      refine Sat.pure ⟨u, p1, g1, g2, ?_, hu, fun k hk => absurd hk (hno k)⟩
      cases r with
      | ok k => exact ⟨hk.1, hk.2.from_ hR.prefix⟩
      | unterminatedStr k => exact ⟨hk.1, hk.2.from_ hR.prefix⟩
      | err e => exact hk

theorem parseKey_post (hG : Good E toks es0 pre s) :
    Sat P (parseKey E s) (fun r s' => ∃ u p',
      Nx E toks es0 pre s u p' s' [] ∧ (∀ t ∈ u, endsLine t.ty = false) ∧
      KeyOk E toks pre p' r ∧ (r.isKey → u ≠ [] ∧ s'.LastKey) ∧
      (∀ k, r = .ok k → (pk E s').ty ≠ .dot)) := by
  unfold parseKey
  rw [bind_budget]
  exact parseKeyLoop_post _ hG (by omega) (by simp) (by simp) .refl

end Verif.Toml
