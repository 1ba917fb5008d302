import Verif.Toml.LexStep

/-! # Lemmas: the tokenizer as a whole -/

namespace Verif.Toml
open Verif Verif.Spec.Toml

theorem quote_size {c : Char} (hc : c = '"' ∨ c = '\'') : c.utf8Size = 1 ∧ c ≠ '\n' := by
  rcases hc with rfl | rfl <;> decide

theorem textOffset_empty (P : Pos) :
    textOffsetOf ⟨P, ⟨P.line, P.char + 2⟩⟩ ⟨⟨P.line, P.char + 1⟩, ⟨P.line, P.char + 1⟩⟩ =
      some ⟨0, 1, 0, 1⟩ := by
  unfold textOffsetOf
  have e1 : subU P.line P.line = some 0 := subU_of (by omega)
  have e2 : subU (P.char + 1) P.char = some 1 := subU_of (by omega)
  have e3 : subU (P.char + 2) (P.char + 1) = some 1 := subU_of (by omega)
  simp [e1, e2, e3, asU8]

theorem quoteCase_step {L : Lexer} {pre w rest : Str} {vs : List (View × Pos)} {c : Char}
    (hc : c = '"' ∨ c = '\'')
    (h : Main L pre w (c :: rest) vs) (hb : L.bytePos = blen (pre ++ w)) :
    ∃ L' pre' rest' vs', quoteCase L c rest = some (L', rest') ∧
      Step L pre w (c :: rest) vs L' pre' [] rest' vs' ∧ rest'.length ≤ rest.length := by
  obtain ⟨hz, hcn⟩ := quote_size hc
  have hsw : startsWord (c :: rest) = false := by rcases hc with rfl | rfl <;> rfl
  obtain ⟨A, vs1, a1, a2, a3, a4⟩ := endLiteral_step h hb hsw
  obtain ⟨es0, T0, -, -, -, -, hA, -⟩ := id a4
  rw [hb] at a2
  have hAst : St A (pre ++ w) (c :: rest) := by simpa using hA.st
  generalize pre ++ w = P at *
  unfold quoteCase
  rw [a1]
  simp only [Option.bind_eq_bind, Option.bind_some, hAst.pos a2]
  -- it is enough to have a step from `A`
  suffices hsuf : ∀ (out : Option (Lexer × Str)), (∃ L' pre' rest' vs', out = some (L', rest') ∧
      Step A P [] (c :: rest) (vs ++ vs1) L' pre' [] rest' vs' ∧ rest'.length ≤ rest.length) →
      ∃ L' pre' rest' vs', out = some (L', rest') ∧
      Step L pre w (c :: rest) vs L' pre' [] rest' vs' ∧ rest'.length ≤ rest.length by
    refine hsuf _ ?_
    generalize hB : ({ A with litByteStart := A.bytePos, litStart := posOf P } : Lexer) = B
    have hBs : B.tokens = A.tokens ∧ B.strings = A.strings ∧ B.literals = A.literals ∧
        B.errors = A.errors ∧ B.input = A.input := by rw [← hB]; exact ⟨rfl, rfl, rfl, rfl, rfl⟩
    have hBst : St B P (c :: rest) := by rw [← hB]; exact hAst.congr rfl rfl rfl
    have hBl : B.litByteStart = blen P := by rw [← hB]; exact a2
    have hBp : B.litStart = posOf P := by rw [← hB]
    have hBi : B.inLit = false := by rw [← hB]; exact a3
    have hq1 : isMulti (if c = '"' then Quote.basic else .literal) = false := by split <;> rfl
    have hq2 : isMulti (if c = '"' then Quote.basic else .literal).multiline = true := by
      split <;> rfl
    have hqc1 := (quote_single hc hq1).2 rfl
    have hqc2 := (quote_multi hc hq2).2 rfl
    by_cases hr : rest.head? = some c
    · rw [if_pos hr]
      obtain ⟨rest2, rfl⟩ : ∃ r, rest = c :: r := by
        cases rest with
        | nil => cases hr
        | cons d r => simp at hr; exact ⟨r, by rw [hr]⟩
      have hB2 := hBst.step hcn
      by_cases hr2 : rest2.head? = some c
      · rw [if_pos (show (c :: rest2).tail.head? = some c from hr2)]
        obtain ⟨rest3, rfl⟩ : ∃ r, rest2 = c :: r := by
          cases rest2 with
          | nil => cases hr2
          | cons d r => simp at hr2; exact ⟨r, by rw [hr2]⟩
        simp only [List.tail_cons]
        have hB3 := hB2.step hcn
        have hB4 := hB3.step hcn
        generalize hD : (B.atNext (c :: c :: rest3)).atNext (c :: rest3) = D
        have hDs : D.tokens = A.tokens ∧ D.strings = A.strings ∧ D.literals = A.literals ∧
            D.errors = A.errors ∧ D.input = A.input := by rw [← hD]; exact hBs
        have hDl : D.litByteStart = blen P := by rw [← hD]; exact hBl
        have hDp : D.litStart = posOf P := by rw [← hD]; exact hBp
        have hDst : St D (P ++ [c, c, c]) rest3 := by
          rw [← hD]; exact (by simpa using hB4 : St B (P ++ [c, c, c]) rest3).congr rfl rfl rfl
        -- the trimmed line break
        unfold trimNewline
        split
        · rename_i cs
          obtain ⟨L', pre', rest', vs', e1, e2, e3⟩ := startString_step (o := [c, c, c, '\n'])
            (q := (if c = '"' then Quote.basic else .literal).multiline) hc hA
            (D.atNext ('\n' :: cs)).newline hDs
            (by have := Opening.multiLf hq2; rw [hqc2] at this; exact this)
            (by simpa using hDst.atNext.newline hDst.atNext_bytePos) hDl hDp rfl
            (fun q' lit txt r => by
              rw [stringAt_multi hc .lf])
          exact ⟨L', pre', rest', vs', e1, e2, by simp; omega⟩
        · rename_i cs
          have hDcr := hDst.step (by decide)
          obtain ⟨L', pre', rest', vs', e1, e2, e3⟩ := startString_step (o := [c, c, c, '\r', '\n'])
            (q := (if c = '"' then Quote.basic else .literal).multiline) hc hA
            (D.atNext ('\n' :: cs)).newline hDs
            (by have := Opening.multiCrlf hq2; rw [hqc2] at this; exact this)
            (by simpa using hDcr.atNext.newline hDcr.atNext_bytePos) hDl hDp rfl
            (fun q' lit txt r => by
              rw [stringAt_multi hc .crlf])
          exact ⟨L', pre', rest', vs', e1, e2, by simp; omega⟩
        · rename_i hk1 hk2
          obtain ⟨L', pre', rest', vs', e1, e2, e3⟩ := startString_step (o := [c, c, c])
            (q := (if c = '"' then Quote.basic else .literal).multiline) hc hA
            D hDs
            (by have := Opening.multi hq2; rw [hqc2] at this; exact this)
            hDst hDl hDp rfl
            (fun q' lit txt r => by
              rw [stringAt_multi hc (.keep ?_ ?_)]
              · intro hh
                cases rest3 with
                | nil => cases hh
                | cons d r => simp at hh; subst hh; exact hk1 _ rfl
              · rintro ⟨t, rfl⟩; exact hk2 _ rfl)
          exact ⟨L', pre', rest', vs', e1, e2, by simp; omega⟩
      · rw [if_neg (show ¬ (c :: rest2).tail.head? = some c from hr2)]
        simp only [List.tail_cons]
        unfold emptyString
        have hpos : (B.atNext (c :: rest2)).pos = some (posOf (P ++ [c])) :=
          hB2.atNext.pos hB2.atNext_bytePos
        rw [hpos]
        simp only [Option.bind_some, Option.bind_eq_bind]
        have hin : (B.atNext (c :: rest2)).input = P ++ [c, c] ++ rest2 := by
          show B.input = _
          rw [hBst.input]; simp
        have hsl1 : slice (B.atNext (c :: rest2)).input (B.atNext (c :: rest2)).litByteStart
            ((B.atNext (c :: rest2)).litByteStart + 2) = some [c, c] := by
          refine slice_of hin hBl ?_
          show B.litByteStart + 2 = _
          rw [hBl]; simp only [blen_append, blen_cons, blen_nil, hz]
        have hsl2 : slice (B.atNext (c :: rest2)).input ((B.atNext (c :: rest2)).litByteStart + 1)
            ((B.atNext (c :: rest2)).litByteStart + 1) = some [] := by
          refine slice_of (x := P ++ [c]) (y := []) (z := c :: rest2) (by rw [hin]; simp) ?_ ?_
          · show B.litByteStart + 1 = _
            rw [hBl]; simp only [blen_append, blen_cons, blen_nil, hz]
          · show B.litByteStart + 1 = _
            rw [hBl]; simp only [blen_append, blen_cons, blen_nil, hz]
        rw [hsl1, hsl2]
        simp only [Option.bind_some]
        have hp1 : posOf (P ++ [c]) = ⟨(posOf P).line, (posOf P).char + 1⟩ := by
          rw [posOf_snoc _ hcn, hz]
        have hp2 : posOf (P ++ [c, c]) = ⟨(posOf P).line, (posOf P).char + 2⟩ := by
          rw [show P ++ [c, c] = P ++ [c] ++ [c] by simp, posOf_snoc _ hcn, hp1, hz]
        have hoff : textOffsetOf (Span.fromPosLen (B.atNext (c :: rest2)).litStart 2)
            (Span.ofPos (posOf (P ++ [c]))) = some (offOf [c] [c]) := by
          have : (B.atNext (c :: rest2)).litStart = posOf P := hBp
          rw [this, hp1]
          have e := textOffset_empty (posOf P)
          have e' : offOf [c] [c] = ⟨0, 1, 0, 1⟩ := by
            simp [offOf, hz, Ne.symm hcn, hcn, blen_cons]
          rw [e']
          exact e
        simp only [StringToken.new, hoff, Option.bind_some, Option.bind_eq_bind]
        refine ⟨_, P ++ [c, c], rest2,
          [(.string (if c = '"' then Quote.basic else .literal) [c, c] [], posOf P)], rfl, ?_,
          by simp⟩
        generalize hq : (if c = '"' then Quote.basic else Quote.literal) = q at *
        refine ⟨[], [⟨.string A.strings.length, posOf P⟩], ?_, by simp, hBs.2.2.2.2, ⟨?_, ?_, ?_⟩, ?_,
          .inl ⟨rfl, fun R hR ts => ?_⟩⟩
        · rw [List.append_nil]; exact hBs.2.2.2.1
        · show B.tokens ++ [⟨.string B.strings.length, (B.atNext (c :: rest2)).litStart⟩] = _
          rw [hBs.1, hBs.2.1, show (B.atNext (c :: rest2)).litStart = posOf P from hBp]
        · show A.strings <+: B.strings ++ _
          rw [hBs.2.1]; exact List.prefix_append _ _
        · intro _ t ht
          rw [List.mem_singleton.1 ht]
          intro id hid
          simp only [TokenType.string.injEq] at hid
          subst hid
          show ∃ st, (B.strings ++ [_])[_]? = some st ∧ _
          rw [hBs.2.1]
          exact ⟨_, List.getElem?_concat_length, by simp [offOf, hz]⟩
        · refine hA.push (S := [⟨q, [c, c], posOf (P ++ [c, c]), [], offOf [c] [c]⟩]) (I := [])
            (T := [⟨.string A.strings.length, posOf P⟩]) hBs.2.2.2.2 ?_ hBi ?_ ?_ ?_ ?_ ?_ ?_
            (hA.com.snoc (.inl (by simp)) (by simp)) (fun he => ⟨hBs.2.2.2.1 ▸ he, by
              intro st hst
              rw [List.mem_singleton] at hst
              subst hst
              simp [offOf, hz]⟩)
          · have := (hB2.step hcn)
            have h2 : St (B.atNext (c :: rest2)) (P ++ [c, c]) rest2 := by
              exact (by simpa using this : St B (P ++ [c, c]) rest2).congr rfl rfl rfl
            exact h2.congr rfl rfl rfl
          · show (B.strings ++ _) = _
            rw [hBs.2.1, hp2]
            congr 3
            show Pos.mk _ _ = _
            rw [show (B.atNext (c :: rest2)).litStart = posOf P from hBp]
          · show B.literals = _
            rw [hBs.2.2.1]; simp
          · show B.tokens ++ [⟨.string B.strings.length, (B.atNext (c :: rest2)).litStart⟩] = _
            rw [hBs.1, hBs.2.1, show (B.atNext (c :: rest2)).litStart = posOf P from hBp]
          · show List.map (resolve (B.strings ++ _) B.literals) _ = _
            rw [hBs.2.1]
            simp [resolve]
          · refine .token hA.laid (.string ?_)
            rw [hqc1]; rfl
          · intro tok htok
            rw [List.mem_singleton] at htok
            subst htok
            intro id hid
            simp only [TokenType.string.injEq] at hid
            subst hid
            refine ⟨P, q, [c], [], [c], rest2, [], ?_, rfl, ?_, ?_, ?_, fun _ => (by simp [Ne.symm hcn]),
              fun _ => ⟨by simp, fun _ => rfl⟩⟩
            · exact hin
            · show (B.strings ++ _)[_]? = _
              rw [hBs.2.1]
              simp
              show Pos.mk _ _ = _
              rw [show (B.atNext (c :: rest2)).litStart = posOf P from hBp, hp2]
            · have := Opening.single hq1; rw [hqc1] at this; exact this
            · rw [hqc1]; simp
        · rw [List.nil_append, tok_string hc hR.len]
          have hsa : ∀ q' lit txt r, StringAt q' (c :: c :: rest2) lit txt r ↔
              q' = q ∧ lit = [c, c] ∧ txt = [] ∧ r = rest2 := by
            intro q' lit txt r
            rw [stringAt_single hc, hq]
            · constructor
              · rintro ⟨rfl, b2, b3⟩
                have := strTail_quote (q := q') (src := rest2) (txt := txt) (r := r) hq1
                rw [hqc1] at this
                obtain ⟨rfl, rfl⟩ := this.1 b2
                have e : [c, c] ++ r = lit ++ r := b3
                exact ⟨rfl, (List.append_cancel_right e).symm, rfl, rfl⟩
              · rintro ⟨rfl, rfl, rfl, rfl⟩
                have := strTail_quote (q := q') (src := r) (txt := []) (r := r) hq1
                rw [hqc1] at this
                exact ⟨rfl, this.2 ⟨rfl, rfl⟩, rfl⟩
            · rintro ⟨t, ht⟩
              simp only [List.cons.injEq, true_and] at ht
              rw [ht] at hr2; simp at hr2
          constructor
          · rintro ⟨q', lit, txt, r, t, b1, rfl, b3⟩
            obtain ⟨rfl, rfl, rfl, rfl⟩ := (hsa _ _ _ _).1 b1
            exact ⟨t, rfl, b3⟩
          · rintro ⟨t, rfl, b3⟩
            exact ⟨q, [c, c], [], rest2, t, (hsa _ _ _ _).2 ⟨rfl, rfl, rfl, rfl⟩, rfl, b3⟩
    · rw [if_neg hr]
      obtain ⟨L', pre', rest', vs', e1, e2, e3⟩ := startString_step (o := [c])
        (q := if c = '"' then Quote.basic else .literal) hc hA B hBs
        (by have := Opening.single hq1; rw [hqc1] at this; exact this)
        (hBst.step hcn) hBl hBp rfl
        (fun q' lit txt r => by
          rw [stringAt_single hc]
          rintro ⟨t, rfl⟩
          simp at hr)
      exact ⟨L', pre', rest', vs', e1, e2, e3⟩
  rintro out ⟨L', pre', rest', vs', e1, e2, e3⟩
  exact ⟨L', pre', rest', vs1 ++ vs', e1, a4.trans e2, e3⟩

/-! ## The loop -/

theorem punct_isPunct (c : Char) : (∃ ty, punct c = some ty) ↔ isPunct c = true := by
  unfold punct isPunct
  simp only [Bool.or_eq_true, decide_eq_true_eq]
  constructor
  · rintro ⟨ty, h⟩
    repeat' split at h
    all_goals first | (rename_i hh; simp [hh]; done) | cases h
  · rintro ((((((h | h) | h) | h) | h) | h) | h) <;> subst h <;> simp

theorem punct_resolve {c : Char} {ty : TokenType} (h : punct c = some ty) (S : List StringToken)
    (I : List Str) (p : Pos) : resolve S I ⟨ty, p⟩ = some (.punct c, p) := by
  unfold punct at h
  repeat' split at h
  all_goals first
    | (rename_i hh; simp only [Option.some.injEq] at h; subst h hh; rfl)
    | cases h

theorem punct_ne {c : Char} {ty : TokenType} (h : punct c = some ty) (id : Nat) :
    ty ≠ .string id := by
  unfold punct at h
  repeat' split at h
  all_goals first
    | (simp only [Option.some.injEq] at h; subst h; simp)
    | cases h

theorem charToken_step {L : Lexer} {pre w src t rest : Str} {vs : List (View × Pos)} {v : View}
    {ty : TokenType} (h : Main L pre w src vs) (hb : L.bytePos = blen (pre ++ w))
    (hsw : startsWord src = false) (hsrc : src = t ++ rest) (f : Lexer → Lexer)
    (hf : ∀ A : Lexer, (f A).tokens = A.tokens ∧ (f A).strings = A.strings ∧
      (f A).literals = A.literals ∧ (f A).errors = A.errors ∧ (f A).input = A.input ∧
      (f A).inLit = A.inLit)
    (hst : ∀ A : Lexer, St A (pre ++ w) src → A.bytePos = blen (pre ++ w) →
      St (f A) (pre ++ w ++ t) rest)
    (hty : ∀ id, ty ≠ .string id)
    (hres : ∀ S I p, resolve S I ⟨ty, p⟩ = some (v, p)) (hcov : Covers v t)
    (hv : ∀ txt, v ≠ .comment txt) (hsrc0 : src ≠ [])
    (htok : ∀ pre R, Stop R src → ∀ ts, TokTo R pre src ts ↔
      ∃ t', ts = (v, posOf pre) :: t' ∧ TokTo R (pre ++ t) rest t') :
    ∃ L1 vs', charToken L ty = some L1 ∧
      Step L pre w src vs (f L1) (pre ++ w ++ t) [] rest vs' := by
  obtain ⟨A, vs1, a1, a2, a3, a4⟩ := endLiteral_step h hb hsw
  obtain ⟨es0, T0, -, -, -, -, hA, -⟩ := id a4
  rw [hb] at a2
  have hAst : St A (pre ++ w) src := by simpa using hA.st
  unfold charToken
  rw [a1]
  simp only [Option.bind_eq_bind, Option.bind_some, hAst.pos a2]
  refine ⟨_, _, rfl, a4.trans (push_step (v := v) (ty := ty) (L' := f (A.push ⟨ty, posOf (pre ++ w)⟩))
    hA hsrc ?_ ?_ ?_ ?_ ?_ ?_ ?_ hty (hres _ _ _) hcov hv hsrc0 (htok _))⟩
  · rw [(hf _).2.2.2.1]; rfl
  · rw [(hf _).2.2.2.2.1]; rfl
  · exact hst _ (hAst.congr rfl rfl rfl) a2
  · rw [(hf _).2.2.2.2.2]; exact a3
  · rw [(hf _).2.1]; rfl
  · rw [(hf _).2.2.1]; rfl
  · rw [(hf _).1]; rfl

theorem lexStep_post {L : Lexer} {pre w cs : Str} {vs : List (View × Pos)} {c : Char}
    (h : Main L pre w (c :: cs) vs) :
    ∃ L' pre' w' rest' vs', lexStep L c cs = some (L', rest') ∧
      Step L pre w (c :: cs) vs L' pre' w' rest' vs' ∧ rest'.length ≤ cs.length ∧ (w' ≠ [] → rest' = cs) := by
  unfold lexStep
  have hst0 := h.st
  have hA : Main (L.atNext (c :: cs)) pre w (c :: cs) vs :=
    ⟨h.st.atNext, h.toks, h.laid, h.lit, h.word, h.strs, h.com, h.ended⟩
  have hAb : (L.atNext (c :: cs)).bytePos = blen (pre ++ w) := h.st.atNext_bytePos
  have hstep : ∀ L' pre' w' rest' vs', Step (L.atNext (c :: cs)) pre w (c :: cs) vs L' pre' w' rest' vs' →
      Step L pre w (c :: cs) vs L' pre' w' rest' vs' := fun _ _ _ _ _ hh => by
    obtain ⟨es, T, a1, a2, a3, a6, a4, a5⟩ := hh
    exact ⟨es, T, a1, a2, a3, ⟨a6.tokens, a6.strings, a6.closed⟩, a4, a5⟩
  generalize L.atNext (c :: cs) = A at *
  dsimp only
  by_cases h1 : c = '\r' ∧ cs.head? = some '\n'
  · rw [if_pos h1]
    obtain ⟨rfl, hh⟩ := h1
    obtain ⟨cs', rfl⟩ : ∃ r, cs = '\n' :: r := by
      cases cs with
      | nil => cases hh
      | cons d r => simp at hh; exact ⟨r, by rw [hh]⟩
    obtain ⟨L1, vs', e1, e2⟩ := charToken_step (v := .newline) (ty := .newline) (t := ['\r', '\n'])
      (rest := cs') hA hAb rfl rfl (fun A => (A.atNext ('\n' :: cs')).newline)
      (fun A => ⟨rfl, rfl, rfl, rfl, rfl, rfl⟩)
      (fun B hB _ => by
        have := hB.step (by decide)
        have := this.atNext.newline this.atNext_bytePos
        simpa using this) (by simp) (fun _ _ _ => rfl) (.newline (.inr rfl)) (by simp) (by simp)
      (fun _ _ hR _ => tok_crlf hR.len)
    unfold newlineToken
    rw [e1]
    exact ⟨_, _, _, _, _, rfl, hstep _ _ _ _ _ e2, by simp, by simp⟩
  rw [if_neg h1]
  by_cases h2 : c = '\n'
  · rw [if_pos h2]
    subst h2
    obtain ⟨L1, vs', e1, e2⟩ := charToken_step (v := .newline) (ty := .newline) (t := ['\n'])
      (rest := cs) hA hAb rfl rfl Lexer.newline
      (fun A => ⟨rfl, rfl, rfl, rfl, rfl, rfl⟩)
      (fun B hB hb => hB.newline hb) (by simp) (fun _ _ _ => rfl) (.newline (.inl rfl)) (by simp) (by simp)
      (fun _ _ hR _ => tok_nl hR.len)
    unfold newlineToken
    rw [e1]
    exact ⟨_, _, _, _, _, rfl, hstep _ _ _ _ _ e2, by simp, by simp⟩
  rw [if_neg h2]
  by_cases h3 : c = '\t' ∨ c = ' '
  · rw [if_pos h3]
    have hsw : startsWord (c :: cs) = false := by rcases h3 with rfl | rfl <;> rfl
    obtain ⟨B, vs1, a1, a2, a3, a4⟩ := endLiteral_step hA hAb hsw
    obtain ⟨es0, T0, -, -, -, -, hB, -⟩ := id a4
    rw [a1]
    refine ⟨B, pre ++ w ++ [c], [], cs, _, rfl, hstep _ _ _ _ _ (a4.trans (vs2 := []) ?_), by simp, by simp⟩
    refine ⟨[], [], by simp, by simp, rfl, .same rfl rfl, ?_, .inl ⟨rfl, fun R hR ts => ?_⟩⟩
    · refine ⟨?_, by simpa using hB.toks, ?_, .inr ⟨a3, rfl⟩, by simp, hB.strs,
        by simpa using hB.com.any (by simp), hB.ended⟩
      · rw [List.append_nil]
        have := hB.st
        rw [List.append_nil] at this
        exact this.step h2
      · rw [List.append_nil]
        exact .blank hB.laid h3.symm
    · rw [List.nil_append, tok_blank h3.symm hR.len]
      simp
  rw [if_neg h3]
  by_cases h4 : c = '"' ∨ c = '\''
  · rw [if_pos h4]
    obtain ⟨L', pre', rest', vs', e1, e2, e3⟩ := quoteCase_step h4 hA hAb
    exact ⟨L', pre', [], rest', vs', e1, hstep _ _ _ _ _ e2, e3, by simp⟩
  rw [if_neg h4]
  cases hp : punct c with
  | some ty =>
    dsimp only
    have hpc := (punct_isPunct c).1 ⟨ty, hp⟩
    have hsw : startsWord (c :: cs) = false := by
      simp [startsWord, hpc]
    obtain ⟨L1, vs', e1, e2⟩ := charToken_step (v := .punct c) (ty := ty) (t := [c])
      (rest := cs) hA hAb hsw rfl id (fun A => ⟨rfl, rfl, rfl, rfl, rfl, rfl⟩)
      (fun B hB _ => hB.step h2) (punct_ne hp) (punct_resolve hp) (.punct hpc) (by simp) (by simp)
      (fun _ _ hR _ => tok_punct hpc hR.len)
    rw [e1]
    exact ⟨_, _, _, _, _, rfl, hstep _ _ _ _ _ e2, by simp, by simp⟩
  | none =>
    dsimp only
    have hpc : isPunct c = false := by
      cases hh : isPunct c with
      | false => rfl
      | true =>
        obtain ⟨ty, hty⟩ := (punct_isPunct c).2 hh
        rw [hp] at hty; cases hty
    by_cases h5 : c = '#'
    · rw [if_pos h5]
      subst h5
      obtain ⟨L', pre', rest', vs', e1, e2, e3⟩ := comment_step hA hAb
      exact ⟨L', pre', [], rest', vs', e1, hstep _ _ _ _ _ e2, e3, by simp⟩
    · rw [if_neg h5]
      have hsw : startsWord (c :: cs) = true := by
        rw [startsWord_iff]
        exact ⟨hpc, fun e => h3 (.inr e), fun e => h3 (.inl e), h2, fun e => h4 (.inl e),
          fun e => h4 (.inr e), h5, h1⟩
      have hword : ∀ a d b, w ++ [c] = a ++ d :: b → startsWord (d :: (b ++ cs)) = true := by
        intro a d b e
        cases b using snocRec with
        | nil =>
          have := List.append_inj_right' e rfl
          simp only [List.cons.injEq, and_true] at this
          subst this
          exact hsw
        | append_singleton b x _ =>
          rw [show a ++ d :: (b ++ [x]) = (a ++ d :: b) ++ [x] by simp] at e
          have e1 := List.append_inj_left' e rfl
          have e2 := List.append_inj_right' e rfl
          simp only [List.cons.injEq, and_true] at e2
          subst e2
          have := hA.word a d b e1
          simpa using this
      unfold startLiteral
      rcases hA.lit with ⟨g1, g2, g3, g4⟩ | ⟨g1, rfl⟩
      · rw [if_pos g1]
        refine ⟨A, pre, w ++ [c], cs, [], rfl, hstep _ _ _ _ _ ⟨[], [], by simp, by simp, rfl, .same rfl rfl, ?_,
          .inl ⟨rfl, fun R _ ts => by simp⟩⟩, by simp, fun _ => rfl⟩
        refine ⟨?_, by simpa using hA.toks, by simpa using hA.laid, .inl ⟨g1, by simp, g3, g4⟩,
          hword, hA.strs,
          by simpa using hA.com.any (by simp), hA.ended⟩
        rw [← List.append_assoc]; exact hA.st.step h2
      · rw [if_neg (by rw [g1]; simp), hA.st.pos hAb]
        simp only [Option.bind_eq_bind, Option.bind_some]
        refine ⟨_, pre, [] ++ [c], cs, [], rfl, hstep _ _ _ _ _ ⟨[], [], by simp, by simp, rfl, .same rfl rfl, ?_,
          .inl ⟨rfl, fun R _ ts => by simp⟩⟩, by simp, fun _ => rfl⟩
        refine ⟨?_, by simpa using hA.toks, by simpa using hA.laid,
          .inl ⟨rfl, by simp, ?_, by simp⟩, hword, hA.strs,
          by simpa using hA.com.any (by simp), hA.ended⟩
        · have := hA.st.step h2
          exact (by simpa using this : St A (pre ++ [c]) cs).congr rfl rfl rfl
        · show A.bytePos = _
          rw [hAb]; simp

theorem lexLoop_post :
    ∀ (fuel : Nat) (L : Lexer) (pre w rest : Str) (vs : List (View × Pos)),
      Main L pre w rest vs → rest.length < fuel →
      ∃ L' pre' w' vs', lexLoop fuel L rest = some L' ∧ L'.bytePos = blen L'.input ∧
        Steps L pre w rest vs L' pre' w' [] vs' := by
  intro fuel
  induction fuel with
  | zero => intro L pre w rest vs _ hf; omega
  | succ fuel ih =>
    intro L pre w rest vs h hf
    unfold lexLoop
    cases rest with
    | nil =>
      refine ⟨L.atNext [], pre, w, [], rfl, ?_, [], by simp [Lexer.atNext], by simp, rfl, ?_,
        .inl ⟨rfl, fun ts => by simp⟩⟩
      · show L.nextBytePos [] = _
        simp [Lexer.nextBytePos, Lexer.atNext]
      · exact ⟨h.st.atNext, by rw [List.append_nil]; exact h.toks, by simpa using h.laid, h.lit, h.word, h.strs,
          by simpa using h.com, h.ended⟩
    | cons c cs =>
      obtain ⟨L1, pre1, w1, rest1, vs1, e1, e2, e3, -⟩ := lexStep_post h
      obtain ⟨es0, T0, -, -, -, -, hM, -⟩ := id e2
      simp only [e1, Option.bind_eq_bind, Option.bind_some]
      obtain ⟨L2, pre2, w2, vs2, g1, g2, g3⟩ := ih L1 pre1 w1 rest1 (vs ++ vs1) hM (by
        simp at hf; omega)
      exact ⟨L2, pre2, w2, vs1 ++ vs2, g1, g2, e2.steps.trans g3⟩

/-- The tokenizer as a whole. -/
theorem lex_post (input : Str) : ∃ T es vs, lex input = some (T, es) ∧
    T.eof = ⟨.eof, posOf input⟩ ∧
    T.tokens.map (resolve T.strings T.literals) = vs.map some ∧ Laid input vs ∧ CommentSeq vs ∧
    (∀ tok ∈ T.tokens, StrTok input T.strings tok) ∧ (∀ e ∈ es, Located input e) ∧
    ((es = [] ∧ ∀ ts, Tokenized [] input ts ↔ ts = vs) ∨ (es ≠ [] ∧ ∀ ts, ¬ Tokenized [] input ts)) ∧
    (es = [] → ∀ st ∈ T.strings, st.textOffset.endChar ≠ 0) := by
  have h0 : Main (Lexer.new input) [] [] input [] :=
    ⟨St.new input, rfl, .nil, .inr ⟨rfl, rfl⟩, by simp, by simp [Lexer.new], .nil, by simp [Lexer.new]⟩
  obtain ⟨L1, pre1, w1, vs1, e1, e2, e3⟩ := lexLoop_post (input.length + 1) _ _ _ _ _ h0 (by omega)
  obtain ⟨es0, -, -, hin, hM, -⟩ := id e3
  have hin' : L1.input = pre1 ++ w1 := by simpa using hM.st.input
  obtain ⟨L2, vs2, a1, a2, a3, a4⟩ := endLiteral_step hM (by rw [e2, hin']) rfl
  obtain ⟨es, b1, b2, b3, b4, b5⟩ := e3.trans a4.steps
  have hpre : pre1 ++ w1 = input := by rw [← hin', hin]; rfl
  unfold lex
  have hpos : L2.pos = some (posOf input) := by
    have hst : St L2 (pre1 ++ w1) [] := by simpa using b4.st
    rw [hst.pos (by rw [a2, e2, hin']), hpre]
  rw [e1]
  simp only [Option.bind_eq_bind, Option.bind_some, a1, hpos]
  have b3' : L2.input = input := b3
  refine ⟨⟨L2.tokens, L2.strings, L2.literals, ⟨.eof, posOf input⟩⟩, es, vs1 ++ vs2, ?_, rfl, ?_, ?_, ?_, ?_, b2, ?_,
    fun he => b4.ended (by rw [b1, he]; rfl)⟩
  · rw [b1]; rfl
  · simpa using b4.toks
  · rw [← hpre]; simpa using b4.laid
  · exact b4.com.1
  · have := b4.strs; rw [b3'] at this; exact this
  · rcases b5 with ⟨c1, c2⟩ | ⟨c1, c2⟩
    · left
      refine ⟨c1, fun ts => ?_⟩
      have := c2 ts
      rw [List.nil_append, tokTo_nil] at this
      rw [this]
      constructor
      · rintro ⟨t, rfl, ht⟩
        rw [List.nil_append, tok_nil] at ht
        rw [ht]; simp
      · rintro rfl
        exact ⟨[], by simp, by rw [List.nil_append, tok_nil]⟩
    · exact .inr ⟨c1, by simpa [tokTo_nil] using c2⟩

end Verif.Toml
