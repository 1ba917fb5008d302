import Verif.Toml.LexIter

/-! # Lemmas: line breaks in strings, the end of the document, the loop -/

namespace Verif.Toml
open Verif Verif.Spec.Toml

theorem _root_.Verif.Spec.Toml.Opening.last {q : Quote} {o : Str} (h : Opening q o) : o.getLast? ≠ some '\r' := by
  cases h <;> cases q <;> decide

theorem _root_.Verif.Spec.Toml.Opening.ne_nil {q : Quote} {o : Str} (h : Opening q o) : o ≠ [] := by
  cases h <;> simp

theorem getLast?_app {a b : Str} (hb : b ≠ []) : (a ++ b).getLast? = b.getLast? := by
  rw [List.getLast?_append]
  cases h : b.getLast? with
  | none => exact absurd (List.getLast?_eq_none_iff.1 h) hb
  | some x => rfl

/-- The last character of the consumed text is a carriage return only if it is in the body. -/
theorem SInv.last_cr {L : Lexer} {s : StrState} {pre0 o b rest : Str} (h : SInv L s pre0 o b rest) :
    ((pre0 ++ o ++ b).getLast? == some '\r') = decide (b.getLast? = some '\r') := by
  cases b with
  | nil =>
    rw [List.append_nil, getLast?_app h.opening.ne_nil]
    have := h.opening.last
    simp only [List.getLast?_nil, reduceCtorEq, decide_false]
    simpa using this
  | cons c b =>
    rw [getLast?_app (by simp)]
    rw [Bool.eq_iff_iff]; simp

theorem getLast?_some_app {b : Str} {c : Char} (h : b.getLast? = some c) : b = b.dropLast ++ [c] := by
  induction b using snocRec with
  | nil => cases h
  | append_singleton t d _ =>
    simp at h ⊢
    exact h

theorem stringNewline_multi {L : Lexer} {s : StrState} {pre0 o b cs : Str}
    (h : SInv L s pre0 o b ('\n' :: cs)) (hb : L.bytePos = blen (pre0 ++ o ++ b))
    (hm : isMulti s.quote = true) :
    ∃ t, stringNewline L s cs = some (L.newline, { s with text := t }, cs, true) ∧
      t.getD (b ++ ['\n']) =
        (if b.getLast? = some '\r' then (s.text.getD b).dropLast else s.text.getD b) ++ ['\n'] := by
  unfold stringNewline
  rw [h.st.peekPrev hb]
  simp only [Option.bind_eq_bind, Option.bind_some, h.last_cr, isMulti_eq, hm, Bool.not_true,
    Bool.false_eq_true, if_false]
  by_cases hcr : b.getLast? = some '\r'
  · have hb' := getLast?_some_app hcr
    have hbl : 1 ≤ L.bytePos := by
      rw [hb, hb']; simp only [blen_append, blen_cons, blen_nil]
      have : '\r'.utf8Size = 1 := by decide
      omega
    have hsub : subU L.bytePos 1 = some (blen (pre0 ++ o ++ b.dropLast)) := by
      rw [subU, if_pos hbl, hb]
      congr 1
      conv => lhs; rw [hb']
      simp only [blen_append, blen_cons, blen_nil]
      have : '\r'.utf8Size = 1 := by decide
      omega
    simp only [hcr, decide_true, if_true, hsub, Option.bind_some]
    cases ht : s.text with
    | some T =>
      exact ⟨some (T.dropLast ++ ['\n']), by simp [StrState.pushChar], by simp⟩
    | none =>
      have hsl : slice L.input s.textByteStart (blen (pre0 ++ o ++ b.dropLast)) = some b.dropLast := by
        refine slice_of (x := pre0 ++ o) (z := '\r' :: '\n' :: cs) ?_ h.tbs rfl
        rw [h.st.input]
        conv => lhs; rw [hb']
        simp
      rw [hsl]
      exact ⟨some (b.dropLast ++ ['\n']), by simp [StrState.pushChar], by simp⟩
  · simp only [hcr, decide_false, Bool.false_eq_true, if_false]
    have : subU L.bytePos 0 = some L.bytePos := by simp [subU]
    rw [this]
    refine ⟨s.text.map (· ++ ['\n']), by simp [StrState.pushChar], ?_⟩
    cases s.text <;> simp

theorem stringNewline_single {L : Lexer} {s : StrState} {pre0 o b cs : Str} {C : Str → Prop}
    (h : SInv L s pre0 o b ('\n' :: cs)) (hb : L.bytePos = blen (pre0 ++ o ++ b))
    (hm : isMulti s.quote = false) :
    ∃ out, stringNewline L s cs = some out ∧
      FlowPost L s.quote pre0 o ('\n' :: cs) C out := by
  have hin := h.st.input
  unfold stringNewline
  rw [h.st.peekPrev hb]
  simp only [Option.bind_eq_bind, Option.bind_some, h.last_cr, isMulti_eq, hm, Bool.not_false,
    if_true]
  -- the end of the line
  obtain ⟨b1, cr, hbc, hnl, hsub⟩ : ∃ b1 cr, b = b1 ++ cr ∧ IsNewline (cr ++ ['\n']) ∧
      subU L.bytePos (if decide (b.getLast? = some '\r') = true then 1 else 0) =
        some (blen (pre0 ++ o ++ b1)) := by
    by_cases hcr : b.getLast? = some '\r'
    · have hb' := getLast?_some_app hcr
      refine ⟨b.dropLast, ['\r'], hb', .inr rfl, ?_⟩
      have hu : '\r'.utf8Size = 1 := by decide
      have e : blen (pre0 ++ o ++ b) = blen (pre0 ++ o ++ b.dropLast) + 1 := by
        conv => lhs; rw [hb']
        simp only [blen_append, blen_cons, blen_nil]
        omega
      simp only [hcr, decide_true, if_true]
      rw [subU, if_pos (by omega), hb, e]
      congr 1
    · refine ⟨b, [], by simp, .inl rfl, ?_⟩
      simp only [hcr, decide_false, Bool.false_eq_true, if_false]
      rw [← hb]; simp [subU]
  rw [hsub]
  simp only [Option.bind_some]
  have hcrnl : '\n' ∉ cr := by
    rcases hnl with h1 | h1
    · cases cr with
      | nil => simp
      | cons x y => simp at h1
    · have : cr = ['\r'] := by
        have := List.append_inj_left' (t₁ := ['\n']) (s₂ := ['\r']) h1 rfl
        exact this
      rw [this]; decide
  have hp : L.posInLine (blen (pre0 ++ o ++ b1)) = some (posOf (pre0 ++ o ++ b1)) :=
    h.st.posInLine (y := cr) (by rw [hbc]; simp) hcrnl
  rw [hp]
  simp only [Option.bind_some]
  generalize he : Error.missingQuote s.quote ⟨L.litStart, posOf (pre0 ++ o ++ b1)⟩ = e
  have hA : SInv (L.error e) { s with text := s.text.map List.dropLast } pre0 o b ('\n' :: cs) :=
    (h.error e).text
  have p : (L.error e).posInLine (blen (pre0 ++ o ++ b1)) = some (posOf (pre0 ++ o ++ b1)) := hp
  have hend := endString_eq hA (t := b1) (d := []) (r := cr ++ '\n' :: cs)
    (te := blen (pre0 ++ o ++ b1)) (le := blen (pre0 ++ o ++ b1))
    (by show L.input = _; rw [hin, hbc]; simp) (by simp) rfl (by simp) p (by simpa using p)
  rw [hend]
  simp only [Option.bind_some]
  generalize hs' : ({ s with text := s.text.map List.dropLast } : StrState) = s' at *
  have hsq : s'.quote = s.quote := by rw [← hs']
  generalize hB : endStringL (L.error e) (tokOf s' pre0 o b1 []) = B
  have hBst : St B (pre0 ++ o ++ b) ('\n' :: cs) := by rw [← hB]; exact hA.st.congr rfl rfl rfl
  have hBb : B.bytePos = blen (pre0 ++ o ++ b) := by rw [← hB]; exact hb
  have hst : St (B.push ⟨.newline, posOf (pre0 ++ o ++ b1)⟩) (pre0 ++ o ++ b) ('\n' :: cs) :=
    hBst.congr rfl rfl rfl
  have hne : cr ++ ['\n'] ≠ [] := by simp
  refine ⟨_, rfl, .done (es := [e]) (lit := o ++ b1) (nl := cr ++ ['\n']) (txt' := s'.text.getD b1)
    ?_ ?_ ?_ (by simp) ?_⟩
  · show B.errors = _
    rw [← hB]; rfl
  · refine SpansIn.one (x := pre0) (y := o ++ b1) (z := cr ++ '\n' :: cs)
      (by rw [hin, hbc]; simp) ?_ (by
        subst he
        refine ⟨o, b1, [], h.opening, by simp, (hbc ▸ h.open_.unclosed).prefix, fun hm => ⟨rfl, by
          simpa using lit_oneLine (d := []) h.opening (by simp)
            (fun hm hb1 => h.oneLine hm (by rw [hbc]; simp [hb1])) hm, .inr ⟨cr ++ ['\n'], cs, hnl, by simp⟩⟩,
          fun hf => (by rw [hm] at hf; cases hf)⟩)
    rw [← he]
    show Span.mk _ _ = _
    rw [h.ls, List.append_assoc]
  · refine ⟨?_, h.opening.head _, fun hm => by
        simpa using lit_oneLine (d := []) h.opening (by simp) (fun hm hb1 => h.oneLine hm (by rw [hbc]; simp [hb1])) hm,
      .inr hnl, ?_, ?_, ?_,
      ⟨o, b1, [], h.opening, by simp, by simp, ?_, ?_, ?_⟩, ?_⟩
    · have := hst.newline hBb
      rw [hbc] at this
      simpa using this
    · show B.inLit = false
      rw [← hB]; rfl
    · show B.input = _
      rw [← hB]; rfl
    · show B.literals = _
      rw [← hB]; rfl
    · intro hE
      have hE' : B.errors = L.errors := hE
      rw [← hB] at hE'
      simp [endStringL, Lexer.error] at hE'
    · refine fun hm' => ⟨by simp, ?_⟩
      intro hb1
      have hcrb : '\\' ∉ cr := by
        rcases hnl with h1 | h1
        · cases cr with
          | nil => simp
          | cons x y => simp at h1
        · rw [List.append_inj_left' (t₁ := ['\n']) (s₂ := ['\r']) h1 rfl]; decide
      have : s.text = none := h.plain hm' (by rw [hbc]; simp [hb1, hcrb]) (by simp)
      rw [← hs']
      simp [this]
    · show B.strings = _
      rw [← hB]; simp [endStringL, tokOf, Lexer.error, hsq]
    · show B.tokens ++ _ = _
      rw [← hB, if_neg hne]; simp [endStringL, Lexer.error, h.ls]
  · intro T _
    refine .inr ⟨by simp, fun txt r => ?_⟩
    rw [strTail_nl, hm]
    simp

theorem eofPos_eq {L : Lexer} {s : StrState} {pre0 o b : Str} (h : SInv L s pre0 o b [])
    (hb : L.bytePos = blen (pre0 ++ o ++ b)) :
    ∃ x y, L.input = pre0 ++ x ++ y ∧ x ++ y = o ++ b ∧ (y = [] ∨ IsNewline y) ∧ eofPos L = some (posOf (pre0 ++ x)) := by
  have hin := h.st.input
  rw [List.append_nil] at hin
  unfold eofPos
  rw [h.pos hb]
  simp only [Option.bind_eq_bind, Option.bind_some]
  by_cases hnl : L.input.getLast? = some '\n'
  · rw [if_pos hnl]
    obtain ⟨o', ho⟩ : ∃ o', o ++ b = quoteChar s.quote :: o' := by
      have := h.opening.head b
      cases hob : o ++ b with
      | nil => rw [hob] at this; cases this
      | cons c o' => rw [hob] at this; simp at this; exact ⟨o', by rw [this]⟩
    have hin2 : L.input = pre0 ++ quoteChar s.quote :: o' := by rw [hin, List.append_assoc, ho]
    -- the last line break
    have ho' : o'.getLast? = some '\n' := by
      rw [hin2, getLast?_app (by simp)] at hnl
      cases o' with
      | nil => exact absurd (by simpa using hnl) (quoteChar_ne_nl s.quote)
      | cons c o' => simpa using hnl
    have ho1 := getLast?_some_app ho'
    generalize o'.dropLast = o1 at ho1
    subst ho1
    have hdl : L.input.dropLast = pre0 ++ quoteChar s.quote :: o1 := by
      rw [hin2, ← List.cons_append, ← List.append_assoc, List.dropLast_concat]
    obtain ⟨x, cr, hxc, hcr, hcn, hsub⟩ : ∃ x cr, quoteChar s.quote :: o1 = x ++ cr ∧ '\n' ∉ cr ∧
        IsNewline (cr ++ ['\n']) ∧
        subU (blen L.input) (if L.input.dropLast.getLast? = some '\r' then 2 else 1) =
          some (blen (pre0 ++ x)) := by
      have hu : '\n'.utf8Size = 1 := by decide
      have hu' : '\r'.utf8Size = 1 := by decide
      by_cases hcr : L.input.dropLast.getLast? = some '\r'
      · have hl : (quoteChar s.quote :: o1).getLast? = some '\r' := by
          rw [hdl, getLast?_app (by simp)] at hcr; exact hcr
        have hl2 := getLast?_some_app hl
        generalize (quoteChar s.quote :: o1).dropLast = x at hl2
        refine ⟨x, ['\r'], hl2, by decide, .inr rfl, ?_⟩
        have e : blen L.input = blen (pre0 ++ x) + 2 := by
          rw [hin2, ← List.cons_append, hl2]
          simp only [blen_append, blen_cons, blen_nil]; omega
        simp only [hcr, decide_true, if_true]
        rw [subU, if_pos (by omega), e]; congr 1
      · refine ⟨quoteChar s.quote :: o1, [], by simp, by simp, .inl rfl, ?_⟩
        have e : blen L.input = blen (pre0 ++ quoteChar s.quote :: o1) + 1 := by
          rw [hin2]
          simp only [blen_append, blen_cons, blen_nil]; omega
        simp only [hcr, decide_false, Bool.false_eq_true, if_false]
        rw [subU, if_pos (by omega), e]; congr 1
    have hin3 : L.input = pre0 ++ x ++ (cr ++ ['\n']) := by
      rw [hin2, ← List.cons_append, hxc]; simp
    refine ⟨x, cr ++ ['\n'], hin3, by rw [ho, ← List.cons_append, hxc, List.append_assoc], .inr hcn, ?_⟩
    rw [hsub]
    simp only [Option.bind_some]
    have hsl : sliceTo (blen (pre0 ++ x)) L.input = some (pre0 ++ x) := by
      rw [hin3, sliceTo_app]
    rw [hsl]
    simp only [Option.bind_some]
    have hp : posOf (pre0 ++ o ++ b) = ⟨(posOf (pre0 ++ x)).line + 1, 0⟩ := by
      rw [← hin, hin3, ← List.append_assoc, posOf_nl, posOf_app _ hcr]
    rw [hp]
    dsimp only
    rw [subU, if_pos (by omega)]
    rfl
  · rw [if_neg hnl]
    exact ⟨o ++ b, [], by rw [hin]; simp, by simp, .inl rfl, by rw [← List.append_assoc]; rfl⟩

theorem stringIter_post {L : Lexer} {s : StrState} {pre0 o b rest : Str}
    (h : SInv L s pre0 o b rest) :
    ∃ out, stringIter L s rest = some out ∧
      FlowPost L s.quote pre0 o rest (Clean s b rest) out := by
  have hnb := h.st.nextBytePos
  unfold stringIter
  obtain ⟨A, r, w, es, e1, e2, e3, e4, e5, e6, e7, e8, e9, e10⟩ := strScan_post rest L b h
  rw [e1]
  simp only [Option.bind_eq_bind, Option.bind_some]
  have hE : ∀ e : Error, (A.error e).errors = L.errors ++ (es ++ [e]) := by
    intro e; rw [← List.append_assoc, ← e6]; rfl
  cases r with
  | none =>
    simp only [scanTail] at e2 e3
    obtain ⟨x, y, hxy, hob, hy, hp⟩ := eofPos_eq e3 e4
    simp only [hp, Option.bind_some]
    generalize he : Error.missingQuote s.quote ⟨A.litStart, posOf (pre0 ++ x)⟩ = e
    have hB := e3.error e
    have p : (A.error e).posInLine A.bytePos = some (posOf (pre0 ++ o ++ (b ++ w))) := hB.pos e4
    have hend := endString_eq hB (t := b ++ w) (d := []) (r := []) (te := A.bytePos)
      (le := A.bytePos) (by simpa [Lexer.error] using e3.st.input) (by simp) e4 (by simpa using e4) p
      (by simpa using p)
    rw [show (A.error e).bytePos = A.bytePos from rfl, hend]
    simp only [Option.bind_some]
    have hlast : St (A.error e) (pre0 ++ (o ++ (b ++ w) ++ [])) [] := by
      have := hB.st
      simpa using this
    have hdone := strDone_of (L := L) (s := s) (t := b ++ w) (d := []) (e5.error e) h.opening h.ls
      (by simp) hlast (fun hh => by rw [hE e] at hh; simp at hh) hB.oneLine (fun hm hb => hB.plain hm hb (by simp))
    refine ⟨_, rfl, .done (es := es ++ [e]) (hE e) ?_ (hdone (fun _ => by simp)) (by simp) ?_⟩
    · refine e7.append (SpansIn.one (x := pre0) (y := x) (z := y) (e5.input ▸ hxy) ?_ (by
        subst he
        refine ⟨o, b ++ w, y, h.opening, hob, e3.open_.unclosed, fun hm => ?_, fun _ => ⟨rfl, hy⟩⟩
        have hno : '\n' ∉ x ++ y := by
          rw [hob]; simpa using lit_oneLine (d := []) h.opening (by simp) e3.oneLine hm
        have hy0 : y = [] := by
          rcases hy with hy | hy
          · exact hy
          · exact absurd (by rcases hy with rfl | rfl <;> simp) hno
        exact ⟨hy0, fun hx => hno (by simp [hx]), .inl hy0⟩))
      rw [← he]
      show Span.mk _ _ = _
      rw [e5.ls, h.ls]
    · intro T _
      refine .inr ⟨by simp, ?_⟩
      rcases e10 with ⟨-, w0, cr, h2, h3, h4⟩ | ⟨-, h2⟩
      · have hcr : cr = [] := by
          rcases h4 with h4 | ⟨-, -, h4⟩
          · exact h4
          · cases h4
        intro txt r' hst
        rw [e2, h2, hcr, List.append_nil, strTail_plains h3] at hst
        obtain ⟨t, -, ht⟩ := hst
        exact strTail_nil ht
      · exact h2
  | some p =>
    obtain ⟨c, cs⟩ := p
    simp only [scanTail] at e2 e3 e10
    have hsub : slice A.input (L.nextBytePos rest) A.bytePos = some w := by
      refine slice_of (x := pre0 ++ o ++ b) (z := c :: cs) ?_ hnb ?_
      · rw [e3.st.input]; simp
      · rw [e4]; simp
    -- the text with the scanned part
    obtain ⟨S, hS⟩ : ∃ S : StrState, { s with text := s.text.map (· ++ w) } = S := ⟨_, rfl⟩
    have hs1 : pushScanned A s (L.nextBytePos rest) = some S := by
      rw [← hS]
      unfold pushScanned
      rw [hsub]
      obtain ⟨t, a, b, c⟩ := s
      cases t <;> rfl
    rw [hs1]
    simp only [Option.bind_some]
    have hSq : S.quote = s.quote := by rw [← hS]
    have hST : S.text.getD (b ++ w) = s.text.getD b ++ w := by
      rw [← hS]; cases s.text <;> simp
    have h3 : SInv A S pre0 o (b ++ w) (c :: cs) := by rw [← hS]; exact e3.text
    have hlen : (c :: cs).length ≤ rest.length := by rw [e2]; simp
    -- the scanned part is plain, unless a line break follows
    have hplain : c ≠ '\n' → ∀ T, Clean s b rest T →
        (es = [] ∧ ∀ txt r, StrTail s.quote rest txt r ↔
            ∃ t, txt = w ++ t ∧ StrTail s.quote (c :: cs) t r) ∨
        (es ≠ [] ∧ ∀ txt r, ¬ StrTail s.quote rest txt r) := by
      intro hcn T _
      rcases e10 with ⟨h1, w0, cr, h2, h3, h4⟩ | h2
      · have hcr : cr = [] := by
          rcases h4 with h4 | ⟨-, -, h4⟩
          · exact h4
          · simp at h4; exact absurd h4 hcn
        left
        refine ⟨h1, fun txt r => ?_⟩
        rw [e2, strTail_plains]
        rw [h2, hcr, List.append_nil]
        exact h3
      · exact .inr h2
    rw [quoteChar_eq, hSq]
    by_cases hc1 : c = quoteChar s.quote
    · rw [if_pos hc1]
      rw [hc1, ← hSq] at h3
      obtain ⟨out, ho, hpost⟩ := stringClosingQuote_post h3 e4
      rw [hSq, ← hc1] at hpost
      refine ⟨out, ho, FlowPost.pre e5 e6 e7 hlen ?_ hpost⟩
      intro T hT
      rcases hplain (by rw [hc1]; exact quoteChar_ne_nl _) T hT with ⟨g1, g2⟩ | g
      · exact .inl ⟨g1, w, by rw [hST, hT.1], g2⟩
      · exact .inr g
    · rw [if_neg hc1]
      by_cases hc2 : c = '\n'
      · subst hc2
        rw [if_pos rfl]
        by_cases hm : isMulti s.quote = true
        · obtain ⟨t, ht1, ht2⟩ := stringNewline_multi h3 e4 (by rw [hSq]; exact hm)
          refine ⟨_, ht1, .cont (es := es) (b' := b ++ w ++ ['\n']) hSq e6 e7 ?_ e5.newline
            (by simp at hlen; omega) ?_⟩
          · have hn := h3.newline e4 (by rw [hSq]; exact hm)
            exact ⟨hn.opening, hn.st, hn.lbs, hn.ls, hn.tbs, hn.ts, hn.oneLine,
              fun hf => (by rw [show isMulti S.quote = true by rw [hSq]; exact hm] at hf; cases hf), hn.open_⟩
          · intro T hT
            rcases e10 with ⟨h1, w0, cr, h2, hw0, h4⟩ | h2
            · left
              have hlast : (w0 = [] ∧ cr = [] → b.getLast? ≠ some '\r') := by
                rintro ⟨rfl, rfl⟩ hh
                refine hT.2 hh ?_
                rw [e2, h2]; rfl
              have hw0l : w0.getLast? ≠ some '\r' := by
                intro hh
                exact not_plain_cr (hw0 _ (List.mem_of_getLast? hh))
              refine ⟨h1, w0 ++ ['\n'], ⟨?_, by simp⟩, ?_⟩
              · rw [ht2, hST, hT.1, h2]
                rcases h4 with rfl | ⟨rfl, -⟩
                · rw [List.append_nil, if_neg, List.append_assoc]
                  cases w0 with
                  | nil => rw [List.append_nil]; exact hlast ⟨rfl, rfl⟩
                  | cons x w0 => rw [getLast?_app (by simp)]; exact hw0l
                · rw [if_pos (by rw [← List.append_assoc]; simp)]
                  rw [← List.append_assoc, List.dropLast_concat, List.append_assoc]
              · intro txt r
                rw [e2, h2, List.append_assoc, strTail_plains hw0]
                constructor
                · rintro ⟨t', rfl, ht'⟩
                  rcases h4 with rfl | ⟨rfl, -⟩
                  · obtain ⟨-, t2, rfl, h⟩ := strTail_nl.1 ht'
                    exact ⟨t2, by simp, h⟩
                  · obtain ⟨t2, rfl, h⟩ := (strTail_crlf hm).1 ht'
                    exact ⟨t2, by simp, h⟩
                · rintro ⟨t', rfl, ht'⟩
                  refine ⟨'\n' :: t', by simp, ?_⟩
                  rcases h4 with rfl | ⟨rfl, -⟩
                  · exact strTail_nl.2 ⟨hm, t', rfl, ht'⟩
                  · exact (strTail_crlf hm).2 ⟨t', rfl, ht'⟩
            · exact .inr h2
        · have hm' : isMulti s.quote = false := by simpa using hm
          obtain ⟨out, ho, hpost⟩ := stringNewline_single (C := fun _ => True) h3 e4
            (by rw [hSq]; exact hm')
          rw [hSq] at hpost
          refine ⟨out, ho, FlowPost.pre e5 e6 e7 hlen ?_ hpost⟩
          intro T hT
          rcases e10 with ⟨h1, w0, cr, h2, hw0, h4⟩ | h2
          · left
            refine ⟨h1, w0, trivial, fun txt r => ?_⟩
            have hcr : cr = [] := by
              rcases h4 with h4 | ⟨-, h4, -⟩
              · exact h4
              · exact absurd h4 hm
            rw [e2, h2, hcr, List.append_nil, strTail_plains hw0]
          · exact .inr h2
      · rw [if_neg hc2]
        have hbs : c = '\\' ∧ hasEscapes s.quote = true := by
          rcases e9 c cs rfl with h | h | h
          · exact absurd h hc1
          · exact absurd h hc2
          · exact h
        obtain ⟨rfl, hq⟩ := hbs
        rw [hasEscapes_eq, hq]
        simp only [decide_true, Bool.and_self, if_true]
        have hsl : slice A.input S.textByteStart A.bytePos = some (b ++ w) := by
          refine slice_of (x := pre0 ++ o) (z := '\\' :: cs) ?_ h3.tbs e4
          rw [h3.st.input]
        have hs2 : ownText A S = some { S with text := some (S.text.getD (b ++ w)) } := by
          unfold ownText
          rw [hsl]
          obtain ⟨t, a, b, c⟩ := S
          cases t <;> rfl
        rw [hs2]
        simp only [Option.bind_some, h3.pos e4]
        obtain ⟨out, ho, hpost⟩ := stringEscape_post (L := A)
          (s := { S with text := some (S.text.getD (b ++ w)) }) (by
            show hasEscapes S.quote = true; rw [hSq]; exact hq)
          ⟨h3.opening, h3.st, h3.lbs, h3.ls, h3.tbs, h3.ts, h3.oneLine, fun _ _ hh => absurd rfl hh, h3.open_⟩ e4
        dsimp only at hpost
        rw [hSq] at hpost
        refine ⟨out, ho, FlowPost.pre e5 e6 e7 hlen ?_ hpost⟩
        intro T hT
        rcases hplain (by decide) T hT with ⟨g1, g2⟩ | g
        · exact .inl ⟨g1, w, by rw [hST, hT.1], g2⟩
        · exact .inr g

theorem stringLoop_post {pre0 o : Str} :
    ∀ (fuel : Nat) (L : Lexer) (s : StrState) (b rest : Str), SInv L s pre0 o b rest →
      rest.length < fuel →
      ∃ L' s' rest', stringLoop fuel L s rest = some (L', rest') ∧
        FlowPost L s.quote pre0 o rest (Clean s b rest) (L', s', rest', false) := by
  intro fuel
  induction fuel with
  | zero => intro L s b rest h hf; omega
  | succ fuel ih =>
    intro L s b rest h hf
    unfold stringLoop
    obtain ⟨out, ho, hpost⟩ := stringIter_post h
    rw [ho]
    simp only [Option.bind_eq_bind, Option.bind_some]
    cases hpost with
    | @cont L' s' rest' es b' h1 h2 h3 h4 h5 h6 h7 =>
      simp only [if_true]
      obtain ⟨L2, s2, rest2, g1, g2⟩ := ih L' s' b' rest' h4 (by omega)
      rw [h1] at g2
      exact ⟨L2, s2, rest2, g1, FlowPost.pre h5 h2 h3 (Nat.le_of_lt h6) h7 g2⟩
    | @done L' s' rest' es lit nl txt' h1 h2 h3 h4 h5 =>
      exact ⟨L', s', rest', rfl, .done h1 h2 h3 h4 h5⟩

end Verif.Toml
