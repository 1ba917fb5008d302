import Verif.Toml.LexStr

/-! # Lemmas: closing quotes -/

namespace Verif.Toml
open Verif Verif.Spec.Toml

theorem blen_replicate {c : Char} (hc : c.utf8Size = 1) (n : Nat) : blen (List.replicate n c) = n := by
  induction n with
  | zero => rfl
  | succ n ih => rw [List.replicate_succ, blen_cons, ih, hc]; omega

theorem nl_not_mem_replicate {c : Char} (hc : c ≠ '\n') (n : Nat) : '\n' ∉ List.replicate n c := by
  rw [List.mem_replicate]; exact fun h => hc h.2.symm

/-- Every text is a run of `c` and a text that does not start with `c`. -/
theorem run_split (c : Char) (s : Str) : ∃ n r, s = List.replicate n c ++ r ∧ r.head? ≠ some c := by
  induction s with
  | nil => exact ⟨0, [], rfl, by simp⟩
  | cons x s ih =>
    by_cases h : x = c
    · obtain ⟨n, r, rfl, hr⟩ := ih
      exact ⟨n + 1, r, by rw [List.replicate_succ, h]; rfl, hr⟩
    · exact ⟨0, x :: s, rfl, by simpa using h⟩

theorem SInv.congr {L L' : Lexer} {s s' : StrState} {pre0 o b rest : Str}
    (h : SInv L s pre0 o b rest) (hs : SameToks L L') (h1 : L'.lineIdx = L.lineIdx)
    (h2 : L'.lineByteStart = L.lineByteStart) (q1 : s'.quote = s.quote)
    (q2 : s'.textByteStart = s.textByteStart) (q3 : s'.textStart = s.textStart)
    (q4 : s.text = none → s'.text = none) :
    SInv L' s' pre0 o b rest :=
  ⟨q1 ▸ h.opening, h.st.congr hs.input h1 h2, hs.lbs.trans h.lbs, hs.ls.trans h.ls,
    q2.trans h.tbs, q3.trans h.ts, fun hm => h.oneLine (q1 ▸ hm), fun hm hb hr => q4 (h.plain (q1 ▸ hm) hb hr), q1 ▸ h.open_⟩

theorem SInv.step {L : Lexer} {s : StrState} {pre0 o b cs : Str} {c : Char}
    (h : SInv L s pre0 o b (c :: cs)) (hc : c ≠ '\n') (ho : Open s.quote (b ++ [c]) cs) :
    SInv L s pre0 o (b ++ [c]) cs :=
  ⟨h.opening, by simpa using h.st.step hc, h.lbs, h.ls, h.tbs, h.ts, fun hm => by
    simpa [Ne.symm hc] using h.oneLine hm, fun hm hb _ => by
      simp only [List.mem_append, List.mem_singleton, not_or] at hb
      exact h.plain hm hb.1 (by simpa using Ne.symm hb.2), ho⟩

theorem SInv.app {L : Lexer} {s : StrState} {pre0 o b w cs : Str}
    (h : SInv L s pre0 o b (w ++ cs)) (hc : '\n' ∉ w) (ho : Open s.quote (b ++ w) cs) : SInv L s pre0 o (b ++ w) cs :=
  ⟨h.opening, by simpa using h.st.app hc, h.lbs, h.ls, h.tbs, h.ts, fun hm => by
    simpa [hc] using h.oneLine hm, fun hm hb hr => by
      simp only [List.mem_append, not_or] at hb
      refine h.plain hm hb.1 ?_
      cases w with
      | nil => exact hr
      | cons x w => simpa using fun hx => hb.2 (by simp [hx]), ho⟩

theorem skipQuotes_eq {q : Char} (hq : q.utf8Size = 1) {x r : Str} (hr : r.head? ≠ some q) :
    ∀ (m : Nat) (L : Lexer) (i : Nat), L.input = x ++ List.replicate i q ++ List.replicate m q ++ r →
      L.bytePos = blen x + i - 1 →
      skipQuotes q L (List.replicate m q ++ r) = ({ L with bytePos := blen x + i + m - 1 }, r) := by
  intro m
  induction m with
  | zero =>
    intro L i _ hb
    rw [List.replicate_zero, List.nil_append, Nat.add_zero, ← hb]
    cases r with
    | nil => rfl
    | cons c r => rw [skipQuotes, if_neg (by simpa using hr)]
  | succ m ih =>
    intro L i hi _
    rw [List.replicate_succ, List.cons_append, skipQuotes, if_pos rfl]
    have hb : (L.atNext (q :: (List.replicate m q ++ r))).bytePos = blen x + (i + 1) - 1 := by
      simp only [Lexer.atNext, Lexer.nextBytePos, hi, blen_append, blen_cons, blen_replicate hq, hq]
      omega
    have hin : L.input = x ++ List.replicate (i + 1) q ++ List.replicate m q ++ r := by
      rw [hi, List.replicate_succ, List.replicate_succ']
      simp
    rw [ih (L.atNext _) (i + 1) hin hb]
    simp only [Lexer.atNext, Prod.mk.injEq, Lexer.mk.injEq, and_true, true_and]
    omega

theorem pos_run {L : Lexer} {pre rest : Str} {q : Char} (hq : q.utf8Size = 1) (hn : q ≠ '\n')
    (h : St L pre rest) {i : Nat} (hb : L.bytePos = blen pre + i) :
    L.pos = some (posOf (pre ++ List.replicate i q)) :=
  h.posAhead (nl_not_mem_replicate hn i) (by rw [hb, blen_append, blen_replicate hq])

theorem closeMultiline_eq {L : Lexer} {s : StrState} {pre r : Str} {q : Char} {n te : Nat}
    (hq : q.utf8Size = 1) (hn : q ≠ '\n') (h : St L pre (List.replicate (n + 3) q ++ r))
    (hr : r.head? ≠ some q) (hb : L.bytePos = blen pre + 2) :
    closeMultiline q L s (List.replicate n q ++ r) te =
      some ({ L with
          bytePos := blen pre + n + 2
          errors := L.errors ++ (if n ≤ 2 then [] else
            [.excessiveQuotes s.quote
              ⟨posOf (pre ++ List.replicate 4 q), posOf (pre ++ List.replicate (n + 3) q)⟩]) },
        { s with text := s.text.map (· ++ List.replicate (min n 2) q) }, r, te + min n 2) := by
  have hin := h.input
  match n with
  | 0 =>
    simp [closeMultiline, extraQuote, hr, hb]
    rw [← hb]
  | 1 =>
    have : (L.atNext (q :: r)).bytePos = blen pre + 1 + 2 := by
      simp only [Lexer.atNext, Lexer.nextBytePos, hin, blen_append, blen_cons, blen_replicate hq, hq]
      omega
    simp [closeMultiline, extraQuote, hr, List.replicate_succ, StrState.pushChar]
    simp only [Lexer.atNext, Lexer.mk.injEq, and_true, true_and] at this ⊢
    exact this
  | 2 =>
    have : (L.atNext (q :: r)).bytePos = blen pre + 2 + 2 := by
      simp only [Lexer.atNext, Lexer.nextBytePos, hin, blen_append, blen_cons, blen_replicate hq, hq]
      omega
    have this' : ((L.atNext (q :: q :: r)).atNext (q :: r)).bytePos = blen pre + 2 + 2 := this
    simp [closeMultiline, extraQuote, hr, List.replicate_succ, StrState.pushChar,
      Function.comp_def]
    simp only [Lexer.atNext, Lexer.mk.injEq, and_true, true_and] at this' ⊢
    exact this'
  | m + 3 =>
    have e1 : List.replicate (m + 3) q ++ r = q :: q :: q :: (List.replicate m q ++ r) := by
      simp [List.replicate_succ]
    have hmin : min (m + 3) 2 = 2 := by omega
    rw [e1]
    unfold closeMultiline extraQuote
    simp only [List.head?_cons, if_true, List.tail_cons]
    generalize hA : (L.atNext (q :: q :: q :: (List.replicate m q ++ r))).atNext
      (q :: q :: (List.replicate m q ++ r)) = A
    have hAi : A.input = L.input := by rw [← hA]; rfl
    have hAs : St A pre (List.replicate (m + 3 + 3) q ++ r) := by
      rw [← hA]; exact h.congr rfl rfl rfl
    have hAb : A.bytePos = blen pre + 4 := by
      rw [← hA]
      simp only [Lexer.atNext, Lexer.nextBytePos, hin, blen_append, blen_cons, blen_replicate hq, hq]
      omega
    have hp1 := pos_run hq hn hAs hAb
    have hBi : (A.atNext (q :: (List.replicate m q ++ r))).input =
        pre ++ List.replicate 6 q ++ List.replicate m q ++ r := by
      show A.input = _
      rw [hAi, hin, List.append_assoc pre, List.append_assoc pre, List.append_assoc,
        ← List.append_assoc (List.replicate 6 q), List.replicate_append_replicate,
        Nat.add_comm 6 m]
    have hBb : (A.atNext (q :: (List.replicate m q ++ r))).bytePos = blen pre + 6 - 1 := by
      simp only [Lexer.atNext, Lexer.nextBytePos, hAi, hin, blen_append, blen_cons,
        blen_replicate hq, hq]
      omega
    have hsk := skipQuotes_eq hq hr m _ 6 hBi hBb
    have hp2 : Lexer.pos { A.atNext (q :: (List.replicate m q ++ r)) with
        bytePos := blen pre + 6 + m - 1 } = some (posOf (pre ++ List.replicate (m + 5) q)) := by
      refine pos_run hq hn (rest := List.replicate (m + 3 + 3) q ++ r) ?_ ?_
      · exact hAs.congr rfl rfl rfl
      · show blen pre + 6 + m - 1 = _
        omega
    rw [hp1, hsk]
    simp only [Option.bind_eq_bind, Option.bind_some]
    rw [hp2]
    simp only [Option.bind_some]
    have e2 : (posOf (pre ++ List.replicate (m + 5) q)).plus 1 =
        posOf (pre ++ List.replicate (m + 3 + 3) q) := by
      rw [List.replicate_succ' (n := m + 3 + 2), ← List.append_assoc, posOf_snoc _ hn, hq]
      rfl
    rw [e2, if_neg (by omega), hmin]
    simp only [StrState.pushChar, Lexer.error, Lexer.atNext, Option.pure_def, Option.some.injEq,
      Prod.mk.injEq, Lexer.mk.injEq, StrState.mk.injEq, and_true, true_and]
    rw [← hA]
    refine ⟨⟨rfl, rfl, rfl, ?_, rfl, rfl, rfl, rfl, rfl, rfl, rfl⟩, ?_⟩
    · omega
    · cases s.text <;> simp [List.replicate_succ]

theorem quote_app_nl {q : Quote} {o t d r : Str} (ho : Opening q o) : (o ++ t ++ d ++ r).head? =
    some (quoteChar q) := by
  rw [List.append_assoc, List.append_assoc]; exact ho.head _

theorem Opening.oneLine {q : Quote} {o : Str} (h : Opening q o) (hm : isMulti q = false) : '\n' ∉ o := by
  have := quoteChar_ne_nl q
  cases h with
  | single _ => simpa using Ne.symm this
  | multi h => rw [hm] at h; cases h
  | multiLf h => rw [hm] at h; cases h
  | multiCrlf h => rw [hm] at h; cases h

theorem lit_oneLine {q : Quote} {o t d : Str} (ho : Opening q o) (hd : ∀ c ∈ d, c = quoteChar q)
    (ht : isMulti q = false → '\n' ∉ t) (hm : isMulti q = false) : '\n' ∉ o ++ t ++ d := by
  simp only [List.mem_append, not_or]
  exact ⟨⟨Opening.oneLine ho hm, ht hm⟩, fun h => quoteChar_ne_nl q (hd _ h).symm⟩

/-- The post-condition when `end_string` closes the token without a line break. -/
theorem strDone_of {L L1 : Lexer} {s : StrState} {pre0 o t d rest : Str}
    (hs : SameToks L L1) (ho : Opening s.quote o) (hls : L.litStart = posOf pre0)
    (hd : ∀ c ∈ d, c = quoteChar s.quote) (hst : St L1 (pre0 ++ (o ++ t ++ d)) rest)
    (hcl : L1.errors = L.errors → d ≠ [] ∧ d.length < 256) (ht : isMulti s.quote = false → '\n' ∉ t)
    (hp : isMulti s.quote = false → '\\' ∉ t → s.text = none) (h1 : isMulti s.quote = false → d.length ≤ 1) :
    StrDone L pre0 s.quote (endStringL L1 (tokOf s pre0 o t d)) (o ++ t ++ d) [] rest
      (s.text.getD t) := by
  refine ⟨?_, ?_, lit_oneLine ho hd ht, .inl rfl, rfl, hs.input, hs.literals, ⟨o, t, d, ho, rfl, hd, hcl,
    fun hm => ⟨h1 hm, fun hb => by rw [hp hm hb]; rfl⟩, ?_⟩, ?_⟩
  · rw [List.append_nil]; exact hst.congr rfl rfl rfl
  · rw [List.append_assoc]; exact ho.head _
  · simp only [endStringL, hs.strings, tokOf]
  · simp [endStringL, hs.tokens, hs.strings, hs.ls, hls]

theorem stringClosingQuote_post {L : Lexer} {s : StrState} {pre0 o b rest : Str}
    (h : SInv L s pre0 o b (quoteChar s.quote :: rest)) (hb : L.bytePos = blen (pre0 ++ o ++ b)) :
    ∃ out, stringClosingQuote L s rest = some out ∧
      FlowPost L s.quote pre0 o (quoteChar s.quote :: rest) (fun T => s.text.getD b = T) out := by
  have hq := quoteChar_size s.quote
  have hn := quoteChar_ne_nl s.quote
  have hcr := quoteChar_ne_cr s.quote
  have hin := h.st.input
  unfold stringClosingQuote
  simp only [quoteChar_eq, isMulti_eq]
  generalize hqc : quoteChar s.quote = q at *
  by_cases hm : isMulti s.quote = true
  · rw [if_pos hm]
    obtain ⟨j, r, rfl, hr⟩ := run_split q rest
    match j with
    | 0 =>
      rw [List.replicate_zero, List.nil_append, if_neg hr]
      refine ⟨_, rfl, .cont (es := []) (b' := b ++ [q]) rfl (by simp) SpansIn.nil ?_ (.refl L)
        (by simp) ?_⟩
      · exact (h.step hn (by rw [← hqc]; exact .quote1 hm (hqc ▸ h.open_) (by rw [hqc]; exact hr))).congr (.refl L) rfl rfl rfl rfl rfl (fun h => by simp [StrState.pushChar, h])
      · rintro T rfl
        refine .inl ⟨rfl, [q], ⟨?_, ?_⟩, ?_⟩
        · cases ht : s.text <;> simp [StrState.pushChar, ht]
        · simp [hcr]
        · intro txt r'
          have := strTail_quotes (q := s.quote) (m := 1) (src := r) (txt := txt) (r := r') hm
            (by rw [hqc]; exact hr) (by omega)
          rw [hqc] at this
          simpa using this
    | 1 =>
      have e1 : List.replicate 1 q ++ r = q :: r := rfl
      rw [e1, List.head?_cons, if_pos rfl, List.tail_cons, if_neg hr]
      refine ⟨_, rfl, .cont (es := []) (b' := b ++ [q, q]) rfl (by simp [Lexer.atNext]) SpansIn.nil ?_
        ((SameToks.refl L).atNext _) (by simp; omega) ?_⟩
      · have h2 := SInv.app (w := [q, q]) (cs := r) (b := b) (L := L) (s := s) h (by simp [hn.symm])
          (by rw [← hqc]; exact .quote2 hm (hqc ▸ h.open_) (by rw [hqc]; exact hr))
        exact h2.congr ((SameToks.refl L).atNext _) rfl rfl rfl rfl rfl (fun h => by simp [StrState.pushChar, h])
      · rintro T rfl
        refine .inl ⟨rfl, [q, q], ⟨?_, ?_⟩, ?_⟩
        · cases ht : s.text <;> simp [StrState.pushChar, ht]
        · simp [hcr]
        · intro txt r'
          have := strTail_quotes (q := s.quote) (m := 2) (src := r) (txt := txt) (r := r') hm
            (by rw [hqc]; exact hr) (by omega)
          rw [hqc] at this
          simpa [List.replicate_succ] using this
    | n + 2 =>
      have e1 : List.replicate (n + 2) q ++ r = q :: q :: (List.replicate n q ++ r) := by
        simp [List.replicate_succ]
      rw [e1]
      simp only [List.head?_cons, if_true, List.tail_cons]
      generalize hA : (L.atNext (q :: q :: (List.replicate n q ++ r))).atNext
        (q :: (List.replicate n q ++ r)) = A
      have hAs : SameToks L A := by
        rw [← hA]; exact ((SameToks.refl L).atNext _).atNext _
      have e3 : q :: (List.replicate (n + 2) q ++ r) = List.replicate (n + 3) q ++ r := by
        rw [List.replicate_succ (n := n + 2)]; rfl
      rw [e3] at h hin
      have hAst : St A (pre0 ++ o ++ b) (List.replicate (n + 3) q ++ r) := by
        rw [← hA]; exact h.st.congr rfl rfl rfl
      have hAb : A.bytePos = blen (pre0 ++ o ++ b) + 2 := by
        rw [← hA]
        simp only [Lexer.atNext, Lexer.nextBytePos, hin, blen_append, blen_cons,
          blen_replicate hq, hq]
        omega
      rw [closeMultiline_eq hq hn hAst hr hAb]
      simp only [Option.bind_eq_bind, Option.bind_some]
      generalize hes : (if n ≤ 2 then ([] : List Error) else
            [.excessiveQuotes s.quote ⟨posOf (pre0 ++ o ++ b ++ List.replicate 4 q),
              posOf (pre0 ++ o ++ b ++ List.replicate (n + 3) q)⟩]) = es
      generalize hB : ({ A with bytePos := blen (pre0 ++ o ++ b) + n + 2, errors := A.errors ++ es } :
        Lexer) = B
      have hBs : SameToks L B := by
        rw [← hB]; exact ⟨hAs.1, hAs.2, hAs.3, hAs.4, hAs.5, hAs.6, hAs.7⟩
      have hBst : St B (pre0 ++ o ++ b) (List.replicate (n + 3) q ++ r) := by
        rw [← hB]; exact hAst.congr rfl rfl rfl
      generalize hs' : ({ s with text := s.text.map (· ++ List.replicate (min n 2) q) } : StrState)
        = s'
      have hq' : s'.quote = s.quote := by rw [← hs']
      have hSB : SInv B s' pre0 o b (List.replicate (n + 3) q ++ r) := by
        refine ⟨by rw [hq']; exact h.opening, hBst, hBs.lbs.trans h.lbs, hBs.ls.trans h.ls, ?_, ?_, hq' ▸ h.oneLine, fun hf => (by rw [hq', hm] at hf; cases hf), hq' ▸ h.open_⟩
        · rw [← hs']; exact h.tbs
        · rw [← hs']; exact h.ts
      have hnr := nl_not_mem_replicate hn
      have e4 : List.replicate (n + 3) q =
          List.replicate (min n 2) q ++ List.replicate (n + 3 - min n 2) q := by
        rw [List.replicate_append_replicate]; congr 1; omega
      have hBb : B.bytePos = blen (pre0 ++ o ++ b) + n + 2 := by rw [← hB]
      have hend := endString_eq hSB (t := b ++ List.replicate (min n 2) q)
        (d := List.replicate (n + 3 - min n 2) q) (r := r)
        (te := L.bytePos + min n 2) (le := B.bytePos + 1)
        (by rw [hBs.input, hin, e4]; simp)
        (hnr _)
        (by rw [hb]; simp only [blen_append, blen_replicate hq]; omega)
        (by rw [hBb]; simp only [blen_append, blen_replicate hq]; omega)
        (by rw [← List.append_assoc (pre0 ++ o)]
            exact hBst.posAhead (hnr _) (by
              rw [hb]; simp only [blen_append, blen_replicate hq]))
        (by rw [← List.append_assoc (pre0 ++ o), List.append_assoc (pre0 ++ o ++ b), ← e4]
            exact hBst.posAhead (hnr _) (by
              rw [hBb]; simp only [blen_append, blen_replicate hq]; omega))
      rw [hBb] at hend
      rw [hend]
      simp only [Option.bind_some]
      have hlast : St B (pre0 ++ (o ++ (b ++ List.replicate (min n 2) q) ++
          List.replicate (n + 3 - min n 2) q)) r := by
        have := hBst.app (hnr _)
        rw [e4] at this
        simpa using this
      have hdone := strDone_of (t := b ++ List.replicate (min n 2) q)
        (d := List.replicate (n + 3 - min n 2) q) hBs (hq' ▸ h.opening) h.ls
        (by rw [hq', hqc]; exact fun c hc => (List.mem_replicate.1 hc).2) hlast (by
          intro hE
          have hE' : L.errors ++ es = L.errors := by
            refine Eq.trans ?_ hE
            rw [← hB, ← hA]; rfl
          have : n ≤ 2 := by
            by_cases hn2 : n ≤ 2
            · exact hn2
            · rw [← hes, if_neg hn2] at hE'; simp at hE'
          simp only [ne_eq, List.replicate_eq_nil_iff, List.length_replicate]
          omega) (fun hf => by rw [hq', hm] at hf; cases hf) (fun hf => by rw [hq', hm] at hf; cases hf)
      rw [hq'] at hdone
      refine ⟨_, rfl, .done (es := es) ?_ ?_ (hdone (fun h => by rw [hm] at h; cases h)) (by simp; omega) ?_⟩
      · show B.errors = _
        rw [← hB, ← hA]; rfl
      · rw [← hes]
        split
        · exact SpansIn.nil
        · rename_i hn2
          refine SpansIn.one (x := pre0 ++ o ++ b ++ List.replicate 4 q)
            (y := List.replicate (n + 3 - 4) q) (z := r) ?_ ?_
            ⟨pre0 ++ o ++ b, n + 3 - 4, by rw [hqc], by omega, by rw [hqc], by rw [hqc]; exact hr, hm, h.inString⟩
          · rw [hin, List.append_assoc (pre0 ++ o ++ b) (List.replicate 4 q),
              List.replicate_append_replicate]
            rw [show 4 + (n + 3 - 4) = n + 3 by omega]
            simp only [List.append_assoc]
          · rw [List.append_assoc (pre0 ++ o ++ b) (List.replicate 4 q),
              List.replicate_append_replicate]
            rw [show 4 + (n + 3 - 4) = n + 3 by omega]
            rfl
      · rintro T rfl
        have htl : ∀ txt r', StrTail s.quote (List.replicate (n + 3) q ++ r) txt r' ↔
            n ≤ 2 ∧ txt = List.replicate n q ∧ r' = r := by
          intro txt r'
          have := strTail_quotes (q := s.quote) (m := n + 3) (src := r) (txt := txt) (r := r') hm
            (by rw [hqc]; exact hr) (by omega)
          rw [hqc] at this
          rw [this]
          constructor
          · rintro (⟨h1, -⟩ | ⟨-, h1, h2, h3⟩)
            · omega
            · exact ⟨by omega, by simpa using h2, h3⟩
          · rintro ⟨h1, h2, h3⟩
            exact .inr ⟨by omega, by omega, by simpa using h2, h3⟩
        rw [← e1, e3]
        by_cases hn2 : n ≤ 2
        · left
          refine ⟨by rw [← hes, if_pos hn2], rfl, List.replicate n q, ?_, ?_⟩
          · rw [← hs', show min n 2 = n by omega]
            cases ht : s.text <;> simp
          · intro txt r'; rw [htl]; simp [hn2]
        · right
          refine ⟨by rw [← hes, if_neg hn2]; simp, ?_⟩
          intro txt r'; rw [htl]; exact fun hh => hn2 hh.1
  · have hm' : isMulti s.quote = false := by simpa using hm
    rw [if_neg hm]
    have hend := endString_eq h (t := b) (d := [q]) (r := rest) (te := L.bytePos)
      (le := L.bytePos + 1) (by rw [hin]; simp) (by simpa using hn.symm) hb
      (by rw [hb]; simp only [blen_append, blen_cons, blen_nil, hq])
      (by rw [hb]; exact h.st.posInLine (y := []) (by simp) (by simp))
      (h.st.posAhead (by simpa using hn.symm) (by rw [hb]; simp only [blen_append, blen_cons, blen_nil, hq]))
    rw [hend]
    simp only [Option.bind_eq_bind, Option.bind_some]
    have hdone := strDone_of (L := L) (L1 := L) (s := s) (pre0 := pre0) (o := o) (t := b) (d := [q])
      (rest := rest) (.refl L) h.opening h.ls (by simp [hqc]) (by
        have := h.st.step hn
        simpa using this) (by simp) h.oneLine (fun hm hb => h.plain hm hb (by
        rw [← hqc]; cases s.quote <;> simp [quoteChar]))
    refine ⟨_, rfl, .done (es := []) (by simp [endStringL]) SpansIn.nil (hdone (fun _ => by simp)) (by simp) ?_⟩
    rintro T rfl
    refine .inl ⟨rfl, rfl, [], by simp, ?_⟩
    intro txt r'
    have := strTail_quote (q := s.quote) (src := rest) (txt := txt) (r := r') hm'
    rw [hqc] at this
    exact this

end Verif.Toml
