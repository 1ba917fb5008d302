import Verif.Toml.LexMain

/-! # Lemmas: comments and strings in the main loop -/

namespace Verif.Toml
open Verif Verif.Spec.Toml

theorem subU_of {a b c : Nat} (h : a = b + c) : subU a c = some b := by
  rw [subU, if_pos (by omega)]; congr 1; omega

/-- A line break behind a text without line breaks. -/
theorem nl_after : ∀ {a r x R : Str}, '\n' ∉ a → a ++ '\n' :: r = x ++ '\n' :: R → R.length ≤ r.length := by
  intro a
  induction a with
  | nil =>
    intro r x R _ h
    have := congrArg List.length h
    cases x with
    | nil => simp at this; omega
    | cons d x => simp at this; omega
  | cons c a ih =>
    intro r x R ha h
    cases x with
    | nil =>
      simp only [List.cons_append, List.nil_append, List.cons.injEq] at h
      exact absurd (by rw [h.1]; simp) ha
    | cons d x =>
      simp only [List.cons_append, List.cons.injEq] at h
      exact ih (fun hh => ha (by simp [hh])) h.2

theorem comment_step {L : Lexer} {pre w rest : Str} {vs : List (View × Pos)}
    (h : Main L pre w ('#' :: rest) vs) (hb : L.bytePos = blen (pre ++ w)) :
    ∃ L' pre' rest' vs', comment L rest = some (L', rest') ∧
      Step L pre w ('#' :: rest) vs L' pre' [] rest' vs' ∧ rest'.length ≤ rest.length := by
  obtain ⟨A, vs1, a1, a2, a3, a4⟩ := endLiteral_step h hb rfl
  obtain ⟨es0, T0, -, -, -, -, hA, -⟩ := id a4
  rw [hb] at a2
  have hAst : St A (pre ++ w) ('#' :: rest) := by simpa using hA.st
  generalize pre ++ w = P at *
  unfold comment
  rw [a1]
  simp only [Option.bind_eq_bind, Option.bind_some, hAst.pos a2]
  obtain ⟨B, txt, r, es, e1, e2, e3, e4, e5, e6, e7, e8, e9⟩ :=
    commentLoop_post rest A P '#' (hAst.step (by decide)) a2 (by decide) ⟨P, [], rfl, by simp⟩
  rw [e1]
  simp only [Option.bind_some]
  obtain ⟨t0, cr, s1, s2, s3, s4⟩ := comment_split txt r
  have hsz : '#'.utf8Size = 1 := by decide
  have hcrz : '\r'.utf8Size = 1 := by decide
  have hBb : (B.atNext r).bytePos = blen (P ++ ['#'] ++ txt) := e5.atNext_bytePos
  have hBst := e5.atNext
  rw [hBst.peekPrev hBb]
  simp only [Option.bind_some]
  have hlast : ((P ++ ['#'] ++ txt).getLast? == some '\r') = decide (txt.getLast? = some '\r') := by
    cases txt with
    | nil => rw [List.append_nil, getLast?_app (by simp)]; decide
    | cons c t => rw [getLast?_app (by simp)]; rw [Bool.eq_iff_iff]; simp
  rw [hlast, s4]
  have hsub : subU (B.atNext r).bytePos (if decide (cr = ['\r']) = true then 1 else 0) =
      some (blen (P ++ ['#'] ++ t0)) := by
    rw [hBb, s1]
    rcases s2 with rfl | ⟨rfl, -⟩
    · simp [subU]
    · refine subU_of ?_
      simp only [blen_append, blen_cons, blen_nil, decide_true, if_true]
      omega
  rw [hsub]
  simp only [Option.bind_some]
  have hin : (B.atNext r).input = P ++ ['#'] ++ t0 ++ (cr ++ r) := by
    rw [hBst.input, s1]; simp
  have hsl : slice (B.atNext r).input (A.bytePos + 1) (blen (P ++ ['#'] ++ t0)) = some t0 :=
    slice_of hin (by rw [a2]; simp only [blen_append, blen_cons, blen_nil]; omega) rfl
  rw [hsl]
  simp only [Option.bind_some]
  have hnl0 : '\n' ∉ t0 ++ cr := by rw [← s1]; exact e3
  have hcrn : '\n' ∉ cr := fun hh => hnl0 (by simp [hh])
  have hok : es = [] ↔ ∀ c ∈ t0, Allowed c := by
    rw [e9, s1, comment_ok hnl0 e4 s2 s3]
  have hrest : rest = t0 ++ cr ++ r := by rw [e2, s1]
  have hinB : B.input = A.input := e6.input
  have hcov : Covers (.comment t0) ('#' :: t0) := .comment (fun hh => hnl0 (by simp [hh]))
  -- the comment token
  generalize hC : ((B.atNext r).storeLiteral t0).2.push
    ⟨.comment ((B.atNext r).storeLiteral t0).1, posOf P⟩ = C
  have hCst : St C (P ++ ['#'] ++ t0 ++ cr) r := by
    rw [← hC, List.append_assoc (P ++ ['#']), ← s1]; exact hBst.congr rfl rfl rfl
  have hCb : C.bytePos = blen (P ++ ['#'] ++ t0 ++ cr) := by
    rw [← hC, List.append_assoc (P ++ ['#']), ← s1]; exact hBb
  have hCi : C.inLit = false := by rw [← hC]; exact e6.inLit.trans a3
  have hCin : C.input = A.input := by rw [← hC]; exact e6.input
  have hCe : C.errors = A.errors ++ es := by rw [← hC]; exact e7
  have hCs : C.strings = A.strings := by rw [← hC]; exact e6.strings
  have hCl : C.literals = A.literals ++ [t0] := by rw [← hC, ← e6.literals]; rfl
  have hCt : C.tokens = A.tokens ++ [⟨.comment A.literals.length, posOf P⟩] := by
    rw [← hC, ← e6.tokens, ← e6.literals]; rfl
  have hres : resolve C.strings C.literals ⟨.comment A.literals.length, posOf P⟩ =
      some (.comment t0, posOf P) := by
    rw [hCl]; simp [resolve]
  have htk : ∀ R, Stop R ('#' :: rest) → ∀ ts, TokTo R P ('#' :: rest) ts ↔ (∀ c ∈ t0, Allowed c) ∧
      ∃ t, ts = (.comment t0, posOf P) :: t ∧ TokTo R (P ++ '#' :: t0) (cr ++ r) t := by
    intro R hR ts
    rw [hrest] at hR ⊢
    exact tok_comment hR.len hnl0 e4 s2 s3
  rcases e4 with rfl | ⟨r', rfl⟩
  · have hcr0 : cr = [] := by
      rcases s2 with h | ⟨-, h⟩
      · exact h
      · exact absurd rfl h
    subst hcr0
    simp only [List.isEmpty_nil, Bool.not_true, Bool.false_eq_true, if_false, List.tail_nil]
    refine ⟨_, P ++ '#' :: t0, [], vs1 ++ [(.comment t0, posOf P)], rfl, ?_, by simp⟩
    refine a4.trans ⟨es, _, hCe, e8, hCin, ⟨hCt, by rw [hCs]; exact List.prefix_refl _, fun _ t ht => ?_⟩, ?_, ?_⟩
    · rw [List.mem_singleton.1 ht]; exact .of_ne (by simp)
    · refine hA.push (S := []) (I := [t0]) hCin (by simpa using hCst) hCi (by simpa using hCs) hCl
        hCt (by simpa using hres) (.token hA.laid hcov) ?_ (hA.com.snoc (.inl (by simp)) (fun _ _ => rfl))
        (fun he => ⟨(List.append_eq_nil_iff.1 (hCe ▸ he)).1, by simp⟩)
      intro tok htok
      rw [List.mem_singleton] at htok
      subst htok
      exact .of_ne (by simp)
    · by_cases hes : es = []
      · left
        refine ⟨hes, fun R hR ts => ?_⟩
        rw [List.nil_append, htk R hR]
        have := hok.1 hes
        constructor
        · rintro ⟨-, t, rfl, ht⟩; exact ⟨t, rfl, ht⟩
        · rintro ⟨t, rfl, ht⟩; exact ⟨this, t, rfl, ht⟩
      · right
        refine ⟨hes, fun R hR ts => ?_⟩
        rw [List.nil_append, htk R hR]
        exact fun hh => hes (hok.2 hh.1)
  · simp only [List.isEmpty_cons, Bool.not_false, if_true, List.tail_cons]
    have hp : C.posInLine (blen (P ++ ['#'] ++ t0)) = some (posOf (P ++ ['#'] ++ t0)) :=
      hCst.posInLine rfl hcrn
    rw [hp]
    have hnew : IsNewline (cr ++ ['\n']) := by
      rcases s2 with rfl | ⟨rfl, -⟩
      · exact .inl rfl
      · exact .inr rfl
    refine ⟨_, P ++ '#' :: t0 ++ (cr ++ ['\n']), r',
      vs1 ++ [(.comment t0, posOf P), (.newline, posOf (P ++ '#' :: t0))], rfl, ?_,
      by rw [hrest]; simp; omega⟩
    refine a4.trans ⟨es, [⟨.comment A.literals.length, posOf P⟩, ⟨.newline, posOf (P ++ ['#'] ++ t0)⟩],
      hCe, e8, hCin, ⟨?_, (by show A.strings <+: C.strings; rw [hCs]; exact List.prefix_refl _), fun _ t ht => ?_⟩, ?_, ?_⟩
    · show C.tokens ++ _ = _
      rw [hCt]; simp
    · refine .of_ne (fun id => ?_)
      rcases List.mem_cons.1 ht with rfl | ht
      · simp
      · rw [List.mem_singleton] at ht; subst ht; simp
    · refine hA.push (S := []) (I := [t0]) (T := [⟨.comment A.literals.length, posOf P⟩,
        ⟨.newline, posOf (P ++ ['#'] ++ t0)⟩]) hCin ?_ hCi
        (by rw [List.append_nil]; exact hCs) hCl ?_ ?_ ?_ ?_ ?_
        (fun he => ⟨(List.append_eq_nil_iff.1 (hCe ▸ he)).1, by simp⟩)
      · have := (hCst.congr (L' := C.push ⟨.newline, posOf (P ++ ['#'] ++ t0)⟩) rfl rfl rfl).newline hCb
        simpa using this
      · show C.tokens ++ _ = _
        rw [hCt]; simp
      · show List.map (resolve C.strings C.literals) _ = _
        simp only [List.map_cons, List.map_nil, hres]
        simp [resolve]
      · have := Laid.token (Laid.token hA.laid hcov) (.newline hnew)
        simpa using this
      · intro tok htok
        refine .of_ne (fun id => ?_)
        rcases List.mem_cons.1 htok with rfl | htok
        · simp
        · rw [List.mem_singleton] at htok; subst htok; simp
      · have a : Com (vs ++ vs1 ++ [(.comment t0, posOf P)]) [] :=
          hA.com.snoc (.inl (by simp)) (fun _ _ => rfl)
        have b : Com ((vs ++ vs1 ++ [(.comment t0, posOf P)]) ++ [(.newline, posOf (P ++ '#' :: t0))]) r' :=
          a.snoc (.inr rfl) (by simp)
        simpa using b
    · have hn : ∀ R, Stop R ('#' :: rest) → ∀ ts, TokTo R (P ++ '#' :: t0) (cr ++ '\n' :: r') ts ↔
          ∃ t, ts = (.newline, posOf (P ++ '#' :: t0)) :: t ∧
            TokTo R (P ++ '#' :: t0 ++ (cr ++ ['\n'])) r' t := by
        intro R hR ts
        have hlen : R.length ≤ r'.length := by
          rcases hR with rfl | ⟨x, hx⟩
          · simp
          · rw [hrest] at hx
            exact nl_after (a := '#' :: (t0 ++ cr)) (by simpa using hnl0) (by simpa using hx)
        rcases s2 with rfl | ⟨rfl, -⟩
        · exact tok_nl (by simp; omega)
        · exact tok_crlf (by simp; omega)
      by_cases hes : es = []
      · left
        refine ⟨hes, fun R hR ts => ?_⟩
        rw [List.nil_append, htk R hR]
        have := hok.1 hes
        constructor
        · rintro ⟨-, t, rfl, ht⟩
          obtain ⟨t', rfl, ht'⟩ := (hn R hR _).1 ht
          exact ⟨t', rfl, ht'⟩
        · rintro ⟨t, rfl, ht⟩
          exact ⟨this, _, rfl, (hn R hR _).2 ⟨t, rfl, ht⟩⟩
      · right
        refine ⟨hes, fun R hR ts => ?_⟩
        rw [List.nil_append, htk R hR]
        exact fun hh => hes (hok.2 hh.1)

/-! ## Strings -/

theorem quote_single {q : Quote} {c : Char} (hc : c = '"' ∨ c = '\'') (hm : isMulti q = false) :
    quoteChar q = c ↔ q = if c = '"' then .basic else .literal := by
  rcases hc with rfl | rfl <;> revert hm <;> cases q <;> simp [isMulti, quoteChar]

theorem quote_multi {q : Quote} {c : Char} (hc : c = '"' ∨ c = '\'') (hm : isMulti q = true) :
    quoteChar q = c ↔ q = (if c = '"' then Quote.basic else .literal).multiline := by
  rcases hc with rfl | rfl <;> revert hm <;> cases q <;> simp [isMulti, quoteChar, Quote.multiline]

theorem stringAt_single {q : Quote} {c : Char} {src lit txt r : Str} (hc : c = '"' ∨ c = '\'')
    (hs : ¬ ∃ t, src = c :: c :: t) :
    StringAt q (c :: src) lit txt r ↔ q = (if c = '"' then .basic else .literal) ∧
      StrTail q src txt r ∧ c :: src = lit ++ r := by
  constructor
  · intro h
    generalize hx : c :: src = x at h
    cases h with
    | single h1 h2 h3 h4 =>
      simp only [List.cons.injEq] at hx
      obtain ⟨rfl, rfl⟩ := hx
      exact ⟨(quote_single hc h1).1 rfl, h3, h4⟩
    | multi h1 h2 h3 h4 =>
      simp only [List.cons.injEq] at hx
      obtain ⟨rfl, rfl⟩ := hx
      exact absurd ⟨_, rfl⟩ hs
  · rintro ⟨h1, h2, h3⟩
    have hm : isMulti q = false := by rw [h1]; split <;> rfl
    have hqc := (quote_single hc hm).2 h1
    subst hqc
    exact .single hm hs h2 h3

theorem stringAt_multi {q : Quote} {c : Char} {src src' lit txt r : Str} (hc : c = '"' ∨ c = '\'')
    (ht : Trimmed src src') :
    StringAt q (c :: c :: c :: src) lit txt r ↔
      q = (if c = '"' then Quote.basic else .literal).multiline ∧
      StrTail q src' txt r ∧ c :: c :: c :: src = lit ++ r := by
  have huniq : ∀ {s1}, Trimmed src s1 → s1 = src' := by
    intro s1 h1
    cases h1 with
    | lf => cases ht with
      | lf => rfl
      | keep h => exact absurd rfl h
    | crlf => cases ht with
      | crlf => rfl
      | keep _ h => exact absurd ⟨_, rfl⟩ h
    | keep h1 h2 => cases ht with
      | lf => exact absurd rfl h1
      | crlf => exact absurd ⟨_, rfl⟩ h2
      | keep => rfl
  constructor
  · intro h
    generalize hx : c :: c :: c :: src = x at h
    cases h with
    | single h1 h2 h3 h4 =>
      simp only [List.cons.injEq] at hx
      obtain ⟨rfl, rfl⟩ := hx
      exact absurd ⟨_, rfl⟩ h2
    | multi h1 h2 h3 h4 =>
      simp only [List.cons.injEq] at hx
      obtain ⟨rfl, -, -, rfl⟩ := hx
      have := huniq h2
      subst this
      exact ⟨(quote_multi hc h1).1 rfl, h3, h4⟩
  · rintro ⟨h1, h2, h3⟩
    have hm : isMulti q = true := by rw [h1]; split <;> rfl
    have hqc := (quote_multi hc hm).2 h1
    subst hqc
    exact .multi hm ht h2 h3

/-- Running the string loop behind the opening `o`. -/
theorem startString_step {L : Lexer} {q : Quote} {P o rest src : Str} {vs : List (View × Pos)}
    {c : Char} (hc : c = '"' ∨ c = '\'') (hM : Main L P [] (c :: src) vs)
    (L1 : Lexer) (hS : L1.tokens = L.tokens ∧ L1.strings = L.strings ∧ L1.literals = L.literals ∧
      L1.errors = L.errors ∧ L1.input = L.input)
    (ho : Opening q o) (hst : St L1 (P ++ o) rest) (hlbs : L1.litByteStart = blen P)
    (hls : L1.litStart = posOf P) (hcs : c :: src = o ++ rest)
    (hat : ∀ q' lit txt r, StringAt q' (c :: src) lit txt r ↔
      q' = q ∧ StrTail q' rest txt r ∧ c :: src = lit ++ r) :
    ∃ L' pre' rest' vs', startString L1 q rest = some (L', rest') ∧
      Step L P [] (c :: src) vs L' pre' [] rest' vs' ∧ rest'.length ≤ rest.length := by
  unfold startString
  rw [hst.nextBytePos]
  have hp : L1.posInLine (blen (P ++ o)) = some (posOf (P ++ o)) :=
    hst.posInLine (y := []) (by simp) (by simp)
  simp only [Option.bind_eq_bind, hp, Option.bind_some]
  have hinv : SInv L1 ⟨none, posOf (P ++ o), blen (P ++ o), q⟩ P o [] rest :=
    ⟨ho, by simpa using hst, hlbs, hls, rfl, rfl, by simp, fun _ _ _ => rfl, .nil _ _⟩
  obtain ⟨L', s', rest', e1, e2⟩ := stringLoop_post (rest.length + 1) L1 _ [] rest hinv (by omega)
  dsimp only at e2
  cases e2 with
  | @done _ _ _ es lit nl txt' h1 h2 h3 h4 h5 =>
    have hinput : L.input = P ++ (c :: src) := by simpa using hM.st.input
    have hLin : L'.input = L.input := h3.inputEq.trans hS.2.2.2.2
    have hsplit : c :: src = lit ++ nl ++ rest' := by
      have a := h3.st.input
      rw [hLin, hinput] at a
      simpa using a
    obtain ⟨o1, t1, d1, g1, g2, g3, g5, g6, g4⟩ := h3.strings
    have hcovS : Covers (.string q lit txt') lit := .string h3.head
    refine ⟨L', P ++ lit ++ nl, rest', (.string q lit txt', posOf P) ::
        (if nl = [] then [] else [(.newline, posOf (P ++ lit))]), e1, ⟨es,
        ⟨.string L1.strings.length, posOf P⟩ :: (if nl = [] then [] else [⟨.newline, posOf (P ++ lit)⟩]),
        by rw [h1, hS.2.2.2.1], ?_, hLin, ⟨by rw [h3.tokens, hS.1]; simp,
          by rw [g4, hS.2.1]; exact List.prefix_append _ _, ?_⟩, ?_, ?_⟩, h4⟩
    · intro e he
      have := h2 e he
      rw [hS.2.2.2.2] at this
      exact .inl this
    · intro he tok htok
      rcases List.mem_cons.1 htok with rfl | htok
      · intro id hid
        simp only [TokenType.string.injEq] at hid
        subst hid
        obtain ⟨k1, k2⟩ := g5 (by rw [h1, he]; simp)
        refine ⟨⟨q, lit, posOf (P ++ lit), txt', offOf o1 d1⟩, by rw [g4]; simp, ?_⟩
        have hbd : blen d1 = d1.length := blen_quotes g3
        have : d1.length ≠ 0 := fun h => k1 (List.eq_nil_of_length_eq_zero h)
        simp only [offOf, hbd]
        omega
      · split at htok
        · cases htok
        · rw [List.mem_singleton.1 htok]; exact .of_ne (by simp)
    · refine hM.push (I := []) hLin h3.st h3.inLit (by rw [g4, hS.2.1])
        (by rw [h3.literals, hS.2.2.1]; simp)
        (T := ⟨.string L1.strings.length, posOf P⟩ ::
          (if nl = [] then [] else [⟨.newline, posOf (P ++ lit)⟩])) ?_ ?_ ?_ ?_ ?_ (by
            intro he
            obtain ⟨k1, k2⟩ := g5 (by
              rw [he]; rw [h1] at he; exact (List.append_eq_nil_iff.1 he).1.symm)
            refine ⟨by rw [h1, hS.2.2.2.1] at he; exact (List.append_eq_nil_iff.1 he).1, ?_⟩
            intro st hst
            rw [List.mem_singleton] at hst
            subst hst
            have hbd : blen d1 = d1.length := blen_quotes g3
            have : d1.length ≠ 0 := fun h => k1 (List.eq_nil_of_length_eq_zero h)
            simp only [offOf, hbd]
            omega)
      · rw [h3.tokens, hS.1]; simp
      · rw [List.map_cons, g4]
        split <;> simp [resolve]
      · have a := Laid.token hM.laid hcovS
        by_cases hn : nl = []
        · subst hn; simpa using a
        · rw [if_neg hn]
          rcases h3.nlOk with h | h
          · exact absurd h hn
          · have := Laid.token a (.newline h)
            simpa using this
      · intro tok htok
        rcases List.mem_cons.1 htok with rfl | htok
        · intro id hid
          simp only [TokenType.string.injEq] at hid
          subst hid
          refine ⟨P, q, o1, t1, d1, nl ++ rest', txt', ?_, rfl, ?_, g1, g3, g2 ▸ h3.oneLine, g6⟩
          · rw [hLin, hinput, hsplit, g2]; simp
          · rw [g4, ← g2]; simp
        · split at htok
          · cases htok
          · rw [List.mem_singleton] at htok
            subst htok
            exact .of_ne (by simp)
      · have a : Com (vs ++ [(.string q lit txt', posOf P)]) rest' :=
          hM.com.snoc (.inl (by simp)) (by simp)
        by_cases hn : nl = []
        · subst hn; simpa using a
        · rw [if_neg hn]
          have b := a.snoc (v := (.newline, posOf (P ++ lit))) (r' := rest') (.inr rfl) (by simp)
          simpa using b
    · rcases h5 [] ⟨rfl, by simp⟩ with ⟨a1, a2, D, a3, a4⟩ | ⟨a1, a2⟩
      · left
        refine ⟨a1, fun R hR ts => ?_⟩
        subst a2
        rw [List.nil_append, tok_string hc hR.len]
        simp only [List.append_nil, if_true] at hsplit ⊢
        rw [List.nil_append] at a3
        subst a3
        constructor
        · rintro ⟨q', lit', txt'', r, t, b1, rfl, b3⟩
          obtain ⟨rfl, b4, b5⟩ := (hat _ _ _ _).1 b1
          obtain ⟨rfl, rfl⟩ := (a4 _ _).1 b4
          have : lit' = lit := List.append_cancel_right (b5.symm.trans hsplit)
          subst this
          exact ⟨t, rfl, b3⟩
        · rintro ⟨t, rfl, b3⟩
          exact ⟨q, lit, txt', rest', t, (hat _ _ _ _).2 ⟨rfl, (a4 _ _).2 ⟨rfl, rfl⟩, hsplit⟩,
            rfl, b3⟩
      · right
        refine ⟨a1, fun R hR ts hh => ?_⟩
        rw [List.nil_append, tok_string hc hR.len] at hh
        obtain ⟨q', lit', txt'', r, t, b1, rfl, b3⟩ := hh
        obtain ⟨rfl, b4, b5⟩ := (hat _ _ _ _).1 b1
        exact a2 _ _ b4

end Verif.Toml
