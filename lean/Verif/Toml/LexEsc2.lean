import Verif.Toml.LexEsc

/-! # Lemmas: `string_escape` -/

namespace Verif.Toml
open Verif Verif.Spec.Toml

theorem eatWhitespace_post {s : StrState} {pre0 o : Str} (hm : isMulti s.quote = true) (hq : hasEscapes s.quote = true) :
    ∀ (rest : Str) (L : Lexer) (hn : Bool) (b : Str), SInv L s pre0 o b rest →
      ∃ L' w r, eatWhitespace L hn rest = (L', hn || decide ('\n' ∈ w), r) ∧ rest = w ++ r ∧
        (∀ c ∈ w, isTrimmed c = true) ∧ (∀ c, r.head? = some c → isTrimmed c = false) ∧
        SInv L' s pre0 o (b ++ w) r ∧ SameToks L L' ∧ L'.errors = L.errors := by
  intro rest
  induction rest with
  | nil =>
    intro L hn b h
    exact ⟨L, [], [], by simp [eatWhitespace], rfl, by simp, by simp, by simpa using h, .refl L, rfl⟩
  | cons c cs ih =>
    intro L hn b h
    unfold eatWhitespace
    have hA := h.atNext
    have hAb : (L.atNext (c :: cs)).bytePos = blen (pre0 ++ o ++ b) := h.st.atNext_bytePos
    by_cases h1 : c = ' ' ∨ c = '\t' ∨ c = '\r'
    · rw [if_pos h1]
      have hcn : c ≠ '\n' := by rcases h1 with rfl | rfl | rfl <;> decide
      obtain ⟨L', w, r, e1, e2, e3, e4, e5, e6, e7⟩ := ih _ hn _ (hA.stepNe hcn (by
        rw [quoteChar_esc hq]; rcases h1 with rfl | rfl | rfl <;> decide))
      refine ⟨L', c :: w, r, ?_, by rw [e2]; rfl, ?_, e4, by simpa using e5,
        ((SameToks.refl L).atNext _).trans e6, e7⟩
      · rw [e1]; simp [hcn.symm]
      · intro d hd
        rcases List.mem_cons.1 hd with rfl | hd
        · rcases h1 with rfl | rfl | rfl <;> decide
        · exact e3 d hd
    · rw [if_neg h1]
      by_cases h2 : c = '\n'
      · subst h2
        rw [if_pos rfl]
        obtain ⟨L', w, r, e1, e2, e3, e4, e5, e6, e7⟩ := ih _ true _ (hA.newline hAb hm)
        refine ⟨L', '\n' :: w, r, ?_, by rw [e2]; rfl, ?_, e4, by simpa using e5,
          ((SameToks.refl L).atNext _).newline.trans e6, e7⟩
        · rw [e1]; simp
        · intro d hd
          rcases List.mem_cons.1 hd with rfl | hd
          · decide
          · exact e3 d hd
      · rw [if_neg h2]
        refine ⟨L, [], c :: cs, by simp, rfl, by simp, ?_, by simpa using h, .refl L, rfl⟩
        intro d hd
        simp at hd
        subst hd
        simp [not_or] at h1
        simp [isTrimmed, h1, h2]

/-- The white space in front of a text that does not start with white space is unique. -/
theorem trimmed_unique {w w' r r' : Str} (h : w ++ r = w' ++ r')
    (hw : ∀ c ∈ w, isTrimmed c = true) (hw' : ∀ c ∈ w', isTrimmed c = true)
    (hr : ∀ c, r.head? = some c → isTrimmed c = false)
    (hr' : ∀ c, r'.head? = some c → isTrimmed c = false) : w = w' ∧ r = r' := by
  induction w generalizing w' with
  | nil =>
    cases w' with
    | nil => exact ⟨rfl, by simpa using h⟩
    | cons d w' =>
      simp only [List.nil_append] at h
      have := hr d (by rw [h]; rfl)
      rw [hw' d (by simp)] at this; cases this
  | cons c w ih =>
    cases w' with
    | nil =>
      simp only [List.nil_append] at h
      have := hr' c (by rw [← h]; rfl)
      rw [hw c (by simp)] at this; cases this
    | cons d w' =>
      simp only [List.cons_append, List.cons.injEq] at h
      obtain ⟨rfl, h⟩ := h
      obtain ⟨rfl, rfl⟩ := ih h (fun c hc => hw c (by simp [hc])) (fun c hc => hw' c (by simp [hc]))
      exact ⟨rfl, rfl⟩

theorem escape_head {c : Char} {e' : Str} {ch : Char} (hu : c ≠ 'u') (hU : c ≠ 'U') :
    Escape (c :: e') ch ↔ simpleEscape c = some ch ∧ e' = [] := by
  constructor
  · intro h
    generalize he : c :: e' = e at h
    cases h with
    | unicode4 => cases he; exact absurd rfl hu
    | unicode8 => cases he; exact absurd rfl hU
    | _ => cases he; exact ⟨by decide, rfl⟩
  · rintro ⟨h, rfl⟩
    unfold simpleEscape at h
    repeat' split at h
    all_goals first
      | (rename_i hc; rw [hc]; simp only [Option.some.injEq] at h; rw [← h]; constructor)
      | cases h

theorem strTail_simple {q : Quote} {c : Char} {cs txt r : Str} (hb : hasEscapes q = true)
    (hc : isTrimmed c = false) (hu : c ≠ 'u') (hU : c ≠ 'U') :
    StrTail q ('\\' :: c :: cs) txt r ↔
      ∃ ch t, simpleEscape c = some ch ∧ txt = [ch] ++ t ∧ StrTail q cs t r := by
  rw [strTail_bs_head hb hc]
  constructor
  · rintro ⟨e, ch, s, t, h1, h2, rfl, h4⟩
    cases e with
    | nil => cases h2
    | cons x e' =>
      rw [List.cons_append, List.cons.injEq] at h1
      obtain ⟨rfl, rfl⟩ := h1
      obtain ⟨h5, rfl⟩ := (escape_head hu hU).1 h2
      exact ⟨ch, t, h5, rfl, h4⟩
  · rintro ⟨ch, t, h1, rfl, h3⟩
    exact ⟨[c], ch, cs, t, rfl, (escape_head hu hU).2 ⟨h1, rfl⟩, rfl, h3⟩

theorem strTail_trimmed {q : Quote} {c : Char} {cs txt r : Str} (hb : hasEscapes q = true)
    (hc : isTrimmed c = true) :
    StrTail q ('\\' :: c :: cs) txt r ↔ q = .basicMultiline ∧ ∃ w s, c :: cs = w ++ s ∧
      (∀ c ∈ w, isTrimmed c = true) ∧ '\n' ∈ w ∧
      (∀ c, s.head? = some c → isTrimmed c = false) ∧ StrTail q s txt r := by
  rw [strTail_bs hb]
  constructor
  · rintro (⟨e, ch, s, t, h1, h2, -⟩ | h)
    · cases e with
      | nil => cases h2
      | cons x e' =>
        rw [List.cons_append, List.cons.injEq] at h1
        obtain ⟨rfl, rfl⟩ := h1
        have hu : c ≠ 'u' := by rintro rfl; exact absurd hc (by decide)
        have hU : c ≠ 'U' := by rintro rfl; exact absurd hc (by decide)
        obtain ⟨h5, rfl⟩ := (escape_head hu hU).1 h2
        exfalso
        revert h5
        simp only [isTrimmed, Bool.or_eq_true, decide_eq_true_eq] at hc
        rcases hc with ((rfl | rfl) | rfl) | rfl <;> simp [simpleEscape]
    · exact h
  · exact .inr

theorem strTail_bs_nil {q : Quote} {txt r : Str} (hb : hasEscapes q = true) :
    ¬ StrTail q ['\\'] txt r := by
  rw [strTail_bs hb]
  rintro (⟨e, ch, s, t, h1, h2, -⟩ | ⟨-, w, s, h1, -, h2, -⟩)
  · obtain ⟨rfl, -⟩ := List.append_eq_nil_iff.1 h1.symm; cases h2
  · obtain ⟨rfl, -⟩ := List.append_eq_nil_iff.1 h1.symm; cases h2

theorem stringEscape_post {L : Lexer} {s : StrState} {pre0 o b rest : Str}
    (hq : hasEscapes s.quote = true)
    (h : SInv L s pre0 o b ('\\' :: rest)) (hb : L.bytePos = blen (pre0 ++ o ++ b)) :
    ∃ out, stringEscape L s (posOf (pre0 ++ o ++ b)) rest = some out ∧
      FlowPost L s.quote pre0 o ('\\' :: rest) (fun T => s.text = some T) out := by
  have h1 := h.stepNe (c := '\\') (by decide) (quoteChar_ne_bs _).symm
  have hA := h1.atNext
  have hAb : (L.atNext rest).bytePos = blen (pre0 ++ o ++ (b ++ ['\\'])) := h1.st.atNext_bytePos
  have hAS : SameToks L (L.atNext rest) := (SameToks.refl L).atNext _
  have hp := hA.pos hAb
  have hin := h1.st.input
  have hx : pre0 ++ o ++ (b ++ ['\\']) = (pre0 ++ o ++ b) ++ ['\\'] := by simp
  have hE : ∀ e : Error, ((L.atNext rest).error e).errors = L.errors ++ [e] := fun e => rfl
  unfold stringEscape
  cases rest with
  | nil =>
    simp only [hp, Option.bind_eq_bind, Option.bind_some]
    refine ⟨_, rfl, .cont (b' := b ++ ['\\']) rfl (hE _) ?_ (hA.error _) (hAS.error _) (by simp) ?_⟩
    · exact span_esc hin hx rfl ⟨s.quote, h.inString, hq, .inl ⟨rfl, .inl rfl⟩⟩
    · intro T _
      exact .inr ⟨by simp, fun txt r => strTail_bs_nil hq⟩
  | cons c cs =>
    generalize hA' : L.atNext (c :: cs) = A at *
    have hAe : A.errors = L.errors := by rw [← hA']; rfl
    dsimp only
    have uni : ∀ u : Char, (u = 'u' ∨ u = 'U') → c = u → ∀ k, k + 1 = uniLen u →
        ∃ out, unicodeLoop (posOf (pre0 ++ o ++ b)) (k + 1) (k + 1) A s 0 cs = some out ∧
        FlowPost L s.quote pre0 o ('\\' :: c :: cs) (fun T => s.text = some T) out := by
      intro u hu hcu k hk
      subst hcu
      have hcn : c ≠ '\n' := by rcases hu with rfl | rfl <;> decide
      obtain ⟨out, ho, hpost⟩ := unicodeLoop_post (n := k + 1) hu hq (pre0 := pre0) (o := o)
        (src := '\\' :: c :: cs) (x := pre0 ++ o ++ b) k A s (b ++ ['\\'] ++ [c]) ['\\', c] 0 cs
        (fun T => s.text = some T) rfl
        (hA.stepNe hcn (by rw [quoteChar_esc hq]; rcases hu with rfl | rfl <;> decide)) (by simp) (by simp; omega)
        h.inString hk ⟨[], rfl, by simpa using hk, by simp [hexValue]⟩ (by
          intro T hT
          exact ⟨hT, [], rfl, by simp, by simpa using hk, by simp [numeral]⟩)
      exact ⟨out, ho, FlowPost.pre hAS (es1 := []) (by simpa using hAe) SpansIn.nil (Nat.le_refl _)
        (fun T hT => .inl ⟨rfl, [], by simpa using hT, by simp⟩) hpost⟩
    by_cases hu : c = 'u'
    · rw [if_pos hu]
      exact uni 'u' (.inl rfl) hu 3 rfl
    rw [if_neg hu]
    by_cases hU : c = 'U'
    · rw [if_pos hU]
      exact uni 'U' (.inr rfl) hU 7 rfl
    rw [if_neg hU]
    have htrim : isTrimmed c = decide (c = ' ' ∨ c = '\r' ∨ c = '\n' ∨ c = '\t') := by
      unfold isTrimmed
      rw [Bool.eq_iff_iff]
      simp only [Bool.or_eq_true, decide_eq_true_eq]
      constructor
      · rintro (((h | h) | h) | h) <;> simp [h]
      · rintro (h | h | h | h) <;> simp [h]
    cases hse : simpleEscape c with
    | some ch =>
      have hnt : isTrimmed c = false := by
        rw [htrim, decide_eq_false_iff_not]
        rintro (rfl | rfl | rfl | rfl) <;> simp [simpleEscape] at hse
      have hcn : c ≠ '\n' := by rintro rfl; cases hnt
      have hcr : c ≠ '\r' := by rintro rfl; cases hnt
      dsimp only
      refine ⟨_, rfl, .cont (es := []) (b' := b ++ ['\\'] ++ [c]) rfl (by simpa using hAe)
        SpansIn.nil (hA.step hcn (.escaped hq h1.open_.unclosed c)).text hAS (by simp; omega) ?_⟩
      intro T hT
      refine .inl ⟨rfl, [ch], ⟨by simp [StrState.pushChar, hT], by simp [hcr]⟩, ?_⟩
      intro txt r
      rw [strTail_simple hq hnt hu hU, hse]
      constructor
      · rintro ⟨ch', t, h1, rfl, h3⟩; cases h1; exact ⟨t, rfl, h3⟩
      · rintro ⟨t, rfl, h3⟩; exact ⟨ch, t, rfl, rfl, h3⟩
    | none =>
      dsimp only
      by_cases ht : c = ' ' ∨ c = '\r' ∨ c = '\n' ∨ c = '\t'
      · rw [if_pos ht]
        have htr : isTrimmed c = true := by rw [htrim]; simpa using ht
        rw [isMulti_eq]
        by_cases hm : isMulti s.quote = true
        · simp only [hm, Bool.not_true, Bool.false_eq_true, if_false]
          have hqm : s.quote = .basicMultiline := by
            revert hq hm; cases s.quote <;> simp [hasEscapes, isMulti]
          generalize hBdef : (if c = '\n' then A.newline else A) = B
          have hB : SInv B s pre0 o (b ++ ['\\'] ++ [c]) cs := by
            rw [← hBdef]
            by_cases hcn : c = '\n'
            · subst hcn
              rw [if_pos rfl]
              exact hA.newline hAb hm
            · rw [if_neg hcn]; exact hA.stepNe hcn (by rw [quoteChar_esc hq]; rcases ht with rfl | rfl | rfl | rfl <;> decide)
          have hBS : SameToks L B := by
            rw [← hBdef]; split
            · exact hAS.newline
            · exact hAS
          have hBe : B.errors = L.errors := by
            rw [← hBdef, ← hAe]; split <;> rfl
          obtain ⟨L', w, r, e1, e2, e3, e4, e5, e6, e7⟩ := eatWhitespace_post hm hq cs B
            (decide (c = '\n')) _ hB
          rw [e1]
          have hmem : (decide (c = '\n') || decide ('\n' ∈ w)) = decide ('\n' ∈ c :: w) := by
            rw [Bool.eq_iff_iff]
            simp only [Bool.or_eq_true, decide_eq_true_eq, List.mem_cons, @eq_comm _ c '\n']
          rw [hmem]
          dsimp only
          have hcw : ∀ d ∈ c :: w, isTrimmed d = true := by
            intro d hd
            rcases List.mem_cons.1 hd with rfl | hd
            · exact htr
            · exact e3 d hd
          have hcs : c :: cs = (c :: w) ++ r := by rw [e2]; rfl
          have htl : ∀ txt r', StrTail s.quote ('\\' :: c :: cs) txt r' ↔
              '\n' ∈ c :: w ∧ StrTail s.quote r txt r' := by
            intro txt r'
            rw [strTail_trimmed hq htr]
            constructor
            · rintro ⟨-, w', s', g1, g2, g3, g4, g5⟩
              obtain ⟨rfl, rfl⟩ := trimmed_unique (hcs.symm.trans g1) hcw g2 e4 g4
              exact ⟨g3, g5⟩
            · rintro ⟨g3, g5⟩
              exact ⟨hqm, c :: w, r, hcs, hcw, g3, e4, g5⟩
          have hlen : r.length < ('\\' :: c :: cs).length := by rw [e2]; simp; omega
          by_cases hnl : '\n' ∈ c :: w
          · rw [if_pos (by simpa using hnl)]
            refine ⟨_, rfl, .cont (es := []) (b' := b ++ ['\\'] ++ [c] ++ w) rfl
              (by rw [e7, hBe]; simp) SpansIn.nil e5 (hBS.trans e6) hlen ?_⟩
            intro T hT
            refine .inl ⟨rfl, [], ⟨by simp [hT], ?_⟩, ?_⟩
            · intro _ hh
              exact absurd (e4 _ hh) (by decide)
            · intro txt r'
              rw [htl]; simp [hnl]
          · rw [if_neg (by simpa using hnl)]
            rw [e5.st.nextPos]
            simp only [Option.bind_eq_bind, Option.bind_some]
            refine ⟨_, rfl, .cont (b' := b ++ ['\\'] ++ [c] ++ w) rfl
              (es := [_]) (by rw [← hBe, ← e7]; rfl) ?_ (e5.error _) ((hBS.trans e6).error _) hlen ?_⟩
            · refine SpansIn.one (x := pre0 ++ o ++ b) (y := ['\\'] ++ [c] ++ w) (z := r) ?_ ?_
                ⟨c :: w, by simp, by simp, hcw, hnl, e4, hqm ▸ h.inString⟩
              · rw [← (hBS.trans e6).input, e5.st.input]; simp
              · show Span.mk _ _ = _
                simp
            · intro T hT
              refine .inr ⟨by simp, fun txt r' => ?_⟩
              rw [htl]; exact fun hh => hnl hh.1
        · have hm' : isMulti s.quote = false := by simpa using hm
          simp only [hm', Bool.not_false, if_true, hp, Option.bind_eq_bind, Option.bind_some]
          generalize he : Error.unfinishedEscapeSequence
            ⟨posOf (pre0 ++ o ++ b), posOf (pre0 ++ o ++ (b ++ ['\\']))⟩ = e
          have hno : ∀ txt r, ¬ StrTail s.quote ('\\' :: c :: cs) txt r := by
            intro txt r
            rw [strTail_trimmed hq htr]
            rintro ⟨hh, -⟩
            rw [hh] at hm'; cases hm'
          have hsp : SpansIn L.input [e] := span_esc hin hx (by rw [← he]; rfl)
            (by subst he; exact ⟨s.quote, h.inString, hq, .inl ⟨rfl, .inr ⟨hm', c, rfl, htr⟩⟩⟩)
          by_cases hcn : c = '\n'
          · subst hcn
            simp only [decide_true, if_true]
            obtain ⟨out, ho, hpost⟩ := recoverNewline_post (C := fun _ => False) (hA.error e) hAb hm'
            exact ⟨out, ho, FlowPost.dirty (hAS.error e) (hE e) hsp (by simp) (by simp)
              (fun T _ => hno) hpost⟩
          · simp only [decide_eq_true_eq, hcn, if_false]
            refine ⟨_, rfl, .cont (b' := b ++ ['\\'] ++ [c]) rfl (hE e) hsp ((hA.error e).stepNe hcn (by rw [quoteChar_esc hq]; rcases ht with rfl | rfl | rfl | rfl <;> decide))
              (hAS.error e) (by simp; omega) ?_⟩
            intro T _
            exact .inr ⟨by simp, hno⟩
      · rw [if_neg ht]
        have hnt : isTrimmed c = false := by rw [htrim]; simpa using ht
        have hcn : c ≠ '\n' := by rintro rfl; cases hnt
        rw [hp]
        simp only [Option.bind_eq_bind, Option.bind_some]
        refine ⟨_, rfl, .cont (b' := b ++ ['\\'] ++ [c]) rfl (hE _) ?_ ((hA.error _).stepNe hcn
            (by rw [quoteChar_esc hq]; rintro rfl; simp [simpleEscape] at hse))
          (hAS.error _) (by simp; omega) ?_⟩
        · refine SpansIn.one (x := pre0 ++ o ++ (b ++ ['\\'])) (y := []) (z := c :: cs)
            (by simpa using hin) ?_ ⟨rfl, rfl, fun e ch he => (by
              rw [escape_head hu hU, hse] at he; cases he.1), hnt, s.quote, pre0 ++ o ++ b, by simp, h.inString, hq⟩
          rw [List.append_nil]; rfl
        · intro T _
          refine .inr ⟨by simp, fun txt r => ?_⟩
          rw [strTail_simple hq hnt hu hU, hse]
          simp

end Verif.Toml
