import Verif.Toml.LexEsc2

/-! # Lemmas: the loop of `string` -/

namespace Verif.Toml
open Verif Verif.Spec.Toml

theorem isControl_iff {c : Char} : (isControl c = true ∧ c ≠ '\t') ↔ ¬ Allowed c := by
  unfold isControl Allowed
  simp only [Bool.or_eq_true, decide_eq_true_eq, not_or, not_and, Decidable.not_not]
  constructor
  · rintro ⟨h1, h2⟩
    refine ⟨h2, fun h3 => ?_⟩
    omega
  · rintro ⟨h1, h2⟩
    refine ⟨?_, h1⟩
    by_cases h : 31 < c.toNat
    · exact .inr (h2 h)
    · exact .inl (by omega)

/-- Where the scan stops. -/
def scanTail : Option (Char × Str) → Str
  | none => []
  | some (c, cs) => c :: cs

theorem strScan_post {s : StrState} {pre0 o : Str} :
    ∀ (rest : Str) (L : Lexer) (b : Str), SInv L s pre0 o b rest →
      ∃ L' r w es, strScan s.quote L rest = some (L', r) ∧ rest = w ++ scanTail r ∧
        SInv L' s pre0 o (b ++ w) (scanTail r) ∧ L'.bytePos = blen (pre0 ++ o ++ (b ++ w)) ∧
        SameToks L L' ∧ L'.errors = L.errors ++ es ∧ SpansIn L.input es ∧ '\n' ∉ w ∧
        (∀ c cs, r = some (c, cs) →
          c = quoteChar s.quote ∨ c = '\n' ∨ (c = '\\' ∧ hasEscapes s.quote = true)) ∧
        ((es = [] ∧ ∃ w0 cr, w = w0 ++ cr ∧ (∀ c ∈ w0, Plain s.quote c) ∧
            (cr = [] ∨ (cr = ['\r'] ∧ isMulti s.quote = true ∧ (scanTail r).head? = some '\n'))) ∨
          (es ≠ [] ∧ ∀ txt r, ¬ StrTail s.quote rest txt r)) := by
  intro rest
  induction rest with
  | nil =>
    intro L b h
    refine ⟨L.atNext [], none, [], [], rfl, rfl, by simpa [scanTail] using h.atNext, ?_,
      (SameToks.refl L).atNext _, by simp [Lexer.atNext], SpansIn.nil, by simp, by simp,
      .inl ⟨rfl, [], [], rfl, by simp, .inl rfl⟩⟩
    rw [List.append_nil]; exact h.st.atNext_bytePos
  | cons c cs ih =>
    intro L b h
    have hA := h.atNext
    have hAb : (L.atNext (c :: cs)).bytePos = blen (pre0 ++ o ++ b) := h.st.atNext_bytePos
    have hAS : SameToks L (L.atNext (c :: cs)) := (SameToks.refl L).atNext _
    have hp := hA.pos hAb
    have hin := h.st.input
    unfold strScan
    simp only [quoteChar_eq, hasEscapes_eq, isMulti_eq]
    by_cases hstop : c = quoteChar s.quote ∨ c = '\n' ∨ (c = '\\' ∧ hasEscapes s.quote = true)
    · rw [if_pos hstop]
      refine ⟨_, _, [], [], rfl, rfl, by simpa [scanTail] using hA, by simpa using hAb, hAS,
        by simp [Lexer.atNext], SpansIn.nil, by simp, ?_, .inl ⟨rfl, [], [], rfl, by simp, .inl rfl⟩⟩
      rintro _ _ ⟨⟩
      exact hstop
    · rw [if_neg hstop]
      have hcn : c ≠ '\n' := fun e => hstop (.inr (.inl e))
      have hcq : c ≠ quoteChar s.quote := fun e => hstop (.inl e)
      have hcb : ¬ (c = '\\' ∧ hasEscapes s.quote = true) := fun e => hstop (.inr (.inr e))
      -- continuing without an error
      have go : (Plain s.quote c ∨ (c = '\r' ∧ isMulti s.quote = true ∧ cs.head? = some '\n')) →
          ∃ L' r w es, strScan s.quote (L.atNext (c :: cs)) cs = some (L', r) ∧
            c :: cs = w ++ scanTail r ∧
            SInv L' s pre0 o (b ++ w) (scanTail r) ∧ L'.bytePos = blen (pre0 ++ o ++ (b ++ w)) ∧
            SameToks L L' ∧ L'.errors = L.errors ++ es ∧ SpansIn L.input es ∧ '\n' ∉ w ∧
            (∀ c cs, r = some (c, cs) →
              c = quoteChar s.quote ∨ c = '\n' ∨ (c = '\\' ∧ hasEscapes s.quote = true)) ∧
            ((es = [] ∧ ∃ w0 cr, w = w0 ++ cr ∧ (∀ c ∈ w0, Plain s.quote c) ∧
              (cr = [] ∨ (cr = ['\r'] ∧ isMulti s.quote = true ∧ (scanTail r).head? = some '\n'))) ∨
            (es ≠ [] ∧ ∀ txt r, ¬ StrTail s.quote (c :: cs) txt r)) := by
        intro hok
        obtain ⟨L', r, w, es, e1, e2, e3, e4, e5, e6, e7, e8, e9, e10⟩ :=
          ih (L.atNext (c :: cs)) (b ++ [c]) (hA.stepNe hcn hcq)
        refine ⟨L', r, c :: w, es, e1, by rw [e2]; rfl, by simpa using e3, by simpa using e4,
          hAS.trans e5, by rw [e6]; rfl, e7, by simp [e8, hcn.symm], e9, ?_⟩
        rcases e10 with ⟨h1, w0, cr, h2, h3, h4⟩ | ⟨h1, h2⟩
        · left
          refine ⟨h1, ?_⟩
          rcases hok with hpl | ⟨hcr, hm, hh⟩
          · refine ⟨c :: w0, cr, by rw [h2]; rfl, ?_, h4⟩
            intro d hd
            rcases List.mem_cons.1 hd with rfl | hd
            · exact hpl
            · exact h3 d hd
          · cases w with
            | nil =>
              refine ⟨[], ['\r'], by rw [hcr]; rfl, by simp, .inr ⟨rfl, hm, ?_⟩⟩
              rw [e2] at hh; simpa using hh
            | cons d w =>
              rw [e2] at hh
              simp only [List.cons_append, List.head?_cons, Option.some.injEq] at hh
              exact absurd (by simp [hh]) e8
        · right
          refine ⟨h1, fun txt r' hst => ?_⟩
          rcases hok with hpl | ⟨hcr, hm, hh⟩
          · obtain ⟨t, -, ht⟩ := (strTail_plain hpl).1 hst
            exact h2 _ _ ht
          · cases cs with
            | nil => cases hh
            | cons d cs =>
              simp only [List.head?_cons, Option.some.injEq] at hh
              subst hh hcr
              obtain ⟨t, ht, ht'⟩ := (strTail_crlf hm).1 hst
              exact h2 _ _ (strTail_nl.2 ⟨hm, t, ht, ht'⟩)
      by_cases htab : c = '\t'
      · rw [if_pos htab]
        exact go (.inl ⟨.inl htab, hcq, hcb⟩)
      · rw [if_neg htab]
        by_cases hcr : c = '\r' ∧ isMulti s.quote = true ∧ cs.head? = some '\n'
        · rw [if_pos hcr]
          exact go (.inr hcr)
        · rw [if_neg hcr]
          by_cases hct : isControl c = true
          · rw [if_pos hct, hp]
            simp only [Option.bind_eq_bind, Option.bind_some]
            generalize he : Error.invalidStringChar c (Span.asciiChar (posOf (pre0 ++ o ++ b))) = e
            obtain ⟨L', r, w, es, e1, e2, e3, e4, e5, e6, e7, e8, e9, -⟩ :=
              ih ((L.atNext (c :: cs)).error e) (b ++ [c]) ((hA.error e).stepNe hcn hcq)
            refine ⟨L', r, c :: w, e :: es, e1, by rw [e2]; rfl, by simpa using e3,
              by simpa using e4, (hAS.error e).trans e5, ?_, ?_, by simp [e8, hcn.symm], e9, .inr ⟨by simp, ?_⟩⟩
            · rw [e6]; simp [Lexer.error, Lexer.atNext]
            · show SpansIn _ ([e] ++ es)
              refine SpansIn.append ?_ e7
              refine SpansIn.one (x := pre0 ++ o ++ b) (y := [c]) (z := cs) (by simpa using hin) ?_ (by
                subst he
                exact ⟨rfl, isControl_iff.1 ⟨hct, htab⟩, hcn, s.quote, h.inString, hcr⟩)
              rw [posOf_snoc _ hcn, ← he]
              have hu : c.utf8Size = 1 := by
                have : c.toNat ≤ 127 := by
                  unfold isControl at hct
                  simp only [Bool.or_eq_true, decide_eq_true_eq] at hct
                  omega
                rw [Char.utf8Size_eq_one_iff]
                exact this
              rw [hu]; rfl
            · intro txt r'
              exact strTail_bad (isControl_iff.1 ⟨hct, htab⟩) hcn hcr
          · rw [if_neg hct]
            refine go (.inl ⟨?_, hcq, hcb⟩)
            by_cases ha : Allowed c
            · exact ha
            · exact absurd (isControl_iff.2 ha).1 hct

end Verif.Toml
