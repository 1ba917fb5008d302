import Verif.Toml.StrTail

/-! # Inversion lemmas for the grammar of tokens -/

namespace Verif.Toml
open Verif Verif.Spec.Toml

/-- As `Tokenized`, but only up to the end `R` of the text. -/
inductive TokTo (R : Str) : Str → Str → List (View × Pos) → Prop
  | stop {pre} : TokTo R pre R []
  | blank {pre c s ts} : c = ' ' ∨ c = '\t' → TokTo R (pre ++ [c]) s ts → TokTo R pre (c :: s) ts
  | newline {pre nl s ts} : IsNewline nl → TokTo R (pre ++ nl) s ts →
      TokTo R pre (nl ++ s) ((.newline, posOf pre) :: ts)
  | punct {pre c s ts} : isPunct c = true → TokTo R (pre ++ [c]) s ts →
      TokTo R pre (c :: s) ((.punct c, posOf pre) :: ts)
  | word {pre w s ts} : w ≠ [] → (∀ a c b, w = a ++ c :: b → startsWord (c :: (b ++ s)) = true) →
      startsWord s = false → TokTo R (pre ++ w) s ts →
      TokTo R pre (w ++ s) ((.word w, posOf pre) :: ts)
  | comment {pre txt s ts} : (∀ c ∈ txt, Allowed c) →
      (s = [] ∨ ∃ nl s', IsNewline nl ∧ s = nl ++ s') → TokTo R (pre ++ '#' :: txt) s ts →
      TokTo R pre ('#' :: txt ++ s) ((.comment txt, posOf pre) :: ts)
  | string {pre q s lit txt rest ts} : StringAt q s lit txt rest → TokTo R (pre ++ lit) rest ts →
      TokTo R pre s ((.string q lit txt, posOf pre) :: ts)

variable {R pre s : Str} {ts : List (View × Pos)} {c : Char}

theorem tokTo_nil : TokTo [] pre s ts ↔ Tokenized pre s ts := by
  constructor
  · intro h
    induction h with
    | stop => exact .nil
    | blank h1 _ ih => exact .blank h1 ih
    | newline h1 _ ih => exact .newline h1 ih
    | punct h1 _ ih => exact .punct h1 ih
    | word h1 h2 h3 _ ih => exact .word h1 h2 h3 ih
    | comment h1 h2 _ ih => exact .comment h1 h2 ih
    | string h1 _ ih => exact .string h1 ih
  · intro h
    induction h with
    | nil => exact .stop
    | blank h1 _ ih => exact .blank h1 ih
    | newline h1 _ ih => exact .newline h1 ih
    | punct h1 _ ih => exact .punct h1 ih
    | word h1 h2 h3 _ ih => exact .word h1 h2 h3 ih
    | comment h1 h2 _ ih => exact .comment h1 h2 ih
    | string h1 _ ih => exact .string h1 ih

theorem stringAt_split {q : Quote} {s lit txt rest : Str} (h : StringAt q s lit txt rest) : s = lit ++ rest := by
  cases h with
  | single _ _ _ h => exact h
  | multi _ _ _ h => exact h

theorem TokTo.suffix (h : TokTo R pre s ts) : ∃ x, s = x ++ R := by
  induction h with
  | stop => exact ⟨[], rfl⟩
  | @blank _ c _ _ _ _ ih => obtain ⟨x, rfl⟩ := ih; exact ⟨c :: x, rfl⟩
  | @newline _ nl _ _ _ _ ih => obtain ⟨x, rfl⟩ := ih; exact ⟨nl ++ x, by simp⟩
  | @punct _ c _ _ _ _ ih => obtain ⟨x, rfl⟩ := ih; exact ⟨c :: x, rfl⟩
  | @word _ w _ _ _ _ _ _ ih => obtain ⟨x, rfl⟩ := ih; exact ⟨w ++ x, by simp⟩
  | @comment _ t _ _ _ _ _ ih => obtain ⟨x, rfl⟩ := ih; exact ⟨'#' :: t ++ x, by simp⟩
  | @string _ _ _ lit _ _ _ h1 _ ih => obtain ⟨x, rfl⟩ := ih; exact ⟨lit ++ x, by rw [stringAt_split h1]; simp⟩

/-- A place where `TokTo` may end in front of `s`: the end of the text, or the start of a line. -/
def Stop (R s : Str) : Prop := R = [] ∨ ∃ x, s = x ++ '\n' :: R

theorem Stop.len {c : Char} (h : Stop R (c :: s)) : R.length < (c :: s).length := by
  rcases h with rfl | ⟨x, h⟩
  · simp
  · rw [h]; simp; omega

theorem Stop.len_app {w : Str} (hw : w ≠ []) (h : Stop R s) : R.length < (w ++ s).length := by
  have : 0 < w.length := List.length_pos_iff.2 hw
  rcases h with rfl | ⟨x, h⟩
  · simp; omega
  · rw [h]; simp; omega

theorem stringAt_head {q : Quote} {s lit txt rest : Str} (h : StringAt q s lit txt rest) :
    ∃ t, s = quoteChar q :: t := by
  cases h with
  | single => exact ⟨_, rfl⟩
  | multi => exact ⟨_, rfl⟩

theorem IsNewline.cases' {nl s : Str} (h : IsNewline nl) :
    (nl = ['\n'] ∧ nl ++ s = '\n' :: s) ∨ (nl = ['\r', '\n'] ∧ nl ++ s = '\r' :: '\n' :: s) := by
  rcases h with rfl | rfl
  · exact .inl ⟨rfl, rfl⟩
  · exact .inr ⟨rfl, rfl⟩

theorem tok_nil : TokTo [] pre [] ts ↔ ts = [] := by
  constructor
  · intro h
    generalize hs : ([] : Str) = s at h
    cases h with
    | stop => rfl
    | blank => cases hs
    | newline h1 => rcases h1 with rfl | rfl <;> cases hs
    | punct => cases hs
    | word h1 => exact absurd (List.append_eq_nil_iff.1 hs.symm).1 h1
    | comment => cases hs
    | string h1 => obtain ⟨t, ht⟩ := stringAt_head h1; rw [ht] at hs; cases hs
  · rintro rfl; exact .stop

/-- The constructors that can start with the character `c`. -/
theorem tok_cases (hR : R.length < (c :: s).length) (h : TokTo R pre (c :: s) ts) :
    ((c = ' ' ∨ c = '\t') ∧ TokTo R (pre ++ [c]) s ts) ∨
    (c = '\n' ∧ ∃ t, ts = (.newline, posOf pre) :: t ∧ TokTo R (pre ++ ['\n']) s t) ∨
    (c = '\r' ∧ ∃ s' t, s = '\n' :: s' ∧ ts = (.newline, posOf pre) :: t ∧
      TokTo R (pre ++ ['\r', '\n']) s' t) ∨
    (isPunct c = true ∧ ∃ t, ts = (.punct c, posOf pre) :: t ∧ TokTo R (pre ++ [c]) s t) ∨
    (startsWord (c :: s) = true ∧ ∃ w s' t, c :: s = w ++ s' ∧ w ≠ [] ∧
      (∀ a c b, w = a ++ c :: b → startsWord (c :: (b ++ s')) = true) ∧ startsWord s' = false ∧
      ts = (.word w, posOf pre) :: t ∧ TokTo R (pre ++ w) s' t) ∨
    (c = '#' ∧ ∃ txt s' t, s = txt ++ s' ∧ (∀ c ∈ txt, Allowed c) ∧
      (s' = [] ∨ ∃ nl s'', IsNewline nl ∧ s' = nl ++ s'') ∧ ts = (.comment txt, posOf pre) :: t ∧
      TokTo R (pre ++ '#' :: txt) s' t) ∨
    ((c = '"' ∨ c = '\'') ∧ ∃ q lit txt rest t, StringAt q (c :: s) lit txt rest ∧
      ts = (.string q lit txt, posOf pre) :: t ∧ TokTo R (pre ++ lit) rest t) := by
  generalize hs : c :: s = s0 at h
  cases h with
  | stop => subst hs; omega
  | blank h1 h2 => cases hs; exact .inl ⟨h1, h2⟩
  | newline h1 h2 =>
    rcases h1 with rfl | rfl
    · cases hs; exact .inr (.inl ⟨rfl, _, rfl, h2⟩)
    · cases hs; exact .inr (.inr (.inl ⟨rfl, _, _, rfl, rfl, h2⟩))
  | punct h1 h2 => cases hs; exact .inr (.inr (.inr (.inl ⟨h1, _, rfl, h2⟩)))
  | @word _ w s' t h1 h2 h3 h4 =>
    refine .inr (.inr (.inr (.inr (.inl ⟨?_, w, s', t, rfl, h1, h2, h3, rfl, h4⟩))))
    cases w with
    | nil => exact absurd rfl h1
    | cons d w =>
      exact h2 [] d w rfl
  | comment h1 h2 h3 =>
    cases hs
    exact .inr (.inr (.inr (.inr (.inr (.inl ⟨rfl, _, _, _, rfl, h1, h2, rfl, h3⟩)))))
  | string h1 h2 =>
    refine .inr (.inr (.inr (.inr (.inr (.inr ⟨?_, _, _, _, _, _, h1, rfl, h2⟩)))))
    obtain ⟨t, ht⟩ := stringAt_head h1
    rw [ht] at hs
    simp only [List.cons.injEq] at hs
    rw [hs.1]
    exact quoteChar_cases _

theorem startsWord_of {c : Char} {s : Str} (h : startsWord (c :: s) = true) :
    isPunct c = false ∧ c ≠ ' ' ∧ c ≠ '\t' ∧ c ≠ '\n' ∧ c ≠ '"' ∧ c ≠ '\'' ∧ c ≠ '#' ∧
      ¬ (c = '\r' ∧ s.head? = some '\n') := by
  unfold startsWord at h
  simp only [Bool.and_eq_true, Bool.not_eq_true', Bool.or_eq_false_iff, decide_eq_false_iff_not,
    Bool.and_eq_false_iff] at h
  obtain ⟨⟨⟨⟨⟨⟨⟨h1, h2⟩, h3⟩, h4⟩, h5⟩, h6⟩, h7⟩, h8⟩ := h
  refine ⟨h1, h2, h3, h4, h5, h6, h7, ?_⟩
  rintro ⟨h9, h10⟩
  rcases h8 with h8 | h8
  · exact h8 h9
  · exact h8 h10

theorem startsWord_iff {c : Char} {s : Str} : startsWord (c :: s) = true ↔
    isPunct c = false ∧ c ≠ ' ' ∧ c ≠ '\t' ∧ c ≠ '\n' ∧ c ≠ '"' ∧ c ≠ '\'' ∧ c ≠ '#' ∧
      ¬ (c = '\r' ∧ s.head? = some '\n') := by
  refine ⟨startsWord_of, ?_⟩
  rintro ⟨h1, h2, h3, h4, h5, h6, h7, h8⟩
  unfold startsWord
  simp only [h1, h2, h3, h4, h5, h6, h7, Bool.false_or, decide_false, Bool.not_false,
    Bool.true_and, Bool.not_eq_true', Bool.and_eq_false_iff, decide_eq_false_iff_not]
  by_cases h9 : c = '\r'
  · exact .inr (fun h => h8 ⟨h9, h⟩)
  · exact .inl h9

theorem tok_blank (hc : c = ' ' ∨ c = '\t') (hR : R.length < (c :: s).length) :
    TokTo R pre (c :: s) ts ↔ TokTo R (pre ++ [c]) s ts := by
  constructor
  · intro h
    rcases tok_cases hR h with ⟨-, h⟩ | ⟨rfl, -⟩ | ⟨rfl, -⟩ | ⟨h, -⟩ | ⟨h, -⟩ | ⟨rfl, -⟩ | ⟨h, -⟩
    · exact h
    · exact absurd hc (by decide)
    · exact absurd hc (by decide)
    · rcases hc with rfl | rfl <;> exact absurd h (by decide)
    · have := startsWord_of h
      rcases hc with rfl | rfl <;> simp at this
    · exact absurd hc (by decide)
    · rcases h with rfl | rfl <;> exact absurd hc (by decide)
  · exact .blank hc

theorem tok_nl (hR : R.length < ('\n' :: s).length) : TokTo R pre ('\n' :: s) ts ↔
    ∃ t, ts = (.newline, posOf pre) :: t ∧ TokTo R (pre ++ ['\n']) s t := by
  constructor
  · intro h
    rcases tok_cases hR h with ⟨h, -⟩ | ⟨-, h⟩ | ⟨h, -⟩ | ⟨h, -⟩ | ⟨h, -⟩ | ⟨h, -⟩ | ⟨h, -⟩
    · exact absurd h (by decide)
    · exact h
    · exact absurd h (by decide)
    · exact absurd h (by decide)
    · exact absurd (startsWord_of h).2.2.2.1 (by decide)
    · exact absurd h (by decide)
    · exact absurd h (by decide)
  · rintro ⟨t, rfl, h⟩
    exact .newline (nl := ['\n']) (.inl rfl) h

theorem tok_crlf (hR : R.length < ('\r' :: '\n' :: s).length) : TokTo R pre ('\r' :: '\n' :: s) ts ↔
    ∃ t, ts = (.newline, posOf pre) :: t ∧ TokTo R (pre ++ ['\r', '\n']) s t := by
  constructor
  · intro h
    rcases tok_cases hR h with ⟨h, -⟩ | ⟨h, -⟩ | ⟨-, s', t, h1, h2, h3⟩ | ⟨h, -⟩ | ⟨h, -⟩ | ⟨h, -⟩ | ⟨h, -⟩
    · exact absurd h (by decide)
    · exact absurd h (by decide)
    · cases h1; exact ⟨t, h2, h3⟩
    · exact absurd h (by decide)
    · exact absurd ⟨rfl, rfl⟩ (startsWord_of h).2.2.2.2.2.2.2
    · exact absurd h (by decide)
    · exact absurd h (by decide)
  · rintro ⟨t, rfl, h⟩
    exact .newline (nl := ['\r', '\n']) (.inr rfl) h

theorem isPunct_cases {c : Char} (h : isPunct c = true) : c = '[' ∨ c = ']' ∨ c = '{' ∨ c = '}' ∨
    c = '=' ∨ c = '.' ∨ c = ',' := by
  unfold isPunct at h
  simpa [or_assoc] using h

theorem tok_punct (hc : isPunct c = true) (hR : R.length < (c :: s).length) : TokTo R pre (c :: s) ts ↔
    ∃ t, ts = (.punct c, posOf pre) :: t ∧ TokTo R (pre ++ [c]) s t := by
  constructor
  · intro h
    rcases tok_cases hR h with ⟨h, -⟩ | ⟨rfl, -⟩ | ⟨rfl, -⟩ | ⟨-, h⟩ | ⟨h, -⟩ | ⟨rfl, -⟩ | ⟨h, -⟩
    · rcases h with rfl | rfl <;> exact absurd hc (by decide)
    · exact absurd hc (by decide)
    · exact absurd hc (by decide)
    · exact h
    · rw [(startsWord_of h).1] at hc; cases hc
    · exact absurd hc (by decide)
    · rcases h with rfl | rfl <;> exact absurd hc (by decide)
  · rintro ⟨t, rfl, h⟩
    exact .punct hc h

/-- Words are maximal. -/
theorem word_unique {w w' s s' : Str} (h : w ++ s = w' ++ s')
    (hw : ∀ a c b, w = a ++ c :: b → startsWord (c :: (b ++ s)) = true)
    (hw' : ∀ a c b, w' = a ++ c :: b → startsWord (c :: (b ++ s')) = true)
    (hs : startsWord s = false) (hs' : startsWord s' = false) : w = w' ∧ s = s' := by
  induction w generalizing w' with
  | nil =>
    cases w' with
    | nil => exact ⟨rfl, by simpa using h⟩
    | cons d w' =>
      have := hw' [] d w' rfl
      rw [List.nil_append] at h
      rw [← List.cons_append, ← h, hs] at this
      cases this
  | cons c w ih =>
    cases w' with
    | nil =>
      have := hw [] c w rfl
      rw [List.nil_append] at h
      rw [← List.cons_append, h, hs'] at this
      cases this
    | cons d w' =>
      simp only [List.cons_append, List.cons.injEq] at h
      obtain ⟨rfl, h⟩ := h
      obtain ⟨rfl, rfl⟩ := ih h (fun a d b e => hw (c :: a) d b (by rw [e]; rfl))
        (fun a d b e => hw' (c :: a) d b (by rw [e]; rfl))
      exact ⟨rfl, rfl⟩

theorem tok_word {w : Str} (hne : w ≠ [])
    (hw : ∀ a c b, w = a ++ c :: b → startsWord (c :: (b ++ s)) = true)
    (hs : startsWord s = false) (hR : R.length < (w ++ s).length) : TokTo R pre (w ++ s) ts ↔
      ∃ t, ts = (.word w, posOf pre) :: t ∧ TokTo R (pre ++ w) s t := by
  constructor
  · intro h
    obtain ⟨c, w', rfl⟩ := List.exists_cons_of_ne_nil hne
    have h0 := startsWord_of (hw [] c w' rfl)
    rcases tok_cases (s := w' ++ s) hR h with ⟨h, -⟩ | ⟨h, -⟩ | ⟨rfl, s', t, h, -⟩ | ⟨h, -⟩ |
      ⟨-, w2, s2, t, h1, h2, h3, h4, h5, h6⟩ | ⟨h, -⟩ | ⟨h, -⟩
    · rcases h with h | h
      · exact absurd h h0.2.1
      · exact absurd h h0.2.2.1
    · exact absurd h h0.2.2.2.1
    · exact absurd ⟨rfl, by rw [h]; rfl⟩ h0.2.2.2.2.2.2.2
    · rw [h0.1] at h; cases h
    · obtain ⟨rfl, rfl⟩ := word_unique h1 hw h3 hs h4
      exact ⟨t, h5, h6⟩
    · exact absurd h h0.2.2.2.2.2.2.1
    · rcases h with h | h
      · exact absurd h h0.2.2.2.2.1
      · exact absurd h h0.2.2.2.2.2.1
  · rintro ⟨t, rfl, h⟩
    exact .word hne hw hs h

theorem tok_hash (hR : R.length < ('#' :: s).length) : TokTo R pre ('#' :: s) ts ↔ ∃ txt s' t, s = txt ++ s' ∧ (∀ c ∈ txt, Allowed c) ∧
      (s' = [] ∨ ∃ nl s'', IsNewline nl ∧ s' = nl ++ s'') ∧ ts = (.comment txt, posOf pre) :: t ∧
      TokTo R (pre ++ '#' :: txt) s' t := by
  constructor
  · intro h
    rcases tok_cases hR h with ⟨h, -⟩ | ⟨h, -⟩ | ⟨h, -⟩ | ⟨h, -⟩ | ⟨h, -⟩ | ⟨-, h⟩ | ⟨h, -⟩
    · exact absurd h (by decide)
    · exact absurd h (by decide)
    · exact absurd h (by decide)
    · exact absurd h (by decide)
    · exact absurd (startsWord_of h).2.2.2.2.2.2.1 (by decide)
    · exact h
    · exact absurd h (by decide)
  · rintro ⟨txt, s', t, rfl, h1, h2, rfl, h3⟩
    exact .comment h1 h2 h3

theorem tok_string (hc : c = '"' ∨ c = '\'') (hR : R.length < (c :: s).length) : TokTo R pre (c :: s) ts ↔
    ∃ q lit txt rest t, StringAt q (c :: s) lit txt rest ∧
      ts = (.string q lit txt, posOf pre) :: t ∧ TokTo R (pre ++ lit) rest t := by
  constructor
  · intro h
    rcases tok_cases hR h with ⟨h, -⟩ | ⟨h, -⟩ | ⟨h, -⟩ | ⟨h, -⟩ | ⟨h, -⟩ | ⟨h, -⟩ | ⟨-, h⟩
    · rcases hc with rfl | rfl <;> exact absurd h (by decide)
    · rcases hc with rfl | rfl <;> exact absurd h (by decide)
    · rcases hc with rfl | rfl <;> exact absurd h (by decide)
    · rcases hc with rfl | rfl <;> exact absurd h (by decide)
    · have := startsWord_of h
      rcases hc with rfl | rfl <;> simp at this
    · rcases hc with rfl | rfl <;> exact absurd h (by decide)
    · exact h
  · rintro ⟨q, lit, txt, rest, t, h1, rfl, h2⟩
    exact .string h1 h2

end Verif.Toml
