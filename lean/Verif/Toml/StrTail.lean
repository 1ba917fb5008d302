import Verif.Toml.LexBasic

/-! # Inversion lemmas for the grammar of strings -/

namespace Verif.Toml
open Verif Verif.Spec.Toml

variable {q : Quote}

theorem quoteChar_eq (q : Quote) : q.char = quoteChar q := by cases q <;> rfl
theorem isMulti_eq (q : Quote) : q.isMultiline = isMulti q := by cases q <;> rfl
theorem hasEscapes_eq (q : Quote) : q.isBasic = hasEscapes q := by cases q <;> rfl

theorem quoteChar_cases (q : Quote) : quoteChar q = '"' ∨ quoteChar q = '\'' := by
  cases q <;> simp [quoteChar]

theorem quoteChar_ne_nl (q : Quote) : quoteChar q ≠ '\n' := by cases q <;> decide
theorem quoteChar_ne_cr (q : Quote) : quoteChar q ≠ '\r' := by cases q <;> decide
theorem quoteChar_ne_bs (q : Quote) : quoteChar q ≠ '\\' := by cases q <;> decide
theorem quoteChar_size (q : Quote) : (quoteChar q).utf8Size = 1 := by cases q <;> decide

theorem not_allowed_nl : ¬ Allowed '\n' := by unfold Allowed; decide
theorem not_allowed_cr : ¬ Allowed '\r' := by unfold Allowed; decide
theorem allowed_quote (q : Quote) : Allowed (quoteChar q) := by
  cases q <;> (unfold Allowed quoteChar; decide)
theorem allowed_bs : Allowed '\\' := by unfold Allowed; decide

theorem not_plain_quote : ¬ Plain q (quoteChar q) := fun h => h.2.1 rfl
theorem not_plain_nl : ¬ Plain q '\n' := fun h => not_allowed_nl h.1
theorem not_plain_cr : ¬ Plain q '\r' := fun h => not_allowed_cr h.1

theorem replicate_head {k : Nat} {c : Char} {s t : Str}
    (h : List.replicate (k + 1) c ++ s = t) : ∃ u, t = c :: u := by
  subst h; exact ⟨List.replicate k c ++ s, by simp [List.replicate_succ]⟩

theorem strTail_nil {txt r : Str} : ¬ StrTail q [] txt r := by
  intro h
  generalize hs : ([] : Str) = s at h
  cases h with
  | closeMulti => simp [List.replicate_succ] at hs
  | _ => simp at hs

theorem strTail_plain {c : Char} {src txt r : Str} (hc : Plain q c) :
    StrTail q (c :: src) txt r ↔ ∃ t, txt = c :: t ∧ StrTail q src t r := by
  constructor
  · intro h
    generalize hs : c :: src = s at h
    cases h with
    | close => cases hs; exact absurd hc not_plain_quote
    | closeMulti =>
      obtain ⟨u, hu⟩ := replicate_head hs.symm
      cases hu; exact absurd hc not_plain_quote
    | plain _ h => cases hs; exact ⟨_, rfl, h⟩
    | newline => cases hs; exact absurd hc not_plain_nl
    | crlf => cases hs; exact absurd hc not_plain_cr
    | oneQuote => cases hs; exact absurd hc not_plain_quote
    | twoQuotes => cases hs; exact absurd hc not_plain_quote
    | escape he => cases hs; exact absurd ⟨rfl, he⟩ hc.2.2
    | lineEnding he => cases hs; subst he; exact absurd ⟨rfl, rfl⟩ hc.2.2
  · rintro ⟨t, rfl, h⟩; exact .plain hc h

theorem strTail_plains {w src txt r : Str} (hw : ∀ c ∈ w, Plain q c) :
    StrTail q (w ++ src) txt r ↔ ∃ t, txt = w ++ t ∧ StrTail q src t r := by
  induction w generalizing txt with
  | nil => simp
  | cons c w ih =>
    rw [List.cons_append, strTail_plain (hw c (by simp))]
    constructor
    · rintro ⟨t, rfl, h⟩
      obtain ⟨t', rfl, h'⟩ := (ih (fun x hx => hw x (by simp [hx]))).1 h
      exact ⟨t', rfl, h'⟩
    · rintro ⟨t, rfl, h⟩
      exact ⟨w ++ t, rfl, (ih (fun x hx => hw x (by simp [hx]))).2 ⟨t, rfl, h⟩⟩

theorem strTail_bad {c : Char} {src txt r : Str} (hc : ¬ Allowed c) (hn : c ≠ '\n')
    (hr : ¬ (c = '\r' ∧ isMulti q = true ∧ src.head? = some '\n')) :
    ¬ StrTail q (c :: src) txt r := by
  intro h
  generalize hs : c :: src = s at h
  cases h with
  | close => cases hs; exact hc (allowed_quote q)
  | closeMulti =>
    obtain ⟨u, hu⟩ := replicate_head hs.symm
    cases hu; exact hc (allowed_quote q)
  | plain hp h => cases hs; exact hc hp.1
  | newline => cases hs; exact hn rfl
  | crlf hm => cases hs; exact hr ⟨rfl, hm, rfl⟩
  | oneQuote => cases hs; exact hc (allowed_quote q)
  | twoQuotes => cases hs; exact hc (allowed_quote q)
  | escape he => cases hs; exact hc allowed_bs
  | lineEnding he => cases hs; exact hc allowed_bs

theorem strTail_nl {src txt r : Str} :
    StrTail q ('\n' :: src) txt r ↔
      isMulti q = true ∧ ∃ t, txt = '\n' :: t ∧ StrTail q src t r := by
  constructor
  · intro h
    generalize hs : '\n' :: src = s at h
    cases h with
    | close =>
      rw [List.cons.injEq] at hs; exact absurd hs.1.symm (quoteChar_ne_nl q)
    | closeMulti =>
      obtain ⟨u, hu⟩ := replicate_head hs.symm
      rw [List.cons.injEq] at hu; exact absurd hu.1.symm (quoteChar_ne_nl q)
    | plain hp h => cases hs; exact absurd hp not_plain_nl
    | newline hm h => cases hs; exact ⟨hm, _, rfl, h⟩
    | crlf hm => cases hs
    | oneQuote => rw [List.cons.injEq] at hs; exact absurd hs.1.symm (quoteChar_ne_nl q)
    | twoQuotes => rw [List.cons.injEq] at hs; exact absurd hs.1.symm (quoteChar_ne_nl q)
    | escape he => cases hs
    | lineEnding he => cases hs
  · rintro ⟨hm, t, rfl, h⟩; exact .newline hm h

theorem strTail_crlf {src txt r : Str} (hm : isMulti q = true) :
    StrTail q ('\r' :: '\n' :: src) txt r ↔ ∃ t, txt = '\n' :: t ∧ StrTail q src t r := by
  constructor
  · intro h
    generalize hs : '\r' :: '\n' :: src = s at h
    cases h with
    | close => rw [List.cons.injEq] at hs; exact absurd hs.1.symm (quoteChar_ne_cr q)
    | closeMulti =>
      obtain ⟨u, hu⟩ := replicate_head hs.symm
      rw [List.cons.injEq] at hu; exact absurd hu.1.symm (quoteChar_ne_cr q)
    | plain hp h => cases hs; exact absurd hp not_plain_cr
    | newline hm h => cases hs
    | crlf hm h => cases hs; exact ⟨_, rfl, h⟩
    | oneQuote => rw [List.cons.injEq] at hs; exact absurd hs.1.symm (quoteChar_ne_cr q)
    | twoQuotes => rw [List.cons.injEq] at hs; exact absurd hs.1.symm (quoteChar_ne_cr q)
    | escape he => cases hs
    | lineEnding he => cases hs
  · rintro ⟨t, rfl, h⟩; exact .crlf hm h

theorem strTail_quote {src txt r : Str} (hm : isMulti q = false) :
    StrTail q (quoteChar q :: src) txt r ↔ txt = [] ∧ r = src := by
  constructor
  · intro h
    generalize hs : quoteChar q :: src = s at h
    cases h with
    | close => cases hs; exact ⟨rfl, rfl⟩
    | closeMulti h => rw [hm] at h; cases h
    | plain hp h =>
      rw [List.cons.injEq] at hs; rw [← hs.1] at hp; exact absurd hp not_plain_quote
    | newline h => rw [hm] at h; cases h
    | crlf h => rw [hm] at h; cases h
    | oneQuote h => rw [hm] at h; cases h
    | twoQuotes h => rw [hm] at h; cases h
    | escape he => rw [List.cons.injEq] at hs; exact absurd hs.1 (quoteChar_ne_bs q)
    | lineEnding he => rw [List.cons.injEq] at hs; exact absurd hs.1 (quoteChar_ne_bs q)
  · rintro ⟨rfl, rfl⟩; exact .close hm

theorem replicate_inj {m n : Nat} {c : Char} {s t : Str} (hs : s.head? ≠ some c)
    (ht : t.head? ≠ some c) (h : List.replicate m c ++ s = List.replicate n c ++ t) :
    m = n ∧ s = t := by
  induction m generalizing n with
  | zero =>
    cases n with
    | zero => exact ⟨rfl, by simpa using h⟩
    | succ n =>
      rw [List.replicate_zero, List.nil_append] at h
      subst h
      simp [List.replicate_succ] at hs
  | succ m ih =>
    cases n with
    | zero =>
      rw [List.replicate_zero, List.nil_append] at h
      subst h
      simp [List.replicate_succ] at ht
    | succ n =>
      simp only [List.replicate_succ, List.cons_append, List.cons.injEq, true_and] at h
      obtain ⟨rfl, rfl⟩ := ih h
      exact ⟨rfl, rfl⟩

/-- A maximal run of `m ≥ 1` quotes in a multi-line string. -/
theorem strTail_quotes {m : Nat} {src txt r : Str} (hm : isMulti q = true)
    (hs : src.head? ≠ some (quoteChar q)) (h1 : 1 ≤ m) :
    StrTail q (List.replicate m (quoteChar q) ++ src) txt r ↔
      (m ≤ 2 ∧ ∃ t, txt = List.replicate m (quoteChar q) ++ t ∧ StrTail q src t r) ∨
      (3 ≤ m ∧ m ≤ 5 ∧ txt = List.replicate (m - 3) (quoteChar q) ∧ r = src) := by
  have hne : ∀ {c : Char} {s : Str}, List.replicate m (quoteChar q) ++ src = c :: s →
      c = quoteChar q := by
    intro c s h
    obtain ⟨n, rfl⟩ : ∃ n, m = n + 1 := ⟨m - 1, by omega⟩
    obtain ⟨u, hu⟩ := replicate_head h
    cases hu; rfl
  constructor
  · intro h
    generalize hs' : List.replicate m (quoteChar q) ++ src = s at h
    cases h with
    | close h => rw [hm] at h; cases h
    | @closeMulti _ k _ hk hr =>
      obtain ⟨rfl, rfl⟩ := replicate_inj hs hr hs'
      exact .inr ⟨by omega, by omega, by simp, rfl⟩
    | plain hp h =>
      have := hne hs'; subst this; exact absurd hp not_plain_quote
    | newline => exact absurd (hne hs').symm (quoteChar_ne_nl q)
    | crlf => exact absurd (hne hs').symm (quoteChar_ne_cr q)
    | oneQuote _ h2 h3 =>
      obtain ⟨rfl, rfl⟩ := replicate_inj (m := m) (n := 1) hs h2 (by simpa using hs')
      exact .inl ⟨by omega, _, rfl, h3⟩
    | twoQuotes _ h2 h3 =>
      obtain ⟨rfl, rfl⟩ := replicate_inj (m := m) (n := 2) hs h2
        (by simpa [List.replicate_succ] using hs')
      exact .inl ⟨by omega, _, rfl, h3⟩
    | escape => exact absurd (hne hs').symm (quoteChar_ne_bs q)
    | lineEnding => exact absurd (hne hs').symm (quoteChar_ne_bs q)
  · rintro (⟨h2, t, rfl, h⟩ | ⟨h3, h5, rfl, rfl⟩)
    · obtain rfl | rfl : m = 1 ∨ m = 2 := by omega
      · exact .oneQuote hm hs h
      · exact .twoQuotes hm hs h
    · obtain ⟨k, rfl⟩ : ∃ k, m = k + 3 := ⟨m - 3, by omega⟩
      exact .closeMulti hm (by omega) hs

theorem strTail_bs {src txt r : Str} (hb : hasEscapes q = true) :
    StrTail q ('\\' :: src) txt r ↔
      (∃ e c s t, src = e ++ s ∧ Escape e c ∧ txt = c :: t ∧ StrTail q s t r) ∨
      (q = .basicMultiline ∧ ∃ w s, src = w ++ s ∧ (∀ c ∈ w, isTrimmed c = true) ∧ '\n' ∈ w ∧
        (∀ c, s.head? = some c → isTrimmed c = false) ∧ StrTail q s txt r) := by
  constructor
  · intro h
    generalize hs : '\\' :: src = s at h
    cases h with
    | close => rw [List.cons.injEq] at hs; exact absurd hs.1.symm (quoteChar_ne_bs q)
    | closeMulti =>
      obtain ⟨u, hu⟩ := replicate_head hs.symm
      rw [List.cons.injEq] at hu; exact absurd hu.1.symm (quoteChar_ne_bs q)
    | plain hp h => cases hs; exact absurd ⟨rfl, hb⟩ hp.2.2
    | newline hm h => cases hs
    | crlf hm h => cases hs
    | oneQuote => rw [List.cons.injEq] at hs; exact absurd hs.1.symm (quoteChar_ne_bs q)
    | twoQuotes => rw [List.cons.injEq] at hs; exact absurd hs.1.symm (quoteChar_ne_bs q)
    | escape _ he h => cases hs; exact .inl ⟨_, _, _, _, rfl, he, rfl, h⟩
    | lineEnding hq h1 h2 h3 h => cases hs; exact .inr ⟨hq, _, _, rfl, h1, h2, h3, h⟩
  · rintro (⟨e, c, s, t, rfl, he, rfl, h⟩ | ⟨hq, w, s, rfl, h1, h2, h3, h⟩)
    · exact .escape hb he h
    · exact .lineEnding hq h1 h2 h3 h

end Verif.Toml
