import Verif.Props.Lex

/-!
# C105: what the tokenizer keeps is no larger than the text
-/

namespace Verif.Props
open Verif Verif.Toml Verif.Spec.Toml

/-- The bytes of the source text that a token keeps. -/
def keptSource : View → Nat
  | .string _ lit _ => blen lit
  | .word w => blen w
  | .comment txt => blen txt
  | .punct _ => 0
  | .newline => 0

/-- The bytes of the decoded contents that a token keeps. -/
def keptContents : View → Nat
  | .string _ _ txt => blen txt
  | _ => 0

/-- A sum over the tokens. -/
def totalOf (f : View → Nat) (vs : List (View × Pos)) : Nat := (vs.map fun v => f v.1).sum

theorem covers_size {v : View} {t : Str} (h : Covers v t) : keptSource v ≤ blen t ∧ 0 < t.length := by
  cases h with
  | @string q lit txt h => exact ⟨Nat.le_refl _, by cases t <;> simp_all⟩
  | word h _ => exact ⟨Nat.le_refl _, by cases t <;> simp_all⟩
  | comment h => simp [keptSource]
  | punct h => simp [keptSource]
  | newline h => rcases h with rfl | rfl <;> simp [keptSource]

theorem laid_size {s : Str} {vs : List (View × Pos)} (h : Laid s vs) :
    vs.length ≤ s.length ∧ totalOf keptSource vs ≤ blen s := by
  induction h with
  | nil => simp [totalOf]
  | blank _ _ ih => simp only [List.length_append, blen_append]; omega
  | token _ hc ih =>
    have := covers_size hc
    simp only [totalOf, List.map_append, List.sum_append, List.map_cons, List.map_nil, List.sum_cons,
      List.sum_nil, List.length_append, List.length_cons, List.length_nil, blen_append] at *
    omega

/-- C105: a text of `n` characters has at most `n` tokens, and all the source text that they keep
together is no larger than the text.  For every text, with or without mistakes. -/
theorem C105_tokens (h : lex input = some (T, es)) :
    T.tokens.length ≤ input.length ∧
    ∃ vs, T.tokens.map (resolve T.strings T.literals) = vs.map some ∧
      totalOf keptSource vs ≤ blen input := by
  obtain ⟨vs, ⟨T', es', h1, h2⟩, h3⟩ := C32_lossless input
  rw [h] at h1
  simp only [Option.some.injEq, Prod.mk.injEq] at h1
  obtain ⟨rfl, rfl⟩ := h1
  have hl : T.tokens.length = vs.length := by
    have := congrArg List.length h2
    simpa using this
  have := laid_size h3
  exact ⟨by omega, vs, h2, this.2⟩

theorem utf8Size_le (c : Char) : c.utf8Size ≤ 4 := by
  exact c.utf8Size_le_four

theorem length_le_blen' (s : Str) : s.length ≤ blen s := by
  induction s with
  | nil => simp
  | cons c cs ih => have := c.utf8Size_pos; simp only [blen_cons, List.length_cons]; omega

theorem escape_size {e : Str} {c : Char} (h : Escape e c) : c.utf8Size ≤ blen e + 1 := by
  cases h with
  | unicode4 h _ _ =>
    have h1 := utf8Size_le (Char.ofNat (numeral 16 ‹_›))
    rename_i hh _ _
    have h2 := length_le_blen' hh
    simp only [blen_cons]; omega
  | unicode8 h _ _ =>
    rename_i hh _ _
    have h1 := utf8Size_le (Char.ofNat (numeral 16 hh))
    have h2 := length_le_blen' hh
    simp only [blen_cons]; omega
  | _ => decide

theorem quote_size (q : Quote) : (quoteChar q).utf8Size = 1 := by cases q <;> rfl

theorem blen_replicate_quote (q : Quote) (n : Nat) : blen (List.replicate n (quoteChar q)) = n := by
  induction n with
  | zero => rfl
  | succ n ih => rw [List.replicate_succ, blen_cons, ih, quote_size]; omega

theorem strTail_size {q : Quote} {src txt rest : Str} (h : StrTail q src txt rest) :
    blen txt + blen rest + 1 ≤ blen src := by
  induction h with
  | close => simp [quote_size]; omega
  | closeMulti => simp only [blen_append, blen_replicate_quote]; omega
  | plain _ _ ih => simp only [blen_cons]; omega
  | newline _ _ ih => simp only [blen_cons]; omega
  | crlf _ _ ih => simp only [blen_cons]; omega
  | oneQuote _ _ _ ih => simp only [blen_cons]; omega
  | twoQuotes _ _ _ ih => simp only [blen_cons]; omega
  | escape _ he _ ih =>
    have := escape_size he
    simp only [blen_cons, blen_append, show ('\\' : Char).utf8Size = 1 from rfl]; omega
  | lineEnding _ _ _ _ _ ih => simp only [blen_cons, blen_append]; omega

theorem trimmed_size {s t : Str} (h : Trimmed s t) : blen t ≤ blen s := by
  cases h <;> (try simp only [blen_cons]) <;> omega

theorem stringAt_size {q : Quote} {s lit txt rest : Str} (h : StringAt q s lit txt rest) :
    blen txt + 2 ≤ blen lit ∧ blen s = blen lit + blen rest := by
  cases h with
  | single _ _ h e =>
    have h1 := strTail_size h
    have h2 := congrArg blen e
    simp only [blen_cons, blen_append, quote_size] at *; omega
  | multi _ ht h e =>
    have h1 := strTail_size h
    have h2 := congrArg blen e
    have h3 := trimmed_size ht
    simp only [blen_cons, blen_append, quote_size] at *; omega

theorem tokenized_size {pre s : Str} {ts : List (View × Pos)} (h : Tokenized pre s ts) :
    totalOf keptContents ts ≤ blen s := by
  induction h with
  | nil => simp [totalOf]
  | blank _ _ ih => simp only [blen_cons]; omega
  | newline _ _ ih =>
    simp only [totalOf, List.map_cons, List.sum_cons, keptContents, blen_append] at *; omega
  | punct _ _ ih =>
    simp only [totalOf, List.map_cons, List.sum_cons, keptContents, blen_cons] at *; omega
  | word _ _ _ _ ih =>
    simp only [totalOf, List.map_cons, List.sum_cons, keptContents, blen_append] at *; omega
  | comment _ _ _ ih =>
    simp only [totalOf, List.map_cons, List.sum_cons, keptContents, blen_append, blen_cons,
      List.cons_append] at *; omega
  | string hs _ ih =>
    have := stringAt_size hs
    simp only [totalOf, List.map_cons, List.sum_cons, keptContents] at *; omega

/-- C105: the decoded contents of all strings of a text without lexical mistakes are together no larger
than the text; decoding never makes a string larger. -/
theorem C105_contents (h : lex input = some (T, [])) :
    ∃ vs, T.tokens.map (resolve T.strings T.literals) = vs.map some ∧
      totalOf keptContents vs ≤ blen input := by
  obtain ⟨ts, ht⟩ := (C33_accepts h).1 rfl
  exact ⟨ts, (C33_tokens h ts).1 ht, tokenized_size ht⟩

/-- C105: a string of such a text has at least two bytes more in the text than its contents. -/
theorem C105_string {ts : List (View × Pos)} (h : Tokenized [] input ts) {q : Quote}
    {lit txt : Str} {p : Pos} (hm : (.string q lit txt, p) ∈ ts) : blen txt + 2 ≤ blen lit := by
  have key : ∀ {pre s : Str} {ts : List (View × Pos)}, Tokenized pre s ts →
      (View.string q lit txt, p) ∈ ts → blen txt + 2 ≤ blen lit := by
    intro pre s ts h
    induction h with
    | nil => simp
    | blank _ _ ih => exact ih
    | newline _ _ ih => intro hm; simp at hm; exact ih hm
    | punct _ _ ih => intro hm; simp at hm; exact ih hm
    | word _ _ _ _ ih => intro hm; simp at hm; exact ih hm
    | comment _ _ _ ih => intro hm; simp at hm; exact ih hm
    | string hs _ ih =>
      intro hm
      rcases List.mem_cons.1 hm with e | hm
      · cases e; exact (stringAt_size hs).1
      · exact ih hm
  exact key h hm

/-- The sample text has no lexical mistakes, 12 tokens and 32 characters. -/
example : (lex sampleDoc).map (fun r => (r.1.tokens.length, r.2.length)) = some (12, 0) := by
  decide +kernel

end Verif.Props
