import Verif.Props.Lex

/-! # C90: the diagnostics of the tokenizer are true -/

namespace Verif.Props
open Verif Verif.Toml Verif.Spec.Toml

variable {input : Str} {T : Tokens} {es : List Error}

/-- C90, the part that holds: whatever the document, every diagnostic of the tokenizer is a true
statement about the text it marks (`LexTrue`), except that a diagnostic about a control character in
a comment names the right character but marks the character in front of it.

Missing: that exception (`C90_counterexample_comment`), and the diagnostic about excess quotes marks
one quote that is not in excess (`LexTrue` says so; `C90_counterexample_quotes`). -/
theorem C90_truth_partial (h : lex input = some (T, es)) : ∀ e ∈ es, LexTold input e ∨
    ∃ c x d z, input = x ++ [d] ++ c :: z ∧
      e = .invalidCommentChar c ⟨posOf x, ⟨(posOf x).line, (posOf x).char + 1⟩⟩ ∧
      ¬ Allowed c ∧ c ≠ '\n' ∧ ¬ (c = '\r' ∧ z.head? = some '\n') ∧ InComment (x ++ [d]) := by
  intro e he
  rcases lex_located h e he with h1 | ⟨c, x, d, z, h1, h2, h3, h4, h5, h6, h7, h8⟩
  · exact .inl h1
  · exact .inr ⟨c, x, d, z, by rw [h3]; simp, h1, isControl_iff.1 ⟨h4, h5⟩, h6, h7, h8⟩

/-- What a true diagnostic about a missing quote means in a string of one line: the rest of the line
is marked, from the quote on, and every further quote in it is behind a backslash. -/
theorem C90_missing_quote {q : Quote} {sp : Span} (h : lex input = some (T, es)) (hm : isMulti q = false)
    (he : Error.missingQuote q sp ∈ es) : ∃ x b z, input = x ++ quoteChar q :: b ++ z ∧
      sp = ⟨posOf x, posOf (x ++ quoteChar q :: b)⟩ ∧ '\n' ∉ b ∧ AtLineEnd z ∧
      (∀ u v, b = u ++ quoteChar q :: v → hasEscapes q = true ∧ u.getLast? = some '\\') := by
  rcases C90_truth_partial h _ he with ⟨x, y, z, h1, h2, o, b, w, h3, h4, h5, h6, -⟩ | ⟨c, x, d, z, -, h1, -⟩
  · obtain ⟨rfl, h7, h8⟩ := h6 hm
    rw [List.append_nil] at h4
    cases h3 with
    | single _ =>
      subst h4
      refine ⟨x, b, z, by rw [h1]; simp, h2, fun hb => h7 (by simp [hb]), h8, fun u v e => h5 u v ?_⟩
      rw [e, if_neg (by rw [hm]; simp)]; simp
    | multi hf => rw [hm] at hf; cases hf
    | multiLf hf => rw [hm] at hf; cases hf
    | multiCrlf hf => rw [hm] at hf; cases hf
  · cases h1

/-- What a true diagnostic about an escape means: the character named stands directly behind a backslash,
and it does not start any escape. -/
theorem C90_escape {c : Char} {p : Pos} (h : lex input = some (T, es)) (he : Error.invalidEscapeChar c p ∈ es) :
    ∃ x z q, input = x ++ ['\\'] ++ c :: z ∧ p = posOf (x ++ ['\\']) ∧ InString q x ∧ hasEscapes q = true ∧
      ∀ e ch, ¬ Escape (c :: e) ch := by
  rcases C90_truth_partial h _ he with ⟨x, y, z, h1, h2, rfl, h3, h4, -, q, x', rfl, h5, h6⟩ | ⟨c, x, d, z, -, h1, -⟩
  · cases z with
    | nil => cases h3
    | cons c' z =>
      simp only [List.head?_cons, Option.some.injEq] at h3
      subst h3
      have h2' : (⟨p, p⟩ : Span) = _ := h2
      simp only [Span.mk.injEq] at h2'
      exact ⟨x', z, q, by simpa using h1, h2'.1, h5, h6, h4⟩
  · cases h1

/-- What a true diagnostic about a code point means: the digits are there, and their value is that of a
surrogate or beyond the last code point. -/
theorem C90_codepoint {n cp : Nat} {sp : Span} (h : lex input = some (T, es))
    (he : Error.invalidUnicodeCodepoint n cp sp ∈ es) : ∃ x u w z, input = x ++ '\\' :: u :: w ++ z ∧
      sp = ⟨posOf x, posOf (x ++ '\\' :: u :: w)⟩ ∧ UnicodeLetter u n ∧ w.length = n ∧ cp = hexValue w ∧
      ((0xD800 ≤ cp ∧ cp ≤ 0xDFFF) ∨ 0x10FFFF < cp) := by
  rcases C90_truth_partial h _ he with ⟨x, y, z, h1, h2, q, u, w, rfl, h3, h4, h5, h6, -⟩ | ⟨c, x, d, z, -, h1, -⟩
  · refine ⟨x, u, w, z, h1, h2, h3, h4, h5, ?_⟩
    have : ¬ (cp < 0xD800 ∨ (0xDFFF < cp ∧ cp < 0x110000)) := h6
    omega
  · cases h1

/-- The diagnostic about a control character in a comment marks the character in front of it: in
`#a\x01` it marks the `a`, which is not a control character. -/
theorem C90_counterexample_comment : (lex ['#', 'a', Char.ofNat 1]).map Prod.snd =
      some [.invalidCommentChar (Char.ofNat 1) ⟨posOf ['#'], posOf ['#', 'a']⟩] ∧ Allowed 'a' := by
  exact ⟨by decide +kernel, .inr (by decide)⟩

/-- The diagnostic about excess quotes marks two quotes, although without one of them the document is
fine: `"""a""""""`. -/
theorem C90_counterexample_quotes :
    (lex "\"\"\"a\"\"\"\"\"\"".toList).map Prod.snd =
      some [.excessiveQuotes .basicMultiline
        ⟨posOf "\"\"\"a\"\"\"\"".toList, posOf "\"\"\"a\"\"\"\"\"\"".toList⟩] ∧
    (lex "\"\"\"a\"\"\"\"\"".toList).map Prod.snd = some [] := by
  exact ⟨by decide +kernel, by decide +kernel⟩

/-! The diagnostics exist. -/

example : (lex "a = \"x\ny".toList).map Prod.snd =
    some [.missingQuote .basic ⟨⟨0, 4⟩, ⟨0, 6⟩⟩] := by decide +kernel

example : (lex "a = \"x\\qy\\u12x4\\ud800\\u1\"".toList).map Prod.snd =
    some [.invalidEscapeChar 'q' ⟨0, 7⟩, .invalidUnicodeEscapeChar 'x' ⟨0, 13⟩,
      .invalidUnicodeCodepoint 4 0xd800 ⟨⟨0, 15⟩, ⟨0, 21⟩⟩,
      .unfinishedEscapeSequence ⟨⟨0, 21⟩, ⟨0, 24⟩⟩] := by decide +kernel

example : (lex ("\"\"\"\\ a".toList ++ [Char.ofNat 1] ++ "\"\"\"\"\"\"".toList)).map Prod.snd =
    some [.invalidLineEndingEscape ⟨⟨0, 3⟩, ⟨0, 5⟩⟩,
      .invalidStringChar (Char.ofNat 1) ⟨⟨0, 6⟩, ⟨0, 7⟩⟩,
      .excessiveQuotes .basicMultiline ⟨⟨0, 11⟩, ⟨0, 13⟩⟩] := by decide +kernel

/-- A true diagnostic of a multi-line string, with the final line break unmarked. -/
example : LexTold "'''a\r\n".toList (.missingQuote .literalMultiline ⟨⟨0, 0⟩, ⟨0, 4⟩⟩) := by
  refine ⟨[], "'''a".toList, "\r\n".toList, rfl, by decide, "'''".toList, "a\r\n".toList, "\r\n".toList, .multi rfl, rfl,
    ?_, fun h => (by cases h), fun _ => ⟨rfl, .inr (.inr rfl)⟩⟩
  intro u v e
  have e1 : List.count '\'' ("a\r\n".toList) =
      List.count '\'' (u ++ List.replicate (if isMulti Quote.literalMultiline = true then 3 else 1)
        (quoteChar .literalMultiline) ++ v) := by rw [← e]
  rw [List.count_append, List.count_append] at e1
  have e2 : List.count '\'' ("a\r\n".toList) = 0 := by decide
  have e3 : List.count '\'' (List.replicate (if isMulti Quote.literalMultiline = true then 3 else 1)
        (quoteChar .literalMultiline)) = 3 := by decide
  omega

/-- A false one: the string is closed. -/
example : ¬ LexTold "'a'".toList (.missingQuote .literal ⟨⟨0, 0⟩, ⟨0, 3⟩⟩) := by
  rintro ⟨x, y, z, h1, h2, o, b, w, h3, h4, h5, h6, -⟩
  obtain ⟨rfl, -, -⟩ := h6 rfl
  rw [List.append_nil] at h4
  cases h3 with
  | single _ =>
    subst h4
    have hx : x = [] := by
      match x with
      | [] => rfl
      | [a] =>
        have : (⟨⟨0, 0⟩, ⟨0, 3⟩⟩ : Span).start = posOf [a] := congrArg Span.start h2
        simp only [List.cons_append, List.append_assoc] at h1
        have ha : '\'' = a := by injection h1
        subst ha
        exact absurd this (by decide)
      | a :: a' :: x =>
        simp [quoteChar] at h1
        obtain ⟨h7, h8, h1⟩ := h1
        subst h7 h8
        cases x with
        | nil =>
          have : (⟨⟨0, 0⟩, ⟨0, 3⟩⟩ : Span).start = posOf ['\'', 'a'] := congrArg Span.start h2
          exact absurd this (by decide)
        | cons a'' x => simp at h1
    subst hx
    have h8 : ∃ v, b = 'a' :: '\'' :: v := by
      have e : "'a'".toList = '\'' :: 'a' :: '\'' :: [] := rfl
      rw [e] at h1
      match b with
      | [] =>
        have : (⟨⟨0, 0⟩, ⟨0, 3⟩⟩ : Span).stop = _ := congrArg Span.stop h2
        exact absurd this (by decide)
      | [c] =>
        simp [quoteChar] at h1
        obtain ⟨rfl, -⟩ := h1
        have : (⟨⟨0, 0⟩, ⟨0, 3⟩⟩ : Span).stop = _ := congrArg Span.stop h2
        exact absurd this (by decide)
      | c :: c' :: v =>
        simp [quoteChar] at h1
        obtain ⟨rfl, rfl, -⟩ := h1
        exact ⟨v, rfl⟩
    obtain ⟨v, rfl⟩ := h8
    exact absurd (h5 ['a'] v rfl).1 (by decide)
  | multi hf => cases hf
  | multiLf hf => cases hf
  | multiCrlf hf => cases hf

end Verif.Props
