import Verif.Toml.LexAll

/-! # Properties C30-C34, C63, C64: the TOML tokenizer

`lex input` is `some (T, es)` with the token tables `T` and the diagnostics `es`, or `none` if the
code panics.  `resolve T.strings T.literals tok` looks up what a token says. -/

namespace Verif.Props
open Verif Verif.Toml Verif.Spec.Toml

variable {input : Str} {T : Tokens} {es : List Error}

/-- The document of the examples: a comment, a table header, keys, escapes, two kinds of line
breaks. -/
def sampleDoc : Str := "# ä\r\n[a.'b']\nk = \"x\\u00e4\\n\" # z".toList

/-! ## C30 -/

/-- C30: the tokenizer never panics and never runs out of its budget; the end-of-file token is at
the end of the text; no other token is an end-of-file token, and every token refers to an existing
entry of the tables. -/
theorem C30_total (input : Str) : ∃ T es, lex input = some (T, es) ∧
    T.eof = ⟨.eof, posOf input⟩ ∧
    ∀ tok ∈ T.tokens, tok.ty ≠ .eof ∧ ∃ v, resolve T.strings T.literals tok = some (v, tok.start) := by
  obtain ⟨T, es, vs, h1, h2, h3, -⟩ := lex_post input
  refine ⟨T, es, h1, h2, fun tok htok => ?_⟩
  have hv : ∃ v, resolve T.strings T.literals tok = some v := by
    have : resolve T.strings T.literals tok ∈ vs.map some := by
      rw [← h3]; exact List.mem_map_of_mem htok
    obtain ⟨v, -, hv⟩ := List.mem_map.1 this
    exact ⟨v, hv.symm⟩
  obtain ⟨v, hv⟩ := hv
  have hstart : v.2 = tok.start := by
    unfold resolve at hv
    split at hv
    all_goals first
      | (simp only [Option.map_eq_some_iff] at hv; obtain ⟨a, -, rfl⟩ := hv; rfl)
      | (simp only [Option.some.injEq] at hv; subst hv; rfl)
      | cases hv
  refine ⟨fun he => ?_, v.1, ?_⟩
  · rw [resolve, he] at hv; cases hv
  · rw [hv, ← hstart]

/-! ## C31, C32, C34: tokens and the text -/

/-- The tokens of a text, looked up. -/
def TokensOf (input : Str) (vs : List (View × Pos)) : Prop :=
  ∃ T es, lex input = some (T, es) ∧ T.tokens.map (resolve T.strings T.literals) = vs.map some

theorem tokensOf_laid {vs : List (View × Pos)} (h : TokensOf input vs) : Laid input vs := by
  obtain ⟨T, es, h1, h2⟩ := h
  obtain ⟨T', es', vs', g1, -, g3, g4, -⟩ := lex_post input
  rw [h1] at g1
  simp only [Option.some.injEq, Prod.mk.injEq] at g1
  obtain ⟨rfl, rfl⟩ := g1
  have : vs = vs' := by
    have := h2.symm.trans g3
    exact (List.map_inj_right (fun _ _ => Option.some.inj)).1 this
  rw [this]; exact g4

/-- C32: for every text, the tokens cover it exactly: the text is the concatenation of the texts of
the tokens, in their order, and of the spaces and tabs between them. -/
theorem C32_lossless (input : Str) : ∃ vs, TokensOf input vs ∧ Laid input vs := by
  obtain ⟨T, es, vs, h1, -, h3, h4, -⟩ := lex_post input
  exact ⟨vs, ⟨T, es, h1, h3⟩, h4⟩

theorem laid_cover {s : Str} {ts : List (View × Pos)} (h : Laid s ts) {a b : Str} {c : Char}
    (hs : s = a ++ c :: b) (hc : c ≠ ' ' ∧ c ≠ '\t') :
    ∃ v x y z y1 y2, (v, posOf x) ∈ ts ∧ Covers v y ∧ s = x ++ y ++ z ∧ y = y1 ++ c :: y2 ∧
      a = x ++ y1 := by
  induction h generalizing b with
  | nil => simp at hs
  | @blank s ts d h1 hd ih =>
    induction b using snocRec with
    | nil =>
      have := List.append_inj_right' hs rfl
      simp only [List.cons.injEq, and_true] at this
      subst this
      exact absurd hd (by simp [hc])
    | append_singleton b e _ =>
      have hs' : s ++ [d] = (a ++ c :: b) ++ [e] := by rw [hs]; simp
      obtain ⟨v, x, y, z, y1, y2, e1, e2, e3, e4, e5⟩ := ih (List.append_inj_left' hs' rfl)
      exact ⟨v, x, y, z ++ [d], y1, y2, e1, e2, by rw [e3]; simp, e4, e5⟩
  | @token s ts v t h1 hcov ih =>
    by_cases hlen : a.length < s.length
    · obtain ⟨s2, h2⟩ : ∃ s2, s = a ++ c :: s2 := by
        have e1 := List.append_eq_append_iff.1 hs
        rcases e1 with ⟨u, h2, h3⟩ | ⟨u, h2, h3⟩
        · rw [h2] at hlen; simp at hlen; omega
        · cases u with
          | nil => rw [h2] at hlen; simp at hlen
          | cons d u =>
            simp only [List.cons_append, List.cons.injEq] at h3
            exact ⟨u, by rw [h2, ← h3.1]⟩
      obtain ⟨v', x, y, z, y1, y2, e1, e2, e3, e4, e5⟩ := ih h2
      exact ⟨v', x, y, z ++ t, y1, y2, by simp [e1], e2, by rw [e3]; simp, e4, e5⟩
    · obtain ⟨y1, h2⟩ : ∃ y1, a = s ++ y1 := by
        have e1 := List.append_eq_append_iff.1 hs
        rcases e1 with ⟨u, h2, h3⟩ | ⟨u, h2, h3⟩
        · exact ⟨u, h2⟩
        · have : u = [] := by
            rw [h2] at hlen
            simp at hlen
            exact hlen
          subst this
          exact ⟨[], by simpa using h2.symm⟩
      subst h2
      rw [List.append_assoc] at hs
      have := List.append_cancel_left hs
      exact ⟨v, s, t, [], y1, b, by simp, hcov, by simp, this, rfl⟩

/-- C32: every character other than a space or tab lies in the text of a token: it is the character
behind `x ++ y1`, and the token at the place behind `x` has the text `y1 ++ c :: y2`. -/
theorem C32_covered {vs : List (View × Pos)} (h : TokensOf input vs) {a b : Str} {c : Char}
    (hs : input = a ++ c :: b) (hc : c ≠ ' ' ∧ c ≠ '\t') :
    ∃ v x y z y1 y2, (v, posOf x) ∈ vs ∧ Covers v y ∧ input = x ++ y ++ z ∧ y = y1 ++ c :: y2 ∧
      a = x ++ y1 :=
  laid_cover (tokensOf_laid h) hs hc

theorem covers_ne {v : View} {t : Str} (h : Covers v t) : t ≠ [] := by
  cases h with
  | string h => rintro rfl; cases h
  | word h => exact h
  | comment => simp
  | punct => simp
  | newline h => rcases h with rfl | rfl <;> simp

theorem laid_split {s : Str} {a b : List (View × Pos)} {v : View} {p : Pos}
    (h : Laid s (a ++ (v, p) :: b)) :
    ∃ x y z, s = x ++ y ++ z ∧ p = posOf x ∧ Covers v y ∧ Laid x a := by
  generalize hts : a ++ (v, p) :: b = ts at h
  induction h generalizing b with
  | nil => simp at hts
  | @blank s ts d h1 hd ih =>
    obtain ⟨x, y, z, e1, e2, e3, e4⟩ := ih hts
    exact ⟨x, y, z ++ [d], by rw [e1]; simp, e2, e3, e4⟩
  | @token s ts w t h1 hcov ih =>
    induction b using snocRec with
    | nil =>
      have e1 := List.append_inj_left' hts rfl
      have e2 := List.append_inj_right' hts rfl
      simp only [List.cons.injEq, and_true, Prod.mk.injEq] at e2
      obtain ⟨rfl, rfl⟩ := e2
      subst e1
      exact ⟨s, t, [], by simp, rfl, hcov, h1⟩
    | append_singleton b e _ =>
      have hs' : (a ++ (v, p) :: b) ++ [e] = ts ++ [(w, posOf s)] := by rw [← hts]; simp
      obtain ⟨x, y, z, e1, e2, e3, e4⟩ := ih (List.append_inj_left' hs' rfl)
      exact ⟨x, y, z ++ t, by rw [e1]; simp, e2, e3, e4⟩

/-- C31: of two tokens, the text of the first one ends in front of the text of the second one; both
are found in the document at the stored places, and a word, comment or string is exactly the slice
of the document there. -/
theorem C31_ordered {a b c : List (View × Pos)} {v v' : View} {p p' : Pos}
    (h : TokensOf input (a ++ (v, p) :: (b ++ (v', p') :: c))) :
    ∃ x y m y' z, input = x ++ y ++ m ++ y' ++ z ∧ p = posOf x ∧ Covers v y ∧
      p' = posOf (x ++ y ++ m) ∧ Covers v' y' := by
  have hl := tokensOf_laid h
  rw [← List.cons_append, ← List.append_assoc] at hl
  obtain ⟨x', y', z', e1, e2, e3, e4⟩ := laid_split hl
  obtain ⟨x, y, z, g1, g2, g3, -⟩ := laid_split e4
  exact ⟨x, y, z, y', z', by rw [e1, g1], g2, g3, by rw [e2, g1], e3⟩

theorem posOf_lt {s t : Str} (ht : t ≠ []) : posOf s ≠ posOf (s ++ t) := by
  obtain ⟨t', c, rfl⟩ : ∃ t' c, t = t' ++ [c] := by
    induction t using snocRec with
    | nil => exact absurd rfl ht
    | append_singleton t c _ => exact ⟨t, c, rfl⟩
  intro h
  have hm := posOf_mono s t'
  rw [← List.append_assoc] at h
  by_cases hc : c = '\n'
  · subst hc
    rw [posOf_nl] at h
    rw [h] at hm
    unfold Pos.le at hm
    simp only at hm
    omega
  · rw [posOf_snoc _ hc] at h
    have := utf8Size_pos'' c
    rw [h] at hm
    unfold Pos.le at hm
    simp only at hm
    omega

/-- C31: the places of the tokens strictly increase. -/
theorem C31_increasing {a b c : List (View × Pos)} {v v' : View} {p p' : Pos}
    (h : TokensOf input (a ++ (v, p) :: (b ++ (v', p') :: c))) : Pos.le p p' ∧ p ≠ p' := by
  obtain ⟨x, y, m, y', z, -, rfl, h3, rfl, -⟩ := C31_ordered h
  rw [List.append_assoc]
  exact ⟨posOf_mono _ _, posOf_lt (by simp [covers_ne h3])⟩

/-- C31, C34: every token lies at its place in the document; the line is the number of line feeds in
front of it, the column the number of bytes behind the last one of them. -/
theorem C34_positions {a b : List (View × Pos)} {v : View} {p : Pos}
    (h : TokensOf input (a ++ (v, p) :: b)) : ∃ x y z, input = x ++ y ++ z ∧ Covers v y ∧
      p.line = x.count '\n' ∧ ('\n' ∉ x → p.char = blen x) ∧
      ∀ x1 x2, x = x1 ++ '\n' :: x2 → '\n' ∉ x2 → p.char = blen x2 := by
  obtain ⟨x, y, z, e1, rfl, e3, -⟩ := laid_split (tokensOf_laid h)
  refine ⟨x, y, z, e1, e3, rfl, ?_, ?_⟩
  · intro hx
    have := posOf_app [] hx
    rw [List.nil_append] at this
    rw [this]
    simp
  · rintro x1 x2 rfl hx
    rw [show x1 ++ '\n' :: x2 = x1 ++ ['\n'] ++ x2 by simp, posOf_app _ hx, posOf_nl]
    simp

/-- The end-of-file token is at the end of the text. -/
theorem C34_eof (h : lex input = some (T, es)) : T.eof.start.line = input.count '\n' ∧
    ('\n' ∉ input → T.eof.start.char = blen input) := by
  obtain ⟨T', es', h1, h2, -⟩ := C30_total input
  rw [h] at h1
  simp only [Option.some.injEq, Prod.mk.injEq] at h1
  obtain ⟨rfl, rfl⟩ := h1
  rw [h2]
  refine ⟨rfl, fun hx => ?_⟩
  have := posOf_app [] hx
  rw [List.nil_append] at this
  dsimp only
  rw [this]
  simp

/-! ## C33: the grammar -/

/-- C33: there is no lexical diagnostic exactly if the text follows the token grammar. -/
theorem C33_accepts (h : lex input = some (T, es)) : es = [] ↔ ∃ ts, Tokenized [] input ts := by
  obtain ⟨T', es', vs, h1, -, -, -, -, -, -, h7, -⟩ := lex_post input
  rw [h] at h1
  simp only [Option.some.injEq, Prod.mk.injEq] at h1
  obtain ⟨rfl, rfl⟩ := h1
  rcases h7 with ⟨h8, h9⟩ | ⟨h8, h9⟩
  · exact ⟨fun _ => ⟨vs, (h9 _).2 rfl⟩, fun _ => h8⟩
  · exact ⟨fun hh => absurd hh h8, fun ⟨ts, hts⟩ => absurd hts (h9 ts)⟩

/-- C33: and then the tokens are exactly the ones the grammar assigns, with their places and with
the decoded contents of strings. -/
theorem C33_tokens (h : lex input = some (T, [])) (ts : List (View × Pos)) :
    Tokenized [] input ts ↔ T.tokens.map (resolve T.strings T.literals) = ts.map some := by
  obtain ⟨T', es', vs, h1, -, h3, -, -, -, -, h7, -⟩ := lex_post input
  rw [h] at h1
  simp only [Option.some.injEq, Prod.mk.injEq] at h1
  obtain ⟨rfl, rfl⟩ := h1
  rcases h7 with ⟨-, h9⟩ | ⟨h8, -⟩
  · rw [h9, h3]
    constructor
    · rintro rfl; rfl
    · intro hh
      exact ((List.map_inj_right (fun _ _ => Option.some.inj)).1 hh).symm
  · exact absurd rfl h8

/-- C33: a text in the grammar has only one reading. -/
theorem C33_unique {ts ts' : List (View × Pos)} (h : Tokenized [] input ts)
    (h' : Tokenized [] input ts') : ts = ts' := by
  obtain ⟨T', es', vs, -, -, -, -, -, -, -, h7, -⟩ := lex_post input
  rcases h7 with ⟨-, h9⟩ | ⟨-, h9⟩
  · rw [(h9 _).1 h, (h9 _).1 h']
  · exact absurd h (h9 _)

/-- The contents of a single-line literal string are verbatim. -/
theorem literal_verbatim {src txt rest : Str} (h : StrTail .literal src txt rest) :
    src = txt ++ '\'' :: rest := by
  induction h with
  | close => rfl
  | plain _ _ ih => rw [ih]; rfl
  | _ h => simp_all [isMulti, hasEscapes]

/-- The contents of a basic string without backslashes are verbatim. -/
theorem basic_verbatim {src txt rest : Str} (h : StrTail .basic src txt rest) (hb : '\\' ∉ src) :
    src = txt ++ '"' :: rest := by
  induction h with
  | close => rfl
  | plain _ _ ih =>
    simp only [List.mem_cons, not_or] at hb
    rw [ih hb.2]; rfl
  | escape => simp at hb
  | lineEnding => simp at hb
  | _ h => simp_all [isMulti, hasEscapes]

set_option maxRecDepth 100000 in
/-- The sample document has no lexical diagnostics, and eleven tokens; its string is decoded. -/
theorem sample_lex : (lex sampleDoc).map (fun r => (r.2, r.1.tokens.map (resolve r.1.strings r.1.literals))) =
    some ([], [
      some (.comment " ä".toList, ⟨0, 0⟩),
      some (.newline, ⟨0, 4⟩),
      some (.punct '[', ⟨1, 0⟩),
      some (.word ['a'], ⟨1, 1⟩),
      some (.punct '.', ⟨1, 2⟩),
      some (.string .literal "'b'".toList ['b'], ⟨1, 3⟩),
      some (.punct ']', ⟨1, 6⟩),
      some (.newline, ⟨1, 7⟩),
      some (.word ['k'], ⟨2, 0⟩),
      some (.punct '=', ⟨2, 2⟩),
      some (.string .basic "\"x\\u00e4\\n\"".toList "xä\n".toList, ⟨2, 4⟩),
      some (.comment " z".toList, ⟨2, 16⟩)]) := by decide

theorem sample_tokensOf : TokensOf sampleDoc
    ([(.comment " ä".toList, ⟨0, 0⟩), (.newline, ⟨0, 4⟩), (.punct '[', ⟨1, 0⟩),
      (.word ['a'], ⟨1, 1⟩), (.punct '.', ⟨1, 2⟩), (.string .literal "'b'".toList ['b'], ⟨1, 3⟩),
      (.punct ']', ⟨1, 6⟩), (.newline, ⟨1, 7⟩), (.word ['k'], ⟨2, 0⟩)] ++
     (.punct '=', ⟨2, 2⟩) ::
     ([] ++ (.string .basic "\"x\\u00e4\\n\"".toList "xä\n".toList, ⟨2, 4⟩) ::
      [(.comment " z".toList, ⟨2, 16⟩)])) := by
  have h := sample_lex
  cases hl : lex sampleDoc with
  | none => rw [hl] at h; cases h
  | some r =>
    rw [hl] at h
    simp only [Option.map_some, Option.some.injEq, Prod.mk.injEq] at h
    exact ⟨r.1, r.2, hl, h.2⟩

/-- C31 and C34 apply to the sample document. -/
example : Pos.le ⟨2, 2⟩ ⟨2, 4⟩ ∧ (⟨2, 2⟩ : Pos) ≠ ⟨2, 4⟩ := C31_increasing sample_tokensOf
example := C34_positions sample_tokensOf
example := C32_covered sample_tokensOf (a := "# ".toList) (c := 'ä')
  (b := "\r\n[a.'b']\nk = \"x\\u00e4\\n\" # z".toList) (by decide) (by decide)

/-- C33 applies to the sample document: it follows the grammar. -/
example : ∃ ts, Tokenized [] sampleDoc ts := by
  have h := sample_lex
  cases hl : lex sampleDoc with
  | none => rw [hl] at h; cases h
  | some r =>
    rw [hl] at h
    simp only [Option.map_some, Option.some.injEq, Prod.mk.injEq] at h
    exact (C33_accepts (T := r.1) (es := r.2) hl).1 h.1

/-- C33 rejects: an unfinished escape is no string. -/
example : ¬ ∃ ts, Tokenized [] "\"\\u12\"".toList ts := by
  cases hl : lex "\"\\u12\"".toList with
  | none => exact absurd hl (by decide)
  | some r =>
    rw [← C33_accepts (T := r.1) (es := r.2) hl]
    have : (lex "\"\\u12\"".toList).map (fun r => r.2.isEmpty) = some false := by decide
    rw [hl] at this
    simp only [Option.map_some, Option.some.injEq] at this
    intro h
    rw [h] at this
    cases this

/-! ## C63: places of the diagnostics -/

theorem lex_located (h : lex input = some (T, es)) : ∀ e ∈ es, Located input e := by
  obtain ⟨T', es', vs, h1, -, -, -, -, -, h6, -⟩ := lex_post input
  rw [h] at h1
  simp only [Option.some.injEq, Prod.mk.injEq] at h1
  obtain ⟨rfl, rfl⟩ := h1
  exact h6

/-- C63, the part that holds: every diagnostic of the tokenizer starts and ends at characters of the
document, except that a diagnostic about a control character in a comment is put on the character
in front of it and is always one byte long.

Missing: the exception, see `C63_counterexample`. -/
theorem C63_places_partial (h : lex input = some (T, es)) : ∀ e ∈ es, SpanIn input e.span ∨
    ∃ c x d z, input = x ++ d :: c :: z ∧
      e = .invalidCommentChar c ⟨posOf x, ⟨(posOf x).line, (posOf x).char + 1⟩⟩ := by
  intro e he
  rcases lex_located h e he with h1 | ⟨c, x, d, z, h1, -, h3, -⟩
  · exact .inl (told_span h1).1
  · exact .inr ⟨c, x, d, z, h3, h1⟩

/-- C63 holds in full for ASCII texts. -/
theorem C63_ascii (h : lex input = some (T, es)) (ha : ∀ c ∈ input, c.utf8Size = 1) :
    ∀ e ∈ es, SpanIn input e.span := by
  intro e he
  rcases lex_located h e he with h1 | ⟨c, x, d, z, rfl, h2, h3, -⟩
  · exact (told_span h1).1
  · refine ⟨x, [d], c :: z, by rw [h3]; simp, ?_⟩
    rw [posOf_snoc _ h2, ha d (by rw [h3]; simp)]
    rfl

/-- A place one byte behind a character that is not a line feed is a boundary only if this is its only byte. -/
theorem boundary_one {x z w v : Str} {d : Char} (hd : d ≠ '\n') (h : x ++ d :: z = w ++ v)
    (hp : posOf w = ⟨(posOf x).line, (posOf x).char + 1⟩) : d.utf8Size = 1 := by
  rcases List.append_eq_append_iff.1 h with ⟨u, rfl, hu⟩ | ⟨u, rfl, hu⟩
  · cases u with
    | nil => rw [List.append_nil] at hp; have := congrArg Pos.char hp; simp only at this; omega
    | cons c u =>
      simp only [List.cons_append, List.cons.injEq] at hu
      obtain ⟨rfl, -⟩ := hu
      have hm := posOf_mono (x ++ [d]) u
      rw [show x ++ [d] ++ u = x ++ d :: u by simp, hp, posOf_snoc _ hd] at hm
      unfold Pos.le at hm
      simp only at hm
      have := utf8Size_pos'' d
      omega
  · have hm := posOf_mono w u
    rw [hp] at hm
    unfold Pos.le at hm
    simp only at hm
    omega

/-- C63, exactly: the span of a diagnostic of the tokenizer starts and ends at character boundaries, unless it is
about a control character in a comment and the character in front of that has more than one byte. -/
theorem C63_exact (h : lex input = some (T, es)) : ∀ e ∈ es, SpanIn input e.span ↔
    ∀ c x d z, input = x ++ d :: c :: z →
      e = .invalidCommentChar c ⟨posOf x, ⟨(posOf x).line, (posOf x).char + 1⟩⟩ → d.utf8Size = 1 := by
  intro e he
  constructor
  · rintro ⟨w, y, v, h1, h2⟩ c x d z h3 rfl
    have h4 : (⟨posOf x, ⟨(posOf x).line, (posOf x).char + 1⟩⟩ : Span) = ⟨posOf w, posOf (w ++ y)⟩ := h2
    rw [Span.mk.injEq] at h4
    rcases lex_located h _ he with h5 | ⟨c', x', d', z', h5, h6, h7, -⟩
    · obtain ⟨_, _, _, _, _, g⟩ := h5
      exact absurd g (by intro g; cases g)
    · injection h5 with g1 g2
      subst g1
      rw [Span.mk.injEq] at g2
      have hx : x = x' := by
        have e := h3.symm.trans h7
        rcases List.append_eq_append_iff.1 e with ⟨u, g, -⟩ | ⟨u, g, -⟩
        · cases u with
          | nil => simpa using g.symm
          | cons a u => rw [g] at g2; exact absurd g2.1 (posOf_lt (by simp))
        · cases u with
          | nil => simpa using g
          | cons a u => rw [g] at g2; exact absurd g2.1.symm (posOf_lt (by simp))
      subst hx
      have hd : d = d' := by
        have e := h3.symm.trans h7
        have := List.append_cancel_left e
        simp only [List.cons.injEq] at this
        exact this.1
      subst hd
      exact boundary_one h6 (h3.symm.trans h1) h4.2.symm
  · intro hc
    rcases lex_located h e he with h1 | ⟨c, x, d, z, h1, h2, h3, -⟩
    · exact (told_span h1).1
    · have hs := hc c x d z h3 h1
      subst h1
      refine ⟨x, [d], c :: z, by rw [h3]; simp, ?_⟩
      rw [posOf_snoc _ h2, hs]
      rfl

/-- C63 is false in general: the diagnostic for the control character in `#ä\x01` covers bytes 1 to
2, which is half of the `ä`. -/
theorem C63_counterexample : (lex ['#', 'ä', Char.ofNat 1]).map Prod.snd =
      some [.invalidCommentChar (Char.ofNat 1) ⟨⟨0, 1⟩, ⟨0, 2⟩⟩] ∧
    ¬ SpanIn ['#', 'ä', Char.ofNat 1] ⟨⟨0, 1⟩, ⟨0, 2⟩⟩ := by
  refine ⟨by decide, ?_⟩
  rintro ⟨x, y, z, h1, h2⟩
  simp only [Span.mk.injEq] at h2
  have key : ∀ w v : Str, ['#', 'ä', Char.ofNat 1] = w ++ v → posOf w ≠ ⟨0, 2⟩ := by
    intro w v h
    match w with
    | [] => decide
    | [a] => simp only [List.cons_append, List.cons.injEq] at h; obtain ⟨rfl, -⟩ := h; decide
    | [a, b] =>
      simp only [List.cons_append, List.cons.injEq] at h; obtain ⟨rfl, rfl, -⟩ := h; decide
    | [a, b, c] =>
      simp only [List.cons_append, List.cons.injEq] at h; obtain ⟨rfl, rfl, rfl, -⟩ := h; decide
    | a :: b :: c :: d :: w => simp at h
  exact key _ _ h1 h2.2.symm

/-- An unterminated string: its diagnostic covers the string. -/
example : (lex "a = \"x\ny".toList).map Prod.snd = some [.missingQuote .basic ⟨⟨0, 4⟩, ⟨0, 6⟩⟩] := by
  decide

/-! ## C64: the place of the contents of a string -/

/-- C64, the part that holds: a string token consists of an opening delimiter `o`, the source `t` of
its contents, and closing quotes `d`; the stored offsets give the place of `t`, if no line break
directly follows the opening delimiter and, for a multi-line string, there are less than 256 closing quotes.

Missing: strings with a line break behind the opening delimiter, and multi-line strings that are closed with
256 or more quotes (which is an error anyway). -/
theorem C64_text_span_partial (h : lex input = some (T, es)) {tok : Token} {id : Nat}
    (htok : tok ∈ T.tokens) (hid : tok.ty = .string id) :
    ∃ st x o t d z, T.strings[id]? = some st ∧ input = x ++ (o ++ t ++ d) ++ z ∧
      st.lit = o ++ t ++ d ∧ tok.start = posOf x ∧ st.litEnd = posOf (x ++ (o ++ t ++ d)) ∧
      Opening st.quote o ∧ (∀ c ∈ d, c = quoteChar st.quote) ∧
      ('\n' ∉ o → (isMulti st.quote = true → d.length < 256) → st.textOffset.applyTo ⟨tok.start, st.litEnd⟩ =
        some ⟨posOf (x ++ o), posOf (x ++ o ++ t)⟩) := by
  obtain ⟨T', es', vs, h1, -, -, -, -, h5, -, -⟩ := lex_post input
  rw [h] at h1
  simp only [Option.some.injEq, Prod.mk.injEq] at h1
  obtain ⟨rfl, rfl⟩ := h1
  obtain ⟨x, q, o, t, d, z, txt, g1, g2, g3, g4, g5, -, g6⟩ := h5 tok htok id hid
  refine ⟨_, x, o, t, d, z, g3, g1, rfl, g2, rfl, g4, g5, ?_⟩
  intro hn hd
  have hd : d.length < 256 := by
    cases hm : isMulti q with
    | true => exact hd hm
    | false => have := (g6 hm).1; omega
  have hnd : '\n' ∉ d := fun hh => quoteChar_ne_nl q (g5 _ hh).symm
  have hbd : blen d = d.length := blen_quotes g5
  have e0 : o.count '\n' = 0 := List.count_eq_zero.2 hn
  have hp : posOf (x ++ (o ++ t ++ d)) =
      ⟨(posOf (x ++ o ++ t)).line, (posOf (x ++ o ++ t)).char + blen d⟩ := by
    rw [← posOf_app _ hnd]; simp
  unfold TextOffset.applyTo
  simp only [offOf, e0, if_neg hn, hp, g2]
  have e1 : subU (posOf (x ++ o ++ t)).line 0 = some (posOf (x ++ o ++ t)).line := by simp [subU]
  have e2 : subU ((posOf (x ++ o ++ t)).char + blen d) (blen d % 256) =
      some (posOf (x ++ o ++ t)).char := by
    rw [Nat.mod_eq_of_lt (by omega)]
    exact subU_of rfl
  simp only [e1, e2, Option.bind_eq_bind, Option.bind_some]
  rw [posOf_app x hn]
  rfl

/-- C64, exactly: the place that the stored offsets give, for every string.  It ends behind the contents `t` and
the closing quotes that are a multiple of 256 (none, for less than 256 of them), and it starts at the contents if
they start on the line of the delimiter, but at the column of the delimiter otherwise. -/
theorem C64_exact (h : lex input = some (T, es)) {tok : Token} {id : Nat}
    (htok : tok ∈ T.tokens) (hid : tok.ty = .string id) :
    ∃ st x o t d z, T.strings[id]? = some st ∧ input = x ++ (o ++ t ++ d) ++ z ∧
      st.lit = o ++ t ++ d ∧ tok.start = posOf x ∧ st.litEnd = posOf (x ++ (o ++ t ++ d)) ∧
      Opening st.quote o ∧ (∀ c ∈ d, c = quoteChar st.quote) ∧
      st.textOffset.applyTo ⟨tok.start, st.litEnd⟩ =
        some ⟨⟨(posOf (x ++ o)).line, if '\n' ∈ o then tok.start.char else (posOf (x ++ o)).char⟩,
          ⟨(posOf (x ++ o ++ t)).line, (posOf (x ++ o ++ t)).char + 256 * (d.length / 256)⟩⟩ ∧
      (st.textOffset.applyTo ⟨tok.start, st.litEnd⟩ = some ⟨posOf (x ++ o), posOf (x ++ o ++ t)⟩ ↔
        ('\n' ∈ o → tok.start.char = 0) ∧ d.length < 256) := by
  obtain ⟨T', es', vs, h1, -, -, -, -, h5, -, -⟩ := lex_post input
  rw [h] at h1
  simp only [Option.some.injEq, Prod.mk.injEq] at h1
  obtain ⟨rfl, rfl⟩ := h1
  obtain ⟨x, q, o, t, d, z, txt, g1, g2, g3, g4, g5, -, g6⟩ := h5 tok htok id hid
  have hnd : '\n' ∉ d := fun hh => quoteChar_ne_nl q (g5 _ hh).symm
  have hbd : blen d = d.length := blen_quotes g5
  have hp : posOf (x ++ (o ++ t ++ d)) =
      ⟨(posOf (x ++ o ++ t)).line, (posOf (x ++ o ++ t)).char + blen d⟩ := by
    rw [← posOf_app _ hnd]; simp
  have hzero : '\n' ∈ o → (posOf (x ++ o)).char = 0 := by
    intro hn
    have hq := quoteChar_ne_nl q
    cases g4 with
    | single => simp [hq.symm] at hn
    | multi => simp [hq.symm] at hn
    | multiLf =>
      rw [show x ++ [quoteChar q, quoteChar q, quoteChar q, '\n'] =
        (x ++ [quoteChar q, quoteChar q, quoteChar q]) ++ ['\n'] by simp, posOf_nl]
    | multiCrlf =>
      rw [show x ++ [quoteChar q, quoteChar q, quoteChar q, '\r', '\n'] =
        (x ++ [quoteChar q, quoteChar q, quoteChar q, '\r']) ++ ['\n'] by simp, posOf_nl]
  have key : (offOf o d).applyTo ⟨tok.start, posOf (x ++ (o ++ t ++ d))⟩ =
      some ⟨⟨(posOf (x ++ o)).line, if '\n' ∈ o then tok.start.char else (posOf (x ++ o)).char⟩,
        ⟨(posOf (x ++ o ++ t)).line, (posOf (x ++ o ++ t)).char + 256 * (d.length / 256)⟩⟩ := by
    unfold TextOffset.applyTo
    have hmod := Nat.div_add_mod d.length 256
    have e1 : subU (posOf (x ++ o ++ t)).line 0 = some (posOf (x ++ o ++ t)).line := by simp [subU]
    have e2 : subU ((posOf (x ++ o ++ t)).char + blen d) (blen d % 256) =
        some ((posOf (x ++ o ++ t)).char + 256 * (d.length / 256)) := by
      rw [hbd, subU, if_pos (by omega)]
      congr 1
      omega
    simp only [offOf, hp, e1, e2, Option.bind_eq_bind, Option.bind_some, g2]
    have e3 : (posOf x).line + o.count '\n' = (posOf (x ++ o)).line := by simp [posOf]
    rw [e3]
    by_cases hn : '\n' ∈ o
    · simp only [if_pos hn]; rfl
    · simp only [if_neg hn, posOf_app x hn]; rfl
  refine ⟨_, x, o, t, d, z, g3, g1, rfl, g2, rfl, g4, g5, key, ?_⟩
  show (offOf o d).applyTo ⟨tok.start, posOf (x ++ (o ++ t ++ d))⟩ = _ ↔ _
  rw [key, Option.some.injEq, Span.mk.injEq]
  have ext : ∀ (a b : Nat) (p : Pos), (⟨a, b⟩ : Pos) = p ↔ a = p.line ∧ b = p.char := by
    intro a b p; cases p; simp
  rw [ext, ext]
  refine and_congr ?_ ?_
  · by_cases hn : '\n' ∈ o
    · simp [hn, hzero hn]
    · simp [hn]
  · omega

/-- An escaped string: its contents are at columns 5 to 9. -/
example : (lex "a = \"b\\tc\" # x".toList).map
    (fun r => r.1.strings.map (fun s => s.textOffset.applyTo ⟨⟨0, 4⟩, s.litEnd⟩)) =
      some [some ⟨⟨0, 5⟩, ⟨0, 9⟩⟩] := by decide

/-- C64 is false for a string whose contents start on a new line: the contents of
`a = """⏎b"""` start at column 0 of line 1, but the computed place is column 4. -/
theorem C64_counterexample : (lex "a = \"\"\"\nb\"\"\"".toList).map
    (fun r => (r.2, r.1.tokens.map Token.start,
      r.1.strings.map (fun s => (s.litEnd, s.textOffset.applyTo ⟨⟨0, 4⟩, s.litEnd⟩)))) =
      some ([], [⟨0, 0⟩, ⟨0, 2⟩, ⟨0, 4⟩], [(⟨1, 4⟩, some ⟨⟨1, 4⟩, ⟨1, 1⟩⟩)]) := by decide

end Verif.Props
