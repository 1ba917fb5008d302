import Verif.Toml.ParseNest

/-! # Properties C58-C60, C68-C70: the TOML parser

`parseDocument ovf input` tokenizes and parses a text.  It is `.ok asts s` with the tree and the final
state (`s.rest`: the tokens that were not consumed, `s.errors`: all diagnostics), `.panic`, or
`.timeout`: a loop or a recursion did not end within its budget.  `ovf` says whether the build has
overflow checks. -/

namespace Verif.Props
open Verif Verif.Toml Verif.Spec.Toml

variable {input : Str} {ovf : Bool}

/-! ## C58 -/

/-- C58: parsing any text ends: the loops end within a number of rounds bounded by the number of the
remaining tokens, and the nested calls within a fixed depth. -/
theorem C58_terminates (ovf : Bool) (input : Str) : parseDocument ovf input ≠ .timeout := by
  obtain ⟨T, es, vs, -, -, h⟩ := parse_post ovf input
  intro he
  rw [he] at h
  exact h

/-- C58: every token is consumed, in the order of the tokenizer. -/
theorem C58_consumes {T : Tokens} {es : List Error} {a : Asts} {s : PS} (hl : lex input = some (T, es))
    (h : parseDocument ovf input = .ok a s) : s.rest = [] ∧ s.done.reverse = T.tokens := by
  obtain ⟨T', es', vs, h1, -, h2⟩ := parse_post ovf input
  rw [hl] at h1
  cases h1
  rw [h] at h2
  exact ⟨h2.1, h2.2.1⟩

/-! ## C59 -/

/-- C59: in the tree of any text, no value has more than `RECURSION_LIMIT` brackets of arrays and
inline tables around it; the recursion that builds it is at most two calls deeper (`C58_terminates`:
the depth budget is `RECURSION_LIMIT + 2`). -/
theorem C59_nesting {a : Asts} {s : PS} (h : parseDocument ovf input = .ok a s) :
    ∀ x ∈ a.asts, ∀ v ∈ astValues x, NestedAtMost RECURSION_LIMIT v := parseDocument_nest h

/-! ## C60 -/

/-- C60: the only texts that may make the parser panic are those with a `[` and, on another line and
not to the right of it (just below it, in a build without overflow checks), a `]`, without a line break or
comment between them as far as the tokens go. -/
theorem C60_no_panic_partial {T : Tokens} {es : List Error} (hl : lex input = some (T, es))
    (hb : ¬ SplitBack ovf T.tokens) : parseDocument ovf input ≠ .panic := by
  obtain ⟨T', es', vs, h1, -, h2⟩ := parse_post ovf input
  rw [hl] at h1
  cases h1
  intro he
  rw [he] at h2
  exact hb h2

/-- C60: a text without a string that contains a line feed never makes the parser panic. -/
theorem C60_no_multiline_partial {T : Tokens} {es : List Error} (hl : lex input = some (T, es))
    (hs : ∀ s ∈ T.strings, '\n' ∉ s.lit) : parseDocument ovf input ≠ .panic := by
  refine C60_no_panic_partial hl ?_
  obtain ⟨T', es', vs, h0, h1, h2, h3, h4, h5, -⟩ := lex_post input
  rw [hl] at h0
  cases h0
  have hG := good_start (ovf := ovf) (es := es) h1 h2 h3 h4 h5
  have hn := no_split hG.chain (fun t _ id s _ hs' => hs s (List.mem_of_getElem? hs'))
  rintro ⟨l, r, h1, h2, -⟩
  exact hn ⟨l, r, h1, h2⟩

/-- Whether an outcome is a panic. -/
def isPanic {α : Type} : Run α → Bool
  | .panic => true
  | _ => false

/-- C60: the claim itself is false: this document makes the parser panic, in every build. -/
theorem C60_counterexample : ∀ ovf, isPanic (parseDocument ovf "   [\"\"\"\n\"\"\"]\n".toList) = true := by
  decide +kernel

/-- C60: this one, with the closing bracket farther to the left, only in a build with overflow checks. -/
theorem C60_checked_counterexample :
    ∀ ovf, isPanic (parseDocument ovf "    [\"\"\"\n\"\"\"]\n".toList) = ovf := by
  decide +kernel

/-! ## C68 -/

/-- C68: everything in the tree of any text stands in that text: the text of every literal, string
and identifier is the text at its place, the place of the text of an identifier is the place of what is
between its quotes (or of all of it, if it has none), every bracket, comma, dot and equal sign is that character,
the comments of an item are in range.  The places of the closing brackets of headers need the brackets
to be on one line. -/
theorem C68_tree_in_text {T : Tokens} {es : List Error} {a : Asts} {s : PS}
    (hl : lex input = some (T, es)) (h : parseDocument ovf input = .ok a s) :
    ∀ x ∈ a.asts, AstAt (¬ SplitPair T.tokens) input a.comments.length x := by
  obtain ⟨T', es', vs, h1, -, h2⟩ := parse_post ovf input
  rw [hl] at h1
  cases h1
  rw [h] at h2
  exact h2.2.2.2.2.1

set_option maxRecDepth 100000 in
/-- The text of the first identifier of `"x".y=1` is at column 1, that of the second one at column 4. -/
example : (match parseDocument true ['"', 'x', '"', '.', 'y', '=', '1'] with
    | .ok ⟨[.assignment a], _⟩ _ => a.assignment.key.idents.map Ident.textSpan
    | _ => []) = [some ⟨⟨0, 1⟩, ⟨0, 2⟩⟩, some ⟨⟨0, 4⟩, ⟨0, 5⟩⟩] := by decide +kernel

/-! ## C69 -/

/-- C69: the parser adds its diagnostics behind those of the tokenizer, and each of them points to a
piece of the text: the first and the last place are those before and behind some of its characters. -/
theorem C69_diagnostics {T : Tokens} {es : List Error} {a : Asts} {s : PS}
    (hl : lex input = some (T, es)) (h : parseDocument ovf input = .ok a s) :
    ∃ new, s.errors = es ++ new ∧ ∀ e ∈ new, SpanIn input e.span := by
  obtain ⟨T', es', vs, h1, -, h2⟩ := parse_post ovf input
  rw [hl] at h1
  cases h1
  rw [h] at h2
  obtain ⟨new, n1, n2⟩ := h2.2.2.1
  exact ⟨new, n1, fun e he => (n2 e he).span⟩

/-- C69: a diagnostic about a missing closing bracket refers to an opening bracket of the text. -/
theorem C69_open_bracket {T : Tokens} {es : List Error} {a : Asts} {s : PS}
    (hl : lex input = some (T, es)) (h : parseDocument ovf input = .ok a s) :
    ∃ new, s.errors = es ++ new ∧
      ∀ e ∈ new, ∀ p c, openBracket e = some (p, c) → CharAt input p c := by
  obtain ⟨T', es', vs, h1, -, h2⟩ := parse_post ovf input
  rw [hl] at h1
  cases h1
  rw [h] at h2
  obtain ⟨new, n1, n2⟩ := h2.2.2.1
  refine ⟨new, n1, fun e he p c hp => ?_⟩
  have hx := (n2 e he).extra
  cases e <;> simp [openBracket] at hp <;> obtain ⟨rfl, rfl⟩ := hp <;> exact hx

/-! ## C70 -/

/-- C70: every stored comment stands in the text. -/
theorem C70_comments_in_text {a : Asts} {s : PS} (h : parseDocument ovf input = .ok a s) :
    ∀ c ∈ a.comments, CommentAt input c.comment := by
  obtain ⟨T', es', vs, h1, -, h2⟩ := parse_post ovf input
  rw [h] at h2
  exact h2.2.2.2.1

/-- C70: if the parser gives no diagnostics, then every comment of the text is kept exactly once:
among the stored comments or as an item of its own. -/
theorem C70_comments_kept {T : Tokens} {es : List Error} {vs : List (View × Pos)} {a : Asts} {s : PS}
    (hl : lex input = some (T, es)) (hv : T.tokens.map (resolve T.strings T.literals) = vs.map some)
    (h : parseDocument ovf input = .ok a s) (he : s.errors = es) :
    (viewComments vs).Perm (a.comments.map (·.comment) ++ astComments a.asts) := by
  obtain ⟨T', es', vs', h1, h1', h2⟩ := parse_post ovf input
  rw [hl] at h1
  cases h1
  rw [h] at h2
  have : vs = vs' := (List.map_inj_right (fun _ _ => Option.some.inj)).1 (hv.symm.trans h1')
  subst this
  exact h2.2.2.2.2.2.1 he

/-! ## Examples -/

/-- The document of the examples. -/
def sampleToml : Str := "# x\na.b = [1, # y\n2] # z\n[[t]]\nd = {k = 'v'}".toList

/-- Whether an outcome is a tree without diagnostics with the given numbers of items and stored
comments. -/
def okWith (n m : Nat) : Run Asts → Bool
  | .ok a s => a.asts.length == n && a.comments.length == m && s.errors.isEmpty
  | _ => false

/-- The premises of the theorems of this file are met by this document: it has two items and three
comments, one in an array and one that is free-standing or above. -/
example : okWith 2 3 (parseDocument true sampleToml) = true := by decide +kernel

/-- The diagnostics of an outcome. -/
def errorsOf : Run Asts → List Error
  | .ok _ s => s.errors
  | _ => []

/-- `C69_diagnostics` and `C69_open_bracket` are about such texts: three diagnostics, the last of them
about the bracket at the end. -/
example : (errorsOf (parseDocument true "a = 1é\nb =\nc = [2".toList)).map
    (fun e => (e.span, openBracket e)) =
    [(⟨⟨0, 5⟩, ⟨0, 7⟩⟩, none), (⟨⟨1, 3⟩, ⟨1, 3⟩⟩, none), (⟨⟨2, 6⟩, ⟨2, 6⟩⟩, some (⟨2, 4⟩, '['))] := by
  decide +kernel

end Verif.Props
