import Verif.Props.Parse

/-! # C91: the diagnostics of the parser are true

`Laid input ts` says that the document consists of the tokens `ts` at their places, with blanks between
them; if the tokenizer has no diagnostics these are the only tokens the text has (C53).
`Claims input ts e` (`Spec/ParseTruth.lean`) is what the message of the diagnostic `e` says about them. -/

namespace Verif.Props
open Verif Verif.Toml Verif.Spec.Toml

variable {input : Str} {ovf : Bool}

theorem views_of {E : Env} {toks : List Token} {vs : List Tok}
    (h : toks.map (resolve E.strings E.literals) = vs.map some) : Verif.Toml.views E toks = vs := by
  induction toks generalizing vs with
  | nil =>
    cases vs with
    | nil => rfl
    | cons v vs => simp at h
  | cons t ts ih =>
    cases vs with
    | nil => simp at h
    | cons v vs =>
      simp only [List.map_cons, List.cons.injEq] at h
      have := ih h.2
      simp only [Verif.Toml.views, List.filterMap_cons, h.1] at this ⊢
      rw [this]

/-- C91, the part that holds: whatever the document, the diagnostics that the parser adds to those of the
tokenizer are true statements about the tokens of the document and the places marked (`Claims`): what is
said to be found is at the place and has that name, what is said to be expected is not there, the bracket
said to be opened has been opened, and so on.

Missing: a closing curly bracket is called `` `{` `` (`Called` says so; `C91_counterexample_curly`), and
the comma marked as trailing can be another one in front of it (`C91_counterexample_comma`). -/
theorem C91_truth_partial {T : Tokens} {es : List Error} {a : Asts} {s : PS}
    (hl : lex input = some (T, es)) (h : parseDocument ovf input = .ok a s) :
    ∃ ts, Laid input ts ∧ T.tokens.map (resolve T.strings T.literals) = ts.map some ∧
      ∃ new, s.errors = es ++ new ∧ ∀ e ∈ new, Claims input ts e := by
  obtain ⟨T', es', vs, h1, h2, h3⟩ := parse_post ovf input
  obtain ⟨T'', es'', vs', g1, -, g2, g3, -⟩ := lex_post input
  rw [hl] at h1 g1
  cases h1
  cases g1
  rw [h] at h3
  obtain ⟨new, n1, n2⟩ := h3.2.2.1
  refine ⟨vs', g3, g2, new, n1, fun e he => ?_⟩
  have := (n2 e he).told
  rwa [views_of (E := envOf ovf input T) g2] at this

/-- What a true diagnostic about an unclosed curly bracket means: there is a curly bracket at `p`, and the
text marked does not start with a closing one. -/
theorem C91_unclosed_curly {T : Tokens} {es : List Error} {a : Asts} {s : PS} {f : Str} {p : Pos} {sp : Span}
    (hl : lex input = some (T, es)) (h : parseDocument ovf input = .ok a s)
    (he : Error.expectedRightCurlyFound f p sp ∈ s.errors) (hn : .expectedRightCurlyFound f p sp ∉ es) :
    ∃ ts u o, Laid input ts ∧ NextIs input ts u o sp ∧ Called o f ∧ (.punct '{', p) ∈ u ∧
      o ≠ some (.punct '}') := by
  obtain ⟨ts, h1, -, new, h2, h3⟩ := C91_truth_partial hl h
  rw [h2, List.mem_append] at he
  obtain ⟨u, o, g1, g2, g3, g4⟩ := h3 _ (he.resolve_left hn)
  exact ⟨ts, u, o, h1, g1, g2, g3, g4⟩

/-- What a true diagnostic about the nesting means: there are at least 99 opening brackets in front of the
one that is marked. -/
theorem C91_nesting {T : Tokens} {es : List Error} {a : Asts} {s : PS} {p : Pos}
    (hl : lex input = some (T, es)) (h : parseDocument ovf input = .ok a s)
    (he : Error.recursionLimitExceeded p ∈ s.errors) (hn : .recursionLimitExceeded p ∉ es) :
    ∃ ts u c v, Laid input ts ∧ ts = u ++ (.punct c, p) :: v ∧ (c = '[' ∨ c = '{') ∧ 99 ≤ opens u := by
  obtain ⟨ts, h1, -, new, h2, h3⟩ := C91_truth_partial hl h
  rw [h2, List.mem_append] at he
  obtain ⟨u, c, v, g1, g2, g3⟩ := h3 _ (he.resolve_left hn)
  exact ⟨ts, u, c, v, h1, g1, g2, g3⟩

/-- The diagnostics of a text, if the parser does not panic. -/
def saidOf (s : Str) : Option (List Error) :=
  match parseDocument true s with
  | .ok _ s => some s.errors
  | _ => none

/-- In `a = }` the parser says that it has found `` `{` ``, which is nowhere in the text. -/
theorem C91_counterexample_curly :
    saidOf "a = }".toList = some [.expectedValueFound "`{`".toList ⟨⟨0, 4⟩, ⟨0, 5⟩⟩] ∧
      '{' ∉ "a = }".toList := by
  constructor <;> decide +kernel

/-- In `a = { a = 1, b, }` the comma marked as trailing is the first one, and there is an entry behind
it. -/
theorem C91_counterexample_comma :
    saidOf "a = { a = 1, b, }".toList = some [.expectedEqOrDotFound "`,`".toList ⟨⟨0, 14⟩, ⟨0, 15⟩⟩,
      .inlineTableTrailingComma (posOf "a = { a = 1".toList)] ∧
    (("a = { a = 1, b, }".toList).drop ("a = { a = 1".toList).length) = ", b, }".toList := by
  constructor <;> decide +kernel

/-! The diagnostics exist. -/

example : saidOf "a = 1 b = 2".toList = some [.missingNewline ⟨0, 6⟩] := by decide +kernel

example : saidOf "[a\nb = [1 2\n".toList = some [
    .expectedDotOrRightSquareFound "`\\n`".toList ⟨0, 0⟩ ⟨⟨0, 2⟩, ⟨0, 2⟩⟩,
    .missingComma ⟨1, 6⟩,
    .expectedRightSquareFound "`EOF`".toList ⟨1, 4⟩ ⟨⟨1, 8⟩, ⟨1, 8⟩⟩] := by decide +kernel

example : saidOf "a = { b = 1,\n".toList = some [.inlineTableTrailingComma ⟨0, 11⟩,
    .expectedRightCurlyFound "`\\n`".toList ⟨0, 4⟩ ⟨⟨0, 12⟩, ⟨0, 12⟩⟩] := by decide +kernel

example : saidOf "a! = .5".toList = some [.invalidCharInIdentifier '!' ⟨0, 1⟩,
    .unexpectedLiteralStart '.' ⟨0, 5⟩] := by decide +kernel

end Verif.Props
