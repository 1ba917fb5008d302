import Verif.Toml.CompTop
import Verif.Toml.Balance

/-! # Properties C59, C60, C71 and C72: the parser and the grammar of TOML

The grammar is in `Spec/Lex.lean` (`Tokenized`) and `Spec/Grammar.lean` (`Doc`). -/

namespace Verif.Props
open Verif Verif.Toml Verif.Spec.Toml

variable {input : Str} {ovf : Bool}

/-! ## C71 -/

/-- C71: a text is read without any diagnostic exactly if it follows the grammar. -/
theorem C71_grammar (ovf : Bool) (input : Str) :
    (∃ a s, parseDocument ovf input = .ok a s ∧ s.errors = []) ↔
      ∃ vs items, Tokenized [] input vs ∧ Doc false vs items := by
  constructor
  · rintro ⟨a, s, h, he⟩
    obtain ⟨vs, h1, h2, -⟩ := parse_sound h he
    exact ⟨vs, _, h1, h2⟩
  · rintro ⟨vs, items, h1, h2⟩
    obtain ⟨a, s, h3, h4, -⟩ := parse_complete h1 h2 ovf
    exact ⟨a, s, h3, h4⟩

/-! ## C72 -/

/-- C72: the tree of a text that is read without diagnostics says the items that the grammar assigns to
the text, in the order of the text, whatever the build; assignments outside of tables are in front of
the first header. -/
theorem C72_items {vs : List (View × Pos)} {items : List Item} (h1 : Tokenized [] input vs)
    (h2 : Doc false vs items) (ovf : Bool) : ∃ a s, parseDocument ovf input = .ok a s ∧ s.errors = [] ∧
      a.asts.flatMap astItems = items ∧ RootFirst a.asts := by
  obtain ⟨a, s, h3, h4, h5⟩ := parse_complete h1 h2 ovf
  obtain ⟨-, -, -, h6⟩ := parse_sound h3 h4
  exact ⟨a, s, h3, h4, h5, h6⟩

/-- C72: the grammar assigns at most one list of tokens and one list of items to a text. -/
theorem C72_unambiguous {vs vs' : List (View × Pos)} {items items' : List Item}
    (h1 : Tokenized [] input vs) (h2 : Doc false vs items) (h1' : Tokenized [] input vs')
    (h2' : Doc false vs' items') : vs = vs' ∧ items = items' := by
  obtain ⟨T, es, ws, -, -, -, -, -, -, -, h6, -⟩ := lex_post input
  constructor
  · rcases h6 with ⟨-, h6⟩ | ⟨-, h6⟩
    · rw [(h6 _).1 h1, (h6 _).1 h1']
    · exact absurd h1 (h6 _)
  · obtain ⟨a, s, e1, -, e2⟩ := parse_complete h1 h2 true
    obtain ⟨a', s', e1', -, e2'⟩ := parse_complete h1' h2' true
    rw [e1] at e1'
    cases e1'
    rw [← e2, ← e2']

/-! ## C59 -/

/-- C59: if more than `RECURSION_LIMIT` brackets of a text are open at the same time, this is
reported. -/
theorem C59_reported {T : Tokens} {es : List Error} {vs : List (View × Pos)} {a : Asts} {s : PS}
    (hl : lex input = some (T, es)) (hv : T.tokens.map (resolve T.strings T.literals) = vs.map some)
    (h : parseDocument ovf input = .ok a s) {x y : List (View × Pos)} (hx : vs = x ++ y)
    (hd : (RECURSION_LIMIT : Int) < bracketDepth x) : s.errors ≠ [] := by
  intro he
  obtain ⟨vs', h1, h2, -⟩ := parse_sound h he
  obtain ⟨T', es', ws, k0, -, k2, -, -, -, -, h6, -⟩ := lex_post input
  rw [hl] at k0
  cases k0
  have e1 : vs = ws := (List.map_inj_right (fun _ _ => Option.some.inj)).1 (hv.symm.trans k2)
  have e2 : vs' = ws := by
    rcases h6 with ⟨-, h6⟩ | ⟨-, h6⟩
    · exact (h6 _).1 h1
    · exact absurd h1 (h6 _)
  rw [e2, ← e1] at h2
  have := (doc_bal h2).2 x y hx
  have hr : (RECURSION_LIMIT : Int) = 100 := rfl
  omega

/-- C59: a text that follows the grammar has at most `RECURSION_LIMIT` brackets open at any point. -/
theorem C59_grammar {vs : List (View × Pos)} {items : List Item} (h : Doc false vs items)
    {x y : List (View × Pos)} (hx : vs = x ++ y) : bracketDepth x ≤ RECURSION_LIMIT := (doc_bal h).2 x y hx

/-! ## C60 -/

/-- C60: no text that follows the grammar makes the parser panic. -/
theorem C60_valid_partial {vs : List (View × Pos)} {items : List Item} (h1 : Tokenized [] input vs)
    (h2 : Doc false vs items) (ovf : Bool) : parseDocument ovf input ≠ .panic := by
  obtain ⟨a, s, h, -⟩ := parse_complete h1 h2 ovf
  rw [h]
  intro hh
  cases hh

/-! ## Examples -/

/-- A document with a string over several lines, nested values, dotted and quoted keys, a date with a
time, an array of tables, and comments. -/
def richToml : Str :=
  "a.'b c' = [1, # y\n[0x1F, '''\nx'''],] # z\nd = 1979-05-27 07:32:00.5Z\n[t.\"u\"] #\n[[t.v]]\ne={k = -1.5e3, l.m = true}".toList

/-- Whether an outcome is a tree without diagnostics. -/
def accepted : Run Asts → Bool
  | .ok _ s => s.errors.isEmpty
  | _ => false

theorem accepted_iff {r : Run Asts} : accepted r = true ↔ ∃ a s, r = .ok a s ∧ s.errors = [] := by
  cases r with
  | ok a s =>
    constructor
    · intro h; exact ⟨a, s, rfl, by simpa [accepted] using h⟩
    · rintro ⟨a', s', h, he⟩
      cases h
      simp [accepted, he]
  | panic => simp [accepted]
  | timeout => simp [accepted]

/-- The hypotheses of the theorems of this file are met by this document. -/
theorem rich_doc : ∃ vs items, Tokenized [] richToml vs ∧ Doc false vs items :=
  (C71_grammar true _).1 (accepted_iff.1 (by decide +kernel))

/-- ... and it has a string over several lines inside of brackets. -/
example : parseDocument true richToml ≠ .panic := by
  obtain ⟨vs, items, h1, h2⟩ := rich_doc
  exact C60_valid_partial h1 h2 true

/-- The grammar on a small list of tokens: `a = [1]`, a comment, `[t]`. -/
example (p0 p1 p2 p3 p4 p5 p6 p7 p8 p9 : Pos) :
    Doc false [(.word "a".toList, p0), (.punct '=', p1), (.punct '[', p2), (.word "1".toList, p3),
      (.punct ']', p4), (.comment " x".toList, p5), (.newline, p6), (.punct '[', p7), (.word "t".toList, p8),
      (.punct ']', p9)] [.keyVal ["a".toList] (.array [.int 1]), .table ["t".toList]] := by
  have hone : Scalar ['1'] (.int 1) := by
    refine .int ⟨[], 1, ['1'], rfl, .none, ⟨.one (by decide), .inr (by decide)⟩, by decide⟩ (by
      unfold InRange; omega)
  have hval : Val 100 [(.punct '[', p2), (.word ['1'], p3), (.punct ']', p4)] (.array [.int 1]) := by
    refine .array (n := 99) (es := [⟨[], [(.word ['1'], p3)], [], .int 1⟩]) ?_ ?_ .last
    · intro e he
      rw [List.mem_singleton.1 he]
      exact ⟨fun t ht => (by cases ht), fun t ht => (by cases ht)⟩
    · intro e he
      rw [List.mem_singleton.1 he]
      exact .bare ⟨['1'], [], [], rfl, rfl, .nil⟩ hone
  refine .more (is := [_]) (ts := [_, _, _, _, _, _]) (.exprComment (ts := [_, _, _, _, _]) (.keyVal (kt := [_])
    (.one (.bare ?_)) hval)) (.last (.expr (.table (kt := [_]) (.one (.bare ?_))))) <;>
  · intro c hc
    rw [List.mem_singleton.1 hc]
    unfold BareChar
    decide

/-- Texts that do not follow the grammar: a value is missing, two assignments on a line, a trailing
comma in an inline table, a table header over two lines. -/
example : accepted (parseDocument true "a =".toList) = false ∧
    accepted (parseDocument true "a = 1 b = 2".toList) = false ∧
    accepted (parseDocument true "a = {b = 1,}".toList) = false ∧
    accepted (parseDocument true "[a\n]".toList) = false := by decide +kernel

end Verif.Props
