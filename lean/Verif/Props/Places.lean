import Verif.Props.Parse
import Verif.Toml.ParseOk
import Verif.Toml.PlaceSpans

/-! # Property C76: the order and the extent of the parts of the tree

`parseDocument ovf input` gives the tree `a.asts`.  `PartOf a.asts k` says that `k` is a part of it: a
table, an entry of an array of tables, an assignment of the document or of a table, an assignment in an
inline table at any depth.  `k.span` is the range the program computes for that part. -/

namespace Verif.Props
open Verif Verif.Toml Verif.TomlMap Verif.Spec.Toml

variable {input : Str} {ovf : Bool}

/-- C76: the parts of the tree of any text - keys, names, dots, equal signs, values, brackets, commas,
free comments - stand in the text in the order of the tree, one behind another, without overlap.  This
includes the closing brackets of headers, if no pair of brackets has a multi-line string between. -/
theorem C76_order {T : Tokens} {es : List Error} {a : Asts} {s : PS} (hl : lex input = some (T, es))
    (h : parseDocument ovf input = .ok a s) :
    InOrder [] (a.asts.flatMap (astPlaces false)) input ∧
      (¬ SplitPair T.tokens → InOrder [] (a.asts.flatMap (astPlaces true)) input) := by
  obtain ⟨T', es', vs, h1, -, h2⟩ := parse_post ovf input
  rw [hl] at h1
  cases h1
  rw [h] at h2
  have := h2.2.2.2.2.2.2
  exact ⟨this false (by simp), fun hs => this true fun _ => hs⟩

/-- C76: the range of any assignment, of the document or of a table or an inline table, exists, is a
piece of the text, and holds exactly the parts of that assignment: from its first to its last. -/
theorem C76_assignment_spans {a : Asts} {s : PS} (h : parseDocument ovf input = .ok a s) {k : ReprKind}
    (hp : PartOf a.asts k) (hk : k.isAssignment = true) :
    ∃ r, k.span = some r ∧ SpanOfPlaces input r (partPlaces true k) := by
  obtain ⟨T', es', vs, h1, -, -⟩ := parse_post ovf input
  exact assign_span (Tree.parse_tree h).2 (C76_order h1 h).1 hp hk

/-- C76: so is the range of any part, also of tables and entries of arrays of tables, if no pair of
brackets has a multi-line string between. -/
theorem C76_spans {T : Tokens} {es : List Error} {a : Asts} {s : PS} (hl : lex input = some (T, es))
    (hs : ¬ SplitPair T.tokens) (h : parseDocument ovf input = .ok a s) {k : ReprKind}
    (hp : PartOf a.asts k) :
    ∃ r, k.span = some r ∧ SpanOfPlaces input r (partPlaces true k) :=
  part_span (Tree.parse_tree h).2 ((C76_order hl h).2 hs) hp

/-- What lies in an enclosed list, lies in the piece. -/
theorem covers_spanIn {r : Span} {l : List Span} (h : SpanOfPlaces input r l) : SpanIn input r := by
  obtain ⟨x, y, rfl, h1, h2⟩ := h
  exact h2.prefix.elim fun m hm => by
    obtain ⟨z, hz⟩ := h1
    exact ⟨x, m, z, by rw [hm, hz], by rw [hm]⟩

/-- The places of the parts of a tree, for the example. -/
def placesOf : Run Asts → List Span
  | .ok a _ => a.asts.flatMap (astPlaces true)
  | _ => []

/-- The theorems of this file are about such texts: the places in the tree of the sample document. -/
example : ((placesOf (parseDocument true sampleToml)).map fun s => (s.start.line, s.start.char, s.stop.char)) =
    [(1, 0, 1), (1, 1, 2), (1, 2, 3), (1, 4, 5), (1, 6, 7), (1, 7, 8), (1, 8, 9), (2, 0, 1), (2, 1, 2),
     (3, 0, 1), (3, 1, 2), (3, 2, 3), (3, 3, 4), (3, 4, 5), (4, 0, 1), (4, 2, 3), (4, 4, 5), (4, 5, 6),
     (4, 7, 8), (4, 9, 12), (4, 12, 13)] := by decide +kernel

/-- The ranges of the parts of a tree at the top, for the example. -/
def spansOf : Run Asts → List (Option Span)
  | .ok a _ => a.asts.filterMap fun x => match x with
    | .assignment a => some (ReprKind.span (.toplevelAssignment a))
    | .table t => some (ReprKind.span (.table t))
    | .array t => some (ReprKind.span (.arrayEntry t))
    | .comment _ => none
  | _ => []

/-- And the ranges of its two items. -/
example : spansOf (parseDocument true sampleToml) =
    [some ⟨⟨1, 0⟩, ⟨2, 2⟩⟩, some ⟨⟨3, 0⟩, ⟨4, 13⟩⟩] := by decide +kernel

/-- The premise about brackets is needed: here the range of the table ends at byte 8 of the first line,
which has 7 bytes. -/
theorem C76_counterexample : spansOf (parseDocument true "  [ '''\n '''   ]\n".toList) =
    [some ⟨⟨0, 2⟩, ⟨0, 8⟩⟩] := by decide +kernel

end Verif.Props
