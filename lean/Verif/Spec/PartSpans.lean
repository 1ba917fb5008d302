import Verif.Spec.Places
import Verif.Spec.MapRepr

/-!
# Specification: the parts of a document and their places
-/

namespace Verif.Spec.Toml
open Verif Verif.Toml Verif.TomlMap

/-- A part of a document: an item of the tree, or a part inside of another part. -/
inductive PartOf (asts : List Ast) : ReprKind → Prop
  | top {k} : TopLevel asts k → PartOf asts k
  | inside {p k} : PartOf asts p → Contains p k → PartOf asts k

/-- The places of an assignment in an inline table. -/
def inlinePlaces (a : InlineTableAssignment) : List Span :=
  keyPlaces a.assignment.key ++ [Span.asciiChar a.assignment.eq] ++ valPlaces a.assignment.val ++
    optPlace a.comma

/-- The places of a part of the document. -/
def partPlaces (closing : Bool) : ReprKind → List Span
  | .table t => astPlaces closing (.table t)
  | .arrayEntry t => astPlaces closing (.array t)
  | .toplevelAssignment a => assignmentPlaces a
  | .inlineTableAssignment a => inlinePlaces a

/-- The span is a piece of the document, and the places are inside of it, in order. -/
def SpanOfPlaces (input : Str) (s : Span) (l : List Span) : Prop :=
  ∃ x y, s = ⟨posOf x, posOf y⟩ ∧ y <+: input ∧ InOrder x l y

end Verif.Spec.Toml
