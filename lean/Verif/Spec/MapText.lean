import Verif.Spec.MapRepr
import Verif.Spec.Parse

/-!
# Specification: the map of a document lies in its text

Each representation, each element of an array and each value of a map stands in the document.
-/

namespace Verif.Spec.Toml
open Verif Verif.Toml Verif.TomlMap

/-- A part of the document that defines a key stands in it. -/
def KindAt (oneLine : Prop) (input : Str) (n : Nat) : ReprKind → Prop
  | .table t => AstAt oneLine input n (.table t)
  | .arrayEntry t => AstAt oneLine input n (.array t)
  | .toplevelAssignment a => AssignmentAt input n a
  | .inlineTableAssignment a => KeyAt input a.assignment.key ∧ CharAt input a.assignment.eq '=' ∧
      (∀ p, a.comma = some p → CharAt input p ',') ∧ ValueAt input n a.assignment.val

/-- A representation of a key stands in the document: the name of the key, and the whole part. -/
def ReprAt (oneLine : Prop) (input : Str) (n : Nat) (r : Repr) : Prop :=
  (∃ i, r.key.reprIdent = some i ∧ IdentAt input i) ∧ KindAt oneLine input n r.kind

/-- All parts of a node stand in the document. -/
inductive NodeAt (oneLine : Prop) (input : Str) (n : Nat) : MapNode → Prop
  | table {t} : (∀ k e, (k, e) ∈ t → ∀ r ∈ e.reprs, ReprAt oneLine input n r) →
      (∀ k e, (k, e) ∈ t → NodeAt oneLine input n e.node) → NodeAt oneLine input n (.table t)
  | toplevel {es} : (∀ e ∈ es, AstAt oneLine input n (.array e.repr)) →
      (∀ e ∈ es, NodeAt oneLine input n (.table e.node)) → NodeAt oneLine input n (.toplevel es)
  | inline {p a es} : ValueAt input n (.inlineArray a) →
      (∀ e ∈ es, ValueAt input n e.repr.val) →
      (∀ e ∈ es, NodeAt oneLine input n e.node) → NodeAt oneLine input n (.inline p a es)
  | scalar {s} : ValueAt input n (scalarValue s) → NodeAt oneLine input n (.scalar s)

end Verif.Spec.Toml
