import Verif.Spec.MapRepr

/-!
# Specification: what a later part of a document may change in the map
-/

namespace Verif.Spec.Toml
open Verif Verif.Toml Verif.TomlMap

/-- The node at a location below a node, and the representations of its entry; an element of an array
has none. -/
def entryAt : MapNode → List Repr → Loc → Option (MapNode × List Repr)
  | n, rs, [] => some (n, rs)
  | .table t, _, .key k :: p => (get t k).bind fun e => entryAt e.node e.reprs p
  | .toplevel es, _, .idx i :: p => es[i]?.bind fun e => entryAt (.table e.node) [] p
  | .inline _ _ es, _, .idx i :: p => es[i]?.bind fun e => entryAt e.node [] p
  | _, _, _ => none

/-- A table remains a table, an array of tables gets no shorter, and every other node remains as it
is. -/
def SameKind : MapNode → MapNode → Prop
  | .table _, .table _ => True
  | .toplevel es, .toplevel es' => es.length ≤ es'.length
  | n, n' => n' = n

/-- Nothing of the first table is lost or replaced in the second: each location of the first exists in
the second, with at least the representations; what has been assigned by `p = v` is unchanged, also if
it is an inline table. -/
def Later (t t' : MapTable) : Prop :=
  ∀ p n rs, entryAt (.table t) [] p = some (n, rs) → ∃ n' rs', entryAt (.table t') [] p = some (n', rs') ∧
    rs <+: rs' ∧ SameKind n n' ∧ ((∃ r ∈ rs, IsValueRepr r) → n' = n)

/-- A table at such an entry may not be extended by the header of another table. -/
def ClosedTable (n : MapNode) (rs : List Repr) : Prop :=
  (∀ t, n ≠ .table t) ∨ ∃ r ∈ rs, r.kind.isAssignment = true ∨ IsLast r

/-- A key may not go through such an entry: a value has been assigned to it; or the key is the one of an
assignment, and it is an array of tables, or it has been defined by the header of a table. -/
def ClosedWay (isAssignment : Bool) (n : MapNode) (rs : List Repr) : Prop :=
  (∃ s, n = .scalar s) ∨ (∃ p a es, n = .inline p a es) ∨ (∃ r ∈ rs, IsValueRepr r) ∨
    (isAssignment = true ∧ ((∃ es, n = .toplevel es) ∨ ∃ r ∈ rs, ∃ t, r.kind = .table t))

/-- The entry that the names of a key lead to; from an array of tables it goes into the last table. -/
def followAt : MapTable → List Str → Option (MapNode × List Repr)
  | _, [] => none
  | t, [k] => (get t k).map fun e => (e.node, e.reprs)
  | t, k :: ks => (get t k).bind fun e =>
    match e.node with
    | .table t' => followAt t' ks
    | .toplevel es => es.getLast?.bind fun l => followAt l.node ks
    | _ => none

/-- A key is refused: the entry at its end is closed (`final`), or one on its way. -/
def Refused (isAssignment : Bool) (final : MapNode → List Repr → Prop) (t : MapTable) (ks : List Str) : Prop :=
  (∃ n rs, followAt t ks = some (n, rs) ∧ final n rs) ∨
  ∃ k1 k2 n rs, ks = k1 ++ k2 ∧ k2 ≠ [] ∧ followAt t k1 = some (n, rs) ∧ ClosedWay isAssignment n rs

/-- Both tables have the same at each location. -/
def SameContent (t t' : MapTable) : Prop := ∀ p, shapeAt t' p = shapeAt t p

end Verif.Spec.Toml
