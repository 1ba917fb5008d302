import Verif.Spec.MapGrow
import Verif.Spec.Paths

/-!
# Specification: the diagnostics of the map of a document

A diagnostic is about a key that collides with an entry of the map: `r` is the representation of the key
that is rejected, and `o` is the representation of the entry that it collides with.
-/

namespace Verif.Spec.Toml
open Verif Verif.Toml Verif.TomlMap

/-- Why `r` may not define the entry again: it goes through a scalar, or it ends at an entry that may not
be assigned, or be the table of another header, or be an array of tables. -/
def Duplicate (e : TomlMap.Entry) (r : Repr) : Prop :=
  (¬ IsLast r ∧ ∃ s, e.node = .scalar s) ∨
  (IsLast r ∧ (r.kind.isAssignment = true ∨ ((∃ t, r.kind = .table t) ∧ ClosedTable e.node e.reprs) ∨
    ((∃ a, r.kind = .arrayEntry a) ∧ ((∃ t, e.node = .table t) ∨ ∃ s, e.node = .scalar s))))

/-- The diagnostic about the entry at the location `loc`, where `path` leads to the table around it: it has
the lines of the headers and keys around both representations, the location, the place of the first
representation, and the name of the second one. -/
inductive Collision (path : List Seg) (loc : Loc) (e : TomlMap.Entry) (o r : Repr) : Error → Prop
  | duplicateKey {ls i j} : ContextLines path [o.parent, r.parent] ls → o.key.reprIdent = some i →
      r.key.reprIdent = some j → Duplicate e r →
      Collision path loc e o r (.duplicateKey ls (showLoc loc) i.litSpan j.litSpan)
  | tableWithDottedKey {ls s j} : ContextLines path [o.parent, r.parent] ls → o.kind.span = some s →
      r.key.reprIdent = some j → e.reprs.head? = some o → ¬ IsLast r → r.kind.isAssignment = true →
      (∃ t, e.node = .table t) → (∃ q ∈ e.reprs, ∃ t, q.kind = .table t) →
      Collision path loc e o r (.cannotExtendTableWithDottedKey ls (showLoc loc) s j.litSpan)
  | inlineTable {ls s j} : ContextLines path [o.parent, r.parent] ls → o.kind.span = some s →
      r.key.reprIdent = some j → e.reprs.head? = some o → ¬ IsLast r →
      (∃ t, e.node = .table t) → (∃ q ∈ e.reprs, IsValueRepr q) →
      Collision path loc e o r (.cannotExtendInlineTable ls (showLoc loc) s j.litSpan)
  | arrayWithDottedKey {ls s j} : ContextLines path [o.parent, r.parent] ls → o.kind.span = some s →
      r.key.reprIdent = some j → e.reprs.head? = some o → ¬ IsLast r → r.kind.isAssignment = true →
      (∃ es, e.node = .toplevel es) →
      Collision path loc e o r (.cannotExtendArrayWithDottedKey ls (showLoc loc) s j.litSpan)
  | inlineArray {ls s j} : ContextLines path [o.parent, r.parent] ls → o.kind.span = some s →
      r.key.reprIdent = some j → e.reprs.head? = some o → IsLast r → (∃ a, r.kind = .arrayEntry a) →
      (∃ p a es, e.node = .inline p a es) →
      Collision path loc e o r (.cannotExtendInlineArray ls (showLoc loc) s j.litSpan)
  | inlineArrayAsTable {ls s j} : ContextLines path [o.parent, r.parent] ls → o.kind.span = some s →
      r.key.reprIdent = some j → e.reprs.head? = some o → ¬ IsLast r →
      (∃ p a es, e.node = .inline p a es) →
      Collision path loc e o r (.cannotExtendInlineArrayAsTable ls (showLoc loc) s j.litSpan)

/-- A diagnostic of the map `t`: about an entry of `t`, one of its representations, and a key of the
document with the same name, which belongs into the same table. -/
def MapError (asts : List Ast) (t : MapTable) (er : Error) : Prop :=
  ∃ loc k path e o r, pathTo (.table t) [] (loc ++ [.key k]) = some (path, e) ∧ o ∈ e.reprs ∧ NameOk k r ∧
    ParentOk asts (around path) r ∧ Collision path (loc ++ [.key k]) e o r er

end Verif.Spec.Toml
