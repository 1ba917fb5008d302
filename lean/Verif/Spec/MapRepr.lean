import Verif.Spec.Map

/-!
# Specification: where the entries of a map come from

Each entry of the map keeps the parts of the document that define it (its representations), and each
representation keeps the index of the one that it belongs to, among the representations of the entry
around it.  This file says when these references are right.
-/

namespace Verif.Spec.Toml
open Verif Verif.Toml Verif.TomlMap

/-! ## Syntax trees -/

/-- A dotted key has at least one name. -/
def KeyOk (k : Key) : Prop := k.idents ≠ []

mutual

/-- All keys inside of the value have a name. -/
def ValOk : Value → Prop
  | .inlineTable ⟨_, as, _⟩ => PairsOk as
  | .inlineArray ⟨_, _, vs, _⟩ => ValsOk vs
  | _ => True

def ValsOk : List InlineArrayValue → Prop
  | [] => True
  | ⟨_, v, _⟩ :: vs => ValOk v ∧ ValsOk vs

def PairsOk : List InlineTableAssignment → Prop
  | [] => True
  | ⟨⟨k, _, v⟩, _⟩ :: as => KeyOk k ∧ ValOk v ∧ PairsOk as

end

/-- The key of an assignment, and the ones inside of its value, have a name. -/
def AssignOk (a : ToplevelAssignment) : Prop := KeyOk a.assignment.key ∧ ValOk a.assignment.val

/-- All keys of a part of the tree have a name. -/
def AstOk : Ast → Prop
  | .assignment a => AssignOk a
  | .table t => (∀ k, t.header.key = some k → KeyOk k) ∧ ∀ a ∈ t.assignments, AssignOk a
  | .array t => (∀ k, t.header.key = some k → KeyOk k) ∧ ∀ a ∈ t.assignments, AssignOk a
  | .comment _ => True

/-! ## Representations -/

/-- The assignment `x` is in the inline table `v`, or in one that is an element of the array `v`. -/
inductive HasAssignment : Value → InlineTableAssignment → Prop
  | here {t x} : x ∈ t.assignments → HasAssignment (.inlineTable t) x
  | elem {a y x} : y ∈ a.values → HasAssignment y.val x → HasAssignment (.inlineArray a) x

/-- The second part of the document is inside of the first. -/
def Contains : ReprKind → ReprKind → Prop
  | .table t, .toplevelAssignment a => a ∈ t.assignments
  | .arrayEntry t, .toplevelAssignment a => a ∈ t.assignments
  | .toplevelAssignment b, .inlineTableAssignment a => HasAssignment b.assignment.val a
  | .inlineTableAssignment b, .inlineTableAssignment a => HasAssignment b.assignment.val a
  | _, _ => False

/-- The key of a part of the document. -/
def kindKey : ReprKind → Option Key
  | .table t => t.header.key
  | .arrayEntry t => t.header.key
  | .toplevelAssignment a => some a.assignment.key
  | .inlineTableAssignment a => some a.assignment.key

/-- A part of the document that is not inside of another one. -/
def TopLevel (asts : List Ast) : ReprKind → Prop
  | .table t => .table t ∈ asts
  | .arrayEntry t => .array t ∈ asts
  | .toplevelAssignment a => .assignment a ∈ asts
  | .inlineTableAssignment _ => False

/-- The representation is for the name `k`: it points to this name in the key of its part of the
document. -/
def NameOk (k : Str) (r : Repr) : Prop :=
  match r.key with
  | .one i => kindKey r.kind = some (.one i) ∧ i.text = k
  | .dotted idx ids => kindKey r.kind = some (.dotted ids) ∧ ∃ d, ids[idx]? = some d ∧ d.ident.text = k

/-- Does it point to the first name? -/
def IsFirst (r : Repr) : Prop :=
  match r.key with
  | .one _ => True
  | .dotted idx _ => idx = 0

/-- Does it point to the last name? -/
def IsLast (r : Repr) : Prop :=
  match r.key with
  | .one _ => True
  | .dotted idx ids => idx + 1 = ids.length

/-- `r` belongs to `p`: the next name of the same key, or the first name of a part inside of the part
whose last name `p` is. -/
def BelongsTo (r p : Repr) : Prop :=
  (∃ idx ids, p.key = .dotted idx ids ∧ r.key = .dotted (idx + 1) ids ∧ r.kind = p.kind) ∨
  (IsLast p ∧ IsFirst r ∧ Contains p.kind r.kind)

/-- The reference of `r` is right, where `around` are the representations of the entry around it. -/
def ParentOk (asts : List Ast) (around : Option (List Repr)) (r : Repr) : Prop :=
  match around with
  | none => r.parent = ROOT_PARENT ∧ IsFirst r ∧ TopLevel asts r.kind
  | some rs => ∃ p, rs[r.parent]? = some p ∧ BelongsTo r p

/-- The representation is the key of an assignment, `p = v`. -/
def IsValueRepr (r : Repr) : Prop := r.kind.isAssignment = true ∧ IsLast r

/-- The value of an assignment. -/
def kindVal : ReprKind → Option Value
  | .toplevelAssignment a => some a.assignment.val
  | .inlineTableAssignment a => some a.assignment.val
  | _ => none

/-- The value in the document that a scalar is. -/
def scalarValue : TomlMap.Scalar → Value
  | .string s => .string s
  | .int l s v => .int l s v
  | .float l s v => .float l s v
  | .bool s v => .bool s v
  | .dateTime l s v => .dateTime l s v
  | .invalid l s => .invalid l s

/-- The node is for the value `v` of the document: a table for an inline table, an array with a node for
each element for an array, and otherwise the value itself. -/
inductive FromValue : Value → MapNode → Prop
  | table {i t} : FromValue (.inlineTable i) (.table t)
  | inline {p a es} : es.map (·.repr) = a.values → (∀ e ∈ es, FromValue e.repr.val e.node) →
      FromValue (.inlineArray a) (.inline p a es)
  | scalar {v s} : scalarValue s = v → FromValue v (.scalar s)

/-- The representation is the key of an assignment `p = v`, and the node is for `v`. -/
def Defines (r : Repr) (n : MapNode) : Prop := ∃ v, kindVal r.kind = some v ∧ FromValue v n

/-- The kinds of representations that an entry may have: a scalar or an inline array has only one, the
assignment of this value; an array of tables has only headers; the assignments to a table are of inline
tables. -/
def KindOk : MapNode → List Repr → Prop
  | .table t, rs => ∀ r ∈ rs, IsValueRepr r → Defines r (.table t)
  | .toplevel _, rs => ∀ r ∈ rs, r.kind.isAssignment = false
  | .inline p a es, rs => ∃ r, rs = [r] ∧ IsValueRepr r ∧ Defines r (.inline p a es)
  | .scalar s, rs => ∃ r, rs = [r] ∧ IsValueRepr r ∧ Defines r (.scalar s)

/-- The representations and the references of a node are right, where `around` are the
representations of the entry around it. -/
inductive NodeOk (asts : List Ast) : Option (List Repr) → MapNode → Prop
  | table {around t} :
    (t.map (·.1)).Nodup →
    (∀ k e, (k, e) ∈ t → e.reprs ≠ []) →
    (∀ k e, (k, e) ∈ t → ∀ r ∈ e.reprs, NameOk k r ∧ ParentOk asts around r) →
    (∀ k e, (k, e) ∈ t → KindOk e.node e.reprs) →
    (∀ k e, (k, e) ∈ t → NodeOk asts (some e.reprs) e.node) →
    NodeOk asts around (.table t)
  | toplevel {rs es} :
    es ≠ [] →
    (∀ e ∈ es, ∃ p, rs[e.parent]? = some p ∧ IsLast p ∧ p.kind = .arrayEntry e.repr) →
    (∀ e ∈ es, NodeOk asts (some rs) (.table e.node)) →
    NodeOk asts (some rs) (.toplevel es)
  | inline {rs parent a es} :
    (∃ p, rs[parent]? = some p ∧ IsLast p ∧ p.kind.isAssignment = true) →
    es.map (·.repr) = a.values →
    (∀ e ∈ es, FromValue e.repr.val e.node) →
    (∀ e ∈ es, NodeOk asts (some rs) e.node) →
    NodeOk asts (some rs) (.inline parent a es)
  | scalar {rs s} : NodeOk asts (some rs) (.scalar s)

/-- The table of a document has right representations and references. -/
def MapOk (asts : List Ast) (t : MapTable) : Prop := NodeOk asts none (.table t)

/-! ## Paths -/

/-- The path from the root to the entry at a location, as a traversal of the map builds it, and the
entry. -/
def pathTo : MapNode → List Seg → Loc → Option (List Seg × TomlMap.Entry)
  | .table t, prev, .key k :: p =>
    match get t k with
    | none => none
    | some e =>
      match p with
      | [] => some (prev, e)
      | _ => pathTo e.node (.table e.reprs :: prev) p
  | .toplevel es, prev, .idx i :: p => es[i]?.bind fun e => pathTo (.table e.node) (.array i :: prev) p
  | .inline _ _ es, prev, .idx i :: p => es[i]?.bind fun e => pathTo e.node (.array i :: prev) p
  | _, _, _ => none

end Verif.Spec.Toml

namespace Verif.TomlMap

/-- The representations of the entry around, where the path (last segment first) leads to a table. -/
def around : List Seg → Option (List Repr)
  | [] => none
  | .table rs :: _ => some rs
  | .array _ :: p => around p

end Verif.TomlMap
