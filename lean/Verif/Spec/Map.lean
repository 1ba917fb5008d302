import Verif.Spec.Grammar
import Verif.Toml.Map

/-!
# Specification: what a TOML document defines

A document is a list of items (`Spec/Grammar.lean`).  Each item defines one or more locations of the
document; this file says which, when two definitions of a location contradict each other, and what is
found at a location.  It follows the TOML 1.0 document and does not refer to the code, except for the
last section, which says how a map is read.
-/

namespace Verif.Spec.Toml
open Verif Verif.Toml

/-- A step into a value: by the name of a key, or by the index in an array. -/
inductive PStep
  | key (k : Str)
  | idx (n : Nat)
  deriving DecidableEq, Repr

/-- A location in a document: the steps from its root. -/
abbrev Loc := List PStep

/-- How a location is defined. -/
inductive What
  /-- `p = v`, or `v` is an element of an array -/
  | value (v : TVal)
  /-- on the way of a dotted key: `p.x = v` -/
  | dotted
  /-- `[p]` -/
  | header
  /-- on the way of a header: `[p.x]` -/
  | super
  /-- on the way of a header: `[[p.x]]` -/
  | superArray
  /-- `[[p]]` -/
  | entry
  /-- the table of one `[[p]]`, at `p` and its index -/
  | entryTable

/-- A definition of a location. -/
abbrev Def := Loc × What

/-- Is it an entry of an array of tables? -/
def What.isEntry : What → Bool
  | .entry => true
  | _ => false

/-- The number of `[[p]]` among some definitions. -/
def entries (D : List Def) (p : Loc) : Nat := (D.filter fun d => d.1 = p && d.2.isEntry).length

/-! ## The definitions of a document -/

/-- The definitions on the way of a key, all names but the last, from the location `p` on, and the
location of the last name.  A header goes into the last entry of an array of tables, where `count`
is the number of entries; an assignment does not. -/
def wayDefs (w : What) (count : Loc → Nat) (p : Loc) : List Str → List Def × Loc
  | [] => ([], p)
  | [k] => ([], p ++ [.key k])
  | k :: ks =>
    let q := p ++ [.key k]
    if count q = 0 then
      let r := wayDefs w count q ks
      ((q, w) :: r.1, r.2)
    else wayDefs w count (q ++ [.idx (count q - 1)]) ks

/-- The definitions on the way of the key of an assignment. -/
def dottedDefs (p : Loc) (k : List Str) : List Def × Loc := wayDefs .dotted (fun _ => 0) p k

mutual

/-- The definitions of a value at the location `p`. -/
def valDefs : TVal → Loc → List Def
  | .array vs, p => (p, .value (.array vs)) :: elemDefs vs 0 p
  | .table kvs, p => (p, .value (.table kvs)) :: pairDefs kvs p
  | .str s, p => [(p, .value (.str s))]
  | .int n, p => [(p, .value (.int n))]
  | .float f, p => [(p, .value (.float f))]
  | .bool b, p => [(p, .value (.bool b))]
  | .dateTime d, p => [(p, .value (.dateTime d))]
  | .malformed s, p => [(p, .value (.malformed s))]

/-- The definitions of the elements of an array, from the index `i` on. -/
def elemDefs : List TVal → Nat → Loc → List Def
  | [], _, _ => []
  | v :: vs, i, p => valDefs v (p ++ [.idx i]) ++ elemDefs vs (i + 1) p

/-- The definitions of the assignments of an inline table. -/
def pairDefs : List (List Str × TVal) → Loc → List Def
  | [], _ => []
  | (k, v) :: kvs, p => (dottedDefs p k).1 ++ valDefs v (dottedDefs p k).2 ++ pairDefs kvs p

end

/-- The definitions of an assignment in the table at `p`. -/
def keyValDefs (p : Loc) (k : List Str) (v : TVal) : List Def :=
  (dottedDefs p k).1 ++ valDefs v (dottedDefs p k).2

/-- The definitions of an item behind the definitions `D`, where `sec` is the table that assignments
belong to, and the table of the assignments behind it.  A header without a key (a mistake) and the
assignments behind it define nothing. -/
def itemDefs (D : List Def) (sec : Option Loc) : Item → List Def × Option Loc
  | .table [] => ([], none)
  | .arrayTable [] => ([], none)
  | .table k =>
    let r := wayDefs .super (entries D) [] k
    (r.1 ++ [(r.2, .header)], some r.2)
  | .arrayTable k =>
    let r := wayDefs .superArray (entries D) [] k
    let q := r.2 ++ [.idx (entries D r.2)]
    (r.1 ++ [(r.2, .entry), (q, .entryTable)], some q)
  | .keyVal k v =>
    match sec with
    | some p => (keyValDefs p k v, sec)
    | none => ([], sec)

/-- The definitions `D`, and the ones of the items behind them. -/
def defsFrom (D : List Def) (sec : Option Loc) : List Item → List Def
  | [] => D
  | i :: is => defsFrom (D ++ (itemDefs D sec i).1) (itemDefs D sec i).2 is

/-- The definitions of a document, in order. -/
def docDefs (is : List Item) : List Def := defsFrom [] (some []) is

/-! ## Contradictions -/

/-- May a location that is defined by the first be defined by the second later on?  More liberal than
TOML: a table on the way of `[[p.x]]` may be extended by a dotted key.  (A header never defines an
array of tables on its way: it goes into the last entry.) -/
def Compatible : What → What → Prop
  | _, .value _ => False
  | w, .header => w = .super ∨ w = .superArray
  | w, .entry => w = .entry
  | .value _, .super => False
  | .value _, .superArray => False
  | .entry, .super => False
  | .entry, .superArray => False
  | _, .super => True
  | _, .superArray => True
  | w, .dotted => w = .dotted ∨ w = .superArray
  | _, .entryTable => False

/-- Each location is defined only once, or in compatible ways. -/
def Consistent (D : List Def) : Prop := D.Pairwise fun a b => a.1 = b.1 → Compatible a.2 b.2

/-! ## What is found at a location -/

/-- What is found at a location: a scalar, an array of some length, or a table. -/
inductive Shape
  | scalar (v : TVal)
  | array (n : Nat)
  | table

/-- The shape of a value. -/
def valShape : TVal → Shape
  | .array vs => .array vs.length
  | .table _ => .table
  | v => .scalar v

/-- The definitions `D` say that `s` is found at `p`. -/
inductive Says (D : List Def) : Loc → Shape → Prop
  | value {p v} : (p, .value v) ∈ D → Says D p (valShape v)
  | array {p} : (p, .entry) ∈ D → Says D p (.array (entries D p))
  | dotted {p} : (p, .dotted) ∈ D → Says D p .table
  | header {p} : (p, .header) ∈ D → Says D p .table
  | super {p} : (p, .super) ∈ D → Says D p .table
  | superArray {p} : (p, .superArray) ∈ D → Says D p .table
  | entryTable {p} : (p, .entryTable) ∈ D → Says D p .table

/-! ## Reading a map -/

/-- The node at a location below a node: `MapTable::get` for names, and the element with an index. -/
def nodeAt : TomlMap.MapNode → Loc → Option TomlMap.MapNode
  | n, [] => some n
  | .table t, .key k :: p => (TomlMap.get t k).bind fun e => nodeAt e.node p
  | .toplevel es, .idx i :: p => es[i]?.bind fun e => nodeAt (.table e.node) p
  | .inline _ _ es, .idx i :: p => es[i]?.bind fun e => nodeAt e.node p
  | _, _ => none

/-- The value of a scalar. -/
def scalarVal : TomlMap.Scalar → TVal
  | .string s => .str s.text
  | .int _ _ n => .int n
  | .float _ _ f => .float f
  | .bool _ b => .bool b
  | .dateTime _ _ d => .dateTime d
  | .invalid l _ => .malformed l

/-- The shape of a node. -/
def nodeShape : TomlMap.MapNode → Shape
  | .table _ => .table
  | .toplevel es => .array es.length
  | .inline _ _ es => .array es.length
  | .scalar s => .scalar (scalarVal s)

/-- What is found at a location of a map. -/
def shapeAt (t : TomlMap.MapTable) (p : Loc) : Option Shape := (nodeAt (.table t) p).map nodeShape

end Verif.Spec.Toml
