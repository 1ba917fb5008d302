import Verif.Toml.Map
import Verif.Spec.MapRepr
import Verif.Ide.Check

/-!
# Model of the plain values of a document (crates/toml/src/util.rs)
-/

namespace Verif.TomlMap
open Verif Verif.Toml

/-- `SimpleVal` (crates/toml/src/util.rs:75-85); `MapInner` is a list of pairs in the order of insertion,
as in `MapTable`. -/
inductive SimpleVal
  | table (t : List (Str × SimpleVal))
  | array (vs : List SimpleVal)
  | string (s : Str)
  | int (n : Int)
  | float (f : FloatVal)
  | bool (b : Bool)
  | dateTime (d : DateTime)
  | invalid (s : Str)

/-- `MapInner::get`, for plain values. -/
def getSimple : List (Str × SimpleVal) → Str → Option SimpleVal
  | [], _ => none
  | (k, v) :: t, x => if k = x then some v else getSimple t x

/-- `MapInner::insert`, for plain values: an occupied key gets the new value in its place. -/
def putSimple : List (Str × SimpleVal) → Str × SimpleVal → List (Str × SimpleVal)
  | [], x => [x]
  | y :: t, x => if y.1 = x.1 then x :: t else y :: putSimple t x

/-- `MapInner::from_iter` (crates/toml/src/util.rs:106): one insertion behind the other. -/
def fromIter (l : List (Str × SimpleVal)) : List (Str × SimpleVal) := l.foldl putSimple []

/-- The plain value of a scalar (crates/toml/src/util.rs:120-127). -/
def simpleScalar : Scalar → SimpleVal
  | .string s => .string s.text
  | .int _ _ n => .int n
  | .float _ _ f => .float f
  | .bool _ b => .bool b
  | .dateTime _ _ d => .dateTime d
  | .invalid l _ => .invalid l

mutual

/-- `map_simple_val` (crates/toml/src/util.rs:109-129). -/
def mapSimpleVal : MapNode → SimpleVal
  | .table t => .table (fromIter (simplePairs t))
  | .toplevel es => .array (simpleTables es)
  | .inline _ _ es => .array (simpleElems es)
  | .scalar s => simpleScalar s

/-- The iterator of `map_simple` (crates/toml/src/util.rs:103-105). -/
def simplePairs : List (Str × EntryF MapNode) → List (Str × SimpleVal)
  | [] => []
  | (k, ⟨n, _⟩) :: t => (k, mapSimpleVal n) :: simplePairs t

/-- The entries of an array of tables (crates/toml/src/util.rs:112-116). -/
def simpleTables : List (ArrayTableF MapNode) → List SimpleVal
  | [] => []
  | ⟨t, _, _⟩ :: es => .table (fromIter (simplePairs t)) :: simpleTables es

/-- The elements of an array (crates/toml/src/util.rs:117-119). -/
def simpleElems : List (InlineEntryF MapNode) → List SimpleVal
  | [] => []
  | ⟨n, _⟩ :: es => mapSimpleVal n :: simpleElems es

end

/-- `map_simple` (crates/toml/src/util.rs:102-107). -/
def mapSimple (t : MapTable) : List (Str × SimpleVal) := fromIter (simplePairs t)

/-- `SimpleVal::datatype` (crates/toml/src/util.rs:61-72). -/
def SimpleVal.datatype : SimpleVal → Ide.Datatype
  | .table _ => .table
  | .array _ => .array
  | .string _ => .string
  | .int _ => .int
  | .float _ => .float
  | .bool _ => .bool
  | .dateTime _ => .dateTime
  | .invalid _ => .invalid

end Verif.TomlMap
