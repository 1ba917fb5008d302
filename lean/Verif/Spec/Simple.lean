import Verif.Spec.Map
import Verif.Toml.Simple

/-!
# Specification: how a tree of plain values is read
-/

namespace Verif.Spec.Toml
open Verif Verif.Toml

/-- The plain value at a location below a plain value. -/
def simpleAt : TomlMap.SimpleVal → Loc → Option TomlMap.SimpleVal
  | v, [] => some v
  | .table t, .key k :: p => (TomlMap.getSimple t k).bind fun v => simpleAt v p
  | .array vs, .idx i :: p => vs[i]?.bind fun v => simpleAt v p
  | _, _ => none

/-- The shape of a plain value. -/
def simpleShape : TomlMap.SimpleVal → Shape
  | .table _ => .table
  | .array vs => .array vs.length
  | .string s => .scalar (.str s)
  | .int n => .scalar (.int n)
  | .float f => .scalar (.float f)
  | .bool b => .scalar (.bool b)
  | .dateTime d => .scalar (.dateTime d)
  | .invalid s => .scalar (.malformed s)

end Verif.Spec.Toml
