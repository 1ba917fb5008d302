import Verif.Spec.MapGrow

/-!
# Specification: places in a document
-/

namespace Verif.Spec.Toml
open Verif Verif.Toml Verif.TomlMap

/-- The table that an assignment behind the items belongs to; `D` and `sec` as in `itemDefs`. -/
def sectionFrom (D : List Def) (sec : Option Loc) : List Item → Option Loc
  | [] => sec
  | i :: is => sectionFrom (D ++ (itemDefs D sec i).1) (itemDefs D sec i).2 is

/-- The table that an assignment behind the items belongs to. -/
def sectionAt (is : List Item) : Option Loc := sectionFrom [] (some []) is

/-- Is it the header `[[x]]`? -/
def isArrayHeader (x : Str) : Item → Bool
  | .arrayTable ks => ks = [x]
  | _ => false

/-- The number of headers `[[x]]`. -/
def arrayHeaders (x : Str) (is : List Item) : Nat := (is.filter (isArrayHeader x)).length

/-- Is it an assignment? -/
def IsKeyVal (i : Item) : Prop := ∃ k v, i = .keyVal k v

/-- Like `Later`, for a part of a document; the value of an assignment is never an array of tables. -/
def Kept (t t' : MapTable) : Prop :=
  ∀ p n rs, entryAt (.table t) [] p = some (n, rs) → ∃ n' rs', entryAt (.table t') [] p = some (n', rs') ∧
    rs <+: rs' ∧ SameKind n n' ∧ ((∃ r ∈ rs, IsValueRepr r) → (∀ es, n ≠ .toplevel es) → n' = n)

end Verif.Spec.Toml
