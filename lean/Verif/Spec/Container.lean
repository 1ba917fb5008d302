import Verif.Toml.Container

/-!
# Specification: containers

A container is nothing but the text it was made from; a text whose parsing panics gives none.
-/

namespace Verif.Spec.Toml
open Verif Verif.Toml Verif.Toml.Mem

/-- What a text parses to, without any memory. -/
def contents (ovf : Bool) (s : Str) : Option (Tokens × Asts × TomlMap.MapTable) :=
  match lex s with
  | none => none
  | some (T, es) =>
    match parse ovf s T es with
    | .ok a _ => (TomlMap.map a.asts).map fun m => (T, a, m.1)
    | _ => none

/-- The call gives a text of the arena to the container. -/
def Behaved : Op → Prop
  | .parseWith (.foreign _) => False
  | _ => True

/-- The text that a call makes a container from. -/
def madeFrom : Op → Option Str
  | .parse s => some s
  | .parseWith (.alloc s) => some s
  | _ => none

/-- The texts of the containers, in the order in which they were made, without memory: `none` is a dropped one. -/
def texts (ovf : Bool) (op : Op) (cs : List (Option Str)) : List (Option Str) :=
  match op with
  | .drop i => cs.set i none
  | op => match madeFrom op with
    | some s => if (contents ovf s).isSome then cs ++ [some s] else cs
    | none => cs

/-- What a call shows. -/
def shown (ovf : Bool) (op : Op) (cs : List (Option Str)) : Obs :=
  match op with
  | .read i => match cs[i]? with
    | some (some s) => match contents ovf s with
      | some (T, a, m) => .seen s T a m
      | none => .nothing
    | _ => .nothing
  | .parseWith .panic => .panicked
  | op => match madeFrom op with
    | some s => if (contents ovf s).isSome then .nothing else .panicked
    | none => .nothing

/-- The texts of the containers after a history, and what the calls show. -/
def history (ovf : Bool) (cs : List (Option Str)) : List Op → List (Option Str) × List Obs
  | [] => (cs, [])
  | op :: ops => let r := history ovf (texts ovf op cs) ops
    (r.1, shown ovf op cs :: r.2)

/-- How many arenas are in memory. -/
def arenas (w : World) : Nat := (w.regions.filter fun r => r.arena && r.live).length

/-- How many containers there are. -/
def containersOf (cs : List (Option Str)) : Nat := (cs.filter Option.isSome).length

/-- How many calls panicked. -/
def panics (os : List Obs) : Nat := (os.filter fun o => match o with | .panicked => true | _ => false).length

end Verif.Spec.Toml
