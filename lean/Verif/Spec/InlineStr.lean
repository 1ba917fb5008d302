import Verif.Semver.InlineStr

/-!
# Specification of `InlineStr`: plain immutable strings

The same histories, executed on a machine whose values are just their texts.
-/

namespace Verif.Spec.InlineStr
open Verif.InlineStr

/-- The documented precondition of `new_unchecked`: ASCII without nul bytes; and not longer than
half the address space. -/
def ValidText (s : Bytes) : Prop := (∀ b ∈ s, 1 ≤ b ∧ b ≤ 127) ∧ s.length ≤ 2 ^ 63 - 9

/-- One operation on plain strings. -/
def specStep (v : List (Option Bytes)) : Cmd → List (Option Bytes) × Obs
  | .new s => (v ++ [some s], .none)
  | .clone i =>
    match slot v i with
    | some s => (v ++ [some s], .none)
    | none => (v, .none)
  | .drop i =>
    match slot v i with
    | some _ => (v.set i none, .none)
    | none => (v, .none)
  | .read i =>
    match slot v i with
    | some s => (v, .text s)
    | none => (v, .none)
  | .cmp i j =>
    match slot v i, slot v j with
    | some s, some t => (v, .bool (decide (s = t)))
    | _, _ => (v, .none)

/-- A history on plain strings. -/
def specRun (v : List (Option Bytes)) : List Cmd → List (Option Bytes) × List Obs
  | [] => (v, [])
  | c :: cs =>
    let (v, o) := specStep v c
    let (v, os) := specRun v cs
    (v, o :: os)

/-- Every text handed to `new_unchecked` satisfies its precondition. -/
def ValidCmd : Cmd → Prop
  | .new s => ValidText s
  | _ => True

/-- The number of live values that own a heap buffer: those longer than a pointer. -/
def longLive (v : List (Option Bytes)) : Nat :=
  (v.filter (fun o => match o with | some s => decide (8 < s.length) | none => false)).length

end Verif.Spec.InlineStr
