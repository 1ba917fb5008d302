import Verif.Common.Basic

/-!
# Specification: the members of a feature of the index

One of (crates/ide/src/index.rs:26-31): a plain feature, `dep:<package>`, `<package>/<feature>`, `<package>?/<feature>`.
-/

namespace Verif.Spec.Index
open Verif

/-- The forms of a member. -/
inductive Member
  | plain (feature : Str)
  | dep (package : Str)
  | depFeature (package feature : Str)
  | weakDepFeature (package feature : Str)
  deriving DecidableEq

/-- How a member is written. -/
def Member.text : Member → Str
  | .plain f => f
  | .dep p => "dep:".toList ++ p
  | .depFeature p f => p ++ "/".toList ++ f
  | .weakDepFeature p f => p ++ "?/".toList ++ f

/-- Names of packages and of features: none of the characters with a meaning in a member. -/
def NameText (s : Str) : Prop := '/' ∉ s ∧ ':' ∉ s ∧ '?' ∉ s

/-- The names in a member are names. -/
def Member.Ok : Member → Prop
  | .plain f => NameText f
  | .dep p => NameText p
  | .depFeature p f => NameText p ∧ NameText f
  | .weakDepFeature p f => NameText p ∧ NameText f

/-- The package of a dependency `dep:<package>`. -/
def Member.depName : Member → Option Str
  | .dep p => some p
  | _ => none

/-- Is it a feature of a dependency? -/
def Member.ofDep : Member → Bool
  | .depFeature _ _ => true
  | .weakDepFeature _ _ => true
  | _ => false

/-- Is it a weak feature of a dependency? -/
def Member.weak : Member → Bool
  | .weakDepFeature _ _ => true
  | _ => false

/-- The groups in the order of the members. -/
def Member.group : Member → Nat
  | .plain _ => 0
  | .depFeature _ _ => 1
  | .weakDepFeature _ _ => 1
  | .dep _ => 2

end Verif.Spec.Index
