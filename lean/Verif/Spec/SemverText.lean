import Verif.Spec.Semver
import Verif.Semver.Types

/-!
# Specification: the texts of versions

`VersionText input v`: `input` is version `v` written as SemVer 2.0.0 prescribes, possibly
surrounded by spaces, with numeric fields that fit `u32`.
-/

namespace Verif.Spec.Semver
open Verif Verif.Spec Verif.Semver

/-- A prerelease tag: dot separated identifiers, numeric ones without leading zeros. -/
def PreTag (s : Str) : Prop :=
  ∃ ids : List Ident, ids ≠ [] ∧ (∀ i ∈ ids, i.Valid) ∧ s = tagText ids

/-- A build tag: dot separated non-empty identifiers. -/
def BuildTag (s : Str) : Prop :=
  ∃ segs : List Str, segs ≠ [] ∧ (∀ x ∈ segs, x ≠ [] ∧ ∀ c ∈ x, identChar c = true) ∧
    s = dotted segs

/-- The fields of a version are what SemVer allows and fit `u32`. -/
structure ValidVersion (v : Version) : Prop where
  major : v.major < 2 ^ 32
  minor : v.minor < 2 ^ 32
  patch : v.patch < 2 ^ 32
  pre : v.pre = [] ∨ PreTag v.pre
  build : v.build = [] ∨ BuildTag v.build

/-- `MAJOR.MINOR.PATCH[-pre][+build]`. -/
def versionText (v : Version) : Str :=
  decimal v.major ++ ['.'] ++ decimal v.minor ++ ['.'] ++ decimal v.patch
    ++ (if v.pre = [] then [] else ['-'] ++ v.pre)
    ++ (if v.build = [] then [] else ['+'] ++ v.build)

/-- `n` space characters. -/
def spaces (n : Nat) : Str := List.replicate n ' '

/-- `input` is the text of `v` surrounded by any number of spaces. -/
def VersionText (input : Str) (v : Version) : Prop :=
  ValidVersion v ∧ ∃ i j, input = spaces i ++ versionText v ++ spaces j

/-- The input contains the digits of one of the numbers `2^32, ..., 2^32 + 3`
(`4294967296` ... `4294967299`), the only way to reach the unchecked addition that overflows. -/
def OverflowTrap (s : Str) : Prop :=
  ∃ d ∈ ['6', '7', '8', '9'], "429496729".toList ++ [d] <:+: s

end Verif.Spec.Semver
