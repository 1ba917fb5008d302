import Verif.Common.Basic

/-!
# Data types of the `semver` crate (crates/semver/src/lib.rs)

`Prerelease` and `BuildMetadata` wrap an `InlineStr`; here they are their text (`as_str`), which
is justified by `Verif.Semver.InlineStr` (C27, C28).  `u32` fields are `Nat`s; the parser model
produces only values `< 2^32` (`ValidVersion`, `ValidCv` in the specification).
-/

namespace Verif.Semver
open Verif

/-- `NumField` (crates/semver/src/lib.rs:49-54). -/
inductive NumField | major | minor | patch
  deriving DecidableEq, Repr

/-- `IdentField` (crates/semver/src/lib.rs:56-60). -/
inductive IdentField | prerelease | buildMetadata
  deriving DecidableEq, Repr

/-- `Op` (crates/semver/src/lib.rs:101-121). -/
inductive Op | eq | lt | le | gt | ge | cr | tl | wl | bl
  deriving DecidableEq, Repr

/-- `WlChar` (crates/semver/src/lib.rs:175-184). -/
inductive WlChar | star | lowerX | upperX
  deriving DecidableEq, Repr

/-- `WlChar::char` (crates/semver/src/lib.rs:187-193). -/
def WlChar.char : WlChar → Char
  | .star => '*'
  | .lowerX => 'x'
  | .upperX => 'X'

/-- `CompVersion` (crates/semver/src/lib.rs:123-131). -/
inductive CompVersion
  | wl (w : WlChar)
  | major (ma : Nat) (w : Option (WlChar × Option WlChar))
  | minor (ma mi : Nat) (w : Option WlChar)
  | patch (ma mi pa : Nat) (build : Option Str)
  | pre (ma mi pa : Nat) (pre : Str) (build : Option Str)
  deriving DecidableEq, Repr

namespace CompVersion

/-- `CompVersion::major` (crates/semver/src/lib.rs:134-142). -/
def majorNum : CompVersion → Option Nat
  | wl _ => none
  | major ma _ => some ma
  | minor ma _ _ => some ma
  | patch ma _ _ _ => some ma
  | pre ma _ _ _ _ => some ma

/-- `CompVersion::minor` (crates/semver/src/lib.rs:144-152). -/
def minorNum : CompVersion → Option Nat
  | wl _ => none
  | major _ _ => none
  | minor _ mi _ => some mi
  | patch _ mi _ _ => some mi
  | pre _ mi _ _ _ => some mi

/-- `CompVersion::patch` (crates/semver/src/lib.rs:154-162). -/
def patchNum : CompVersion → Option Nat
  | wl _ => none
  | major _ _ => none
  | minor _ _ _ => none
  | patch _ _ pa _ => some pa
  | pre _ _ pa _ _ => some pa

/-- `CompVersion::pre` (crates/semver/src/lib.rs:164-172). -/
def preStr : CompVersion → Str
  | wl _ => []
  | major _ _ => []
  | minor _ _ _ => []
  | patch _ _ _ _ => []
  | pre _ _ _ p _ => p

end CompVersion

/-- `Comparator` (crates/semver/src/lib.rs:83-93).  `Offset` (crates/semver/src/lib.rs:38-41) is a `Nat`. -/
structure Comparator where
  opOffset : Nat
  op : Op
  versionOffset : Nat
  version : CompVersion
  comma : Option Nat
  deriving DecidableEq, Repr

/-- `VersionReq` (crates/semver/src/lib.rs:62-67). -/
structure VersionReq where
  pos : Pos
  len : Nat
  comparators : List Comparator
  deriving DecidableEq, Repr

/-- `Version` (crates/semver/src/lib.rs:196-203). -/
structure Version where
  major : Nat
  minor : Nat
  patch : Nat
  pre : Str
  build : Str
  deriving DecidableEq, Repr

end Verif.Semver
