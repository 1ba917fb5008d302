import Verif.Semver.Types

/-!
# Model of the orderings of the `semver` crate (crates/semver/src/lib.rs:196-360)
-/

namespace Verif.Semver
open Verif

/-- `Ord::cmp` on `&str`: lexicographic on bytes, which for UTF-8 is lexicographic on code
points. -/
def strCmp : Str → Str → Ordering
  | [], [] => .eq
  | [], _ :: _ => .lt
  | _ :: _, [] => .gt
  | a :: as, b :: bs => (compare a.toNat b.toNat).then (strCmp as bs)

/-- `str::split('.')`: always at least one segment. -/
def splitDot : Str → List Str
  | [] => [[]]
  | c :: cs =>
    if c = '.' then [] :: splitDot cs
    else match splitDot cs with
      | s :: ss => (c :: s) :: ss
      | [] => [[c]]

/-- `str::trim_start_matches('0')`. -/
def trimZeros : Str → Str
  | '0' :: cs => trimZeros cs
  | cs => cs

/-- The body of the loop in `Prerelease::cmp` (crates/semver/src/lib.rs:252-269).  The early `return`s
with `Less`/`Greater` coincide with the loop's `if ordering != Equal { return ordering }`. -/
def preSegCmp (lhs rhs : Str) : Ordering :=
  match lhs.all isDigit, rhs.all isDigit with
  | true, true => (compare (blen lhs) (blen rhs)).then (strCmp lhs rhs)
  | true, false => .lt
  | false, true => .gt
  | false, false => strCmp lhs rhs

/-- The body of the loop in `BuildMetadata::cmp` (crates/semver/src/lib.rs:331-347). -/
def metaSegCmp (lhs rhs : Str) : Ordering :=
  match lhs.all isDigit, rhs.all isDigit with
  | true, true =>
    let lhval := trimZeros lhs
    let rhval := trimZeros rhs
    ((compare (blen lhval) (blen rhval)).then (strCmp lhval rhval)).then
      (compare (blen lhs) (blen rhs))
  | true, false => .lt
  | false, true => .gt
  | false, false => strCmp lhs rhs

/-- The `for lhs in lhs { let Some(rhs) = rhs.next() else { return Greater }; ... }` loop followed
by the final `rhs.next()` test (crates/semver/src/lib.rs:244-280 and 326-358), for a segment
comparison `seg`. -/
def segLoop (seg : Str → Str → Ordering) : List Str → List Str → Ordering
  | [], [] => .eq
  | [], _ :: _ => .lt
  | _ :: _, [] => .gt
  | l :: ls, r :: rs =>
    match seg l r with
    | .eq => segLoop seg ls rs
    | o => o

/-- `<Prerelease as Ord>::cmp` (crates/semver/src/lib.rs:228-282). -/
def preCmp (lhs rhs : Str) : Ordering :=
  match lhs.isEmpty, rhs.isEmpty with
  | true, true => .eq
  | true, false => .gt
  | false, true => .lt
  | false, false => segLoop preSegCmp (splitDot lhs) (splitDot rhs)

/-- `<BuildMetadata as Ord>::cmp` (crates/semver/src/lib.rs:319-360). -/
def metaCmp (lhs rhs : Str) : Ordering :=
  segLoop metaSegCmp (splitDot lhs) (splitDot rhs)

/-- `derive(Ord)` on `Version` (crates/semver/src/lib.rs:196-203): fields in declaration order. -/
def versionCmp (a b : Version) : Ordering :=
  (compare a.major b.major).then <|
  (compare a.minor b.minor).then <|
  (compare a.patch b.patch).then <|
  (preCmp a.pre b.pre).then <|
  metaCmp a.build b.build

end Verif.Semver
