import Verif.Semver.Types
import Verif.Spec.Decimal

/-!
# Model of `Display` for versions and requirements (crates/semver/src/display.rs)

`{major}` etc. print a `u32` in decimal (`Spec.decimal`).  The `Wrapper` counts the bytes written.
A `usize` subtraction that underflows is a panic (`none`).  (Not modelled: in recent toolchains a
`{:width$}` above `u16::MAX` panics.)
-/

namespace Verif.Semver
open Verif Verif.Spec

/-- `Wrapper` (crates/semver/src/display.rs:4-20): the byte count `pos` and the text written so far. -/
structure W where
  pos : Nat
  out : Str
  deriving DecidableEq, Repr

/-- `Wrapper::write_str` (crates/semver/src/display.rs:15-20). -/
def W.write (w : W) (s : Str) : W := ⟨w.pos + blen s, w.out ++ s⟩

/-- `let num_spaces = target - f.pos; write!(f, "{:num_spaces$}", "")`; `none` = underflow. -/
def W.padTo (w : W) (target : Nat) : Option W :=
  if target < w.pos then none else some (w.write (List.replicate (target - w.pos) ' '))

/-- `fmt_comp_version` (crates/semver/src/display.rs:110-136): the text written. -/
def compVersionText : CompVersion → Str
  | .wl w => [w.char]
  | .major ma none => decimal ma
  | .major ma (some (w1, none)) => decimal ma ++ ['.', w1.char]
  | .major ma (some (w1, some w2)) => decimal ma ++ ['.', w1.char, '.', w2.char]
  | .minor ma mi none => decimal ma ++ '.' :: decimal mi
  | .minor ma mi (some w) => decimal ma ++ '.' :: decimal mi ++ ['.', w.char]
  | .patch ma mi pa none => decimal ma ++ '.' :: decimal mi ++ '.' :: decimal pa
  | .patch ma mi pa (some b) => decimal ma ++ '.' :: decimal mi ++ '.' :: decimal pa ++ '+' :: b
  | .pre ma mi pa p none => decimal ma ++ '.' :: decimal mi ++ '.' :: decimal pa ++ '-' :: p
  | .pre ma mi pa p (some b) =>
    decimal ma ++ '.' :: decimal mi ++ '.' :: decimal pa ++ '-' :: p ++ '+' :: b

/-- The operator text of `fmt_comparator` (crates/semver/src/display.rs:86-96). -/
def opText : Op → Str
  | .eq => ['=']
  | .lt => ['<']
  | .le => ['<', '=']
  | .gt => ['>']
  | .ge => ['>', '=']
  | .cr => ['^']
  | .tl => ['~']
  | .wl => []
  | .bl => []

/-- `fmt_comparator` (crates/semver/src/display.rs:75-108). -/
def fmtComparator (w : W) (c : Comparator) : Option W := do
  let w : W := { w with pos := c.opOffset }
  let w := w.write (opText c.op)
  let w ← w.padTo c.versionOffset
  let w := w.write (compVersionText c.version)
  match c.comma with
  | some off => do
    let w ← w.padTo off
    pure (w.write [','])
  | none => pure w

/-- The `for c in others` loop of `fmt_requirement` (crates/semver/src/display.rs:61-65). -/
def fmtOthers (w : W) : List Comparator → Option W
  | [] => some w
  | c :: cs => do
    let w ← w.padTo c.opOffset
    let w ← fmtComparator w c
    fmtOthers w cs

/-- `fmt_requirement` (crates/semver/src/display.rs:49-73); `alt` = `{:#}`. -/
def fmtRequirement (alt : Bool) (req : VersionReq) : Option W :=
  match req.comparators with
  | [] => some ⟨0, []⟩
  | first :: others => do
    let w : W := ⟨0, []⟩
    let w := if alt then w else w.write (List.replicate first.opOffset ' ')
    let w ← fmtComparator w first
    let w ← fmtOthers w others
    if alt then pure w else w.padTo req.len

/-- `<VersionReq as Display>::fmt` (crates/semver/src/display.rs:22-27); `none` = panic. -/
def displayReq (alt : Bool) (req : VersionReq) : Option Str := (fmtRequirement alt req).map W.out

/-- `<Version as Display>::fmt` (crates/semver/src/display.rs:138-156). -/
def displayVersion (v : Version) : Str :=
  decimal v.major ++ '.' :: decimal v.minor ++ '.' :: decimal v.patch
    ++ (if v.pre.isEmpty then [] else '-' :: v.pre)
    ++ (if v.build.isEmpty then [] else '+' :: v.build)

end Verif.Semver
