import Verif.Semver.Order

/-!
# Model of requirement matching (crates/semver/src/eval.rs)

`none` is the panic of an `unreachable!`.  All functions take the comparator and version exactly
as the Rust code does.
-/

namespace Verif.Semver
open Verif

/-- `matches_exact` (crates/semver/src/eval.rs:44-64). -/
def matchesExact (cmp : Comparator) (ver : Version) : Bool :=
  (match cmp.version.majorNum with
    | some major => ver.major == major
    | none => true) &&
  (match cmp.version.minorNum with
    | some minor => ver.minor == minor
    | none => true) &&
  (match cmp.version.patchNum with
    | some patch => ver.patch == patch
    | none => true) &&
  ver.pre == cmp.version.preStr

/-- `matches_greater` (crates/semver/src/eval.rs:66-95); `none` = `unreachable!(">* ...")`. -/
def matchesGreater (cmp : Comparator) (ver : Version) : Option Bool :=
  match cmp.version.majorNum with
  | none => none
  | some major =>
    if ver.major ≠ major then some (decide (ver.major > major)) else
    match cmp.version.minorNum with
    | none => some false
    | some minor =>
      if ver.minor ≠ minor then some (decide (ver.minor > minor)) else
      match cmp.version.patchNum with
      | none => some false
      | some patch =>
        if ver.patch ≠ patch then some (decide (ver.patch > patch)) else
        some (preCmp ver.pre cmp.version.preStr == .gt)

/-- `matches_less` (crates/semver/src/eval.rs:97-126); `none` = `unreachable!("<* ...")`. -/
def matchesLess (cmp : Comparator) (ver : Version) : Option Bool :=
  match cmp.version.majorNum with
  | none => none
  | some major =>
    if ver.major ≠ major then some (decide (ver.major < major)) else
    match cmp.version.minorNum with
    | none => some false
    | some minor =>
      if ver.minor ≠ minor then some (decide (ver.minor < minor)) else
      match cmp.version.patchNum with
      | none => some false
      | some patch =>
        if ver.patch ≠ patch then some (decide (ver.patch < patch)) else
        some (preCmp ver.pre cmp.version.preStr == .lt)

/-- `matches_tilde` (crates/semver/src/eval.rs:128-146). -/
def matchesTilde (cmp : Comparator) (ver : Version) : Bool :=
  if some ver.major ≠ cmp.version.majorNum then false else
  if (match cmp.version.minorNum with
      | some minor => ver.minor != minor
      | none => false) then false else
  match cmp.version.patchNum with
  | some patch =>
    if ver.patch ≠ patch then decide (ver.patch > patch)
    else preCmp ver.pre cmp.version.preStr != .lt
  | none => preCmp ver.pre cmp.version.preStr != .lt

/-- `matches_caret` (crates/semver/src/eval.rs:148-186); `none` = `unreachable!("^* ...")`. -/
def matchesCaret (cmp : Comparator) (ver : Version) : Option Bool :=
  match cmp.version.majorNum with
  | none => none
  | some major =>
    if ver.major ≠ major then some false else
    match cmp.version.minorNum with
    | none => some true
    | some minor =>
      match cmp.version.patchNum with
      | none =>
        if major > 0 then some (decide (ver.minor ≥ minor))
        else some (decide (ver.minor = minor))
      | some patch =>
        let tail := some (preCmp ver.pre cmp.version.preStr != .lt)
        if major > 0 then
          if ver.minor ≠ minor then some (decide (ver.minor > minor))
          else if ver.patch ≠ patch then some (decide (ver.patch > patch))
          else tail
        else if minor > 0 then
          if ver.minor ≠ minor then some false
          else if ver.patch ≠ patch then some (decide (ver.patch > patch))
          else tail
        else if ver.minor ≠ minor ∨ ver.patch ≠ patch then some false
        else tail

/-- `a || b` where evaluating `b` may panic (short-circuit). -/
def orElsePanic (a : Bool) (b : Option Bool) : Option Bool := if a then some true else b

/-- `matches_impl` (crates/semver/src/eval.rs:32-42). -/
def matchesImpl (cmp : Comparator) (ver : Version) : Option Bool :=
  match cmp.op with
  | .eq | .wl => some (matchesExact cmp ver)
  | .gt => matchesGreater cmp ver
  | .ge => orElsePanic (matchesExact cmp ver) (matchesGreater cmp ver)
  | .lt => matchesLess cmp ver
  | .le => orElsePanic (matchesExact cmp ver) (matchesLess cmp ver)
  | .tl => some (matchesTilde cmp ver)
  | .cr | .bl => matchesCaret cmp ver

/-- `pre_is_compatible` (crates/semver/src/eval.rs:188-193). -/
def preIsCompatible (cmp : Comparator) (ver : Version) : Bool :=
  cmp.version.majorNum == some ver.major
    && cmp.version.minorNum == some ver.minor
    && cmp.version.patchNum == some ver.patch
    && !cmp.version.preStr.isEmpty

/-- `matches_comparator` (crates/semver/src/eval.rs:28-30); `Comparator::matches`
(crates/semver/src/lib.rs:95-99). -/
def matchesComparator (cmp : Comparator) (ver : Version) : Option Bool :=
  match matchesImpl cmp ver with
  | none => none
  | some b => some (b && (ver.pre.isEmpty || preIsCompatible cmp ver))

/-- The first loop of `matches_requirement` (crates/semver/src/eval.rs:6-10). -/
def allMatch (ver : Version) : List Comparator → Option Bool
  | [] => some true
  | c :: cs =>
    match matchesImpl c ver with
    | none => none
    | some false => some false
    | some true => allMatch ver cs

/-- `matches_requirement` (crates/semver/src/eval.rs:5-26); `VersionReq::matches`
(crates/semver/src/lib.rs:78-80). -/
def matchesRequirement (req : VersionReq) (ver : Version) : Option Bool :=
  match allMatch ver req.comparators with
  | none => none
  | some false => some false
  | some true =>
    if ver.pre.isEmpty then some true
    else some (req.comparators.any (fun c => preIsCompatible c ver))

end Verif.Semver
