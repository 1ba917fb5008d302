import Verif.Semver.Truth

/-!
# Property C89: what the errors of the semver parsers say is true

The faults are in `Spec/SemverTruth.lean`.
-/

namespace Verif.Props
open Verif Verif.Spec Verif.Semver Verif.Spec.Semver

/-- C89, for versions: the error is about a fault that the text has, at the place that it covers, and it stores the part
of the version that is there, for every text, build and position.

Missing: the text of the message does not always name the part that is stored, see `C89_counterexample_tag` and
`C89_counterexample_trailing`. -/
theorem C89_version_partial (ovf : Bool) (text : Str) (pos : Pos) (e : Error)
    (h : parseVersion ovf text pos = .err e) : Told (VersionFault ovf) pos text e :=
  (parseVersion_err ovf text pos e h).told

/-- C89, for requirements, in the same way. -/
theorem C89_requirement_partial (ovf : Bool) (text : Str) (pos : Pos) (e : Error)
    (h : parseRequirement ovf text pos = .err e) : Told (RequirementFault ovf) pos text e :=
  (parseRequirement_err ovf text pos e h).told

example : parseVersion true " 1.2.3-a.01.b".toList .ZERO = .err (.leadingZeroSegment .prerelease ⟨0, 9⟩) := by decide
example : parseVersion true "1.2".toList .ZERO = .err (.missingDot .minor ⟨0, 3⟩) := by decide
example : parseVersion true "1.2.3+b x ".toList .ZERO =
    .err (.trailingCharacters ['x'] (some .buildMetadata) ⟨0, 8⟩) := by decide
example : parseRequirement true ">=1, 2.x.5".toList .ZERO = .err (.unexpectedAfterWildcard '5' .minor ⟨0, 9⟩) := by decide
example : parseRequirement true "* , 2".toList .ZERO = .err (.wildcardNotTheSoleComparator .star ⟨0, 0⟩) := by decide
example : parseRequirement true "1 2".toList .ZERO = .err (.missingComma ⟨0, 2⟩) := by decide

/-- The messages about numbers name the number that is stored. -/
theorem C89_number_names :
    NumField.text .major = "major version number".toList ∧ NumField.text .minor = "minor version number".toList ∧
    NumField.text .patch = "patch version number".toList := ⟨rfl, rfl, rfl⟩

/-- The messages about tags name the other tag, for both of them. -/
theorem C89_counterexample_tag :
    parseVersion true "1.2.3-".toList .ZERO = .err (.emptyIdentifier .prerelease ⟨0, 6⟩) ∧
    Error.description (.emptyIdentifier .prerelease ⟨0, 6⟩) = "emtpy ".toList ++ tagName .buildMetadata ∧
    parseVersion true "1.2.3+".toList .ZERO = .err (.emptyIdentifier .buildMetadata ⟨0, 6⟩) ∧
    Error.description (.emptyIdentifier .buildMetadata ⟨0, 6⟩) = "emtpy ".toList ++ tagName .prerelease :=
  ⟨by decide, rfl, by decide, rfl⟩

/-- The message about characters behind a version never names the part that they follow: the build tag is called
pre-release identifier, the pre-release identifier is called major version number, and the patch number is called
build-metadata. -/
theorem C89_counterexample_trailing (v : Version) :
    (v.build ≠ [] → identName (endsWith v) = tagName .prerelease) ∧
    (v.build = [] → v.pre ≠ [] → identName (endsWith v) = NumField.text .major) ∧
    (v.build = [] → v.pre = [] → identName (endsWith v) = tagName .buildMetadata) := by
  refine ⟨fun h => ?_, fun h1 h2 => ?_, fun h1 h2 => ?_⟩
  · simp only [endsWith, ne_eq, h, not_false_eq_true, if_true]; rfl
  · simp only [endsWith, ne_eq, h1, h2, not_true_eq_false, if_false]; rfl
  · simp only [endsWith, ne_eq, h1, h2, not_true_eq_false, if_false, if_true]; rfl

end Verif.Props
