import Verif.Diag.Model
import Verif.Semver.Parse

/-!
# The texts of the diagnostics of the semver crate (crates/semver/src/error.rs)
-/

namespace Verif.Semver
open Verif

/-- `num_field` (crates/semver/src/error.rs:168-174). -/
def NumField.text : NumField → Str
  | .major => "major version number".toList
  | .minor => "minor version number".toList
  | .patch => "patch version number".toList

/-- `ident_field` (crates/semver/src/error.rs:182-187).  The two names are swapped in the code. -/
def IdentField.text : IdentField → Str
  | .buildMetadata => "pre-release identifier".toList
  | .prerelease => "build-metadata".toList

/-- `p.map(ident_field).unwrap_or(num_field(NumField::Major))` (crates/semver/src/error.rs:57). -/
def identName : Option IdentField → Str
  | some f => f.text
  | none => NumField.major.text

/-- `<Error as Diagnostic>::description` (crates/semver/src/error.rs:54-77). -/
def Error.description : Error → Str
  | .trailingCharacters s f _ =>
    "unexpected characters `".toList ++ Diag.fmtStr s ++ "`, after ".toList ++ identName f
  | .missingField f _ => "missing ".toList ++ f.text
  | .leadingZeroNum f _ => "invalid leading zero in ".toList ++ f.text
  | .invalidIntChar c f _ => "invalid character `".toList ++ Diag.fmtChar c ++ "` zero in ".toList ++ f.text
  | .intOverflow f _ _ => "integer overflow in ".toList ++ f.text
  | .expectedDot c f _ =>
    "expected dot after ".toList ++ f.text ++ ", found `".toList ++ Diag.fmtChar c ++ "`".toList
  | .missingDot f _ => "missing dot after ".toList ++ f.text
  | .emptyIdentifier f _ => "emtpy ".toList ++ f.text
  | .emptyIdentifierSegment f _ => "emtpy identifier segment in ".toList ++ f.text
  | .leadingZeroSegment f _ => "invalid leading zero in ".toList ++ f.text ++ " segment ".toList
  | .invalidOp c _ =>
    "invalid operator `".toList ++ Diag.fmtChar c ++
      "`, expected one of: `=`, `>`, `>=`, `<`, `<=`, `~`, `^` or a blank version requirement".toList
  | .missingComma _ => "missing comma".toList
  | .trailingComma _ => "invalid trailing comma".toList
  | .wildcardNotTheSoleComparator w _ =>
    "wildcard `".toList ++ [w.char] ++ "` must be the only comparator".toList
  | .excessiveComparators _ _ =>
    "excessive number of comparators, the maximum allowed number is ".toList ++ Spec.decimal MAX_COMPARATORS
  | .emptyVersionReq _ => "empty version requirement".toList
  | .unexpectedAfterWildcard c f _ =>
    "unexpected character `".toList ++ Diag.fmtChar c ++ "` after wildcard ".toList ++ f.text

/-- `<Error as Diagnostic>::annotation` (crates/semver/src/error.rs:79-104). -/
def Error.annotation : Error → Str
  | .trailingCharacters s f _ =>
    "unexpected characters `".toList ++ Diag.fmtStr s ++ "`, after ".toList ++ identName f
  | .missingField f _ => "missing ".toList ++ f.text
  | .leadingZeroNum _ _ => "invalid leading zero".toList
  | .invalidIntChar _ _ _ => "invalid character".toList
  | .intOverflow _ _ _ => "integer overflow".toList
  | .expectedDot _ _ _ => "expected dot".toList
  | .missingDot _ _ => "missing dot".toList
  | .emptyIdentifier f _ => "emtpy ".toList ++ f.text
  | .emptyIdentifierSegment _ _ => "emtpy identifier segment".toList
  | .leadingZeroSegment _ _ => "invalid leading zero".toList
  | .invalidOp _ _ => "invalid operator".toList
  | .missingComma _ => "missing comma".toList
  | .trailingComma _ => "invalid trailing comma".toList
  | .wildcardNotTheSoleComparator _ _ => "wildcard must be the only comparator".toList
  | .excessiveComparators _ _ => "excessive number of comparators".toList
  | .emptyVersionReq _ => "empty version requirement".toList
  | .unexpectedAfterWildcard _ _ _ => "unexpected character".toList

/-- `impl Diagnostic for Error` (crates/semver/src/error.rs:27-105): no hints, no other lines. -/
def Error.diagnostic (e : Error) : Diag.Diagnostic :=
  ⟨.error, e.span, e.description, e.annotation, none, []⟩

end Verif.Semver
