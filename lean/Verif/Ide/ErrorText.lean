import Verif.Ide.Check
import Verif.Toml.ErrorText
import Verif.Semver.ErrorText

/-!
# The texts of the diagnostics of the check (crates/ide/src/cargo.rs, crates/ide/src/error.rs)
-/

namespace Verif.Ide
open Verif Verif.Toml

/-- `Datatype::to_str` (crates/toml/src/util.rs:16-29). -/
def Datatype.text : Datatype → Str
  | .table => "table".toList
  | .array => "array".toList
  | .string => "string".toList
  | .int => "int".toList
  | .float => "float".toList
  | .bool => "bool".toList
  | .dateTime => "date-time".toList
  | .invalid => "invalid".toList

/-- The path in front of the text, unless it is empty (crates/ide/src/cargo.rs:79-81, 168-170,
174-176). -/
def pathPrefix (path : Str) : Str :=
  if path.isEmpty then [] else "`".toList ++ Diag.fmtStr path ++ "`: ".toList

/-- `<Error as Diagnostic>::description` (crates/ide/src/cargo.rs:73-92). -/
def ErrorKind.description (path : Str) : ErrorKind → Str
  | .wrongDatatype expected found =>
    "expected `".toList ++ Diag.fmtStr path ++ "` to be of type ".toList ++ expected.text ++
      ", found ".toList ++ found.text
  | .unsupportedUnderscore old new =>
    pathPrefix path ++ "`".toList ++ old ++ "` has been replaced with `".toList ++ new ++
      "` and is unsupported in the 2024 edition".toList
  | .depWrongDatatype found =>
    "expected `".toList ++ Diag.fmtStr path ++ "` to be of type string or table, found ".toList ++
      found.text
  | .depWorkspaceIsFalse =>
    "invalid dependency specification `".toList ++ Diag.fmtStr path ++
      "`; `workspace` cannot be false".toList
  | .ambigousDepSpecGitPath =>
    "dependency specification `".toList ++ Diag.fmtStr path ++
      "` is ambigous, only one of `git` or `path` is allowed".toList
  | .ambigousDepSpecGitRegistry =>
    "dependency specification `".toList ++ Diag.fmtStr path ++
      "` is ambigous, only one of `git` or `registry` is allowed".toList
  | .ambigousGitSpec =>
    "dependency specification `".toList ++ Diag.fmtStr path ++
      "` is ambigous, only one of `branch`, `tag` or `rev` is allowed".toList
  | .missingDepSpec =>
    "dependency `".toList ++ Diag.fmtStr path ++
      "` is missing one of `workspace`, `path`, `git` or `version`, this is unsupported in the 2024 edition".toList
  | .depIgnoredGitKey key =>
    "invalid dependency specification `".toList ++ Diag.fmtStr path ++ "`; `".toList ++ key ++
      "` without `git` is not allowed".toList

/-- `<Error as Diagnostic>::annotation` (crates/ide/src/cargo.rs:94-108). -/
def ErrorKind.annotation : ErrorKind → Str
  | .wrongDatatype expected _ => "expected ".toList ++ expected.text
  | .unsupportedUnderscore _ new => "unsupported; instead use `".toList ++ new ++ "`".toList
  | .depWrongDatatype _ => "expected string or table".toList
  | .depWorkspaceIsFalse => "`workspace` cannot be false".toList
  | .ambigousDepSpecGitPath => "only one of `git` or `path` is allowed".toList
  | .ambigousDepSpecGitRegistry => "only one of `git` or `registry` is allowed".toList
  | .ambigousGitSpec => "only one of `branch`, `tag` or `rev` is allowed".toList
  | .missingDepSpec => "missing one of `workspace`, `path`, `git` or `version`".toList
  | .depIgnoredGitKey _ => "not allowed without `git`".toList

/-- `<Warning as Diagnostic>::description` (crates/ide/src/cargo.rs:163-183). -/
def WarningKind.description (path : Str) : WarningKind → Str
  | .deprecatedUnderscore old new =>
    pathPrefix path ++ "`".toList ++ old ++ "` is deprecated in favor of `".toList ++ new ++
      "` and will be unsupported in the 2024 edition".toList
  | .redundantDeprecatedUnderscore old new _ =>
    pathPrefix path ++ "`".toList ++ old ++ "` is redundant with `".toList ++ new ++
      "` and will be unsupported in the 2024 edition".toList
  | .missingDepSpec =>
    "missing one of `workspace`, `path`, `git` or `version`, this will be unsupported in the 2024 edition".toList
  | .workspaceDepIgnoredKey _ =>
    "key `".toList ++ Diag.fmtStr path ++ "` is ignored, because `workspace` is set".toList
  | .ignoredUnknownKey => "unknown key `".toList ++ Diag.fmtStr path ++ "` is ignored".toList

/-- `<Warning as Diagnostic>::annotation` (crates/ide/src/cargo.rs:185-195). -/
def WarningKind.annotation : WarningKind → Str
  | .deprecatedUnderscore _ new => "deprecated in favor of `".toList ++ new ++ "`".toList
  | .redundantDeprecatedUnderscore _ _ _ => "ignored".toList
  | .missingDepSpec => "missing one of `workspace`, `path`, `git` or `version`".toList
  | .workspaceDepIgnoredKey _ => "key is ignored".toList
  | .ignoredUnknownKey => "unknown key is ignored".toList

/-- `<Warning as Diagnostic>::hint` (crates/ide/src/cargo.rs:197-211) and `<Hint as DiagnosticHint>`
(crates/ide/src/cargo.rs:245-259). -/
def WarningKind.hint : WarningKind → Option Diag.Hint
  | .redundantDeprecatedUnderscore _ _ s => some ⟨s, "used instead".toList⟩
  | .workspaceDepIgnoredKey s => some ⟨s, "defined here".toList⟩
  | _ => none

/-- `impl Diagnostic for Error` and `impl Diagnostic for Warning` of crates/ide/src/error.rs:13-57,
84-128, for the messages of the check: they delegate to crates/ide/src/cargo.rs:64-113, 154-216 and
crates/semver/src/error.rs:27-105. -/
def Msg.diagnostic : Msg → Diag.Diagnostic
  | .error ls path s k => ⟨.error, s, k.description path, k.annotation, none, ls⟩
  | .semver e => e.diagnostic
  | .warning ls path s k => ⟨.warning, s, k.description path, k.annotation, k.hint, ls⟩

end Verif.Ide
