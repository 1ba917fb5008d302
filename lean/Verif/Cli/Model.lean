import Verif.Toml.Simple
import Verif.Toml.ErrorText
import Verif.Ide.ErrorText

/-!
# Model of the command line program (crates/cli/src/main.rs)

* `none` is a panic.
* `width` is `str::width` of the crate `unicode_width`; `ovf` says whether the build has overflow checks;
  `shuffle` is the order in which the check sees the entries of the tables (arbitrary for `HashMap`).
* `fileName` and `readFile` stand for `Path::file_name` and `std::fs::read_to_string`.
* The times of the phases, which are printed at the end, are left out (with the panic if the clock of the
  system goes back), and so are the texts of the argument errors and the `Debug` format of the plain values.
-/

namespace Verif.Cli
open Verif Verif.Toml Verif.TomlMap

/-- `Mode` (crates/cli/src/main.rs:9-15). -/
inductive Mode | validate | check
  deriving DecidableEq, _root_.Repr

/-- `ide::Error`, `ide::Warning` and `ide::Info` (crates/ide/src/error.rs:6-11, 77-82); the warnings and infos
of the crates `toml` and `semver` have no values. -/
inductive Shown
  | toml (e : Error)
  | check (m : Ide.Msg)

/-- `impl Diagnostic for Error` and `Warning` (crates/ide/src/error.rs:13-57, 84-128). -/
def Shown.diagnostic : Shown → Diag.Diagnostic
  | .toml e => e.diagnostic
  | .check m => m.diagnostic

/-- `Diagnostic::span` (crates/ide/src/error.rs:18-24, 89-95). -/
def Shown.span (d : Shown) : Span := d.diagnostic.span

/-- `IdeDiagnostics` (crates/ide/src/lib.rs:42). -/
abbrev Collected := Diag.Diagnostics Shown Shown Shown

/-- Errors of the crate `toml`, one behind the other (crates/common/src/lib.rs:50-52). -/
def errors (d : Collected) (es : List Error) : Collected := es.foldl (fun d e => d.error (.toml e)) d

/-- A diagnostic of the check goes to the errors or to the warnings (crates/common/src/lib.rs:50-56). -/
def message (d : Collected) : Ide.Msg → Collected
  | .warning ls p s k => d.warn (.check (.warning ls p s k))
  | m => d.error (.check m)

/-- What is printed to standard output: the plain values (crates/cli/src/main.rs:83) and the diagnostics
(crates/cli/src/main.rs:86-100). -/
structure Output where
  simple : List (Str × SimpleVal)
  messages : List Str

/-- The phases that collect diagnostics (crates/cli/src/main.rs:70-79). -/
def phases (ovf : Bool) (shuffle : MapTable → MapTable) (mode : Mode) (text : Str) :
    Option (MapTable × Collected) :=
  match parseDocument ovf text with
  | .ok a s =>
    match map a.asts with
    | some (t, es) =>
      let d := errors (errors Diag.Diagnostics.default s.errors) es
      match mode with
      | .validate => some (t, d)
      | .check =>
        match (Ide.check ovf (shuffle t) : Option (List Ide.Dependency × List Ide.Msg)) with
        | some (_, ms) => some (t, ms.foldl message d)
        | none => none
    | none => none
  | _ => none

/-- The loops over the diagnostics (crates/cli/src/main.rs:86-100): each one is written to `msg`, which is
printed with a line feed. -/
def render (width : Str → Nat) (lines : List Str) : List Shown → Option (List Str)
  | [] => some []
  | d :: ds =>
    match Diag.display width d.diagnostic lines with
    | some out =>
      match render width lines ds with
      | some rest => some ((out ++ ['\n']) :: rest)
      | none => none
    | none => none

/-- `main`, from the text on (crates/cli/src/main.rs:65-100). -/
def run (width : Str → Nat) (ovf : Bool) (shuffle : MapTable → MapTable) (mode : Mode) (text : Str) :
    Option Output :=
  match phases ovf shuffle mode text with
  | some (t, d) =>
    let s := d.sort Shown.span Shown.span Shown.span
    match render width (Diag.lines text) s.errors, render width (Diag.lines text) s.warnings,
      render width (Diag.lines text) s.infos with
    | some a, some b, some c => some ⟨mapSimple t, a ++ b ++ c⟩
    | _, _, _ => none
  | none => none

/-- How the program ends: `ExitCode::FAILURE` with a message about the arguments or the file, or
`ExitCode::SUCCESS`. -/
inductive Exit
  | failure
  | success (out : Output)

/-- `main` (crates/cli/src/main.rs:37-122), where `args` are the arguments behind the name of the program. -/
def main (width : Str → Nat) (ovf : Bool) (shuffle : MapTable → MapTable) (fileName : Str → Option Str)
    (readFile : Str → Option Str) (args : List Str) : Option Exit :=
  match args with
  | [] => some .failure
  | m :: args =>
    let mode :=
      if m = "validate".toList then some Mode.validate
      else if m = "check".toList then some .check
      else none
    match mode, args with
    | none, _ => some .failure
    | some _, [] => some .failure
    | some mode, path :: _ =>
      match fileName path with
      | none => some .failure
      | some name =>
        if mode = .check ∧ name ≠ "Cargo.toml".toList then some .failure
        else
          match readFile path with
          | none => some .failure
          | some text =>
            match run width ovf shuffle mode text with
            | some out => some (.success out)
            | none => none

end Verif.Cli
