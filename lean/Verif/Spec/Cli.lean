import Verif.Cli.Model
import Verif.Spec.Check
import Verif.Spec.Parse
import Verif.Spec.Sort
import Verif.Spec.Diag

/-!
# Specification: what the command line prints
-/

namespace Verif.Spec.Cli
open Verif Verif.Toml Verif.TomlMap Verif.Spec Verif.Spec.Toml Verif.Cli
open Verif.Spec.Check hiding Section SectionKey

/-- The text is ASCII, or has no control characters but line feeds and tabs. -/
def CommentsOk (text : Str) : Prop :=
  (∀ c ∈ text, c.utf8Size = 1) ∨ ∀ c ∈ text, isControl c = true → c = '\n' ∨ c = '\t'

/-- A string with single quotes and without backslashes. -/
def PlainStr (v : StringVal) : Prop :=
  isMulti v.quote = false ∧ '\\' ∉ v.lit

/-- The string is a version requirement of a dependency of the manifest. -/
inductive VersionStr (root : MapTable) (v : StringVal) : Prop
  | entry {loc path kind target name e} : DepEntry root loc path kind target name e →
      e.node = .scalar (.string v) → VersionStr root v
  | key {loc path kind target name e t b} : DepEntry root loc path kind target name e → e.node = .table t →
      IsStr t "version" b → b.val = v → VersionStr root v

/-- The diagnostics are sorted by their start, and diagnostics with the same start keep their order. -/
def Sorted (ds ds' : List Diag.Diagnostic) : Prop :=
  StableSorted (fun a b => Diag.posCmp a.span.start b.span.start) ds ds'

/-- `out` has one message for each diagnostic, in their order: what `display` writes for it, with a line
feed behind it. -/
def Printed (width : Str → Nat) (text : Str) (ds : List Diag.Diagnostic) (out : List Str) : Prop :=
  out.map some = ds.map fun d => (Diag.display width d (Diag.lines text)).map (· ++ ['\n'])

/-- The command line can print the diagnostic: its start is a place of the text, and its span and the one of its
hint can be underlined. -/
def CanShow (text : Str) (d : Diag.Diagnostic) : Prop :=
  Showable text d.span.start ∧ Drawable text d.span ∧ ∀ h, d.hint = some h → Drawable text h.span

/-- The error messages of the check. -/
def checkErrors (ms : List Ide.Msg) : List Ide.Msg :=
  ms.filter fun m => match m with | .warning .. => false | _ => true

/-- The warnings of the check. -/
def checkWarnings (ms : List Ide.Msg) : List Ide.Msg :=
  ms.filter fun m => match m with | .warning .. => true | _ => false

/-- A text with a multi-line string has three quotes in a row. -/
def NoTripleQuotes (text : Str) : Prop :=
  ¬ "\"\"\"".toList <:+: text ∧ ¬ "'''".toList <:+: text

end Verif.Spec.Cli
