import Verif.Cli.Model

/-!
# Model of the Neovim plugin (crates/nvim/src/lib.rs, lua/crates_nvim.lua)

* A buffer is the list of its lines; lines are valid UTF-8 (the code does not check it) and have no line feeds.
* `none` is a panic.  `u32` values are natural numbers.
* The registration of the function (crates/nvim/src/lib.rs:38-47), the conversion to objects of Neovim
  (crates/nvim/src/lib.rs:18-22, 33-37) and errors of the API of Neovim are left out.
-/

namespace Verif.Nvim
open Verif Verif.Toml Verif.TomlMap Verif.Cli

/-- `VimDiagnostic` (crates/nvim/src/lib.rs:24-31). -/
structure VimDiagnostic where
  lnum : Nat
  endLnum : Nat
  col : Nat
  endCol : Nat
  message : Str
  deriving DecidableEq, _root_.Repr

/-- `VimDiagnostics` (crates/nvim/src/lib.rs:11-16). -/
structure VimDiagnostics where
  errors : List VimDiagnostic
  warnings : List VimDiagnostic
  infos : List VimDiagnostic
  deriving DecidableEq, _root_.Repr

/-- The loop over the lines of the buffer (crates/nvim/src/lib.rs:54-63): each line is followed by a line
feed. -/
def bufferText : List Str → Str
  | [] => []
  | l :: ls => l ++ '\n' :: bufferText ls

/-- `map_vim_diagnostic` (crates/nvim/src/lib.rs:85-96). -/
def mapVimDiagnostic (d : Shown) : VimDiagnostic :=
  ⟨d.span.start.line, d.span.stop.line, d.span.start.char, d.span.stop.char, d.diagnostic.description⟩

/-- `check_toml` (crates/nvim/src/lib.rs:49-83); the phases are those of the command line, see
`Cli.phases`. -/
def checkToml (ovf : Bool) (shuffle : MapTable → MapTable) (lines : List Str) : Option VimDiagnostics :=
  match phases ovf shuffle .check (bufferText lines) with
  | some (_, d) =>
    some ⟨d.errors.map mapVimDiagnostic, d.warnings.map mapVimDiagnostic, d.infos.map mapVimDiagnostic⟩
  | none => none

/-- `vim.diagnostic.severity`. -/
inductive VimSeverity | error | warn | info | hint
  deriving DecidableEq, _root_.Repr

/-- `M.check_toml` (lua/crates_nvim.lua:25-45): what is given to `vim.diagnostic.set`.  The severity is the one of
errors in all three loops. -/
def publish (out : VimDiagnostics) : List (VimSeverity × VimDiagnostic) :=
  out.errors.map (fun e => (.error, e)) ++ out.warnings.map (fun w => (.error, w)) ++
    out.infos.map (fun h => (.error, h))

end Verif.Nvim
