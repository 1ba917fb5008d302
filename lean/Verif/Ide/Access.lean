import Verif.Ide.Check

/-!
# Model of the accessors of the assignments of a dependency (crates/ide/src/check.rs)
-/

namespace Verif.Ide
open Verif Verif.Toml Verif.TomlMap

/-- `StringAssignment::ident` (crates/ide/src/check.rs:135-137); `none` is a panic. -/
def StringAssignment.ident (a : StringAssignment) : Option Ident := a.repr.key.reprIdent

/-- `StringAssignment::span` (crates/ide/src/check.rs:139-141); `none` is a panic. -/
def StringAssignment.span (a : StringAssignment) : Option Span := a.repr.span

/-- `BoolAssignment::ident` (crates/ide/src/check.rs:151-153); `none` is a panic. -/
def BoolAssignment.ident (a : BoolAssignment) : Option Ident := a.repr.key.reprIdent

/-- `BoolAssignment::span` (crates/ide/src/check.rs:155-157); `none` is a panic. -/
def BoolAssignment.span (a : BoolAssignment) : Option Span := a.repr.span

end Verif.Ide
