import Verif.Toml.Lex
import Verif.Common.Sort
import Verif.Spec.Decimal

/-!
# Model of the diagnostics of crates/common (crates/common/src/lib.rs, crates/common/src/diagnostic.rs)

`None` stands for a panic: an index or slice out of bounds or off a character boundary, or a
subtraction below zero.  `str::width` of the crate `unicode_width` is a parameter `width`.
`std::fmt::Write` never fails (it is a `String` everywhere).
-/

namespace Verif.Diag
open Verif Verif.Toml

/-! ## Collecting diagnostics -/

/-- `DiagnosticMark` (crates/common/src/lib.rs:22-27). -/
structure Mark where
  error : Nat
  warning : Nat
  info : Nat
  deriving DecidableEq, Repr

/-- `Diagnostics` (crates/common/src/lib.rs:29-33). -/
structure Diagnostics (E W I : Type) where
  errors : List E
  warnings : List W
  infos : List I
  deriving DecidableEq, Repr

section
variable {E W I : Type}

/-- `Diagnostics::default` (crates/common/src/lib.rs:35-43). -/
def Diagnostics.default : Diagnostics E W I := ⟨[], [], []⟩

/-- `Diagnostics::error` (crates/common/src/lib.rs:50-52). -/
def Diagnostics.error (d : Diagnostics E W I) (e : E) : Diagnostics E W I :=
  { d with errors := d.errors ++ [e] }

/-- `Diagnostics::warn` (crates/common/src/lib.rs:54-56). -/
def Diagnostics.warn (d : Diagnostics E W I) (w : W) : Diagnostics E W I :=
  { d with warnings := d.warnings ++ [w] }

/-- `Diagnostics::info` (crates/common/src/lib.rs:58-60). -/
def Diagnostics.info (d : Diagnostics E W I) (i : I) : Diagnostics E W I :=
  { d with infos := d.infos ++ [i] }

/-- `Diagnostics::mark` (crates/common/src/lib.rs:62-68). -/
def Diagnostics.mark (d : Diagnostics E W I) : Mark :=
  ⟨d.errors.length, d.warnings.length, d.infos.length⟩

/-- `Diagnostics::reset` (crates/common/src/lib.rs:70-74). -/
def Diagnostics.reset (d : Diagnostics E W I) (m : Mark) : Diagnostics E W I :=
  ⟨d.errors.take m.error, d.warnings.take m.warning, d.infos.take m.info⟩
end

/-! ## Sorting -/

/-- `derive(Ord)` on `Pos` (crates/common/src/lib.rs:143): line, then column. -/
def posCmp (p q : Pos) : Ordering := (compare p.line q.line).then (compare p.char q.char)

/-- `span_cmp` (crates/common/src/diagnostic.rs:21-23). -/
def spanCmp (a b : Span) : Ordering := posCmp a.start b.start

/-- `cmp` (crates/common/src/diagnostic.rs:17-19); `span` is `Diagnostic::span`. -/
def cmp {D : Type} (span : D → Span) (a b : D) : Ordering := spanCmp (span a) (span b)

/-- `Diagnostics::sort_diagnostics` (crates/common/src/lib.rs:83-87). -/
def Diagnostics.sort {E W I : Type} (se : E → Span) (sw : W → Span) (si : I → Span)
    (d : Diagnostics E W I) : Diagnostics E W I :=
  ⟨sortBy (cmp se) d.errors, sortBy (cmp sw) d.warnings, sortBy (cmp si) d.infos⟩

/-! ## Lines -/

/-- `str::split('\n')`: always at least one part. -/
def splitNl : Str → List Str
  | [] => [[]]
  | c :: cs =>
    if c = '\n' then [] :: splitNl cs
    else match splitNl cs with
      | s :: ss => (c :: s) :: ss
      | [] => [[c]]

/-- The removal of a carriage return (crates/common/src/diagnostic.rs:9-11). -/
def stripCr (l : Str) : Str := if l.getLast? = some '\r' then l.dropLast else l

/-- The loop over all lines except the last (crates/common/src/diagnostic.rs:7-13). -/
def stripTerminated : List Str → List Str
  | [] => []
  | [l] => [l]
  | l :: m :: ls => stripCr l :: stripTerminated (m :: ls)

/-- `lines` (crates/common/src/diagnostic.rs:5-15). -/
def lines (input : Str) : List Str := stripTerminated (splitNl input)

/-! ## Rendering -/

/-- `Severity` (crates/common/src/diagnostic.rs:65-71). -/
inductive Severity | error | warning | info | hint
  deriving DecidableEq, Repr

/-- `<Severity as Display>::fmt` (crates/common/src/diagnostic.rs:73-82). -/
def Severity.text : Severity → Str
  | .error => "error".toList
  | .warning => "warning".toList
  | .info => "info".toList
  | .hint => "hint".toList

/-- `ANSII_CLEAR` (crates/common/src/diagnostic.rs:326). -/
def clear : Str := Char.ofNat 27 :: "[0m".toList
/-- `ANSII_COLOR_BLUE` (crates/common/src/diagnostic.rs:330). -/
def blue : Str := Char.ofNat 27 :: "[94m".toList

/-- `ansii_esc_color` (crates/common/src/diagnostic.rs:333-340). -/
def escColor : Severity → Str
  | .error => Char.ofNat 27 :: "[91m".toList
  | .warning => Char.ofNat 27 :: "[93m".toList
  | .info => Char.ofNat 27 :: "[96m".toList
  | .hint => blue

/-- `underline_char` (crates/common/src/diagnostic.rs:342-349). -/
def underlineChar : Severity → Char
  | .error => '^'
  | .warning => '^'
  | .info => '^'
  | .hint => '-'

/-- What `DiagnosticHint` provides (crates/common/src/diagnostic.rs:55-63). -/
structure Hint where
  span : Span
  annotation : Str
  deriving DecidableEq, Repr

/-- What `Diagnostic` provides (crates/common/src/diagnostic.rs:25-53); `context_lines` being `None`
is the empty list (crates/common/src/diagnostic.rs:111). -/
structure Diagnostic where
  severity : Severity
  span : Span
  description : Str
  annotation : Str
  hint : Option Hint
  contextLines : List Nat
  deriving DecidableEq, Repr

/-- Control characters other than tab (crates/common/src/diagnostic.rs:294-296 and 313-315). -/
def isHidden (c : Char) : Bool := c != '\t' && isControl c

/-- `{n:4}`: right-aligned. -/
def pad4 (s : Str) : Str := List.replicate (4 - s.length) ' ' ++ s

/-- `display_line` (crates/common/src/diagnostic.rs:286-306).  The pieces between control characters
are written one after the other, which is the line without these characters. -/
def displayLine (lineNr : Nat) (line : Str) : Str :=
  blue ++ pad4 (Spec.decimal (lineNr + 1)) ++ " |".toList ++ clear ++ " ".toList ++
    line.filter (fun c => !isHidden c) ++ ['\n']

/-- The pieces of a line between control characters (the loop at
crates/common/src/diagnostic.rs:311-322). -/
def pieces : Str → List Str
  | [] => [[]]
  | c :: cs =>
    if isHidden c then [] :: pieces cs
    else match pieces cs with
      | s :: ss => (c :: s) :: ss
      | [] => [[c]]

section
variable (width : Str → Nat)

/-- `calc_width` (crates/common/src/diagnostic.rs:308-324). -/
def calcWidth (line : Str) : Nat := ((pieces line).map width).sum

/-- The loop of `display_body` (crates/common/src/diagnostic.rs:255-280) from index `i` on. -/
def bodyLoop (annotation : Str) (severity : Severity) (span : Span) (numLines : Nat) :
    Nat → List Str → Option Str
  | _, [] => some []
  | i, line :: ls => do
    let colStart := if i = 0 then span.start.char else 0
    let colEnd := if i = numLines - 1 then span.stop.char else blen line
    let before ← sliceTo colStart line
    let spanned ← slice line colStart colEnd
    let rest ← bodyLoop annotation severity span numLines (i + 1) ls
    pure (displayLine (span.start.line + i) line ++
      "     ".toList ++ blue ++ "|".toList ++ clear ++ " ".toList ++
      List.replicate (calcWidth width before) ' ' ++ escColor severity ++
      List.replicate (max (width spanned) 1) (underlineChar severity) ++
      (if i = numLines - 1 then ' ' :: annotation else []) ++ clear ++ ['\n'] ++ rest)

/-- `display_body` (crates/common/src/diagnostic.rs:242-283). -/
def displayBody (annotation : Str) (severity : Severity) (span : Span) (text : List Str) :
    Option Str := do
  let startLine := span.start.line
  let endLine := span.stop.line + 1
  let numLines ← subU endLine startLine
  if endLine ≤ text.length then
    bodyLoop width annotation severity span numLines 0 ((text.drop startLine).take numLines)
  else none

/-- `display_header` (crates/common/src/diagnostic.rs:164-180). -/
def displayHeader (d : Diagnostic) (text : List Str) : Option Str := do
  let line ← text[d.span.start.line]?
  let before ← sliceTo d.span.start.char line
  pure (escColor d.severity ++ d.severity.text ++ clear ++ ": ".toList ++ d.description ++ ['\n'] ++
    "    ".toList ++ blue ++ "-->".toList ++ clear ++ " ".toList ++
    Spec.decimal (d.span.start.line + 1) ++ ":".toList ++ Spec.decimal before.length)

/-- `display_context_lines` (crates/common/src/diagnostic.rs:89-106). -/
def displayContextLines (text : List Str) (lo hi : Nat) : List Nat → Option Str
  | [] => some []
  | l :: ls =>
    if l < lo then displayContextLines text lo hi ls
    else if l < hi then do
      let line ← text[l]?
      let rest ← displayContextLines text lo hi ls
      pure (displayLine l line ++ rest)
    else some []

/-- `hint_span.start < main_span.start`. -/
def before (a b : Pos) : Bool := posCmp a b == .lt

/-- The hint in front of the main part (crates/common/src/diagnostic.rs:116-123); the second component
is `current_line`. -/
def hintBefore (d : Diagnostic) (text : List Str) : Option (Str × Nat) :=
  match d.hint with
  | some h =>
    if before h.span.start d.span.start then do
      let a ← displayContextLines text 0 h.span.start.line d.contextLines
      let b ← displayBody width h.annotation .hint h.span text
      pure (a ++ b, h.span.stop.line + 1)
    else some ([], 0)
  | none => some ([], 0)

/-- The hint behind the main part (crates/common/src/diagnostic.rs:129-135). -/
def hintAfter (d : Diagnostic) (text : List Str) : Option Str :=
  match d.hint with
  | some h =>
    if before h.span.start d.span.start then some []
    else do
      let a ← displayContextLines text (d.span.stop.line + 1) h.span.start.line d.contextLines
      let b ← displayBody width h.annotation .hint h.span text
      pure (a ++ b)
  | none => some []

/-- `display` (crates/common/src/diagnostic.rs:84-138). -/
def display (d : Diagnostic) (text : List Str) : Option Str := do
  let header ← displayHeader d text
  let (h1, current) ← hintBefore width d text
  let ctx ← displayContextLines text current d.span.start.line d.contextLines
  let body ← displayBody width d.annotation d.severity d.span text
  let h2 ← hintAfter width d text
  pure (header ++ ['\n'] ++ "     ".toList ++ blue ++ "|".toList ++ clear ++ ['\n'] ++
    h1 ++ ctx ++ body ++ h2)
end

/-! ## Printing names -/

/-- The hexadecimal digit of `{:02x}`. -/
def hexDigit (n : Nat) : Char := Nat.digitChar n

/-- `<FmtChar as Display>::fmt` (crates/common/src/lib.rs:187-202). -/
def fmtChar (c : Char) : Str :=
  if c = Char.ofNat 8 then "\\b".toList
  else if c = '\t' then "\\t".toList
  else if c = '\n' then "\\n".toList
  else if c = Char.ofNat 12 then "\\f".toList
  else if c = '\r' then "\\r".toList
  else if isControl c then
    "\\x".toList ++ [hexDigit (c.toNat / 16), hexDigit (c.toNat % 16)]
  else [c]

/-- `<FmtStr as Display>::fmt` (crates/common/src/lib.rs:221-228). -/
def fmtStr (s : Str) : Str := (s.map fmtChar).flatten

end Verif.Diag
