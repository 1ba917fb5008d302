import Verif.Spec.Lex
import Verif.Toml.Ast

/-!
# Specification: how the syntax tree lies in the document

Only the data types of the tree are used.
-/

namespace Verif.Spec.Toml
open Verif Verif.Toml

/-- The text `y` stands in the document at `s`. -/
def TextAt (input : Str) (s : Span) (y : Str) : Prop :=
  ∃ x z, input = x ++ y ++ z ∧ s = ⟨posOf x, posOf (x ++ y)⟩

/-- The character `c` stands in the document at `p`. -/
def CharAt (input : Str) (p : Pos) (c : Char) : Prop := ∃ x z, input = x ++ c :: z ∧ p = posOf x

/-- `p` is a place between two characters of the document. -/
def PosIn (input : Str) (p : Pos) : Prop := ∃ x z, input = x ++ z ∧ p = posOf x

/-- A comment stands in the document behind a `#`. -/
def CommentAt (input : Str) (c : Comment) : Prop := '\n' ∉ c.text ∧ TextAt input c.span ('#' :: c.text)

/-- The delimiters of an identifier: none around a bare one; a quote in front of a quoted one and a quote behind it, unless that is
missing. -/
def Delimiters (k : IdentKind) (o d : Str) : Prop :=
  match k with
  | .plain => o = [] ∧ d = []
  | .basicString => o = ['"'] ∧ (d = [] ∨ d = ['"'])
  | .literalString => o = ['\''] ∧ (d = [] ∨ d = ['\''])

/-- An identifier stands in the document, on one line: delimiters and between them its source.  The place of its text is that of the source,
and the text is the source, if there are no escape sequences. -/
def IdentAt (input : Str) (i : Ident) : Prop :=
  (∃ x z, input = x ++ i.lit ++ z ∧ i.litStart = posOf x) ∧ i.lit ≠ [] ∧ '\n' ∉ i.lit ∧
    (i.kind = .plain → i.text = i.lit) ∧
    ∃ x o t d z, input = x ++ (o ++ t ++ d) ++ z ∧ i.lit = o ++ t ++ d ∧ i.litSpan = ⟨posOf x, posOf (x ++ (o ++ t ++ d))⟩ ∧
      Delimiters i.kind o d ∧ i.textSpan = some ⟨posOf (x ++ o), posOf (x ++ o ++ t)⟩ ∧ ('\\' ∉ t → i.text = t)

/-- A string stands in the document: an opening delimiter `o`, the source `t` of its contents, closing
quotes `d` (none, if they are missing, and at most one for a string on one line).  The place of the contents is known: the lines, the column of the
start if it is on the line of the delimiter, and the column of the end if there are less than 256 closing
quotes. -/
def StringIn (input : Str) (s : StringVal) : Prop :=
  ∃ x o t d z, input = x ++ (o ++ t ++ d) ++ z ∧ s.lit = o ++ t ++ d ∧
    s.litSpan = ⟨posOf x, posOf (x ++ (o ++ t ++ d))⟩ ∧
    Opening s.quote o ∧ (∀ c ∈ d, c = quoteChar s.quote) ∧ (isMulti s.quote = false → '\n' ∉ s.lit) ∧
    (isMulti s.quote = false → d.length ≤ 1 ∧ ('\\' ∉ t → s.text = t)) ∧
    ∃ ts, s.textOffset.applyTo s.litSpan = some ts ∧
      ts.start.line = (posOf (x ++ o)).line ∧ ('\n' ∉ o → ts.start = posOf (x ++ o)) ∧
      ts.stop.line = (posOf (x ++ o ++ t)).line ∧ (d.length < 256 → ts.stop = posOf (x ++ o ++ t))

/-- A key has at least one identifier; they, and the dots, stand in the document. -/
inductive KeyAt (input : Str) : Key → Prop
  | one {i} : IdentAt input i → KeyAt input (.one i)
  | dotted {is} : 2 ≤ is.length → (∀ d ∈ is, IdentAt input d.ident) →
      (∀ d ∈ is, ∀ p, d.dot = some p → CharAt input p '.') → KeyAt input (.dotted is)

/-- The end of a value with brackets: the place of the closing bracket `c`, or some place if that is
missing. -/
inductive EndAt (input : Str) (c : Char) : End → Prop
  | par {p} : CharAt input p c → EndAt input c (.par p)
  | none {p} : PosIn input p → EndAt input c (.none p)

/-- A range of comments lies within the first `n` stored comments. -/
def RangeIn (n : Nat) (r : CommentRange) : Prop := r.start + r.len ≤ n

/-- A value stands in the document: a literal with its text, a nested value with its brackets, commas
and equal signs; and so do the values in it.  Ranges of comments lie within the first `n` comments. -/
inductive ValueAt (input : Str) (n : Nat) : Value → Prop
  | string {s} : StringIn input s → ValueAt input n (.string s)
  | int {l s v} : TextAt input s l → ValueAt input n (.int l s v)
  | float {l s v} : TextAt input s l → ValueAt input n (.float l s v)
  | bool {s b} : TextAt input s (if b = true then "true".toList else "false".toList) →
      ValueAt input n (.bool s b)
  | dateTime {l s v} : TextAt input s l → ValueAt input n (.dateTime l s v)
  | invalid {l s} : TextAt input s l → ValueAt input n (.invalid l s)
  | inlineTable {t} : CharAt input t.lPar '{' → EndAt input '}' t.stop →
      SpanIn input ⟨t.lPar, t.stop.endPos⟩ →
      (∀ a ∈ t.assignments, KeyAt input a.assignment.key ∧ CharAt input a.assignment.eq '=' ∧
        (∀ p, a.comma = some p → CharAt input p ',')) →
      (∀ a ∈ t.assignments, ValueAt input n a.assignment.val) → ValueAt input n (.inlineTable t)
  | inlineArray {a} : CharAt input a.lPar '[' → EndAt input ']' a.stop →
      SpanIn input ⟨a.lPar, a.stop.endPos⟩ → RangeIn n a.comments →
      (∀ v ∈ a.values, RangeIn n v.comments ∧ (∀ p, v.comma = some p → CharAt input p ',')) →
      (∀ v ∈ a.values, ValueAt input n v.val) → ValueAt input n (.inlineArray a)

/-- At most `n` brackets of arrays and inline tables are around a part of the value. -/
inductive NestedAtMost : Nat → Value → Prop
  | scalar {n v} : (∀ t, v ≠ .inlineTable t) → (∀ a, v ≠ .inlineArray a) → NestedAtMost n v
  | inlineTable {n t} : (∀ a ∈ t.assignments, NestedAtMost n a.assignment.val) →
      NestedAtMost (n + 1) (.inlineTable t)
  | inlineArray {n a} : (∀ v ∈ a.values, NestedAtMost n v.val) → NestedAtMost (n + 1) (.inlineArray a)

/-- The values assigned in an item. -/
def astValues : Ast → List Value
  | .assignment a => [a.assignment.val]
  | .table t => t.assignments.map (·.assignment.val)
  | .array t => t.assignments.map (·.assignment.val)
  | .comment _ => []

/-- An assignment of the document or of a table. -/
structure AssignmentAt (input : Str) (n : Nat) (a : ToplevelAssignment) : Prop where
  comments : RangeIn n a.comments
  key : KeyAt input a.assignment.key
  eq : CharAt input a.assignment.eq '='
  val : ValueAt input n a.assignment.val

/-- An optional bracket. -/
def ParAt (input : Str) (c : Char) (p : Option Pos) : Prop := ∀ q, p = some q → CharAt input q c

/-- An item of the tree.  The place of a closing bracket is stored as the distance of its column from
that of the opening one, which is right if `oneLine` holds. -/
inductive AstAt (oneLine : Prop) (input : Str) (n : Nat) : Ast → Prop
  | assignment {a} : AssignmentAt input n a → AstAt oneLine input n (.assignment a)
  | table {t} : RangeIn n t.comments → CharAt input t.header.lPar '[' →
      (oneLine → ParAt input ']' t.header.rPar) →
      (∀ k, t.header.key = some k → KeyAt input k) →
      (∀ a ∈ t.assignments, AssignmentAt input n a) → AstAt oneLine input n (.table t)
  | array {t} : RangeIn n t.comments → CharAt input t.header.lPars.1 '[' →
      CharAt input t.header.lPars.2 '[' →
      (oneLine → ParAt input ']' t.header.rPars.1 ∧ ParAt input ']' t.header.rPars.2) →
      (∀ k, t.header.key = some k → KeyAt input k) →
      (∀ a ∈ t.assignments, AssignmentAt input n a) → AstAt oneLine input n (.array t)
  | comment {c} : CommentAt input c → AstAt oneLine input n (.comment c)

/-- An opening and a later closing square bracket with no end of a line between them, as far as the
tokens go. -/
def BracketPair (toks : List Token) (l r : Token) : Prop :=
  ∃ a m b, toks = a ++ l :: m ++ r :: b ∧ l.ty = .squareLeft ∧ r.ty = .squareRight ∧
    ∀ t ∈ m, t.ty ≠ .newline ∧ ∀ id, t.ty ≠ .comment id

/-- There are such brackets on two lines, i.e. with a multi-line string between them. -/
def SplitPair (toks : List Token) : Prop :=
  ∃ l r, BracketPair toks l r ∧ l.start.line ≠ r.start.line

/-- Also, the closing one is not to the right of the opening one; or just below it, if the build has no
overflow checks. -/
def SplitBack (ovf : Bool) (toks : List Token) : Prop :=
  ∃ l r, BracketPair toks l r ∧ l.start.line ≠ r.start.line ∧
    if ovf then r.start.char ≤ l.start.char else r.start.char = l.start.char

/-- The free-standing comments of a tree. -/
def astComments (as : List Ast) : List Comment :=
  as.filterMap fun a => match a with
    | .comment c => some c
    | _ => none

/-- The comments among the tokens of a document, in their order. -/
def viewComments (vs : List (View × Pos)) : List Comment :=
  vs.filterMap fun v => match v with
    | (.comment t, p) => some ⟨Span.fromPosLen p (1 + blen t), t⟩
    | _ => none

/-- The opening bracket a diagnostic about a missing closing bracket refers to. -/
def openBracket : Error → Option (Pos × Char)
  | .expectedRightCurlyFound _ p _ => some (p, '{')
  | .expectedRightSquareFound _ p _ => some (p, '[')
  | .expectedDotOrRightSquareFound _ p _ => some (p, '[')
  | _ => none

end Verif.Spec.Toml
