import Verif.Spec.Parse

/-!
# Specification: the order of the parts of the syntax tree in the document

Only the data types of the tree are used.
-/

namespace Verif.Spec.Toml
open Verif Verif.Toml

/-- The places of the list stand one behind another, without overlap, behind the text `a` and before
the end of the text `b`. -/
inductive InOrder : Str → List Span → Str → Prop
  | nil {a b} : a <+: b → InOrder a [] b
  | cons {a x y l b} : a <+: x → x <+: y → InOrder y l b → InOrder a (⟨posOf x, posOf y⟩ :: l) b

/-- The place of an optional character. -/
def optPlace : Option Pos → List Span
  | some p => [Span.asciiChar p]
  | none => []

/-- The places of the identifiers and dots of a key. -/
def keyPlaces : Key → List Span
  | .one i => [i.litSpan]
  | .dotted is => is.flatMap fun d => d.ident.litSpan :: optPlace d.dot

/-- The place of a closing bracket; or the place, where it is missing. -/
def endPlace : End → Span
  | .par p => Span.asciiChar p
  | .none p => Span.ofPos p

mutual

/-- The places of the parts of a value: of the literal, or of the brackets, the elements, the commas and
equal signs. -/
def valPlaces : Value → List Span
  | .string s => [s.litSpan]
  | .int _ s _ => [s]
  | .float _ s _ => [s]
  | .bool s _ => [s]
  | .dateTime _ s _ => [s]
  | .invalid _ s => [s]
  | .inlineTable ⟨l, as, e⟩ => Span.asciiChar l :: pairsPlaces as ++ [endPlace e]
  | .inlineArray ⟨_, l, vs, e⟩ => Span.asciiChar l :: valsPlaces vs ++ [endPlace e]

def valsPlaces : List InlineArrayValue → List Span
  | [] => []
  | ⟨_, v, c⟩ :: vs => valPlaces v ++ optPlace c ++ valsPlaces vs

def pairsPlaces : List InlineTableAssignment → List Span
  | [] => []
  | ⟨⟨k, p, v⟩, c⟩ :: as => keyPlaces k ++ [Span.asciiChar p] ++ valPlaces v ++ optPlace c ++ pairsPlaces as

end

/-- The places of an assignment of the document or of a table. -/
def assignmentPlaces (a : ToplevelAssignment) : List Span :=
  keyPlaces a.assignment.key ++ [Span.asciiChar a.assignment.eq] ++ valPlaces a.assignment.val

/-- The places of the key of a header, if there is one. -/
def headKeyPlaces (k : Option Key) : List Span := (k.map keyPlaces).getD []

/-- The places of the parts of an item of the tree, with or without the closing brackets of headers. -/
def astPlaces (closing : Bool) : Ast → List Span
  | .assignment a => assignmentPlaces a
  | .table t => [Span.asciiChar t.header.lPar] ++ headKeyPlaces t.header.key ++
      (if closing then optPlace t.header.rPar else []) ++ t.assignments.flatMap assignmentPlaces
  | .array t => [Span.asciiChar t.header.lPars.1, Span.asciiChar t.header.lPars.2] ++
      headKeyPlaces t.header.key ++
      (if closing then optPlace t.header.rPars.1 ++ optPlace t.header.rPars.2 else []) ++
      t.assignments.flatMap assignmentPlaces
  | .comment c => [c.span]

end Verif.Spec.Toml
