import Verif.Toml.Lex
import Verif.Toml.Lit

/-!
# The syntax tree of a TOML document (crates/toml/src/parse.rs)

Borrowed string slices are modelled by their text; `bump` allocation is not modelled.  The types of
values are parametrised over the type of nested values, and tied in `Value`.
-/

namespace Verif.Toml
open Verif

/-- `CommentRange` (crates/toml/src/parse.rs:75-80); a `CommentId` is a `Nat`. -/
structure CommentRange where
  start : Nat
  len : Nat
  level : Nat
  deriving DecidableEq, Repr

/-- `CommentRange::append` (crates/toml/src/parse.rs:92-94); the subtraction is on `u32` and panics
below zero. -/
def CommentRange.append (r : CommentRange) (id : Nat) : Option CommentRange := do
  let d ← subU id r.start
  pure { r with len := d + 1 }

/-- `CommentRange::extend_to` (crates/toml/src/parse.rs:98-100). -/
def CommentRange.extendTo (r : CommentRange) (id : Nat) : Option CommentRange := do
  let d ← subU id r.start
  pure { r with len := d }

/-- `Comment` (crates/toml/src/parse.rs:722-726). -/
structure Comment where
  span : Span
  text : Str
  deriving DecidableEq, Repr

/-- `AssocPos` (crates/toml/src/parse.rs:138-146). -/
inductive AssocPos | above | lineEnd | contained
  deriving DecidableEq, Repr

/-- `AssocComment` (crates/toml/src/parse.rs:103-110). -/
structure AssocComment where
  pos : AssocPos
  level : Nat
  comment : Comment
  deriving DecidableEq, Repr

/-- `IdentKind` (crates/toml/src/parse.rs:456-461). -/
inductive IdentKind | plain | basicString | literalString
  deriving DecidableEq, Repr

/-- `Ident` (crates/toml/src/parse.rs:398-406). -/
structure Ident where
  lit : Str
  litStart : Pos
  text : Str
  textStartOffset : Nat
  textEndOffset : Nat
  kind : IdentKind
  deriving DecidableEq, Repr

/-- `Ident::lit_end` (crates/toml/src/parse.rs:444-446). -/
def Ident.litEnd (i : Ident) : Pos := i.litStart.plus (blen i.lit)

/-- `Ident::lit_span` (crates/toml/src/parse.rs:439-441). -/
def Ident.litSpan (i : Ident) : Span := Span.fromPosLen i.litStart (blen i.lit)

/-- `Ident::text_span` (crates/toml/src/parse.rs:448-453); `None`: the subtraction is below zero. -/
def Ident.textSpan (i : Ident) : Option Span := do
  let len ← subU (blen i.lit) (i.textStartOffset + i.textEndOffset)
  pure (Span.fromPosLen (i.litStart.plus i.textStartOffset) len)

/-- `Ident::from_plain_lit` (crates/toml/src/parse.rs:409-418). -/
def Ident.fromPlainLit (lit : Str) (span : Span) : Ident := ⟨lit, span.start, lit, 0, 0, .plain⟩

/-- `Ident::from_string` (crates/toml/src/parse.rs:420-437). -/
def Ident.fromString (lit : Str) (litSpan : Span) (text : Str) (off : TextOffset) (kind : IdentKind) :
    Ident := ⟨lit, litSpan.start, text, off.startChar, off.endChar, kind⟩

/-- `DottedIdent` (crates/toml/src/parse.rs:364-368). -/
structure DottedIdent where
  ident : Ident
  dot : Option Pos
  deriving DecidableEq, Repr

/-- `Key` (crates/toml/src/parse.rs:358-362). -/
inductive Key
  | one (i : Ident)
  | dotted (is : List DottedIdent)
  deriving DecidableEq, Repr

/-- The identifiers of a key, in order. -/
def Key.idents : Key → List Ident
  | .one i => [i]
  | .dotted is => is.map (·.ident)

/-- `Assignment` (crates/toml/src/parse.rs:334-339). -/
structure AssignmentF (V : Type) where
  key : Key
  eq : Pos
  val : V

/-- `End` (crates/toml/src/parse.rs:678-684). -/
inductive End
  | par (p : Pos)
  | none (p : Pos)
  deriving DecidableEq, Repr

/-- `End::end_pos` (crates/toml/src/parse.rs:687-693). -/
def End.endPos : End → Pos
  | .par p => p.plus 1
  | .none p => p

/-- `InlineTableAssignment` (crates/toml/src/parse.rs:617-621). -/
structure InlineTableAssignmentF (V : Type) where
  assignment : AssignmentF V
  comma : Option Pos

/-- `InlineTable` (crates/toml/src/parse.rs:585-590). -/
structure InlineTableF (V : Type) where
  lPar : Pos
  assignments : List (InlineTableAssignmentF V)
  stop : End

/-- `InlineArrayValue` (crates/toml/src/parse.rs:696-701). -/
structure InlineArrayValueF (V : Type) where
  comments : CommentRange
  val : V
  comma : Option Pos

/-- `InlineArray` (crates/toml/src/parse.rs:642-648). -/
structure InlineArrayF (V : Type) where
  comments : CommentRange
  lPar : Pos
  values : List (InlineArrayValueF V)
  stop : End

/-- `StringVal` (crates/toml/src/parse.rs:519-526). -/
structure StringVal where
  lit : Str
  litSpan : Span
  text : Str
  textOffset : TextOffset
  quote : Quote
  deriving DecidableEq, Repr

/-- `Value` (crates/toml/src/parse.rs:463-473). -/
inductive Value
  | string (s : StringVal)
  | int (lit : Str) (litSpan : Span) (val : Int)
  | float (lit : Str) (litSpan : Span) (val : FloatVal)
  | bool (litSpan : Span) (val : Bool)
  | dateTime (lit : Str) (litSpan : Span) (val : DateTime)
  | inlineTable (t : InlineTableF Value)
  | inlineArray (a : InlineArrayF Value)
  | invalid (lit : Str) (span : Span)

abbrev Assignment := AssignmentF Value
abbrev InlineTableAssignment := InlineTableAssignmentF Value
abbrev InlineTable := InlineTableF Value
abbrev InlineArrayValue := InlineArrayValueF Value
abbrev InlineArray := InlineArrayF Value

/-- `Value::start` (crates/toml/src/parse.rs:490-502); as in the code, an invalid value starts at its
end. -/
def Value.start : Value → Pos
  | .string s => s.litSpan.start
  | .int _ s _ => s.start
  | .float _ s _ => s.start
  | .bool s _ => s.start
  | .dateTime _ s _ => s.start
  | .inlineTable t => t.lPar
  | .inlineArray a => a.lPar
  | .invalid _ s => s.stop

/-- `Value::end` (crates/toml/src/parse.rs:504-516). -/
def Value.stop : Value → Pos
  | .string s => s.litSpan.stop
  | .int _ s _ => s.stop
  | .float _ s _ => s.stop
  | .bool s _ => s.stop
  | .dateTime _ s _ => s.stop
  | .inlineTable t => t.stop.endPos
  | .inlineArray a => a.stop.endPos
  | .invalid _ s => s.stop

/-- `Value::span` (crates/toml/src/parse.rs:476-488). -/
def Value.span : Value → Span
  | .string s => s.litSpan
  | .int _ s _ => s
  | .float _ s _ => s
  | .bool s _ => s
  | .dateTime _ s _ => s
  | .inlineTable t => ⟨t.lPar, t.stop.endPos⟩
  | .inlineArray a => ⟨a.lPar, a.stop.endPos⟩
  | .invalid _ s => s

/-- `InlineArrayValue::end` (crates/toml/src/parse.rs:714-719). -/
def InlineArrayValueF.end (v : InlineArrayValueF Value) : Pos :=
  match v.comma with
  | some c => c.plus 1
  | none => v.val.stop

/-- `InlineTableAssignment::end` (crates/toml/src/parse.rs:634-639). -/
def InlineTableAssignmentF.end (v : InlineTableAssignmentF Value) : Pos :=
  match v.comma with
  | some c => c.plus 1
  | none => v.assignment.val.stop

/-- `ToplevelAssignment` (crates/toml/src/parse.rs:311-315). -/
structure ToplevelAssignment where
  comments : CommentRange
  assignment : Assignment

/-- `TableHeader` (crates/toml/src/parse.rs:181-186). -/
structure TableHeader where
  lPar : Pos
  key : Option Key
  rParOffset : Option Int

/-- The offset of a closing bracket in a header (crates/toml/src/parse.rs:193-196 and 273-280):
`NonZeroU32::new(r_par.char - l_par.char).expect(..)`.  `None`: the subtraction is below zero in a build
with overflow checks (`ovf`), or `expect` panics.  Without overflow checks the difference of the `u32`s
wraps around; `parPlus` wraps back, so the offset is the difference as an integer. -/
def parOffset (ovf : Bool) (lPar : Pos) : Option Pos → Option (Option Int)
  | none => some none
  | some r =>
    if ovf ∧ r.char < lPar.char then none
    else if r.char = lPar.char then none
    else some (some ((r.char : Int) - lPar.char))

/-- `Pos::plus` with such an offset (crates/common/src/lib.rs:167-173), which may wrap around. -/
def parPlus (p : Pos) (o : Int) : Pos := ⟨p.line, ((p.char : Int) + o).toNat⟩

/-- `TableHeader::new` (crates/toml/src/parse.rs:189-198). -/
def TableHeader.new (ovf : Bool) (lPar : Pos) (key : Option Key) (rPar : Option Pos) :
    Option TableHeader := do
  let o ← parOffset ovf lPar rPar
  pure ⟨lPar, key, o⟩

/-- `TableHeader::r_par` (crates/toml/src/parse.rs:217-219). -/
def TableHeader.rPar (h : TableHeader) : Option Pos := h.rParOffset.map (parPlus h.lPar)

/-- `ArrayHeader` (crates/toml/src/parse.rs:256-261). -/
structure ArrayHeader where
  lPars : Pos × Pos
  key : Option Key
  rParOffsets : Option Int × Option Int

/-- `ArrayHeader::new` (crates/toml/src/parse.rs:264-283). -/
def ArrayHeader.new (ovf : Bool) (lPars : Pos × Pos) (key : Option Key) (rPars : Option Pos × Option Pos) :
    Option ArrayHeader := do
  let a ← parOffset ovf lPars.1 rPars.1
  let b ← parOffset ovf lPars.1 rPars.2
  pure ⟨lPars, key, (a, b)⟩

/-- `ArrayHeader::r_pars` (crates/toml/src/parse.rs:303-308). -/
def ArrayHeader.rPars (h : ArrayHeader) : Option Pos × Option Pos :=
  (h.rParOffsets.1.map (parPlus h.lPars.1), h.rParOffsets.2.map (parPlus h.lPars.1))

/-- `Table` (crates/toml/src/parse.rs:148-153). -/
structure Table where
  comments : CommentRange
  header : TableHeader
  assignments : List ToplevelAssignment

/-- `ArrayEntry` (crates/toml/src/parse.rs:222-227). -/
structure ArrayEntry where
  comments : CommentRange
  header : ArrayHeader
  assignments : List ToplevelAssignment

/-- `Ast` (crates/toml/src/parse.rs:64-70). -/
inductive Ast
  | assignment (a : ToplevelAssignment)
  | table (t : Table)
  | array (a : ArrayEntry)
  | comment (c : Comment)

/-- `Asts` (crates/toml/src/parse.rs:58-62). -/
structure Asts where
  asts : List Ast
  comments : List AssocComment

end Verif.Toml
