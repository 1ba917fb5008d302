import Verif.Common.Basic

/-!
# Shared types of the TOML crate

Enumerations, date-time values and the `Error` type.  `FmtChar`/`FmtStr` are the wrapped
character/string.
-/

namespace Verif.Toml
open Verif

/-- `Quote` (crates/toml/src/lex.rs:129-139). -/
inductive Quote
  | basic
  | basicMultiline
  | literal
  | literalMultiline
  deriving DecidableEq, Repr

/-- `Sign` (crates/toml/src/parse/num.rs:8-12). -/
inductive Sign
  | positive
  | negative
  deriving DecidableEq, Repr

/-- `Sign::val` (crates/toml/src/parse/num.rs:27-32). -/
def Sign.val : Sign → Int
  | .positive => 1
  | .negative => -1

/-- `IntPrefix` (crates/toml/src/parse/num.rs:35-40). -/
inductive IntPrefix
  | binary
  | octal
  | hexadecimal
  deriving DecidableEq, Repr

/-- `IntPrefix::bits` (crates/toml/src/parse/num.rs:42-47). -/
def IntPrefix.bits : IntPrefix → Nat
  | .binary => 1
  | .octal => 3
  | .hexadecimal => 4

/-- `LitPart` (crates/toml/src/parse/lit.rs:25-34). -/
inductive LitPart
  | generic
  | intOrFloat
  | int
  | prefixedInt (p : IntPrefix)
  | floatIntegral
  | floatFract
  | floatExp
  deriving DecidableEq, Repr

/-- `DateTimeField` (crates/toml/src/datetime.rs:59-69). -/
inductive DateTimeField
  | year
  | month
  | day
  | hour
  | minute
  | second
  | offsetHour
  | offsetMinute
  deriving DecidableEq, Repr

/-- `Date` (crates/toml/src/datetime.rs:19-24); `u16`/`u8` fields as `Nat`. -/
structure Date where
  year : Nat
  month : Nat
  day : Nat
  deriving DecidableEq, Repr

/-- `Time` (crates/toml/src/datetime.rs:32-38); `u8`/`u32` fields as `Nat`. -/
structure Time where
  hour : Nat
  minute : Nat
  second : Nat
  nanos : Nat
  deriving DecidableEq, Repr

/-- `Offset` (crates/toml/src/datetime.rs:51-57); `i16` minutes as `Int`. -/
inductive Offset
  | utc
  | custom (minutes : Int)
  deriving DecidableEq, Repr

/-- `DateTime` (crates/toml/src/datetime.rs:1-8). -/
inductive DateTime
  | offsetDateTime (d : Date) (t : Time) (o : Offset)
  | localDateTime (d : Date) (t : Time)
  | localDate (d : Date)
  | localTime (t : Time)
  deriving DecidableEq, Repr

/-- `DateTime::from_optional_offset` (crates/toml/src/datetime.rs:11-16). -/
def DateTime.fromOptionalOffset (d : Date) (t : Time) : Option Offset → DateTime
  | some o => .offsetDateTime d t o
  | none => .localDateTime d t

/-- `Error` (crates/toml/src/error.rs:9-114).  Simplification: the `lines`/`path` payload of the
duplicate/extend errors is kept as a list of line numbers and a string. -/
inductive Error
  | missingQuote (q : Quote) (s : Span)
  | excessiveQuotes (q : Quote) (s : Span)
  | invalidStringChar (c : Char) (s : Span)
  | invalidEscapeChar (c : Char) (p : Pos)
  | invalidUnicodeEscapeChar (c : Char) (p : Pos)
  | invalidUnicodeCodepoint (n : Nat) (cp : Nat) (s : Span)
  | invalidLineEndingEscape (s : Span)
  | unfinishedEscapeSequence (s : Span)
  | invalidCharInIdentifier (c : Char) (p : Pos)
  | multilineBasicStringIdent (s : Span)
  | multilineLiteralStringIdent (s : Span)
  | invalidCommentChar (c : Char) (s : Span)
  | recursionLimitExceeded (p : Pos)
  | expectedEqOrDotFound (f : Str) (s : Span)
  | expectedRightCurlyFound (f : Str) (p : Pos) (s : Span)
  | expectedRightSquareFound (f : Str) (p : Pos) (s : Span)
  | expectedDotOrRightSquareFound (f : Str) (p : Pos) (s : Span)
  | expectedKeyFound (f : Str) (s : Span)
  | expectedValueFound (f : Str) (s : Span)
  | missingComma (p : Pos)
  | expectedNewlineFound (f : Str) (s : Span)
  | missingNewline (p : Pos)
  | inlineTableTrailingComma (p : Pos)
  | spaceBetweenArrayPars (s : Span)
  | unexpectedLiteralStart (c : Char) (p : Pos)
  | unexpectedLiteralChar (l : LitPart) (c : Char) (p : Pos)
  | litStartsWithUnderscore (l : LitPart) (p : Pos)
  | litEndsWithUnderscore (l : LitPart) (p : Pos)
  | consecutiveUnderscoresInLiteral (s : Span)
  | missingNumDigitsAfterSign (g : Sign) (p : Pos)
  | invalidLeadingZero (p : Pos)
  | expectedRadixOrDateTime (c : Char) (p : Pos)
  | unexpectedCharSignedLeadingZeroNum (c : Char) (p : Pos)
  | uppercaseBareLitChar (c : Char) (expected : Str) (p : Pos)
  | unexpectedBareLitChar (c : Char) (expected : Str) (p : Pos)
  | bareLitTrailingChars (t : Str) (expected : Str) (s : Span)
  | bareLitMissingChars (expected : Str) (p : Pos)
  | missingFloatFractionalPart (p : Pos)
  | floatLiteralOverflow (s : Span)
  | emptyPrefixedIntValue (p : Pos)
  | prefixedIntSignNotAllowed (p : Pos)
  | uppercaseIntRadix (r : IntPrefix) (p : Pos)
  | prefixedIntValueStartsWithUnderscore (p : Pos)
  | prefixedIntValueEndsWithUnderscore (p : Pos)
  | intDigitTooBig (r : IntPrefix) (c : Char) (p : Pos)
  | intLiteralOverflow (s : Span)
  | unexpectedCharInDateTime (c : Char) (p : Pos)
  | dateTimeExpectedCharFound (after : DateTimeField) (expected found : Char) (p : Pos)
  | dateTimeMissingChar (f : DateTimeField) (c : Char) (p : Pos)
  | dateTimeIncomplete (f : DateTimeField) (p : Pos)
  | dateTimeMissing (f : DateTimeField) (p : Pos)
  | dateTimeOutOfBounds (f : DateTimeField) (n lo hi : Nat) (s : Span)
  | dateTimeMissingSubsec (p : Pos)
  | localDateTimeOffset (p : Pos)
  | dateAndTimeTooFarApart (s : Span)
  | duplicateKey (lines : List Nat) (path : Str) (orig dup : Span)
  | cannotExtendInlineTable (lines : List Nat) (path : Str) (orig new : Span)
  | cannotExtendInlineArray (lines : List Nat) (path : Str) (orig new : Span)
  | cannotExtendInlineArrayAsTable (lines : List Nat) (path : Str) (orig new : Span)
  | cannotExtendTableWithDottedKey (lines : List Nat) (path : Str) (orig new : Span)
  | cannotExtendArrayWithDottedKey (lines : List Nat) (path : Str) (orig new : Span)
  deriving DecidableEq, Repr

/-- `<Error as Diagnostic>::span` (crates/toml/src/error.rs:121-195). -/
def Error.span : Error → Span
  | .missingQuote _ s => s
  | .excessiveQuotes _ s => s
  | .invalidStringChar _ s => s
  | .invalidEscapeChar _ p => Span.ofPos p
  | .invalidUnicodeEscapeChar _ p => Span.ofPos p
  | .invalidUnicodeCodepoint _ _ s => s
  | .invalidLineEndingEscape s => s
  | .unfinishedEscapeSequence s => s
  | .invalidCharInIdentifier _ p => Span.ofPos p
  | .multilineBasicStringIdent s => s
  | .multilineLiteralStringIdent s => s
  | .invalidCommentChar _ s => s
  | .recursionLimitExceeded p => Span.asciiChar p
  | .expectedEqOrDotFound _ s => s
  | .expectedRightCurlyFound _ _ s => s
  | .expectedRightSquareFound _ _ s => s
  | .expectedDotOrRightSquareFound _ _ s => s
  | .expectedKeyFound _ s => s
  | .expectedValueFound _ s => s
  | .missingComma p => Span.ofPos p
  | .expectedNewlineFound _ s => s
  | .missingNewline p => Span.ofPos p
  | .inlineTableTrailingComma p => Span.asciiChar p
  | .spaceBetweenArrayPars s => s
  | .unexpectedLiteralStart c p => Span.fromPosLen p c.utf8Size
  | .unexpectedLiteralChar _ c p => Span.fromPosLen p c.utf8Size
  | .litStartsWithUnderscore _ p => Span.asciiChar p
  | .litEndsWithUnderscore _ p => Span.asciiChar p
  | .consecutiveUnderscoresInLiteral s => s
  | .missingNumDigitsAfterSign _ p => Span.ofPos p
  | .invalidLeadingZero p => Span.asciiChar p
  | .expectedRadixOrDateTime c p => Span.fromPosLen p c.utf8Size
  | .unexpectedCharSignedLeadingZeroNum c p => Span.fromPosLen p c.utf8Size
  | .uppercaseBareLitChar c _ p => Span.fromPosLen p c.utf8Size
  | .unexpectedBareLitChar c _ p => Span.fromPosLen p c.utf8Size
  | .bareLitTrailingChars _ _ s => s
  | .bareLitMissingChars _ p => Span.ofPos p
  | .missingFloatFractionalPart p => Span.ofPos p
  | .floatLiteralOverflow s => s
  | .emptyPrefixedIntValue p => Span.ofPos p
  | .prefixedIntSignNotAllowed p => Span.asciiChar p
  | .uppercaseIntRadix _ p => Span.asciiChar p
  | .prefixedIntValueStartsWithUnderscore p => Span.asciiChar p
  | .prefixedIntValueEndsWithUnderscore p => Span.asciiChar p
  | .intDigitTooBig _ c p => Span.fromPosLen p c.utf8Size
  | .intLiteralOverflow s => s
  | .unexpectedCharInDateTime c p => Span.fromPosLen p c.utf8Size
  | .dateTimeExpectedCharFound _ _ found p => Span.fromPosLen p found.utf8Size
  | .dateTimeMissingChar _ _ p => Span.ofPos p
  | .dateTimeIncomplete _ p => Span.ofPos p
  | .dateTimeMissing _ p => Span.ofPos p
  | .dateTimeOutOfBounds _ _ _ _ s => s
  | .dateTimeMissingSubsec p => Span.ofPos p
  | .localDateTimeOffset p => Span.asciiChar p
  | .dateAndTimeTooFarApart s => s
  | .duplicateKey _ _ _ d => d
  | .cannotExtendInlineTable _ _ _ n => n
  | .cannotExtendInlineArray _ _ _ n => n
  | .cannotExtendInlineArrayAsTable _ _ _ n => n
  | .cannotExtendTableWithDottedKey _ _ _ n => n
  | .cannotExtendArrayWithDottedKey _ _ _ n => n

end Verif.Toml
