import Verif.Diag.Model
import Verif.Toml.Parse

/-!
# The texts of the diagnostics of the TOML crate (crates/toml/src/error.rs)

The texts are written with `write!`; `{x}` of a `FmtChar` or `FmtStr` is `Diag.fmtChar` or `Diag.fmtStr`.
-/

namespace Verif.Toml
open Verif

/-- `<Quote as Display>::fmt` (crates/toml/src/lex.rs:141-150). -/
def Quote.text : Quote → Str
  | .basic => "\"".toList
  | .basicMultiline => "\"\"\"".toList
  | .literal => "'".toList
  | .literalMultiline => "'''".toList

/-- `Quote::singleline` (crates/toml/src/lex.rs:183-188). -/
def Quote.singleline : Quote → Quote
  | .basic => .basic
  | .basicMultiline => .basic
  | .literal => .literal
  | .literalMultiline => .literal

/-- `Quote::kind_str` (crates/toml/src/lex.rs:197-204). -/
def Quote.kindStr : Quote → Str
  | .basic => "basic".toList
  | .basicMultiline => "multi-line basic".toList
  | .literal => "literal".toList
  | .literalMultiline => "multi-line literal".toList

/-- `LitPart::to_str` (crates/toml/src/parse/lit.rs:36-50). -/
def LitPart.text : LitPart → Str
  | .generic => "literal".toList
  | .intOrFloat => "integer or float".toList
  | .int => "integer".toList
  | .prefixedInt .binary => "binary integer".toList
  | .prefixedInt .octal => "octal integer".toList
  | .prefixedInt .hexadecimal => "hexadecimal integer".toList
  | .floatIntegral => "float integral".toList
  | .floatFract => "float fractional part".toList
  | .floatExp => "float exponent".toList

/-- `DateTimeField::to_str` (crates/toml/src/datetime.rs:71-84). -/
def DateTimeField.text : DateTimeField → Str
  | .year => "year".toList
  | .month => "month".toList
  | .day => "day".toList
  | .hour => "hour".toList
  | .minute => "minute".toList
  | .second => "second".toList
  | .offsetHour => "offset-hour".toList
  | .offsetMinute => "offset-minute".toList

/-- `<Sign as Display>::fmt` (crates/toml/src/parse/num.rs:14-23). -/
def Sign.text : Sign → Str
  | .positive => ['+']
  | .negative => ['-']

/-- `{cp:0width$x}`: hexadecimal, filled with zeros up to the width
(crates/toml/src/error.rs:208). -/
def hexPadded (width cp : Nat) : Str :=
  List.replicate (width - (Nat.toDigits 16 cp).length) '0' ++ Nat.toDigits 16 cp

/-- `'a'..='f' | 'A'..='F'` (crates/toml/src/error.rs:233). -/
def isHexLetter (c : Char) : Bool := ('a' ≤ c && c ≤ 'f') || ('A' ≤ c && c ≤ 'F')

/-- `<Error as Diagnostic>::description` (crates/toml/src/error.rs:197-296). -/
def Error.description : Error → Str
  | .missingQuote q _ =>
    "unterminated ".toList ++ q.kindStr ++ " string, missing `".toList ++ q.text ++ "`".toList
  | .excessiveQuotes q _ =>
    "excess quotes, only up to two consecutive quotes (`".toList ++ q.singleline.text ++
      "`) are allowed inside a multi-line string".toList
  | .invalidStringChar c _ => "invalid character `".toList ++ Diag.fmtChar c ++ "`in string".toList
  | .invalidEscapeChar c _ =>
    "invalid escape character `".toList ++ Diag.fmtChar c ++
      "`, expected one of: `u`, `U`, `b`, `t`, `n`, `f`, `r`, `\"`, `\\`".toList
  | .invalidUnicodeEscapeChar c _ =>
    "invalid character `".toList ++ Diag.fmtChar c ++
      "` in unicode escape sequence, valid characters are: `a-f`, `A-F` and `0-9`".toList
  | .invalidUnicodeCodepoint n cp _ =>
    "invalid unicode scalar `0x".toList ++ hexPadded n cp ++ "` (`".toList ++ Spec.decimal cp ++ "`)".toList
  | .invalidLineEndingEscape _ => "invalid line ending backslash, missing newline".toList
  | .unfinishedEscapeSequence _ => "unfinished escape sequence".toList
  | .invalidCharInIdentifier c _ =>
    "invalid character `".toList ++ Diag.fmtChar c ++
      "` in identifier, valid characters are: `a-z`, `A-Z`, `0-9`, `_` and `-`".toList
  | .multilineBasicStringIdent _ => "multi-line strings cannot be used as keys".toList
  | .multilineLiteralStringIdent _ => "multi-line strings cannot be used as keys".toList
  | .invalidCommentChar c _ => "invalid character `".toList ++ Diag.fmtChar c ++ "` in comment".toList
  | .recursionLimitExceeded _ =>
    "recursion limit of ".toList ++ Spec.decimal RECURSION_LIMIT ++ " exceeded".toList
  | .expectedEqOrDotFound f _ => "expected `=` or `.`, found ".toList ++ Diag.fmtStr f
  | .expectedRightCurlyFound f _ _ => "expected `}`, found ".toList ++ Diag.fmtStr f
  | .expectedRightSquareFound f _ _ => "expected `]`, found ".toList ++ Diag.fmtStr f
  | .expectedDotOrRightSquareFound f _ _ => "expected `.` or `]`, found ".toList ++ Diag.fmtStr f
  | .expectedKeyFound f _ => "expected a key, found ".toList ++ Diag.fmtStr f
  | .expectedValueFound f _ => "expected a value, found ".toList ++ Diag.fmtStr f
  | .missingComma _ => "missing comma (`,`)".toList
  | .expectedNewlineFound f _ => "expected a line break, found ".toList ++ Diag.fmtStr f
  | .missingNewline _ => "missing line break".toList
  | .inlineTableTrailingComma _ => "trailing commas aren't permitted in inline tables".toList
  | .spaceBetweenArrayPars _ => "no space allowed between array header brackets".toList
  | .unexpectedLiteralStart c _ =>
    "unexpected character `".toList ++ Diag.fmtChar c ++ "` at start of literal".toList
  | .unexpectedLiteralChar l c _ =>
    "unexpected character `".toList ++ Diag.fmtChar c ++ "` in ".toList ++ l.text ++
      (if l = .intOrFloat ∧ isHexLetter c then ", hexadecimal integers need to be prefixed by `0x`".toList else [])
  | .litStartsWithUnderscore l _ => l.text ++ " cannot start with `_`".toList
  | .litEndsWithUnderscore l _ => l.text ++ " cannot end with `_`".toList
  | .consecutiveUnderscoresInLiteral _ =>
    "consecutive underscores (`_`) are not allowed in number literals".toList
  | .missingNumDigitsAfterSign g _ =>
    "missing digit after sign `".toList ++ g.text ++ "`, expected at least one".toList
  | .invalidLeadingZero _ => "invalid leading `0` in number".toList
  | .expectedRadixOrDateTime c _ =>
    "unexpected character `".toList ++ Diag.fmtChar c ++
      "`, expected integer radix `b`, `o`, `x` or date-time".toList
  | .unexpectedCharSignedLeadingZeroNum c _ =>
    "unexpected character `".toList ++ Diag.fmtChar c ++ "`".toList
  | .uppercaseBareLitChar c expected _ =>
    "uppercase character `".toList ++ Diag.fmtChar c ++ "` in literal, expected `".toList ++
      expected ++ "`".toList
  | .unexpectedBareLitChar c expected _ =>
    "unexpected character `".toList ++ Diag.fmtChar c ++ "` in literal, expected `".toList ++
      expected ++ "`".toList
  | .bareLitTrailingChars f expected _ =>
    "trailing characters `".toList ++ Diag.fmtStr f ++ "` in literal, expected `".toList ++ expected ++
      "`".toList
  | .bareLitMissingChars expected _ =>
    "missing characters in literal, expected `".toList ++ expected ++ "`".toList
  | .missingFloatFractionalPart _ =>
    "missing fractional part of float literal, expected at least one digit".toList
  | .floatLiteralOverflow _ => "float literal overflow, number doesn't fit into a 64-bit IEEE float".toList
  | .emptyPrefixedIntValue _ => "missing integer digits, expected at least one".toList
  | .prefixedIntSignNotAllowed _ =>
    "signs are not permitted for binary, octal, and hexadecimal integers".toList
  | .uppercaseIntRadix .binary _ =>
    "found uppercase binary int prefix `B`, only lowercase `b` is permitted".toList
  | .uppercaseIntRadix .octal _ =>
    "found uppercase octal int prefix `O`, only lowercase `o` is permitted".toList
  | .uppercaseIntRadix .hexadecimal _ =>
    "found uppercase hexadecimal int prefix `X`, only lowercase `x` is permitted".toList
  | .prefixedIntValueStartsWithUnderscore _ => "integer literal cannot start with `_`".toList
  | .prefixedIntValueEndsWithUnderscore _ => "integer literal cannot end with `_`".toList
  | .intDigitTooBig .binary c _ =>
    "binary digit `".toList ++ Diag.fmtChar c ++ "` out of range, valid digits are `0` and `1`".toList
  | .intDigitTooBig .octal c _ =>
    "octal digit `".toList ++ Diag.fmtChar c ++ "` out of range, valid digits are `0-7`".toList
  | .intDigitTooBig .hexadecimal c _ =>
    "hexadecimal digit `".toList ++ Diag.fmtChar c ++
      "` out of range, valid digits are `0-9`, `a-f`, and `A-F`".toList
  | .intLiteralOverflow _ =>
    "integer literal overflow, number doesn't fit into a 64-bit signed integer".toList
  | .unexpectedCharInDateTime c _ =>
    "unexpected character `".toList ++ Diag.fmtChar c ++ "` in date-time".toList
  | .dateTimeExpectedCharFound after expected found _ =>
    "unexpected character `".toList ++ Diag.fmtChar found ++ "` in date-time after ".toList ++
      after.text ++ ", expected `".toList ++ Diag.fmtChar expected ++ "`".toList
  | .dateTimeMissingChar f c _ =>
    "incomplete date-time, missing character `".toList ++ Diag.fmtChar c ++ "` after ".toList ++ f.text
  | .dateTimeIncomplete f _ => "incomplete date-time, ".toList ++ f.text ++ " is missing digits".toList
  | .dateTimeMissing f _ => "incomplete date-time, missing ".toList ++ f.text
  | .dateTimeOutOfBounds f n lo hi _ =>
    "date-time ".toList ++ f.text ++ " `".toList ++ Spec.decimal n ++
      "` out of range, the valid range is `".toList ++ Spec.decimal lo ++ "..=".toList ++
      Spec.decimal hi ++ "`".toList
  | .dateTimeMissingSubsec _ => "missing date-time fractional second, expected at least one digit".toList
  | .localDateTimeOffset _ =>
    "local-time doesn't permit an offset, see: https://toml.io/en/v1.0.0#local-time".toList
  | .dateAndTimeTooFarApart _ =>
    "date and time too far apart, they may only be separated by exactly one space".toList
  | .duplicateKey _ path _ _ => "duplicate key `".toList ++ Diag.fmtStr path ++ "`".toList
  | .cannotExtendInlineTable _ path _ _ =>
    "cannot extend inline table `".toList ++ Diag.fmtStr path ++ "`".toList
  | .cannotExtendInlineArray _ path _ _ =>
    "cannot extend inline array `".toList ++ Diag.fmtStr path ++ "`".toList
  | .cannotExtendInlineArrayAsTable _ path _ _ =>
    "cannot extend inline array `".toList ++ Diag.fmtStr path ++ "`, not a table".toList
  | .cannotExtendTableWithDottedKey _ path _ _ =>
    "cannot extend table `".toList ++ Diag.fmtStr path ++ "` with dotted key".toList
  | .cannotExtendArrayWithDottedKey _ path _ _ =>
    "cannot extend array `".toList ++ Diag.fmtStr path ++ "` with dotted key".toList

/-- `<Error as Diagnostic>::annotation` (crates/toml/src/error.rs:298-386). -/
def Error.annotation : Error → Str
  | .missingQuote _ _ => "unterminated string".toList
  | .excessiveQuotes _ _ => "excess quotes".toList
  | .invalidStringChar _ _ => "invalid character".toList
  | .invalidEscapeChar _ _ => "invalid escape character".toList
  | .invalidUnicodeEscapeChar _ _ => "invalid unicode escape character".toList
  | .invalidUnicodeCodepoint _ _ _ => "invalid unicode scalar".toList
  | .invalidLineEndingEscape _ => "invalid line ending backslash".toList
  | .unfinishedEscapeSequence _ => "unfinished escape sequence".toList
  | .invalidCharInIdentifier _ _ => "invalid character in identifier".toList
  | .multilineBasicStringIdent _ => "not a valid key".toList
  | .multilineLiteralStringIdent _ => "not a valid key".toList
  | .invalidCommentChar _ _ => "invalid character".toList
  | .recursionLimitExceeded _ =>
    "recursion limit of ".toList ++ Spec.decimal RECURSION_LIMIT ++ " exceeded".toList
  | .expectedEqOrDotFound _ _ => "expected `=` or `.`".toList
  | .expectedRightCurlyFound _ _ _ => "expected `}`".toList
  | .expectedRightSquareFound _ _ _ => "expected `]`".toList
  | .expectedDotOrRightSquareFound _ _ _ => "Expected `.` or `]`".toList
  | .expectedKeyFound _ _ => "expected a key".toList
  | .expectedValueFound _ _ => "expected a value".toList
  | .missingComma _ => "missing comma (`,`)".toList
  | .expectedNewlineFound _ _ => "expected a line break".toList
  | .missingNewline _ => "missing line break".toList
  | .inlineTableTrailingComma _ => "trailing comma".toList
  | .spaceBetweenArrayPars _ => "no space allowed".toList
  | .unexpectedLiteralStart _ _ => "Unexpected character".toList
  | .unexpectedLiteralChar l _ _ => "Unexpected character in ".toList ++ l.text
  | .litStartsWithUnderscore l _ => l.text ++ " cannot start with `_`".toList
  | .litEndsWithUnderscore l _ => l.text ++ " cannot end with `_`".toList
  | .consecutiveUnderscoresInLiteral _ => "consecutive underscores (`_`) not allowed".toList
  | .missingNumDigitsAfterSign _ _ => "missing digit after sign".toList
  | .invalidLeadingZero _ => "invalid leading `0`".toList
  | .expectedRadixOrDateTime _ _ => "unexpected character".toList
  | .unexpectedCharSignedLeadingZeroNum _ _ => "unexpected character".toList
  | .uppercaseBareLitChar _ _ _ => "uppercase character".toList
  | .unexpectedBareLitChar _ _ _ => "unexpected character".toList
  | .bareLitTrailingChars _ _ _ => "trailing characters".toList
  | .bareLitMissingChars _ _ => "missing characters".toList
  | .missingFloatFractionalPart _ => "missing fractional part of float literal".toList
  | .floatLiteralOverflow _ => "float literal overflow".toList
  | .emptyPrefixedIntValue _ => "missing integer digits".toList
  | .prefixedIntSignNotAllowed _ => "sign not allowed".toList
  | .uppercaseIntRadix _ _ => "uppercase radix".toList
  | .prefixedIntValueStartsWithUnderscore _ => "integer literal cannot start with `_`".toList
  | .prefixedIntValueEndsWithUnderscore _ => "integer literal cannot end with `_`".toList
  | .intDigitTooBig .binary _ _ => "binary digit out of range".toList
  | .intDigitTooBig .octal _ _ => "octal digit out of range".toList
  | .intDigitTooBig .hexadecimal _ _ => "hexadecimal digit  out of range".toList
  | .intLiteralOverflow _ => "integer literal overflow".toList
  | .unexpectedCharInDateTime _ _ => "unexpected character".toList
  | .dateTimeExpectedCharFound _ _ _ _ => "unexpected character".toList
  | .dateTimeMissingChar _ _ _ => "missing character".toList
  | .dateTimeIncomplete _ _ => "missing digits".toList
  | .dateTimeMissing f _ => "missing ".toList ++ f.text
  | .dateTimeOutOfBounds f _ _ _ _ => f.text ++ " out of range".toList
  | .dateTimeMissingSubsec _ => "missing date-time fractional second".toList
  | .localDateTimeOffset _ => "local-time doesn't permit an offset".toList
  | .dateAndTimeTooFarApart _ => "date and time too far apart".toList
  | .duplicateKey _ _ _ _ => "duplicate key".toList
  | .cannotExtendInlineTable _ _ _ _ => "cannot extend inline table".toList
  | .cannotExtendInlineArray _ _ _ _ => "cannot extend inline array".toList
  | .cannotExtendInlineArrayAsTable _ _ _ _ => "cannot extend inline array, not a table".toList
  | .cannotExtendTableWithDottedKey _ _ _ _ => "cannot extend table with dotted key".toList
  | .cannotExtendArrayWithDottedKey _ _ _ _ => "cannot extend array with dotted key".toList

/-- `<Error as Diagnostic>::hint` (crates/toml/src/error.rs:388-466) and
`<Hint as DiagnosticHint>` (crates/toml/src/error.rs:597-625). -/
def Error.hint : Error → Option Diag.Hint
  | .expectedRightCurlyFound _ p _ => some ⟨Span.asciiChar p, "left `{` defined here".toList⟩
  | .expectedRightSquareFound _ p _ => some ⟨Span.asciiChar p, "left `[` defined here".toList⟩
  | .expectedDotOrRightSquareFound _ p _ => some ⟨Span.asciiChar p, "left `[` defined here".toList⟩
  | .duplicateKey _ _ orig _ => some ⟨orig, "original key defined here".toList⟩
  | .cannotExtendInlineTable _ _ orig _ => some ⟨orig, "original table defined here".toList⟩
  | .cannotExtendInlineArray _ _ orig _ => some ⟨orig, "original array defined here".toList⟩
  | .cannotExtendInlineArrayAsTable _ _ orig _ => some ⟨orig, "original array defined here".toList⟩
  | .cannotExtendTableWithDottedKey _ _ orig _ => some ⟨orig, "original array defined here".toList⟩
  | .cannotExtendArrayWithDottedKey _ _ orig _ => some ⟨orig, "original array defined here".toList⟩
  | _ => none

/-- `<Error as Diagnostic>::context_lines` (crates/toml/src/error.rs:468-540). -/
def Error.contextLines : Error → List Nat
  | .duplicateKey ls _ _ _ => ls
  | .cannotExtendInlineTable ls _ _ _ => ls
  | .cannotExtendInlineArray ls _ _ _ => ls
  | .cannotExtendInlineArrayAsTable ls _ _ _ => ls
  | .cannotExtendTableWithDottedKey ls _ _ _ => ls
  | .cannotExtendArrayWithDottedKey ls _ _ _ => ls
  | _ => []

/-- `impl Diagnostic for Error` (crates/toml/src/error.rs:116-541). -/
def Error.diagnostic (e : Error) : Diag.Diagnostic :=
  ⟨.error, e.span, e.description, e.annotation, e.hint, e.contextLines⟩

end Verif.Toml
