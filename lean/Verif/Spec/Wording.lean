import Verif.Spec.LexTruth
import Verif.Spec.SemverTruth
import Verif.Ide.ErrorText

/-!
# Specification: what the text of a message has to show

A character or a text of the document is shown the way of C67: `Diag.fmtChar` and `Diag.fmtStr` leave everything printable as it is.
-/

namespace Verif.Spec.Wording
open Verif Verif.Toml

/-- The text stands in the message between backticks. -/
def Quoted (msg x : Str) : Prop := ∃ a b, msg = a ++ '`' :: (x ++ '`' :: b)

/-- The text stands in the message. -/
def Says (msg x : Str) : Prop := ∃ a b, msg = a ++ x ++ b

/-- The quotes at both ends of a string. -/
def delimiter : Quote → Str
  | .basic => ['"']
  | .basicMultiline => ['"', '"', '"']
  | .literal => ['\'']
  | .literalMultiline => ['\'', '\'', '\'']

/-- What a message about a document quotes: the character or the text that is there, the one that should be there, the delimiter that is missing, a
number and its bounds, the key. -/
def quotes : Error → List Str
  | .missingQuote q _ => [delimiter q]
  | .excessiveQuotes q _ => [[Spec.Toml.quoteChar q]]
  | .invalidStringChar c _ => [Diag.fmtChar c]
  | .invalidEscapeChar c _ => [Diag.fmtChar c]
  | .invalidUnicodeEscapeChar c _ => [Diag.fmtChar c]
  | .invalidUnicodeCodepoint _ cp _ => [Spec.decimal cp]
  | .invalidCharInIdentifier c _ => [Diag.fmtChar c]
  | .invalidCommentChar c _ => [Diag.fmtChar c]
  | .expectedEqOrDotFound _ _ => [['='], ['.']]
  | .expectedRightCurlyFound _ _ _ => [['}']]
  | .expectedRightSquareFound _ _ _ => [[']']]
  | .expectedDotOrRightSquareFound _ _ _ => [['.'], [']']]
  | .missingComma _ => [[',']]
  | .unexpectedLiteralStart c _ => [Diag.fmtChar c]
  | .unexpectedLiteralChar _ c _ => [Diag.fmtChar c]
  | .litStartsWithUnderscore _ _ => [['_']]
  | .litEndsWithUnderscore _ _ => [['_']]
  | .consecutiveUnderscoresInLiteral _ => [['_']]
  | .missingNumDigitsAfterSign .positive _ => [['+']]
  | .missingNumDigitsAfterSign .negative _ => [['-']]
  | .invalidLeadingZero _ => [['0']]
  | .expectedRadixOrDateTime c _ => [Diag.fmtChar c, ['b'], ['o'], ['x']]
  | .unexpectedCharSignedLeadingZeroNum c _ => [Diag.fmtChar c]
  | .uppercaseBareLitChar c expected _ => [Diag.fmtChar c, expected]
  | .unexpectedBareLitChar c expected _ => [Diag.fmtChar c, expected]
  | .bareLitTrailingChars found expected _ => [Diag.fmtStr found, expected]
  | .bareLitMissingChars expected _ => [expected]
  | .uppercaseIntRadix .binary _ => [['B'], ['b']]
  | .uppercaseIntRadix .octal _ => [['O'], ['o']]
  | .uppercaseIntRadix .hexadecimal _ => [['X'], ['x']]
  | .prefixedIntValueStartsWithUnderscore _ => [['_']]
  | .prefixedIntValueEndsWithUnderscore _ => [['_']]
  | .intDigitTooBig .binary c _ => [Diag.fmtChar c, ['0'], ['1']]
  | .intDigitTooBig .octal c _ => [Diag.fmtChar c, ['0', '-', '7']]
  | .intDigitTooBig .hexadecimal c _ => [Diag.fmtChar c, ['0', '-', '9'], ['a', '-', 'f'], ['A', '-', 'F']]
  | .unexpectedCharInDateTime c _ => [Diag.fmtChar c]
  | .dateTimeExpectedCharFound _ expected found _ => [Diag.fmtChar found, Diag.fmtChar expected]
  | .dateTimeMissingChar _ c _ => [Diag.fmtChar c]
  | .dateTimeOutOfBounds _ n lo hi _ => [Spec.decimal n, Spec.decimal lo ++ ['.', '.', '='] ++ Spec.decimal hi]
  | .duplicateKey _ path _ _ => [Diag.fmtStr path]
  | .cannotExtendInlineTable _ path _ _ => [Diag.fmtStr path]
  | .cannotExtendInlineArray _ path _ _ => [Diag.fmtStr path]
  | .cannotExtendInlineArrayAsTable _ path _ _ => [Diag.fmtStr path]
  | .cannotExtendTableWithDottedKey _ path _ _ => [Diag.fmtStr path]
  | .cannotExtendArrayWithDottedKey _ path _ _ => [Diag.fmtStr path]
  | _ => []

/-- The token that was found in place of the expected ones. -/
def foundToken : Error → Option Str
  | .expectedEqOrDotFound f _ => some f
  | .expectedRightCurlyFound f _ _ => some f
  | .expectedRightSquareFound f _ _ => some f
  | .expectedDotOrRightSquareFound f _ _ => some f
  | .expectedKeyFound f _ => some f
  | .expectedValueFound f _ => some f
  | .expectedNewlineFound f _ => some f
  | _ => none

/-- The name of a kind of string. -/
def stringKind : Quote → Str
  | .basic => "basic string".toList
  | .basicMultiline => "multi-line basic string".toList
  | .literal => "literal string".toList
  | .literalMultiline => "multi-line literal string".toList

/-- The name of a part of a date-time. -/
def fieldName : DateTimeField → Str
  | .year => "year".toList
  | .month => "month".toList
  | .day => "day".toList
  | .hour => "hour".toList
  | .minute => "minute".toList
  | .second => "second".toList
  | .offsetHour => "offset-hour".toList
  | .offsetMinute => "offset-minute".toList

/-- The name of a kind of number. -/
def numberName : LitPart → Str
  | .generic => "literal".toList
  | .intOrFloat => "integer or float".toList
  | .int => "integer".toList
  | .prefixedInt .binary => "binary".toList
  | .prefixedInt .octal => "octal".toList
  | .prefixedInt .hexadecimal => "hexadecimal".toList
  | .floatIntegral => "float integral".toList
  | .floatFract => "float fractional part".toList
  | .floatExp => "float exponent".toList

/-- What a message about a document names: the kind of string or number, the part of a date-time, what cannot be extended. -/
def names : Error → List Str
  | .missingQuote q _ => [stringKind q]
  | .excessiveQuotes _ _ => ["multi-line".toList]
  | .unexpectedLiteralChar l _ _ => [numberName l]
  | .litStartsWithUnderscore l _ => [numberName l, "start".toList]
  | .litEndsWithUnderscore l _ => [numberName l, "end".toList]
  | .uppercaseIntRadix .binary _ => ["binary".toList]
  | .uppercaseIntRadix .octal _ => ["octal".toList]
  | .uppercaseIntRadix .hexadecimal _ => ["hexadecimal".toList]
  | .intDigitTooBig .binary _ _ => ["binary".toList]
  | .intDigitTooBig .octal _ _ => ["octal".toList]
  | .intDigitTooBig .hexadecimal _ _ => ["hexadecimal".toList]
  | .prefixedIntValueStartsWithUnderscore _ => ["start".toList]
  | .prefixedIntValueEndsWithUnderscore _ => ["end".toList]
  | .floatLiteralOverflow _ => ["float".toList, "overflow".toList]
  | .intLiteralOverflow _ => ["integer".toList, "overflow".toList]
  | .dateTimeExpectedCharFound f _ _ _ => [fieldName f]
  | .dateTimeMissingChar f _ _ => [fieldName f]
  | .dateTimeIncomplete f _ => [fieldName f]
  | .dateTimeMissing f _ => [fieldName f]
  | .dateTimeOutOfBounds f _ _ _ _ => [fieldName f]
  | .duplicateKey _ _ _ _ => ["duplicate key".toList]
  | .cannotExtendInlineTable _ _ _ _ => ["inline table".toList]
  | .cannotExtendInlineArray _ _ _ _ => ["inline array".toList]
  | .cannotExtendInlineArrayAsTable _ _ _ _ => ["inline array".toList]
  | .cannotExtendTableWithDottedKey _ _ _ _ => ["table".toList]
  | .cannotExtendArrayWithDottedKey _ _ _ _ => ["array".toList]
  | _ => []

/-- What the hint of a message has to name: the bracket, or what was defined first. -/
def hintNames : Error → List Str
  | .expectedRightCurlyFound _ _ _ => ["`{`".toList]
  | .expectedRightSquareFound _ _ _ => ["`[`".toList]
  | .expectedDotOrRightSquareFound _ _ _ => ["`[`".toList]
  | .duplicateKey _ _ _ _ => ["key".toList]
  | .cannotExtendInlineTable _ _ _ _ => ["table".toList]
  | .cannotExtendInlineArray _ _ _ _ => ["array".toList]
  | .cannotExtendInlineArrayAsTable _ _ _ _ => ["array".toList]
  | .cannotExtendTableWithDottedKey _ _ _ _ => ["table".toList]
  | .cannotExtendArrayWithDottedKey _ _ _ _ => ["array".toList]
  | _ => []

/-- A letter that is a hexadecimal digit. -/
def HexLetter (c : Char) : Prop := c ∈ ['a', 'b', 'c', 'd', 'e', 'f', 'A', 'B', 'C', 'D', 'E', 'F']

/-! ## Versions and requirements -/

/-- What a message about a version quotes. -/
def semverQuotes : Semver.Error → List Str
  | .trailingCharacters s _ _ => [Diag.fmtStr s]
  | .invalidIntChar c _ _ => [Diag.fmtChar c]
  | .expectedDot c _ _ => [Diag.fmtChar c]
  | .invalidOp c _ => [Diag.fmtChar c, ['='], ['>'], ['>', '='], ['<'], ['<', '='], ['~'], ['^']]
  | .wildcardNotTheSoleComparator .star _ => [['*']]
  | .wildcardNotTheSoleComparator .lowerX _ => [['x']]
  | .wildcardNotTheSoleComparator .upperX _ => [['X']]
  | .unexpectedAfterWildcard c _ _ => [Diag.fmtChar c]
  | _ => []

/-- The name of a number of a version. -/
def numberField : Semver.NumField → Str
  | .major => "major".toList
  | .minor => "minor".toList
  | .patch => "patch".toList

/-- What a message about a version names: the number, or the limit. -/
def semverNames : Semver.Error → List Str
  | .missingField f _ => [numberField f]
  | .leadingZeroNum f _ => [numberField f]
  | .invalidIntChar _ f _ => [numberField f]
  | .intOverflow f _ _ => [numberField f]
  | .expectedDot _ f _ => [numberField f]
  | .missingDot f _ => [numberField f]
  | .unexpectedAfterWildcard _ f _ => [numberField f]
  | .excessiveComparators _ _ => ["32".toList]
  | _ => []

/-! ## Manifests -/

/-- The name of a type of values. -/
def typeName : Ide.Datatype → Str
  | .table => "table".toList
  | .array => "array".toList
  | .string => "string".toList
  | .int => "int".toList
  | .float => "float".toList
  | .bool => "bool".toList
  | .dateTime => "date-time".toList
  | .invalid => "invalid".toList

/-- What an error about a manifest quotes: the entry, and the keys in question. -/
def errorQuotes (path : Str) : Ide.ErrorKind → List Str
  | .wrongDatatype _ _ => [Diag.fmtStr path]
  | .unsupportedUnderscore old new => [old, new] ++ if path = [] then [] else [Diag.fmtStr path]
  | .depWrongDatatype _ => [Diag.fmtStr path]
  | .depWorkspaceIsFalse => [Diag.fmtStr path, "workspace".toList]
  | .ambigousDepSpecGitPath => [Diag.fmtStr path, "git".toList, "path".toList]
  | .ambigousDepSpecGitRegistry => [Diag.fmtStr path, "git".toList, "registry".toList]
  | .ambigousGitSpec => [Diag.fmtStr path, "branch".toList, "tag".toList, "rev".toList]
  | .missingDepSpec => [Diag.fmtStr path, "workspace".toList, "path".toList, "git".toList, "version".toList]
  | .depIgnoredGitKey key => [Diag.fmtStr path, key, "git".toList]

/-- What it says about types: the expected one and the one that is there. -/
def TypesSaid (msg : Str) : Ide.ErrorKind → Prop
  | .wrongDatatype expected found => ∃ a, msg = a ++ "to be of type ".toList ++ typeName expected ++ ", found ".toList ++ typeName found
  | .depWrongDatatype found => ∃ a, msg = a ++ "to be of type string or table, found ".toList ++ typeName found
  | _ => True

/-- What a warning about a manifest quotes. -/
def warningQuotes (path : Str) : Ide.WarningKind → List Str
  | .deprecatedUnderscore old new => [old, new] ++ if path = [] then [] else [Diag.fmtStr path]
  | .redundantDeprecatedUnderscore old new _ => [old, new] ++ if path = [] then [] else [Diag.fmtStr path]
  | .missingDepSpec => ["workspace".toList, "path".toList, "git".toList, "version".toList]
  | .workspaceDepIgnoredKey _ => [Diag.fmtStr path, "workspace".toList]
  | .ignoredUnknownKey => [Diag.fmtStr path]

end Verif.Spec.Wording
