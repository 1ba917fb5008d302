import Verif.Toml.Num

/-!
# Model of the literal parser (crates/toml/src/parse/lit.rs)
-/

namespace Verif.Toml
open Verif

/-- `char::to_ascii_lowercase`. -/
def toAsciiLower (c : Char) : Char :=
  if 'A' ≤ c ∧ c ≤ 'Z' then Char.ofNat (c.toNat + 32) else c

/-- The loop of `parse_bare_literal` (crates/toml/src/parse/lit.rs:145-164); `e` are the expected
characters that are left. -/
def bareLoop (span : Span) (expected : Str) : Nat → Str → Str → Res Error Unit
  | _, [], [] => .ok ()
  | _, [], _ :: _ => .err (.bareLitMissingChars expected span.stop)
  | i, c :: cs, [] => .err (.bareLitTrailingChars (c :: cs) expected ⟨span.start.plus i, span.stop⟩)
  | i, c :: cs, e :: es =>
    if c = e then bareLoop span expected (i + c.utf8Size) cs es
    else if toAsciiLower c = e then .err (.uppercaseBareLitChar c expected (span.start.plus i))
    else .err (.unexpectedBareLitChar c expected (span.start.plus i))

/-- `parse_bare_literal` (crates/toml/src/parse/lit.rs:130-167).  `first` is always an ASCII
character, for which `is_uppercase` is `A..=Z`. -/
def parseBareLiteral (cur : Cur) (span : Span) (i : Nat) (first : Char) (expected : Str) :
    Res Error Unit :=
  if 'A' ≤ first ∧ first ≤ 'Z' then
    .err (.uppercaseBareLitChar first expected (span.start.plus i))
  else bareLoop span expected cur.i cur.rest (expected.drop 1)

/-- Is `c` in `'1'..='9'`? -/
def isDigit19 (c : Char) : Bool := '1' ≤ c && c ≤ '9'

/-- The case of a sign in `parse_literal` (crates/toml/src/parse/lit.rs:66-103).  As in the code,
`parse_bare_literal` is handed the sign character `c` as `first`, not the letter. -/
def parseSigned (ovf : Bool) (lit : Str) (span : Span) (c : Char) (sign : Sign) (cur : Cur) :
    Res Error PartialValue :=
  match cur with
  | ⟨_, []⟩ => .err (.missingNumDigitsAfterSign sign span.stop)
  | ⟨i, d :: ds⟩ =>
    let cur := Cur.adv i d ds
    if d = '0' then parsePrefixedIntFloatOrDate ovf cur lit span (some sign)
    else if isDigit19 d then
      parseDecimalIntFloatOrDate ovf cur lit span (digitVal d) (some sign)
    else if d = 'i' ∨ d = 'I' then do
      parseBareLiteral cur span i c "inf".toList
      pure (.float (.inf (sign = .negative)))
    else if d = 'n' ∨ d = 'N' then do
      parseBareLiteral cur span i c "nan".toList
      pure (.float (.nan (sign = .negative)))
    else if d = '.' then .err (.missingNumDigitsAfterSign sign (span.start.plus i))
    else .err (.unexpectedLiteralChar .intOrFloat d (span.start.plus i))

/-- `parse_literal` (crates/toml/src/parse/lit.rs:58-128). -/
def parseLiteral (ovf : Bool) (lit : Str) (span : Span) : Res Error PartialValue :=
  match lit with
  | [] => .panic
  | c :: cs =>
    let cur := Cur.adv 0 c cs
    if c = '+' then parseSigned ovf lit span c .positive cur
    else if c = '-' then parseSigned ovf lit span c .negative cur
    else if c = '0' then parsePrefixedIntFloatOrDate ovf cur lit span none
    else if isDigit19 c then parseDecimalIntFloatOrDate ovf cur lit span (digitVal c) none
    else if c = 'f' ∨ c = 'F' then do
      parseBareLiteral cur span 0 c "false".toList
      pure (.bool false)
    else if c = 't' ∨ c = 'T' then do
      parseBareLiteral cur span 0 c "true".toList
      pure (.bool true)
    else if c = 'i' ∨ c = 'I' then do
      parseBareLiteral cur span 0 c "inf".toList
      pure (.float (.inf false))
    else if c = 'n' ∨ c = 'N' then do
      parseBareLiteral cur span 0 c "nan".toList
      pure (.float (.nan false))
    else if c = '_' then .err (.litStartsWithUnderscore .generic span.start)
    else .err (.unexpectedLiteralStart c span.start)

end Verif.Toml
