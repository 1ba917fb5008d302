import Verif.Toml.DateTime

/-!
# Model of the number literal parser (crates/toml/src/parse/num.rs)

`i64` values are `Int`s kept in range by the operations; `ovf` says whether the build has overflow
checks.  Byte positions are `Nat` (documents shorter than 4 GiB); the subtractions on positions are
checked.
-/

namespace Verif.Toml
open Verif

/-- In the range of `i64`. -/
def inI64 (x : Int) : Bool := -(2 ^ 63) ≤ x && x < 2 ^ 63

/-- Two's complement truncation to 64 bits. -/
def wrapI64 (x : Int) : Int := (x + 2 ^ 63) % 2 ^ 64 - 2 ^ 63

/-- `i64` addition `a + b`: with overflow checks it panics, without them it wraps. -/
def addI64 (ovf : Bool) (a b : Int) : Res Error Int :=
  if inI64 (a + b) then .ok (a + b) else if ovf then .panic else .ok (wrapI64 (a + b))

/-- `i64 as u8` / `i64 as u16`. -/
def truncU (bits : Nat) (x : Int) : Nat := (x % 2 ^ bits).toNat

/-- `Pos::minus` (crates/common/src/lib.rs:175-181) on `u32`: with overflow checks it panics on
underflow, without them it wraps. -/
def posMinus (ovf : Bool) (p : Pos) (n : Nat) : Res Error Pos :=
  if n ≤ p.char then .ok (p.minus n) else if ovf then .panic else .ok ⟨p.line, p.char + 2 ^ 32 - n⟩

/-- The number of leading underscores. -/
def leadingUnderscores : Str → Nat
  | [] => 0
  | c :: cs => if c = '_' then leadingUnderscores cs + 1 else 0

/-- `consecutive_underscore_error` (crates/toml/src/parse/num.rs:419-429). -/
def consecutiveUnderscoreError {α : Type} (rest : Str) (start : Pos) : Res Error α :=
  .err (.consecutiveUnderscoresInLiteral
    ⟨start, ⟨start.line, start.char + 2 + leadingUnderscores rest⟩⟩)

/-! ### `str::parse::<f64>` -/

/-- Strip a maximal prefix of decimal digits. -/
def spanDigits (s : Str) : Str × Str := (s.takeWhile isDigit, s.dropWhile isDigit)

/-- The exponent of the grammar documented for `f64::from_str`: nothing, or `e`/`E`, an optional
sign and at least one digit up to the end. -/
def stdExpOk : Str → Bool
  | [] => true
  | c :: cs =>
    if c = 'e' || c = 'E' then
      let ds := match cs with
        | d :: ds => if d = '+' || d = '-' then ds else d :: ds
        | [] => []
      !ds.isEmpty && ds.all isDigit
    else false

/-- `Number` of the grammar documented for `f64::from_str`. -/
def stdNumberOk (s : Str) : Bool :=
  let (int, s) := spanDigits s
  match s with
  | '.' :: s =>
    let (frac, s) := spanDigits s
    (!int.isEmpty || !frac.isEmpty) && stdExpOk s
  | s => !int.isEmpty && stdExpOk s

/-- Whether `str::parse::<f64>` succeeds, by the grammar in the documentation of `f64::from_str`
(standard library, trusted).  The special values `inf`, `infinity`, `nan` are left out: the code
never calls it on a text that does not begin with an optional sign and a digit. -/
def stdF64Ok (s : Str) : Bool :=
  match s with
  | '+' :: s => stdNumberOk s
  | '-' :: s => stdNumberOk s
  | s => stdNumberOk s

/-- `parse_float` (crates/toml/src/parse/num.rs:413-417). -/
def parseFloat (lit : Str) (span : Span) : Res Error FloatVal :=
  let t := lit.filter (· != '_')
  if stdF64Ok t then .ok (.parsed t) else .err (.floatLiteralOverflow span)

/-- The loop of `validate_float_exponent` (crates/toml/src/parse/num.rs:324-355), after the sign;
`first` is `j == 0`. -/
def floatExpLoop (ovf : Bool) (lit : Str) (span : Span) :
    Nat → Str → Bool → Bool → Res Error FloatVal
  | _, [], _, last => do
    if last then
      let pos ← posMinus ovf span.stop 1
      .err (.litEndsWithUnderscore .floatExp pos)
    else parseFloat lit span
  | i, c :: cs, first, last =>
    if isDigit c then floatExpLoop ovf lit span (i + c.utf8Size) cs false false
    else if c = '_' then
      if first then .err (.litStartsWithUnderscore .floatExp (span.start.plus i))
      else if last then consecutiveUnderscoreError cs (span.start.plus (i - 1))
      else floatExpLoop ovf lit span (i + c.utf8Size) cs false true
    else .err (.unexpectedLiteralChar .floatExp c (span.start.plus i))

/-- `validate_float_exponent` (crates/toml/src/parse/num.rs:319-356). -/
def validateFloatExponent (ovf : Bool) (cur : Cur) (lit : Str) (span : Span) :
    Res Error FloatVal :=
  match cur with
  | ⟨i, c :: cs⟩ =>
    if c = '-' ∨ c = '+' then floatExpLoop ovf lit span (i + c.utf8Size) cs true false
    else floatExpLoop ovf lit span i (c :: cs) true false
  | ⟨i, []⟩ => floatExpLoop ovf lit span i [] true false

/-- The loop of `validate_float_fractional_part` (crates/toml/src/parse/num.rs:368-410). -/
def floatFractLoop (ovf : Bool) (lit : Str) (span : Span) (start : Nat) :
    Nat → Str → Bool → Res Error FloatVal
  | _, [], last => do
    if last then
      let pos ← posMinus ovf span.stop 1
      .err (.litEndsWithUnderscore .floatFract pos)
    else parseFloat lit span
  | i, c :: cs, last =>
    if isDigit c then floatFractLoop ovf lit span start (i + c.utf8Size) cs false
    else if c = 'e' ∨ c = 'E' then
      if i = start then .err (.missingFloatFractionalPart (span.start.plus i))
      else if last then .err (.litEndsWithUnderscore .floatFract (span.start.plus (i - 1)))
      else validateFloatExponent ovf (Cur.adv i c cs) lit span
    else if c = '_' then
      if i = start then .err (.litStartsWithUnderscore .floatFract (span.start.plus i))
      else if last then consecutiveUnderscoreError cs (span.start.plus (i - 1))
      else floatFractLoop ovf lit span start (i + c.utf8Size) cs true
    else .err (.unexpectedLiteralChar .floatFract c (span.start.plus i))

/-- `validate_float_fractional_part` (crates/toml/src/parse/num.rs:358-411). -/
def validateFloatFractionalPart (ovf : Bool) (cur : Cur) (lit : Str) (span : Span) (start : Nat) :
    Res Error FloatVal :=
  match cur.rest with
  | [] => .err (.missingFloatFractionalPart span.stop)
  | _ :: _ => floatFractLoop ovf lit span start cur.i cur.rest false

/-- The digit of `parse_prefixed_int_literal` (crates/toml/src/parse/num.rs:254-278): its value, if
the character is in `0-9a-fA-F`. -/
def hexDigitVal (c : Char) : Option Nat :=
  if isDigit c then some (c.toNat - '0'.toNat)
  else if 'a' ≤ c ∧ c ≤ 'f' then some (10 + c.toNat - 'a'.toNat)
  else if 'A' ≤ c ∧ c ≤ 'F' then some (10 + (c.toNat - 'A'.toNat))
  else none

/-- `'g'..='z' | 'G'..='Z'`. -/
def isBigHexLetter (c : Char) : Bool := ('g' ≤ c && c ≤ 'z') || ('G' ≤ c && c ≤ 'Z')

/-- The loop of `parse_prefixed_int_literal` (crates/toml/src/parse/num.rs:245-316); `first` is
`j == 0`.  `accum.overflowing_shl(bits)` reports an overflow only if `bits >= 64`, which never is
the case, and shifts out high bits silently. -/
def prefixedIntLoop (ovf : Bool) (span : Span) (pre : IntPrefix) :
    Nat → Str → Bool → Int → Bool → Res Error Int
  | _, [], first, accum, last => do
    if first then .err (.emptyPrefixedIntValue span.stop)
    else if last then
      let pos ← posMinus ovf span.stop 1
      .err (.prefixedIntValueEndsWithUnderscore pos)
    else .ok accum
  | i, c :: cs, first, accum, last =>
    match hexDigitVal c with
    | some n =>
      if 2 ^ pre.bits ≤ n then .err (.intDigitTooBig pre c (span.start.plus i))
      else if 64 ≤ pre.bits then .err (.intLiteralOverflow span)
      else
        match addI64 ovf (wrapI64 (accum * 2 ^ pre.bits)) n with
        | .ok accum => prefixedIntLoop ovf span pre (i + c.utf8Size) cs false accum false
        | .err e => .err e
        | .panic => .panic
    | none =>
      if isBigHexLetter c ∧ pre = .hexadecimal then .err (.intDigitTooBig pre c (span.start.plus i))
      else if c = '_' then
        if first then .err (.prefixedIntValueStartsWithUnderscore (span.start.plus i))
        else if last then consecutiveUnderscoreError cs (span.start.plus (i - 1))
        else prefixedIntLoop ovf span pre (i + c.utf8Size) cs false accum true
      else .err (.unexpectedLiteralChar (.prefixedInt pre) c (span.start.plus i))

/-- `parse_prefixed_int_literal` (crates/toml/src/parse/num.rs:236-317). -/
def parsePrefixedIntLiteral (ovf : Bool) (cur : Cur) (span : Span) (pre : IntPrefix) :
    Res Error Int :=
  prefixedIntLoop ovf span pre cur.i cur.rest true 0 false

/-- `i64::checked_mul(10)` then `checked_add(sign * digit)`
(crates/toml/src/parse/num.rs:75-77). -/
def pushDigit (accum sign : Int) (digit : Nat) : Option Int :=
  if inI64 (accum * 10) then
    if inI64 (accum * 10 + sign * digit) then some (accum * 10 + sign * digit) else none
  else none

/-- A function returning `Result<PartialValue, Error>` whose error is turned into
`Ok(PartialValue::InvalidDateTime(e))` (crates/toml/src/parse/num.rs:112-116 and 216-219). -/
def orInvalidDateTime : Res Error PartialValue → Res Error PartialValue
  | .ok v => .ok v
  | .err e => .ok (.invalidDateTime e)
  | .panic => .panic

/-- The loop of `parse_decimal_int_float_or_date` (crates/toml/src/parse/num.rs:62-175).  The state
is the accumulator, `parse_state == OverflowOrFloat` and `last_underscore`.
`lit.as_bytes()[4]` in the error case is modelled by the character with index 4: all characters
before are ASCII. -/
def decimalLoop (ovf : Bool) (lit : Str) (span : Span) (signChar : Option Sign) :
    Nat → Str → Int → Bool → Bool → Res Error PartialValue
  | _, [], accum, over, last => do
    if last then
      let pos ← posMinus ovf span.stop 1
      .err (.litEndsWithUnderscore .int pos)
    else if over then .err (.intLiteralOverflow span)
    else pure (.int accum)
  | i, c :: cs, accum, over, last =>
    let sign := signChar.elim 1 Sign.val
    if isDigit c then
      if over then decimalLoop ovf lit span signChar (i + c.utf8Size) cs accum over false
      else match pushDigit accum sign (digitVal c) with
        | some v => decimalLoop ovf lit span signChar (i + c.utf8Size) cs v false false
        | none => decimalLoop ovf lit span signChar (i + c.utf8Size) cs accum true false
    else if c = '.' then
      if last then do
        let pos ← posMinus ovf (span.start.plus i) 1
        .err (.litEndsWithUnderscore .floatIntegral pos)
      else do
        let v ← validateFloatFractionalPart ovf (Cur.adv i c cs) lit span (i + 1)
        pure (.float v)
    else if c = 'e' ∨ c = 'E' then
      if last then do
        let pos ← posMinus ovf (span.start.plus i) 1
        .err (.litEndsWithUnderscore .floatIntegral pos)
      else do
        let v ← validateFloatExponent ovf (Cur.adv i c cs) lit span
        pure (.float v)
    else if c = ':' ∧ signChar = none ∧ i = 2 then do
      let time ← continueParsingLocalTime (Cur.adv i c cs) span (truncU 8 accum)
      pure (.dateTime (.localTime time))
    else if c = '-' ∧ signChar = none ∧ i = 4 then
      orInvalidDateTime
        (continueParsingDateTimeAfterYear (Cur.adv i c cs) span (truncU 16 accum))
    else if c = ':' ∧ signChar = none ∧ i ≤ 3 then
      .err (.dateTimeIncomplete .hour (span.start.plus i))
    else if c = '-' ∧ signChar = none ∧ i ≤ 6 then
      if i ≤ 3 then pure (.invalidDateTime (.dateTimeIncomplete .year (span.start.plus i)))
      else match lit[4]? with
        | some f => pure (.invalidDateTime
            (.dateTimeExpectedCharFound .year '-' f (span.start.plus 4)))
        | none => .panic
    else if c = '_' then
      if last then consecutiveUnderscoreError cs (span.start.plus (i - 1))
      else decimalLoop ovf lit span signChar (i + c.utf8Size) cs accum over true
    else .err (.unexpectedLiteralChar .intOrFloat c (span.start.plus i))

/-- `parse_decimal_int_float_or_date` (crates/toml/src/parse/num.rs:49-176). -/
def parseDecimalIntFloatOrDate (ovf : Bool) (cur : Cur) (lit : Str) (span : Span) (accum : Int)
    (signChar : Option Sign) : Res Error PartialValue :=
  decimalLoop ovf lit span signChar cur.i cur.rest (accum * signChar.elim 1 Sign.val) false false

/-- The radix characters (crates/toml/src/parse/num.rs:188-198). -/
def radixOf (c : Char) : Option IntPrefix :=
  if c = 'b' ∨ c = 'B' then some .binary
  else if c = 'o' ∨ c = 'O' then some .octal
  else if c = 'x' ∨ c = 'X' then some .hexadecimal
  else none

/-- `parse_prefixed_int_float_or_date` (crates/toml/src/parse/num.rs:178-234). -/
def parsePrefixedIntFloatOrDate (ovf : Bool) (cur : Cur) (lit : Str) (span : Span)
    (signChar : Option Sign) : Res Error PartialValue :=
  match cur with
  | ⟨_, []⟩ => pure (.int 0)
  | ⟨i, c :: cs⟩ =>
    match radixOf c with
    | some pre =>
      if signChar.isSome then .err (.prefixedIntSignNotAllowed span.start)
      else if 'A' ≤ c ∧ c ≤ 'Z' then .err (.uppercaseIntRadix pre (span.start.plus i))
      else do
        let v ← parsePrefixedIntLiteral ovf (Cur.adv i c cs) span pre
        pure (.int v)
    | none =>
      if c = '.' then do
        let v ← validateFloatFractionalPart ovf (Cur.adv i c cs) lit span (i + 1)
        pure (.float v)
      else if c = 'e' ∨ c = 'E' then do
        let v ← validateFloatExponent ovf (Cur.adv i c cs) lit span
        pure (.float v)
      else if isDigit c ∧ signChar = none then
        orInvalidDateTime (continueParsingDateTime (Cur.adv i c cs) span (digitVal c))
      else if isDigit c ∨ c = '_' then
        .err (.invalidLeadingZero (span.start.plus (if signChar.isSome then 1 else 0)))
      else if signChar.isSome then
        .err (.unexpectedCharSignedLeadingZeroNum c (span.start.plus i))
      else .err (.expectedRadixOrDateTime c (span.start.plus i))

end Verif.Toml
