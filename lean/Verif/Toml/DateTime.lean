import Verif.Toml.Types

/-!
# Model of the date-time literal parser (crates/toml/src/parse/datetime.rs)

The cursor `CharIter = Peekable<CharIndices>` (crates/toml/src/lex.rs:13) is `Cur`: the byte index
of the next character and the remaining text.  Functions taking `&mut CharIter` return the new
cursor.  `Result<_, Error>` is `Res Error _`; nothing in this file can panic: all arithmetic is on
two-digit numbers, so `u8`/`u16`/`u32`/`i16` are modelled by `Nat`/`Int`.
-/

namespace Verif.Toml
open Verif

/-- `CharIter` (crates/toml/src/lex.rs:13). -/
structure Cur where
  i : Nat
  rest : Str
  deriving DecidableEq, Repr

/-- Cursor behind the first character of `rest`. -/
def Cur.adv (i : Nat) (c : Char) (cs : Str) : Cur := ⟨i + c.utf8Size, cs⟩

/-- A possibly only partially parsed value: `PartialValue` (crates/toml/src/parse/lit.rs:9-23).
`f64` values are modelled by how they are obtained: `parsed t` is the value `str::parse::<f64>`
gives for the text `t`, the others are the constants. -/
inductive FloatVal
  | parsed (t : Str)
  | inf (neg : Bool)
  | nan (neg : Bool)
  deriving DecidableEq, Repr

/-- `PartialValue` (crates/toml/src/parse/lit.rs:9-23). -/
inductive PartialValue
  | float (f : FloatVal)
  | int (n : Int)
  | bool (b : Bool)
  | dateTime (d : DateTime)
  | partialDate (d : Date)
  | invalidDateTime (e : Error)
  deriving DecidableEq, Repr

/-- `ExpectNumError(ExpectNumErrorKind, Pos)` (crates/toml/src/parse/datetime.rs:269-274). -/
inductive ExpectNumError
  | incomplete (p : Pos)
  | missing (p : Pos)
  | invalid (c : Char) (p : Pos)

/-- `ExpectNumError::kind` (crates/toml/src/parse/datetime.rs:277-283). -/
def ExpectNumError.kind (f : DateTimeField) : ExpectNumError → Error
  | .incomplete p => .dateTimeIncomplete f p
  | .missing p => .dateTimeMissing f p
  | .invalid c p => .unexpectedCharInDateTime c p

/-- `expect_two_digit_num` followed by `.map_err(|e| e.kind(field))`
(crates/toml/src/parse/datetime.rs:286-329). -/
def expectTwoDigitNum (cur : Cur) (next : List Char) (span : Span) (field : DateTimeField) :
    Res Error (Nat × Span × Cur) :=
  match cur with
  | ⟨_, []⟩ => .err ((ExpectNumError.missing span.stop).kind field)
  | ⟨i0, c0 :: cs⟩ =>
    if isDigit c0 then
      match Cur.adv i0 c0 cs with
      | ⟨_, []⟩ => .err ((ExpectNumError.incomplete span.stop).kind field)
      | ⟨i1, c1 :: cs'⟩ =>
        if isDigit c1 then
          let start := span.start.plus i0
          .ok (10 * digitVal c0 + digitVal c1, ⟨start, start.plus 2⟩, Cur.adv i1 c1 cs')
        else if next.contains c1 then
          .err ((ExpectNumError.incomplete (span.start.plus i1)).kind field)
        else .err ((ExpectNumError.invalid c1 (span.start.plus i1)).kind field)
    else if next.contains c0 then
      .err ((ExpectNumError.missing (span.start.plus i0)).kind field)
    else .err ((ExpectNumError.invalid c0 (span.start.plus i0)).kind field)

/-- `check_range` followed by `.map_err(|e| e.kind(field))`
(crates/toml/src/parse/datetime.rs:331-353). -/
def checkRange (n : Nat) (s : Span) (lo hi : Nat) (field : DateTimeField) : Res Error Unit :=
  if lo ≤ n ∧ n ≤ hi then .ok () else .err (.dateTimeOutOfBounds field n lo hi s)

/-- The idiom `expect_two_digit_num(..)?.check_range(..)?`. -/
def expectNumIn (cur : Cur) (next : List Char) (span : Span) (field : DateTimeField)
    (lo hi : Nat) : Res Error (Nat × Cur) := do
  let (n, s, cur) ← expectTwoDigitNum cur next span field
  checkRange n s lo hi field
  pure (n, cur)

/-- `expect_char` (crates/toml/src/parse/datetime.rs:244-267). -/
def expectChar (cur : Cur) (span : Span) (after : DateTimeField) (expected : Char) :
    Res Error Cur :=
  match cur with
  | ⟨_, []⟩ => .err (.dateTimeMissingChar after expected span.stop)
  | ⟨i, c :: cs⟩ =>
    if c = expected then .ok (Cur.adv i c cs)
    else .err (.dateTimeExpectedCharFound after expected c (span.start.plus i))

/-- `unexpected_char_error` (crates/toml/src/parse/datetime.rs:239-242). -/
def unexpectedCharError {α : Type} (c : Char) (span : Span) (i : Nat) : Res Error α :=
  .err (.unexpectedCharInDateTime c (span.start.plus i))

/-- `'Z' | 'z' | '+' | '-'`. -/
def isOffsetStart (c : Char) : Bool := c = 'Z' || c = 'z' || c = '+' || c = '-'

/-- The loop of `parse_subsec` (crates/toml/src/parse/datetime.rs:169-184): `digits`, `subsec`. -/
def subsecLoop (span : Span) : Nat → Str → Nat → Nat → Res Error (Nat × Nat × Cur)
  | i, [], digits, subsec => .ok (digits, subsec, ⟨i, []⟩)
  | i, c :: cs, digits, subsec =>
    if isDigit c then
      if digits < 9 then subsecLoop span (i + c.utf8Size) cs (digits + 1) (subsec * 10 + digitVal c)
      else subsecLoop span (i + c.utf8Size) cs digits subsec
    else if isOffsetStart c then .ok (digits, subsec, ⟨i, c :: cs⟩)
    else unexpectedCharError c span i

/-- `parse_subsec` (crates/toml/src/parse/datetime.rs:168-192). -/
def parseSubsec (cur : Cur) (span : Span) : Res Error (Nat × Cur) := do
  let (digits, subsec, cur) ← subsecLoop span cur.i cur.rest 0 0
  if digits = 0 then .err (.dateTimeMissingSubsec span.stop)
  else pure (subsec * 10 ^ (9 - digits), cur)

/-- The optional fraction in `continue_parsing_time` (crates/toml/src/parse/datetime.rs:147-151). -/
def optSubsec (cur : Cur) (span : Span) : Res Error (Nat × Cur) :=
  match cur with
  | ⟨i, c :: cs⟩ => if c = '.' then parseSubsec (Cur.adv i c cs) span else pure (0, ⟨i, c :: cs⟩)
  | ⟨i, []⟩ => pure (0, ⟨i, []⟩)

/-- `continue_parsing_time` (crates/toml/src/parse/datetime.rs:134-166). -/
def continueParsingTime (cur : Cur) (span : Span) (hour : Nat) : Res Error (Time × Cur) := do
  let (minute, cur) ← expectNumIn cur [':'] span .minute 0 59
  let cur ← expectChar cur span .minute ':'
  let (second, cur) ← expectNumIn cur ['Z', 'z', '+', '-'] span .second 0 59
  let (nanos, cur) ← optSubsec cur span
  match cur with
  | ⟨i, c :: cs⟩ =>
    if isOffsetStart c then pure (⟨hour, minute, second, nanos⟩, ⟨i, c :: cs⟩)
    else unexpectedCharError c span i
  | ⟨i, []⟩ => pure (⟨hour, minute, second, nanos⟩, ⟨i, []⟩)

/-- `parse_offset` (crates/toml/src/parse/datetime.rs:210-224). -/
def parseOffset (cur : Cur) (span : Span) : Res Error (Int × Cur) := do
  let (hour, cur) ← expectNumIn cur [':'] span .offsetHour 0 23
  let cur ← expectChar cur span .offsetHour ':'
  let (minute, cur) ← expectNumIn cur [] span .offsetMinute 0 59
  pure (60 * (hour : Int) + (minute : Int), cur)

/-- `try_to_parse_offset` (crates/toml/src/parse/datetime.rs:194-208). -/
def tryToParseOffset (cur : Cur) (span : Span) : Res Error (Option Offset × Cur) :=
  match cur with
  | ⟨i, []⟩ => .ok (none, ⟨i, []⟩)
  | ⟨i, c :: cs⟩ =>
    if c = 'Z' ∨ c = 'z' then .ok (some .utc, Cur.adv i c cs)
    else if c = '+' then do
      let (m, cur) ← parseOffset (Cur.adv i c cs) span
      pure (some (.custom m), cur)
    else if c = '-' then do
      let (m, cur) ← parseOffset (Cur.adv i c cs) span
      pure (some (.custom (-m)), cur)
    else unexpectedCharError c span i

/-- `parse_time_and_offset` (crates/toml/src/parse/datetime.rs:112-130). -/
def parseTimeAndOffset (cur : Cur) (span : Span) : Res Error ((Time × Option Offset) × Cur) := do
  let (hour, cur) ← expectNumIn cur [':'] span .hour 0 23
  let cur ← expectChar cur span .hour ':'
  let (time, cur) ← continueParsingTime cur span hour
  let (offset, cur) ← tryToParseOffset cur span
  pure ((time, offset), cur)

/-- `error_on_offset` (crates/toml/src/parse/datetime.rs:226-237). -/
def errorOnOffset (cur : Cur) (span : Span) : Res Error Unit :=
  match cur with
  | ⟨_, []⟩ => .ok ()
  | ⟨i, c :: _⟩ =>
    if isOffsetStart c then .err (.localDateTimeOffset (span.start.plus i))
    else .err (.unexpectedCharInDateTime c (span.start.plus i))

/-- `continue_parsing_local_time` (crates/toml/src/parse/datetime.rs:97-110). -/
def continueParsingLocalTime (cur : Cur) (span : Span) (hour : Nat) : Res Error Time := do
  checkRange hour (Span.fromPosLen span.start 2) 0 23 .hour
  let (time, cur) ← continueParsingTime cur span hour
  errorOnOffset cur span
  pure time

/-- `is_leap_year` and `max_day` (crates/toml/src/parse/datetime.rs:65-71). -/
def maxDay (year month : Nat) : Nat :=
  let isLeapYear := year % 4 = 0 ∧ (year % 100 ≠ 0 ∨ year % 400 = 0)
  if month = 2 then (if isLeapYear then 29 else 28)
  else if month = 4 ∨ month = 6 ∨ month = 9 ∨ month = 11 then 30
  else 31

/-- `continue_parsing_date_time_after_year` (crates/toml/src/parse/datetime.rs:53-93). -/
def continueParsingDateTimeAfterYear (cur : Cur) (span : Span) (year : Nat) :
    Res Error PartialValue := do
  let (month, cur) ← expectNumIn cur ['-'] span .month 1 12
  let cur ← expectChar cur span .month '-'
  let (day, cur) ← expectNumIn cur ['T', 't'] span .day 1 (maxDay year month)
  let date : Date := ⟨year, month, day⟩
  match cur with
  | ⟨_, []⟩ => pure (.partialDate date)
  | ⟨i, c :: cs⟩ =>
    if c = 'T' ∨ c = 't' then do
      let ((time, offset), _) ← parseTimeAndOffset (Cur.adv i c cs) span
      pure (.dateTime (.fromOptionalOffset date time offset))
    else if isDigit c then .err (.dateTimeMissingChar .day 'T' (span.start.plus i))
    else .err (.unexpectedCharInDateTime c (span.start.plus i))

/-- The errors for a non-digit in the year (crates/toml/src/parse/datetime.rs:22-29 and 35-42). -/
def yearCharError {α : Type} (c : Char) (i : Nat) (span : Span) : Res Error α :=
  if c = '.' ∨ c = '_' then .err (.invalidLeadingZero span.start)
  else if c = '-' then .err (.dateTimeIncomplete .year (span.start.plus i))
  else .err (.unexpectedCharInDateTime c (span.start.plus i))

/-- `continue_parsing_date_time` (crates/toml/src/parse/datetime.rs:10-50). -/
def continueParsingDateTime (cur : Cur) (span : Span) (twoDigits : Nat) :
    Res Error PartialValue :=
  match cur with
  | ⟨_, []⟩ => .err (.dateTimeIncomplete .year span.stop)
  | ⟨i2, c2 :: cs2⟩ =>
    if isDigit c2 then
      match Cur.adv i2 c2 cs2 with
      | ⟨_, []⟩ => .err (.dateTimeIncomplete .year span.stop)
      | ⟨i3, c3 :: cs3⟩ =>
        if isDigit c3 then do
          let year := 100 * twoDigits + 10 * digitVal c2 + digitVal c3
          let cur ← expectChar (Cur.adv i3 c3 cs3) span .year '-'
          continueParsingDateTimeAfterYear cur span year
        else yearCharError c3 i3 span
    else if c2 = ':' then do
      let time ← continueParsingLocalTime (Cur.adv i2 c2 cs2) span twoDigits
      pure (.dateTime (.localTime time))
    else yearCharError c2 i2 span

end Verif.Toml
