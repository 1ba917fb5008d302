import Verif.Semver.Types

/-!
# Model of the semver parsers (crates/semver/src/parse.rs)

* The cursor `CharIter` (crates/semver/src/parse.rs:14-50) is `Cur`: the byte index and the remaining
  text.  The code looks at single bytes and only ever advances (`next_byte`) over a byte it has
  just compared with an ASCII byte, so at every point the index is a character boundary and "next
  byte is ASCII `b`" is "next character is `b`".  `chars.str[a..b]` of text that has been walked
  over is modelled by the list of characters walked over.
* `ovf : Bool` says whether the build has overflow checks (`debug_assertions`): the only
  arithmetic that can overflow is `val + digit` in `parse_int`.
* Outcomes: `Res.ok`, `Res.err` (the `Error`) or `Res.panic`.
-/

namespace Verif.Semver
open Verif

/-- `Error` (crates/semver/src/error.rs:6-25).  `FmtChar`/`FmtStr` are the wrapped character/string. -/
inductive Error
  | trailingCharacters (s : Str) (f : Option IdentField) (p : Pos)
  | missingField (f : NumField) (p : Pos)
  | leadingZeroNum (f : NumField) (p : Pos)
  | invalidIntChar (c : Char) (f : NumField) (p : Pos)
  | intOverflow (f : NumField) (p : Pos) (len : Nat)
  | expectedDot (c : Char) (f : NumField) (p : Pos)
  | missingDot (f : NumField) (p : Pos)
  | emptyIdentifier (f : IdentField) (p : Pos)
  | emptyIdentifierSegment (f : IdentField) (p : Pos)
  | leadingZeroSegment (f : IdentField) (p : Pos)
  | invalidOp (c : Char) (p : Pos)
  | missingComma (p : Pos)
  | trailingComma (p : Pos)
  | wildcardNotTheSoleComparator (w : WlChar) (p : Pos)
  | excessiveComparators (p : Pos) (len : Nat)
  | emptyVersionReq (p : Pos)
  | unexpectedAfterWildcard (c : Char) (f : NumField) (p : Pos)
  deriving DecidableEq, Repr

/-- `<Error as Diagnostic>::span` (crates/semver/src/error.rs:32-52). -/
def Error.span : Error → Span
  | .trailingCharacters s _ p => Span.fromPosLen p (blen s)
  | .missingField _ p => Span.ofPos p
  | .leadingZeroNum _ p => Span.asciiChar p
  | .invalidIntChar c _ p => Span.fromPosLen p c.utf8Size
  | .intOverflow _ p l => Span.fromPosLen p l
  | .expectedDot c _ p => Span.fromPosLen p c.utf8Size
  | .missingDot _ p => Span.ofPos p
  | .emptyIdentifier _ p => Span.ofPos p
  | .emptyIdentifierSegment _ p => Span.ofPos p
  | .leadingZeroSegment _ p => Span.asciiChar p
  | .invalidOp c p => Span.fromPosLen p c.utf8Size
  | .missingComma p => Span.ofPos p
  | .trailingComma p => Span.asciiChar p
  | .wildcardNotTheSoleComparator _ p => Span.asciiChar p
  | .excessiveComparators p l => Span.fromPosLen p l
  | .emptyVersionReq p => Span.ofPos p
  | .unexpectedAfterWildcard c _ p => Span.fromPosLen p c.utf8Size

/-- `MAX_COMPARATORS` (crates/semver/src/parse.rs:12). -/
def MAX_COMPARATORS : Nat := 32

/-- `CharIter` (crates/semver/src/parse.rs:14-18): `start`, the byte index, and `str[idx..]`. -/
structure Cur where
  start : Pos
  idx : Nat
  rest : Str
  deriving DecidableEq, Repr

/-- `CharIter::new` (crates/semver/src/parse.rs:21-23). -/
def Cur.new (start : Pos) (s : Str) : Cur := ⟨start, 0, s⟩

/-- `CharIter::pos` (crates/semver/src/parse.rs:47-49). -/
def Cur.pos (c : Cur) : Pos := c.start.plus c.idx

/-- `next_byte` after having peeked an ASCII character (crates/semver/src/parse.rs:29-33): step over it;
`cs` is the text after the peeked character. -/
def Cur.step (c : Cur) (cs : Str) : Cur := ⟨c.start, c.idx + 1, cs⟩

/-- Loop of `eat_whitespace` (crates/semver/src/parse.rs:490-494): only the space character. -/
def eatWsAux (start : Pos) (idx : Nat) : Str → Cur
  | [] => ⟨start, idx, []⟩
  | c :: cs => if c = ' ' then eatWsAux start (idx + 1) cs else ⟨start, idx, c :: cs⟩

/-- `eat_whitespace` (crates/semver/src/parse.rs:490-494). -/
def eatWs (c : Cur) : Cur := eatWsAux c.start c.idx c.rest

/-- `eat_dot`/`eat_hyphen`/`eat_plus` (crates/semver/src/parse.rs:460-488), for the character `ch`. -/
def eatChar (ch : Char) (c : Cur) : Bool × Cur :=
  match c.rest with
  | x :: cs => if x = ch then (true, c.step cs) else (false, c)
  | [] => (false, c)

/-- `eat_wildcard` (crates/semver/src/parse.rs:496-505). -/
def eatWildcard (c : Cur) : Option (WlChar × Cur) :=
  match c.rest with
  | x :: cs =>
    if x = '*' then some (.star, c.step cs)
    else if x = 'x' then some (.lowerX, c.step cs)
    else if x = 'X' then some (.upperX, c.step cs)
    else none
  | [] => none

/-- `expect_dot` (crates/semver/src/parse.rs:426-442). -/
def expectDot (c : Cur) (field : NumField) : Res Error Cur :=
  match c.rest with
  | x :: cs => if x = '.' then .ok (c.step cs) else .err (.expectedDot x field c.pos)
  | [] => .err (.missingDot field c.pos)

/-- `expect_comma_or_end` (crates/semver/src/parse.rs:444-458). -/
def expectCommaOrEnd (c : Cur) : Res Error (Option Nat × Cur) :=
  match c.rest with
  | x :: cs => if x = ',' then .ok (some c.idx, c.step cs) else .err (.missingComma c.pos)
  | [] => .ok (none, c)

/-- The digit loop of `parse_int` (crates/semver/src/parse.rs:352-368).  The accumulator is `some a` for
`State::Ok(a)` and `none` for `State::Overflow`.  `a.checked_mul(10)` fails iff `a * 10 ≥ 2^32`;
`val + digit` is an unchecked `u32` addition: it panics if it overflows with overflow checks on,
and wraps otherwise. -/
def intLoop (ovf : Bool) (start : Pos) (acc : Option Nat) (idx : Nat) :
    Str → Res Error (Option Nat × Cur)
  | [] => .ok (acc, ⟨start, idx, []⟩)
  | c :: cs =>
    if isDigit c then
      match acc with
      | some a =>
        if a * 10 < 2 ^ 32 then
          if a * 10 + digitVal c < 2 ^ 32 then
            intLoop ovf start (some (a * 10 + digitVal c)) (idx + 1) cs
          else if ovf then .panic
          else intLoop ovf start (some ((a * 10 + digitVal c) % 2 ^ 32)) (idx + 1) cs
        else intLoop ovf start none (idx + 1) cs
      | none => intLoop ovf start none (idx + 1) cs
    else .ok (acc, ⟨start, idx, c :: cs⟩)

/-- `parse_int` (crates/semver/src/parse.rs:316-378). -/
def parseInt (ovf : Bool) (c : Cur) (field : NumField) : Res Error (Nat × Cur) :=
  match c.rest with
  | [] => .err (.missingField field c.pos)
  | x :: cs =>
    if x = '0' then
      let c' := c.step cs
      match cs with
      | y :: _ => if isDigit y then .err (.leadingZeroNum field (c'.pos.minus 1)) else .ok (0, c')
      | [] => .ok (0, c')
    else if isDigit x then
      match intLoop ovf c.start (some (digitVal x)) (c.idx + 1) cs with
      | .ok (some v, c') => .ok (v, c')
      | .ok (none, c') => .err (.intOverflow field (c.start.plus c.idx) (c'.idx - c.idx))
      | .err e => .err e
      | .panic => .panic
    else .err (.invalidIntChar x field c.pos)

/-- The loop of `parse_ident` (crates/semver/src/parse.rs:385-423).  `taken` is the text walked over
since `start` (`chars.str[start..idx]`), `seg` the text since `segment_start`
(`chars.str[segment_start..idx]`), `nondigit` is `segment_has_nondigit`; the loop state
`start == idx`, `segment_start == idx`, `idx - segment_start > 1` and
`str[segment_start..].starts_with('0')` is read off these. -/
def identLoop (field : IdentField) (start : Pos) (taken seg : Str) (nondigit : Bool) (idx : Nat) :
    Str → Res Error (Str × Cur)
  | [] => boundary []
  | c :: cs =>
    if isAlpha c || c == '-' then
      identLoop field start (taken ++ [c]) (seg ++ [c]) true (idx + 1) cs
    else if isDigit c then
      identLoop field start (taken ++ [c]) (seg ++ [c]) nondigit (idx + 1) cs
    else if c = '.' then
      -- the `boundary` arm with `boundary == Some(b'.')`
      if seg = [] then .err (.emptyIdentifierSegment field (start.plus idx))
      else if field = .prerelease ∧ blen seg > 1 ∧ nondigit = false ∧ seg.head? = some '0' then
        .err (.leadingZeroSegment field (start.plus (idx - blen seg)))
      else identLoop field start (taken ++ [c]) [] false (idx + 1) cs
    else boundary (c :: cs)
where
  /-- The `boundary` arm when the boundary is not a dot (crates/semver/src/parse.rs:392-421). -/
  boundary (rest : Str) : Res Error (Str × Cur) :=
    if seg = [] then
      if taken = [] then .err (.emptyIdentifier field (start.plus idx))
      else .err (.emptyIdentifierSegment field (start.plus idx))
    else if field = .prerelease ∧ blen seg > 1 ∧ nondigit = false ∧ seg.head? = some '0' then
      .err (.leadingZeroSegment field (start.plus (idx - blen seg)))
    else .ok (taken, ⟨start, idx, rest⟩)

/-- `parse_ident` (crates/semver/src/parse.rs:380-424). -/
def parseIdent (c : Cur) (field : IdentField) : Res Error (Str × Cur) :=
  identLoop field c.start [] [] false c.idx c.rest

/-- `str::trim_end_matches(' ')`. -/
def trimEndSpaces (s : Str) : Str := (s.reverse.dropWhile (· == ' ')).reverse

/-- The optional `-pre` / `+build` part: `if eat_hyphen(..) { Some(parse_ident(..)?) } else
{ None }` (crates/semver/src/parse.rs:248-257 and 276-290). -/
def optIdent (ch : Char) (field : IdentField) (c : Cur) : Res Error (Option Str × Cur) :=
  match eatChar ch c with
  | (true, c) => do
    let (s, c) ← parseIdent c field
    pure (some s, c)
  | (false, c) => pure (none, c)

/-- `parse_version` (crates/semver/src/parse.rs:265-314). -/
def parseVersion (ovf : Bool) (input : Str) (pos : Pos) : Res Error Version := do
  let c := eatWs (Cur.new pos input)
  let (major, c) ← parseInt ovf c .major
  let c ← expectDot c .major
  let (minor, c) ← parseInt ovf c .minor
  let c ← expectDot c .minor
  let (patch, c) ← parseInt ovf c .patch
  let (pre, c) ← optIdent '-' .prerelease c
  let pre := pre.getD []
  let (build, c) ← optIdent '+' .buildMetadata c
  let build := build.getD []
  let c := eatWs c
  match c.rest with
  | [] => .ok ⟨major, minor, patch, pre, build⟩
  | x :: cs =>
    let trailing := trimEndSpaces (x :: cs)
    let field :=
      if build ≠ [] then some IdentField.buildMetadata
      else if pre = [] then some .prerelease
      else none
    .err (.trailingCharacters trailing field c.pos)

/-- `comp_version` (crates/semver/src/parse.rs:206-263); also returns the updated `*op`. -/
def compVersion (ovf : Bool) (c : Cur) (op : Op) : Res Error (CompVersion × Op × Cur) := do
  let (major, c) ← parseInt ovf c .major
  match eatChar '.' c with
  | (false, c) => pure (.major major none, op, c)
  | (true, c) =>
  match eatWildcard c with
  | some (wl1, c) =>
    let op := if op = .bl then .wl else op
    match eatChar '.' c with
    | (false, c) => pure (.major major (some (wl1, none)), op, c)
    | (true, c) =>
    match eatWildcard c with
    | some (wl2, c) => pure (.major major (some (wl1, some wl2)), op, c)
    | none =>
      match c.rest with
      | x :: _ => .err (.unexpectedAfterWildcard x .minor c.pos)
      | [] => .err (.missingField .patch c.pos)
  | none =>
  let (minor, c) ← parseInt ovf c .minor
  match eatChar '.' c with
  | (false, c) => pure (.minor major minor none, op, c)
  | (true, c) =>
  match eatWildcard c with
  | some (wl, c) => pure (.minor major minor (some wl), if op = .bl then .wl else op, c)
  | none =>
  let (patch, c) ← parseInt ovf c .patch
  let (pre, c) ← optIdent '-' .prerelease c
  let (build, c) ← optIdent '+' .buildMetadata c
  match pre with
  | none => pure (.patch major minor patch build, op, c)
  | some pre => pure (.pre major minor patch pre build, op, c)

/-- The operator part of the loop body for a non-wildcard comparator
(crates/semver/src/parse.rs:77-80 and 134-169).  `none` = `InvalidOp`. -/
def parseOp (b : Char) (cs : Str) (c : Cur) : Option (Op × Cur) :=
  if isDigit b then some (.bl, c)
  else if b = '=' then some (.eq, c.step cs)
  else if b = '<' then
    match eatChar '=' (c.step cs) with
    | (true, c) => some (.le, c)
    | (false, c) => some (.lt, c)
  else if b = '>' then
    match eatChar '=' (c.step cs) with
    | (true, c) => some (.ge, c)
    | (false, c) => some (.gt, c)
  else if b = '^' then some (.cr, c.step cs)
  else if b = '~' then some (.tl, c.step cs)
  else none

/-- The wildcard arm of the loop body (crates/semver/src/parse.rs:80-133), after the character `wl` at
`c` has been recognised; `cs` is the text after it.  On success returns the comma (always
`None` here) and the cursor. -/
def wildcardArm (pos : Pos) (wl : WlChar) (isFirst : Bool) (c : Cur) (cs : Str) :
    Res Error (Comparator × Cur) :=
  let opOffset := c.idx
  if !isFirst then .err (.wildcardNotTheSoleComparator wl (pos.plus opOffset)) else
  let c := c.step cs
  match (match cs with
    | x :: _ =>
      if x = ',' ∨ x = ' ' then none
      else some (Error.unexpectedAfterWildcard x .major c.pos)
    | [] => none) with
  | some e => .err e
  | none =>
  let c := eatWs c
  match c.rest with
  | x :: cs =>
    if x = ',' then
      let commaPos := c.pos
      let c := eatWs (c.step cs)
      if c.rest = [] then .err (.trailingComma commaPos)
      else .err (.wildcardNotTheSoleComparator wl (pos.plus opOffset))
    else .err (.wildcardNotTheSoleComparator wl (pos.plus opOffset))
  | [] => do
    let (comma, c) ← expectCommaOrEnd c
    pure (⟨opOffset, .wl, opOffset, .wl wl, comma⟩, c)

/-- Recognise the wildcard characters (crates/semver/src/parse.rs:80-86). -/
def wlOf (b : Char) : Option WlChar :=
  if b = '*' then some .star else if b = 'x' then some .lowerX
  else if b = 'X' then some .upperX else none

/-- One iteration of the loop of `parse_requirement` after whitespace, with next character `b`
followed by `cs` (crates/semver/src/parse.rs:70-185); `n` is `comparators.len()`. -/
def comparatorStep (ovf : Bool) (pos : Pos) (n : Nat) (c : Cur) (b : Char) (cs : Str) :
    Res Error (Comparator × Cur) :=
  if n ≥ MAX_COMPARATORS then .err (.excessiveComparators c.pos (blen (b :: cs))) else
  let opOffset := c.idx
  match wlOf b with
  | some wl => wildcardArm pos wl (n == 0) c cs
  | none =>
  match parseOp b cs c with
  | none => .err (.invalidOp b c.pos)
  | some (op, c) => do
    let c := eatWs c
    let versionOffset := c.idx
    let (version, op, c) ← compVersion ovf c op
    let c := eatWs c
    let (comma, c) ← expectCommaOrEnd c
    pure (⟨opOffset, op, versionOffset, version, comma⟩, c)

/-- The loop of `parse_requirement` (crates/semver/src/parse.rs:63-186).  `fuel` bounds the number of
iterations; it is instantiated with the number of characters plus one and
`reqLoop_fuel`/C24 prove that it is never exhausted (exhaustion would be `Res.panic`). -/
def reqLoop (ovf : Bool) (pos : Pos) :
    Nat → Cur → List Comparator → Option Nat → Res Error (List Comparator × Option Nat)
  | 0, _, _, _ => .panic
  | fuel + 1, c, comps, lastComma =>
    let c := eatWs c
    match c.rest with
    | [] => .ok (comps, lastComma)
    | b :: cs => do
      let (comp, c) ← comparatorStep ovf pos comps.length c b cs
      reqLoop ovf pos fuel c (comps ++ [comp]) comp.comma

/-- `parse_requirement` (crates/semver/src/parse.rs:52-204).  The capacity computation (54-60) has no
observable effect and is omitted. -/
def parseRequirement (ovf : Bool) (input : Str) (pos : Pos) : Res Error VersionReq := do
  let (comps, lastComma) ← reqLoop ovf pos (input.length + 1) (Cur.new pos input) [] none
  match lastComma with
  | some offset => .err (.trailingComma (pos.plus offset))
  | none =>
    if comps = [] then .err (.emptyVersionReq pos)
    else .ok ⟨pos, blen input, comps⟩

end Verif.Semver
