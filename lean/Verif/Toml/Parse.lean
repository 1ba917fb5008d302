import Verif.Toml.Ast
import Verif.Diag.Model

/-!
# Model of the TOML parser (crates/toml/src/parse.rs)

* The parser runs in a state (`PS`): the tokens behind and in front of the cursor, the diagnostics,
  and the stored comments.
* Its outcome is a result with a new state, a panic, or `timeout`.  `panic` also stands for undefined
  behaviour of the `unsafe` string operations: a slice outside of the document or off a character
  boundary.
* Loops carry a recursion budget; `timeout` means that it was used up, and so does the depth budget of
  nested values.  `parse` starts every loop with the number of the remaining tokens plus one, and
  nested values with a depth of `RECURSION_LIMIT + 2`.
* `u32`/`usize`/`u16` are `Nat`; subtractions panic below zero, but for the offsets of the closing
  brackets of headers without overflow checks, see `parOffset`.
-/

namespace Verif.Toml
open Verif

/-- `RECURSION_LIMIT` (crates/toml/src/parse.rs:21). -/
def RECURSION_LIMIT : Nat := 100

/-- The constant part of `Parser` (crates/toml/src/parse.rs:731-737), the document that the literals
are slices of, and whether the build has overflow checks. -/
structure Env where
  input : Str
  strings : List StringToken
  literals : List Str
  eof : Token
  ovf : Bool

/-- The mutable state: `Parser::cursor` (crates/toml/src/parse.rs:735) as the reversed list `done` of
the tokens in front of it and the list `rest` of the others; the diagnostics of the `ctx`; the
`comment_storage`. -/
structure PS where
  done : List Token
  rest : List Token
  errors : List Error
  storage : List AssocComment

/-- The outcome of a computation. -/
inductive Run (α : Type) where
  | ok (a : α) (s : PS)
  | panic
  | timeout

/-- A computation of the parser. -/
def M (α : Type) : Type := PS → Run α

/-- Sequencing. -/
def M.bind {α β : Type} (x : M α) (f : α → M β) : M β := fun s =>
  match x s with
  | .ok a s => f a s
  | .panic => .panic
  | .timeout => .timeout

instance : Monad M where
  pure a := fun s => .ok a s
  bind := M.bind

/-- A panic. -/
def M.panic {α : Type} : M α := fun _ => .panic
/-- The budget is used up. -/
def M.timeout {α : Type} : M α := fun _ => .timeout
/-- A partial operation, which panics where it is undefined. -/
def M.lift {α : Type} (o : Option α) : M α := fun s =>
  match o with
  | some a => .ok a s
  | none => .panic

/-! ## Tokens -/

/-- `Parser::peek` (crates/toml/src/parse.rs:760-766). -/
def peek (E : Env) : M Token := fun s => .ok (s.rest.head?.getD E.eof) s

/-- `Parser::next` (crates/toml/src/parse.rs:750-758). -/
def next (E : Env) : M Token := fun s =>
  match s.rest with
  | t :: ts => .ok t { s with done := t :: s.done, rest := ts }
  | [] => .ok E.eof s

/-- `Parser::peek_prev` (crates/toml/src/parse.rs:768-771). -/
def peekPrev : M (Option Token) := fun s => .ok s.done.head? s

/-- `Parser::jump_to_end` (crates/toml/src/parse.rs:773-775). -/
def jumpToEnd : M Unit := fun s =>
  .ok () { s with done := s.rest.reverse ++ s.done, rest := [] }

/-- `Ctx::error` (crates/common/src/lib.rs:52-54). -/
def error (e : Error) : M Unit := fun s => .ok () { s with errors := s.errors ++ [e] }

/-- `Ctx::mark` (crates/common/src/lib.rs:64-70); the parser gives errors only. -/
def mark : M Nat := fun s => .ok s.errors.length s

/-- `Ctx::reset` (crates/common/src/lib.rs:72-76). -/
def reset (m : Nat) : M Unit := fun s => .ok () { s with errors := s.errors.take m }

/-- `Parser::string` (crates/toml/src/parse.rs:806-808). -/
def getString (E : Env) (id : Nat) : M StringToken := M.lift E.strings[id]?

/-- The byte offset of a place in a text. -/
def byteOff : Str → Nat → Nat → Nat
  | _, 0, c => c
  | [], _ + 1, _ => 0
  | ch :: s, l + 1, c => ch.utf8Size + (if ch = '\n' then byteOff s l c else byteOff s (l + 1) c)

/-- A `&str` that borrows from the document: its byte offset and its text. -/
structure Slice where
  off : Nat
  text : Str
  deriving DecidableEq, Repr

/-- `Parser::literal` (crates/toml/src/parse.rs:810-812) for the token at `start`.  The table holds
slices of the document; the slice of a token was taken at the place of the token
(crates/toml/src/lex.rs:597-612), which gives its address. -/
def literal (E : Env) (id : Nat) (start : Pos) : M Slice :=
  M.lift (E.literals[id]?.map fun l => ⟨byteOff E.input start.line start.char, l⟩)

/-- `lit::concat_strs` (crates/toml/src/parse/lit.rs:170-175). -/
def concatStrs (E : Env) (l r : Slice) : M Slice :=
  M.lift ((slice E.input l.off (r.off + blen r.text)).map fun t => ⟨l.off, t⟩)

/-- `lit::extend_str_back` (crates/toml/src/parse/lit.rs:179-184). -/
def extendStrBack (E : Env) (l : Slice) (n : Nat) : M Slice :=
  M.lift ((slice E.input l.off (l.off + (blen l.text + n))).map fun t => ⟨l.off, t⟩)

/-- `lit::extend_str_front` (crates/toml/src/parse/lit.rs:188-193). -/
def extendStrFront (E : Env) (l : Slice) (n : Nat) : M Slice :=
  M.lift (do
    let off ← subU l.off n
    let t ← slice E.input off (off + (blen l.text + n))
    pure ⟨off, t⟩)

/-- `Parser::comment` (crates/toml/src/parse.rs:814-818). -/
def getComment (E : Env) (id : Nat) (start : Pos) : M Comment :=
  M.lift (E.literals[id]?.map fun l => ⟨Span.fromPosLen start (1 + blen l), l⟩)

/-- `Parser::eat_comment` (crates/toml/src/parse.rs:777-787). -/
def eatComment (E : Env) : M (Option Comment) := do
  let t ← peek E
  match t.ty with
  | .comment id => do
    let _ ← next E
    let c ← getComment E id t.start
    pure (some c)
  | _ => pure none

/-- The loop of `eat_comment_and_newlines` (crates/toml/src/parse.rs:790-803). -/
def eatCommentAndNewlinesLoop (E : Env) : Nat → M (Option Comment)
  | 0 => M.timeout
  | n + 1 => do
    let t ← peek E
    match t.ty with
    | .comment id => do
      let _ ← next E
      let c ← getComment E id t.start
      pure (some c)
    | .newline => do
      let _ ← next E
      eatCommentAndNewlinesLoop E n
    | _ => pure none

/-- The budget of a loop that consumes a token in every round. -/
def budget : M Nat := fun s => .ok (s.rest.length + 1) s

/-- `Parser::eat_comment_and_newlines` (crates/toml/src/parse.rs:789-804). -/
def eatCommentAndNewlines (E : Env) : M (Option Comment) := do
  let n ← budget
  eatCommentAndNewlinesLoop E n

/-- `Parser::token_fmt_str` (crates/toml/src/parse.rs:820-841); as in the code, `}` is printed as
`{`. -/
def tokenFmtStr (E : Env) (t : Token) : M Str :=
  M.lift (match t.ty with
    | .string id => E.strings[id]?.map fun s => '`' :: Diag.fmtStr s.lit ++ ['`']
    | .literalOrIdent id => E.literals[id]?.map fun l => '`' :: Diag.fmtStr l ++ ['`']
    | .comment _ => some "comment".toList
    | .squareLeft => some "`[`".toList
    | .squareRight => some "`]`".toList
    | .curlyLeft => some "`{`".toList
    | .curlyRight => some "`{`".toList
    | .equal => some "`=`".toList
    | .comma => some "`,`".toList
    | .dot => some "`.`".toList
    | .newline => some "`\\n`".toList
    | .eof => some "`EOF`".toList)

/-- `Parser::token_span` (crates/toml/src/parse.rs:843-867). -/
def tokenSpan (E : Env) (t : Token) : M Span :=
  M.lift (match t.ty with
    | .string id => E.strings[id]?.map fun s => ⟨t.start, s.litEnd⟩
    | .literalOrIdent id => E.literals[id]?.map fun l => Span.fromPosLen t.start (blen l)
    | .comment id => E.literals[id]?.map fun l => Span.fromPosLen t.start (1 + blen l)
    | .newline => some (Span.ofPos t.start)
    | .eof => some (Span.ofPos t.start)
    | _ => some (Span.asciiChar t.start))

/-- `Parser::token_fmt_str_and_span` (crates/toml/src/parse.rs:869-871). -/
def tokenFmtStrAndSpan (E : Env) (t : Token) : M (Str × Span) := do
  let f ← tokenFmtStr E t
  let s ← tokenSpan E t
  pure (f, s)

/-- The loop of `recover_on!` (crates/toml/src/parse.rs:23-41) up to the token it stops at.  Behind
the last token it would loop forever unless it stops at the end of the file. -/
def skipUntil (E : Env) (stop : TokenType → Bool) : List Token → PS → Run Unit
  | [], s => if stop E.eof.ty then .ok () { s with rest := [] } else .timeout
  | t :: ts, s =>
    if stop t.ty then .ok () { s with rest := t :: ts }
    else skipUntil E stop ts { s with done := t :: s.done }

/-- `recover_on!` (crates/toml/src/parse.rs:23-41): skip tokens up to one of the given ones. -/
def recoverOn (E : Env) (stop : TokenType → Bool) : M Unit := fun s => skipUntil E stop s.rest s

/-- `Newline | Comment(_) | EOF`. -/
def endsLine : TokenType → Bool
  | .newline => true
  | .comment _ => true
  | .eof => true
  | _ => false

/-! ## Comments -/

/-- `next_comment_id` (crates/toml/src/parse.rs:1272-1275). -/
def nextCommentId : M Nat := fun s => .ok s.storage.length s

/-- `store_comment` (crates/toml/src/parse.rs:1265-1270). -/
def storeComment (c : AssocComment) : M Nat := fun s =>
  .ok s.storage.length { s with storage := s.storage ++ [c] }

/-- `add_comment` (crates/toml/src/parse.rs:1234-1247); the new range is returned. -/
def addComment (r : CommentRange) (c : Comment) (pos : AssocPos) : M CommentRange := do
  let id ← storeComment ⟨pos, r.level, c⟩
  M.lift (r.append id)

/-- `add_comments` (crates/toml/src/parse.rs:1217-1232). -/
def addComments (r : CommentRange) (pos : AssocPos) : List Comment → M CommentRange
  | [] => pure r
  | c :: cs => do
    let r ← addComment r c pos
    addComments r pos cs

/-- `store_comments` (crates/toml/src/parse.rs:1249-1263). -/
def storeComments (cs : List Comment) (pos : AssocPos) (level : Nat) : M CommentRange := do
  let start ← nextCommentId
  addComments ⟨start, 0, level⟩ pos cs

/-- `find_associated_comments` (crates/toml/src/parse.rs:1179-1186), the `position` on the reversed
comments.  The outer `None` is a panic: `line -= 1` below zero. -/
def assocPosition : List Comment → Nat → Nat → Option (Option Nat)
  | [], _, _ => some none
  | c :: cs, line, i => do
    let line' ← subU line 1
    if c.span.start.line + 1 = line then assocPosition cs line' (i + 1) else some (some i)

/-- `find_associated_comments` (crates/toml/src/parse.rs:1179-1186). -/
def findAssociatedComments (cs : List Comment) (line : Nat) : M Nat :=
  M.lift (do
    match ← assocPosition cs.reverse line 0 with
    | none => some 0
    | some l => subU cs.length l)

/-- The `position` in `mark_comments_above` (crates/toml/src/parse.rs:1193-1201) on the reversed
storage. -/
def markAboveLoop (level : Nat) : List AssocComment → Nat → Nat → List AssocComment × Option Nat
  | [], _, _ => ([], none)
  | c :: cs, line, i =>
    if c.comment.span.start.line + 1 = line ∧ c.pos = .contained then
      let (cs', l) := markAboveLoop level cs (line - 1) (i + 1)
      ({ c with pos := .above, level := level } :: cs', l)
    else (c :: cs, some i)

/-- `mark_comments_above` (crates/toml/src/parse.rs:1188-1205).  `line -= 1` is executed only for
`line = c.line + 1`. -/
def markCommentsAbove (line level : Nat) : M CommentRange := fun s =>
  let (st, l) := markAboveLoop level s.storage.reverse line 0
  let len := l.getD 0
  .ok ⟨s.storage.length - len, len, level⟩ { s with storage := st.reverse }

/-- Raise the level of a comment (crates/toml/src/parse.rs:1211-1213). -/
def AssocComment.raise (level : Nat) (c : AssocComment) : AssocComment :=
  if c.level < level then { c with level := level } else c

/-- `mark_contained_comments` (crates/toml/src/parse.rs:1207-1215). -/
def markContainedComments (r : CommentRange) (level : Nat) : M Unit := fun s =>
  if r.start + r.len ≤ s.storage.length then
    .ok () { s with storage := s.storage.take r.start ++
      ((s.storage.drop r.start).take r.len).map (AssocComment.raise level) ++
      s.storage.drop (r.start + r.len) }
  else .panic

/-! ## Keys -/

/-- `KeyResult` (crates/toml/src/parse.rs:1277-1281). -/
inductive KeyResult
  | ok (k : Key)
  | unterminatedStr (k : Key)
  | err (e : Error)

/-- `'a'..='z' | 'A'..='Z' | '0'..='9' | '_' | '-'`. -/
def isBareKeyChar (c : Char) : Bool := isAlpha c || isDigit c || c = '_' || c = '-'

/-- `'\x00'..='\x1f' | '\x7f'`. -/
def isAsciiControl (c : Char) : Bool := c.toNat ≤ 0x1f || c.toNat = 0x7f

/-- `lit.char_indices().find(..)` (crates/toml/src/parse.rs:1311-1313). -/
def findInvalidChar : Nat → Str → Option (Nat × Char)
  | _, [] => none
  | i, c :: cs => if isBareKeyChar c then findInvalidChar (i + c.utf8Size) cs else some (i, c)

/-- One identifier of a key (crates/toml/src/parse.rs:1287-1340): the identifier, or the result to
return.  The token is consumed (crates/toml/src/parse.rs:1303 and 1341) unless it is an error. -/
def parseIdent (E : Env) : M (Ident ⊕ KeyResult) := do
  let token ← peek E
  match token.ty with
  | .string id => do
    let str ← getString E id
    let litSpan : Span := ⟨token.start, str.litEnd⟩
    match str.quote with
    | .basicMultiline => pure (.inr (.err (.multilineBasicStringIdent litSpan)))
    | .literalMultiline => pure (.inr (.err (.multilineLiteralStringIdent litSpan)))
    | q => do
      let kind := if q = .basic then IdentKind.basicString else .literalString
      let ident := Ident.fromString str.lit litSpan str.text str.textOffset kind
      let _ ← next E
      if str.textOffset.endLine = 0 ∧ str.textOffset.endChar = 0 then
        pure (.inr (.unterminatedStr (.one ident)))
      else pure (.inl ident)
  | .literalOrIdent id => do
    let lit ← literal E id token.start
    let ident := Ident.fromPlainLit lit.text (Span.fromPosLen token.start (blen lit.text))
    match findInvalidChar 0 lit.text with
    | none => do
      let _ ← next E
      pure (.inl ident)
    | some (i, c) => do
      let e := Error.invalidCharInIdentifier c (token.start.plus i)
      if lit.text.all isAsciiControl then pure (.inr (.err e))
      else do
        error e
        let _ ← next E
        pure (.inl ident)
  | _ => do
    let (f, s) ← tokenFmtStrAndSpan E token
    pure (.inr (.err (.expectedKeyFound f s)))

/-- The loop of `parse_key` (crates/toml/src/parse.rs:1285-1359); `idents` are the collected ones. -/
def parseKeyLoop (E : Env) : Nat → List DottedIdent → M KeyResult
  | 0, _ => M.timeout
  | n + 1, idents => do
    match ← parseIdent E with
    | .inr r => pure r
    | .inl ident => do
      let t ← peek E
      if t.ty = .dot then do
        let _ ← next E
        parseKeyLoop E n (idents ++ [⟨ident, some t.start⟩])
      else if idents.isEmpty then pure (.ok (.one ident))
      else pure (.ok (.dotted (idents ++ [⟨ident, none⟩])))

/-- `parse_key` (crates/toml/src/parse.rs:1283-1360). -/
def parseKey (E : Env) : M KeyResult := do
  let n ← budget
  parseKeyLoop E n []

/-! ## Values -/

/-- The loop of `combine_adjacent_dot_and_lit` (crates/toml/src/parse.rs:1799-1820). -/
def combineLoop (E : Env) : Nat → Slice → Span → M (Slice × Span)
  | 0, _, _ => M.timeout
  | n + 1, lit, span => do
    let t ← peek E
    if t.start ≠ span.stop then pure (lit, span)
    else match t.ty with
      | .dot => do
        let lit ← extendStrBack E lit 1
        let _ ← next E
        combineLoop E n lit ⟨span.start, span.stop.plus 1⟩
      | .literalOrIdent id => do
        let nextLit ← literal E id t.start
        let lit ← concatStrs E lit nextLit
        let _ ← next E
        combineLoop E n lit ⟨span.start, span.stop.plus (blen nextLit.text)⟩
      | _ => pure (lit, span)

/-- `combine_adjacent_dot_and_lit` (crates/toml/src/parse.rs:1794-1821). -/
def combineAdjacentDotAndLit (E : Env) (lit : Slice) (span : Span) : M (Slice × Span) := do
  let n ← budget
  combineLoop E n lit span

/-- The time behind a date in `try_to_parse_time_part` (crates/toml/src/parse.rs:1738-1760). -/
def timePart (E : Env) (dateLit : Slice) (dateSpan : Span) (date : Date) (timeLit : Slice)
    (timeSpan : Span) : M Value := do
  if timeSpan.start.char > dateSpan.stop.char + 1 then
    error (.dateAndTimeTooFarApart (Span.between dateSpan timeSpan))
  let lit ← concatStrs E dateLit timeLit
  let span := Span.across dateSpan timeSpan
  match parseTimeAndOffset ⟨0, timeLit.text⟩ timeSpan with
  | .ok ((time, offset), _) =>
    pure (.dateTime lit.text span (DateTime.fromOptionalOffset date time offset))
  | .err e => do
    error e
    pure (.invalid lit.text span)
  | .panic => M.panic

/-- `try_to_parse_time_part` (crates/toml/src/parse.rs:1715-1761). -/
def tryToParseTimePart (E : Env) (dateLit : Slice) (dateSpan : Span) (date : Date) : M Value := do
  let t ← peek E
  match t.ty with
  | .literalOrIdent id => do
    let token ← next E
    let lit ← literal E id token.start
    let (timeLit, timeSpan) ←
      combineAdjacentDotAndLit E lit (Span.fromPosLen token.start (blen lit.text))
    timePart E dateLit dateSpan date timeLit timeSpan
  | _ => pure (.dateTime dateLit.text dateSpan (.localDate date))

/-- `try_combine_time_part` (crates/toml/src/parse.rs:1763-1792). -/
def tryCombineTimePart (E : Env) (dateLit : Slice) (dateSpan : Span) : M Value := do
  let time ← peek E
  match time.ty with
  | .literalOrIdent id => do
    let timeLit ← literal E id time.start
    let timeSpan := Span.fromPosLen time.start (blen timeLit.text)
    if timeSpan.start.char > dateSpan.stop.char + 5 then pure (.invalid dateLit.text dateSpan)
    else do
      let _ ← next E
      let lit ← concatStrs E dateLit timeLit
      let (lit, span) ← combineAdjacentDotAndLit E lit (Span.across dateSpan timeSpan)
      pure (.invalid lit.text span)
  | _ => pure (.invalid dateLit.text dateSpan)

/-- The value of a literal (crates/toml/src/parse.rs:1390-1410). -/
def literalValue (E : Env) (lit : Slice) (span : Span) : M Value :=
  match parseLiteral E.ovf lit.text span with
  | .ok (.float f) => pure (.float lit.text span f)
  | .ok (.int i) => pure (.int lit.text span i)
  | .ok (.bool b) => pure (.bool span b)
  | .ok (.dateTime d) => pure (.dateTime lit.text span d)
  | .ok (.partialDate date) => tryToParseTimePart E lit span date
  | .ok (.invalidDateTime e) => do
    error e
    if lit.text.any (fun c => c = 'T' || c = 't' || c = ':') then pure (.invalid lit.text span)
    else tryCombineTimePart E lit span
  | .err e => do
    error e
    pure (.invalid lit.text span)
  | .panic => M.panic

/-- The case of a string in `parse_value` (crates/toml/src/parse.rs:1371-1383). -/
def parseStringValue (E : Env) (id : Nat) : M Value := do
  let token ← next E
  let str ← getString E id
  pure (.string ⟨str.lit, ⟨token.start, str.litEnd⟩, str.text, str.textOffset, str.quote⟩)

/-- The case of a literal in `parse_value` (crates/toml/src/parse.rs:1384-1411). -/
def parseLiteralValue (E : Env) (id : Nat) : M Value := do
  let token ← next E
  let lit ← literal E id token.start
  let (lit, span) ← combineAdjacentDotAndLit E lit (Span.fromPosLen token.start (blen lit.text))
  literalValue E lit span

/-- The case of a dot in `parse_value` (crates/toml/src/parse.rs:1412-1437). -/
def parseDotValue (E : Env) (token : Token) : M (Except Error Value) := do
  let _ ← next E
  error (.unexpectedLiteralStart '.' token.start)
  let t ← peek E
  match t.ty with
  | .literalOrIdent id =>
    if t.start = token.start.plus 1 then do
      let _ ← next E
      let l ← literal E id t.start
      let lit ← extendStrFront E l 1
      let (lit, span) ← combineAdjacentDotAndLit E lit (Span.fromPosLen token.start (blen l.text + 1))
      pure (.ok (.invalid lit.text span))
    else do
      let (f, s) ← tokenFmtStrAndSpan E token
      pure (.error (.expectedValueFound f s))
  | _ => do
    let (f, s) ← tokenFmtStrAndSpan E token
    pure (.error (.expectedValueFound f s))

/-- `while let Some(comment) = parser.eat_comment_and_newlines() { add_comment(.., Contained) }`
(crates/toml/src/parse.rs:1460-1467 and 1499-1506). -/
def containedComments (E : Env) : Nat → CommentRange → M CommentRange
  | 0, _ => M.timeout
  | n + 1, r => do
    match ← eatCommentAndNewlines E with
    | some c => do
      let r ← addComment r c .contained
      containedComments E n r
    | none => pure r

/-- `if let Some(comment) = parser.eat_comment() { add_comment(.., LineEnd) }`
(crates/toml/src/parse.rs:1450-1457, 1490-1497 and 1513-1520). -/
def lineEndComment (E : Env) (r : CommentRange) : M CommentRange := do
  match ← eatComment E with
  | some c => addComment r c .lineEnd
  | none => pure r

/-- Is the token one that the recovery in an array stops at (crates/toml/src/parse.rs:1478-1484)? -/
def arrayStop : TokenType → Bool
  | .comma => true
  | .newline => true
  | .comment _ => true
  | .squareRight => true
  | .eof => true
  | _ => false

/-- The state of the loop over an array: `array_comments` and `values`. -/
structure ArrSt where
  comments : CommentRange
  values : List InlineArrayValue

/-- How a round of a loop ends. -/
inductive Round (σ : Type) where
  | continue (s : σ)
  | break (s : σ)
  | return (e : Error)

/-- The recovery in an array (crates/toml/src/parse.rs:1477-1484). -/
def arrayRecover (E : Env) (st : ArrSt) : M (Round ArrSt) := do
  recoverOn E arrayStop
  let t ← peek E
  match t.ty with
  | .squareRight => pure (.break st)
  | .eof => pure (.break st)
  | _ => do
    let _ ← next E
    pure (.continue st)

/-- Behind a value of an array (crates/toml/src/parse.rs:1488-1542). -/
def arrayAfterValue (E : Env) (level : Nat) (st : ArrSt) (val : Value) : M (Round ArrSt) := do
  let valComments ← markCommentsAbove val.start.line (level + 1)
  let valComments ← lineEndComment E valComments
  let n ← budget
  let comments ← containedComments E n st.comments
  let t ← peek E
  if t.ty = .comma then do
    let id ← nextCommentId
    let valComments ← M.lift (valComments.extendTo id)
    markContainedComments valComments (level + 1)
    let comma ← next E
    let valComments ← lineEndComment E valComments
    pure (.continue ⟨comments, st.values ++ [⟨valComments, val, some comma.start⟩]⟩)
  else if t.ty = .squareRight ∨ t.ty = .eof then
    pure (.break ⟨comments, st.values ++ [⟨valComments, val, none⟩]⟩)
  else do
    error (.missingComma val.stop)
    pure (.continue ⟨comments, st.values ++ [⟨valComments, val, none⟩]⟩)

/-- One round of the loop over an array (crates/toml/src/parse.rs:1459-1543); `elem` parses a value
one level down. -/
def arrayRound (E : Env) (elem : M (Except Error Value)) (level : Nat) (st : ArrSt) :
    M (Round ArrSt) := do
  let n ← budget
  let comments ← containedComments E n st.comments
  let st : ArrSt := { st with comments := comments }
  let t ← peek E
  if t.ty = .squareRight ∨ t.ty = .eof then pure (.break st)
  else do
    match ← elem with
    | .ok val => arrayAfterValue E level st val
    | .error (.recursionLimitExceeded p) => pure (.return (.recursionLimitExceeded p))
    | .error e => do
      error e
      arrayRecover E st

/-- A loop: rounds until one ends it. -/
def loopM {σ : Type} (round : σ → M (Round σ)) : Nat → σ → M (Except Error σ)
  | 0, _ => M.timeout
  | n + 1, st => do
    match ← round st with
    | .continue st => loopM round n st
    | .break st => pure (.ok st)
    | .return e => pure (.error e)

/-- The closing bracket of an array (crates/toml/src/parse.rs:1545-1561). -/
def arrayClose (E : Env) (lPar : Pos) : M (Option Pos) := do
  let t ← peek E
  if t.ty = .squareRight then do
    let t ← next E
    pure (some t.start)
  else do
    let (f, span) ← tokenFmtStrAndSpan E t
    let prev ← peekPrev
    let span := match prev with
      | some p => if t.ty = .eof ∧ p.ty = .newline then Span.ofPos p.start else span
      | none => span
    error (.expectedRightSquareFound f lPar span)
    pure none

/-- The end of a value with brackets (crates/toml/src/parse.rs:1566-1575 and 1680-1689). -/
def endOf (lPar : Pos) (rPar : Option Pos) (lastEnd : Option Pos) : End :=
  match rPar with
  | some p => .par p
  | none => .none (lastEnd.getD (lPar.plus 1))

/-- The case of an array in `parse_value` (crates/toml/src/parse.rs:1438-1583). -/
def parseArray (E : Env) (elem : M (Except Error Value)) (level : Nat) (lPar : Pos) :
    M (Except Error Value) := do
  let _ ← next E
  if level ≥ RECURSION_LIMIT then do
    jumpToEnd
    pure (.error (.recursionLimitExceeded lPar))
  else do
    let start ← nextCommentId
    let comments ← lineEndComment E ⟨start, 0, level⟩
    let n ← budget
    match ← loopM (arrayRound E elem level) n ⟨comments, []⟩ with
    | .error e => pure (.error e)
    | .ok st => do
      let rPar ← arrayClose E lPar
      let id ← nextCommentId
      let comments ← M.lift (st.comments.extendTo id)
      markContainedComments comments level
      pure (.ok (.inlineArray ⟨comments, lPar, st.values,
        endOf lPar rPar (st.values.getLast?.map (·.end))⟩))

/-- The state of the loop over an inline table: `assignments` and `comma`. -/
structure TabSt where
  assignments : List InlineTableAssignment
  comma : Option Pos

/-- `CurlyRight | Newline | Comment(_) | EOF`. -/
def tableEnd : TokenType → Bool
  | .curlyRight => true
  | t => endsLine t

/-- The tokens that the recovery in an inline table stops at
(crates/toml/src/parse.rs:1612-1618, 1628-1634 and 1643-1649). -/
def tableStop : TokenType → Bool
  | .comma => true
  | t => tableEnd t

/-- The recovery in an inline table (crates/toml/src/parse.rs:1612-1618, 1628-1634 and
1643-1649). -/
def tableRecover (E : Env) (st : TabSt) : M (Round TabSt) := do
  recoverOn E tableStop
  let t ← peek E
  if t.ty = .comma then do
    let _ ← next E
    pure (.continue st)
  else pure (.break st)

/-- Behind a value of an inline table (crates/toml/src/parse.rs:1653-1672). -/
def tableAfterValue (E : Env) (st : TabSt) (a : Assignment) : M (Round TabSt) := do
  let t ← peek E
  if t.ty = .comma then do
    let comma ← next E
    pure (.continue ⟨st.assignments ++ [⟨a, some comma.start⟩], some comma.start⟩)
  else if tableEnd t.ty then pure (.break ⟨st.assignments ++ [⟨a, none⟩], st.comma⟩)
  else do
    error (.missingComma a.val.stop)
    pure (.continue ⟨st.assignments ++ [⟨a, none⟩], none⟩)

/-- The value of an assignment in an inline table (crates/toml/src/parse.rs:1622-1672). -/
def tableAfterKey (E : Env) (elem : M (Except Error Value)) (st : TabSt) (key : Key) :
    M (Round TabSt) := do
  let t ← peek E
  if t.ty = .equal then do
    let eq ← next E
    match ← elem with
    | .ok val => tableAfterValue E st ⟨key, eq.start, val⟩
    | .error (.recursionLimitExceeded p) => pure (.return (.recursionLimitExceeded p))
    | .error e => do
      error e
      tableRecover E st
  else do
    let (f, s) ← tokenFmtStrAndSpan E t
    error (.expectedEqOrDotFound f s)
    tableRecover E st

/-- The check for a trailing comma (crates/toml/src/parse.rs:1598-1600). -/
def trailingComma : Option Pos → M Unit
  | some p => error (.inlineTableTrailingComma p)
  | none => pure ()

/-- One round of the loop over an inline table (crates/toml/src/parse.rs:1596-1673). -/
def tableRound (E : Env) (elem : M (Except Error Value)) (st : TabSt) : M (Round TabSt) := do
  let t ← peek E
  if tableEnd t.ty then do
    trailingComma st.comma
    pure (.break st)
  else do
    match ← parseKey E with
    | .ok key => tableAfterKey E elem st key
    | .unterminatedStr _ => pure (.break st)
    | .err e => do
      error e
      tableRecover E st

/-- The closing bracket of an inline table (crates/toml/src/parse.rs:1675-1682). -/
def tableClose (E : Env) (lPar : Pos) : M (Option Pos) := do
  let t ← peek E
  if t.ty = .curlyRight then do
    let t ← next E
    pure (some t.start)
  else do
    let (f, s) ← tokenFmtStrAndSpan E t
    error (.expectedRightCurlyFound f lPar s)
    pure none

/-- The case of an inline table in `parse_value` (crates/toml/src/parse.rs:1584-1696). -/
def parseTable (E : Env) (elem : M (Except Error Value)) (level : Nat) (lPar : Pos) :
    M (Except Error Value) := do
  let _ ← next E
  if level ≥ RECURSION_LIMIT then do
    jumpToEnd
    pure (.error (.recursionLimitExceeded lPar))
  else do
    let n ← budget
    match ← loopM (tableRound E elem) n ⟨[], none⟩ with
    | .error e => pure (.error e)
    | .ok st => do
      let rPar ← tableClose E lPar
      pure (.ok (.inlineTable ⟨lPar, st.assignments,
        endOf lPar rPar (st.assignments.getLast?.map (·.end))⟩))

/-- `parse_value` (crates/toml/src/parse.rs:1362-1710); the first argument is the depth budget, i.e.
the number of nested calls (stack frames) that may still be made. -/
def parseValue (E : Env) : Nat → Nat → M (Except Error Value)
  | 0, _ => M.timeout
  | d + 1, level => do
    let token ← peek E
    match token.ty with
    | .string id => do
      let v ← parseStringValue E id
      pure (.ok v)
    | .literalOrIdent id => do
      let v ← parseLiteralValue E id
      pure (.ok v)
    | .dot => parseDotValue E token
    | .squareLeft => parseArray E (parseValue E d (level + 1)) level token.start
    | .curlyLeft => parseTable E (parseValue E d (level + 1)) level token.start
    | _ => do
      let (f, s) ← tokenFmtStrAndSpan E token
      pure (.error (.expectedValueFound f s))

/-! ## Documents -/

/-- The local variables of `parse` (crates/toml/src/parse.rs:879-882) other than `comment_storage`. -/
structure RootSt where
  asts : List Ast
  prevComments : List Comment
  newlineRequired : Bool

/-- The second `[` of a header (crates/toml/src/parse.rs:891-903). -/
def openArray (E : Env) (lTable : Pos) : M (Option Pos) := do
  let t ← peek E
  if t.ty = .squareLeft then do
    let _ ← next E
    if lTable.char + 1 ≠ t.start.char then
      error (.spaceBetweenArrayPars ⟨lTable.plus 1, t.start⟩)
    pure (some t.start)
  else pure none

/-- `SquareRight | Newline | Comment(_) | EOF`. -/
def headerStop : TokenType → Bool
  | .squareRight => true
  | t => endsLine t

/-- The key of a header (crates/toml/src/parse.rs:905-917), and `skip_brackets`. -/
def headerKey (E : Env) : M (Option Key × Bool) := do
  match ← parseKey E with
  | .ok k => pure (some k, false)
  | .unterminatedStr k => pure (some k, true)
  | .err e => do
    error e
    recoverOn E headerStop
    pure (none, false)

/-- The first `]` of an array header (crates/toml/src/parse.rs:923-930). -/
def closeArray (E : Env) (lArray : Option Pos) : M (Option Pos) :=
  match lArray with
  | none => pure none
  | some lPar => do
    let t ← peek E
    if t.ty = .squareRight then do
      let t ← next E
      pure (some t.start)
    else do
      let (f, s) ← tokenFmtStrAndSpan E t
      error (.expectedDotOrRightSquareFound f lPar s)
      pure none

/-- The check for space between the closing brackets (crates/toml/src/parse.rs:936-941). -/
def checkSpace (rArray : Option Pos) (t : Token) : M Unit :=
  match rArray with
  | some a =>
    if a.char + 1 ≠ t.start.char then error (.spaceBetweenArrayPars ⟨a.plus 1, t.start⟩)
    else pure ()
  | none => pure ()

/-- The last `]` of a header (crates/toml/src/parse.rs:932-955). -/
def closeTable (E : Env) (lTable : Pos) (rArray : Option Pos) : M (Option Pos) := do
  let t ← peek E
  if t.ty = .squareRight then do
    let _ ← next E
    checkSpace rArray t
    pure (some t.start)
  else do
    let (f, s) ← tokenFmtStrAndSpan E t
    if rArray.isSome then error (.expectedRightSquareFound f lTable s)
    else error (.expectedDotOrRightSquareFound f lTable s)
    pure none

/-- The closing brackets of a header (crates/toml/src/parse.rs:919-956). -/
def closeHeader (E : Env) (lTable : Pos) (lArray : Option Pos) (skip : Bool) :
    M (Option Pos × Option Pos) :=
  if skip then pure (none, none)
  else do
    let a ← closeArray E lArray
    let b ← closeTable E lTable a
    pure (a, b)

/-- Report an item on a line that already has one (crates/toml/src/parse.rs:966-970, 1050-1053,
1062-1065, 1082-1085 and 1104-1107). -/
def expectedNewline (E : Env) (m : Nat) (token : Token) : M Unit := do
  reset m
  let f ← tokenFmtStr E token
  let t ← peek E
  error (.expectedNewlineFound f ⟨token.start, t.start⟩)

/-- The checks for a missing newline (crates/toml/src/parse.rs:958-973 and 1095-1110): whether to go
on. -/
def checkNewline (E : Env) (required : Bool) (m : Nat) (token : Token) : M Bool :=
  if required then do
    let m' ← mark
    if m' = m then do
      error (.missingNewline token.start)
      pure true
    else do
      recoverOn E endsLine
      expectedNewline E m token
      pure false
  else pure true

/-- The new item of a header (crates/toml/src/parse.rs:975-1005). -/
def finishHeader (ovf : Bool) (r : RootSt) (lTable : Pos) (lArray : Option Pos) (key : Option Key)
    (rPars : Option Pos × Option Pos) : M RootSt := do
  let pos ← findAssociatedComments r.prevComments lTable.line
  let asts := r.asts ++ (r.prevComments.take pos).map Ast.comment
  let comments ← storeComments (r.prevComments.drop pos) .above 0
  match lArray with
  | some lArray => do
    let header ← M.lift (ArrayHeader.new ovf (lTable, lArray) key rPars)
    pure ⟨asts ++ [.array ⟨comments, header, []⟩], [], true⟩
  | none => do
    let header ← M.lift (TableHeader.new ovf lTable key rPars.2)
    pure ⟨asts ++ [.table ⟨comments, header, []⟩], [], true⟩

/-- A header (crates/toml/src/parse.rs:887-1009). -/
def rootHeader (E : Env) (token : Token) (r : RootSt) : M RootSt := do
  let m ← mark
  let t ← next E
  let lTable := t.start
  let lArray ← openArray E lTable
  let (key, skip) ← headerKey E
  let rPars ← closeHeader E lTable lArray skip
  if ← checkNewline E r.newlineRequired m token then
    finishHeader E.ovf r lTable lArray key rPars
  else pure r

/-- Append a comment to the last assignment, if any. -/
def appendLast : List ToplevelAssignment → Nat → Option (List ToplevelAssignment)
  | [], _ => none
  | [a], id => do
    let c ← a.comments.append id
    pure [{ a with comments := c }]
  | a :: b :: l, id => do
    let l ← appendLast (b :: l) id
    pure (a :: l)

/-- `Table::append_comment` (crates/toml/src/parse.rs:173-178). -/
def Table.appendComment (t : Table) (id : Nat) : Option Table :=
  if t.assignments.isEmpty then do
    let c ← t.comments.append id
    pure { t with comments := c }
  else do
    let as ← appendLast t.assignments id
    pure { t with assignments := as }

/-- `ArrayEntry::append_comment` (crates/toml/src/parse.rs:248-253). -/
def ArrayEntry.appendComment (t : ArrayEntry) (id : Nat) : Option ArrayEntry :=
  if t.assignments.isEmpty then do
    let c ← t.comments.append id
    pure { t with comments := c }
  else do
    let as ← appendLast t.assignments id
    pure { t with assignments := as }

/-- Append a comment to an item (crates/toml/src/parse.rs:1016-1023); a comment is `unreachable!`. -/
def Ast.appendComment (a : Ast) (id : Nat) : Option Ast :=
  match a with
  | .table t => (t.appendComment id).map .table
  | .array a => (a.appendComment id).map .array
  | .assignment a => (a.comments.append id).map fun c => .assignment { a with comments := c }
  | .comment _ => none

/-- A comment (crates/toml/src/parse.rs:1010-1028). -/
def rootComment (E : Env) (token : Token) (id : Nat) (r : RootSt) : M RootSt := do
  let _ ← next E
  let comment ← getComment E id token.start
  if r.newlineRequired then do
    let cid ← storeComment ⟨.lineEnd, 0, comment⟩
    match r.asts.getLast? with
    | none => M.panic
    | some a => do
      let a ← M.lift (a.appendComment cid)
      pure { r with asts := r.asts.dropLast ++ [a] }
  else pure { r with prevComments := r.prevComments ++ [comment] }

/-- The comments in front of an assignment that are not associated with it, and its level
(crates/toml/src/parse.rs:1112-1141). -/
def looseComments (r : RootSt) (cs : List Comment) : M (List Ast × Nat) :=
  match r.asts.getLast? with
  | some (.table t) => do
    let c ← addComments t.comments .contained cs
    pure (r.asts.dropLast ++ [.table { t with comments := c }], 1)
  | some (.array a) => do
    let c ← addComments a.comments .contained cs
    pure (r.asts.dropLast ++ [.array { a with comments := c }], 1)
  | _ => pure (r.asts ++ cs.map Ast.comment, 0)

/-- Add an assignment (crates/toml/src/parse.rs:1166-1172). -/
def pushAssignment (asts : List Ast) (a : ToplevelAssignment) : List Ast :=
  match asts.getLast? with
  | some (.table t) => asts.dropLast ++ [.table { t with assignments := t.assignments ++ [a] }]
  | some (.array t) => asts.dropLast ++ [.array { t with assignments := t.assignments ++ [a] }]
  | _ => asts ++ [.assignment a]

/-- The value of an assignment (crates/toml/src/parse.rs:1112-1174). -/
def rootValue (E : Env) (r : RootSt) (key : Key) (eq : Pos) : M RootSt := do
  let pos ← findAssociatedComments r.prevComments eq.line
  let (asts, level) ← looseComments r (r.prevComments.take pos)
  let comments ← storeComments (r.prevComments.drop pos) .above level
  match ← parseValue E (RECURSION_LIMIT + 2) level with
  | .ok val => do
    let id ← nextCommentId
    let comments ← M.lift (comments.extendTo id)
    pure ⟨pushAssignment asts ⟨comments, key, eq, val⟩, [], true⟩
  | .error e => do
    error e
    recoverOn E endsLine
    pure { r with asts := asts, prevComments := [] }

/-- The sign behind the key of an assignment (crates/toml/src/parse.rs:1072-1110). -/
def rootEq (E : Env) (token : Token) (m : Nat) (r : RootSt) (key : Key) : M RootSt := do
  let t ← peek E
  if t.ty = .equal then do
    let _ ← next E
    if ← checkNewline E r.newlineRequired m token then rootValue E r key t.start
    else pure r
  else do
    recoverOn E endsLine
    if r.newlineRequired then expectedNewline E m token
    else do
      let (f, s) ← tokenFmtStrAndSpan E t
      error (.expectedEqOrDotFound f s)
    pure r

/-- An assignment (crates/toml/src/parse.rs:1038-1174). -/
def rootAssignment (E : Env) (token : Token) (r : RootSt) : M RootSt := do
  let m ← mark
  match ← parseKey E with
  | .ok key => rootEq E token m r key
  | .unterminatedStr _ => do
    if r.newlineRequired then expectedNewline E m token
    pure r
  | .err e => do
    recoverOn E endsLine
    if r.newlineRequired then expectedNewline E m token
    else error e
    pure r

/-- The loop of `parse` (crates/toml/src/parse.rs:884-1175). -/
def rootLoop (E : Env) : Nat → RootSt → M RootSt
  | 0, _ => M.timeout
  | n + 1, r => do
    let token ← peek E
    match token.ty with
    | .squareLeft => do
      let r ← rootHeader E token r
      rootLoop E n r
    | .comment id => do
      let r ← rootComment E token id r
      rootLoop E n r
    | .newline => do
      let _ ← next E
      rootLoop E n { r with newlineRequired := false }
    | .eof => pure r
    | _ => do
      let r ← rootAssignment E token r
      rootLoop E n r

/-- The environment of the parser for the tokens of a document. -/
def envOf (ovf : Bool) (input : Str) (T : Tokens) : Env :=
  ⟨input, T.strings, T.literals, T.eof, ovf⟩

/-- `parse` (crates/toml/src/parse.rs:877-1177): the tree, and the state at the end; `es` are the
diagnostics of the tokenizer. -/
def parse (ovf : Bool) (input : Str) (T : Tokens) (es : List Error) : Run Asts :=
  let E := envOf ovf input T
  (do
    let n ← budget
    let r ← rootLoop E n ⟨[], [], false⟩
    let cs ← (fun s => .ok s.storage s : M (List AssocComment))
    pure ⟨r.asts ++ r.prevComments.map Ast.comment, cs⟩ : M Asts) ⟨[], T.tokens, es, []⟩

/-- Tokenize and parse a document, as the callers do (crates/cli/src/main.rs:71-73 and
crates/nvim/src/lib.rs:66-69). -/
def parseDocument (ovf : Bool) (input : Str) : Run Asts :=
  match lex input with
  | none => .panic
  | some (T, es) => parse ovf input T es

end Verif.Toml
