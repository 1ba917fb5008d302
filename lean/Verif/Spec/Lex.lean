import Verif.Toml.Lex
import Verif.Spec.TomlLit

/-!
# Specification: the tokens of a TOML text

Written from the TOML 1.0 grammar; only the token types of the tokenizer are used, in `resolve`.  Where the code is known to
be more liberal than TOML, the comment says so.
-/

namespace Verif.Spec.Toml
open Verif Verif.Toml

/-- The place behind the text `s`: the number of line feeds in it, and the number of bytes behind
the last one. -/
def posOf (s : Str) : Pos := ⟨s.count '\n', blen (s.reverse.takeWhile (· != '\n'))⟩

/-! ## Strings -/

/-- The delimiter character. -/
def quoteChar : Quote → Char
  | .basic | .basicMultiline => '"'
  | .literal | .literalMultiline => '\''

/-- Does the kind of string allow line breaks? -/
def isMulti : Quote → Bool
  | .basicMultiline | .literalMultiline => true
  | _ => false

/-- Does the kind of string have escapes? -/
def hasEscapes : Quote → Bool
  | .basic | .basicMultiline => true
  | _ => false

/-- Control characters other than tab are not allowed in strings and comments. -/
def Allowed (c : Char) : Prop := c = '\t' ∨ (0x1f < c.toNat ∧ c.toNat ≠ 0x7f)

/-- A character that stands for itself. -/
def Plain (q : Quote) (c : Char) : Prop :=
  Allowed c ∧ c ≠ quoteChar q ∧ ¬ (c = '\\' ∧ hasEscapes q = true)

/-- The text behind a backslash, and the character it stands for. -/
inductive Escape : Str → Char → Prop
  | backspace : Escape ['b'] (Char.ofNat 0x08)
  | tab : Escape ['t'] (Char.ofNat 0x09)
  | linefeed : Escape ['n'] (Char.ofNat 0x0a)
  | formfeed : Escape ['f'] (Char.ofNat 0x0c)
  | carriageReturn : Escape ['r'] (Char.ofNat 0x0d)
  | quote : Escape ['"'] '"'
  | backslash : Escape ['\\'] '\\'
  | unicode4 {h : Str} : h.length = 4 → (∀ c ∈ h, digitOf c < 16) → (numeral 16 h).isValidChar →
      Escape ('u' :: h) (Char.ofNat (numeral 16 h))
  | unicode8 {h : Str} : h.length = 8 → (∀ c ∈ h, digitOf c < 16) → (numeral 16 h).isValidChar →
      Escape ('U' :: h) (Char.ofNat (numeral 16 h))

/-- White space removed behind a backslash at the end of a line.  (TOML allows a carriage return
only in front of a line feed; the code does not check this here.) -/
def isTrimmed (c : Char) : Bool := c = ' ' || c = '\t' || c = '\r' || c = '\n'

/-- `StrTail q src txt rest`: the text `src`, which starts inside of a string of kind `q`, consists
of the contents `txt`, the closing delimiter, and `rest`. -/
inductive StrTail (q : Quote) : Str → Str → Str → Prop
  | close {rest} : isMulti q = false → StrTail q (quoteChar q :: rest) [] rest
  | closeMulti {rest} {k : Nat} : isMulti q = true → k ≤ 2 → rest.head? ≠ some (quoteChar q) →
      StrTail q (List.replicate (k + 3) (quoteChar q) ++ rest) (List.replicate k (quoteChar q)) rest
  | plain {c src txt rest} : Plain q c → StrTail q src txt rest → StrTail q (c :: src) (c :: txt) rest
  | newline {src txt rest} : isMulti q = true → StrTail q src txt rest →
      StrTail q ('\n' :: src) ('\n' :: txt) rest
  | crlf {src txt rest} : isMulti q = true → StrTail q src txt rest →
      StrTail q ('\r' :: '\n' :: src) ('\n' :: txt) rest
  | oneQuote {src txt rest} : isMulti q = true → src.head? ≠ some (quoteChar q) →
      StrTail q src txt rest → StrTail q (quoteChar q :: src) (quoteChar q :: txt) rest
  | twoQuotes {src txt rest} : isMulti q = true → src.head? ≠ some (quoteChar q) →
      StrTail q src txt rest →
      StrTail q (quoteChar q :: quoteChar q :: src) (quoteChar q :: quoteChar q :: txt) rest
  | escape {e c src txt rest} : hasEscapes q = true → Escape e c → StrTail q src txt rest →
      StrTail q ('\\' :: (e ++ src)) (c :: txt) rest
  | lineEnding {w src txt rest} : q = .basicMultiline → (∀ c ∈ w, isTrimmed c = true) → '\n' ∈ w →
      (∀ c, src.head? = some c → isTrimmed c = false) → StrTail q src txt rest →
      StrTail q ('\\' :: (w ++ src)) txt rest

/-- A line break directly behind the opening delimiter of a multi-line string is removed. -/
inductive Trimmed : Str → Str → Prop
  | lf {s} : Trimmed ('\n' :: s) s
  | crlf {s} : Trimmed ('\r' :: '\n' :: s) s
  | keep {s} : s.head? ≠ some '\n' → (¬ ∃ t, s = '\r' :: '\n' :: t) → Trimmed s s

/-- The text `s` starts with a string of kind `q` that is written `lit` and has the contents `txt`;
`rest` follows. -/
inductive StringAt : Quote → Str → Str → Str → Str → Prop
  | single {q src lit txt rest} : isMulti q = false →
      (¬ ∃ t, src = quoteChar q :: quoteChar q :: t) → StrTail q src txt rest →
      quoteChar q :: src = lit ++ rest → StringAt q (quoteChar q :: src) lit txt rest
  | multi {q src src' lit txt rest} : isMulti q = true → Trimmed src src' →
      StrTail q src' txt rest → quoteChar q :: quoteChar q :: quoteChar q :: src = lit ++ rest →
      StringAt q (quoteChar q :: quoteChar q :: quoteChar q :: src) lit txt rest

/-! ## Tokens -/

/-- What a token says, apart from its place. -/
inductive View
  | string (q : Quote) (lit txt : Str)
  | word (w : Str)
  | comment (txt : Str)
  | punct (c : Char)
  | newline
  deriving DecidableEq, Repr

/-- The punctuation characters. -/
def isPunct (c : Char) : Bool :=
  c = '[' || c = ']' || c = '{' || c = '}' || c = '=' || c = '.' || c = ','

/-- Does the text start with a character of a bare word (keys, numbers, dates, booleans)? -/
def startsWord : Str → Bool
  | [] => false
  | c :: cs =>
    !(isPunct c || c = ' ' || c = '\t' || c = '\n' || c = '"' || c = '\'' || c = '#') &&
      !(c = '\r' && cs.head? = some '\n')

/-- A line break. -/
def IsNewline (s : Str) : Prop := s = ['\n'] ∨ s = ['\r', '\n']

/-- `Tokenized pre s ts`: behind the text `pre`, the text `s` consists of the tokens `ts` (with their
places), separated by spaces and tabs. -/
inductive Tokenized : Str → Str → List (View × Pos) → Prop
  | nil {pre} : Tokenized pre [] []
  | blank {pre c s ts} : c = ' ' ∨ c = '\t' → Tokenized (pre ++ [c]) s ts → Tokenized pre (c :: s) ts
  | newline {pre nl s ts} : IsNewline nl → Tokenized (pre ++ nl) s ts →
      Tokenized pre (nl ++ s) ((.newline, posOf pre) :: ts)
  | punct {pre c s ts} : isPunct c = true → Tokenized (pre ++ [c]) s ts →
      Tokenized pre (c :: s) ((.punct c, posOf pre) :: ts)
  | word {pre w s ts} : w ≠ [] → (∀ a c b, w = a ++ c :: b → startsWord (c :: (b ++ s)) = true) →
      startsWord s = false → Tokenized (pre ++ w) s ts →
      Tokenized pre (w ++ s) ((.word w, posOf pre) :: ts)
  | comment {pre txt s ts} : (∀ c ∈ txt, Allowed c) →
      (s = [] ∨ ∃ nl s', IsNewline nl ∧ s = nl ++ s') → Tokenized (pre ++ '#' :: txt) s ts →
      Tokenized pre ('#' :: txt ++ s) ((.comment txt, posOf pre) :: ts)
  | string {pre q s lit txt rest ts} : StringAt q s lit txt rest → Tokenized (pre ++ lit) rest ts →
      Tokenized pre s ((.string q lit txt, posOf pre) :: ts)

/-! ## Texts with lexical errors

Whatever the errors, the text is exactly covered by tokens and blanks. -/

/-- The text of a token. -/
inductive Covers : View → Str → Prop
  | string {q lit txt} : lit.head? = some (quoteChar q) → Covers (.string q lit txt) lit
  | word {w} : w ≠ [] → (∀ c ∈ w, c ≠ ' ' ∧ c ≠ '\t' ∧ c ≠ '\n' ∧ c ≠ '"' ∧ c ≠ '\'' ∧ c ≠ '#' ∧
      isPunct c = false) → Covers (.word w) w
  | comment {txt} : '\n' ∉ txt → Covers (.comment txt) ('#' :: txt)
  | punct {c} : isPunct c = true → Covers (.punct c) [c]
  | newline {nl} : IsNewline nl → Covers .newline nl

/-- `Laid s ts`: the text `s` is made of the tokens `ts` in order, at their places, and of spaces and
tabs between them. -/
inductive Laid : Str → List (View × Pos) → Prop
  | nil : Laid [] []
  | blank {s ts c} : Laid s ts → (c = ' ' ∨ c = '\t') → Laid (s ++ [c]) ts
  | token {s ts v t} : Laid s ts → Covers v t → Laid (s ++ t) (ts ++ [(v, posOf s)])

/-! ## Places -/

/-- The opening delimiter, with a trimmed line break. -/
inductive Opening (q : Quote) : Str → Prop
  | single : isMulti q = false → Opening q [quoteChar q]
  | multi : isMulti q = true → Opening q [quoteChar q, quoteChar q, quoteChar q]
  | multiLf : isMulti q = true → Opening q [quoteChar q, quoteChar q, quoteChar q, '\n']
  | multiCrlf : isMulti q = true → Opening q [quoteChar q, quoteChar q, quoteChar q, '\r', '\n']

/-- A span starts and ends at character boundaries of the document. -/
def SpanIn (input : Str) (s : Span) : Prop :=
  ∃ x y z, input = x ++ y ++ z ∧ s = ⟨posOf x, posOf (x ++ y)⟩

/-- The view of a token: what it says according to the tables of strings and words, and its place.
(`None`: an end-of-file token, or an index outside of the tables.) -/
def resolve (strings : List StringToken) (literals : List Str) (t : Token) : Option (View × Pos) :=
  match t.ty with
  | .string id => strings[id]?.map fun s => (.string s.quote s.lit s.text, t.start)
  | .literalOrIdent id => literals[id]?.map fun s => (.word s, t.start)
  | .comment id => literals[id]?.map fun s => (.comment s, t.start)
  | .squareLeft => some (.punct '[', t.start)
  | .squareRight => some (.punct ']', t.start)
  | .curlyLeft => some (.punct '{', t.start)
  | .curlyRight => some (.punct '}', t.start)
  | .equal => some (.punct '=', t.start)
  | .comma => some (.punct ',', t.start)
  | .dot => some (.punct '.', t.start)
  | .newline => some (.newline, t.start)
  | .eof => none

end Verif.Spec.Toml
