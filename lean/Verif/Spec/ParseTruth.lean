import Verif.Spec.Grammar
import Verif.Spec.LitTruth
import Verif.Diag.Model

/-!
# Specification: what the diagnostics of the parser claim

For each kind of diagnostic that the parser gives, what has to be true about the tokens of the document
and about the reported place so that the message is right.  `ts` are the tokens of the document `input`
with their places, in order (`Laid input ts`, see `Spec/Lex.lean`).  Nothing here refers to the parser.
-/

namespace Verif.Spec.Toml
open Verif Verif.Toml

/-- How a message names a token (`none`: the end of the document).  A closing curly bracket is called
`` `{` `` by the code: this is a defect, see `C91_counterexample_curly`. -/
inductive Called : Option View → Str → Prop
  | string {q lit txt} : Called (some (.string q lit txt)) ('`' :: Diag.fmtStr lit ++ ['`'])
  | word {w} : Called (some (.word w)) ('`' :: Diag.fmtStr w ++ ['`'])
  | comment {txt} : Called (some (.comment txt)) "comment".toList
  | punct {c} : c ≠ '}' → Called (some (.punct c)) ['`', c, '`']
  | curly : Called (some (.punct '}')) ['`', '{', '`']
  | newline : Called (some .newline) "`\\n`".toList
  | stop : Called none "`EOF`".toList

/-- Behind the tokens `a` there is the token `o` (`none`: the end of the document), and its text is at
`sp`; the place of a line break is the one in front of it. -/
inductive NextIs (input : Str) (ts a : List Tok) : Option View → Span → Prop
  | token {v x y b} : ts = a ++ (v, posOf x) :: b → x ++ y <+: input → Covers v y → v ≠ .newline →
      NextIs input ts a (some v) ⟨posOf x, posOf (x ++ y)⟩
  | newline {x b} : ts = a ++ (.newline, posOf x) :: b → x <+: input →
      NextIs input ts a (some .newline) ⟨posOf x, posOf x⟩
  | stop : ts = a → NextIs input ts a none ⟨posOf input, posOf input⟩

/-- The tokens that can be a part of a key. -/
inductive KeyLike : View → Prop
  | word {w} : KeyLike (.word w)
  | string {q lit txt} : KeyLike (.string q lit txt)

/-- The tokens that a value starts with. -/
inductive ValueLike : View → Prop
  | key {v} : KeyLike v → ValueLike v
  | array : ValueLike (.punct '[')
  | table : ValueLike (.punct '{')

/-- The end of a line of tokens: a line break, a comment or the end of the document. -/
inductive LineEnd : Option View → Prop
  | newline : LineEnd (some .newline)
  | comment {txt} : LineEnd (some (.comment txt))
  | stop : LineEnd none

/-- How many opening brackets there are among the tokens. -/
def opens (ts : List Tok) : Nat := (ts.filter fun t => t.1 = .punct '[' || t.1 = .punct '{').length

/-- The diagnostic is about the bare literal `lit`, which starts with a word of the document, and what it
says about the literal is right. -/
def LitClaim (input : Str) (ts : List Tok) (e : Error) : Prop :=
  ∃ x lit z w, input = x ++ lit ++ z ∧ (.word w, posOf x) ∈ ts ∧ w <+: lit ∧ Right lit (posOf x) e

/-- What the diagnostic says is true of the document. -/
def Claims (input : Str) (ts : List Tok) : Error → Prop
  /- No key starts at the token. -/
  | .expectedKeyFound f sp => ∃ a o, NextIs input ts a o sp ∧ Called o f ∧ ∀ v, o = some v → ¬ KeyLike v
  /- No value starts at the token. -/
  | .expectedValueFound f sp => ∃ a o, NextIs input ts a o sp ∧ Called o f ∧
      ∀ v, o = some v → ¬ ValueLike v
  /- In front of the token there is a part of a key, and it is followed neither by `=` nor by a dot. -/
  | .expectedEqOrDotFound f sp => ∃ a v p o, NextIs input ts (a ++ [(v, p)]) o sp ∧ Called o f ∧
      KeyLike v ∧ o ≠ some (.punct '=') ∧ o ≠ some (.punct '.')
  /- A curly bracket has been opened at `p`, and the token is not the closing one. -/
  | .expectedRightCurlyFound f p sp => ∃ a o, NextIs input ts a o sp ∧ Called o f ∧
      (.punct '{', p) ∈ a ∧ o ≠ some (.punct '}')
  /- A square bracket has been opened at `p`, and the token is not the closing one: either the array goes
  on to the end of the document (where a line break at the end is marked instead), or the header has
  only one of two closing brackets. -/
  | .expectedRightSquareFound f p sp => ∃ a o sp', NextIs input ts a o sp' ∧ Called o f ∧
      (.punct '[', p) ∈ a ∧ o ≠ some (.punct ']') ∧
      (o = none ∧ (sp = sp' ∨ ∃ q, a.getLast? = some (.newline, q) ∧ sp = ⟨q, q⟩) ∨
        (∃ q, a.getLast? = some (.punct ']', q)) ∧ sp = sp')
  /- A square bracket has been opened at `p`, and the token is neither the closing one nor a dot. -/
  | .expectedDotOrRightSquareFound f p sp => ∃ a o, NextIs input ts a o sp ∧ Called o f ∧
      (.punct '[', p) ∈ a ∧ o ≠ some (.punct ']') ∧ o ≠ some (.punct '.')
  /- The item that starts with the token `v` at `p` is not the first thing on the line, and the line of
  tokens ends at the end of the span (or a string does that has no closing quote). -/
  | .expectedNewlineFound f sp => ∃ a w v p m o sp', NextIs input ts (a ++ w :: (v, p) :: m) o sp' ∧
      w.1 ≠ .newline ∧ Called (some v) f ∧ sp = ⟨p, sp'.start⟩ ∧ (∀ t ∈ (v, p) :: m, ¬ LineEnd (some t.1)) ∧
      (LineEnd o ∨ ∃ t, ((v, p) :: m).getLast? = some t ∧ KeyLike t.1)
  /- The item that starts at `p` is not the first thing on the line. -/
  | .missingNewline p => ∃ a w v b, ts = a ++ w :: (v, p) :: b ∧ w.1 ≠ .newline ∧
      ¬ LineEnd (some v)
  /- Something ends at `p`, and behind it there are only line breaks and comments up to a token that is no
  comma.  What ends at `p` is a token, or an inline table that has not been closed. -/
  | .missingComma p => ∃ a m c v q b, ts = a ++ m ++ c ++ (v, q) :: b ∧ Pos.le p q ∧ v ≠ .punct ',' ∧
      ¬ LineEnd (some v) ∧ (∀ t ∈ c, LineEnd (some t.1)) ∧
      ((∃ w x y, m = [(w, posOf x)] ∧ Covers w y ∧ ¬ LineEnd (some w) ∧ p = posOf (x ++ y)) ∨
        ∃ r, m.head? = some (.punct '{', r) ∧ Pos.le (r.plus 1) p ∧ (c = [] → v ≠ .punct '}'))
  /- There is a comma at `p`, and a comma is the last thing in an inline table.  (The two may be
  different ones: this is a defect, see `C91_counterexample_comma`.) -/
  | .inlineTableTrailingComma p => ∃ a q o sp, NextIs input ts (a ++ [(.punct ',', q)]) o sp ∧
      (o = some (.punct '}') ∨ LineEnd o) ∧ (.punct ',', p) ∈ a ++ [(.punct ',', q)]
  /- There is space between two brackets that have to be adjacent. -/
  | .spaceBetweenArrayPars sp => ∃ a c p q b, ts = a ++ (.punct c, p) :: (.punct c, q) :: b ∧
      (c = '[' ∨ c = ']') ∧ sp = ⟨p.plus 1, q⟩ ∧ p.plus 1 ≠ q
  | .multilineBasicStringIdent sp => ∃ x lit txt, (.string .basicMultiline lit txt, posOf x) ∈ ts ∧
      x ++ lit <+: input ∧ sp = ⟨posOf x, posOf (x ++ lit)⟩
  | .multilineLiteralStringIdent sp => ∃ x lit txt, (.string .literalMultiline lit txt, posOf x) ∈ ts ∧
      x ++ lit <+: input ∧ sp = ⟨posOf x, posOf (x ++ lit)⟩
  /- The first character of the word that cannot be in a bare key. -/
  | .invalidCharInIdentifier c p => ∃ w q u v, (.word w, q) ∈ ts ∧ w = u ++ c :: v ∧
      (∀ d ∈ u, BareChar d) ∧ ¬ BareChar c ∧ p = q.plus (blen u)
  /- The bracket at `p` is behind so many opening brackets (99: in a table, the nesting starts at
  one). -/
  | .recursionLimitExceeded p => ∃ a c b, ts = a ++ (.punct c, p) :: b ∧ (c = '[' ∨ c = '{') ∧
      99 ≤ opens a
  /- More than one blank in front of a word. -/
  | .dateAndTimeTooFarApart sp => ∃ x g w, x ++ g ++ w <+: input ∧ (.word w, posOf (x ++ g)) ∈ ts ∧
      (∀ c ∈ g, c = ' ' ∨ c = '\t') ∧ 1 < g.length ∧ sp = ⟨posOf x, posOf (x ++ g)⟩
  | .unexpectedLiteralStart c p => c = '.' ∧ (.punct '.', p) ∈ ts ∨
      LitClaim input ts (.unexpectedLiteralStart c p)
  | e => LitClaim input ts e

end Verif.Spec.Toml
