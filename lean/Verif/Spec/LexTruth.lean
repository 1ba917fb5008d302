import Verif.Spec.Lex

/-!
# Specification: what the diagnostics of the tokenizer claim

`LexTrue x y z e` says that the diagnostic `e`, put on the text `y` of a document `x ++ y ++ z`, is a
true statement about that document.  Written from the messages of the diagnostics and from the TOML
grammar.
-/

namespace Verif.Spec.Toml
open Verif Verif.Toml

/-- The text `b`, behind the opening delimiter of a string of kind `q`, has no closing delimiter:
every quote (every run of three quotes in a multi-line string) is directly behind a backslash, and
backslashes mean something in this kind of string. -/
def Unclosed (q : Quote) (b : Str) : Prop :=
  ∀ u v, b = u ++ List.replicate (if isMulti q then 3 else 1) (quoteChar q) ++ v →
    hasEscapes q = true ∧ u.getLast? = some '\\'

/-- The text `x` ends inside of a string of kind `q`: some delimiter opens a string, and neither a
closing delimiter nor (for strings of one line) a line feed follows. -/
def InString (q : Quote) (x : Str) : Prop :=
  ∃ p o b, x = p ++ o ++ b ∧ Opening q o ∧ (isMulti q = false → '\n' ∉ b) ∧ Unclosed q b

/-- The text `x` ends inside of a comment: there is no line feed behind a `#`. -/
def InComment (x : Str) : Prop := ∃ p b, x = p ++ '#' :: b ∧ '\n' ∉ b

/-- The letter of a unicode escape, and how many digits it wants. -/
inductive UnicodeLetter : Char → Nat → Prop
  | four : UnicodeLetter 'u' 4
  | eight : UnicodeLetter 'U' 8

/-- The value of a text of hexadecimal digits; other characters count as zero. -/
def hexValue (w : Str) : Nat :=
  w.foldl (fun v c => v * 16 + (if digitOf c < 16 then digitOf c else 0)) 0

/-- The text starts with a line break, or is empty. -/
def AtLineEnd (z : Str) : Prop := z = [] ∨ ∃ n r, IsNewline n ∧ z = n ++ r

/-- What a diagnostic of the tokenizer says about the document `x ++ y ++ z`, of which it marks `y`. -/
def LexTrue (x y z : Str) : Error → Prop
  | .missingQuote q _ =>
    -- a string starts here and is not closed: on this line, or up to the end of the document
    ∃ o b w, Opening q o ∧ y ++ w = o ++ b ∧ Unclosed q b ∧
      (isMulti q = false → w = [] ∧ '\n' ∉ y ∧ AtLineEnd z) ∧
      (isMulti q = true → w = z ∧ (z = [] ∨ IsNewline z))
  | .excessiveQuotes q _ =>
    -- more than five quotes in a row end the string; the first four are not marked
    ∃ x' k, x = x' ++ List.replicate 4 (quoteChar q) ∧ 2 ≤ k ∧ y = List.replicate k (quoteChar q) ∧
      z.head? ≠ some (quoteChar q) ∧ isMulti q = true ∧ InString q x'
  | .invalidStringChar c _ =>
    y = [c] ∧ ¬ Allowed c ∧ c ≠ '\n' ∧
      ∃ q, InString q x ∧ ¬ (c = '\r' ∧ isMulti q = true ∧ z.head? = some '\n')
  | .invalidEscapeChar c _ =>
    y = [] ∧ z.head? = some c ∧ (∀ e ch, ¬ Escape (c :: e) ch) ∧ isTrimmed c = false ∧
      ∃ q x', x = x' ++ ['\\'] ∧ InString q x' ∧ hasEscapes q = true
  | .invalidUnicodeEscapeChar c _ =>
    y = [] ∧ z.head? = some c ∧ ¬ digitOf c < 16 ∧
      ∃ q x' u n w, x = x' ++ '\\' :: u :: w ∧ UnicodeLetter u n ∧ w.length < n ∧ InString q x' ∧
        hasEscapes q = true
  | .invalidUnicodeCodepoint n cp _ =>
    ∃ q u w, y = '\\' :: u :: w ∧ UnicodeLetter u n ∧ w.length = n ∧ cp = hexValue w ∧
      ¬ cp.isValidChar ∧ InString q x ∧ hasEscapes q = true
  | .invalidLineEndingEscape _ =>
    ∃ w, y = '\\' :: w ∧ w ≠ [] ∧ (∀ c ∈ w, isTrimmed c = true) ∧ '\n' ∉ w ∧
      (∀ c, z.head? = some c → isTrimmed c = false) ∧ InString .basicMultiline x
  | .unfinishedEscapeSequence _ =>
    ∃ q, InString q x ∧ hasEscapes q = true ∧
      ((y = ['\\'] ∧ (z = [] ∨ (isMulti q = false ∧ ∃ c, z.head? = some c ∧ isTrimmed c = true))) ∨
        ∃ u n w, y = '\\' :: u :: w ∧ UnicodeLetter u n ∧ w.length < n ∧
          (z = [] ∨ ∃ c, z.head? = some c ∧ (c = ' ' ∨ c = '\n' ∨ c = '"')))
  | _ => False

/-- The diagnostic `e` of the tokenizer is true of the document, and it marks the text it is about. -/
def LexTold (input : Str) (e : Error) : Prop :=
  ∃ x y z, input = x ++ y ++ z ∧ e.span = ⟨posOf x, posOf (x ++ y)⟩ ∧ LexTrue x y z e

end Verif.Spec.Toml
