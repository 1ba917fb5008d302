import Verif.Spec.Grammar

/-!
# Specification: documents with damaged lines

A document is cut into parts: right ones, which are as in the grammar (a line, or several lines if there is an array or a
multi-line string), and damaged lines, which contain anything.  A part is given by the items it says, or by the number
of the damaged line.
-/

namespace Verif.Spec.Toml
open Verif Verif.Toml

/-- A line with almost any contents.  It must not begin something that goes on in the next line, a multi-line string or
an array, and not exceed the limit of nested tables. -/
structure AnyLine (t : Str) : Prop where
  oneLine : '\n' ∉ t
  noBasic : ¬ ∃ a b, t = a ++ '"' :: '"' :: '"' :: b
  noLiteral : ¬ ∃ a b, t = a ++ '\'' :: '\'' :: '\'' :: b
  noArray : ∀ a b, t = a ++ '=' :: b → '[' ∉ b
  flat : t.count '{' ≤ 99

/-- `Damaged pre text ps`: behind the text `pre`, which ends with a line break or is empty, the text consists of the parts
`ps`. -/
inductive Damaged : Str → Str → List (List Item ⊕ Nat) → Prop
  | rightEnd {pre t ts is} : Tokenized pre t ts → Line true ts is → Damaged pre t [.inl is]
  | damagedEnd {pre t} : AnyLine t → Damaged pre t [.inr (posOf pre).line]
  | right {pre t ts p is text ps} : Tokenized pre (t ++ ['\n']) (ts ++ [(.newline, p)]) → Line true ts is →
      Damaged (pre ++ t ++ ['\n']) text ps → Damaged pre (t ++ '\n' :: text) (.inl is :: ps)
  | damaged {pre t text ps} : AnyLine t → Damaged (pre ++ t ++ ['\n']) text ps →
      Damaged pre (t ++ '\n' :: text) (.inr (posOf pre).line :: ps)

/-- The items of the right parts are there, in their order; there may be any for the damaged lines. -/
inductive Filled : List (List Item ⊕ Nat) → List Item → Prop
  | nil : Filled [] []
  | right {is ps rest} : Filled ps rest → Filled (.inl is :: ps) (is ++ rest)
  | damaged {ℓ ps is rest} : Filled ps rest → Filled (.inr ℓ :: ps) (is ++ rest)

end Verif.Spec.Toml
