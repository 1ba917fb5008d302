import Verif.Spec.Decimal

/-!
# Specification: SemVer 2.0.0 identifiers, tags and precedence

Independent of the model of the code: this file only says what SemVer says.
-/

namespace Verif.Spec.Semver
open Verif Verif.Spec

/-- `[0-9A-Za-z-]`. -/
def identChar (c : Char) : Bool := isDigit c || isAlpha c || c == '-'

/-- A prerelease identifier: a number or an alphanumeric identifier. -/
inductive Ident
  | num (n : Nat)
  | alnum (s : Str)
  deriving DecidableEq, Repr

/-- How an identifier is written: numbers without leading zeros. -/
def Ident.text : Ident → Str
  | num n => decimal n
  | alnum s => s

/-- An alphanumeric identifier consists of identifier characters, at least one of which is not a
digit. -/
def Ident.Valid : Ident → Prop
  | num _ => True
  | alnum s => (∀ c ∈ s, identChar c = true) ∧ ∃ c ∈ s, isDigit c = false

/-- SemVer 2.0.0 section 11.4.1-3: precedence of two identifiers. -/
inductive Ident.Lt : Ident → Ident → Prop
  /-- "Identifiers consisting of only digits are compared numerically." -/
  | num {a b : Nat} : a < b → Lt (num a) (num b)
  /-- "Numeric identifiers always have lower precedence than non-numeric identifiers." -/
  | numAlnum {a : Nat} {s : Str} : Lt (num a) (alnum s)
  /-- "Identifiers with letters or hyphens are compared lexically in ASCII sort order." -/
  | alnum {s t : Str} : s.map Char.toNat < t.map Char.toNat → Lt (alnum s) (alnum t)

/-- Segments joined with dots. -/
def dotted : List Str → Str
  | [] => []
  | [s] => s
  | s :: t :: ss => s ++ '.' :: dotted (t :: ss)

/-- The text of a prerelease tag; `[]` is a release (no tag). -/
def tagText (t : List Ident) : Str := dotted (t.map Ident.text)

/-- SemVer 2.0.0 section 11.3-4: precedence of two prerelease tags (`[]` = release). -/
inductive TagLt : List Ident → List Ident → Prop
  /-- "a pre-release version has lower precedence than the associated normal version" -/
  | release {i : Ident} {is : List Ident} : TagLt (i :: is) []
  /-- the first differing identifier decides -/
  | diff {p xs ys : List Ident} {x y : Ident} : Ident.Lt x y → TagLt (p ++ x :: xs) (p ++ y :: ys)
  /-- "A larger set of pre-release fields has a higher precedence than a smaller set, if all of
  the preceding identifiers are equal." -/
  | longer {p ys : List Ident} {y : Ident} : p ≠ [] → TagLt p (p ++ y :: ys)

end Verif.Spec.Semver

namespace Verif.Spec.Semver
open Verif Verif.Spec

/-- How the crate documents the order of two build-metadata identifiers
(`0 < 00 < 1 < 01 < 001 < 2 < 02 < 002 < 10`): digit strings by value and then by length; digit
strings before others; others in ASCII order. -/
inductive BuildIdentLt : Str → Str → Prop
  | value {s t : Str} : s.all isDigit = true → t.all isDigit = true → decVal s < decVal t →
      BuildIdentLt s t
  | zeros {s t : Str} : s.all isDigit = true → t.all isDigit = true → decVal s = decVal t →
      s.length < t.length → BuildIdentLt s t
  | numAlnum {s t : Str} : s.all isDigit = true → t.all isDigit = false → BuildIdentLt s t
  | alnum {s t : Str} : s.all isDigit = false → t.all isDigit = false →
      s.map Char.toNat < t.map Char.toNat → BuildIdentLt s t

/-- The order of two build-metadata tags, given as their lists of identifiers. -/
inductive BuildLt : List Str → List Str → Prop
  | diff {p xs ys : List Str} {x y : Str} : BuildIdentLt x y → BuildLt (p ++ x :: xs) (p ++ y :: ys)
  | longer {p ys : List Str} {y : Str} : BuildLt p (p ++ y :: ys)

/-- The order of two build-metadata texts (the empty text has one empty identifier). -/
def BuildTextLt (s t : Str) : Prop :=
  ∃ xs ys : List Str, xs ≠ [] ∧ ys ≠ [] ∧ (∀ x ∈ xs, '.' ∉ x) ∧ (∀ y ∈ ys, '.' ∉ y) ∧
    s = dotted xs ∧ t = dotted ys ∧ BuildLt xs ys

end Verif.Spec.Semver
