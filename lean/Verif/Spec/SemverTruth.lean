import Verif.Spec.Wrap
import Verif.Semver.ErrorText

/-!
# Specification: what the errors of the semver parsers say

An error names a part of a version, and its span covers a part `b` of the text; `a` is the text in front of it and `t`
the text behind it.  The definitions say of which texts `a ++ b ++ t` the error is true.
-/

namespace Verif.Spec.Semver
open Verif Verif.Spec Verif.Semver

/-- What stands in front of a number of a version that is read up to there. -/
inductive Before (ovf : Bool) : NumField → Str → Prop
  | major : Before ovf .major []
  | minor {x} : Accepted ovf x → Before ovf .minor (decimal x ++ ['.'])
  | patch {x y} : Accepted ovf x → Accepted ovf y → Before ovf .patch (decimal x ++ ['.'] ++ decimal y ++ ['.'])

/-- What stands in front of a tag of a version, with the `-` or the `+` of the tag. -/
inductive TagBefore (ovf : Bool) : IdentField → Str → Prop
  | pre {s z} : Before ovf .patch s → Accepted ovf z → TagBefore ovf .prerelease (s ++ decimal z ++ ['-'])
  | build {s z} : Before ovf .patch s → Accepted ovf z → TagBefore ovf .buildMetadata (s ++ decimal z ++ ['+'])
  | both {s z p} : Before ovf .patch s → Accepted ovf z → PreTag p →
      TagBefore ovf .buildMetadata (s ++ decimal z ++ ['-'] ++ p ++ ['+'])

/-- A segment of a tag. -/
def Segment : IdentField → Str → Prop
  | .prerelease, x => ∃ i : Ident, i.Valid ∧ x = i.text
  | .buildMetadata, x => x ≠ [] ∧ ∀ c ∈ x, identChar c = true

/-- Complete segments of a tag with their dots. -/
def Segments (f : IdentField) (y : Str) : Prop :=
  ∃ segs : List Str, (∀ x ∈ segs, Segment f x) ∧ y = segs.flatMap (· ++ ['.'])

/-- The text does not begin with a character of an identifier. -/
def NoIdent (s : Str) : Prop := ∀ c, s.head? = some c → identChar c = false

/-- `b ++ t` stands where the number `f` is expected, and this is what is wrong with it. -/
inductive NumberFault (f : NumField) : Error → Str → Str → Prop
  | missing {p} : NumberFault f (.missingField f p) [] []
  | zero {p d t} : isDigit d = true → NumberFault f (.leadingZeroNum f p) ['0'] (d :: t)
  | char {c p t} : isDigit c = false → NumberFault f (.invalidIntChar c f p) [c] t
  | large {p n b t} : b.all isDigit = true → b.head? ≠ some '0' → NoDigit t → 2 ^ 32 ≤ decVal b →
      NumberFault f (.intOverflow f p n) b t

/-- `y ++ b ++ t` stands where the tag `f` is expected, and this is what is wrong with it. -/
inductive TagFault : IdentField → Error → Str → Str → Str → Prop
  | empty {f p t} : NoIdent t → t.head? ≠ some '.' → TagFault f (.emptyIdentifier f p) [] [] t
  | segment {f p y t} : Segments f y → NoIdent t → (y = [] → t.head? = some '.') →
      TagFault f (.emptyIdentifierSegment f p) y [] t
  | zero {p y d t} : Segments .prerelease y → d ≠ [] → d.all isDigit = true → NoIdent t →
      TagFault .prerelease (.leadingZeroSegment .prerelease p) y ['0'] (d ++ t)

/-- A version is written wrongly: `a ++ b ++ t` stands where it is expected. -/
inductive PartFault (ovf : Bool) : Error → Str → Str → Str → Prop
  | number {f e a b t} : Before ovf f a → NumberFault f e b t → PartFault ovf e a b t
  | tag {f e a y b t} : TagBefore ovf f a → TagFault f e y b t → PartFault ovf e (a ++ y) b t

/-- Which part a complete version ends with, as the error about characters behind it stores it: the build tag if there
is one; otherwise `prerelease` if there is no prerelease tag, and nothing if there is one. -/
def endsWith (v : Version) : Option IdentField :=
  if v.build ≠ [] then some .buildMetadata else if v.pre = [] then some .prerelease else none

/-- What `parse_version` says about the text `a ++ b ++ t`. -/
inductive VersionFault (ovf : Bool) : Error → Str → Str → Str → Prop
  | part {i e a b t} : PartFault ovf e a b t → VersionFault ovf e (spaces i ++ a) b t
  | dot {i f a n c p t} : Before ovf f a → f ≠ .patch → Accepted ovf n → c ≠ '.' → isDigit c = false →
      VersionFault ovf (.expectedDot c f p) (spaces i ++ a ++ decimal n) [c] t
  | noDot {i f a n p} : Before ovf f a → f ≠ .patch → Accepted ovf n →
      VersionFault ovf (.missingDot f p) (spaces i ++ a ++ decimal n) [] []
  | trailing {i v k s p j} : WideVersion ovf v → s ≠ [] → s.head? ≠ some ' ' → s.getLast? ≠ some ' ' →
      VersionFault ovf (.trailingCharacters s (endsWith v) p) (spaces i ++ versionText v ++ spaces k) s (spaces j)

/-- A version of a requirement is written wrongly. -/
inductive ComparatorFault (ovf : Bool) : Error → Str → Str → Str → Prop
  | part {e a b t} : PartFault ovf e a b t → ComparatorFault ovf e a b t
  | wildcard {n w c p t} : Accepted ovf n → c ∉ ['*', 'x', 'X'] →
      ComparatorFault ovf (.unexpectedAfterWildcard c .minor p) (decimal n ++ ['.', WlChar.char w, '.']) [c] t
  | wildcardEnd {n w p} : Accepted ovf n →
      ComparatorFault ovf (.missingField .patch p) (decimal n ++ ['.', WlChar.char w, '.']) [] []

/-- Complete items of a requirement with their commas, none of which is a bare wildcard. -/
def Items (ovf : Bool) (its : List Item) (s : Str) : Prop :=
  (∀ it ∈ its, WideItem ovf it ∧ ∀ w, it.cv ≠ .wl w) ∧ s = its.flatMap (fun it => it.text ++ [','])

/-- What `parse_requirement` says about the text `a ++ b ++ t`. -/
inductive RequirementFault (ovf : Bool) : Error → Str → Str → Str → Prop
  | version {its s i op j e a b t} : Items ovf its s → its.length ≤ 31 → op ≠ .wl → (op = .bl → j = 0) →
      ComparatorFault ovf e a b t → RequirementFault ovf e (s ++ spaces i ++ opWritten op ++ spaces j ++ a) b t
  | op {its s i c p t} : Items ovf its s → its.length ≤ 31 → isDigit c = false →
      c ∉ ['=', '<', '>', '^', '~', '*', 'x', 'X', ' '] → RequirementFault ovf (.invalidOp c p) (s ++ spaces i) [c] t
  | comma {its s it p t} : Items ovf its s → its.length ≤ 31 → WideItem ovf it → t ≠ [] → t.head? ≠ some ',' →
      t.head? ≠ some ' ' → RequirementFault ovf (.missingComma p) (s ++ it.text) [] t
  | trailing {its s it p j} : Items ovf its s → its.length ≤ 31 → WideItem ovf it →
      RequirementFault ovf (.trailingComma p) (s ++ it.text) [','] (spaces j)
  | wildcardBehind {its s i w p t} : Items ovf its s → its ≠ [] → its.length ≤ 31 →
      RequirementFault ovf (.wildcardNotTheSoleComparator w p) (s ++ spaces i) [w.char] t
  | wildcardInFront {i w p t} : (t.head? = some ' ' ∨ t.head? = some ',') → (∀ j, t ≠ spaces j) →
      (∀ j k, t ≠ spaces j ++ [','] ++ spaces k) →
      RequirementFault ovf (.wildcardNotTheSoleComparator w p) (spaces i) [w.char] t
  | tooMany {its s i p n b} : Items ovf its s → its.length = 32 → b ≠ [] → b.head? ≠ some ' ' →
      RequirementFault ovf (.excessiveComparators p n) (s ++ spaces i) b []
  | empty {p i} : RequirementFault ovf (.emptyVersionReq p) [] [] (spaces i)
  | wildcard {i w c p t} : c ≠ ' ' → c ≠ ',' →
      RequirementFault ovf (.unexpectedAfterWildcard c .major p) (spaces i ++ [WlChar.char w]) [c] t

/-- The error is true of the text `text` that is written at `pos`, and its span covers the faulty part. -/
def Told (fault : Error → Str → Str → Str → Prop) (pos : Pos) (text : Str) (e : Error) : Prop :=
  ∃ a b t, text = a ++ b ++ t ∧ e.span = ⟨pos.plus (blen a), pos.plus (blen a + blen b)⟩ ∧ fault e a b t

/-- The name of a tag. -/
def tagName : IdentField → Str
  | .prerelease => "pre-release identifier".toList
  | .buildMetadata => "build-metadata".toList

end Verif.Spec.Semver
