import Verif.Spec.SemverText
import Verif.Semver.Parse

/-!
# Specification: the texts of version requirements

A requirement is a comma separated list of 1 to 32 items; an item is an operator (or nothing) and
a possibly partial version, with spaces allowed around both.  `VersionReq` remembers where
everything was written.
-/

namespace Verif.Spec.Semver
open Verif Verif.Spec Verif.Semver

/-- How a comparator version is written. -/
def cvText : CompVersion → Str
  | .wl w => [w.char]
  | .major a none => decimal a
  | .major a (some (w, none)) => decimal a ++ ['.', w.char]
  | .major a (some (w, some w')) => decimal a ++ ['.', w.char] ++ ['.', w'.char]
  | .minor a b none => decimal a ++ ['.'] ++ decimal b
  | .minor a b (some w) => decimal a ++ ['.'] ++ decimal b ++ ['.', w.char]
  | .patch a b c m => decimal a ++ ['.'] ++ decimal b ++ ['.'] ++ decimal c
      ++ (match m with | none => [] | some m => ['+'] ++ m)
  | .pre a b c p m => decimal a ++ ['.'] ++ decimal b ++ ['.'] ++ decimal c ++ ['-'] ++ p
      ++ (match m with | none => [] | some m => ['+'] ++ m)

/-- How an operator is written; a blank and a wildcard comparator have none. -/
def opWritten : Op → Str
  | .eq => ['=']
  | .lt => ['<']
  | .le => ['<', '=']
  | .gt => ['>']
  | .ge => ['>', '=']
  | .cr => ['^']
  | .tl => ['~']
  | .wl => []
  | .bl => []

/-- Numbers fit `u32`, tags are SemVer tags. -/
def ValidCv : CompVersion → Prop
  | .wl _ => True
  | .major a _ => a < 2 ^ 32
  | .minor a b _ => a < 2 ^ 32 ∧ b < 2 ^ 32
  | .patch a b c m => a < 2 ^ 32 ∧ b < 2 ^ 32 ∧ c < 2 ^ 32 ∧ ∀ x, m = some x → BuildTag x
  | .pre a b c p m =>
    a < 2 ^ 32 ∧ b < 2 ^ 32 ∧ c < 2 ^ 32 ∧ PreTag p ∧ ∀ x, m = some x → BuildTag x

/-- A wildcard is written somewhere in the version. -/
def HasWildcard : CompVersion → Prop
  | .wl _ => True
  | .major _ w => w ≠ none
  | .minor _ _ w => w ≠ none
  | _ => False

/-- One item of a requirement, with the number of spaces in each gap. -/
structure Item where
  sp0 : Nat
  op : Op
  sp1 : Nat
  cv : CompVersion
  sp2 : Nat
  deriving DecidableEq, Repr

/-- The written form of an item (without the comma). -/
def Item.text (it : Item) : Str :=
  spaces it.sp0 ++ opWritten it.op ++ spaces it.sp1 ++ cvText it.cv ++ spaces it.sp2

/-- `Op.wl` is recorded exactly when a wildcard is written without operator, `Op.bl` when a plain
version is written without operator; a bare wildcard has no operator. -/
structure Item.Valid (it : Item) : Prop where
  cv : ValidCv it.cv
  wl : it.op = .wl → HasWildcard it.cv ∧ it.sp1 = 0
  bl : it.op = .bl → ¬ HasWildcard it.cv ∧ it.sp1 = 0
  bare : ∀ w, it.cv = .wl w → it.op = .wl

/-- The items of a requirement: 1 to 32 valid items, and a bare wildcard stands alone. -/
structure ValidItems (its : List Item) : Prop where
  nonempty : its ≠ []
  bound : its.length ≤ 32
  valid : ∀ it ∈ its, it.Valid
  sole : ∀ it ∈ its, ∀ w, it.cv = .wl w → its.length = 1

/-- Items joined with commas. -/
def itemsText : List Item → Str
  | [] => []
  | [it] => it.text
  | it :: it' :: its => it.text ++ [','] ++ itemsText (it' :: its)

/-- The comparators for items written from byte offset `off` on. -/
def comparatorsAt (off : Nat) : List Item → List Comparator
  | [] => []
  | [it] => [⟨off + it.sp0, it.op, off + it.sp0 + (opWritten it.op).length + it.sp1, it.cv, none⟩]
  | it :: it' :: its =>
    ⟨off + it.sp0, it.op, off + it.sp0 + (opWritten it.op).length + it.sp1, it.cv,
      some (off + it.text.length)⟩ :: comparatorsAt (off + it.text.length + 1) (it' :: its)

/-- `input`, written at `pos`, is the requirement `req`. -/
def ReqText (input : Str) (pos : Pos) (req : VersionReq) : Prop :=
  ∃ its, ValidItems its ∧ input = itemsText its ∧
    req = ⟨pos, (itemsText its).length, comparatorsAt 0 its⟩

/-- The text `b` that the span of an error must cover. -/
def ErrorCovers : Error → Str → Prop
  | .trailingCharacters s _ _, b => b = s ∧ s ≠ []
  | .missingField _ _, b => b = []
  | .leadingZeroNum _ _, b => b = ['0']
  | .invalidIntChar c _ _, b => b = [c] ∧ isDigit c = false
  | .intOverflow _ _ _, b => b.all isDigit = true ∧ 2 ^ 32 ≤ decVal b
  | .expectedDot c _ _, b => b = [c] ∧ c ≠ '.'
  | .missingDot _ _, b => b = []
  | .emptyIdentifier _ _, b => b = []
  | .emptyIdentifierSegment _ _, b => b = []
  | .leadingZeroSegment _ _, b => b = ['0']
  | .invalidOp c _, b => b = [c]
  | .missingComma _, b => b = []
  | .trailingComma _, b => b = [',']
  | .wildcardNotTheSoleComparator w _, b => b = [w.char]
  | .excessiveComparators _ _, b => b ≠ []
  | .emptyVersionReq _, b => b = []
  | .unexpectedAfterWildcard c _ _, b => b = [c]

/-- The span of `e` covers, in `input` written at `start`, a piece of text between two character
boundaries, and that piece is what the error talks about. -/
def ErrorIn (start : Pos) (input : Str) (e : Error) : Prop :=
  ∃ a b t, input = a ++ b ++ t ∧
    e.span = ⟨start.plus (blen a), start.plus (blen a + blen b)⟩ ∧ ErrorCovers e b

end Verif.Spec.Semver
