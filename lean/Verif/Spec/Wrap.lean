import Verif.Spec.ReqText

/-!
# Specification: versions and requirements with numbers of any size

In builds without overflow checks the reader of numbers accepts some numbers that do not fit `u32`, and takes them modulo
`2^32`.  This file says which ones, and which texts are accepted in each build.
-/

namespace Verif.Spec.Semver
open Verif Verif.Spec Verif.Semver

/-- Whether the number `n` is accepted.  With overflow checks: if it fits `u32`.  Without: if, whenever another digit is
read, the number read so far, modulo `2^32`, can be multiplied by ten. -/
def Accepted (ovf : Bool) (n : Nat) : Prop :=
  if ovf then n < 2 ^ 32 else ∀ k, n / 10 ^ (k + 1) % 2 ^ 32 * 10 < 2 ^ 32

/-- Numbers are accepted and tags are SemVer tags. -/
structure WideVersion (ovf : Bool) (v : Version) : Prop where
  major : Accepted ovf v.major
  minor : Accepted ovf v.minor
  patch : Accepted ovf v.patch
  pre : v.pre = [] ∨ PreTag v.pre
  build : v.build = [] ∨ BuildTag v.build

/-- The version that is made of `v`: its numbers modulo `2^32`. -/
def wrapVersion (v : Version) : Version :=
  ⟨v.major % 2 ^ 32, v.minor % 2 ^ 32, v.patch % 2 ^ 32, v.pre, v.build⟩

/-- `input` is accepted and read as `v`. -/
def WideText (ovf : Bool) (input : Str) (v : Version) : Prop :=
  ∃ w, WideVersion ovf w ∧ v = wrapVersion w ∧ ∃ i j, input = spaces i ++ versionText w ++ spaces j

/-- Numbers are accepted and tags are SemVer tags. -/
def WideCv (ovf : Bool) : CompVersion → Prop
  | .wl _ => True
  | .major a _ => Accepted ovf a
  | .minor a b _ => Accepted ovf a ∧ Accepted ovf b
  | .patch a b c m => Accepted ovf a ∧ Accepted ovf b ∧ Accepted ovf c ∧ ∀ x, m = some x → BuildTag x
  | .pre a b c p m =>
    Accepted ovf a ∧ Accepted ovf b ∧ Accepted ovf c ∧ PreTag p ∧ ∀ x, m = some x → BuildTag x

/-- Numbers modulo `2^32`. -/
def wrapCv : CompVersion → CompVersion
  | .wl w => .wl w
  | .major a w => .major (a % 2 ^ 32) w
  | .minor a b w => .minor (a % 2 ^ 32) (b % 2 ^ 32) w
  | .patch a b c m => .patch (a % 2 ^ 32) (b % 2 ^ 32) (c % 2 ^ 32) m
  | .pre a b c p m => .pre (a % 2 ^ 32) (b % 2 ^ 32) (c % 2 ^ 32) p m

/-- As `Item.Valid`, with numbers of any size. -/
structure WideItem (ovf : Bool) (it : Item) : Prop where
  cv : WideCv ovf it.cv
  wl : it.op = .wl → HasWildcard it.cv ∧ it.sp1 = 0
  bl : it.op = .bl → ¬ HasWildcard it.cv ∧ it.sp1 = 0
  bare : ∀ w, it.cv = .wl w → it.op = .wl

/-- As `ValidItems`, with numbers of any size. -/
structure WideItems (ovf : Bool) (its : List Item) : Prop where
  nonempty : its ≠ []
  bound : its.length ≤ 32
  valid : ∀ it ∈ its, WideItem ovf it
  sole : ∀ it ∈ its, ∀ w, it.cv = .wl w → its.length = 1

/-- A comparator with its numbers modulo `2^32`; its offsets are those of the written text. -/
def wrapComparator (c : Comparator) : Comparator := { c with version := wrapCv c.version }

/-- `input`, written at `pos`, is accepted and read as the requirement `req`. -/
def WideReq (ovf : Bool) (input : Str) (pos : Pos) (req : VersionReq) : Prop :=
  ∃ its, WideItems ovf its ∧ input = itemsText its ∧
    req = ⟨pos, (itemsText its).length, (comparatorsAt 0 its).map wrapComparator⟩

/-- An item with its numbers modulo `2^32`, and spaces in the place of the digits that are lost. -/
def padded (it : Item) : Item :=
  { it with cv := wrapCv it.cv, sp2 := it.sp2 + ((cvText it.cv).length - (cvText (wrapCv it.cv)).length) }

/-- The number `n` makes the addition overflow: one of its leading parts is `2^32`, ..., `2^32 + 3`. -/
def Traps (n : Nat) : Prop := ∃ k, 2 ^ 32 ≤ n / 10 ^ k ∧ n / 10 ^ k ≤ 2 ^ 32 + 3

end Verif.Spec.Semver

namespace Verif.Spec.Semver
open Verif Verif.Spec Verif.Semver

/-- What may stand in front of a number of a version: nothing, or one or two numbers with their dots. -/
def NumbersBefore (s : Str) : Prop :=
  s = [] ∨ (∃ a, a < 2 ^ 32 ∧ s = decimal a ++ ['.']) ∨
  ∃ a b, a < 2 ^ 32 ∧ b < 2 ^ 32 ∧ s = decimal a ++ ['.'] ++ decimal b ++ ['.']

/-- What may stand in front of the version of an item of a requirement: at most 31 complete items with their commas,
spaces, an operator (or none), and spaces. -/
def ItemsBefore (s : Str) : Prop :=
  ∃ its : List Item, ∃ i op j, its.length ≤ 31 ∧ (∀ it ∈ its, it.Valid ∧ ∀ w, it.cv ≠ .wl w) ∧ op ≠ .wl ∧
    (op = .bl → j = 0) ∧ s = its.flatMap (fun it => it.text ++ [',']) ++ (spaces i ++ opWritten op ++ spaces j)

/-- The text does not begin with a digit. -/
def NoDigit (s : Str) : Prop := ∀ c, s.head? = some c → isDigit c = false

/-- The requirement has a number that makes the addition overflow, behind parts that are read without an error. -/
def RequirementTraps (text : Str) : Prop :=
  ∃ b s n rest, ItemsBefore b ∧ NumbersBefore s ∧ Traps n ∧ NoDigit rest ∧ text = b ++ s ++ decimal n ++ rest

end Verif.Spec.Semver
