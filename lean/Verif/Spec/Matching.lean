import Verif.Semver.Types
import Verif.Spec.SemverText

/-!
# Specification: which versions a comparator admits

Written from the Cargo documentation ("Specifying Dependencies") in terms of half-open intervals
of `(major, minor, patch)` triples, not from the code.  Everything is relative to an order `lt` of
prerelease tags; the properties use `TagTextLt`, the one of SemVer 2.0.0 section 11.
-/

namespace Verif.Spec.Matching
open Verif Verif.Semver Verif.Spec.Semver

/-- `(major, minor, patch)`. -/
abbrev Triple := Nat × Nat × Nat

/-- Lexicographic order of triples. -/
def TLt (a b : Triple) : Prop :=
  a.1 < b.1 ∨ (a.1 = b.1 ∧ (a.2.1 < b.2.1 ∨ (a.2.1 = b.2.1 ∧ a.2.2 < b.2.2)))

def TLe (a b : Triple) : Prop := ¬ TLt b a

/-- The triple of a version. -/
def triple (v : Version) : Triple := (v.major, v.minor, v.patch)

/-- The smallest triple agreeing with the written components. -/
def floor : CompVersion → Triple
  | .wl _ => (0, 0, 0)
  | .major a _ => (a, 0, 0)
  | .minor a b _ => (a, b, 0)
  | .patch a b c _ => (a, b, c)
  | .pre a b c _ _ => (a, b, c)

/-- `t` agrees with every written component. -/
def Agrees : CompVersion → Triple → Prop
  | .wl _, _ => True
  | .major a _, t => t.1 = a
  | .minor a b _, t => t.1 = a ∧ t.2.1 = b
  | .patch a b c _, t => t = (a, b, c)
  | .pre a b c _ _, t => t = (a, b, c)

/-- All three numeric components are written. -/
def Full : CompVersion → Prop
  | .patch .. => True
  | .pre .. => True
  | _ => False

/-- The written prerelease tag (empty if none). -/
def tag : CompVersion → Str
  | .pre _ _ _ p _ => p
  | _ => []

/-- First triple with a different left-most non-zero component: the caret upper bound. -/
def caretCeil : CompVersion → Triple
  | .wl _ => (0, 0, 0)
  | .major a _ => (a + 1, 0, 0)
  | .minor a b _ => if a = 0 then (0, b + 1, 0) else (a + 1, 0, 0)
  | .patch a b c _ | .pre a b c _ _ =>
    if a = 0 then (if b = 0 then (0, 0, c + 1) else (0, b + 1, 0)) else (a + 1, 0, 0)

/-- The tilde upper bound: next minor if a minor is written, else next major. -/
def tildeCeil : CompVersion → Triple
  | .wl _ => (0, 0, 0)
  | .major a _ => (a + 1, 0, 0)
  | .minor a b _ | .patch a b _ _ | .pre a b _ _ _ => (a, b + 1, 0)

/-- First triple above everything that agrees with the written components. -/
def ceil : CompVersion → Triple
  | .wl _ => (0, 0, 0)
  | .major a _ => (a + 1, 0, 0)
  | .minor a b _ => (a, b + 1, 0)
  | .patch a b c _ | .pre a b c _ _ => (a, b, c + 1)

/-- An order of prerelease tags. -/
abbrev TagOrder := Str → Str → Prop

/-- SemVer precedence of two tags, given as texts (the empty text is a release). -/
def TagTextLt : TagOrder := fun p q =>
  ∃ a b : List Ident, (∀ i ∈ a, i.Valid) ∧ (∀ i ∈ b, i.Valid) ∧ p = tagText a ∧ q = tagText b ∧
    TagLt a b

/-- SemVer precedence of a (triple, tag) pair: build metadata is ignored. -/
def PrecLt (lt : TagOrder) (a b : Triple × Str) : Prop :=
  TLt a.1 b.1 ∨ (a.1 = b.1 ∧ lt a.2 b.2)

def PrecLe (lt : TagOrder) (a b : Triple × Str) : Prop := ¬ PrecLt lt b a

/-- (triple, tag) of a version and of a comparator version. -/
def point (v : Version) : Triple × Str := (triple v, v.pre)
def bound (cv : CompVersion) : Triple × Str := (floor cv, tag cv)

/-- What each operator means for a *release* version. -/
def AdmitsRelease (lt : TagOrder) (op : Op) (cv : CompVersion) (v : Version) : Prop :=
  match op with
  | .eq | .wl => Agrees cv (triple v) ∧ tag cv = []
  | .gt => (Full cv ∧ PrecLt lt (bound cv) (point v)) ∨ (¬ Full cv ∧ TLe (ceil cv) (triple v))
  | .ge => PrecLe lt (bound cv) (point v)
  | .lt => PrecLt lt (point v) (bound cv)
  | .le => (Full cv ∧ PrecLe lt (point v) (bound cv)) ∨ (¬ Full cv ∧ TLt (triple v) (ceil cv))
  | .tl => PrecLe lt (bound cv) (point v) ∧ TLt (triple v) (tildeCeil cv)
  | .cr | .bl => PrecLe lt (bound cv) (point v) ∧ TLt (triple v) (caretCeil cv)

/-- What each operator means for a *prerelease* version (before the opt-in rule): with a full
version the order of SemVer precedence decides (bounded above as for releases); with a partial
version the numeric components decide, and versions that merely agree with the written components
are admitted only by caret. -/
def AdmitsPre (lt : TagOrder) (op : Op) (cv : CompVersion) (v : Version) : Prop :=
  match op with
  | .eq | .wl => Agrees cv (triple v) ∧ tag cv = v.pre
  | .gt => (Full cv ∧ PrecLt lt (bound cv) (point v)) ∨ (¬ Full cv ∧ TLe (ceil cv) (triple v))
  | .ge => (Full cv ∧ PrecLe lt (bound cv) (point v)) ∨ (¬ Full cv ∧ TLe (ceil cv) (triple v))
  | .lt => (Full cv ∧ PrecLt lt (point v) (bound cv)) ∨ (¬ Full cv ∧ TLt (triple v) (floor cv))
  | .le => (Full cv ∧ PrecLe lt (point v) (bound cv)) ∨ (¬ Full cv ∧ TLt (triple v) (floor cv))
  | .tl => Full cv ∧ PrecLe lt (bound cv) (point v) ∧ TLt (triple v) (tildeCeil cv)
  | .cr | .bl => ((Full cv ∧ PrecLe lt (bound cv) (point v)) ∨ (¬ Full cv ∧ TLe (floor cv) (triple v)))
      ∧ TLt (triple v) (caretCeil cv)

/-- What a comparator admits, before the prerelease opt-in rule. -/
def Admits (lt : TagOrder) (op : Op) (cv : CompVersion) (v : Version) : Prop :=
  if v.pre = [] then AdmitsRelease lt op cv v else AdmitsPre lt op cv v

/-- The comparator has a prerelease tag on exactly the version's triple. -/
def OptIn (cv : CompVersion) (v : Version) : Prop :=
  ∃ a b c p m, cv = .pre a b c p m ∧ p ≠ [] ∧ triple v = (a, b, c)

/-- A bare wildcard (`*`) only goes with the wildcard operator.  Every comparator produced by the
parser satisfies this (C05). -/
def WellFormed (c : Comparator) : Prop := ∀ w, c.version = .wl w → c.op = .wl

end Verif.Spec.Matching
