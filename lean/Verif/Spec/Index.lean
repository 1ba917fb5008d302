import Verif.Diag.Index
import Verif.Spec.Diag

/-!
# Specification: crate index files
-/

namespace Verif.Spec.Index
open Verif Verif.Index Verif.Spec Verif.Semver

/-- Plain features come first, then features of dependencies (`name/feature`), then dependencies
(`dep:name`). -/
def rank (m : Str) : Nat :=
  if "dep:".toList <+: m then 2 else if '/' ∈ m then 1 else 0

/-- A member that is no feature but the name of an optional dependency means that dependency. -/
def meaning (raw : RawVersion) (m : Str) : Str :=
  if ¬ "dep:".toList <+: m ∧ (∀ f ∈ raw.features ++ raw.features2, f.1 ≠ m) ∧
      (∃ d ∈ raw.deps, d.kind = .normal ∧ d.optional = true ∧ d.name = m) then
    "dep:".toList ++ m
  else m

/-- The members of feature `k` as listed; `features2` replaces `features`. -/
def listed (raw : RawVersion) (k : Str) : Option (List Str) :=
  (((raw.features ++ raw.features2).reverse.find? (fun f => f.1 == k))).map Prod.snd

/-- The members of feature `k`: their meanings, sorted. -/
def Members (raw : RawVersion) (k : Str) (ms : List Str) : Prop :=
  ∃ l, listed raw k = some l ∧ StableSorted memberCmp (l.map (meaning raw)) ms

/-- The version `v` is what the line `raw` of the index file says. -/
structure Describes (raw : RawVersion) (v : IndexVersion) : Prop where
  vers : v.vers = raw.vers
  yanked : v.yanked = raw.yanked
  rustVersion : v.rustVersion = raw.rustVersion
  deps : v.deps = raw.deps
  default_none : v.defaultFeatures = none ↔ listed raw "default".toList = none
  default_some : ∀ ms, v.defaultFeatures = some ms ↔ Members raw "default".toList ms
  sorted : v.features.Pairwise fun a b => strCmp a.1 b.1 = .lt
  features : ∀ k ms, (k, ms) ∈ v.features ↔ k ≠ "default".toList ∧ Members raw k ms

/-- The lines of an index file; a line break at the end does not start another line. -/
def FileLines (text : Str) (ls : List Str) : Prop :=
  (LinesOf text (ls ++ [[]])) ∨ (LinesOf text ls ∧ ls.getLast? ≠ some [])

end Verif.Spec.Index
