import Verif.Diag.Index

/-!
# Model of the predicates of `FeatureMember` (crates/ide/src/index.rs)
-/

namespace Verif.Index
open Verif

/-- `FeatureMember::is_dep` (crates/ide/src/index.rs:41-43); `str::starts_with`. -/
def isDep (m : Str) : Bool := depPrefix.isPrefixOf m

/-- `str::contains` for a text. -/
def containsStr (p : Str) : Str → Bool
  | [] => p.isEmpty
  | c :: cs => p.isPrefixOf (c :: cs) || containsStr p cs

/-- `FeatureMember::is_weak_dep_feature` (crates/ide/src/index.rs:50-52). -/
def isWeakDepFeature (m : Str) : Bool := containsStr "?/".toList m

end Verif.Index
