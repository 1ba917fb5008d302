import Verif.Semver.Order
import Verif.Toml.Lex
import Verif.Common.Sort

/-!
# Model of the crate index (crates/ide/src/index.rs, crates/ide/src/index/fetch.rs)

`serde_json::from_str` is a parameter here: a function from the text of a line to the fields of
`DeserializeVersion`, an error, or a panic; `Diag/Json.lean` has the part of it that this repository
determines.  The HTTP request is in `Diag/Fetch.lean`.
`IndexMap` is a list of pairs with different keys, in iteration order.
-/

namespace Verif.Index
open Verif Verif.Toml Verif.Semver

/-! ## Feature members -/

/-- `"dep:"`. -/
def depPrefix : Str := "dep:".toList

/-- `str::strip_prefix`. -/
def stripPrefix : Str → Str → Option Str
  | [], s => some s
  | _ :: _, [] => none
  | p :: ps, c :: cs => if p = c then stripPrefix ps cs else none

/-- `FeatureMember::as_dep` (crates/ide/src/index.rs:37-39). -/
def asDep (m : Str) : Option Str := stripPrefix depPrefix m

/-- `FeatureMember::is_dep_feature` (crates/ide/src/index.rs:46-48). -/
def isDepFeature (m : Str) : Bool := m.contains '/'

/-- `<FeatureMember as Ord>::cmp` (crates/ide/src/index.rs:61-74). -/
def memberCmp (a b : Str) : Ordering :=
  match asDep a, asDep b with
  | some x, some y => strCmp x y
  | some _, none => .gt
  | none, some _ => .lt
  | none, none =>
    match isDepFeature a, isDepFeature b with
    | true, true => strCmp a b
    | false, false => strCmp a b
    | true, false => .gt
    | false, true => .lt

/-! ## Index files -/

/-- `DependencyKind` (crates/ide/src/index.rs:88-94). -/
inductive DepKind | normal | dev | build
  deriving DecidableEq, Repr

/-- `Dependency` (crates/ide/src/index.rs:76-86). -/
structure Dep where
  name : Str
  package : Option Str
  req : Semver.VersionReq
  defaultFeatures : Bool
  features : List Str
  kind : DepKind
  target : Option Str
  optional : Bool
  deriving DecidableEq, Repr

/-- `DeserializeVersion` (crates/ide/src/index/fetch.rs:61-73). -/
structure RawVersion where
  name : Str
  vers : Semver.Version
  features : List (Str × List Str)
  features2 : List (Str × List Str)
  deps : List Dep
  yanked : Bool
  rustVersion : Option Semver.Version
  deriving DecidableEq, Repr

/-- `Version` (crates/ide/src/index.rs:17-25). -/
structure IndexVersion where
  vers : Semver.Version
  yanked : Bool
  rustVersion : Option Semver.Version
  defaultFeatures : Option (List Str)
  features : List (Str × List Str)
  deps : List Dep
  deriving DecidableEq, Repr

/-- `Crate` (crates/ide/src/index.rs:11-15). -/
structure Crate where
  name : Str
  versions : List IndexVersion
  deriving DecidableEq, Repr

/-- `ErrorKind` of `parse_crate` (crates/ide/src/index/error.rs:11-25). -/
inductive ParseErr | json | noVersion | mismatchedNames
  deriving DecidableEq, Repr

/-- `IndexMap::contains_key`. -/
def hasKey (m : List (Str × List Str)) (k : Str) : Bool := m.any (fun e => e.1 == k)

/-- `IndexMap::insert`: an existing key keeps its place and gets the new value. -/
def mapInsert (m : List (Str × List Str)) (k : Str) (v : List Str) : List (Str × List Str) :=
  if hasKey m k then m.map (fun e => if e.1 == k then (k, v) else e) else m ++ [(k, v)]

/-- `collect::<IndexMap<_, _>>()`. -/
def mapCollect (es : List (Str × List Str)) : List (Str × List Str) :=
  es.foldl (fun m e => mapInsert m e.1 e.2) []

/-- The normalisation of one member (crates/ide/src/index/fetch.rs:129-145). -/
def normalize (v : RawVersion) (m : Str) : Str :=
  let explicitDep := (asDep m).isSome
  let featExists := hasKey v.features m || hasKey v.features2 m
  let optDepExists := v.deps.any (fun d => d.kind == .normal && d.optional && d.name == m)
  if !explicitDep && !featExists && optDepExists then depPrefix ++ m else m

/-- The members of one feature (crates/ide/src/index/fetch.rs:127-149). -/
def normalizeAll (v : RawVersion) (ms : List Str) : List Str :=
  sortBy memberCmp (ms.map (normalize v))

/-- `IndexMap::swap_remove`: the last entry takes the place of the removed one. -/
def swapRemove (m : List (Str × List Str)) (k : Str) : Option (List Str) × List (Str × List Str) :=
  match m.findIdx? (fun e => e.1 == k) with
  | none => (none, m)
  | some i =>
    match m[i]?, m.getLast? with
    | some e, some l =>
      if i + 1 = m.length then (some e.2, m.dropLast)
      else (some e.2, (m.set i l).dropLast)
    | _, _ => (none, m)

/-- The body of the loop in `parse_crate` behind the check of the name
(crates/ide/src/index/fetch.rs:124-168). -/
def buildVersion (v : RawVersion) : IndexVersion :=
  let features := mapCollect ((v.features ++ v.features2).map (fun e => (e.1, normalizeAll v e.2)))
  let (defaultFeatures, features) := swapRemove features "default".toList
  let features := sortBy (fun a b => strCmp a.1 b.1) features
  ⟨v.vers, v.yanked, v.rustVersion, defaultFeatures, features, v.deps⟩

/-- The loop of `parse_crate` (crates/ide/src/index/fetch.rs:113-169). -/
def crateLoop (json : Str → Res Unit RawVersion) (name : Option Str) (versions : List IndexVersion) :
    List Str → Res ParseErr (Option Str × List IndexVersion)
  | [] => .ok (name, versions)
  | l :: ls =>
    match json l with
    | .panic => .panic
    | .err _ => .err .json
    | .ok v =>
      match name with
      | some n =>
        if n != v.name then .err .mismatchedNames
        else crateLoop json (some n) (versions ++ [buildVersion v]) ls
      | none => crateLoop json (some v.name) (versions ++ [buildVersion v]) ls

/-- One line for `str::lines`: without the line break `\n` or `\r\n`. -/
def stripLine (l : Str) : Str := if l.getLast? = some '\r' then l.dropLast else l

/-- `str::lines`: `cur` is the line so far.  An empty last line is not a line; a carriage return at
the very end of the text is kept. -/
def strLines (cur : Str) : Str → List Str
  | [] => if cur = [] then [] else [cur]
  | c :: cs => if c = '\n' then stripLine cur :: strLines [] cs else strLines (cur ++ [c]) cs

/-- `parse_crate` (crates/ide/src/index/fetch.rs:110-178). -/
def parseCrate (json : Str → Res Unit RawVersion) (text : Str) : Res ParseErr Crate :=
  match crateLoop json none [] (strLines [] text) with
  | .panic => .panic
  | .err e => .err e
  | .ok (name, versions) =>
    let versions := sortBy (fun a b => versionCmp a.vers b.vers) versions
    match name with
    | none => .err .noVersion
    | some name => .ok ⟨name, versions⟩

/-! ## The URL of a crate -/

/-- `DependencyRegistry` (crates/ide/src/index/fetch.rs:56-59). -/
inductive Registry
  | cratesIo
  | other (index : Str)
  deriving DecidableEq, Repr

/-- `boxed_str!(len, ..)` (crates/ide/src/index/fetch.rs:16-24): the capacity and the text written. -/
def boxedStr (len : Nat) (text name : Str) : Nat × Str := (len + blen name, text)

/-- `DependencySource::sparse_index_url` (crates/ide/src/index/fetch.rs:32-53): the reserved capacity
and the URL; `none` is a panic (`unreachable!`, `todo!`, a slice off a character boundary). -/
def sparseIndexUrl (r : Registry) (name : Str) : Option (Nat × Str) :=
  match r with
  | .other _ => none
  | .cratesIo =>
    match blen name with
    | 0 => none
    | 1 => some (boxedStr 26 ("https://index.crates.io/1/".toList ++ name) name)
    | 2 => some (boxedStr 26 ("https://index.crates.io/2/".toList ++ name) name)
    | 3 => do
      let digit0 ← slice name 0 1
      pure (boxedStr 28 ("https://index.crates.io/3/".toList ++ digit0 ++ ['/'] ++ name) name)
    | _ => do
      let digits01 ← slice name 0 2
      let digits23 ← slice name 2 4
      pure (boxedStr 30 ("https://index.crates.io/".toList ++ digits01 ++ ['/'] ++ digits23 ++ ['/'] ++
        name) name)

end Verif.Index
