import Verif.Diag.Json
import Verif.Spec.SemverText
import Verif.Spec.Wrap

/-!
# Specification: what a line of an index file says

The description of the index format by the fields, in terms of the JSON tree of the line only.
-/

namespace Verif.Spec.Index
open Verif Verif.Index Verif.Spec.Semver

/-- The entries of an object. -/
abbrev Entries := List ((Str × Bool) × Json)

/-- The object has no entry with the key `k`. -/
def Absent (es : Entries) (k : Str) : Prop := ∀ e ∈ es, e.1.1 ≠ k

/-- The object has exactly one entry with the key `k`, and its value is `x`. -/
def Only (es : Entries) (k : Str) (x : Json) : Prop :=
  ∃ a b plain, es = a ++ ((k, plain), x) :: b ∧ Absent a k ∧ Absent b k

/-- A structure with `n` fields is written as an object or as an array of `n` values. -/
def IsStruct (n : Nat) : Json → Prop
  | .obj _ => True
  | .arr xs => xs.length = n
  | _ => False

/-- The value of the field number `i` with the name `k` is `x`. -/
def FieldIs (i : Nat) (k : Str) (x : Json) : Json → Prop
  | .obj es => Only es k x
  | .arr xs => xs[i]? = some x
  | _ => False

/-- There is no field `k`. -/
def FieldMissing (k : Str) : Json → Prop
  | .obj es => Absent es k
  | _ => False

/-- A string, with or without escape sequences. -/
def IsString (j : Json) (s : Str) : Prop := ∃ plain, j = .str plain s

/-- A string without escape sequences. -/
def IsPlain (j : Json) (s : Str) : Prop := j = .str true s

/-- `true` or `false`. -/
def IsBool (j : Json) (b : Bool) : Prop := j = .bool b

/-- `null`, or a value. -/
def IsOption (p : Json → α → Prop) (j : Json) (o : Option α) : Prop :=
  (j = .null ∧ o = none) ∨ ∃ a, o = some a ∧ j ≠ .null ∧ p j a

/-- An array of values. -/
def IsList (p : Json → α → Prop) (j : Json) (as : List α) : Prop :=
  ∃ xs, j = .arr xs ∧ xs.length = as.length ∧ ∀ (i : Nat) x a, xs[i]? = some x → as[i]? = some a → p x a

/-- The last of several values of the key `k`. -/
def lastOf (ps : List (Str × List Str)) (k : Str) : Option (List Str) :=
  (ps.reverse.find? (fun e => e.1 == k)).map Prod.snd

/-- A table of features: the names and the members are written without escape sequences; every name once, at
its first place, with its last value. -/
def IsFeatures (j : Json) (m : List (Str × List Str)) : Prop :=
  ∃ es ps, j = .obj es ∧ es.length = ps.length ∧
    (∀ (i : Nat) e q, es[i]? = some e → ps[i]? = some q → e.1 = (q.1, true) ∧ IsList IsPlain e.2 q.2) ∧
    m.map Prod.fst = (ps.map Prod.fst).eraseDups ∧ ∀ e ∈ m, lastOf ps e.1 = some e.2

/-- The name of a kind of dependency. -/
def kindName : DepKind → Str
  | .normal => "normal".toList
  | .dev => "dev".toList
  | .build => "build".toList

/-- A kind: its name, or an object that consists of the name and `null`. -/
def IsKind (j : Json) (k : DepKind) : Prop :=
  IsString j (kindName k) ∨ ∃ plain, j = .obj [((kindName k, plain), .null)]

/-- A version, in a build with (`ovf = true`) or without overflow checks. -/
def IsVersion (ovf : Bool) (j : Json) (v : Semver.Version) : Prop := ∃ s, IsString j s ∧ WideText ovf s v

/-- A requirement. -/
def IsReq (ovf : Bool) (j : Json) (r : Semver.VersionReq) : Prop := ∃ s, IsString j s ∧ WideReq ovf s .ZERO r

/-- The field number `i` with the name `k` has the value `a`. -/
def Has (j : Json) (i : Nat) (k : String) (p : Json → α → Prop) (a : α) : Prop :=
  ∃ x, FieldIs i k.toList x j ∧ p x a

/-- Or it is missing, and `a` is the default `d`. -/
def HasOr (j : Json) (i : Nat) (k : String) (p : Json → α → Prop) (d a : α) : Prop :=
  Has j i k p a ∨ (FieldMissing k.toList j ∧ a = d)

/-- What is written about a dependency. -/
structure DepSays (ovf : Bool) (j : Json) (d : Dep) : Prop where
  shape : IsStruct 8 j
  name : Has j 0 "name" IsString d.name
  package : HasOr j 1 "package" (IsOption IsString) none d.package
  req : Has j 2 "req" (IsReq ovf) d.req
  defaultFeatures : Has j 3 "default_features" IsBool d.defaultFeatures
  features : Has j 4 "features" (IsList IsString) d.features
  kind : Has j 5 "kind" IsKind d.kind
  target : HasOr j 6 "target" (IsOption IsString) none d.target
  optional : Has j 7 "optional" IsBool d.optional

/-- What is written about a version. -/
structure LineSays (ovf : Bool) (j : Json) (v : RawVersion) : Prop where
  shape : IsStruct 7 j
  name : Has j 0 "name" IsPlain v.name
  vers : Has j 1 "vers" (IsVersion ovf) v.vers
  features : Has j 2 "features" IsFeatures v.features
  features2 : HasOr j 3 "features2" IsFeatures [] v.features2
  deps : Has j 4 "deps" (IsList (DepSays ovf)) v.deps
  yanked : Has j 5 "yanked" IsBool v.yanked
  rustVersion : HasOr j 6 "rust_version" (IsOption (IsVersion ovf)) none v.rustVersion

end Verif.Spec.Index
