import Verif.Diag.Index
import Verif.Semver.Parse
import Verif.Semver.Display

/-!
# Model of reading the lines of an index file

The two structures with `#[derive(Deserialize)]`: `DeserializeVersion`
(crates/ide/src/index/fetch.rs:61-73) and `Dependency` (crates/ide/src/index.rs:76-86), the enumeration
`DependencyKind` (crates/ide/src/index.rs:88-94), and the implementations of `Deserialize` for versions and
requirements (crates/semver/src/serde.rs).

The reader of `serde_json` is a parameter: a function from a text to a `Json` tree.  What the derived code does
with that tree is written down here.  Simplification: `serde_json` does not build a tree, but calls the derived
code while it reads; so if a version makes the parser of versions panic, it does so even if the rest of the
line is no JSON.
-/

namespace Verif.Index
open Verif Verif.Semver

/-- A JSON text: `str true s` is a string without escape sequences, which can be borrowed from the text;
the entries of an object are in the order of the text, with all duplicates. -/
inductive Json
  | null
  | bool (b : Bool)
  | num
  | str (plain : Bool) (s : Str)
  | arr (xs : List Json)
  | obj (es : List ((Str × Bool) × Json))

/-- `bool`. -/
def Json.getBool : Json → Res Unit Bool
  | .bool b => .ok b
  | _ => .err ()

/-- `Box<str>`. -/
def Json.getStr : Json → Res Unit Str
  | .str _ s => .ok s
  | _ => .err ()

/-- `&'a str`: only a string without escape sequences can be borrowed. -/
def Json.getBorrowed : Json → Res Unit Str
  | .str true s => .ok s
  | _ => .err ()

/-- `Option<T>`. -/
def Json.getOption (f : Json → Res Unit α) : Json → Res Unit (Option α)
  | .null => .ok none
  | j => do let a ← f j; pure (some a)

/-- Elements one after the other. -/
def getEach (f : Json → Res Unit α) : List Json → Res Unit (List α)
  | [] => .ok []
  | j :: js => do
    let a ← f j
    let as ← getEach f js
    pure (a :: as)

/-- `Vec<T>`. -/
def Json.getVec (f : Json → Res Unit α) : Json → Res Unit (List α)
  | .arr xs => getEach f xs
  | _ => .err ()

/-- The entries of `IndexMap<&str, Vec<&str>>`: inserted one after the other. -/
def getEntries (m : List (Str × List Str)) : List ((Str × Bool) × Json) → Res Unit (List (Str × List Str))
  | [] => .ok m
  | ((k, plain), j) :: es => do
    let k ← Json.getBorrowed (.str plain k)
    let v ← j.getVec Json.getBorrowed
    getEntries (mapInsert m k v) es

/-- `IndexMap<&str, Vec<&str>>`. -/
def Json.getMap : Json → Res Unit (List (Str × List Str))
  | .obj es => getEntries [] es
  | _ => .err ()

/-- The names of the variants of `DependencyKind` (crates/ide/src/index.rs:88-94, `snake_case`). -/
def kindOf (s : Str) : Res Unit DepKind :=
  if s = "normal".toList then .ok .normal
  else if s = "dev".toList then .ok .dev
  else if s = "build".toList then .ok .build
  else .err ()

/-- `DependencyKind`: a variant without contents is its name, or `{name: null}`. -/
def Json.getKind : Json → Res Unit DepKind
  | .str _ s => kindOf s
  | .obj [((s, _), .null)] => kindOf s
  | _ => .err ()

/-- The error of a parser becomes an error of serde. -/
def toSerde (r : Res ε α) : Res Unit α :=
  match r with
  | .ok a => .ok a
  | .err _ => .err ()
  | .panic => .panic

/-- `Version::deserialize` (crates/semver/src/serde.rs:21-39). -/
def Json.getVersion (ovf : Bool) : Json → Res Unit Semver.Version
  | .str _ s => toSerde (parseVersion ovf s .ZERO)
  | _ => .err ()

/-- `VersionReq::deserialize` (crates/semver/src/serde.rs:47-65). -/
def Json.getReq (ovf : Bool) : Json → Res Unit Semver.VersionReq
  | .str _ s => toSerde (parseRequirement ovf s .ZERO)
  | _ => .err ()

/-- `Version::serialize` (crates/semver/src/serde.rs:15-19): a string.  The text has neither quotes nor
backslashes. -/
def serializeVersion (v : Semver.Version) : Json := .str true (displayVersion v)

/-- `VersionReq::serialize` (crates/semver/src/serde.rs:41-45); `none` is a panic of the formatter. -/
def serializeReq (r : Semver.VersionReq) : Option Json := (displayReq false r).map (.str true)

/-! ## Derived code -/

/-- A field of a structure: its name, its type, how it is read, and the value if it is missing:
`#[serde(default)]`, or `None`. -/
structure Field where
  name : Str
  type : Type
  get : Json → Res Unit type
  missing : Option type

/-- Values of all fields. -/
abbrev Vals (fs : List Field) := (i : Fin fs.length) → (fs[i]).type

/-- Values of some fields: the local variables of the derived `visit_map`. -/
abbrev Part (fs : List Field) := (i : Fin fs.length) → Option (fs[i]).type

/-- Assign a field. -/
def Part.put {fs : List Field} (p : Part fs) (i : Fin fs.length) (x : (fs[i]).type) : Part fs :=
  fun k => if h : k = i then some (h ▸ x) else p k

/-- The loop of the derived `visit_map`: unknown fields are skipped, a second value is an error. -/
def visitMap (fs : List Field) (p : Part fs) : List ((Str × Bool) × Json) → Res Unit (Part fs)
  | [] => .ok p
  | ((k, _), j) :: es =>
    match fs.findFinIdx? (fun f => f.name == k) with
    | none => visitMap fs p es
    | some i =>
      if (p i).isSome then .err ()
      else do
        let x ← (fs[i]).get j
        visitMap fs (p.put i x) es

/-- The end of the derived `visit_map`: missing fields. -/
def fillIn (fs : List Field) (p : Part fs) : Res Unit (Vals fs) :=
  if h : ∀ i, ((p i).or (fs[i]).missing).isSome = true then .ok fun i => ((p i).or (fs[i]).missing).get (h i)
  else .err ()

/-- The derived `visit_seq`: the fields in order.  Neither of the structures ends with a field that has
`#[serde(default)]`, so all have to be there; `serde_json` does not allow more elements. -/
def visitSeq : (fs : List Field) → List Json → Res Unit (Vals fs)
  | [], [] => .ok fun i => i.elim0
  | [], _ :: _ => .err ()
  | _ :: _, [] => .err ()
  | f :: fs, j :: js => do
    let x ← f.get j
    let xs ← visitSeq fs js
    pure (Fin.cases x xs)

/-- The derived `deserialize`; `serde_json` reads a structure from an object or from an array. -/
def getStruct (fs : List Field) : Json → Res Unit (Vals fs)
  | .obj es => do
    let p ← visitMap fs (fun _ => none) es
    fillIn fs p
  | .arr js => visitSeq fs js
  | _ => .err ()

/-- The fields of `Dependency` (crates/ide/src/index.rs:76-86). -/
abbrev depFields (ovf : Bool) : List Field := [
  ⟨"name".toList, Str, Json.getStr, none⟩,
  ⟨"package".toList, Option Str, Json.getOption Json.getStr, some none⟩,
  ⟨"req".toList, Semver.VersionReq, Json.getReq ovf, none⟩,
  ⟨"default_features".toList, Bool, Json.getBool, none⟩,
  ⟨"features".toList, List Str, Json.getVec Json.getStr, none⟩,
  ⟨"kind".toList, DepKind, Json.getKind, none⟩,
  ⟨"target".toList, Option Str, Json.getOption Json.getStr, some none⟩,
  ⟨"optional".toList, Bool, Json.getBool, none⟩]

/-- `Dependency::deserialize` (crates/ide/src/index.rs:76-86). -/
def Json.getDep (ovf : Bool) (j : Json) : Res Unit Dep := do
  let v ← getStruct (depFields ovf) j
  pure ⟨v 0, v 1, v 2, v 3, v 4, v 5, v 6, v 7⟩

/-- The fields of `DeserializeVersion` (crates/ide/src/index/fetch.rs:61-73). -/
abbrev versionFields (ovf : Bool) : List Field := [
  ⟨"name".toList, Str, Json.getBorrowed, none⟩,
  ⟨"vers".toList, Semver.Version, Json.getVersion ovf, none⟩,
  ⟨"features".toList, List (Str × List Str), Json.getMap, none⟩,
  ⟨"features2".toList, List (Str × List Str), Json.getMap, some []⟩,
  ⟨"deps".toList, List Dep, Json.getVec (Json.getDep ovf), none⟩,
  ⟨"yanked".toList, Bool, Json.getBool, none⟩,
  ⟨"rust_version".toList, Option Semver.Version, Json.getOption (Json.getVersion ovf), some none⟩]

/-- `DeserializeVersion::deserialize` (crates/ide/src/index/fetch.rs:61-73). -/
def Json.getLine (ovf : Bool) (j : Json) : Res Unit RawVersion := do
  let v ← getStruct (versionFields ovf) j
  pure ⟨v 0, v 1, v 2, v 3, v 4, v 5, v 6⟩

/-- `serde_json::from_str` at crates/ide/src/index/fetch.rs:114, with the reader as a parameter. -/
def fromStr (ovf : Bool) (reader : Str → Option Json) (l : Str) : Res Unit RawVersion :=
  match reader l with
  | none => .err ()
  | some j => j.getLine ovf

end Verif.Index
