import Verif.Toml.Map
import Verif.Semver.Parse

/-!
# Model of the check of a manifest (crates/ide/src/check.rs, crates/ide/src/cargo.rs)

* A `&map::Path` is the list of its segments, the last one first; `path.prev` is its tail.  A function
  that gets the path of an entry gets the path around the entry here (`prev`), since the last segment
  are always the representations of the entry.
* Errors and warnings are one list of messages, in the order in which they are made; the code has one
  list for each.  `errors` and `warnings` give these.
* `table.iter()` goes over the entries in the order of the list (`IndexMap`; with `HashMap` the order is
  arbitrary, see C50).
* A panic is `none`.  `ovf`: whether overflow checks are on, see `Semver.parseRequirement`.
-/

namespace Verif.Ide
open Verif Verif.Toml Verif.TomlMap

/-! ## Datatypes -/

/-- `Datatype` (crates/toml/src/util.rs:4-14). -/
inductive Datatype
  | table | array | string | int | float | bool | dateTime | invalid
  deriving DecidableEq, _root_.Repr

/-- `Scalar::datatype` (crates/toml/src/util.rs:47-58). -/
def scalarType : Scalar → Datatype
  | .string _ => .string
  | .int _ _ _ => .int
  | .float _ _ _ => .float
  | .bool _ _ => .bool
  | .dateTime _ _ _ => .dateTime
  | .invalid _ _ => .invalid

/-- `MapNode::datatype` (crates/toml/src/util.rs:37-45). -/
def nodeType : MapNode → Datatype
  | .table _ => .table
  | .toplevel _ => .array
  | .inline _ _ _ => .array
  | .scalar s => scalarType s

/-! ## Diagnostics -/

/-- `cargo::ErrorKind` (crates/ide/src/cargo.rs:43-62). -/
inductive ErrorKind
  | wrongDatatype (expected found : Datatype)
  | unsupportedUnderscore (old new : Str)
  | depWrongDatatype (found : Datatype)
  | depWorkspaceIsFalse
  | ambigousDepSpecGitPath
  | ambigousDepSpecGitRegistry
  | ambigousGitSpec
  | missingDepSpec
  | depIgnoredGitKey (key : Str)
  deriving DecidableEq, _root_.Repr

/-- `cargo::WarningKind` (crates/ide/src/cargo.rs:134-152). -/
inductive WarningKind
  | deprecatedUnderscore (old new : Str)
  | redundantDeprecatedUnderscore (old new : Str) (newSpan : Span)
  | missingDepSpec
  | workspaceDepIgnoredKey (workspaceSpan : Span)
  | ignoredUnknownKey
  deriving DecidableEq, _root_.Repr

/-- `cargo::Error` (crates/ide/src/cargo.rs:24-41) and `cargo::Warning`
(crates/ide/src/cargo.rs:115-132), and `semver::Error`, which all go to the same context. -/
inductive Msg
  | error (lines : List Nat) (path : Str) (span : Span) (kind : ErrorKind)
  | semver (e : Semver.Error)
  | warning (lines : List Nat) (path : Str) (span : Span) (kind : WarningKind)
  deriving DecidableEq, _root_.Repr

/-- A computation that may panic and that reports messages (`ctx.error`, `ctx.warn`). -/
def CheckM (α : Type) := Option (α × List Msg)

/-- Sequencing: the messages are appended. -/
def CheckM.bind {α β : Type} (x : CheckM α) (f : α → CheckM β) : CheckM β :=
  match x with
  | none => none
  | some (a, es) =>
    match f a with
    | none => none
    | some (b, es') => some (b, es ++ es')

instance : Monad CheckM where
  pure a := some (a, [])
  bind := CheckM.bind

/-- `ctx.error` or `ctx.warn`, with a message whose parts may panic. -/
def emit (m : Option Msg) : CheckM Unit := m.map fun m => ((), [m])

/-- A part that may only panic. -/
def liftC {α : Type} (x : Option α) : CheckM α := x.map fun a => (a, [])

/-- A loop: `for x in l`. -/
def each {α : Type} (l : List α) (f : α → CheckM Unit) : CheckM Unit :=
  match l with
  | [] => pure ()
  | a :: l => do
    f a
    each l f

/-- A loop with a mutable state. -/
def loop {α β : Type} (l : List α) (b : β) (f : β → α → CheckM β) : CheckM β :=
  match l with
  | [] => pure b
  | a :: l => do
    let b ← f b a
    loop l b f

/-- `cargo::Error::new(map::context_lines(lp, [parent]), fp.fmt_path(), span, kind)`; the arguments are
computed from left to right. -/
def mkError (lp : List Seg) (parent : Nat) (fp : List Seg) (span : Option Span) (kind : ErrorKind) :
    Option Msg := do
  let lines ← contextLines lp [parent]
  let path ← fmtPath fp
  let span ← span
  pure (.error lines path span kind)

/-- `cargo::Warning::new(map::context_lines(lp, [parent]), fp.fmt_path(), span, kind)`. -/
def mkWarning (lp : List Seg) (parent : Nat) (fp : List Seg) (span : Option Span)
    (kind : WarningKind) : Option Msg := do
  let lines ← contextLines lp [parent]
  let path ← fmtPath fp
  let span ← span
  pure (.warning lines path span kind)

/-! ## Dependencies -/

/-- `StringAssignment` (crates/ide/src/check.rs:128-132). -/
structure StringAssignment where
  repr : Repr
  val : StringVal

/-- `BoolAssignment` (crates/ide/src/check.rs:144-148); of the `BoolVal` its place and value. -/
structure BoolAssignment where
  repr : Repr
  litSpan : Span
  val : Bool

/-- `DependencyKind` (crates/ide/src/check.rs:59-64). -/
inductive DependencyKind | normal | dev | build
  deriving DecidableEq, _root_.Repr

/-- `DependencyVersion` (crates/ide/src/check.rs:103-107). -/
structure DependencyVersion where
  str : StringAssignment
  req : Option Semver.VersionReq

/-- `DependencyGitSpec` (crates/ide/src/check.rs:109-120). -/
inductive DependencyGitSpec
  | branch (a : StringAssignment)
  | tag (a : StringAssignment)
  | rev (a : StringAssignment)
  | conflicting
  | none

/-- `DependencySpec` (crates/ide/src/check.rs:66-101). -/
inductive DependencySpec
  | workspace (a : BoolAssignment)
  | git (repo : StringAssignment) (spec : DependencyGitSpec) (version : Option DependencyVersion)
  | path (path : StringAssignment) (version : Option DependencyVersion)
      (registry : Option StringAssignment)
  | registry (version : DependencyVersion) (registry : Option StringAssignment)
  | conflicting
  | invalid
  | missing (registry : Option StringAssignment)

/-- `DependencyFeatures` (crates/ide/src/check.rs:122-126). -/
structure DependencyFeatures where
  default : Option BoolAssignment
  list : List StringVal

/-- `Dependency` (crates/ide/src/check.rs:18-49). -/
structure Dependency where
  name : Str
  package : Option StringAssignment
  kind : DependencyKind
  target : Option Str
  spec : DependencySpec
  features : DependencyFeatures
  optional : Option BoolAssignment
  entry : Entry

/-- `Dependency::package` (crates/ide/src/check.rs:51-57). -/
def Dependency.packageName (d : Dependency) : Str := (d.package.map (·.val.text)).getD d.name

/-- `DependencyBuilder` (crates/ide/src/check.rs:326-339). -/
structure DependencyBuilder where
  features : DependencyFeatures := ⟨none, []⟩
  package : Option StringAssignment := none
  workspace : Option BoolAssignment := none
  version : Option StringAssignment := none
  registry : Option StringAssignment := none
  path : Option StringAssignment := none
  git : Option StringAssignment := none
  branch : Option StringAssignment := none
  tag : Option StringAssignment := none
  rev : Option StringAssignment := none
  optional : Option BoolAssignment := none

/-! ## Expecting a type -/

/-- `wrong_datatype` (crates/ide/src/check.rs:804-819). -/
def wrongDatatype (prev : List Seg) (entry : Entry) (r : Repr) (expected : Datatype) : Option Msg :=
  mkError prev r.parent (.table entry.reprs :: prev) r.span
    (.wrongDatatype expected (nodeType entry.node))

/-- The loop over the representations in the `expect` functions (for example
crates/ide/src/check.rs:668-673). -/
def wrongDatatypes (prev : List Seg) (entry : Entry) (expected : Datatype) : CheckM Unit :=
  each entry.reprs fun r => emit (wrongDatatype prev entry r expected)

/-- `expect_table_in_table` (crates/ide/src/check.rs:660-675). -/
def expectTable (prev : List Seg) (entry : Entry) : CheckM (Option MapTable) :=
  match entry.node with
  | .table t => pure (some t)
  | .scalar (.invalid _ _) => pure none
  | _ => do
    wrongDatatypes prev entry .table
    pure none

/-- `MapArray` (crates/toml/src/map.rs:198-202), as `expect_array_in_table` returns it; of a
`MapArrayToplevel` nothing is used. -/
inductive ArrayNode
  | toplevel
  | inline (parent : Nat) (es : List InlineEntry)

/-- `expect_array_in_table` (crates/ide/src/check.rs:677-692). -/
def expectArray (prev : List Seg) (entry : Entry) : CheckM (Option ArrayNode) :=
  match entry.node with
  | .toplevel _ => pure (some .toplevel)
  | .inline parent _ es => pure (some (.inline parent es))
  | .scalar (.invalid _ _) => pure none
  | _ => do
    wrongDatatypes prev entry .array
    pure none

/-- `expect_string_in_table` (crates/ide/src/check.rs:694-712). -/
def expectString (prev : List Seg) (entry : Entry) : CheckM (Option StringAssignment) :=
  match entry.node with
  | .scalar (.string val) => do
    let r ← liftC entry.reprs.head?
    pure (some ⟨r, val⟩)
  | .scalar (.invalid _ _) => pure none
  | _ => do
    wrongDatatypes prev entry .string
    pure none

/-- `expect_string_in_array` (crates/ide/src/check.rs:714-736), where `prev` is the path of the array
and `i` the index. -/
def expectStringInArray (prev : List Seg) (i : Nat) (parent : Nat) (entry : InlineEntry) :
    CheckM (Option StringVal) :=
  match entry.node with
  | .scalar (.string s) => pure (some s)
  | .scalar (.invalid _ _) => pure none
  | n => do
    emit (mkError prev parent (.array i :: prev)
      (some ⟨entry.repr.val.start, entry.repr.end⟩) (.wrongDatatype .string (nodeType n)))
    pure none

/-- `expect_bool_in_table` (crates/ide/src/check.rs:738-756). -/
def expectBool (prev : List Seg) (entry : Entry) : CheckM (Option BoolAssignment) :=
  match entry.node with
  | .scalar (.bool s val) => do
    let r ← liftC entry.reprs.head?
    pure (some ⟨r, s, val⟩)
  | .scalar (.invalid _ _) => pure none
  | _ => do
    wrongDatatypes prev entry .bool
    pure none

/-- `warn_unused` (crates/ide/src/check.rs:758-767). -/
def warnUnused (prev : List Seg) (entry : Entry) : CheckM Unit :=
  each entry.reprs fun r =>
    emit (mkWarning prev r.parent (.table entry.reprs :: prev) r.span .ignoredUnknownKey)

/-- `path.map_or(FmtStr::empty(), map::Path::fmt_path)` (crates/ide/src/check.rs:795). -/
def fmtPathOrEmpty : List Seg → Option Str
  | [] => some []
  | s :: p => fmtPath (s :: p)

/-- `deprecated_underscore` (crates/ide/src/check.rs:769-802), where `prev` is the path of the table. -/
def deprecatedUnderscore (prev : List Seg) (table : MapTable) (old new : Str) (oldEntry : Entry) :
    CheckM Bool := do
  let (ignored, kind) ← liftC (match get table new with
    | some newEntry => do
      let r ← newEntry.reprs.head?
      let s ← r.kind.span
      pure (true, WarningKind.redundantDeprecatedUnderscore old new s)
    | none => some (false, .deprecatedUnderscore old new))
  each oldEntry.reprs fun r => emit do
    let lines ← contextLines prev [r.parent]
    let path ← fmtPathOrEmpty prev
    let span ← r.span
    pure (.warning lines path span kind)
  pure ignored

/-! ## A dependency -/

/-- `StringVal::text_span` (crates/toml/src/parse.rs:529-531). -/
def textSpan (s : StringVal) : Option Span := s.textOffset.applyTo s.litSpan

/-- `parse_version_req` (crates/ide/src/check.rs:609-623). -/
def parseVersionReq (ovf : Bool) (str : StringAssignment) : CheckM DependencyVersion := do
  let s ← liftC (textSpan str.val)
  match Semver.parseRequirement ovf str.val.text s.start with
  | .ok v => pure ⟨str, some v⟩
  | .err e => do
    emit (some (.semver e))
    pure ⟨str, none⟩
  | .panic => none

/-- `self.version.map(|v| parse_version_req(ctx, v))` (crates/ide/src/check.rs:457 and 467). -/
def parseVersionOpt (ovf : Bool) : Option StringAssignment → CheckM (Option DependencyVersion)
  | none => pure none
  | some v => do
    let v ← parseVersionReq ovf v
    pure (some v)

/-- An error of `try_build` at one key of the dependency, of which `path` is the path (for example
crates/ide/src/check.rs:355-360). -/
def keyError (path : List Seg) (r : Repr) (kind : ErrorKind) : CheckM Unit :=
  emit (mkError path r.parent path r.span kind)

/-- `let spec = …` in `DependencyBuilder::try_build` (crates/ide/src/check.rs:351-493), where `prev` is
the path around the dependency. -/
def buildSpec (ovf : Bool) (b : DependencyBuilder) (prev : List Seg) (entry : Entry) :
    CheckM DependencySpec := do
  let path := .table entry.reprs :: prev
  match b.workspace with
  | some workspace =>
    if workspace.val = false then do
      keyError path workspace.repr .depWorkspaceIsFalse
      pure .invalid
    else do
      let workspaceSpan ← liftC workspace.repr.span
      each ([b.version, b.registry, b.path, b.git, b.branch, b.tag, b.rev].filterMap id) fun a =>
        emit do
          let lines ← contextLines path [a.repr.parent]
          let i ← a.repr.key.reprIdent
          let p ← joinedPath path i
          let s ← a.repr.span
          pure (.warning lines p s (.workspaceDepIgnoredKey workspaceSpan))
      pure (.workspace workspace)
  | none => do
    if b.git.isNone then
      each [("branch".toList, b.branch), ("tag".toList, b.tag), ("rev".toList, b.rev)] fun ka =>
        match ka.2 with
        | none => pure ()
        | some a => keyError path a.repr (.depIgnoredGitKey ka.1)
    else pure ()
    match b.git, b.path, b.registry with
    | some git, _, some registry => do
      keyError path git.repr .ambigousDepSpecGitRegistry
      keyError path registry.repr .ambigousDepSpecGitRegistry
      pure .conflicting
    | some git, some pathKey, _ => do
      keyError path git.repr .ambigousDepSpecGitRegistry
      keyError path pathKey.repr .ambigousDepSpecGitRegistry
      pure .conflicting
    | some repo, none, none => do
      let num := b.branch.isSome.toNat + b.tag.isSome.toNat + b.rev.isSome.toNat
      let spec ← (do
        if num > 1 then do
          each ([b.branch, b.tag, b.rev].filterMap id) fun a => keyError path a.repr .ambigousGitSpec
          pure .conflicting
        else
          match b.branch, b.tag, b.rev with
          | some branch, _, _ => pure (.branch branch)
          | none, some tag, _ => pure (.tag tag)
          | none, none, some rev => pure (.rev rev)
          | none, none, none => pure .none : CheckM DependencyGitSpec)
      let version ← parseVersionOpt ovf b.version
      pure (.git repo spec version)
    | none, some path, registry => do
      let version ← parseVersionOpt ovf b.version
      pure (.path path version registry)
    | none, none, registry =>
      match b.version with
      | some version => do
        let version ← parseVersionReq ovf version
        pure (.registry version registry)
      | none => do
        each entry.reprs fun r => emit (mkWarning prev r.parent path r.span .missingDepSpec)
        pure (.missing registry)

/-- `DependencyBuilder::try_build` (crates/ide/src/check.rs:341-506), where `prev` is the path around
the dependency. -/
def tryBuild (ovf : Bool) (b : DependencyBuilder) (prev : List Seg) (entry : Entry) (name : Str)
    (kind : DependencyKind) (target : Option Str) : CheckM Dependency := do
  let spec ← buildSpec ovf b prev entry
  pure ⟨name, b.package, kind, target, spec, b.features, b.optional, entry⟩

/-- The loop over the elements in `parse_dependency_features` (crates/ide/src/check.rs:649-656). -/
def parseFeatureElements (path : List Seg) (parent : Nat) :
    List InlineEntry → Nat → List StringVal → CheckM (List StringVal)
  | [], _, features => pure features
  | e :: es, i, features => do
    match ← expectStringInArray path i parent e with
    | some s => parseFeatureElements path parent es (i + 1) (features ++ [s])
    | none => parseFeatureElements path parent es (i + 1) features

/-- `parse_dependency_features` (crates/ide/src/check.rs:625-658). -/
def parseDependencyFeatures (features : List StringVal) (prev : List Seg) (entry : Entry) :
    CheckM (List StringVal) := do
  let path := .table entry.reprs :: prev
  match ← expectArray prev entry with
  | none => pure features
  | some .toplevel => do
    each entry.reprs.zipIdx fun ri =>
      emit (mkError prev ri.1.parent (.array ri.2 :: path) ri.1.span (.wrongDatatype .string .table))
    pure features
  | some (.inline parent es) => parseFeatureElements path parent es 0 features

/-- The keys that `parse_dependency` knows (crates/ide/src/check.rs:581-605). -/
inductive DepKey
  | workspace | version | registry | path | git | branch | tag | rev | package | optional
  | defaultFeatures | defaultFeaturesOld | features
  deriving DecidableEq, _root_.Repr

/-- The patterns of the `match` in `parse_dependency` (crates/ide/src/check.rs:581-605). -/
def depKeys : List (Str × DepKey) :=
  [("workspace".toList, .workspace), ("version".toList, .version), ("registry".toList, .registry),
   ("path".toList, .path), ("git".toList, .git), ("branch".toList, .branch), ("tag".toList, .tag),
   ("rev".toList, .rev), ("package".toList, .package), ("optional".toList, .optional),
   ("default-features".toList, .defaultFeatures), ("default_features".toList, .defaultFeaturesOld),
   ("features".toList, .features)]

/-- One step of the loop of `parse_dependency` (crates/ide/src/check.rs:579-606), where `prev` is the
path of the table. -/
def dependencyStep (prev : List Seg) (table : MapTable) (b : DependencyBuilder) (key : Str)
    (entry : Entry) : CheckM DependencyBuilder :=
  match depKeys.lookup key with
  | some .workspace => do
    let x ← expectBool prev entry
    pure { b with workspace := x }
  | some .version => do
    let x ← expectString prev entry
    pure { b with version := x }
  | some .registry => do
    let x ← expectString prev entry
    pure { b with registry := x }
  | some .path => do
    let x ← expectString prev entry
    pure { b with path := x }
  | some .git => do
    let x ← expectString prev entry
    pure { b with git := x }
  | some .branch => do
    let x ← expectString prev entry
    pure { b with branch := x }
  | some .tag => do
    let x ← expectString prev entry
    pure { b with tag := x }
  | some .rev => do
    let x ← expectString prev entry
    pure { b with rev := x }
  | some .package => do
    let x ← expectString prev entry
    pure { b with package := x }
  | some .optional => do
    let x ← expectBool prev entry
    pure { b with optional := x }
  | some .defaultFeatures => do
    let x ← expectBool prev entry
    pure { b with features := { b.features with default := x } }
  | some .defaultFeaturesOld => do
    let ignored ← deprecatedUnderscore prev table "default_features".toList "default-features".toList
      entry
    if ignored then pure b
    else do
      let x ← expectBool prev entry
      pure { b with features := { b.features with default := x } }
  | some .features => do
    let l ← parseDependencyFeatures b.features.list prev entry
    pure { b with features := { b.features with list := l } }
  | none => do
    warnUnused prev entry
    pure b

/-- `parse_dependency` (crates/ide/src/check.rs:573-607), where `path` is the path of the dependency. -/
def parseDependency (b : DependencyBuilder) (path : List Seg) (table : MapTable) :
    CheckM DependencyBuilder :=
  loop table b fun b ke => dependencyStep path table b ke.1 ke.2

/-- One step of the loop of `parse_dependencies` (crates/ide/src/check.rs:516-570), where `prev` is the
path of the table. -/
def dependenciesStep (ovf : Bool) (state : List Dependency) (prev : List Seg) (kind : DependencyKind)
    (target : Option Str) (name : Str) (entry : Entry) : CheckM (List Dependency) :=
  match entry.node with
  | .scalar (.string val) => do
    let r ← liftC entry.reprs.head?
    let version ← parseVersionReq ovf ⟨r, val⟩
    pure (state ++
      [⟨name, none, kind, target, .registry version none, ⟨none, []⟩, none, entry⟩])
  | .scalar (.invalid _ _) => pure state
  | .scalar s => do
    let r ← liftC entry.reprs.head?
    emit (mkError prev r.parent (.table entry.reprs :: prev) r.span
      (.depWrongDatatype (scalarType s)))
    pure state
  | .table table => do
    let b ← parseDependency {} (.table entry.reprs :: prev) table
    let d ← tryBuild ovf b prev entry name kind target
    pure (state ++ [d])
  | n => do
    each entry.reprs fun r => emit (mkError prev r.parent (.table entry.reprs :: prev) r.span
      (.depWrongDatatype (nodeType n)))
    pure state

/-- `parse_dependencies` (crates/ide/src/check.rs:508-571). -/
def parseDependencies (ovf : Bool) (state : List Dependency) (path : List Seg) (table : MapTable)
    (kind : DependencyKind) (target : Option Str) : CheckM (List Dependency) :=
  loop table state fun state ke => dependenciesStep ovf state path kind target ke.1 ke.2

/-- `expect_table_in_table`, and then `parse_dependencies` (for example crates/ide/src/check.rs:180-184). -/
def section_ (ovf : Bool) (state : List Dependency) (prev : List Seg) (entry : Entry)
    (kind : DependencyKind) (target : Option Str) : CheckM (List Dependency) := do
  match ← expectTable prev entry with
  | some table => parseDependencies ovf state (.table entry.reprs :: prev) table kind target
  | none => pure state

/-- The same after `deprecated_underscore` (for example crates/ide/src/check.rs:190-199). -/
def oldSection (ovf : Bool) (state : List Dependency) (prev : List Seg) (table : MapTable)
    (old new : Str) (entry : Entry) (kind : DependencyKind) (target : Option Str) :
    CheckM (List Dependency) := do
  let ignored ← deprecatedUnderscore prev table old new entry
  if ignored then pure state else section_ ovf state prev entry kind target

/-- The keys of a table with dependencies (crates/ide/src/check.rs:180-221 and 258-320). -/
inductive SectionKey | normal | dev | devOld | build | buildOld
  deriving DecidableEq, _root_.Repr

/-- The patterns of the `match` in `parse_target_dependencies` (crates/ide/src/check.rs:256-322), which
are also in `check` (crates/ide/src/check.rs:180-221). -/
def sectionKeys : List (Str × SectionKey) :=
  [("dependencies".toList, .normal), ("dev-dependencies".toList, .dev),
   ("dev_dependencies".toList, .devOld), ("build-dependencies".toList, .build),
   ("build_dependencies".toList, .buildOld)]

/-- The arms of these patterns (crates/ide/src/check.rs:180-221 and 258-320). -/
def sectionStep (ovf : Bool) (state : List Dependency) (prev : List Seg) (table : MapTable)
    (target : Option Str) (key : SectionKey) (entry : Entry) : CheckM (List Dependency) :=
  match key with
  | .normal => section_ ovf state prev entry .normal target
  | .dev => section_ ovf state prev entry .dev target
  | .devOld => oldSection ovf state prev table "dev_dependencies".toList "dev-dependencies".toList
      entry .dev target
  | .build => section_ ovf state prev entry .build target
  | .buildOld => oldSection ovf state prev table "build_dependencies".toList
      "build-dependencies".toList entry .build target

/-- `parse_target_dependencies` (crates/ide/src/check.rs:248-324). -/
def parseTargetDependencies (ovf : Bool) (state : List Dependency) (path : List Seg) (table : MapTable)
    (target : Str) : CheckM (List Dependency) :=
  loop table state fun state ke =>
    match sectionKeys.lookup ke.1 with
    | some key => sectionStep ovf state path table (some target) key ke.2
    | none => do
      warnUnused path ke.2
      pure state

/-- `parse_target` (crates/ide/src/check.rs:233-246). -/
def parseTarget (ovf : Bool) (state : List Dependency) (path : List Seg) (table : MapTable) :
    CheckM (List Dependency) :=
  loop table state fun state ke => do
    match ← expectTable path ke.2 with
    | some table => parseTargetDependencies ovf state (.table ke.2.reprs :: path) table ke.1
    | none => pure state

/-- The keys that `check` skips (crates/ide/src/check.rs:165-178). -/
def skippedKeys : List Str :=
  ["package".toList, "lib".toList, "bin".toList, "example".toList, "test".toList, "bench".toList,
   "badges".toList, "features".toList, "lints".toList, "patch".toList, "replace".toList,
   "profile".toList, "workspace".toList]

/-- `check` (crates/ide/src/check.rs:160-231). -/
def check (ovf : Bool) (table : MapTable) : CheckM (List Dependency) :=
  loop table [] fun state ke =>
    if ke.1 ∈ skippedKeys then pure state
    else
      match sectionKeys.lookup ke.1 with
      | some key => sectionStep ovf state [] table none key ke.2
      | none =>
        if ke.1 = "target".toList then do
          match ← expectTable [] ke.2 with
          | some t => parseTarget ovf state [.table ke.2.reprs] t
          | none => pure state
        else do
          warnUnused [] ke.2
          pure state

end Verif.Ide
