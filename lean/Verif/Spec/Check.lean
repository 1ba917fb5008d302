import Verif.Spec.Paths
import Verif.Ide.Check

/-!
# Specification: what the check of a manifest finds

Which dependencies a manifest has, what each one is, and which diagnostics are made, each one with the
reason for it.  A table is read by its keys (`get`), so nothing depends on the order of its entries.
-/

namespace Verif.Spec.Check
open Verif Verif.Toml Verif.TomlMap Verif.Spec.Toml Verif.Ide

/-! ## Exactly once -/

/-- The list has one element for each `r` with `P r _`, and no others: `P r a` says that `a` is the
element for `r`. -/
def ExactlyOnce {R A : Type} (as : List A) (P : R → A → Prop) : Prop :=
  ∃ l : List (R × A), as = l.map (·.2) ∧ (l.map (·.1)).Nodup ∧ ∀ r a, (r, a) ∈ l ↔ P r a

/-! ## Types -/

/-- The type of a value. -/
inductive HasType : MapNode → Datatype → Prop
  | table {t} : HasType (.table t) .table
  | arrayOfTables {es} : HasType (.toplevel es) .array
  | array {n a es} : HasType (.inline n a es) .array
  | string {s} : HasType (.scalar (.string s)) .string
  | int {l s n} : HasType (.scalar (.int l s n)) .int
  | float {l s f} : HasType (.scalar (.float l s f)) .float
  | bool {s b} : HasType (.scalar (.bool s b)) .bool
  | dateTime {l s d} : HasType (.scalar (.dateTime l s d)) .dateTime
  | invalid {l s} : HasType (.scalar (.invalid l s)) .invalid

/-- The key has a value that is a string; `a` is the string and the first representation of the key. -/
def IsStr (t : MapTable) (k : String) (a : StringAssignment) : Prop :=
  ∃ e, get t k.toList = some e ∧ e.node = .scalar (.string a.val) ∧ e.reprs.head? = some a.repr

/-- The key has a value that is a boolean. -/
def Flag (t : MapTable) (k : String) (a : BoolAssignment) : Prop :=
  ∃ e, get t k.toList = some e ∧ e.node = .scalar (.bool a.litSpan a.val) ∧ e.reprs.head? = some a.repr

/-- The key has a value that is a string. -/
def HasStr (t : MapTable) (k : String) : Prop := ∃ a, IsStr t k a

/-- The table has the key. -/
def HasKey (t : MapTable) (k : String) : Prop := ∃ e, get t k.toList = some e

/-- The string, or nothing if there is none. -/
def OptStr (t : MapTable) (k : String) (o : Option StringAssignment) : Prop :=
  ∀ a, o = some a ↔ IsStr t k a

/-- The boolean, or nothing if there is none. -/
def OptFlag (t : MapTable) (k : String) (o : Option BoolAssignment) : Prop :=
  ∀ a, o = some a ↔ Flag t k a

/-! ## Where the dependencies are -/

/-- The tables that have sections of dependencies: the document itself, and each `target.x`; with their
location, the path to them and the target. -/
inductive Owner (root : MapTable) : Loc → List Seg → Option Str → MapTable → Prop
  | root : Owner root [] [] none root
  | target {e tt x e' t} : get root "target".toList = some e → e.node = .table tt →
      get tt x = some e' → e'.node = .table t →
      Owner root [.key "target".toList, .key x] [.table e'.reprs, .table e.reprs] (some x) t

/-- The keys of the sections; one with an underscore only counts if the one with a hyphen is missing. -/
inductive SectionKey (t : MapTable) : String → DependencyKind → Prop
  | normal : SectionKey t "dependencies" .normal
  | dev : SectionKey t "dev-dependencies" .dev
  | devOld : ¬ HasKey t "dev-dependencies" → SectionKey t "dev_dependencies" .dev
  | build : SectionKey t "build-dependencies" .build
  | buildOld : ¬ HasKey t "build-dependencies" → SectionKey t "build_dependencies" .build

/-- The sections of dependencies, with the path around them. -/
inductive Section (root : MapTable) : Loc → List Seg → DependencyKind → Option Str → TomlMap.Entry → Prop
  | mk {loc path target t key kind e} : Owner root loc path target t → SectionKey t key kind →
      get t key.toList = some e → Section root (loc ++ [.key key.toList]) path kind target e

/-- The entries of these sections, with the path around them. -/
inductive DepEntry (root : MapTable) :
    Loc → List Seg → DependencyKind → Option Str → Str → TomlMap.Entry → Prop
  | mk {loc path kind target s t name e} : Section root loc path kind target s → s.node = .table t →
      get t name = some e →
      DepEntry root (loc ++ [.key name]) (.table s.reprs :: path) kind target name e

/-! ## What a dependency is -/

/-- The string as a version requirement, which is nothing if it has an error. -/
def Version (ovf : Bool) (v : DependencyVersion) : Prop :=
  ∃ s, textSpan v.str.val = some s ∧
    match Semver.parseRequirement ovf v.str.val.text s.start with
    | .ok r => v.req = some r
    | .err _ => v.req = none
    | .panic => False

/-- The version of a dependency, if it has one. -/
def OptVersion (ovf : Bool) (t : MapTable) (o : Option DependencyVersion) : Prop :=
  (∀ v, o = some v → IsStr t "version" v.str ∧ Version ovf v) ∧ (o = none → ¬ HasStr t "version")

/-- Which revision of a repository. -/
inductive GitSpec (t : MapTable) : DependencyGitSpec → Prop
  | branch {a} : IsStr t "branch" a → ¬ HasStr t "tag" → ¬ HasStr t "rev" → GitSpec t (.branch a)
  | tag {a} : IsStr t "tag" a → ¬ HasStr t "branch" → ¬ HasStr t "rev" → GitSpec t (.tag a)
  | rev {a} : IsStr t "rev" a → ¬ HasStr t "branch" → ¬ HasStr t "tag" → GitSpec t (.rev a)
  | none : ¬ HasStr t "branch" → ¬ HasStr t "tag" → ¬ HasStr t "rev" → GitSpec t .none
  | branchTag : HasStr t "branch" → HasStr t "tag" → GitSpec t .conflicting
  | branchRev : HasStr t "branch" → HasStr t "rev" → GitSpec t .conflicting
  | tagRev : HasStr t "tag" → HasStr t "rev" → GitSpec t .conflicting

/-- Does it have a `workspace` key (that is a boolean)? -/
def HasWorkspace (t : MapTable) : Prop := ∃ a, Flag t "workspace" a

/-- The source of a dependency that is a table. -/
inductive Source (ovf : Bool) (t : MapTable) : DependencySpec → Prop
  | invalid {a} : Flag t "workspace" a → a.val = false → Source ovf t .invalid
  | workspace {a} : Flag t "workspace" a → a.val = true → Source ovf t (.workspace a)
  | gitRegistry : ¬ HasWorkspace t → HasStr t "git" → HasStr t "registry" → Source ovf t .conflicting
  | gitPath : ¬ HasWorkspace t → HasStr t "git" → HasStr t "path" → Source ovf t .conflicting
  | git {repo spec v} : ¬ HasWorkspace t → IsStr t "git" repo → ¬ HasStr t "path" →
      ¬ HasStr t "registry" → GitSpec t spec → OptVersion ovf t v → Source ovf t (.git repo spec v)
  | path {p v r} : ¬ HasWorkspace t → ¬ HasStr t "git" → IsStr t "path" p → OptVersion ovf t v →
      OptStr t "registry" r → Source ovf t (.path p v r)
  | registry {v r} : ¬ HasWorkspace t → ¬ HasStr t "git" → ¬ HasStr t "path" →
      IsStr t "version" v.str → Version ovf v → OptStr t "registry" r → Source ovf t (.registry v r)
  | missing {r} : ¬ HasWorkspace t → ¬ HasStr t "git" → ¬ HasStr t "path" → ¬ HasStr t "version" →
      OptStr t "registry" r → Source ovf t (.missing r)

/-- The strings among the elements of an array. -/
def strings : List InlineEntry → List StringVal
  | [] => []
  | e :: es =>
    match e.node with
    | .scalar (.string s) => s :: strings es
    | _ => strings es

/-- The features of a dependency that is a table. -/
structure Features (t : MapTable) (f : DependencyFeatures) : Prop where
  default : HasKey t "default-features" → OptFlag t "default-features" f.default
  defaultOld : ¬ HasKey t "default-features" → OptFlag t "default_features" f.default
  list : ∀ e n a es, get t "features".toList = some e → e.node = .inline n a es → f.list = strings es
  noList : (∀ e n a es, get t "features".toList = some e → e.node ≠ .inline n a es) → f.list = []

/-- What the dependency is that an entry of a section stands for: a version, or a table. -/
inductive Describes (ovf : Bool) : TomlMap.Entry → Dependency → Prop
  | version {e d v} : e.node = .scalar (.string v.str.val) → e.reprs.head? = some v.str.repr →
      Version ovf v → d.spec = .registry v none → d.package = none → d.optional = none →
      d.features = ⟨none, []⟩ → Describes ovf e d
  | table {e d t} : e.node = .table t → Source ovf t d.spec → OptStr t "package" d.package →
      OptFlag t "optional" d.optional → Features t d.features → Describes ovf e d

/-- The dependency at a location. -/
def IsDependency (ovf : Bool) (root : MapTable) (loc : Loc) (d : Dependency) : Prop :=
  (∃ path, DepEntry root loc path d.kind d.target d.name d.entry) ∧ Describes ovf d.entry d

/-! ## Diagnostics -/

/-- What is wrong. -/
inductive Problem | type | unknown | deprecated | source | version | missing
  deriving DecidableEq

/-- The reason for a diagnostic: where, what is wrong, and a number if there may be more than one. -/
structure Reason where
  loc : Loc
  what : Problem
  n : Nat
  deriving DecidableEq

/-- An error at one representation of a key: it has the lines of the keys around it, where `path` leads
to the table around it, and shows the location `shown`. -/
def ErrorAt (path : List Seg) (r : Repr) (shown : Loc) (kind : ErrorKind) (m : Msg) : Prop :=
  ∃ ls s, ContextLines path [r.parent] ls ∧ r.span = some s ∧ m = .error ls (showLoc shown) s kind

/-- A warning at one representation of a key. -/
def WarningAt (path : List Seg) (r : Repr) (shown : Loc) (kind : WarningKind) (m : Msg) : Prop :=
  ∃ ls s, ContextLines path [r.parent] ls ∧ r.span = some s ∧ m = .warning ls (showLoc shown) s kind

/-- The error of a version requirement. -/
def VersionError (ovf : Bool) (v : StringVal) (e : Semver.Error) : Prop :=
  ∃ s, textSpan v = some s ∧ Semver.parseRequirement ovf v.text s.start = .err e

/-- A value has another type than the expected one; a value that could not be parsed has an error
already. -/
def WrongType (n : MapNode) (expected : List Datatype) (found : Datatype) : Prop :=
  HasType n found ∧ found ≠ .invalid ∧ found ∉ expected

/-- The warning about a key with an underscore. -/
inductive Underscore (t : MapTable) (old new : String) : WarningKind → Prop
  | deprecated : ¬ HasKey t new → Underscore t old new (.deprecatedUnderscore old.toList new.toList)
  | redundant {e r s} : get t new.toList = some e → e.reprs.head? = some r → r.kind.span = some s →
      Underscore t old new (.redundantDeprecatedUnderscore old.toList new.toList s)

/-- The keys of a dependency. -/
def dependencyKeys : List String :=
  ["workspace", "version", "registry", "path", "git", "branch", "tag", "rev", "package", "optional",
   "features", "default-features", "default_features"]

/-- The type that a key of a dependency should have. -/
inductive KeyType (t : MapTable) : String → Datatype → Prop
  | string {k} : k ∈ ["version", "registry", "path", "git", "branch", "tag", "rev", "package"] →
      KeyType t k .string
  | bool {k} : k ∈ ["workspace", "optional", "default-features"] → KeyType t k .bool
  | boolOld : ¬ HasKey t "default-features" → KeyType t "default_features" .bool
  | array : KeyType t "features" .array

/-- The diagnostics about the single keys of a dependency that is a table, at the location `loc` and the
path `path`. -/
inductive KeyMessage (loc : Loc) (path : List Seg) (t : MapTable) : Reason → Msg → Prop
  | unknown {k e i r m} : get t k = some e → k ∉ dependencyKeys.map String.toList →
      e.reprs[i]? = some r → WarningAt path r (loc ++ [.key k]) .ignoredUnknownKey m →
      KeyMessage loc path t ⟨loc ++ [.key k], .unknown, i⟩ m
  | type {k ty e found i r m} : KeyType t k ty → get t k.toList = some e →
      WrongType e.node [ty] found → e.reprs[i]? = some r →
      ErrorAt path r (loc ++ [.key k.toList]) (.wrongDatatype ty found) m →
      KeyMessage loc path t ⟨loc ++ [.key k.toList], .type, i⟩ m
  | deprecated {e kind i r m} : get t "default_features".toList = some e →
      Underscore t "default_features" "default-features" kind → e.reprs[i]? = some r →
      WarningAt path r loc kind m →
      KeyMessage loc path t ⟨loc ++ [.key "default_features".toList], .deprecated, i⟩ m
  /-- The features are an array of tables. -/
  | features {e es i r m} : get t "features".toList = some e → e.node = .toplevel es →
      e.reprs[i]? = some r →
      ErrorAt path r (loc ++ [.key "features".toList, .idx i]) (.wrongDatatype .string .table) m →
      KeyMessage loc path t ⟨loc ++ [.key "features".toList, .idx i], .type, 0⟩ m
  /-- A feature is not a string. -/
  | feature {e n a es i x found ls} : get t "features".toList = some e → e.node = .inline n a es →
      es[i]? = some x → WrongType x.node [.string] found →
      ContextLines (.table e.reprs :: path) [n] ls →
      KeyMessage loc path t ⟨loc ++ [.key "features".toList, .idx i], .type, 0⟩
        (.error ls (showLoc (loc ++ [.key "features".toList, .idx i]))
          ⟨x.repr.val.start, x.repr.end⟩ (.wrongDatatype .string found))

/-- The diagnostics about the source of a dependency that is a table `t`, the node of the entry `e` at
the location `loc`, where `prev` is the path around it. -/
inductive SourceMessage (ovf : Bool) (loc : Loc) (prev : List Seg) (e : TomlMap.Entry) (t : MapTable) :
    Reason → Msg → Prop
  | workspaceFalse {a m} : Flag t "workspace" a → a.val = false →
      ErrorAt (.table e.reprs :: prev) a.repr loc .depWorkspaceIsFalse m →
      SourceMessage ovf loc prev e t ⟨loc ++ [.key "workspace".toList], .source, 0⟩ m
  | workspaceIgnored {a k b s m} : Flag t "workspace" a → a.val = true →
      k ∈ ["version", "registry", "path", "git", "branch", "tag", "rev"] → IsStr t k b →
      a.repr.span = some s →
      WarningAt (.table e.reprs :: prev) b.repr (loc ++ [.key k.toList]) (.workspaceDepIgnoredKey s) m →
      SourceMessage ovf loc prev e t ⟨loc ++ [.key k.toList], .source, 0⟩ m
  | withoutGit {k b m} : ¬ HasWorkspace t → ¬ HasStr t "git" → k ∈ ["branch", "tag", "rev"] → IsStr t k b →
      ErrorAt (.table e.reprs :: prev) b.repr loc (.depIgnoredGitKey k.toList) m →
      SourceMessage ovf loc prev e t ⟨loc ++ [.key k.toList], .source, 0⟩ m
  | gitRegistry {k b m} : ¬ HasWorkspace t → HasStr t "git" → HasStr t "registry" →
      k ∈ ["git", "registry"] → IsStr t k b →
      ErrorAt (.table e.reprs :: prev) b.repr loc .ambigousDepSpecGitRegistry m →
      SourceMessage ovf loc prev e t ⟨loc ++ [.key k.toList], .source, 0⟩ m
  /-- The kind of the error is the one of `git` and `registry`, although there is another one for `git`
  and `path`. -/
  | gitPath {k b m} : ¬ HasWorkspace t → HasStr t "git" → HasStr t "path" → ¬ HasStr t "registry" →
      k ∈ ["git", "path"] → IsStr t k b →
      ErrorAt (.table e.reprs :: prev) b.repr loc .ambigousDepSpecGitRegistry m →
      SourceMessage ovf loc prev e t ⟨loc ++ [.key k.toList], .source, 0⟩ m
  | gitSpec {k b m} : ¬ HasWorkspace t → HasStr t "git" → ¬ HasStr t "path" → ¬ HasStr t "registry" →
      GitSpec t .conflicting → k ∈ ["branch", "tag", "rev"] → IsStr t k b →
      ErrorAt (.table e.reprs :: prev) b.repr loc .ambigousGitSpec m →
      SourceMessage ovf loc prev e t ⟨loc ++ [.key k.toList], .source, 0⟩ m
  | version {b er} : ¬ HasWorkspace t → ¬ (HasStr t "git" ∧ (HasStr t "path" ∨ HasStr t "registry")) →
      IsStr t "version" b → VersionError ovf b.val er →
      SourceMessage ovf loc prev e t ⟨loc ++ [.key "version".toList], .version, 0⟩ (.semver er)
  | missing {i r m} : ¬ HasWorkspace t → ¬ HasStr t "git" → ¬ HasStr t "path" → ¬ HasStr t "version" →
      e.reprs[i]? = some r → WarningAt prev r loc .missingDepSpec m →
      SourceMessage ovf loc prev e t ⟨loc, .missing, i⟩ m

/-- The diagnostics about an entry of a section of dependencies. -/
inductive EntryMessage (ovf : Bool) (loc : Loc) (prev : List Seg) (e : TomlMap.Entry) : Reason → Msg → Prop
  | version {s er} : e.node = .scalar (.string s) → VersionError ovf s er →
      EntryMessage ovf loc prev e ⟨loc, .version, 0⟩ (.semver er)
  | type {found i r m} : WrongType e.node [.string, .table] found → e.reprs[i]? = some r →
      ErrorAt prev r loc (.depWrongDatatype found) m → EntryMessage ovf loc prev e ⟨loc, .type, i⟩ m
  | key {t r m} : e.node = .table t → KeyMessage loc (.table e.reprs :: prev) t r m →
      EntryMessage ovf loc prev e r m
  | source {t r m} : e.node = .table t → SourceMessage ovf loc prev e t r m →
      EntryMessage ovf loc prev e r m

/-- The keys of the sections of dependencies. -/
def sectionNames : List String :=
  ["dependencies", "dev-dependencies", "dev_dependencies", "build-dependencies", "build_dependencies"]

/-- The keys of a manifest. -/
def manifestKeys : List String :=
  ["package", "lib", "bin", "example", "test", "bench", "badges", "features", "lints", "patch",
   "replace", "profile", "workspace", "target"] ++ sectionNames

/-- The diagnostics about a manifest, with the reasons for them. -/
inductive Message (ovf : Bool) (root : MapTable) : Reason → Msg → Prop
  | unknown {k e i r m} : get root k = some e → k ∉ manifestKeys.map String.toList →
      e.reprs[i]? = some r → WarningAt [] r [.key k] .ignoredUnknownKey m →
      Message ovf root ⟨[.key k], .unknown, i⟩ m
  | unknownTarget {loc path x t k e i r m} : Owner root loc path (some x) t → get t k = some e →
      k ∉ sectionNames.map String.toList → e.reprs[i]? = some r →
      WarningAt path r (loc ++ [.key k]) .ignoredUnknownKey m →
      Message ovf root ⟨loc ++ [.key k], .unknown, i⟩ m
  | targetType {e found i r m} : get root "target".toList = some e → WrongType e.node [.table] found →
      e.reprs[i]? = some r → ErrorAt [] r [.key "target".toList] (.wrongDatatype .table found) m →
      Message ovf root ⟨[.key "target".toList], .type, i⟩ m
  | targetEntryType {e tt x e' found i r m} : get root "target".toList = some e → e.node = .table tt →
      get tt x = some e' → WrongType e'.node [.table] found → e'.reprs[i]? = some r →
      ErrorAt [.table e.reprs] r [.key "target".toList, .key x] (.wrongDatatype .table found) m →
      Message ovf root ⟨[.key "target".toList, .key x], .type, i⟩ m
  | deprecated {loc path target t on e kind i r m} : Owner root loc path target t →
      on ∈ [("dev_dependencies", "dev-dependencies"), ("build_dependencies", "build-dependencies")] →
      get t on.1.toList = some e → Underscore t on.1 on.2 kind → e.reprs[i]? = some r →
      WarningAt path r loc kind m → Message ovf root ⟨loc ++ [.key on.1.toList], .deprecated, i⟩ m
  | sectionType {loc path kind target e found i r m} : Section root loc path kind target e →
      WrongType e.node [.table] found → e.reprs[i]? = some r →
      ErrorAt path r loc (.wrongDatatype .table found) m → Message ovf root ⟨loc, .type, i⟩ m
  | entry {loc path kind target name e r m} : DepEntry root loc path kind target name e →
      EntryMessage ovf loc path e r m → Message ovf root r m

/-! ## The version requirement of an entry -/

/-- The string of the entry of a dependency that is read as a version requirement: the entry itself, or that at the key
`version` of a table, unless the table has the boolean `workspace`, or `git` besides `path` or `registry`. -/
inductive ReadVersion (e : TomlMap.Entry) : StringVal → Prop
  | string {s} : e.node = .scalar (.string s) → ReadVersion e s
  | table {t a} : e.node = .table t → ¬ HasWorkspace t →
      ¬ (HasStr t "git" ∧ (HasStr t "path" ∨ HasStr t "registry")) → IsStr t "version" a → ReadVersion e a.val

end Verif.Spec.Check
