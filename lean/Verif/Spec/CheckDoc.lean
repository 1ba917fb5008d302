import Verif.Spec.Check
import Verif.Spec.SemverText
import Verif.Spec.Wrap

/-!
# Specification: the check of a document

Version requirements that reach the overflow in `semver`, keys that the check knows, and maps that differ
in the order of their entries only.
-/

namespace Verif.Spec.Check
open Verif Verif.Toml Verif.TomlMap Verif.Spec.Toml Verif.Ide

/-- No version requirement of a dependency has the digits of a number where the parser of versions
overflows (C20). -/
def NoTrap (root : MapTable) : Prop :=
  ∀ loc path kind target name e, DepEntry root loc path kind target name e →
    (∀ s, e.node = .scalar (.string s) → ¬ Spec.Semver.OverflowTrap s.text) ∧
    (∀ t a, e.node = .table t → IsStr t "version" a → ¬ Spec.Semver.OverflowTrap a.val.text)

/-- A version requirement that is read has a number where the parser of versions overflows. -/
def ReadsTrap (root : MapTable) : Prop :=
  ∃ loc path kind target name e v, DepEntry root loc path kind target name e ∧ ReadVersion e v ∧
    Spec.Semver.RequirementTraps v.text

/-! ## Contradictions -/

/-- The key `k` of a dependency contradicts another one (or itself), which is an error. -/
inductive Contradiction (t : MapTable) : String → ErrorKind → Prop
  | workspaceFalse {a} : Flag t "workspace" a → a.val = false →
      Contradiction t "workspace" .depWorkspaceIsFalse
  | gitRegistry {k} : ¬ HasWorkspace t → HasStr t "git" → HasStr t "registry" → k ∈ ["git", "registry"] →
      Contradiction t k .ambigousDepSpecGitRegistry
  | gitPath {k} : ¬ HasWorkspace t → HasStr t "git" → HasStr t "path" → ¬ HasStr t "registry" →
      k ∈ ["git", "path"] → Contradiction t k .ambigousDepSpecGitRegistry
  | gitSpec {k a b} : ¬ HasWorkspace t → HasStr t "git" → ¬ HasStr t "path" → ¬ HasStr t "registry" →
      a ∈ ["branch", "tag", "rev"] → b ∈ ["branch", "tag", "rev"] → a ≠ b → HasStr t a → HasStr t b →
      k ∈ ["branch", "tag", "rev"] → HasStr t k → Contradiction t k .ambigousGitSpec
  | withoutGit {k} : ¬ HasWorkspace t → ¬ HasStr t "git" → k ∈ ["branch", "tag", "rev"] → HasStr t k →
      Contradiction t k (.depIgnoredGitKey k.toList)

/-- Is it an error about a contradiction? -/
def isContradiction : Msg → Bool
  | .error _ _ _ .depWorkspaceIsFalse => true
  | .error _ _ _ .ambigousDepSpecGitRegistry => true
  | .error _ _ _ .ambigousDepSpecGitPath => true
  | .error _ _ _ .ambigousGitSpec => true
  | .error _ _ _ (.depIgnoredGitKey _) => true
  | _ => false

/-- The error for the key `k` of the dependency at `loc`, where `r` is the representation of the key. -/
inductive ContradictionAt (root : MapTable) : Loc × Str → Msg → Prop
  | mk {loc path kind target name e t k ek e' r m} : DepEntry root loc path kind target name e →
      e.node = .table t → Contradiction t k ek → get t k.toList = some e' → e'.reprs.head? = some r →
      ErrorAt (.table e.reprs :: path) r loc ek m → ContradictionAt root (loc, k.toList) m

/-! ## Unknown keys -/

/-- The tables whose keys are checked, with the keys that are known there: the document, each
`target.x`, and each dependency that is a table. -/
inductive KnownKeys (root : MapTable) : Loc → List Seg → MapTable → List String → Prop
  | root : KnownKeys root [] [] root manifestKeys
  | target {loc path x t} : Owner root loc path (some x) t → KnownKeys root loc path t sectionNames
  | dependency {loc path kind target name e t} : DepEntry root loc path kind target name e →
      e.node = .table t → KnownKeys root loc (.table e.reprs :: path) t dependencyKeys

/-- The warning for the `i`-th representation of a key that is not known. -/
inductive UnknownKey (root : MapTable) : Reason → Msg → Prop
  | mk {loc path t keys k e i r m} : KnownKeys root loc path t keys → get t k = some e →
      k ∉ keys.map String.toList → e.reprs[i]? = some r →
      WarningAt path r (loc ++ [.key k]) .ignoredUnknownKey m →
      UnknownKey root ⟨loc ++ [.key k], .unknown, i⟩ m

/-- Is it a warning about an unknown key? -/
def isUnknown : Msg → Bool
  | .warning _ _ _ .ignoredUnknownKey => true
  | _ => false

/-! ## Order -/

/-- The nodes are the same, up to the order of the entries of tables. -/
inductive Reordered : MapNode → MapNode → Prop
  | table {t u t'} : t.Perm u → u.length = t'.length →
      (∀ (i : Nat) (x y : Str × TomlMap.Entry), u[i]? = some x → t'[i]? = some y →
        x.1 = y.1 ∧ x.2.reprs = y.2.reprs) →
      (∀ (i : Nat) (x y : Str × TomlMap.Entry), u[i]? = some x → t'[i]? = some y →
        Reordered x.2.node y.2.node) →
      Reordered (.table t) (.table t')
  | toplevel {es es'} : es.length = es'.length →
      (∀ (i : Nat) (x y : ArrayTable), es[i]? = some x → es'[i]? = some y →
        x.parent = y.parent ∧ x.repr = y.repr) →
      (∀ (i : Nat) (x y : ArrayTable), es[i]? = some x → es'[i]? = some y →
        Reordered (.table x.node) (.table y.node)) →
      Reordered (.toplevel es) (.toplevel es')
  | inline {p a es es'} : es.length = es'.length →
      (∀ (i : Nat) (x y : InlineEntry), es[i]? = some x → es'[i]? = some y → x.repr = y.repr) →
      (∀ (i : Nat) (x y : InlineEntry), es[i]? = some x → es'[i]? = some y →
        Reordered x.node y.node) →
      Reordered (.inline p a es) (.inline p a es')
  | scalar {s} : Reordered (.scalar s) (.scalar s)

/-- The dependencies are the same, up to the order of the entries of tables in the entry of the map that
they keep. -/
structure SameDependency (d d' : Dependency) : Prop where
  name : d.name = d'.name
  package : d.package = d'.package
  kind : d.kind = d'.kind
  target : d.target = d'.target
  spec : d.spec = d'.spec
  features : d.features = d'.features
  optional : d.optional = d'.optional
  reprs : d.entry.reprs = d'.entry.reprs
  node : Reordered d.entry.node d'.entry.node

/-- The lists have the same dependencies. -/
def SameDependencies (ds ds' : List Dependency) : Prop :=
  ∃ l, ds.Perm l ∧ l.length = ds'.length ∧
    ∀ (i : Nat) d d', l[i]? = some d → ds'[i]? = some d' → SameDependency d d'

end Verif.Spec.Check
