import Verif.Spec.Check
import Verif.Spec.MapText
import Verif.Spec.PartSpans

/-!
# Specification: what a dependency keeps of the document
-/

namespace Verif.Spec.Check
open Verif Verif.Toml Verif.TomlMap Verif.Spec.Toml Verif.Ide

/-- The version of a source. -/
inductive SpecVersion : DependencySpec → DependencyVersion → Prop
  | git {r g v} : SpecVersion (.git r g (some v)) v
  | path {p v r} : SpecVersion (.path p (some v) r) v
  | registry {v r} : SpecVersion (.registry v r) v

/-- The registry of a source. -/
inductive SpecRegistry : DependencySpec → StringAssignment → Prop
  | path {p v a} : SpecRegistry (.path p v (some a)) a
  | registry {v a} : SpecRegistry (.registry v (some a)) a
  | missing {a} : SpecRegistry (.missing (some a)) a

/-- The strings that a dependency keeps, with the key that each one was assigned to. -/
inductive KeepsStr (d : Dependency) : Str → StringAssignment → Prop
  | package {a} : d.package = some a → KeepsStr d "package".toList a
  | git {a g v} : d.spec = .git a g v → KeepsStr d "git".toList a
  | branch {r a v} : d.spec = .git r (.branch a) v → KeepsStr d "branch".toList a
  | tag {r a v} : d.spec = .git r (.tag a) v → KeepsStr d "tag".toList a
  | rev {r a v} : d.spec = .git r (.rev a) v → KeepsStr d "rev".toList a
  | path {a v r} : d.spec = .path a v r → KeepsStr d "path".toList a
  | registry {a} : SpecRegistry d.spec a → KeepsStr d "registry".toList a
  | version {v t} : SpecVersion d.spec v → d.entry.node = .table t → KeepsStr d "version".toList v.str
  | shorthand {v s} : SpecVersion d.spec v → d.entry.node = .scalar s → KeepsStr d d.name v.str

/-- The booleans that a dependency keeps, with the keys that each one may be assigned to. -/
inductive KeepsBool (d : Dependency) : Str → BoolAssignment → Prop
  | optional {a} : d.optional = some a → KeepsBool d "optional".toList a
  | workspace {a} : d.spec = .workspace a → KeepsBool d "workspace".toList a
  | defaultFeatures {a t} : d.features.default = some a → d.entry.node = .table t → HasKey t "default-features" →
      KeepsBool d "default-features".toList a
  | defaultFeaturesOld {a t} : d.features.default = some a → d.entry.node = .table t → ¬ HasKey t "default-features" →
      KeepsBool d "default_features".toList a

/-- In the document stands `… = v`, where `i` is the last name in front of the `=`: the places of the name, of the equal sign and of
the value are in `s`, in this order; `s` starts with the name and ends with the value, or with the comma behind it. -/
def AssignedAt (input : Str) (i : Ident) (v : Value) (s : Span) : Prop :=
  IdentAt input i ∧ (∃ n, ValueAt input n v) ∧
  (∃ eq, CharAt input eq '=' ∧ SpanOfPlaces input s [i.litSpan, Span.asciiChar eq, v.span]) ∧
  s.start = i.litStart ∧ (s.stop = v.stop ∨ ∃ c, CharAt input c ',' ∧ s.stop = c.plus 1)

end Verif.Spec.Check
