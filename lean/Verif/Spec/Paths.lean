import Verif.Spec.MapRepr

/-!
# Specification: the path and the context lines of a diagnostic

A diagnostic about a key shows the path to it, `a.'b c'[0].d`, and the lines of the keys and headers
around it.
-/

namespace Verif.Spec.Toml
open Verif Verif.Toml Verif.TomlMap

/-- A name that needs no quotes: it has a character, and only ASCII letters, digits, `_` and `-`. -/
def PlainName (k : Str) : Prop := k ≠ [] ∧ ∀ c ∈ k, BareChar c

instance (c : Char) : Decidable (BareChar c) := by unfold BareChar; infer_instance

instance (k : Str) : Decidable (PlainName k) := by unfold PlainName; infer_instance

/-- A name as it is shown: in single quotes if it needs them, where control characters are shown as
escapes. -/
def showName (k : Str) : Str := if PlainName k then k else '\'' :: Diag.fmtStr k ++ ['\'']

/-- A step behind other steps: `.name` or `[i]`. -/
def showStep : PStep → Str
  | .key k => '.' :: showName k
  | .idx i => '[' :: decimal i ++ [']']

/-- A location as it is shown. -/
def showLoc : Loc → Str
  | [] => []
  | .key k :: p => showName k ++ p.flatMap showStep
  | .idx i :: p => showStep (.idx i) ++ p.flatMap showStep

/-- The representations that a representation with the parent `n` belongs to: its parent, the parent of
this one, and so on, where the path (last segment first) leads to the table around it. -/
inductive Encloses : List Seg → Nat → Repr → Prop
  | here {rs path n q} : rs[n]? = some q → Encloses (.table rs :: path) n q
  | up {rs path n q q'} : rs[n]? = some q → Encloses path q.parent q' → Encloses (.table rs :: path) n q'
  | skip {i path n q} : Encloses path n q → Encloses (.array i :: path) n q

/-- The line of the name of a representation. -/
def OnLine (r : Repr) (l : Nat) : Prop := ∃ i, r.key.reprIdent = some i ∧ i.litStart.line = l

/-- The context lines for representations with these parents: the lines of all names around them, in
order, each one once. -/
def ContextLines (path : List Seg) (parents : List Nat) (ls : List Nat) : Prop :=
  ls.Pairwise (· < ·) ∧
  ∀ l, l ∈ ls ↔ ∃ n ∈ parents, ∃ q, Encloses path n q ∧ OnLine q l

end Verif.Spec.Toml
