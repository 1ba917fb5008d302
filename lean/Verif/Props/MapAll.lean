import Verif.Toml.MapAll
import Verif.Props.Map

/-!
# C99: every part of a document is in the map or is reported
-/

namespace Verif.Props
open Verif Verif.Toml Verif.TomlMap Verif.Spec.Toml

/-- C99: every header and every assignment of a text, also those inside of inline tables, is in the map or is reported: the diagnostics of the map
are one for each rejected part, in the order of the text, and mark a name of its key; each part that is not in the map is a rejected one or is inside
of a rejected one. -/
theorem C99_parts {ovf : Bool} {input : Str} {a : Asts} {s : PS} {t : MapTable} {es : List Error} (h : parseDocument ovf input = .ok a s)
    (hm : map a.asts = some (t, es)) : Accounted (Stored t) (docParts a.asts) es :=
  mapAsts_acc _ (Tree.parse_tree h).2 _ _ _ hm

/-- C99: the same for any tree with a name in each key. -/
theorem C99_tree {asts : List Ast} {t : MapTable} {es : List Error} (h : ∀ x ∈ asts, AstOk x) (hm : map asts = some (t, es)) :
    Accounted (Stored t) (docParts asts) es :=
  mapAsts_acc _ h _ _ _ hm

/-- C99: if the map reports nothing, every header and every assignment is in it. -/
theorem C99_all {asts : List Ast} {t : MapTable} (h : ∀ x ∈ asts, AstOk x) (hm : map asts = some (t, [])) {k : ReprKind} (hk : k ∈ docParts asts) :
    Stored t k := by
  obtain ⟨ks, -, h2, h3⟩ := C99_tree h hm
  cases h2
  rcases h3 k hk with h | ⟨k', hk', -⟩
  · exact h
  · cases hk'

/-- C99: there are at most as many diagnostics as there are headers and assignments. -/
theorem C99_count {asts : List Ast} {t : MapTable} {es : List Error} (h : ∀ x ∈ asts, AstOk x) (hm : map asts = some (t, es)) :
    es.length ≤ (docParts asts).length := by
  obtain ⟨ks, h1, h2, -⟩ := C99_tree h hm
  have : es.length = ks.length := by
    clear h1 hm
    induction h2 with
    | nil => rfl
    | cons _ _ ih => simp [ih]
  rw [this]
  exact h1.length_le

/-! ## Examples -/

/-- A document with a header, a key inside of an inline table that is there twice, a rejected header with an assignment, and one more table. -/
def partsToml : Str := "[a]\nx = { y = 1, y = 2, z = [{ w = 3 }] }\n[a]\nv = 4\n[[b]]\nx = 5\n".toList

/-- The number of parts of a text and the places of the rejected names. -/
def partsOf (x : Str) : Option (Nat × List (Option Span)) :=
  match parseDocument true x with
  | .ok a _ => (map a.asts).map fun y => ((docParts a.asts).length, y.2.map rejectedAt)
  | _ => none

set_option maxRecDepth 100000 in
/-- It has ten parts: two are rejected, the second `y` and the second `[a]`, which takes `v = 4` with it. -/
example : partsOf partsToml = some (10, [some ⟨⟨1, 13⟩, ⟨1, 14⟩⟩, some ⟨⟨2, 1⟩, ⟨2, 2⟩⟩]) := by decide +kernel

set_option maxRecDepth 100000 in
/-- It is parsed and mapped. -/
example : ∃ a s t es, parseDocument true partsToml = .ok a s ∧ map a.asts = some (t, es) := by
  have : (partsOf partsToml).isSome = true := by decide +kernel
  unfold partsOf at this
  cases h : parseDocument true partsToml with
  | ok a s =>
    obtain ⟨t, es, hm, -⟩ := C47_map h
    exact ⟨a, s, t, es, rfl, hm⟩
  | _ => rw [h] at this; cases this

end Verif.Props
