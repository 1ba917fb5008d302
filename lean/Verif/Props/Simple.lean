import Verif.Toml.SimpleLemmas
import Verif.Spec.Check
import Verif.Props.Map

/-! # Property C77: the plain values of a document

`simpleAt v p` is the plain value at the location `p` of `v`, and `simpleShape` says what it is
(`Spec/Simple.lean`); what a document says is in `Spec/Map.lean`. -/

namespace Verif.Props
open Verif Verif.Toml Verif.Spec.Toml Verif.TomlMap

variable {input : Str} {ovf : Bool} {asts : List Ast} {t : MapTable}

/-- C77: for each text that is a TOML document without contradictions, the tree of plain values has at each
location exactly what the document says: nothing is lost, and nothing is added. -/
theorem C77_text {vs : List (View × Pos)} {items : List Item} (h1 : Tokenized [] input vs)
    (h2 : Doc false vs items) (hc : Consistent (docDefs items)) (ovf : Bool) :
    ∃ a s t, parseDocument ovf input = .ok a s ∧ s.errors = [] ∧ map a.asts = some (t, []) ∧
      ∀ p, p ≠ [] → ∀ sh,
        (simpleAt (.table (mapSimple t)) p).map simpleShape = some sh ↔ Says (docDefs items) p sh := by
  obtain ⟨a, s, t, h3, h4, h5, h6⟩ := C45_text h1 h2 hc ovf
  refine ⟨a, s, t, h3, h4, h5, fun p hp sh => ?_⟩
  obtain ⟨t', es, hm, hok⟩ := C47_map h3
  rw [h5] at hm
  cases hm
  rw [← h6 p hp sh, ← mapSimpleVal_table, simpleAt_eq p _ _ hok, Option.map_map, shapeAt]
  have : simpleShape ∘ mapSimpleVal = nodeShape := funext simpleShape_eq
  rw [this]

/-- C77: for any text, also one with mistakes, the tree of plain values has at each location what the map has
there, in the same order of keys, and each key once. -/
theorem C77_any {a : Asts} {s : PS} (h : parseDocument ovf input = .ok a s) :
    ∃ t es, map a.asts = some (t, es) ∧
      (∀ p, simpleAt (.table (mapSimple t)) p = (nodeAt (.table t) p).map mapSimpleVal) ∧
      (∀ p, (simpleAt (.table (mapSimple t)) p).map simpleShape = shapeAt t p) ∧
      (mapSimple t).map (·.1) = t.map (·.1) ∧ ((mapSimple t).map (·.1)).Nodup := by
  obtain ⟨t, es, hm, hok⟩ := C47_map h
  have hs : ∀ p, simpleAt (.table (mapSimple t)) p = (nodeAt (.table t) p).map mapSimpleVal := by
    intro p
    rw [← mapSimpleVal_table]
    exact simpleAt_eq p _ _ hok
  have hn : (t.map (·.1)).Nodup := by
    cases hok with
    | table h1 _ _ _ _ => exact h1
  have hk : (mapSimple t).map (·.1) = t.map (·.1) := by
    rw [mapSimple_nodup hn, List.map_map]
    rfl
  refine ⟨t, es, hm, hs, fun p => ?_, hk, by rw [hk]; exact hn⟩
  rw [hs, Option.map_map, shapeAt]
  have : simpleShape ∘ mapSimpleVal = nodeShape := funext simpleShape_eq
  rw [this]

/-- C77: the type of the plain value of a node is the type of the node. -/
theorem C77_datatype (n : MapNode) (d : Ide.Datatype) :
    Spec.Check.HasType n d ↔ (mapSimpleVal n).datatype = d := by
  constructor
  · intro h
    cases h <;> rw [mapSimpleVal] <;> rfl
  · rintro rfl
    cases n with
    | table t => rw [mapSimpleVal]; exact .table
    | toplevel es => rw [mapSimpleVal]; exact .arrayOfTables
    | inline p a es => rw [mapSimpleVal]; exact .array
    | scalar s => cases s <;> rw [mapSimpleVal] <;> constructor

/-- Does the plain tree of a text have the integer `n` at a location? -/
def simpleInt (x : String) (p : Loc) (n : Int) : Bool :=
  match mapText x.toList with
  | some (t, _) =>
    match simpleAt (.table (mapSimple t)) p with
    | some (.int m) => m = n
    | _ => false
  | none => false

/-- A document with an array of tables, an inline array and an inline table. -/
example : simpleInt "[[x]]\na = 1\n[[x]]\na = [0, {b.c = 2}]" [.key ['x'], .idx 0, .key ['a']] 1 = true ∧
    simpleInt "[[x]]\na = 1\n[[x]]\na = [0, {b.c = 2}]"
      [.key ['x'], .idx 1, .key ['a'], .idx 1, .key ['b'], .key ['c']] 2 = true ∧
    simpleInt "[[x]]\na = 1\n[[x]]\na = [0, {b.c = 2}]" [.key ['x'], .idx 2, .key ['a']] 1 = false := by
  decide +kernel

/-- The premises of `C77_text` are met by the document of `rich_doc`; see Props/Map.lean. -/
example : ∃ a s, parseDocument true richToml = .ok a s := by
  obtain ⟨a, s, t, h, -⟩ := rich_map
  exact ⟨a, s, h⟩

end Verif.Props
