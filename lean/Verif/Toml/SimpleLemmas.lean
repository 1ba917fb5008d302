import Verif.Spec.Simple
import Verif.Ide.CheckLogic

namespace Verif.TomlMap
open Verif Verif.Toml Verif.Spec.Toml

theorem putSimple_new {l : List (Str × SimpleVal)} {x : Str × SimpleVal} (h : x.1 ∉ l.map (·.1)) :
    putSimple l x = l ++ [x] := by
  induction l with
  | nil => rfl
  | cons y l ih =>
    simp only [List.map_cons, List.mem_cons, not_or] at h
    rw [putSimple, if_neg (Ne.symm h.1), ih h.2]
    rfl

theorem foldl_putSimple {l acc : List (Str × SimpleVal)} (h : ((acc ++ l).map (·.1)).Nodup) :
    l.foldl putSimple acc = acc ++ l := by
  induction l generalizing acc with
  | nil => simp
  | cons x l ih =>
    rw [List.foldl_cons, putSimple_new, ih]
    · simp
    · simpa using h
    · intro hx
      rw [List.map_append, List.nodup_append] at h
      exact h.2.2 _ hx x.1 (by simp) rfl

/-- Different keys are inserted one behind the other. -/
theorem fromIter_nodup {l : List (Str × SimpleVal)} (h : (l.map (·.1)).Nodup) : fromIter l = l := by
  rw [fromIter, foldl_putSimple (by simpa using h)]
  rfl

theorem simplePairs_eq (t : MapTable) : simplePairs t = t.map fun x => (x.1, mapSimpleVal x.2.node) := by
  induction t with
  | nil => simp [simplePairs]
  | cons x t ih =>
    obtain ⟨k, n, rs⟩ := x
    rw [simplePairs, ih]
    rfl

theorem simpleTables_eq (es : List ArrayTable) :
    simpleTables es = es.map fun e => mapSimpleVal (.table e.node) := by
  induction es with
  | nil => simp [simpleTables]
  | cons x t ih =>
    obtain ⟨k, n, rs⟩ := x
    rw [simpleTables, ih]
    simp [mapSimpleVal]

theorem simpleElems_eq (es : List InlineEntry) : simpleElems es = es.map fun e => mapSimpleVal e.node := by
  induction es with
  | nil => simp [simpleElems]
  | cons x t ih =>
    obtain ⟨k, n⟩ := x
    rw [simpleElems, ih]
    rfl

theorem mapSimple_nodup {t : MapTable} (h : (t.map (·.1)).Nodup) :
    mapSimple t = t.map fun x => (x.1, mapSimpleVal x.2.node) := by
  rw [mapSimple, simplePairs_eq, fromIter_nodup]
  rw [List.map_map]
  exact h

theorem mapSimpleVal_table (t : MapTable) : mapSimpleVal (.table t) = .table (mapSimple t) := by
  rw [mapSimpleVal, mapSimple]

theorem getSimple_map (t : MapTable) (k : Str) :
    getSimple (t.map fun x => (x.1, mapSimpleVal x.2.node)) k = (get t k).map fun e => mapSimpleVal e.node := by
  induction t with
  | nil => rfl
  | cons x t ih =>
    obtain ⟨k', e⟩ := x
    simp only [List.map_cons, getSimple, TomlMap.get]
    by_cases h : k' = k
    · simp [h]
    · rw [if_neg h, if_neg h, ih]

/-- The plain value at each location is the one of the node at this location. -/
theorem simpleAt_eq {asts : List Ast} (p : Loc) : ∀ (n : MapNode) (ar : Option (List Repr)), NodeOk asts ar n →
    simpleAt (mapSimpleVal n) p = (nodeAt n p).map mapSimpleVal := by
  induction p with
  | nil => intro n ar _; cases n <;> simp [simpleAt, nodeAt]
  | cons s p ih =>
    intro n ar h
    cases h with
    | table h1 h2 h3 h4 h5 =>
      rename_i t
      rw [mapSimpleVal_table, mapSimple_nodup h1]
      cases s with
      | idx i => simp [simpleAt, nodeAt]
      | key k =>
        rw [simpleAt, nodeAt, getSimple_map]
        cases hg : get t k with
        | none => rfl
        | some e => exact ih e.node _ (h5 k e ((Verif.Ide.get_iff h1 k e).1 hg))
    | toplevel h1 h2 h3 =>
      rename_i rs es
      rw [mapSimpleVal, simpleTables_eq]
      cases s with
      | key k => simp [simpleAt, nodeAt]
      | idx i =>
        rw [simpleAt, nodeAt, List.getElem?_map]
        cases hg : es[i]? with
        | none => rfl
        | some e => exact ih (.table e.node) _ (h3 e (List.mem_of_getElem? hg))
    | inline h1 h2 h3 h4 =>
      rename_i rs pa a es
      rw [mapSimpleVal, simpleElems_eq]
      cases s with
      | key k => simp [simpleAt, nodeAt]
      | idx i =>
        rw [simpleAt, nodeAt, List.getElem?_map]
        cases hg : es[i]? with
        | none => rfl
        | some e => exact ih e.node _ (h4 e (List.mem_of_getElem? hg))
    | scalar =>
      rename_i rs v
      cases v <;> cases s <;> simp [mapSimpleVal, simpleScalar, simpleAt, nodeAt]

/-- The plain value has the shape of the node. -/
theorem simpleShape_eq (n : MapNode) : simpleShape (mapSimpleVal n) = nodeShape n := by
  cases n with
  | table t => rw [mapSimpleVal]; rfl
  | toplevel es => rw [mapSimpleVal, simpleTables_eq]; simp [simpleShape, nodeShape]
  | inline p a es => rw [mapSimpleVal, simpleElems_eq]; simp [simpleShape, nodeShape]
  | scalar s => cases s <;> rw [mapSimpleVal] <;> rfl

end Verif.TomlMap
