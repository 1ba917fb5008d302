import Verif.Toml.MapDoc
import Verif.Toml.MapTotalWalk

/-! # Reading the map: shapes, and paths of a traversal -/

namespace Verif.TomlMap
open Verif Verif.Toml Verif.Spec.Toml

/-! ## Shapes -/

/-- The shape of the information of a location. -/
def Info.shape : Info → Shape
  | .val v => .scalar v
  | .arr n => .array n
  | .tab _ => .table
  | .aot n _ => .array n

theorem nodeInfo_shape (cs : List Cls) (n : MapNode) : (nodeInfo cs n).shape = nodeShape n := by
  cases n <;> rfl

theorem info_shape (p : Loc) : ∀ (cs : List Cls) (n : MapNode),
    (info cs n p).map Info.shape = (nodeAt n p).map nodeShape := by
  induction p with
  | nil =>
    intro cs n
    cases n <;> rfl
  | cons s p ih =>
    intro cs n
    cases n with
    | table t =>
      cases s with
      | key k =>
        simp only [info, nodeAt]
        cases get t k with
        | none => rfl
        | some e => exact ih _ _
      | idx i => rfl
    | toplevel es =>
      cases s with
      | key k => rfl
      | idx i =>
        simp only [info, nodeAt]
        cases es[i]? with
        | none => rfl
        | some e => exact ih _ _
    | inline q a es =>
      cases s with
      | key k => rfl
      | idx i =>
        simp only [info, nodeAt]
        cases es[i]? with
        | none => rfl
        | some e => exact ih _ _
    | scalar x => cases s <;> rfl

theorem valShape_info {v : TVal} (ws : List What) : (infoOf (.value v :: ws)).map Info.shape = some (valShape v)
    := by cases v <;> rfl

/-- What a definition says. -/
def whatShape (n : Nat) : What → Shape
  | .value v => valShape v
  | .entry => .array n
  | _ => .table

theorem says_iff {D : List Def} {p : Loc} {s : Shape} :
    Says D p s ↔ ∃ w ∈ whats D p, s = whatShape (entries D p) w := by
  constructor
  · intro h
    cases h with
    | value h => exact ⟨_, mem_whats.2 h, rfl⟩
    | array h => exact ⟨_, mem_whats.2 h, rfl⟩
    | dotted h => exact ⟨_, mem_whats.2 h, rfl⟩
    | header h => exact ⟨_, mem_whats.2 h, rfl⟩
    | super h => exact ⟨_, mem_whats.2 h, rfl⟩
    | superArray h => exact ⟨_, mem_whats.2 h, rfl⟩
    | entryTable h => exact ⟨_, mem_whats.2 h, rfl⟩
  · rintro ⟨w, hw, rfl⟩
    have := mem_whats.1 hw
    cases w with
    | value v => exact .value this
    | entry => exact .array this
    | dotted => exact .dotted this
    | header => exact .header this
    | super => exact .super this
    | superArray => exact .superArray this
    | entryTable => exact .entryTable this

theorem infoOf_says {D : List Def} (hc : Consistent D) (p : Loc) (s : Shape) :
    (infoOf (whats D p)).map Info.shape = some s ↔ Says D p s := by
  rw [says_iff]
  have hpw := whats_pairwise hc p
  have hen : (whats D p).head? = some .entry → entries D p = (whats D p).length :=
    fun h => entries_all (only_entry hpw h)
  generalize whats D p = ws at *
  generalize entries D p = n at *
  cases ws with
  | nil => simp [infoOf]
  | cons w ws =>
    have h1 := (List.pairwise_cons.1 hpw).1
    -- all definitions say the same
    have hall : ∀ w' ∈ ws, whatShape n w' = whatShape n w := by
      intro w' hw'
      have := h1 w' hw'
      cases w' <;> cases w <;> simp_all [Compatible, whatShape]
    have hw : (infoOf (w :: ws)).map Info.shape = some (whatShape n w) := by
      cases w with
      | value v => exact valShape_info ws
      | entry =>
        have := hen rfl
        simp only [infoOf, Option.map_some, Info.shape, whatShape]
        rw [this]
        simp
      | _ => rfl
    rw [hw]
    constructor
    · intro h
      exact ⟨w, List.mem_cons_self, (Option.some.inj h).symm⟩
    · rintro ⟨w', hw', rfl⟩
      rcases List.mem_cons.1 hw' with rfl | hw'
      · rfl
      · rw [hall w' hw']

theorem repT_says {t : MapTable} {D : List Def} (hr : RepT [] t D) (hc : Consistent D) {p : Loc}
    (hp : p ≠ []) (s : Shape) : shapeAt t p = some s ↔ Says D p s := by
  cases p with
  | nil => exact absurd rfl hp
  | cons a p =>
    rw [← infoOf_says hc]
    unfold shapeAt
    rw [← info_shape (a :: p) [] (.table t), hr a p]
    rfl

/-! ## Paths -/

variable {asts : List Ast}

/-- The path of a traversal is right. -/
theorem pathTo_ok (p : Loc) : ∀ (n : MapNode) (prev : List Seg), PathOk prev → NodeOk asts (around prev) n →
    ((∃ t, n = .table t) ∨ prev ≠ []) → ∀ segs e, pathTo n prev p = some (segs, e) →
    PathOk segs ∧ ∃ k, EntryOk asts (around segs) k e := by
  induction p with
  | nil =>
    intro n prev hp hn hne segs e h
    cases n <;> simp [pathTo] at h
  | cons s p ih =>
    intro n prev hp hn hne segs e h
    cases n with
    | table t =>
      cases s with
      | idx i => simp [pathTo] at h
      | key k =>
        unfold pathTo at h
        cases hg : get t k with
        | none => rw [hg] at h; cases h
        | some e0 =>
          rw [hg] at h
          simp only at h
          have he := hn.entry hg
          cases p with
          | nil =>
            simp only [Option.some.injEq, Prod.mk.injEq] at h
            obtain ⟨rfl, rfl⟩ := h
            exact ⟨hp, k, he⟩
          | cons s' p' =>
            simp only at h
            exact ih e0.node (.table e0.reprs :: prev) (hp.table he.1 he.2.1) he.2.2.1 (Or.inr (by simp)) _ _ h
    | toplevel es =>
      have hne' : prev ≠ [] := by
        rcases hne with ⟨t, h⟩ | h
        · cases h
        · exact h
      cases s with
      | key k => simp [pathTo] at h
      | idx i =>
        unfold pathTo at h
        simp only [Option.bind_eq_some_iff] at h
        obtain ⟨x, hx, h⟩ := h
        refine ih (.table x.node) (.array i :: prev) ⟨hne', hp⟩ ?_ (Or.inr (by simp)) _ _ h
        show NodeOk asts (around prev) _
        generalize around prev = ar at hn ⊢
        cases hn with
        | toplevel _ _ h3 => exact h3 x (List.mem_of_getElem? hx)
    | inline q a es =>
      have hne' : prev ≠ [] := by
        rcases hne with ⟨t, h⟩ | h
        · cases h
        · exact h
      cases s with
      | key k => simp [pathTo] at h
      | idx i =>
        unfold pathTo at h
        simp only [Option.bind_eq_some_iff] at h
        obtain ⟨x, hx, h⟩ := h
        refine ih x.node (.array i :: prev) ⟨hne', hp⟩ ?_ (Or.inr (by simp)) _ _ h
        show NodeOk asts (around prev) _
        generalize around prev = ar at hn ⊢
        cases hn with
        | inline _ _ _ h3 => exact h3 x (List.mem_of_getElem? hx)
    | scalar x => cases s <;> simp [pathTo] at h

theorem map_path {t : MapTable} (h : MapOk asts t) {p : Loc} {segs : List Seg} {e : Entry}
    (hp : pathTo (.table t) [] p = some (segs, e)) : PathOk segs ∧ ∃ k, EntryOk asts (around segs) k e :=
  pathTo_ok p (.table t) [] trivial h (Or.inl ⟨t, rfl⟩) segs e hp

end Verif.TomlMap
