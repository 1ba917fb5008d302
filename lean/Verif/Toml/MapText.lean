import Verif.Spec.MapText
import Verif.Toml.MapTotalWalk

/-! # The map of a document lies in its text -/

namespace Verif.TomlMap
open Verif Verif.Toml Verif.Spec.Toml

variable {asts : List Ast} {one : Prop} {input : Str} {n : Nat}

theorem valueAt_has {v : Value} (h : ValueAt input n v) {x : InlineTableAssignment} (hx : HasAssignment v x) :
    KindAt one input n (.inlineTableAssignment x) := by
  induction hx with
  | here hm =>
    cases h with
    | inlineTable _ _ _ h1 h2 =>
      obtain ⟨a, b, c⟩ := h1 _ hm
      exact ⟨a, b, c, h2 _ hm⟩
  | elem hm _ ih =>
    cases h with
    | inlineArray _ _ _ _ _ h2 => exact ih (h2 _ hm)

theorem kindAt_val {k : ReprKind} (h : KindAt one input n k) {v : Value} (hv : kindVal k = some v) :
    ValueAt input n v := by
  cases k with
  | table t => cases hv
  | arrayEntry t => cases hv
  | toplevelAssignment a => cases hv; exact h.val
  | inlineTableAssignment a => cases hv; exact h.2.2.2

theorem kindAt_contains {p k : ReprKind} (h : KindAt one input n p) (hc : Contains p k) :
    KindAt one input n k := by
  cases p <;> cases k <;> simp only [Contains] at hc
  · cases h with
    | table _ _ _ _ h => exact h _ hc
  · cases h with
    | array _ _ _ _ _ h => exact h _ hc
  · exact valueAt_has h.val hc
  · exact valueAt_has h.2.2.2 hc

theorem kindAt_top (ha : ∀ x ∈ asts, AstAt one input n x) {k : ReprKind} (h : TopLevel asts k) :
    KindAt one input n k := by
  cases k with
  | table t => exact ha _ h
  | arrayEntry t => exact ha _ h
  | toplevelAssignment a =>
    cases ha _ h with
    | assignment h => exact h
  | inlineTableAssignment a => exact h.elim

theorem kindAt_parent (ha : ∀ x ∈ asts, AstAt one input n x) {ar : Option (List Repr)}
    (har : ∀ rs, ar = some rs → ∀ r ∈ rs, KindAt one input n r.kind) {r : Repr} (h : ParentOk asts ar r) :
    KindAt one input n r.kind := by
  cases ar with
  | none => exact kindAt_top ha h.2.2
  | some rs =>
    obtain ⟨p, hp, hb⟩ := h
    have hk := har rs rfl p (List.mem_of_getElem? hp)
    rcases hb with ⟨_, _, -, -, e⟩ | ⟨-, -, hc⟩
    · rw [e]; exact hk
    · exact kindAt_contains hk hc

theorem kindAt_key {k : ReprKind} (h : KindAt one input n k) {key : Key} (hk : kindKey k = some key) :
    KeyAt input key := by
  cases k with
  | table t =>
    cases h with
    | table _ _ _ h => exact h _ hk
  | arrayEntry t =>
    cases h with
    | array _ _ _ _ h => exact h _ hk
  | toplevelAssignment a => cases hk; exact h.key
  | inlineTableAssignment a => cases hk; exact h.1

theorem reprAt_of {k : Str} {r : Repr} (hn : NameOk k r) (h : KindAt one input n r.kind) :
    ReprAt one input n r := by
  refine ⟨?_, h⟩
  unfold NameOk at hn
  cases hk : r.key with
  | one i =>
    rw [hk] at hn
    cases kindAt_key h hn.1 with
    | one hi => exact ⟨i, rfl, hi⟩
  | dotted idx ids =>
    rw [hk] at hn
    obtain ⟨h1, d, hd, -⟩ := hn
    cases kindAt_key h h1 with
    | dotted _ hi _ => exact ⟨d.ident, by simp [KeyRepr.reprIdent, hd], hi d (List.mem_of_getElem? hd)⟩

theorem nodeAt_of (ha : ∀ x ∈ asts, AstAt one input n x) {ar : Option (List Repr)} {m : MapNode}
    (h : NodeOk asts ar m) (har : ∀ rs, ar = some rs → ∀ r ∈ rs, KindAt one input n r.kind)
    (hv : (∃ t, m = .table t) ∨ (∃ es, m = .toplevel es) ∨ ∃ v, ValueAt input n v ∧ FromValue v m) :
    NodeAt one input n m := by
  induction h with
  | @table ar t h1 h2 h3 h5 h4 ih =>
    have hk : ∀ k e, (k, e) ∈ t → ∀ r ∈ e.reprs, KindAt one input n r.kind :=
      fun k e he r hr => kindAt_parent ha har (h3 k e he r hr).2
    refine .table (fun k e he r hr => reprAt_of (h3 k e he r hr).1 (hk k e he r hr)) fun k e he => ?_
    refine ih k e he (fun rs hrs => ?_) ?_
    · cases hrs
      exact hk k e he
    · have hko := h5 k e he
      cases hn : e.node with
      | table t => exact Or.inl ⟨t, rfl⟩
      | toplevel es => exact Or.inr (Or.inl ⟨es, rfl⟩)
      | inline p a es =>
        rw [hn] at hko
        obtain ⟨r, hr, -, v, hv, hf⟩ := hko
        exact Or.inr (Or.inr ⟨v, kindAt_val (hk k e he r (by simp [hr])) hv, hf⟩)
      | scalar s =>
        rw [hn] at hko
        obtain ⟨r, hr, -, v, hv, hf⟩ := hko
        exact Or.inr (Or.inr ⟨v, kindAt_val (hk k e he r (by simp [hr])) hv, hf⟩)
  | @toplevel rs es h1 h2 h3 ih =>
    refine .toplevel (fun e he => ?_) fun e he => ih e he har (Or.inl ⟨_, rfl⟩)
    obtain ⟨p, hp, -, hk⟩ := h2 e he
    have := har rs rfl p (List.mem_of_getElem? hp)
    rw [hk] at this
    exact this
  | @inline rs p a es h1 h2 h3 h4 ih =>
    obtain ⟨v, hv, hf⟩ : ∃ v, ValueAt input n v ∧ FromValue v (.inline p a es) := by
      rcases hv with ⟨_, h⟩ | ⟨_, h⟩ | h
      · cases h
      · cases h
      · exact h
    cases hf with
    | inline g1 g2 =>
      have hel : ∀ e ∈ es, ValueAt input n e.repr.val := by
        intro e he
        cases hv with
        | inlineArray _ _ _ _ _ h =>
          refine h _ ?_
          rw [← g1]
          exact List.mem_map_of_mem he
      exact .inline hv hel fun e he => ih e he har (Or.inr (Or.inr ⟨_, hel e he, g2 e he⟩))
  | scalar =>
    rcases hv with ⟨_, h⟩ | ⟨_, h⟩ | ⟨v, hv, hf⟩
    · cases h
    · cases h
    · cases hf with
      | scalar e => exact .scalar (e ▸ hv)

/-- The map of a tree in the text. -/
theorem mapAt_of (ha : ∀ x ∈ asts, AstAt one input n x) {t : MapTable} (h : MapOk asts t) :
    NodeAt one input n (.table t) := nodeAt_of ha h (fun _ h => by cases h) (Or.inl ⟨_, rfl⟩)

/-! ## Strings -/

theorem _root_.Verif.Spec.Toml.NodeAt.get {t : MapTable} (h : NodeAt one input n (.table t)) {k : Str} {e : Entry}
    (hg : get t k = some e) : (∀ r ∈ e.reprs, ReprAt one input n r) ∧ NodeAt one input n e.node := by
  cases h with
  | table h1 h2 => exact ⟨h1 _ _ (mem_of_get hg), h2 _ _ (mem_of_get hg)⟩

theorem _root_.Verif.Spec.Toml.NodeAt.string {s : StringVal} (h : NodeAt one input n (.scalar (.string s))) :
    StringIn input s := by
  cases h with
  | scalar h =>
    cases h with
    | string h => exact h

end Verif.TomlMap
