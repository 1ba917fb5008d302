import Verif.Toml.PlaceSpans
import Verif.Toml.MapShape
import Verif.Spec.MapErrors

/-! # The places of the entries of a map are in the text -/

namespace Verif.TomlMap
open Verif Verif.Toml Verif.Spec.Toml

variable {asts : List Ast} {input : Str}

/-- The representation is a name in the key of a part of the document. -/
def PartRepr (asts : List Ast) (r : Repr) : Prop := PartOf asts r.kind ∧ ∃ k, NameOk k r

/-- All representations on the path are names in keys of parts of the document. -/
def PathParts (asts : List Ast) : List Seg → Prop
  | [] => True
  | .table rs :: p => (∀ r ∈ rs, PartRepr asts r) ∧ PathParts asts p
  | .array _ :: p => PathParts asts p

theorem PathParts.around {path : List Seg} (h : PathParts asts path) {rs : List Repr}
    (hr : TomlMap.around path = some rs) : ∀ r ∈ rs, PartRepr asts r := by
  induction path with
  | nil => cases hr
  | cons s path ih =>
    cases s with
    | table rs' => cases hr; exact h.1
    | array i => exact ih h hr

theorem parent_part {ar : Option (List Repr)} {r : Repr} (h : ParentOk asts ar r)
    (har : ∀ rs, ar = some rs → ∀ q ∈ rs, PartRepr asts q) : PartOf asts r.kind := by
  cases ar with
  | none => exact .top h.2.2
  | some rs =>
    obtain ⟨p, hp, h⟩ := h
    have hq := (har rs rfl p (List.mem_of_getElem? hp)).1
    rcases h with ⟨idx, ids, -, -, e⟩ | ⟨-, -, h⟩
    · rw [e]; exact hq
    · exact .inside hq h

theorem entry_parts {path : List Seg} (hp : PathParts asts path) {k : Str} {e : Entry}
    (h : EntryOk asts (around path) k e) : ∀ r ∈ e.reprs, PartRepr asts r := by
  intro r hr
  have := h.2.1 r hr
  exact ⟨parent_part this.2 fun rs hrs => hp.around hrs, k, this.1⟩

theorem pathTo_parts (p : Loc) : ∀ (n : MapNode) (prev : List Seg), PathParts asts prev →
    NodeOk asts (around prev) n → ∀ segs e, pathTo n prev p = some (segs, e) →
    PathParts asts segs ∧ ∃ k, EntryOk asts (around segs) k e := by
  induction p with
  | nil =>
    intro n prev hp hn segs e h
    cases n <;> simp [pathTo] at h
  | cons s p ih =>
    intro n prev hp hn segs e h
    cases n with
    | table t =>
      cases s with
      | idx i => simp [pathTo] at h
      | key k =>
        unfold pathTo at h
        cases hg : get t k with
        | none => rw [hg] at h; cases h
        | some e0 =>
          rw [hg] at h
          simp only at h
          have he := hn.entry hg
          cases p with
          | nil =>
            simp only [Option.some.injEq, Prod.mk.injEq] at h
            obtain ⟨rfl, rfl⟩ := h
            exact ⟨hp, k, he⟩
          | cons s' p' =>
            simp only at h
            exact ih e0.node (.table e0.reprs :: prev) ⟨entry_parts hp he, hp⟩ he.2.2.1 _ _ h
    | toplevel es =>
      cases s with
      | key k => simp [pathTo] at h
      | idx i =>
        unfold pathTo at h
        simp only [Option.bind_eq_some_iff] at h
        obtain ⟨x, hx, h⟩ := h
        refine ih (.table x.node) (.array i :: prev) hp ?_ _ _ h
        show NodeOk asts (around prev) _
        generalize around prev = ar at hn ⊢
        cases hn with
        | toplevel _ _ h3 => exact h3 x (List.mem_of_getElem? hx)
    | inline q a es =>
      cases s with
      | key k => simp [pathTo] at h
      | idx i =>
        unfold pathTo at h
        simp only [Option.bind_eq_some_iff] at h
        obtain ⟨x, hx, h⟩ := h
        refine ih x.node (.array i :: prev) hp ?_ _ _ h
        show NodeOk asts (around prev) _
        generalize around prev = ar at hn ⊢
        cases hn with
        | inline _ _ _ h3 => exact h3 x (List.mem_of_getElem? hx)
    | scalar x => cases s <;> simp [pathTo] at h

theorem map_parts {t : MapTable} (h : MapOk asts t) {p : Loc} {segs : List Seg} {e : Entry}
    (hp : pathTo (.table t) [] p = some (segs, e)) :
    PathParts asts segs ∧ (∃ k, EntryOk asts (around segs) k e) ∧ ∀ r ∈ e.reprs, PartRepr asts r := by
  obtain ⟨h1, k, h2⟩ := pathTo_parts p (.table t) [] trivial h segs e hp
  exact ⟨h1, ⟨k, h2⟩, entry_parts h1 h2⟩

/-- One step further on the path. -/
theorem pathTo_child (p : Loc) : ∀ (n : MapNode) (prev : List Seg) (segs : List Seg) (e : Entry),
    pathTo n prev p = some (segs, e) → ∀ (t : MapTable) (k : Str) (e' : Entry), e.node = .table t →
    get t k = some e' → pathTo n prev (p ++ [.key k]) = some (.table e.reprs :: segs, e') := by
  induction p with
  | nil => intro n prev segs e h; cases n <;> simp [pathTo] at h
  | cons s p ih =>
    intro n prev segs e h t k e' ht hk
    cases n with
    | table t0 =>
      cases s with
      | idx i => simp [pathTo] at h
      | key k0 =>
        rw [List.cons_append]
        unfold pathTo at h ⊢
        cases hg : get t0 k0 with
        | none => rw [hg] at h; cases h
        | some e0 =>
          rw [hg] at h
          simp only at h ⊢
          cases p with
          | nil =>
            simp only [Option.some.injEq, Prod.mk.injEq] at h
            obtain ⟨rfl, rfl⟩ := h
            simp [ht, pathTo, hk]
          | cons s' p' => exact ih _ _ _ _ h t k e' ht hk
    | toplevel es =>
      cases s with
      | key k => simp [pathTo] at h
      | idx i =>
        rw [List.cons_append]
        unfold pathTo at h ⊢
        simp only [Option.bind_eq_some_iff] at h ⊢
        obtain ⟨x, hx, h⟩ := h
        exact ⟨x, hx, ih _ _ _ _ h t k e' ht hk⟩
    | inline q a es =>
      cases s with
      | key k => simp [pathTo] at h
      | idx i =>
        rw [List.cons_append]
        unfold pathTo at h ⊢
        simp only [Option.bind_eq_some_iff] at h ⊢
        obtain ⟨x, hx, h⟩ := h
        exact ⟨x, hx, ih _ _ _ _ h t k e' ht hk⟩
    | scalar x => cases s <;> simp [pathTo] at h

/-! ## Places -/

theorem partPlaces_key {c : Bool} {k : ReprKind} {key : Key} (h : kindKey k = some key) :
    (keyPlaces key).Sublist (partPlaces c k) := by
  cases k with
  | table t =>
    simp only [kindKey] at h
    simp only [partPlaces, astPlaces, h, headKeyPlaces, Option.map_some, Option.getD_some]
    rw [List.append_assoc, List.append_assoc]
    exact (List.sublist_append_left _ _).trans (List.sublist_append_right _ _)
  | arrayEntry t =>
    simp only [kindKey] at h
    simp only [partPlaces, astPlaces, h, headKeyPlaces, Option.map_some, Option.getD_some]
    rw [List.append_assoc, List.append_assoc]
    exact (List.sublist_append_left _ _).trans (List.sublist_append_right _ _)
  | toplevelAssignment a =>
    cases h
    simp only [partPlaces, assignmentPlaces]
    rw [List.append_assoc]
    exact List.sublist_append_left _ _
  | inlineTableAssignment a =>
    cases h
    simp only [partPlaces, inlinePlaces]
    rw [List.append_assoc, List.append_assoc]
    exact List.sublist_append_left _ _

theorem partPlaces_val {c : Bool} {k : ReprKind} {v : Value} (h : kindVal k = some v) :
    (valPlaces v).Sublist (partPlaces c k) := by
  cases k with
  | table t => cases h
  | arrayEntry t => cases h
  | toplevelAssignment a => cases h; exact valPlaces_assignment a
  | inlineTableAssignment a => cases h; exact valPlaces_inline a

/-- The place of the name of a representation is one of the places of its part. -/
theorem ident_place {c : Bool} {r : Repr} {k : Str} (h : NameOk k r) {i : Ident} (hi : r.key.reprIdent = some i) :
    i.litSpan ∈ partPlaces c r.kind := by
  unfold NameOk at h
  cases hk : r.key with
  | one j =>
    rw [hk] at h hi
    cases hi
    exact (partPlaces_key h.1).subset (by simp [keyPlaces])
  | dotted idx ids =>
    rw [hk] at h hi
    obtain ⟨h1, d, hd, -⟩ := h
    simp only [KeyRepr.reprIdent, hd, Option.map_some, Option.some.injEq] at hi
    subst hi
    refine (partPlaces_key h1).subset ?_
    simp only [keyPlaces, List.mem_flatMap]
    exact ⟨d, List.mem_of_getElem? hd, List.mem_cons_self⟩

theorem spanIn_of {x y : Str} (h1 : x <+: y) (h2 : y <+: input) : SpanIn input ⟨posOf x, posOf y⟩ := by
  obtain ⟨u, rfl⟩ := h1
  obtain ⟨v, rfl⟩ := h2
  exact ⟨x, u, v, rfl, rfl⟩

/-- The facts about the document that the lemmas below use. -/
structure Placed (input : Str) (asts : List Ast) : Prop where
  ok : ∀ x ∈ asts, AstOk x
  order : InOrder [] (asts.flatMap (astPlaces true)) input

theorem Placed.mem (h : Placed input asts) {k : ReprKind} (hk : PartOf asts k) {s : Span}
    (hs : s ∈ partPlaces true k) : SpanIn input s := by
  obtain ⟨x, y, -, h1, h2, rfl⟩ := (h.order.sublist (partPlaces_part hk)).mem hs
  exact spanIn_of h1 h2

theorem Placed.ident (h : Placed input asts) {r : Repr} (hr : PartRepr asts r) {i : Ident}
    (hi : r.key.reprIdent = some i) : SpanIn input i.litSpan := by
  obtain ⟨h1, k, h2⟩ := hr
  exact h.mem h1 (ident_place h2 hi)

theorem Placed.kind (h : Placed input asts) {r : Repr} (hr : PartRepr asts r) {s : Span}
    (hs : r.kind.span = some s) : SpanIn input s := by
  obtain ⟨s', h1, x, y, rfl, h2, h3⟩ := part_span h.ok h.order hr.1
  rw [hs] at h1
  cases h1
  exact spanIn_of h3.prefix h2

theorem Placed.repr (h : Placed input asts) {r : Repr} (hr : PartRepr asts r) {s : Span}
    (hs : r.span = some s) : SpanIn input s := by
  obtain ⟨s', h1, x, y, rfl, h2, h3⟩ := part_span h.ok h.order hr.1
  obtain ⟨k, hk⟩ := hr.2
  cases hi : r.key.reprIdent with
  | none => simp [Repr.span, hi] at hs
  | some i =>
    simp only [Repr.span, hi, h1, Option.bind_eq_bind, Option.bind_some, Option.pure_def,
      Option.some.injEq] at hs
    obtain ⟨u, v, -, e2, e3, e4⟩ := h3.mem (ident_place hk hi)
    have : i.litStart = posOf u := congrArg Span.start e4
    rw [← hs, this]
    exact spanIn_of (e2.trans e3) h2

theorem line_le {s : Span} (h : SpanIn input s) : s.start.line ≤ input.count '\n' := by
  obtain ⟨x, y, z, rfl, rfl⟩ := h
  simp only [posOf, List.count_append]
  omega

theorem encloses_part {path : List Seg} (hp : PathParts asts path) {n : Nat} {q : Repr} (h : Encloses path n q) :
    PartRepr asts q := by
  induction h with
  | here h => exact hp.1 _ (List.mem_of_getElem? h)
  | up _ _ ih => exact ih hp.2
  | skip _ ih => exact ih hp

theorem Placed.lines (h : Placed input asts) {path : List Seg} (hp : PathParts asts path) {ns ls : List Nat}
    (hl : ContextLines path ns ls) : ∀ l ∈ ls, l ≤ input.count '\n' := by
  intro l hm
  obtain ⟨n, -, q, h1, i, h2, rfl⟩ := (hl.2 l).1 hm
  exact line_le (h.ident (encloses_part hp h1) h2)

/-- The place of an element of an array, with its comma. -/
theorem Placed.element (h : Placed input asts) {r : Repr} (hr : PartRepr asts r) {a : InlineArray}
    (hv : kindVal r.kind = some (.inlineArray a)) {x : InlineArrayValue} (hx : x ∈ a.values)
    (hi : ∀ l s, x.val ≠ .invalid l s) : SpanIn input ⟨x.val.start, x.end⟩ := by
  have key : ∀ vs : List InlineArrayValue, x ∈ vs → (valPlaces x.val ++ optPlace x.comma).Sublist (valsPlaces vs) := by
    intro vs
    induction vs with
    | nil => intro h; cases h
    | cons y vs ih =>
      intro hm
      obtain ⟨cm, v, c⟩ := y
      simp only [valsPlaces]
      rcases List.mem_cons.1 hm with rfl | hm
      · exact List.sublist_append_left _ _
      · exact (ih hm).trans (List.sublist_append_right _ _)
  have hsub : (valPlaces x.val ++ optPlace x.comma).Sublist (asts.flatMap (astPlaces true)) := by
    refine .trans ?_ (partPlaces_part hr.1)
    refine .trans ?_ (partPlaces_val hv)
    obtain ⟨cm, l, vs, e⟩ := a
    simp only [valPlaces]
    exact (key vs hx).trans ((List.sublist_append_left _ _).trans (List.sublist_cons_self _ _))
  have hh : ∃ s, (valPlaces x.val ++ optPlace x.comma).head? = some s ∧ s.start = x.val.start := by
    obtain ⟨cm, v, c⟩ := x
    dsimp only at hi ⊢
    cases v with
    | inlineTable t => exact ⟨_, by simp [valPlaces]; rfl, rfl⟩
    | inlineArray t => exact ⟨_, by simp [valPlaces]; rfl, rfl⟩
    | invalid l s => exact absurd rfl (hi l s)
    | _ => exact ⟨_, by simp only [valPlaces]; rfl, rfl⟩
  have ht : ∃ s, (valPlaces x.val ++ optPlace x.comma).getLast? = some s ∧ s.stop = x.end := by
    obtain ⟨cm, v, c⟩ := x
    cases c with
    | some p => exact ⟨Span.asciiChar p, by simp [optPlace], rfl⟩
    | none =>
      obtain ⟨s, h1, h2⟩ := valPlaces_last v
      exact ⟨s, by simpa [optPlace] using h1, h2⟩
  obtain ⟨s, s1, s2⟩ := hh
  obtain ⟨t, t1, t2⟩ := ht
  obtain ⟨u, v, -, h1, h2, h3, h4⟩ := (h.order.sublist hsub).ends s1 t1
  rw [← s2, ← t2, h3, h4]
  exact spanIn_of h1 h2

end Verif.TomlMap
