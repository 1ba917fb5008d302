import Verif.Spec.MapRepr
import Verif.Toml.MapBase

/-! # The map never panics, and its references are right: keys -/

namespace Verif.TomlMap
open Verif Verif.Toml Verif.Spec.Toml

/-! ## Entries -/

section
variable {N : Type}

theorem mem_of_get {t : TableF N} {k : Str} {e : EntryF N} (h : get t k = some e) : (k, e) ∈ t := by
  induction t with
  | nil => cases h
  | cons x t ih =>
    obtain ⟨k', e'⟩ := x
    unfold get at h
    split at h
    · rename_i hk
      cases h
      subst hk
      exact List.mem_cons_self
    · exact List.mem_cons_of_mem _ (ih h)

theorem not_mem_of_get {t : TableF N} {k : Str} (h : get t k = none) : k ∉ t.map (·.1) := by
  induction t with
  | nil => simp
  | cons x t ih =>
    obtain ⟨k', e'⟩ := x
    unfold get at h
    split at h
    · cases h
    · rename_i hk
      simp only [List.map_cons, List.mem_cons, not_or]
      exact ⟨fun e => hk e.symm, ih h⟩

theorem mem_put {t : TableF N} {k : Str} {e : EntryF N} {x : Str × EntryF N} (h : x ∈ put t k e) :
    x = (k, e) ∨ x ∈ t := by
  induction t with
  | nil => exact Or.inl (List.mem_singleton.1 h)
  | cons y t ih =>
    obtain ⟨k', e'⟩ := y
    unfold put at h
    split at h
    · rename_i hk
      subst hk
      rcases List.mem_cons.1 h with h | h
      · exact Or.inl h
      · exact Or.inr (List.mem_cons_of_mem _ h)
    · rcases List.mem_cons.1 h with h | h
      · exact Or.inr (h ▸ List.mem_cons_self)
      · rcases ih h with h | h
        · exact Or.inl h
        · exact Or.inr (List.mem_cons_of_mem _ h)

theorem put_keys_mem {t : TableF N} {k x : Str} {e : EntryF N} (h : x ∈ (put t k e).map (·.1)) :
    x = k ∨ x ∈ t.map (·.1) := by
  obtain ⟨y, hy, rfl⟩ := List.mem_map.1 h
  rcases mem_put hy with rfl | hy
  · exact Or.inl rfl
  · exact Or.inr (List.mem_map_of_mem hy)

theorem put_nodup {t : TableF N} {k : Str} {e : EntryF N} (h : (t.map (·.1)).Nodup) :
    ((put t k e).map (·.1)).Nodup := by
  induction t with
  | nil => simp [put]
  | cons y t ih =>
    obtain ⟨k', e'⟩ := y
    unfold put
    simp only [List.map_cons, List.nodup_cons] at h
    split
    · simp only [List.map_cons, List.nodup_cons]
      exact h
    · rename_i hk
      simp only [List.map_cons, List.nodup_cons]
      refine ⟨fun hm => ?_, ih h.2⟩
      rcases put_keys_mem hm with e | hm
      · exact hk e
      · exact h.1 hm

end

/-! ## Results -/

/-- The computation does not panic, and its result is right. -/
def Ok {α : Type} (R : α → Prop) (r : MapM α) : Prop := ∃ a es, r = some (a, es) ∧ R a

section
variable {α β : Type} {R : α → Prop} {S : β → Prop}

theorem Ok.pure {a : α} (h : R a) : Ok R (Pure.pure a : MapM α) := ⟨a, [], rfl, h⟩

theorem Ok.bind {x : MapM α} {f : α → MapM β} (hx : Ok R x) (hf : ∀ a, R a → Ok S (f a)) :
    Ok S (x >>= f) := by
  obtain ⟨a, es, rfl, ha⟩ := hx
  obtain ⟨b, es', hb, hb'⟩ := hf a ha
  exact ⟨b, es ++ es', bind_some.2 ⟨a, es, es', rfl, hb, rfl⟩, hb'⟩

theorem Ok.lift {x : Option α} {f : α → MapM β} {a : α} (hx : x = some a) (hf : Ok S (f a)) :
    Ok S (TomlMap.lift x >>= f) := by
  obtain ⟨b, es, hb, hb'⟩ := hf
  exact ⟨b, es, lift_bind_some.2 ⟨a, hx, hb⟩, hb'⟩

theorem Ok.report {e : Error} {f : Unit → MapM β} (hf : Ok S (f ())) : Ok S (TomlMap.report e >>= f) := by
  obtain ⟨b, es, hb, hb'⟩ := hf
  exact ⟨b, e :: es, report_bind_some.2 ⟨es, hb, rfl⟩, hb'⟩

theorem Ok.mono {S : α → Prop} {x : MapM α} (h : Ok R x) (hRS : ∀ a, R a → S a) : Ok S x := by
  obtain ⟨a, es, h1, h2⟩ := h
  exact ⟨a, es, h1, hRS a h2⟩

end

/-! ## Paths -/

/-- An index of a representation of the entry around. -/
def InRange (path : List Seg) (n : Nat) : Prop :=
  match around path with
  | none => True
  | some rs => n < rs.length

/-- The lookups along the path are in bounds. -/
def PathOk : List Seg → Prop
  | [] => True
  | .table rs :: p => rs ≠ [] ∧ (∀ r ∈ rs, r.key.reprIdent ≠ none ∧ InRange p r.parent) ∧ PathOk p
  | .array _ :: p => p ≠ [] ∧ PathOk p

theorem firstText_some {rs : List Repr} (h1 : rs ≠ []) (h2 : ∀ r ∈ rs, r.key.reprIdent ≠ none) :
    ∃ x, firstText rs = some x := by
  cases rs with
  | nil => exact absurd rfl h1
  | cons r rs =>
    obtain ⟨i, hi⟩ := Option.ne_none_iff_exists'.1 (h2 r List.mem_cons_self)
    exact ⟨i.text, by simp [firstText, hi]⟩

theorem fmtPath_some {p : List Seg} (h : PathOk p) (hp : p ≠ []) : ∃ x, fmtPath p = some x := by
  induction p with
  | nil => exact absurd rfl hp
  | cons s p ih =>
    cases s with
    | table rs =>
      obtain ⟨x, hx⟩ := firstText_some h.1 fun r hr => (h.2.1 r hr).1
      cases p with
      | nil => exact ⟨_, by simp only [fmtPath, hx]; rfl⟩
      | cons s' p' =>
        obtain ⟨y, hy⟩ := ih h.2.2 (by simp)
        exact ⟨_, by simp only [fmtPath, hx, hy]; rfl⟩
    | array i =>
      cases p with
      | nil => exact absurd rfl h.1
      | cons s' p' =>
        obtain ⟨y, hy⟩ := ih h.2 (by simp)
        exact ⟨_, by simp only [fmtPath, hy]; rfl⟩

theorem joinedPath_some {p : List Seg} (h : PathOk p) (i : Ident) : ∃ x, joinedPath p i = some x := by
  cases p with
  | nil => exact ⟨_, rfl⟩
  | cons s p =>
    obtain ⟨y, hy⟩ := fmtPath_some h (by simp)
    exact ⟨_, by simp only [joinedPath, hy]; rfl⟩

theorem collectLines_some {p : List Seg} (h : PathOk p) {n : Nat} (hn : InRange p n) :
    ∃ ls, collectLines p n = some ls := by
  induction p generalizing n with
  | nil => exact ⟨_, rfl⟩
  | cons s p ih =>
    cases s with
    | table rs =>
      have hn' : n < rs.length := hn
      have hr := h.2.1 rs[n] (List.getElem_mem hn')
      obtain ⟨i, hi⟩ := Option.ne_none_iff_exists'.1 hr.1
      obtain ⟨ls, hls⟩ := ih h.2.2 hr.2
      exact ⟨i.litStart.line :: ls, by
        simp only [collectLines, List.getElem?_eq_getElem hn', hls, hi, Option.bind_eq_bind,
          Option.bind_some, Option.pure_def]⟩
    | array i => exact ih h.2 hn

theorem mapM_collectLines {p : List Seg} (h : PathOk p) {ns : List Nat} (hn : ∀ n ∈ ns, InRange p n) :
    ∃ ls, ns.mapM (collectLines p) = some ls := by
  induction ns with
  | nil => exact ⟨[], rfl⟩
  | cons n ns ih =>
    obtain ⟨ls, hls⟩ := ih fun m hm => hn m (List.mem_cons_of_mem _ hm)
    obtain ⟨l, hl⟩ := collectLines_some h (hn n List.mem_cons_self)
    exact ⟨l :: ls, by simp [List.mapM_cons, hl, hls]⟩

theorem contextLines_some {p : List Seg} (h : PathOk p) {ns : List Nat} (hn : ∀ n ∈ ns, InRange p n) :
    ∃ ls, contextLines p ns = some ls := by
  cases p with
  | nil => exact ⟨_, rfl⟩
  | cons s p =>
    obtain ⟨ls, hls⟩ := mapM_collectLines h hn
    exact ⟨_, by simp only [contextLines, hls]; rfl⟩

/-! ## Spans -/

theorem keyOk_start {k : Key} (h : KeyOk k) : ∃ p, keyStart k = some p := by
  cases k with
  | one i => exact ⟨_, rfl⟩
  | dotted ids =>
    cases ids with
    | nil => exact absurd rfl h
    | cons o rest => exact ⟨_, rfl⟩

theorem keyOk_end {k : Key} (h : KeyOk k) : ∃ p, keyEnd k = some p := by
  cases k with
  | one i => exact ⟨_, rfl⟩
  | dotted ids =>
    cases ids with
    | nil => exact absurd rfl h
    | cons o rest =>
      have : (o :: rest).getLast? = some ((o :: rest).getLast (by simp)) := List.getLast?_eq_some_getLast _
      exact ⟨_, by simp only [keyEnd, this, Option.map_some]; rfl⟩

/-- The span of a part of the document with a key exists. -/
def SpanOk (kind : ReprKind) : Prop := ∃ s, kind.span = some s

theorem spanOk {kind : ReprKind} {k : Key} (h1 : kindKey kind = some k) (h2 : KeyOk k) : SpanOk kind := by
  obtain ⟨p, hp⟩ := keyOk_start h2
  obtain ⟨q, hq⟩ := keyOk_end h2
  cases kind with
  | table t =>
    simp only [kindKey] at h1
    refine Option.isSome_iff_exists.1 ?_
    simp only [ReprKind.span, tableSpan, tableHeaderEnd, h1, hq]
    cases t.assignments.getLast? <;> cases t.header.rPar <;> simp [hq]
  | arrayEntry t =>
    simp only [kindKey] at h1
    refine Option.isSome_iff_exists.1 ?_
    simp only [ReprKind.span, arrayEntrySpan, arrayHeaderEnd, h1, hq]
    cases t.assignments.getLast? <;> cases t.header.rPars.2.or t.header.rPars.1 <;> simp [hq]
  | toplevelAssignment a =>
    simp only [kindKey, Option.some.injEq] at h1
    exact ⟨_, by simp only [ReprKind.span, assignmentSpan, h1, hp]; rfl⟩
  | inlineTableAssignment a =>
    simp only [kindKey, Option.some.injEq] at h1
    exact ⟨_, by simp only [ReprKind.span, inlineAssignmentSpan, h1, hp]; rfl⟩

theorem nameOk_ident {k : Str} {r : Repr} (h : NameOk k r) : ∃ i, r.key.reprIdent = some i ∧ i.text = k := by
  unfold NameOk at h
  cases hk : r.key with
  | one i => rw [hk] at h; exact ⟨i, rfl, h.2⟩
  | dotted idx ids =>
    rw [hk] at h
    obtain ⟨-, d, hd, e⟩ := h
    exact ⟨d.ident, by simp [KeyRepr.reprIdent, hd], e⟩

theorem nameOk_span {k : Str} {r : Repr} (h : NameOk k r) : SpanOk r.kind := by
  unfold NameOk at h
  cases hk : r.key with
  | one i =>
    rw [hk] at h
    exact spanOk h.1 (by simp [KeyOk, Key.idents])
  | dotted idx ids =>
    rw [hk] at h
    obtain ⟨h1, d, hd, -⟩ := h
    refine spanOk h1 ?_
    unfold KeyOk Key.idents
    simp only [ne_eq, List.map_eq_nil_iff]
    rintro rfl
    simp at hd

/-! ## References -/

/-- The representation is right at its place. -/
def ReprOk (asts : List Ast) (ar : Option (List Repr)) (k : Str) (r : Repr) : Prop :=
  NameOk k r ∧ ParentOk asts ar r

variable {asts : List Ast}

theorem parentOk_mono {rs : List Repr} {r : Repr} (h : ParentOk asts (some rs) r) (x : Repr) :
    ParentOk asts (some (rs ++ [x])) r := by
  obtain ⟨p, hp, hb⟩ := h
  have hlt : r.parent < rs.length := by
    rcases Nat.lt_or_ge r.parent rs.length with h | h
    · exact h
    · rw [List.getElem?_eq_none h] at hp; cases hp
  exact ⟨p, by rw [List.getElem?_append_left hlt, hp], hb⟩

theorem getElem?_push {α : Type} {rs : List α} {n : Nat} {p : α} (hp : rs[n]? = some p) (x : α) :
    (rs ++ [x])[n]? = some p := by
  have hlt : n < rs.length := by
    rcases Nat.lt_or_ge n rs.length with h | h
    · exact h
    · rw [List.getElem?_eq_none h] at hp; cases hp
  rw [List.getElem?_append_left hlt, hp]

theorem nodeOk_mono {ar : Option (List Repr)} {n : MapNode} (h : NodeOk asts ar n) {rs : List Repr}
    (hr : ar = some rs) (x : Repr) : NodeOk asts (some (rs ++ [x])) n := by
  induction h generalizing rs with
  | table h1 h2 h3 h5 h4 ih =>
    subst hr
    exact .table h1 h2 (fun k e he r hr => ⟨(h3 k e he r hr).1, parentOk_mono (h3 k e he r hr).2 x⟩) h5 h4
  | toplevel h1 h2 h3 ih =>
    cases hr
    refine .toplevel h1 (fun e he => ?_) fun e he => ih e he rfl
    obtain ⟨p, hp, h⟩ := h2 e he
    exact ⟨p, getElem?_push hp x, h⟩
  | inline h1 h2 h2' h3 ih =>
    cases hr
    obtain ⟨p, hp, h⟩ := h1
    exact .inline ⟨p, getElem?_push hp x, h⟩ h2 h2' fun e he => ih e he rfl
  | scalar => exact .scalar

/-- A right entry of a table. -/
def EntryOk (asts : List Ast) (ar : Option (List Repr)) (k : Str) (e : Entry) : Prop :=
  e.reprs ≠ [] ∧ (∀ x ∈ e.reprs, ReprOk asts ar k x) ∧ NodeOk asts (some e.reprs) e.node ∧
    KindOk e.node e.reprs

theorem _root_.Verif.Spec.Toml.NodeOk.entry {ar : Option (List Repr)} {t : MapTable} (h : NodeOk asts ar (.table t)) {k : Str}
    {e : Entry} (he : get t k = some e) :
    EntryOk asts ar k e := by
  cases h with
  | table h1 h2 h3 h5 h4 =>
    have := mem_of_get he
    exact ⟨h2 _ _ this, h3 _ _ this, h4 _ _ this, h5 _ _ this⟩

theorem _root_.Verif.Spec.Toml.NodeOk.put {ar : Option (List Repr)} {t : MapTable} (h : NodeOk asts ar (.table t)) {k : Str}
    {e : Entry} (he : EntryOk asts ar k e) : NodeOk asts ar (.table (put t k e)) := by
  obtain ⟨h1, h2, h3, h4⟩ := he
  cases h with
  | table g1 g2 g3 g5 g4 =>
    refine .table (put_nodup g1) ?_ ?_ ?_ ?_ <;> intro k' e' he'
    all_goals
      rcases mem_put he' with h | h
      · cases h; first | exact h1 | exact h2 | exact h3 | exact h4
      · first | exact g2 _ _ h | exact g3 _ _ h | exact g4 _ _ h | exact g5 _ _ h

theorem nodeOk_empty (ar : Option (List Repr)) : NodeOk asts ar (.table []) :=
  .table (by simp) (by simp) (by simp) (by simp) (by simp)

/-- The representations of an entry are a valid segment of the path. -/
theorem PathOk.table {path : List Seg} (hp : PathOk path) {rs : List Repr} {k : Str} (h1 : rs ≠ [])
    (h2 : ∀ r ∈ rs, ReprOk asts (around path) k r) : PathOk (.table rs :: path) := by
  refine ⟨h1, fun r hr => ?_, hp⟩
  obtain ⟨hn, hpar⟩ := h2 r hr
  obtain ⟨i, hi, -⟩ := nameOk_ident hn
  refine ⟨by rw [hi]; simp, ?_⟩
  unfold InRange
  cases har : around path with
  | none => trivial
  | some rs' =>
    rw [har] at hpar
    obtain ⟨p, hp, -⟩ := hpar
    rcases Nat.lt_or_ge r.parent rs'.length with h | h
    · exact h
    · rw [List.getElem?_eq_none h] at hp; cases hp

theorem ReprOk.inRange {path : List Seg} {k : Str} {r : Repr} (h : ReprOk asts (around path) k r) :
    InRange path r.parent := by
  unfold InRange
  have hpar := h.2
  cases har : around path with
  | none => trivial
  | some rs' =>
    rw [har] at hpar
    obtain ⟨p, hp, -⟩ := hpar
    rcases Nat.lt_or_ge r.parent rs'.length with h | h
    · exact h
    · rw [List.getElem?_eq_none h] at hp; cases hp

/-! ## Diagnostics -/

theorem duplicateKeyError_some {path : List Seg} (hp : PathOk path) {k : Str} {o d : Repr}
    (ho : ReprOk asts (around path) k o) (hd : ReprOk asts (around path) k d) :
    ∃ e, duplicateKeyError path o d = some e := by
  obtain ⟨ls, h1⟩ := contextLines_some hp (ns := [o.parent, d.parent])
    (by simp [ho.inRange, hd.inRange])
  obtain ⟨i, hi, -⟩ := nameOk_ident hd.1
  obtain ⟨j, hj, -⟩ := nameOk_ident ho.1
  obtain ⟨x, hx⟩ := joinedPath_some hp i
  exact ⟨_, by simp only [duplicateKeyError, h1, hi, hj, Option.bind_eq_bind, Option.bind_some, hx]; rfl⟩

theorem extendError_some {mk : List Nat → Str → Span → Span → Error} {path : List Seg} (hp : PathOk path)
    {k : Str} {o d : Repr} (ho : ReprOk asts (around path) k o) (hd : ReprOk asts (around path) k d) :
    ∃ e, extendError mk path o d = some e := by
  obtain ⟨ls, h1⟩ := contextLines_some hp (ns := [o.parent, d.parent])
    (by simp [ho.inRange, hd.inRange])
  obtain ⟨i, hi, -⟩ := nameOk_ident hd.1
  obtain ⟨s, hs⟩ := nameOk_span ho.1
  obtain ⟨x, hx⟩ := joinedPath_some hp i
  exact ⟨_, by simp only [extendError, h1, hi, hs, Option.bind_eq_bind, Option.bind_some, hx]; rfl⟩

theorem extendError'_some {mk : List Nat → Str → Span → Span → Error} {path next : List Seg}
    (hp : PathOk path) (hn : PathOk next) (hne : next ≠ []) {k : Str} {o d : Repr}
    (ho : ReprOk asts (around path) k o) (hd : ReprOk asts (around path) k d) :
    ∃ e, extendError' mk path next o d = some e := by
  obtain ⟨ls, h1⟩ := contextLines_some hp (ns := [o.parent, d.parent])
    (by simp [ho.inRange, hd.inRange])
  obtain ⟨i, hi, -⟩ := nameOk_ident hd.1
  obtain ⟨s, hs⟩ := nameOk_span ho.1
  obtain ⟨x, hx⟩ := fmtPath_some hn hne
  exact ⟨_, by simp only [extendError', h1, hi, hx, hs]; rfl⟩

theorem superTableCheck_some {path : List Seg} (hp : PathOk path) {k : Str} {new : Repr}
    (hn : ReprOk asts (around path) k new) {rs : List Repr}
    (hr : ∀ r ∈ rs, ReprOk asts (around path) k r) : ∃ x, superTableCheck path new rs = some x := by
  induction rs with
  | nil => exact ⟨none, rfl⟩
  | cons r rs ih =>
    unfold superTableCheck
    split
    · exact ih fun r' h => hr r' (List.mem_cons_of_mem _ h)
    · obtain ⟨e, he⟩ := duplicateKeyError_some hp (hr r List.mem_cons_self) hn
      exact ⟨some e, by simp [he]⟩

theorem extendCheck_some {path next : List Seg} (hp : PathOk path) (hx : PathOk next) (hne : next ≠ [])
    {k : Str} {o d : Repr} (ho : ReprOk asts (around path) k o) (hd : ReprOk asts (around path) k d)
    {isA : Bool} (rs : List Repr) : ∃ x, extendCheck path next isA o d rs = some x := by
  induction rs with
  | nil => exact ⟨none, rfl⟩
  | cons r rs ih =>
    unfold extendCheck
    obtain ⟨e1, he1⟩ := extendError'_some (mk := .cannotExtendTableWithDottedKey) hp hx hne ho hd
    obtain ⟨e2, he2⟩ := extendError'_some (mk := .cannotExtendInlineTable) hp hx hne ho hd
    split
    · split
      · exact ⟨some e1, by simp [he1]⟩
      · exact ih
    · exact ih
    · split
      · exact ⟨some e2, by simp [he2]⟩
      · exact ih
    · split
      · exact ⟨some e2, by simp [he2]⟩
      · exact ih

end Verif.TomlMap
