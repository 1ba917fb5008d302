import Verif.Toml.MapGrow

/-! # A key that is refused is reported, and does not change what the map contains -/

namespace Verif.TomlMap
open Verif Verif.Toml Verif.Spec.Toml

/-! ## Same content -/

/-- The same at each location below two nodes. -/
def SameN (n n' : MapNode) : Prop := ∀ p, (nodeAt n' p).map nodeShape = (nodeAt n p).map nodeShape

theorem SameN.refl (n : MapNode) : SameN n n := fun _ => rfl

theorem SameN.put {t : MapTable} {k : Str} {e e' : Entry} (hg : get t k = some e)
    (h : SameN e.node e'.node) : SameN (.table t) (.table (put t k e')) := by
  intro p
  cases p with
  | nil => rfl
  | cons s p =>
    cases s with
    | idx i => rfl
    | key x =>
      simp only [nodeAt, get_put]
      by_cases hx : k = x
      · subst hx
        simp only [if_true, hg, Option.bind_some]
        exact h p
      · simp only [hx, if_false]

theorem SameN.last {es : List ArrayTable} {l : ArrayTable} (hl : es.getLast? = some l) {t' : MapTable}
    (h : SameN (.table l.node) (.table t')) : SameN (.toplevel es) (setTable (.toplevel es) t') := by
  have hne : es ≠ [] := by rintro rfl; simp at hl
  have hpos := List.length_pos_iff.2 hne
  rw [setTable_last hl]
  intro p
  cases p with
  | nil =>
    simp only [nodeAt, Option.map_some, nodeShape, List.length_append, List.length_dropLast,
      List.length_cons, List.length_nil]
    rw [show es.length - 1 + (0 + 1) = es.length by omega]
  | cons s p =>
    cases s with
    | key k => rfl
    | idx i =>
      simp only [nodeAt]
      rcases Nat.lt_trichotomy i (es.length - 1) with hi | hi | hi
      · have hget : (es.dropLast ++ [{ l with node := t' }])[i]? = es[i]? := by
          rw [List.getElem?_append_left (by simp; omega), List.getElem?_dropLast, if_pos (by omega)]
        rw [hget]
      · have hget : (es.dropLast ++ [{ l with node := t' }])[i]? = some { l with node := t' } := by
          rw [hi, List.getElem?_append_right (by simp)]
          simp
        have hl' : es[i]? = some l := by rw [hi, ← List.getLast?_eq_getElem?, hl]
        rw [hget, hl']
        exact h p
      · rw [List.getElem?_eq_none (by simp; omega), List.getElem?_eq_none (by omega)]

/-! ## Refused -/

/-- One diagnostic, and the same content. -/
def Refuses (t : MapTable) (r : MapM MapTable) : Prop :=
  ∀ t' es, r = some (t', es) → (∃ e, es = [e]) ∧ SameN (.table t) (.table t')

theorem refuses_err {α : Type} {t : MapTable} {o : Option α} {g : α → Option Error} :
    Refuses t (lift o >>= fun x => lift (g x) >>= fun er => report er >>= fun _ => (Pure.pure t : MapM MapTable)) := by
  intro t' es h
  obtain ⟨x, _, h⟩ := lift_bind_some.1 h
  obtain ⟨er, _, h⟩ := lift_bind_some.1 h
  obtain ⟨es', h3, rfl⟩ := report_bind_some.1 h
  obtain ⟨rfl, rfl⟩ := pure_some.1 h3
  exact ⟨⟨er, rfl⟩, .refl _⟩

theorem closedWay_err {prev : List Seg} {entry e' : Entry} {r : Repr} {ext : Extend}
    (h : getTableToExtend prev entry r = some (e', ext))
    (hc : ClosedWay r.kind.isAssignment entry.node entry.reprs) : ∃ er, ext = .err er := by
  have key : (∃ x ∈ entry.reprs, IsValueRepr x) ∨
      (r.kind.isAssignment = true ∧ ∃ x ∈ entry.reprs, ∃ t, x.kind = .table t) →
      ¬ ∀ x ∈ entry.reprs ++ [r], okCls r.kind.isAssignment (reprCls x) = true := by
    rintro (⟨x, hx, hv⟩ | ⟨hA, x, hx, t, ht⟩) hall
    · exact okCls_value (hall x (List.mem_append_left _ hx)) hv
    · have := hall x (List.mem_append_left _ hx)
      rw [hA] at this
      unfold reprCls at this
      rw [ht] at this
      cases hl : x.key.isLast <;> simp [hl, okCls] at this
  rcases hc with ⟨s, hs⟩ | ⟨p, a, es, hs⟩ | hv | ⟨hA, ⟨es, hs⟩ | ht⟩
  · exact gte_other (Or.inr ⟨s, hs⟩) h
  · exact gte_other (Or.inl ⟨p, a, es, hs⟩) h
  · cases hn : entry.node with
    | table t =>
      obtain ⟨-, ⟨er, rfl, -⟩ | ⟨-, hok⟩⟩ := gte_table hn h
      · exact ⟨er, rfl⟩
      · exact absurd hok (key (Or.inl hv))
    | toplevel es =>
      unfold getTableToExtend at h
      rw [hn] at h
      simp only at h
      split at h
      · simp only [Option.bind_eq_bind, Option.bind_eq_some_iff, Option.pure_def, Option.some.injEq,
          Prod.mk.injEq] at h
        obtain ⟨_, _, er, _, _, rfl⟩ := h
        exact ⟨er, rfl⟩
      · simp only [Option.bind_eq_bind, Option.bind_eq_some_iff, Option.pure_def] at h
        obtain ⟨_, _, _, _, _, _, _, _, x, hx, h⟩ := h
        have := extendCheck_none hx
        cases x with
        | none => exact absurd (this.1 rfl) (key (Or.inl hv))
        | some er =>
          simp only [Option.some.injEq, Prod.mk.injEq] at h
          exact ⟨er, h.2.symm⟩
    | inline p a es => exact gte_other (Or.inl ⟨_, _, _, hn⟩) h
    | scalar s => exact gte_other (Or.inr ⟨_, hn⟩) h
  · rcases gte_toplevel hs h with ⟨-, er, rfl⟩ | ⟨hA', -⟩
    · exact ⟨er, rfl⟩
    · rw [hA] at hA'; cases hA'
  · cases hn : entry.node with
    | table t =>
      obtain ⟨-, ⟨er, rfl, -⟩ | ⟨-, hok⟩⟩ := gte_table hn h
      · exact ⟨er, rfl⟩
      · exact absurd hok (key (Or.inr ⟨hA, ht⟩))
    | toplevel es =>
      rcases gte_toplevel hn h with ⟨-, er, rfl⟩ | ⟨hA', -⟩
      · exact ⟨er, rfl⟩
      · rw [hA] at hA'; cases hA'
    | inline p a es => exact gte_other (Or.inl ⟨_, _, _, hn⟩) h
    | scalar s => exact gte_other (Or.inr ⟨_, hn⟩) h

theorem gte_node {prev : List Seg} {entry e' : Entry} {r : Repr} {ext : Extend}
    (h : getTableToExtend prev entry r = some (e', ext)) : e'.node = entry.node := by
  unfold getTableToExtend at h
  cases hn : entry.node with
  | table t =>
    rw [hn] at h
    simp only [Option.bind_eq_bind, Option.bind_eq_some_iff, Option.pure_def] at h
    obtain ⟨_, _, _, _, x, _, h⟩ := h
    cases x <;> simp only [Option.some.injEq, Prod.mk.injEq] at h <;> rw [← h.1]
  | toplevel es =>
    rw [hn] at h
    simp only at h
    split at h
    · simp only [Option.bind_eq_bind, Option.bind_eq_some_iff, Option.pure_def, Option.some.injEq,
        Prod.mk.injEq] at h
      obtain ⟨_, _, _, _, h, _⟩ := h
      rw [← h, hn]
    · simp only [Option.bind_eq_bind, Option.bind_eq_some_iff, Option.pure_def] at h
      obtain ⟨_, _, _, _, _, _, _, _, x, _, h⟩ := h
      cases x <;> simp only [Option.some.injEq, Prod.mk.injEq] at h <;> rw [← h.1]
  | inline p a es =>
    rw [hn] at h
    simp only [Option.bind_eq_bind, Option.bind_eq_some_iff, Option.pure_def, Option.some.injEq,
      Prod.mk.injEq] at h
    obtain ⟨_, _, _, _, h, _⟩ := h
    rw [← h, hn]
  | scalar s =>
    rw [hn] at h
    simp only [Option.bind_eq_bind, Option.bind_eq_some_iff, Option.pure_def, Option.some.injEq,
      Prod.mk.injEq] at h
    obtain ⟨_, _, _, _, h, _⟩ := h
    rw [← h, hn]

theorem followAt_cons (t : MapTable) (k k' : Str) (ks : List Str) :
    followAt t (k :: k' :: ks) = (get t k).bind fun e =>
      match e.node with
      | .table t' => followAt t' (k' :: ks)
      | .toplevel es => es.getLast?.bind fun l => followAt l.node (k' :: ks)
      | _ => none := by
  rw [followAt]
  · rfl
  · simp

section
variable {fresh : List Seg → Repr → MapM Entry} {leaf : List Seg → MapTable → Ident → Repr → MapM MapTable}
  {kind : ReprKind} {final : MapNode → List Repr → Prop}

/-- Being refused at the table that the first name leads to. -/
theorem refused_cons {isA : Bool} {t : MapTable} {k k' : Str} {ks : List Str} {e : Entry}
    (hg : get t k = some e) (h : Refused isA final t (k :: k' :: ks)) :
    ClosedWay isA e.node e.reprs ∨ (∃ t', e.node = .table t' ∧ Refused isA final t' (k' :: ks)) ∨
      ∃ es l, e.node = .toplevel es ∧ es.getLast? = some l ∧ Refused isA final l.node (k' :: ks) := by
  have step : ∀ k2 ks2 n rs, followAt t (k :: k2 :: ks2) = some (n, rs) →
      (∃ t', e.node = .table t' ∧ followAt t' (k2 :: ks2) = some (n, rs)) ∨
      ∃ es l, e.node = .toplevel es ∧ es.getLast? = some l ∧ followAt l.node (k2 :: ks2) = some (n, rs) := by
    intro k2 ks2 n rs hf
    rw [followAt_cons, hg, Option.bind_some] at hf
    cases hn : e.node with
    | table t' => rw [hn] at hf; exact Or.inl ⟨t', rfl, hf⟩
    | toplevel es =>
      rw [hn] at hf
      simp only [Option.bind_eq_some_iff] at hf
      obtain ⟨l, hl, hf⟩ := hf
      exact Or.inr ⟨es, l, rfl, hl, hf⟩
    | inline p a es => rw [hn] at hf; cases hf
    | scalar s => rw [hn] at hf; cases hf
  rcases h with ⟨n, rs, hf, hfin⟩ | ⟨k1, k2, n, rs, he, hne, hf, hc⟩
  · rcases step _ _ _ _ hf with ⟨t', h1, h2⟩ | ⟨es, l, h1, h2, h3⟩
    · exact Or.inr (Or.inl ⟨t', h1, Or.inl ⟨n, rs, h2, hfin⟩⟩)
    · exact Or.inr (Or.inr ⟨es, l, h1, h2, Or.inl ⟨n, rs, h3, hfin⟩⟩)
  · cases k1 with
    | nil => simp [followAt] at hf
    | cons a k1 =>
      simp only [List.cons_append, List.cons.injEq] at he
      obtain ⟨rfl, he⟩ := he
      cases k1 with
      | nil =>
        simp only [followAt, hg, Option.map_some, Option.some.injEq, Prod.mk.injEq] at hf
        obtain ⟨rfl, rfl⟩ := hf
        exact Or.inl hc
      | cons b k1 =>
        rcases step _ _ _ _ hf with ⟨t', h1, h2⟩ | ⟨es, l, h1, h2, h3⟩
        · exact Or.inr (Or.inl ⟨t', h1, Or.inr ⟨b :: k1, k2, n, rs, he, hne, h2, hc⟩⟩)
        · exact Or.inr (Or.inr ⟨es, l, h1, h2, Or.inr ⟨b :: k1, k2, n, rs, he, hne, h3, hc⟩⟩)

theorem refused_single {isA : Bool} {t : MapTable} {k : Str} (h : Refused isA final t [k]) :
    ∃ e, get t k = some e ∧ final e.node e.reprs := by
  rcases h with ⟨n, rs, hf, hfin⟩ | ⟨k1, k2, n, rs, he, hne, hf, hc⟩
  · simp only [followAt, Option.map_eq_some_iff, Prod.mk.injEq] at hf
    obtain ⟨e, he, rfl, rfl⟩ := hf
    exact ⟨e, he, hfin⟩
  · cases k1 with
    | nil => simp [followAt] at hf
    | cons a k1 =>
      simp only [List.cons_append, List.cons.injEq] at he
      have := he.2
      simp only [List.nil_eq, List.append_eq_nil_iff] at this
      exact absurd this.2 hne

theorem refused_get {isA : Bool} {t : MapTable} {k : Str} {ks : List Str}
    (h : Refused isA final t (k :: ks)) : ∃ e, get t k = some e := by
  have step : ∀ ks n rs, followAt t (k :: ks) = some (n, rs) → ∃ e, get t k = some e := by
    intro ks n rs hf
    cases ks with
    | nil =>
      simp only [followAt, Option.map_eq_some_iff] at hf
      exact ⟨_, hf.choose_spec.1⟩
    | cons k' ks =>
      rw [followAt_cons] at hf
      cases hg : get t k with
      | none => rw [hg] at hf; cases hf
      | some e => exact ⟨e, rfl⟩
  rcases h with ⟨n, rs, hf, hfin⟩ | ⟨k1, k2, n, rs, he, hne, hf, hc⟩
  · exact step _ _ _ hf
  · cases k1 with
    | nil => simp [followAt] at hf
    | cons a k1 =>
      simp only [List.cons_append, List.cons.injEq] at he
      obtain ⟨rfl, -⟩ := he
      exact step _ _ _ hf

theorem walk_refuses {ids : List DottedIdent}
    (hl : ∀ path map i repr e, get map i.text = some e → final e.node e.reprs →
      Refuses map (leaf path map i repr)) :
    ∀ (rest : List DottedIdent) (i : Nat) (path : List Seg) (parent : Nat) (map : MapTable),
      Refused kind.isAssignment final map (rest.map (·.ident.text)) →
      Refuses map (walk fresh leaf kind ids i rest path parent map) := by
  intro rest
  induction rest with
  | nil => intro i path parent map _ t' es h; cases h
  | cons o rest ih =>
    intro i path parent map hr
    cases rest with
    | nil =>
      obtain ⟨e, hg, hf⟩ := refused_single hr
      exact hl _ _ _ _ e hg hf
    | cons o' rest =>
      unfold walk
      intro t' es h
      obtain ⟨e, hg⟩ := refused_get hr
      simp only [hg] at h
      obtain ⟨⟨e', ext⟩, h1, h⟩ := lift_bind_some.1 h
      have hn := gte_node h1
      cases ext with
      | err er =>
        obtain ⟨es', h3, rfl⟩ := report_bind_some.1 h
        obtain ⟨rfl, rfl⟩ := pure_some.1 h3
        exact ⟨⟨er, rfl⟩, SameN.put hg (by rw [hn]; exact .refl _)⟩
      | ok p1 next t =>
        simp only at h
        obtain ⟨t1, h2, rfl⟩ := bind_pure_some.1 h
        rcases refused_cons hg hr with hc | ⟨t0, h0, hr'⟩ | ⟨es0, l, h0, hl0, hr'⟩
        · obtain ⟨er, hx⟩ := closedWay_err h1 hc
          cases hx
        · obtain ⟨-, ⟨er, hx, -⟩ | ⟨hx, -⟩⟩ := gte_table h0 h1
          · cases hx
          · cases hx
            obtain ⟨g1, g2⟩ := ih _ _ _ _ hr' _ _ h2
            refine ⟨g1, SameN.put hg ?_⟩
            simp only [hn, h0, setTable]
            exact g2
        · rcases gte_toplevel h0 h1 with ⟨-, er, hx⟩ | ⟨-, -, ⟨er, hx, -⟩ | ⟨l', hl', hx⟩⟩
          · cases hx
          · cases hx
          · cases hx
            rw [hl0] at hl'
            cases hl'
            obtain ⟨g1, g2⟩ := ih _ _ _ _ hr' _ _ h2
            refine ⟨g1, SameN.put hg ?_⟩
            simp only [hn, h0]
            exact SameN.last hl0 g2

end

/-! ## Insertions -/

/-- When `insert_node` refuses an entry. -/
def finalOf : InsertValue → MapNode → List Repr → Prop
  | .value _ => fun _ _ => True
  | .tableAssignments _ => ClosedTable

theorem insertNode_refuses {v : InsertValue} {path : List Seg} {map : MapTable} {i : Ident} {repr : Repr}
    {e : Entry} (hg : get map i.text = some e) (hf : finalOf v e.node e.reprs) :
    Refuses map (insertNode path map i v repr) := by
  unfold insertNode
  rw [hg]
  cases v with
  | value f => exact refuses_err
  | tableAssignments f =>
    simp only
    cases hn : e.node with
    | table t =>
      simp only
      intro t' es h
      obtain ⟨x, hx, h⟩ := lift_bind_some.1 h
      cases x with
      | none =>
        exfalso
        have hall := (superTableCheck_none hx).1 rfl
        rcases hf with hf | ⟨r, hr, hf⟩
        · exact hf t hn
        · rw [isLast_iff] at hf
          have := hall r hr
          unfold reprCls at this
          cases hk : r.kind <;> cases hl : r.key.isLast <;>
            simp [hk, hl, ReprKind.isAssignment] at hf this
      | some er =>
        simp only at h
        obtain ⟨es', h3, rfl⟩ := report_bind_some.1 h
        obtain ⟨rfl, rfl⟩ := pure_some.1 h3
        exact ⟨⟨er, rfl⟩, .refl _⟩
    | toplevel es => exact refuses_err
    | inline p a es => exact refuses_err
    | scalar s => exact refuses_err

theorem insertNodeAtPath_refuses {v : InsertValue} {path : List Seg} {parent : Nat} {map : MapTable}
    {key : Key} {kind : ReprKind} (h : Refused kind.isAssignment (finalOf v) map (keyNames key)) :
    Refuses map (insertNodeAtPath path parent map key v kind) := by
  cases key with
  | one i =>
    obtain ⟨e, hg, hf⟩ := refused_single (show Refused _ _ map [i.text] from h)
    exact insertNode_refuses hg hf
  | dotted ids =>
    refine walk_refuses (final := finalOf v) (fun _ _ _ _ e hg hf => insertNode_refuses hg hf) ids 0 path parent map ?_
    have e : keyNames (.dotted ids) = ids.map (·.ident.text) := by
      simp [keyNames, Key.idents, Function.comp_def]
    rw [e] at h
    exact h

theorem insertArrayEntry_refuses {a : ArrayEntry} {path : List Seg} {map : MapTable} {i : Ident}
    {repr : Repr} {e : Entry} (hg : get map i.text = some e) (hf : ∀ es, e.node ≠ .toplevel es) :
    Refuses map (insertArrayEntry a path map i repr) := by
  unfold insertArrayEntry
  rw [hg]
  simp only
  cases hn : e.node with
  | table t => exact refuses_err
  | toplevel es => exact absurd hn (hf es)
  | inline p a es => exact refuses_err
  | scalar s => exact refuses_err

theorem insertArrayEntryAtPath_refuses {a : ArrayEntry} {map : MapTable} {key : Key}
    (h : Refused false (fun n _ => ∀ es, n ≠ .toplevel es) map (keyNames key)) :
    Refuses map (insertArrayEntryAtPath a map key) := by
  cases key with
  | one i =>
    obtain ⟨e, hg, hf⟩ := refused_single (show Refused _ _ map [i.text] from h)
    exact insertArrayEntry_refuses hg hf
  | dotted ids =>
    refine walk_refuses (final := fun n _ => ∀ es, n ≠ .toplevel es)
      (fun _ _ _ _ e hg hf => insertArrayEntry_refuses hg hf) ids 0 [] ROOT_PARENT map ?_
    have e : keyNames (.dotted ids) = ids.map (·.ident.text) := by
      simp [keyNames, Key.idents, Function.comp_def]
    rw [e] at h
    exact h

end Verif.TomlMap
