import Verif.Spec.MapGrow
import Verif.Toml.MapVal
import Verif.Toml.MapDoc
import Verif.Toml.MapTotalWalk

/-! # The first definition stays, and each later one is reported -/

namespace Verif.TomlMap
open Verif Verif.Toml Verif.Spec.Toml

/-- The relation of `Later` between two entries. -/
def Rel (x x' : MapNode × List Repr) : Prop :=
  x.2 <+: x'.2 ∧ SameKind x.1 x'.1 ∧ ((∃ r ∈ x.2, IsValueRepr r) → (∀ es, x.1 ≠ .toplevel es) → x'.1 = x.1)

def Gr (n : MapNode) (rs : List Repr) (n' : MapNode) (rs' : List Repr) : Prop :=
  ∀ p x, entryAt n rs p = some x → ∃ x', entryAt n' rs' p = some x' ∧ Rel x x'

theorem sameKind_refl (n : MapNode) : SameKind n n := by cases n <;> simp [SameKind]

theorem sameKind_trans {a b c : MapNode} (h1 : SameKind a b) (h2 : SameKind b c) : SameKind a c := by
  cases a with
  | table t =>
    cases b with
    | table t' => cases c <;> simp_all [SameKind]
    | _ => simp [SameKind] at h1
  | toplevel es =>
    cases b with
    | toplevel es' =>
      cases c with
      | toplevel es'' => exact Nat.le_trans h1 h2
      | _ => simp [SameKind] at h2
    | _ => simp [SameKind] at h1
  | inline p a es =>
    have : b = .inline p a es := by cases b <;> simpa [SameKind] using h1
    subst this
    exact h2
  | scalar s =>
    have : b = .scalar s := by cases b <;> simpa [SameKind] using h1
    subst this
    exact h2

theorem Rel.refl (x : MapNode × List Repr) : Rel x x := ⟨List.prefix_rfl, sameKind_refl _, fun _ _ => rfl⟩

theorem Rel.trans {x y z : MapNode × List Repr} (h1 : Rel x y) (h2 : Rel y z) : Rel x z := by
  refine ⟨h1.1.trans h2.1, sameKind_trans h1.2.1 h2.2.1, fun ⟨r, hr, hv⟩ hn => ?_⟩
  have e := h1.2.2 ⟨r, hr, hv⟩ hn
  rw [h2.2.2 ⟨r, h1.1.subset hr, hv⟩ (e ▸ hn), e]

theorem Gr.refl (n : MapNode) (rs : List Repr) : Gr n rs n rs := fun _ x h => ⟨x, h, .refl x⟩

theorem Gr.trans {n n' n'' : MapNode} {rs rs' rs'' : List Repr} (h1 : Gr n rs n' rs')
    (h2 : Gr n' rs' n'' rs'') : Gr n rs n'' rs'' := by
  intro p x h
  obtain ⟨y, hy, r1⟩ := h1 p x h
  obtain ⟨z, hz, r2⟩ := h2 p y hy
  exact ⟨z, hz, r1.trans r2⟩

theorem entryAt_cons (n : MapNode) (rs rs' : List Repr) (s : PStep) (p : Loc) :
    entryAt n rs (s :: p) = entryAt n rs' (s :: p) := by
  cases n <;> cases s <;> rfl

/-- Only new representations. -/
theorem Gr.reprs (n : MapNode) {rs rs' : List Repr} (h : rs <+: rs') : Gr n rs n rs' := by
  intro p x hx
  cases p with
  | nil =>
    simp only [entryAt, Option.some.injEq] at hx
    subst hx
    exact ⟨(n, rs'), by simp [entryAt], h, sameKind_refl _, fun _ _ => rfl⟩
  | cons s p =>
    exact ⟨x, by rw [entryAt_cons n rs' rs]; exact hx, .refl x⟩

/-- Tables, from their entries. -/
theorem Gr.table {t t' : MapTable} {rs rs' : List Repr} (hrs : rs <+: rs')
    (hv : ∀ r ∈ rs, ¬ IsValueRepr r)
    (h : ∀ k e, get t k = some e → ∃ e', get t' k = some e' ∧ Gr e.node e.reprs e'.node e'.reprs) :
    Gr (.table t) rs (.table t') rs' := by
  intro p x hx
  cases p with
  | nil =>
    simp only [entryAt, Option.some.injEq] at hx
    subst hx
    exact ⟨(.table t', rs'), by simp only [entryAt], hrs, trivial, fun ⟨r, hr, h⟩ _ => absurd h (hv r hr)⟩
  | cons s p =>
    cases s with
    | idx i => simp [entryAt] at hx
    | key k =>
      simp only [entryAt, Option.bind_eq_some_iff] at hx
      obtain ⟨e, he, hx⟩ := hx
      obtain ⟨e', he', hg⟩ := h k e he
      obtain ⟨x', hx', hr⟩ := hg p x hx
      exact ⟨x', by simp only [entryAt, he', Option.bind_some]; exact hx', hr⟩

theorem Gr.entries {t t' : MapTable} {rs rs' : List Repr} (h : Gr (.table t) rs (.table t') rs') (k : Str)
    (e : Entry) (he : get t k = some e) : ∃ e', get t' k = some e' ∧ Gr e.node e.reprs e'.node e'.reprs := by
  obtain ⟨x, hx, -⟩ := h [.key k] (e.node, e.reprs) (by simp [entryAt, he])
  simp only [entryAt, Option.bind_eq_some_iff] at hx
  obtain ⟨e', he', -⟩ := hx
  refine ⟨e', he', fun p x hx => ?_⟩
  obtain ⟨x', hx', hr⟩ := h (.key k :: p) x (by simp only [entryAt, he, Option.bind_some]; exact hx)
  simp only [entryAt, he', Option.bind_some] at hx'
  exact ⟨x', hx', hr⟩

theorem Gr.other {t t' : MapTable} (h : Gr (.table t) [] (.table t') []) {rs rs' : List Repr}
    (hrs : rs <+: rs') (hv : ∀ r ∈ rs, ¬ IsValueRepr r) : Gr (.table t) rs (.table t') rs' :=
  Gr.table hrs hv h.entries

/-- Storing an entry. -/
theorem Gr.put {t : MapTable} {k : Str} {e' : Entry}
    (h : ∀ e, get t k = some e → Gr e.node e.reprs e'.node e'.reprs) :
    Gr (.table t) [] (.table (put t k e')) [] := by
  refine Gr.table List.prefix_rfl (by simp) fun x e he => ?_
  rw [get_put]
  split
  · rename_i hk
    subst hk
    exact ⟨e', rfl, h e he⟩
  · exact ⟨e, he, .refl _ _⟩

theorem Gr.putNew {t : MapTable} {k : Str} {e' : Entry} (h : get t k = none) :
    Gr (.table t) [] (.table (TomlMap.put t k e')) [] :=
  Gr.put fun e he => by rw [h] at he; cases he

/-! ## Classes -/

theorem isLast_iff (r : Repr) : IsLast r ↔ r.key.isLast = true := by
  unfold IsLast KeyRepr.isLast
  cases r.key <;> simp

theorem isValueRepr_iff (r : Repr) : IsValueRepr r ↔ reprCls r = .value := by
  unfold IsValueRepr
  rw [isLast_iff]
  unfold reprCls
  cases r.kind <;> cases r.key.isLast <;> simp [ReprKind.isAssignment]

theorem okCls_value {isA : Bool} {r : Repr} (h : okCls isA (reprCls r) = true) : ¬ IsValueRepr r := by
  rw [isValueRepr_iff]
  intro e
  rw [e] at h
  cases isA <;> simp [okCls] at h

/-! ## Extending -/

theorem setTable_last {es : List ArrayTable} {l : ArrayTable} (hl : es.getLast? = some l) (t : MapTable) :
    setTable (.toplevel es) t = .toplevel (es.dropLast ++ [{ l with node := t }]) := by
  simp [setTable, hl]

/-- What `get_table_to_extend` gives out and is put back. -/
theorem gte_gr {prev : List Seg} {entry e' : Entry} {r : Repr} {ext : Extend}
    (h : getTableToExtend prev entry r = some (e', ext)) :
    (∀ er, ext = .err er → Gr entry.node entry.reprs e'.node e'.reprs) ∧
    ∀ parent next t, ext = .ok parent next t → ∀ t', Gr (.table t) [] (.table t') [] →
      Gr entry.node entry.reprs (setTable e'.node t') e'.reprs := by
  cases hn : entry.node with
  | table t0 =>
    obtain ⟨rfl, h3⟩ := gte_table hn h
    rcases h3 with ⟨er, rfl, -⟩ | ⟨rfl, hok⟩
    · refine ⟨fun _ _ => ?_, fun _ _ _ h => by cases h⟩
      simp only [hn]
      exact Gr.reprs _ (List.prefix_append _ _)
    · refine ⟨(fun _ h => by cases h), ?_⟩
      intro parent next t hx t' hg
      cases hx
      simp only [hn, setTable]
      exact hg.other (List.prefix_append _ _) fun x hx => okCls_value (hok x (List.mem_append_left _ hx))
  | toplevel es =>
    have h0 := h
    rcases gte_toplevel hn h with ⟨hA, er, rfl⟩ | ⟨hA, rfl, h3⟩
    · refine ⟨fun _ _ => ?_, fun _ _ _ h => by cases h⟩
      have : e' = entry := by
        unfold getTableToExtend at h0
        rw [hn] at h0
        simp only [hA, if_true, Option.bind_eq_bind, Option.bind_eq_some_iff, Option.pure_def,
          Option.some.injEq, Prod.mk.injEq] at h0
        obtain ⟨_, _, _, _, rfl, _⟩ := h0
        rfl
      rw [this, hn]
      exact .refl _ _
    · rcases h3 with ⟨er, rfl, -⟩ | ⟨l, hl, rfl⟩
      · refine ⟨fun _ _ => ?_, fun _ _ _ h => by cases h⟩
        simp only [hn]
        exact Gr.reprs _ (List.prefix_append _ _)
      · refine ⟨(fun _ h => by cases h), ?_⟩
        intro parent next t hx t' hg
        cases hx
        simp only [hn, setTable_last hl]
        have hne : es ≠ [] := by rintro rfl; simp at hl
        have hpos := List.length_pos_iff.2 hne
        intro p x hx
        cases p with
        | nil =>
          simp only [entryAt, Option.some.injEq] at hx
          subst hx
          refine ⟨(.toplevel (es.dropLast ++ [{ l with node := t' }]), entry.reprs ++ [r]),
            by simp only [entryAt], List.prefix_append _ _, ?_, ?_⟩
          · simp only [SameKind, List.length_append, List.length_dropLast, List.length_cons,
              List.length_nil]
            omega
          · intro _ hh
            exact absurd rfl (hh es)
        | cons s p =>
          cases s with
          | key k => simp [entryAt] at hx
          | idx i =>
            simp only [entryAt, Option.bind_eq_some_iff] at hx
            obtain ⟨y, hy, hx⟩ := hx
            have hi : i < es.length := by
              rcases Nat.lt_or_ge i es.length with h | h
              · exact h
              · rw [List.getElem?_eq_none h] at hy; cases hy
            by_cases hlast : i = es.length - 1
            · have hget : (es.dropLast ++ [{ l with node := t' }])[i]? = some { l with node := t' } := by
                rw [hlast, List.getElem?_append_right (by simp)]
                simp
              have hyl : y = l := by
                rw [List.getLast?_eq_getElem?, ← hlast, hy] at hl
                exact Option.some.inj hl
              subst hyl
              obtain ⟨x', hx', hr⟩ := hg p x hx
              exact ⟨x', by simp only [entryAt, hget, Option.bind_some]; exact hx', hr⟩
            · have hget : (es.dropLast ++ [{ l with node := t' }])[i]? = es[i]? := by
                rw [List.getElem?_append_left (by simp; omega), List.getElem?_dropLast, if_pos (by omega)]
              exact ⟨x, by simp only [entryAt, hget, hy, Option.bind_some]; exact hx, .refl x⟩
  | inline p a es =>
    obtain ⟨er, rfl⟩ := gte_other (Or.inl ⟨_, _, _, hn⟩) h
    refine ⟨fun _ _ => ?_, fun _ _ _ h => by cases h⟩
    unfold getTableToExtend at h
    rw [hn] at h
    simp only [Option.bind_eq_bind, Option.bind_eq_some_iff, Option.pure_def,
      Option.some.injEq, Prod.mk.injEq] at h
    obtain ⟨_, _, _, _, rfl, _⟩ := h
    rw [hn]
    exact .refl _ _
  | scalar s =>
    obtain ⟨er, rfl⟩ := gte_other (Or.inr ⟨_, hn⟩) h
    refine ⟨fun _ _ => ?_, fun _ _ _ h => by cases h⟩
    unfold getTableToExtend at h
    rw [hn] at h
    simp only [Option.bind_eq_bind, Option.bind_eq_some_iff, Option.pure_def,
      Option.some.injEq, Prod.mk.injEq] at h
    obtain ⟨_, _, _, _, rfl, _⟩ := h
    rw [hn]
    exact .refl _ _

/-! ## Walking -/

/-- The table grows. -/
def GrT (t : MapTable) (r : MapM MapTable) : Prop :=
  ∀ t' es, r = some (t', es) → Gr (.table t) [] (.table t') []

theorem GrT.pure (t : MapTable) : GrT t (Pure.pure t : MapM MapTable) := by
  intro t' es h
  obtain ⟨rfl, rfl⟩ := pure_some.1 h
  exact .refl _ _

theorem GrT.bind {t : MapTable} {x : MapM MapTable} {f : MapTable → MapM MapTable} (hx : GrT t x)
    (hf : ∀ t', GrT t' (f t')) : GrT t (x >>= f) := by
  intro t' es h
  obtain ⟨a, e1, e2, h1, h2, rfl⟩ := bind_some.1 h
  exact (hx a e1 h1).trans (hf a t' e2 h2)

theorem GrT.err {α : Type} {t : MapTable} {o : Option α} {g : α → Option Error} :
    GrT t (lift o >>= fun x => lift (g x) >>= fun er => report er >>= fun _ => (Pure.pure t : MapM MapTable)) := by
  intro t' es h
  obtain ⟨x, _, h⟩ := lift_bind_some.1 h
  obtain ⟨er, _, h⟩ := lift_bind_some.1 h
  obtain ⟨es', h3, rfl⟩ := report_bind_some.1 h
  exact GrT.pure t t' es' h3

section
variable {fresh : List Seg → Repr → MapM Entry} {leaf : List Seg → MapTable → Ident → Repr → MapM MapTable}
  {kind : ReprKind}

theorem walk_gr {ids : List DottedIdent} (hl : ∀ path map i repr, GrT map (leaf path map i repr)) :
    ∀ (rest : List DottedIdent) (i : Nat) (path : List Seg) (parent : Nat) (map : MapTable),
      GrT map (walk fresh leaf kind ids i rest path parent map) := by
  intro rest
  induction rest with
  | nil => intro i path parent map t' es h; cases h
  | cons o rest ih =>
    intro i path parent map
    cases rest with
    | nil => exact hl _ _ _ _
    | cons o' rest =>
      unfold walk
      intro t' es h
      cases hg : get map o.ident.text with
      | none =>
        simp only [hg] at h
        obtain ⟨e, _, rfl⟩ := bind_pure_some.1 h
        exact Gr.putNew hg
      | some e =>
        simp only [hg] at h
        obtain ⟨⟨e', ext⟩, h1, h⟩ := lift_bind_some.1 h
        obtain ⟨g1, g2⟩ := gte_gr h1
        cases ext with
        | err er =>
          obtain ⟨es', h3, rfl⟩ := report_bind_some.1 h
          obtain ⟨rfl, rfl⟩ := pure_some.1 h3
          refine Gr.put fun x hx => ?_
          rw [hg] at hx
          cases hx
          exact g1 er rfl
        | ok p1 next t =>
          simp only at h
          obtain ⟨t1, h2, rfl⟩ := bind_pure_some.1 h
          refine Gr.put fun x hx => ?_
          rw [hg] at hx
          cases hx
          exact g2 _ _ _ rfl t1 (ih _ _ _ _ _ _ h2)

end

/-! ## Inserting -/

theorem superTableCheck_value {path : List Seg} {new : Repr} {rs : List Repr}
    (h : superTableCheck path new rs = some none) : ∀ r ∈ rs, ¬ IsValueRepr r := by
  intro r hr
  rw [isValueRepr_iff]
  rcases (superTableCheck_none h).1 rfl r hr with e | e <;> rw [e] <;> simp

theorem insertNode_gr {v : InsertValue}
    (hv : ∀ f, v = .tableAssignments f → ∀ path parent t, GrT t (f path parent t)) (path : List Seg)
    (map : MapTable) (i : Ident) (repr : Repr) : GrT map (insertNode path map i v repr) := by
  unfold insertNode
  cases hg : get map i.text with
  | none =>
    simp only
    intro t' es h
    obtain ⟨e, _, rfl⟩ := bind_pure_some.1 h
    exact Gr.putNew hg
  | some e =>
    simp only
    cases v with
    | value f => exact GrT.err
    | tableAssignments f =>
      simp only
      cases hn : e.node with
      | table t =>
        simp only
        intro t' es h
        obtain ⟨x, hx, h⟩ := lift_bind_some.1 h
        cases x with
        | some er =>
          obtain ⟨es', h3, rfl⟩ := report_bind_some.1 h
          exact GrT.pure map t' es' h3
        | none =>
          simp only at h
          obtain ⟨t1, h2, rfl⟩ := bind_pure_some.1 h
          refine Gr.put fun x hx => ?_
          rw [hg] at hx
          cases hx
          rw [hn]
          exact (hv f rfl _ _ _ _ _ h2).other (List.prefix_append _ _) (superTableCheck_value hx)
      | toplevel es => exact GrT.err
      | inline p a es => exact GrT.err
      | scalar s => exact GrT.err

theorem insertNodeAtPath_gr {v : InsertValue}
    (hv : ∀ f, v = .tableAssignments f → ∀ path parent t, GrT t (f path parent t)) (path : List Seg)
    (parent : Nat) (map : MapTable) (key : Key) (kind : ReprKind) :
    GrT map (insertNodeAtPath path parent map key v kind) := by
  cases key with
  | one i => exact insertNode_gr hv _ _ _ _
  | dotted ids => exact walk_gr (fun path map i repr => insertNode_gr hv path map i repr) _ _ _ _ _

theorem insertTop_gr (as : List ToplevelAssignment) (path : List Seg) (parent : Nat) (t : MapTable) :
    GrT t (insertTopLevelAssignments as path parent t) := by
  induction as generalizing t with
  | nil => exact GrT.pure t
  | cons a as ih =>
    unfold insertTopLevelAssignments
    exact GrT.bind (insertNodeAtPath_gr (fun f h => by cases h) _ _ _ _ _) ih

theorem mapAssignments_gr (as : List InlineTableAssignment) (path : List Seg) (parent : Nat)
    (t : MapTable) : GrT t (mapAssignments as path parent t) := by
  induction as generalizing t with
  | nil => exact GrT.pure t
  | cons a as ih =>
    obtain ⟨⟨k, q, v⟩, m⟩ := a
    unfold mapAssignments
    exact GrT.bind (insertNodeAtPath_gr (fun f h => by cases h) _ _ _ _ _) ih

/-- Growing an array of tables. -/
theorem Gr.push {es : List ArrayTable} {e : ArrayTable} {rs rs' : List Repr} (hrs : rs <+: rs') : Gr (.toplevel es) rs (.toplevel (es ++ [e])) rs' := by
  intro p x hx
  cases p with
  | nil =>
    simp only [entryAt, Option.some.injEq] at hx
    subst hx
    refine ⟨(.toplevel (es ++ [e]), rs'), by simp only [entryAt], hrs, by simp [SameKind], fun _ hh => absurd rfl (hh es)⟩
  | cons s p =>
    cases s with
    | key k => simp [entryAt] at hx
    | idx i =>
      simp only [entryAt, Option.bind_eq_some_iff] at hx
      obtain ⟨y, hy, hx⟩ := hx
      have hi : i < es.length := by
        rcases Nat.lt_or_ge i es.length with h | h
        · exact h
        · rw [List.getElem?_eq_none h] at hy; cases hy
      refine ⟨x, ?_, .refl x⟩
      simp only [entryAt]
      rw [List.getElem?_append_left hi, hy]
      exact hx

theorem insertArrayEntry_gr (a : ArrayEntry) (path : List Seg) (map : MapTable) (i : Ident) (repr : Repr) :
    GrT map (insertArrayEntry a path map i repr) := by
  unfold insertArrayEntry
  cases hg : get map i.text with
  | none =>
    simp only
    intro t' es h
    obtain ⟨e, _, rfl⟩ := bind_pure_some.1 h
    exact Gr.putNew hg
  | some e =>
    simp only
    cases hn : e.node with
    | toplevel es0 =>
      simp only
      intro t' es h
      obtain ⟨x, _, rfl⟩ := bind_pure_some.1 h
      refine Gr.put fun y hy => ?_
      rw [hg] at hy
      cases hy
      rw [hn]
      exact Gr.push (List.prefix_append _ _)
    | table t => exact GrT.err
    | inline p a es => exact GrT.err
    | scalar s => exact GrT.err

theorem insertArrayAtPath_gr (a : ArrayEntry) (map : MapTable) (key : Key) :
    GrT map (insertArrayEntryAtPath a map key) := by
  cases key with
  | one i => exact insertArrayEntry_gr a _ _ _ _
  | dotted ids => exact walk_gr (insertArrayEntry_gr a) _ _ _ _ _

/-! ## Documents -/

theorem mapAst_gr (root : MapTable) (x : Ast) : GrT root (mapAst root x) := by
  cases x with
  | assignment a => exact insertNodeAtPath_gr (fun f h => by cases h) _ _ _ _ _
  | comment c => exact GrT.pure root
  | table t =>
    unfold mapAst
    simp only
    cases t.header.key with
    | none => exact GrT.pure root
    | some k =>
      refine insertNodeAtPath_gr (fun f h => ?_) _ _ _ _ _
      cases h
      exact insertTop_gr t.assignments
  | array t =>
    unfold mapAst
    simp only
    cases t.header.key with
    | none => exact GrT.pure root
    | some k => exact insertArrayAtPath_gr t root k

theorem mapAsts_gr (l : List Ast) (root : MapTable) : GrT root (mapAsts l root) := by
  induction l generalizing root with
  | nil => exact GrT.pure root
  | cons x l ih =>
    unfold mapAsts
    exact GrT.bind (mapAst_gr root x) ih

theorem entryAt_kind {asts : List Ast} (p : Loc) : ∀ (n : MapNode) (rs : List Repr) (ar : Option (List Repr)),
    NodeOk asts ar n → KindOk n rs ∨ rs = [] → ∀ m qs, entryAt n rs p = some (m, qs) →
    KindOk m qs ∨ qs = [] := by
  induction p with
  | nil =>
    intro n rs ar hn hk m qs h
    simp only [entryAt, Option.some.injEq, Prod.mk.injEq] at h
    obtain ⟨rfl, rfl⟩ := h
    exact hk
  | cons s p ih =>
    intro n rs ar hn hk m qs h
    cases n with
    | table t =>
      cases s with
      | idx i => simp [entryAt] at h
      | key k =>
        simp only [entryAt, Option.bind_eq_some_iff] at h
        obtain ⟨e, he, h⟩ := h
        have := hn.entry he
        exact ih _ _ _ this.2.2.1 (Or.inl this.2.2.2) _ _ h
    | toplevel es =>
      cases s with
      | key k => simp [entryAt] at h
      | idx i =>
        simp only [entryAt, Option.bind_eq_some_iff] at h
        obtain ⟨e, he, h⟩ := h
        cases hn with
        | toplevel _ _ h3 => exact ih _ _ _ (h3 e (List.mem_of_getElem? he)) (Or.inr rfl) _ _ h
    | inline q a es =>
      cases s with
      | key k => simp [entryAt] at h
      | idx i =>
        simp only [entryAt, Option.bind_eq_some_iff] at h
        obtain ⟨e, he, h⟩ := h
        cases hn with
        | inline _ _ _ h3 => exact ih _ _ _ (h3 e (List.mem_of_getElem? he)) (Or.inr rfl) _ _ h
    | scalar x => cases s <;> simp [entryAt] at h

theorem later_of_gr {asts : List Ast} {ar : Option (List Repr)} {t t' : MapTable}
    (hm : NodeOk asts ar (.table t)) (h : Gr (.table t) [] (.table t') []) : Later t t' := by
  intro p n rs hp
  obtain ⟨⟨n', rs'⟩, h1, h2, h3, h4⟩ := h p (n, rs) hp
  refine ⟨n', rs', h1, h2, h3, fun hv => h4 hv ?_⟩
  rintro es rfl
  obtain ⟨r, hr, hv⟩ := hv
  rcases entryAt_kind p _ _ _ hm (Or.inr rfl) _ _ hp with hk | hk
  · have := hk r hr
    rw [hv.1] at this
    cases this
  · rw [hk] at hr
    cases hr

theorem mapM_pure_bind {α β : Type} (a : α) (f : α → MapM β) :
    ((pure a : MapM α) >>= f) = f a := by
  show MapM.bind (some (a, [])) f = f a
  unfold MapM.bind
  show (match f a with
    | none => none
    | some (b, es') => some (b, [] ++ es')) = f a
  rcases f a with _ | ⟨b, es⟩
  · rfl
  · rfl

theorem mapM_bind_assoc {α β γ : Type} (x : MapM α) (f : α → MapM β) (g : β → MapM γ) :
    ((x >>= f) >>= g) = (x >>= fun a => f a >>= g) := by
  show MapM.bind (MapM.bind x f) g = MapM.bind x fun a => MapM.bind (f a) g
  unfold MapM.bind
  rcases x with _ | ⟨a, es⟩
  · rfl
  · show _ = (match (match f a with
        | none => none
        | some (b, es') => match g b with
          | none => none
          | some (c, es'') => some (c, es' ++ es'')) with
      | none => none
      | some (b, es') => some (b, es ++ es'))
    rcases hf : f a with _ | ⟨b, es'⟩
    · simp [hf]
    · simp only [hf]
      rcases hg : g b with _ | ⟨c, es''⟩
      · simp
      · simp

theorem mapAsts_append (a b : List Ast) (root : MapTable) :
    mapAsts (a ++ b) root = (mapAsts a root >>= fun r => mapAsts b r) := by
  induction a generalizing root with
  | nil => exact (mapM_pure_bind root fun r => mapAsts b r).symm
  | cons x a ih =>
    have e1 : mapAsts (x :: a ++ b) root = (mapAst root x >>= fun r => mapAsts (a ++ b) r) := rfl
    have e2 : mapAsts (x :: a) root = (mapAst root x >>= fun r => mapAsts a r) := rfl
    rw [e1, e2, mapM_bind_assoc]
    congr 1
    funext r
    exact ih r

/-- The map of the beginning of a document. -/
theorem map_prefix {a b : List Ast} {t' : MapTable} {es' : List Error} (h : map (a ++ b) = some (t', es')) :
    ∃ t es1 es2, map a = some (t, es1) ∧ mapAsts b t = some (t', es2) ∧ es' = es1 ++ es2 := by
  unfold map at h ⊢
  rw [mapAsts_append] at h
  obtain ⟨t, e1, e2, h1, h2, h3⟩ := bind_some.1 h
  exact ⟨t, e1, e2, h1, h2, h3⟩

end Verif.TomlMap
