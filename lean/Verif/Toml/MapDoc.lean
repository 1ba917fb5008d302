import Verif.Toml.MapVal

/-! # The map represents the definitions of the document: headers and documents -/

namespace Verif.TomlMap
open Verif Verif.Toml Verif.Spec.Toml

/-! ## The assignments of a table -/

/-- The definitions of the assignments of the table at `P`. -/
def assignDefs (as : List ToplevelAssignment) (P : Loc) : List Def :=
  as.flatMap fun a => keyValDefs P (keyNames a.assignment.key) (valueOf a.assignment.val)

theorem insertTop_good (as : List ToplevelAssignment) {P : Loc} {D : List Def} {path : List Seg}
    {parent : Nat} {map : MapTable} (hc : Consistent D) (hr : RepT P map D) :
    Good (RepT P) D (assignDefs as P) (insertTopLevelAssignments as path parent map) := by
  induction as generalizing D map with
  | nil => exact Good.pure hc hr
  | cons a as ih =>
    unfold insertTopLevelAssignments assignDefs
    rw [List.flatMap_cons]
    exact Good.bind (insertValue_good (kind := .toplevelAssignment a) (mapValue_good _) rfl hc hr)
      fun map' hc1 hr1 => ih hc1 hr1

theorem insertTop_keys {as : List ToplevelAssignment} {path : List Seg} {parent : Nat}
    {map a : MapTable} {es : List Error}
    (h : insertTopLevelAssignments as path parent map = some (a, es)) :
    ∀ x ∈ as, keyNames x.assignment.key ≠ [] := by
  induction as generalizing map a es with
  | nil => simp
  | cons x as ih =>
    unfold insertTopLevelAssignments at h
    obtain ⟨map', e1, e2, h1, h2, rfl⟩ := bind_some.1 h
    intro y hy
    rcases List.mem_cons.1 hy with rfl | hy
    · exact insertValue_key h1
    · exact ih h2 y hy

theorem assignDefs_below (as : List ToplevelAssignment) (P : Loc) : Below P (assignDefs as P) := by
  intro d hd
  obtain ⟨a, _, h⟩ := List.mem_flatMap.1 hd
  obtain ⟨h1, h2⟩ := wayDefs_at .dotted (fun _ => 0) (keyNames a.assignment.key) P
  exact (h1.append ((valDefs_below _ _).mono h2)) d h

theorem assignDefs_self {as : List ToplevelAssignment} {P : Loc}
    (h : ∀ x ∈ as, keyNames x.assignment.key ≠ []) : whats (assignDefs as P) P = [] := by
  induction as with
  | nil => rfl
  | cons a as ih =>
    unfold assignDefs
    rw [List.flatMap_cons, whats_append, keyValDefs_self (h _ List.mem_cons_self)]
    exact ih fun x hx => h x (List.mem_cons_of_mem _ hx)

/-! ## Headers of tables -/

/-- The definitions of a table at its location. -/
def tableDefs (as : List ToplevelAssignment) (Q : Loc) : List Def := (Q, .header) :: assignDefs as Q

theorem tableDefs_below (as : List ToplevelAssignment) (Q : Loc) : Below Q (tableDefs as Q) :=
  .cons List.prefix_rfl (assignDefs_below as Q)

theorem freshOk_table (as : List ToplevelAssignment) {kind : ReprKind} {count : Loc → Nat} :
    FreshOk (fun path => freshNode path (.tableAssignments (insertTopLevelAssignments as))) kind .super
      count (tableDefs as) .header := by
  intro P D path repr hm hcls hc hf
  unfold tableDefs
  apply Good.cons
  have hc1 := consistent_fresh (w := .header) hc hf.at
  have hr := repT_fresh_snoc (w := .header) hf
  intro a es h
  unfold freshNode mapInsertValue at h
  obtain ⟨n, h1, rfl⟩ := bind_pure_some.1 h
  obtain ⟨t, h2, rfl⟩ := bind_pure_some.1 h1
  obtain ⟨i1, r1⟩ := insertTop_good as hc1 hr t es h2
  refine ⟨i1, fun hc2 => ?_⟩
  show RepN P ([repr].map reprCls) (.table t) _
  refine (r1 hc2).toN ?_
  rw [whats_append, whats_append, hf.at, whats_cons, if_pos rfl, assignDefs_self (insertTop_keys h2)]
  simp [infoOf, hcls, cls]

theorem superTableCheck_none {path : List Seg} {new : Repr} {rs : List Repr} {r : Option Error}
    (h : superTableCheck path new rs = some r) :
    r = none ↔ ∀ x ∈ rs, reprCls x = .super ∨ reprCls x = .superArray := by
  induction rs with
  | nil => simp [superTableCheck] at h; simp [← h]
  | cons x rs ih =>
    unfold superTableCheck at h
    have hx : (!x.kind.isAssignment && !x.key.isLast) = true ↔
        (reprCls x = .super ∨ reprCls x = .superArray) := by
      unfold reprCls
      cases x.kind <;> cases x.key.isLast <;> simp [ReprKind.isAssignment]
    split at h
    · rename_i hh
      rw [ih h]
      simp [hx.1 hh]
    · rename_i hh
      simp only [Option.bind_eq_bind, Option.bind_eq_some_iff, Option.pure_def, Option.some.injEq] at h
      obtain ⟨e, _, rfl⟩ := h
      constructor
      · intro h; cases h
      · intro h
        exact absurd (hx.2 (h x List.mem_cons_self)) hh

theorem superCls {ws : List What} {rs : List Repr} (h : ws.map cls = rs.map reprCls) :
    (∀ x ∈ rs, reprCls x = .super ∨ reprCls x = .superArray) ↔ ∀ w ∈ ws, Compatible w .header := by
  have h1 : (∀ x ∈ rs, reprCls x = .super ∨ reprCls x = .superArray) ↔
      ∀ c ∈ rs.map reprCls, c = .super ∨ c = .superArray := by simp
  rw [h1, ← h, List.forall_mem_map]
  refine forall_congr' fun w => imp_congr_right fun _ => ?_
  cases w <;> simp [cls, Compatible]

theorem leafOk_table (as : List ToplevelAssignment) {kind : ReprKind} {count : Loc → Nat} :
    LeafOk (fun path map i => insertNode path map i (.tableAssignments (insertTopLevelAssignments as)))
      kind .super count (tableDefs as) .header := by
  intro P D path map i repr hm hcls hc hr
  show Good _ _ _ (insertNode path map i (.tableAssignments (insertTopLevelAssignments as)) repr)
  unfold insertNode
  cases hg : get map i.text with
  | none =>
    simp only
    have := freshOk_table as (kind := kind) (count := count) (P ++ [.key i.text]) D path repr hm hcls hc
      (hr.vacant hg)
    exact Good.map this fun e hc2 he => hr.put (tableDefs_below as _) he
  | some e =>
    simp only
    have hd := hr.defined hg
    generalize hQ : P ++ [.key i.text] = Q at *
    have hE := hr.entry hg
    rw [hQ] at hE
    cases hn : e.node with
    | table t =>
      simp only
      rw [hn] at hd hE
      simp only [nodeInfo] at hd
      obtain ⟨hcs, hne, hhd⟩ := infoOf_tab hd
      have hsc := superCls hcs
      by_cases hcon : Consistent (D ++ [(Q, .header)])
      · unfold tableDefs
        apply Good.cons
        intro a es h
        obtain ⟨r, h1, h2⟩ := lift_bind_some.1 h
        have hr0 : r = none := (superTableCheck_none h1).2 (hsc.2 (consistent_snoc.1 hcon).2)
        subst hr0
        simp only at h2
        obtain ⟨t', h3, rfl⟩ := bind_pure_some.1 h2
        have hT : RepT Q t (D ++ [(Q, .header)]) := hE.table.snoc .header
        obtain ⟨i1, r1⟩ := insertTop_good as hcon hT t' es h3
        refine ⟨i1, fun hc2 => ?_⟩
        rw [List.append_assoc] at hc2 ⊢
        have hB := tableDefs_below as Q
        refine RepT.put hr (by rw [hQ]; exact hB) ?_
        rw [hQ]
        have := r1 (by rw [List.append_assoc]; exact hc2)
        rw [List.append_assoc] at this
        refine this.toN ?_
        have hs := infoOf_snoc hd .header
        rw [whats_append]
        simp only [List.singleton_append]
        rw [whats_cons, if_pos rfl, assignDefs_self (insertTop_keys h3), hs]
        simp [hcls, cls]
      · refine Good.err (fun a es h => ?_) ?_
        · obtain ⟨r, h1, h2⟩ := lift_bind_some.1 h
          have hr0 : r ≠ none := fun e => hcon (consistent_snoc.2 ⟨hc, hsc.1 ((superTableCheck_none h1).1 e)⟩)
          cases r with
          | none => exact absurd rfl hr0
          | some er => exact report_ne h2
        · intro h2
          refine hcon (consistent_left (N := assignDefs as Q) ?_)
          rw [List.append_assoc]
          exact h2
    | toplevel es0 =>
      simp only
      rw [hn] at hd
      obtain ⟨-, hhd, -⟩ := infoOf_aot hd
      refine Good.err (fun a es h => lift_report_ne h) ?_
      exact not_consistent_snoc (w' := .entry) (List.mem_of_head? hhd) (by simp [Compatible])
    | inline p0 r0 es0 =>
      simp only
      rw [hn] at hd
      obtain ⟨v, hv⟩ := infoOf_val (Or.inr ⟨_, hd⟩)
      refine Good.err (fun a es h => lift_report_ne h) ?_
      exact not_consistent_snoc hv (by simp [Compatible])
    | scalar s =>
      simp only
      rw [hn] at hd
      obtain ⟨v, hv⟩ := infoOf_val (Or.inl ⟨_, hd⟩)
      refine Good.err (fun a es h => lift_report_ne h) ?_
      exact not_consistent_snoc hv (by simp [Compatible])

theorem mode_super (t : Table) (D : List Def) : Mode (.table t) .super (entries D) D where
  way := Or.inr (Or.inl rfl)
  dotted := by simp [ReprKind.isAssignment]
  assign := fun h => by cases h
  header := fun _ _ => rfl
  cls := fun parent key hl => by simp [reprCls, hl, TomlMap.cls]

/-- A table. -/
theorem insertTable_good (t : Table) {D : List Def} {map : MapTable} {key : Key} (hc : Consistent D)
    (hr : RepT [] map D) :
    Good (RepT []) D
      ((wayDefs .super (entries D) [] (keyNames key)).1 ++
        tableDefs t.assignments (wayDefs .super (entries D) [] (keyNames key)).2)
      (insertNodeAtPath [] ROOT_PARENT map key (.tableAssignments (insertTopLevelAssignments t.assignments))
        (.table t)) := by
  cases key with
  | one i =>
    exact leafOk_table t.assignments (kind := .table t) (count := entries D) [] D [] map i _
      (mode_super t D) rfl hc hr
  | dotted ids =>
    cases ids with
    | nil =>
      intro a es h
      cases h
    | cons o rest =>
      have := walk_good (ids := o :: rest) (freshOk_table t.assignments) (leafOk_table t.assignments)
        (fun parent => by unfold reprCls; simp only; rw [isLast_last (by simp)]) (tableDefs_below t.assignments) rest o 0 []
        ROOT_PARENT [] D map (by simp) (mode_super t D) hc hr
      have e : keyNames (.dotted (o :: rest)) = (o :: rest).map (·.ident.text) := by
        simp [keyNames, Key.idents]
      rw [e]
      exact this

/-! ## Headers of arrays of tables -/

/-- The definitions of an entry at the location of the array, where `n` is the number of entries. -/
def entryDefs (as : List ToplevelAssignment) (count : Loc → Nat) (Q : Loc) : List Def :=
  (Q, .entry) :: (Q ++ [.idx (count Q)], .entryTable) :: assignDefs as (Q ++ [.idx (count Q)])

theorem entryDefs_below (as : List ToplevelAssignment) (count : Loc → Nat) (Q : Loc) :
    Below Q (entryDefs as count Q) :=
  .cons List.prefix_rfl (.cons (List.prefix_append _ _)
    ((assignDefs_below as _).mono (List.prefix_append _ _)))

/-- A new entry behind `es`. -/
theorem RepN.push {Q : Loc} {cs : List Cls} {es : List ArrayTable} {e : ArrayTable} {D N : List Def}
    (h : ∀ s p, info [] (.toplevel es) (s :: p) = infoOf (whats D (Q ++ s :: p)))
    (h0 : infoOf (whats (D ++ N) Q) = some (.aot (es.length + 1) (cs.all headerCls)))
    (hN : Below (Q ++ [.idx es.length]) N)
    (he : RepN (Q ++ [.idx es.length]) [.entryTable] (.table e.node) (D ++ N)) :
    RepN Q cs (.toplevel (es ++ [e])) (D ++ N) := by
  intro p
  cases p with
  | nil =>
    rw [List.append_nil, h0]
    simp [info, nodeInfo]
  | cons s p =>
    by_cases hs : s = .idx es.length
    · subst hs
      have := he p
      rw [List.append_assoc] at this
      simpa [info] using this
    · rw [whats_append, whats_below hN (idx_ne_below hs), List.append_nil, ← h s p]
      cases s with
      | key k => rfl
      | idx i =>
        have hi : i ≠ es.length := fun e => hs (by rw [e])
        have : (es ++ [e])[i]? = es[i]? := by
          by_cases hlt : i < es.length
          · rw [List.getElem?_append_left hlt]
          · rw [List.getElem?_eq_none (by simp; omega), List.getElem?_eq_none (by omega)]
        simp only [info, this]

/-- The table of a new entry. -/
theorem arrayTable_good (a : ArrayEntry) {Q : Loc} {D : List Def} {path : List Seg} {parent : Nat}
    (hc : Consistent D) (hf : Fresh Q D) :
    Good (fun e D => RepN Q [.entryTable] (.table e.node) D) D
      ((Q, .entryTable) :: assignDefs a.assignments Q) (arrayTable a path parent) := by
  apply Good.cons
  have hc1 := consistent_fresh (w := .entryTable) hc hf.at
  have hr := repT_fresh_snoc (w := .entryTable) hf
  intro e es h
  unfold arrayTable at h
  obtain ⟨t, h1, rfl⟩ := bind_pure_some.1 h
  obtain ⟨i1, r1⟩ := insertTop_good a.assignments hc1 hr t es h1
  refine ⟨i1, fun hc2 => (r1 hc2).toN ?_⟩
  rw [whats_append, whats_append, hf.at, whats_cons, if_pos rfl, assignDefs_self (insertTop_keys h1)]
  rfl

theorem snoc_below {D : List Def} {Q : Loc} {w : What} {s : PStep} {p : Loc} :
    whats (D ++ [(Q, w)]) (Q ++ s :: p) = whats D (Q ++ s :: p) := by
  rw [whats_append, whats_cons, if_neg, whats_nil, List.append_nil]
  intro e
  have := congrArg List.length e
  simp at this

theorem count_entries {kind : ReprKind} {w : What} {count : Loc → Nat} {D : List Def}
    (hm : Mode kind w count D) (hw : w ≠ .dotted) (q : Loc) : count q = entries D q := by
  apply hm.header
  cases hk : kind.isAssignment with
  | false => rfl
  | true => exact absurd (hm.dotted.1 hk) hw

theorem freshOk_array (a : ArrayEntry) {kind : ReprKind} {count : Loc → Nat} :
    FreshOk (freshArray a) kind .superArray count (entryDefs a.assignments count) .entry := by
  intro P D path repr hm hcls hc hf
  have h0 : count P = 0 := by
    rw [count_entries hm (by simp), entries_zero]
    rw [hf.at]
    simp
  unfold entryDefs
  rw [h0]
  apply Good.cons
  have hc1 := consistent_fresh (w := .entry) hc hf.at
  have hf1 := fresh_snoc (w := .entry) hf (.idx 0)
  refine Good.map (arrayTable_good a hc1 hf1) fun e hc2 he => ?_
  show RepN P ([repr].map reprCls) (.toplevel ([] ++ [e])) _
  have hB : Below (P ++ [.idx 0])
      ((P ++ [.idx 0], .entryTable) :: assignDefs a.assignments (P ++ [.idx 0])) :=
    .cons List.prefix_rfl (assignDefs_below _ _)
  refine RepN.push ?_ ?_ hB he
  · intro s p
    rw [snoc_below, hf]
    cases s <;> rfl
  · rw [whats_append, whats_append, hf.at, whats_cons, if_pos rfl, whats_below hB not_below_self]
    simp [infoOf, hcls, headerCls]

theorem leafOk_array (a : ArrayEntry) {kind : ReprKind} {count : Loc → Nat} :
    LeafOk (insertArrayEntry a) kind .superArray count (entryDefs a.assignments count) .entry := by
  intro P D path map i repr hm hcls hc hr
  unfold insertArrayEntry
  cases hg : get map i.text with
  | none =>
    simp only
    have := freshOk_array a (kind := kind) (count := count) (P ++ [.key i.text]) D path repr hm hcls hc
      (hr.vacant hg)
    exact Good.map this fun e hc2 he => hr.put (entryDefs_below _ _ _) he
  | some e =>
    simp only
    have hd := hr.defined hg
    generalize hQ : P ++ [.key i.text] = Q at *
    have hE := hr.entry hg
    rw [hQ] at hE
    cases hn : e.node with
    | toplevel es0 =>
      simp only
      rw [hn] at hd hE
      obtain ⟨hlen, hhd, hall⟩ := infoOf_aot hd
      have hpw := whats_pairwise hc Q
      have hon := only_entry hpw hhd
      have hcount : count Q = es0.length := by
        rw [count_entries hm (by simp), entries_all hon, hlen]
      have hB := entryDefs_below a.assignments count Q
      unfold entryDefs at hB ⊢
      rw [hcount] at hB ⊢
      have hcon : Consistent (D ++ [(Q, .entry)]) :=
        consistent_snoc.2 ⟨hc, fun w hw => by rw [hon w hw]; rfl⟩
      have hfr : Fresh (Q ++ [.idx es0.length]) (D ++ [(Q, .entry)]) := by
        intro p
        rw [List.append_assoc]
        simp only [List.singleton_append]
        rw [snoc_below]
        have := hE (.idx es0.length :: p)
        simp only [info] at this
        rw [List.getElem?_eq_none (Nat.le_refl _)] at this
        exact infoOf_none.1 this.symm
      apply Good.cons
      refine Good.map (arrayTable_good a hcon hfr) fun e' hc2 he' => ?_
      rw [List.append_assoc] at hc2 he' ⊢
      refine RepT.put hr (by rw [hQ]; exact hB) ?_
      rw [hQ]
      have hB2 : Below (Q ++ [.idx es0.length])
          ((Q ++ [.idx es0.length], .entryTable) :: assignDefs a.assignments (Q ++ [.idx es0.length])) :=
        .cons List.prefix_rfl (assignDefs_below _ _)
      rw [← List.append_assoc] at he' ⊢
      refine RepN.push ?_ ?_ hB2 he'
      · intro s p
        rw [snoc_below, ← hE (s :: p)]
        cases s <;> rfl
      · rw [whats_append, whats_below hB2 not_below_self, List.append_nil, whats_append, whats_cons,
          if_pos rfl]
        have : whats D Q ++ [What.entry] = .entry :: ((whats D Q).tail ++ [.entry]) := by
          cases hw : whats D Q with
          | nil => rw [hw] at hhd; cases hhd
          | cons x xs => rw [hw] at hhd; simp at hhd; subst hhd; rfl
        simp only [whats_nil]
        rw [this]
        have hl : (whats D Q).tail.length + 1 = es0.length := by
          cases hw : whats D Q with
          | nil => rw [hw] at hhd; cases hhd
          | cons x xs => rw [hw] at hlen; simpa using hlen
        have hall' : ((e.reprs ++ [repr]).map reprCls).all headerCls = true := by
          rw [List.map_append, List.all_append, hall]
          simp [hcls, headerCls]
        rw [hall']
        simp only [infoOf, List.length_append, List.length_cons, List.length_nil, Nat.zero_add, hl]
    | table t =>
      simp only
      rw [hn] at hd
      obtain ⟨hcs, hne, hhd⟩ := infoOf_tab hd
      refine Good.err (fun a es h => lift_report_ne h) ?_
      obtain ⟨w, hw⟩ := exists_what hd
      exact not_consistent_snoc hw (by
        have := no_entry (whats_pairwise hc Q) hhd w hw
        cases w <;> simp_all [Compatible])
    | inline p0 r0 es0 =>
      simp only
      rw [hn] at hd
      obtain ⟨v, hv⟩ := infoOf_val (Or.inr ⟨_, hd⟩)
      refine Good.err (fun a es h => lift_report_ne h) ?_
      exact not_consistent_snoc hv (by simp [Compatible])
    | scalar s =>
      simp only
      rw [hn] at hd
      obtain ⟨v, hv⟩ := infoOf_val (Or.inl ⟨_, hd⟩)
      refine Good.err (fun a es h => lift_report_ne h) ?_
      exact not_consistent_snoc hv (by simp [Compatible])

theorem mode_superArray (t : ArrayEntry) (D : List Def) :
    Mode (.arrayEntry t) .superArray (entries D) D where
  way := Or.inr (Or.inr rfl)
  dotted := by simp [ReprKind.isAssignment]
  assign := fun h => by cases h
  header := fun _ _ => rfl
  cls := fun parent key hl => by simp [reprCls, hl, TomlMap.cls]

/-- An entry of an array of tables. -/
theorem insertArray_good (t : ArrayEntry) {D : List Def} {map : MapTable} {key : Key}
    (hc : Consistent D) (hr : RepT [] map D) :
    Good (RepT []) D
      ((wayDefs .superArray (entries D) [] (keyNames key)).1 ++
        entryDefs t.assignments (entries D) (wayDefs .superArray (entries D) [] (keyNames key)).2)
      (insertArrayEntryAtPath t map key) := by
  cases key with
  | one i =>
    exact leafOk_array t (kind := .arrayEntry t) (count := entries D) [] D [] map i _
      (mode_superArray t D) rfl hc hr
  | dotted ids =>
    cases ids with
    | nil =>
      intro a es h
      cases h
    | cons o rest =>
      have := walk_good (ids := o :: rest) (freshOk_array t) (leafOk_array t)
        (fun parent => by unfold reprCls; simp only; rw [isLast_last (by simp)]) (entryDefs_below t.assignments (entries D)) rest o 0
        [] ROOT_PARENT [] D map (by simp) (mode_superArray t D) hc hr
      have e : keyNames (.dotted (o :: rest)) = (o :: rest).map (·.ident.text) := by
        simp [keyNames, Key.idents]
      rw [e]
      exact this

/-! ## Documents -/

theorem defsFrom_assign (D : List Def) (P : Loc) (as : List ToplevelAssignment) (is : List Item) :
    defsFrom D (some P) (as.map assignmentItem ++ is) = defsFrom (D ++ assignDefs as P) (some P) is := by
  induction as generalizing D with
  | nil => simp [assignDefs]
  | cons a as ih =>
    simp only [List.map_cons, List.cons_append, defsFrom]
    rw [show (itemDefs D (some P) (assignmentItem a)) =
      (keyValDefs P (keyNames a.assignment.key) (valueOf a.assignment.val), some P) from rfl]
    simp only
    rw [ih]
    simp [assignDefs]

theorem defsFrom_none (D : List Def) (as : List ToplevelAssignment) (is : List Item) :
    defsFrom D none (as.map assignmentItem ++ is) = defsFrom D none is := by
  induction as generalizing D with
  | nil => rfl
  | cons a as ih =>
    simp only [List.map_cons, List.cons_append, defsFrom]
    rw [show (itemDefs D none (assignmentItem a)) = ([], none) from rfl]
    simp [ih]

theorem defsFrom_table (D : List Def) (sec : Option Loc) {k : List Str} (hk : k ≠ [])
    (as : List ToplevelAssignment) (is : List Item) :
    ∃ sec', defsFrom D sec (.table k :: (as.map assignmentItem ++ is)) =
      defsFrom (D ++ ((wayDefs .super (entries D) [] k).1 ++
        tableDefs as (wayDefs .super (entries D) [] k).2)) sec' is := by
  refine ⟨some (wayDefs .super (entries D) [] k).2, ?_⟩
  simp only [defsFrom]
  have : itemDefs D sec (.table k) = ((wayDefs .super (entries D) [] k).1 ++
      [((wayDefs .super (entries D) [] k).2, .header)], some (wayDefs .super (entries D) [] k).2) := by
    cases k with
    | nil => exact absurd rfl hk
    | cons x xs => rfl
  rw [this]
  simp only
  rw [defsFrom_assign]
  simp [tableDefs]

theorem defsFrom_array (D : List Def) (sec : Option Loc) {k : List Str} (hk : k ≠ [])
    (as : List ToplevelAssignment) (is : List Item) :
    ∃ sec', defsFrom D sec (.arrayTable k :: (as.map assignmentItem ++ is)) =
      defsFrom (D ++ ((wayDefs .superArray (entries D) [] k).1 ++
        entryDefs as (entries D) (wayDefs .superArray (entries D) [] k).2)) sec' is := by
  refine ⟨some ((wayDefs .superArray (entries D) [] k).2 ++
    [.idx (entries D (wayDefs .superArray (entries D) [] k).2)]), ?_⟩
  simp only [defsFrom]
  have : itemDefs D sec (.arrayTable k) = ((wayDefs .superArray (entries D) [] k).1 ++
      [((wayDefs .superArray (entries D) [] k).2, .entry),
        ((wayDefs .superArray (entries D) [] k).2 ++
          [.idx (entries D (wayDefs .superArray (entries D) [] k).2)], .entryTable)],
      some ((wayDefs .superArray (entries D) [] k).2 ++
          [.idx (entries D (wayDefs .superArray (entries D) [] k).2)])) := by
    cases k with
    | nil => exact absurd rfl hk
    | cons x xs => rfl
  rw [this]
  simp only
  rw [defsFrom_assign]
  simp [entryDefs]

theorem insertArray_key {t : ArrayEntry} {map : MapTable} {key : Key} {a : MapTable} {es : List Error}
    (h : insertArrayEntryAtPath t map key = some (a, es)) : keyNames key ≠ [] := by
  cases key with
  | one i => simp [keyNames, Key.idents]
  | dotted ids =>
    cases ids with
    | nil => cases h
    | cons o rest => simp [keyNames, Key.idents]

theorem consistent_defsFrom {D : List Def} {sec : Option Loc} {is : List Item}
    (h : Consistent (defsFrom D sec is)) : Consistent D := by
  induction is generalizing D sec with
  | nil => exact h
  | cons i is ih => exact consistent_left (ih h)

/-- All parts of the tree, where `sec` is not the root only if no assignment to the root follows. -/
theorem mapAsts_good (asts : List Ast) {D : List Def} {sec : Option Loc} {root t : MapTable}
    {es : List Error} (hsec : (∃ a, Ast.assignment a ∈ asts) → sec = some []) (hfirst : RootFirst asts)
    (hc : Consistent D) (hr : RepT [] root D) (h : mapAsts asts root = some (t, es)) :
    (es = [] ↔ Consistent (defsFrom D sec (asts.flatMap astItems))) ∧
      (Consistent (defsFrom D sec (asts.flatMap astItems)) →
        RepT [] t (defsFrom D sec (asts.flatMap astItems))) := by
  induction asts generalizing D sec root t es with
  | nil =>
    obtain ⟨rfl, rfl⟩ := pure_some.1 h
    exact ⟨⟨fun _ => hc, fun _ => rfl⟩, fun _ => hr⟩
  | cons x asts ih =>
    unfold mapAsts at h
    obtain ⟨root1, e1, e2, h1, h2, rfl⟩ := bind_some.1 h
    rw [List.flatMap_cons]
    have hfirst1 : RootFirst asts := by
      intro a y b e
      have := hfirst (x :: a) y b (by rw [e]; rfl)
      rw [List.flatMap_cons] at this
      unfold hasHeader at this ⊢
      rw [List.any_append, Bool.or_eq_false_iff] at this
      exact this.2
    -- one step with new definitions
    have key : ∀ (N : List Def) (sec' : Option Loc),
        ((∃ a, Ast.assignment a ∈ asts) → sec' = some []) →
        Good (RepT []) D N (mapAst root x) →
        (e1 ++ e2 = [] ↔ Consistent (defsFrom (D ++ N) sec' (asts.flatMap astItems))) ∧
          (Consistent (defsFrom (D ++ N) sec' (asts.flatMap astItems)) →
            RepT [] t (defsFrom (D ++ N) sec' (asts.flatMap astItems))) := by
      intro N sec' hs hg
      obtain ⟨i1, r1⟩ := hg root1 e1 h1
      by_cases hc1 : Consistent (D ++ N)
      · obtain ⟨i2, r2⟩ := ih hs hfirst1 hc1 (r1 hc1) h2
        rw [i1.2 hc1]
        exact ⟨by simpa using i2, r2⟩
      · have hn : ¬ Consistent (defsFrom (D ++ N) sec' (asts.flatMap astItems)) :=
          fun h => hc1 (consistent_defsFrom h)
        refine ⟨⟨fun h => absurd (i1.1 (List.append_eq_nil_iff.1 h).1) hc1, fun h => absurd h hn⟩,
          fun h => absurd h hn⟩
    -- behind a header there is no assignment to the root
    have hnone : hasHeader (astItems x) = true → ∀ sec' : Option Loc,
        ((∃ a, Ast.assignment a ∈ asts) → sec' = some []) := by
      rintro hh sec' ⟨a, ha⟩
      obtain ⟨p, q, rfl⟩ := List.append_of_mem ha
      have := hfirst (x :: p) a q rfl
      rw [List.flatMap_cons] at this
      unfold hasHeader at this hh
      rw [List.any_append, hh] at this
      cases this
    cases x with
    | assignment a =>
      have hs := hsec ⟨a, List.mem_cons_self⟩
      subst hs
      have e := defsFrom_assign D [] [a] (asts.flatMap astItems)
      simp only [List.map_cons, List.map_nil] at e
      rw [show astItems (.assignment a) = [assignmentItem a] from rfl, e]
      refine key _ _ (fun _ => rfl) ?_
      have := insertValue_good (P := []) (kind := .toplevelAssignment a) (path := []) (parent := ROOT_PARENT)
        (key := a.assignment.key) (mapValue_good a.assignment.val) rfl hc hr
      simpa [assignDefs, mapAst] using this
    | comment c =>
      have := key [] sec (fun ⟨a, ha⟩ => hsec ⟨a, List.mem_cons_of_mem _ ha⟩) (Good.pure hc hr)
      simpa [astItems] using this
    | table tb =>
      cases hk : tb.header.key with
      | none =>
        have e : astItems (.table tb) = .table [] :: tb.assignments.map assignmentItem := by
          simp [astItems, headerNames, hk]
        rw [e, List.cons_append, defsFrom]
        rw [show itemDefs D sec (.table []) = ([], none) from rfl]
        simp only
        rw [defsFrom_none]
        refine key [] none (hnone (by rw [e]; simp [hasHeader]) _) ?_
        unfold mapAst
        simp only [hk]
        exact Good.pure hc hr
      | some k =>
        have e : astItems (.table tb) = .table (keyNames k) :: tb.assignments.map assignmentItem := by
          simp [astItems, headerNames, hk]
        rw [e, List.cons_append]
        have h1' := h1
        unfold mapAst at h1'
        simp only [hk] at h1'
        obtain ⟨sec', e'⟩ := defsFrom_table D sec (insertValue_key h1') tb.assignments (asts.flatMap astItems)
        rw [e']
        refine key _ sec' (hnone (by rw [e]; simp [hasHeader]) _) ?_
        unfold mapAst
        simp only [hk]
        exact insertTable_good tb hc hr
    | array tb =>
      cases hk : tb.header.key with
      | none =>
        have e : astItems (.array tb) = .arrayTable [] :: tb.assignments.map assignmentItem := by
          simp [astItems, headerNames, hk]
        rw [e, List.cons_append, defsFrom]
        rw [show itemDefs D sec (.arrayTable []) = ([], none) from rfl]
        simp only
        rw [defsFrom_none]
        refine key [] none (hnone (by rw [e]; simp [hasHeader]) _) ?_
        unfold mapAst
        simp only [hk]
        exact Good.pure hc hr
      | some k =>
        have e : astItems (.array tb) = .arrayTable (keyNames k) :: tb.assignments.map assignmentItem := by
          simp [astItems, headerNames, hk]
        rw [e, List.cons_append]
        have h1' := h1
        unfold mapAst at h1'
        simp only [hk] at h1'
        obtain ⟨sec', e'⟩ := defsFrom_array D sec (insertArray_key h1') tb.assignments (asts.flatMap astItems)
        rw [e']
        refine key _ sec' (hnone (by rw [e]; simp [hasHeader]) _) ?_
        unfold mapAst
        simp only [hk]
        exact insertArray_good tb hc hr

/-- The map of a tree. -/
theorem map_good {asts : List Ast} {t : MapTable} {es : List Error} (hfirst : RootFirst asts)
    (h : map asts = some (t, es)) :
    (es = [] ↔ Consistent (docDefs (asts.flatMap astItems))) ∧
      (Consistent (docDefs (asts.flatMap astItems)) → RepT [] t (docDefs (asts.flatMap astItems))) :=
  mapAsts_good asts (fun _ => rfl) hfirst List.Pairwise.nil (RepT.fresh fun _ => rfl) h

end Verif.TomlMap
