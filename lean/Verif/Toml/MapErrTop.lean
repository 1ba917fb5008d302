import Verif.Toml.MapErrWalk

/-! # The diagnostics of the map: values and documents -/

namespace Verif.TomlMap
open Verif Verif.Toml Verif.Spec.Toml

variable {asts : List Ast}

/-- The diagnostics of two steps. -/
theorem Errs.seq {path : List Seg} {loc : Loc} {x : MapM MapTable} {f : MapTable → MapM MapTable}
    (hp : PathOk path) (hok : Ok (fun t => NodeOk asts (around path) (.table t)) x)
    (hx : Errs (fun t er => Blame asts path loc (.table t) er) x) (hg : ∀ t, GrT t (f t))
    (hf : ∀ t, NodeOk asts (around path) (.table t) → Errs (fun t er => Blame asts path loc (.table t) er) (f t)) :
    Errs (fun t er => Blame asts path loc (.table t) er) (x >>= f) := by
  intro t es h er her
  obtain ⟨t1, e1, e2, h1, h2, rfl⟩ := bind_some.1 h
  have hn := hok.of h1
  rcases List.mem_append.1 her with her | her
  · exact (hx t1 e1 h1 er her).grow hp hn (Or.inl ⟨t1, rfl⟩) (.refl _) (hg t1 t e2 h2)
  · exact hf t1 hn t e2 h2 er her

mutual

theorem mapValue_errs (v v0 : Value) (kind : ReprKind) (hk : kindVal kind = some v0) (hv : ValOk v)
    (hsub : ∀ x, HasAssignment v x → HasAssignment v0 x) : ValueE asts (mapValue v) kind := by
  intro path loc parent rs p hp hne hn har hpar hl hpk
  cases v with
  | string s => exact Errs.pure _
  | int l s n => exact Errs.pure _
  | float l s f => exact Errs.pure _
  | bool s b => exact Errs.pure _
  | dateTime l s d => exact Errs.pure _
  | invalid l s => exact Errs.pure _
  | inlineTable t =>
    obtain ⟨lp, as, stop⟩ := t
    unfold mapValue
    intro n es h er her
    obtain ⟨t, h1, rfl⟩ := bind_pure_some.1 h
    exact mapAssignments_errs as v0 kind hk hv (fun x hx => hsub x (.here hx)) path loc parent rs p []
      hp hne hn har hpar hl hpk (nodeOk_empty _) t es h1 er her
  | inlineArray t =>
    obtain ⟨c, lp, vs, stop⟩ := t
    unfold mapValue
    intro n es h er her
    obtain ⟨ns, h1, rfl⟩ := bind_pure_some.1 h
    obtain ⟨j, x, hx, hb⟩ := mapElements_errs vs v0 kind hk hv
      (fun y hy x hx => hsub x (.elem hy hx)) 0 path loc parent rs p hp hne hn har hpar hl hpk ns es h1 er her
    rw [Nat.zero_add] at hb
    exact Blame.inline hx hb

theorem mapElements_errs (vs : List InlineArrayValue) (v0 : Value) (kind : ReprKind)
    (hk : kindVal kind = some v0) (hv : ValsOk vs)
    (hsub : ∀ y ∈ vs, ∀ x, HasAssignment y.val x → HasAssignment v0 x) (i : Nat) (path : List Seg) (loc : Loc)
    (parent : Nat) (rs : List Repr) (p : Repr) (hp : PathOk path) (hne : path ≠ []) (hn : Names path loc)
    (har : around path = some rs) (hpar : rs[parent]? = some p) (hl : IsLast p) (hpk : p.kind = kind) :
    Errs (fun (es : List InlineEntry) er => ∃ j x, es[j]? = some x ∧
        Blame asts (.array (i + j) :: path) (loc ++ [.idx (i + j)]) x.node er)
      (mapElements vs i path parent) := by
  cases vs with
  | nil => exact Errs.pure _
  | cons x vs =>
    obtain ⟨c, v, m⟩ := x
    unfold mapElements
    intro ns es h er her
    obtain ⟨n, e1, e2, h1, h2, rfl⟩ := bind_some.1 h
    obtain ⟨ns', h3, rfl⟩ := bind_pure_some.1 h2
    rcases List.mem_append.1 her with her | her
    · exact ⟨0, _, rfl, mapValue_errs v v0 kind hk hv.1 (hsub ⟨c, v, m⟩ List.mem_cons_self) (.array i :: path)
        (loc ++ [.idx i]) parent rs p ⟨hne, hp⟩ (by simp) (.array hne hn) har hpar hl hpk n e1 h1 er her⟩
    · obtain ⟨j, y, hy, hb⟩ := mapElements_errs vs v0 kind hk hv.2 (fun y hy => hsub y (List.mem_cons_of_mem _ hy))
        (i + 1) path loc parent rs p hp hne hn har hpar hl hpk ns' e2 h3 er her
      refine ⟨j + 1, y, hy, ?_⟩
      have e : i + 1 + j = i + (j + 1) := by omega
      rw [e] at hb
      exact hb

theorem mapAssignments_errs (as : List InlineTableAssignment) (v0 : Value) (kind : ReprKind)
    (hk : kindVal kind = some v0) (hv : PairsOk as) (hsub : ∀ x ∈ as, HasAssignment v0 x)
    (path : List Seg) (loc : Loc) (parent : Nat) (rs : List Repr) (p : Repr) (t : MapTable) (hp : PathOk path)
    (hne : path ≠ []) (hn : Names path loc) (har : around path = some rs) (hpar : rs[parent]? = some p) (hl : IsLast p)
    (hpk : p.kind = kind) (ht : NodeOk asts (some rs) (.table t)) :
    Errs (fun t er => Blame asts path loc (.table t) er) (mapAssignments as path parent t) := by
  cases as with
  | nil => exact Errs.pure _
  | cons x as =>
    obtain ⟨⟨k, q, v⟩, m⟩ := x
    unfold mapAssignments
    have hin : Contains p.kind (.inlineTableAssignment ⟨⟨k, q, v⟩, m⟩) := by
      rw [hpk]
      exact contains_val hk (hsub _ List.mem_cons_self)
    have hval : InsertT asts (.value fun path parent => mapValue v path parent)
        (.inlineTableAssignment ⟨⟨k, q, v⟩, m⟩) :=
      ⟨v, mapValue_ok v v (.inlineTableAssignment ⟨⟨k, q, v⟩, m⟩) rfl hv.2.1 (fun _ h => h), rfl⟩
    have hvalE : InsertE asts (.value fun path parent => mapValue v path parent)
        (.inlineTableAssignment ⟨⟨k, q, v⟩, m⟩) :=
      ⟨mapValue_errs v v (.inlineTableAssignment ⟨⟨k, q, v⟩, m⟩) rfl hv.2.1 (fun _ h => h), rfl⟩
    have hfirst : ∀ kr, IsFirst ⟨parent, kr, .inlineTableAssignment ⟨⟨k, q, v⟩, m⟩⟩ →
        ParentOk asts (around path) ⟨parent, kr, .inlineTableAssignment ⟨⟨k, q, v⟩, m⟩⟩ :=
      fun kr hf => by rw [har]; exact belongs_first hl hpar hin kr hf
    refine Errs.seq hp
      (insertNodeAtPath_ok (kind := .inlineTableAssignment ⟨⟨k, q, v⟩, m⟩) hval rfl hv.1 hp hfirst (by rw [har]; exact ht))
      (insertNodeAtPath_errs (kind := .inlineTableAssignment ⟨⟨k, q, v⟩, m⟩) hvalE rfl hv.1 hp hn hfirst
        (by rw [har]; exact ht))
      (fun t => mapAssignments_gr as path parent t) fun t' ht' => ?_
    rw [har] at ht'
    exact mapAssignments_errs as v0 kind hk hv.2.2 (fun x hx => hsub x (List.mem_cons_of_mem _ hx)) path loc parent
      rs p t' hp hne hn har hpar hl hpk ht'

end

/-! ## Assignments -/

theorem insertTop_errs (kind : ReprKind) (as : List ToplevelAssignment) (hv : ∀ a ∈ as, AssignOk a)
    (hin : ∀ a ∈ as, Contains kind (.toplevelAssignment a)) :
    AssignsE asts (insertTopLevelAssignments as) kind := by
  intro path loc parent rs p t hp hne hn har hpar hl hpk ht
  induction as generalizing t with
  | nil => exact Errs.pure _
  | cons a as ih =>
    unfold insertTopLevelAssignments
    have hval : InsertT asts (.value (mapValue a.assignment.val)) (.toplevelAssignment a) :=
      ⟨_, mapValue_ok _ _ (.toplevelAssignment a) rfl (hv a List.mem_cons_self).2 (fun _ h => h), rfl⟩
    have hvalE : InsertE asts (.value (mapValue a.assignment.val)) (.toplevelAssignment a) :=
      ⟨mapValue_errs _ _ (.toplevelAssignment a) rfl (hv a List.mem_cons_self).2 (fun _ h => h), rfl⟩
    have hin' : Contains p.kind (.toplevelAssignment a) := by
      rw [hpk]
      exact hin a List.mem_cons_self
    have hfirst : ∀ kr, IsFirst ⟨parent, kr, .toplevelAssignment a⟩ →
        ParentOk asts (around path) ⟨parent, kr, .toplevelAssignment a⟩ :=
      fun kr hf => by rw [har]; exact belongs_first hl hpar hin' kr hf
    refine Errs.seq hp
      (insertNodeAtPath_ok (kind := .toplevelAssignment a) hval rfl (hv a List.mem_cons_self).1 hp hfirst
        (by rw [har]; exact ht))
      (insertNodeAtPath_errs (kind := .toplevelAssignment a) hvalE rfl (hv a List.mem_cons_self).1 hp hn hfirst
        (by rw [har]; exact ht))
      (fun t => insertTop_gr as path parent t) fun t' ht' => ?_
    rw [har] at ht'
    exact ih (fun x hx => hv x (List.mem_cons_of_mem _ hx)) (fun x hx => hin x (List.mem_cons_of_mem _ hx))
      t' ht'

theorem arrayTable_errs (a : ArrayEntry) (hv : ∀ x ∈ a.assignments, AssignOk x) {path : List Seg} {loc : Loc}
    {parent : Nat} {rs : List Repr} {p : Repr} (hp : PathOk path) (hne : path ≠ []) (hn : Names path loc)
    (har : around path = some rs) (hpar : rs[parent]? = some p) (hl : IsLast p)
    (hpk : p.kind = .arrayEntry a) :
    Errs (fun (e : ArrayTable) er => Blame asts path loc (.table e.node) er) (arrayTable a path parent) := by
  unfold arrayTable
  intro e es h er her
  obtain ⟨t, h1, rfl⟩ := bind_pure_some.1 h
  exact insertTop_errs (asts := asts) (.arrayEntry a) a.assignments hv (fun x hx => hx) path loc parent rs p [] hp hne hn
    har hpar hl hpk (nodeOk_empty _) t es h1 er her

theorem freshArray_errs (a : ArrayEntry) (hv : ∀ x ∈ a.assignments, AssignOk x) :
    FreshE asts (freshArray a) (.arrayEntry a) := by
  intro path loc k repr hp hn hr hl hk
  have hall : ∀ x ∈ [repr], ReprOk asts (around path) k x := by
    intro x hx
    rw [List.mem_singleton.1 hx]
    exact hr
  have hp' : PathOk (.array 0 :: .table [repr] :: path) := ⟨by simp, hp.table (by simp) hall⟩
  have hn' : Names (.array 0 :: .table [repr] :: path) (loc ++ [.key k] ++ [.idx 0]) :=
    .array (by simp) (names_table hn (by simp) hall)
  unfold freshArray
  intro e es h er her
  obtain ⟨x, h1, rfl⟩ := bind_pure_some.1 h
  exact Blame.toplevel (i := 0) (x := x) rfl
    (arrayTable_errs (asts := asts) a hv hp' (by simp) hn' rfl rfl hl hk x es h1 er her)

theorem insertArrayEntry_errs (a : ArrayEntry) (hv : ∀ x ∈ a.assignments, AssignOk x) :
    LeafE asts (insertArrayEntry a) (.arrayEntry a) := by
  intro path loc map i repr hp hn hm hr hl hk
  unfold insertArrayEntry
  cases hg : get map i.text with
  | none =>
    simp only
    intro t es h er her
    obtain ⟨e, h4, rfl⟩ := bind_pure_some.1 h
    exact Blame.key (e := e) (get_put_same _ _ _)
      (freshArray_errs a hv path loc i.text repr hp hn hr hl hk e es h4 er her)
  | some e =>
    simp only
    obtain ⟨g1, g2, g3, g4⟩ := hm.entry hg
    have herr : (∃ t, e.node = .table t) ∨ (∃ s, e.node = .scalar s) →
        Errs (fun t er => Blame asts path loc (.table t) er)
        (lift e.reprs.head? >>= fun orig => lift (duplicateKeyError path orig repr) >>= fun er =>
          report er >>= fun _ => (pure map : MapM MapTable)) := by
      intro hd t es h er her
      obtain ⟨o, ho, h⟩ := lift_bind_some.1 h
      obtain ⟨er', he, h⟩ := lift_bind_some.1 h
      obtain ⟨es', h5, rfl⟩ := report_bind_some.1 h
      obtain ⟨rfl, rfl⟩ := pure_some.1 h5
      obtain rfl := List.mem_singleton.1 her
      obtain ⟨ls, i', j, k1, k2, k3, rfl⟩ := duplicateKeyError_names hn hr.1 he
      exact Blame.here hg (List.mem_of_head? ho) hr
        (.duplicateKey k1 k2 k3 (Or.inr ⟨hl, Or.inr (Or.inr ⟨⟨a, hk⟩, hd⟩)⟩))
    cases hnode : e.node with
    | toplevel es =>
      simp only
      have hall : ∀ x ∈ e.reprs ++ [repr], ReprOk asts (around path) i.text x := by
        intro x hx
        rcases List.mem_append.1 hx with hx | hx
        · exact g2 x hx
        · rw [List.mem_singleton.1 hx]; exact hr
      have hp' : PathOk (.array es.length :: .table (e.reprs ++ [repr]) :: path) :=
        ⟨by simp, hp.table (by simp) hall⟩
      have hn' : Names (.array es.length :: .table (e.reprs ++ [repr]) :: path)
          (loc ++ [.key i.text] ++ [.idx es.length]) :=
        .array (by simp) (names_table hn (by simp) hall)
      have hidx : (e.reprs ++ [repr])[e.reprs.length]? = some repr := by simp
      intro t es' h er her
      obtain ⟨x, h4, rfl⟩ := bind_pure_some.1 h
      refine Blame.key (e := ⟨.toplevel (es ++ [x]), e.reprs ++ [repr]⟩) (get_put_same _ _ _)
        (Blame.toplevel (i := es.length) (x := x) (by simp) ?_)
      exact arrayTable_errs (asts := asts) a hv hp' (by simp) hn' rfl hidx hl hk x es' h4 er her
    | table t => exact herr (Or.inl ⟨t, hnode⟩)
    | inline p b es =>
      simp only
      intro t es' h er her
      obtain ⟨o, ho, h⟩ := lift_bind_some.1 h
      obtain ⟨er', he, h⟩ := lift_bind_some.1 h
      obtain ⟨es', h5, rfl⟩ := report_bind_some.1 h
      obtain ⟨rfl, rfl⟩ := pure_some.1 h5
      obtain rfl := List.mem_singleton.1 her
      obtain ⟨ls, s, j, k1, k2, k3, rfl⟩ := extendError_names hn hr.1 he
      exact Blame.here hg (List.mem_of_head? ho) hr (.inlineArray k1 k2 k3 ho hl ⟨a, hk⟩ ⟨p, b, es, hnode⟩)
    | scalar s => exact herr (Or.inr ⟨s, hnode⟩)

/-! ## Documents -/

theorem mapAst_errs {root : MapTable} (hm : MapOk asts root) {x : Ast} (hx : x ∈ asts) (hok : AstOk x) :
    Errs (fun t er => Blame asts [] [] (.table t) er) (mapAst root x) := by
  cases x with
  | assignment a =>
    exact insertNodeAtPath_errs (path := []) (kind := .toplevelAssignment a) (v := .value _)
      ⟨mapValue_errs _ _ (.toplevelAssignment a) rfl hok.2 (fun _ h => h), rfl⟩ rfl hok.1 trivial .nil
      (fun kr hf => ⟨rfl, hf, hx⟩) hm
  | comment c => exact Errs.pure _
  | table t =>
    unfold mapAst
    simp only
    cases hk : t.header.key with
    | none => exact Errs.pure _
    | some key =>
      exact insertNodeAtPath_errs (path := []) (kind := .table t) (v := .tableAssignments _)
        ⟨insertTop_errs (.table t) t.assignments hok.2 (fun _ h => h), t, rfl⟩ hk (hok.1 key hk) trivial .nil
        (fun kr hf => ⟨rfl, hf, hx⟩) hm
  | array t =>
    unfold mapAst
    simp only
    cases hk : t.header.key with
    | none => exact Errs.pure _
    | some key =>
      simp only
      cases key with
      | one i =>
        exact insertArrayEntry_errs t hok.2 [] [] root i _ trivial .nil hm ⟨⟨hk, rfl⟩, rfl, trivial, hx⟩ trivial rfl
      | dotted ids =>
        cases ids with
        | nil => exact absurd rfl (hok.1 _ hk)
        | cons o rest =>
          exact walk_errs (kind := .arrayEntry t) hk (freshArray_errs t hok.2) (insertArrayEntry_errs t hok.2) rest o
            0 [] [] ROOT_PARENT root rfl trivial .nil ⟨rfl, rfl, hx⟩ hm

theorem mapAsts_errs (l : List Ast) (hl : ∀ x ∈ l, x ∈ asts ∧ AstOk x) {root : MapTable}
    (hm : MapOk asts root) : Errs (fun t er => Blame asts [] [] (.table t) er) (mapAsts l root) := by
  induction l generalizing root with
  | nil => exact Errs.pure _
  | cons x l ih =>
    unfold mapAsts
    have := hl x List.mem_cons_self
    exact Errs.seq trivial (mapAst_ok hm this.1 this.2) (mapAst_errs hm this.1 this.2) (fun t => mapAsts_gr l t)
      fun r hr => ih (fun y hy => hl y (List.mem_cons_of_mem _ hy)) hr

/-- Each diagnostic of the map of a tree is about a collision in it. -/
theorem map_errs (asts : List Ast) (h : ∀ x ∈ asts, AstOk x) : Errs (MapError asts) (map asts) := by
  intro t es hm er her
  obtain ⟨p, k, segs, e, o, r, h1, h2, h3, h4⟩ :=
    mapAsts_errs asts (fun x hx => ⟨hx, h x hx⟩) (nodeOk_empty _) t es hm er her
  exact ⟨p, k, segs, e, o, r, h1, h2, h3.1, h3.2, by simpa using h4⟩

end Verif.TomlMap
