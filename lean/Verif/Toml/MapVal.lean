import Verif.Toml.MapWalk

/-! # The map represents the definitions of the document: values and assignments -/

namespace Verif.TomlMap
open Verif Verif.Toml Verif.Spec.Toml

/-! ## Locations of values -/

theorem valDefs_head (v : TVal) (P : Loc) : ∃ N, valDefs v P = (P, .value v) :: N := by
  cases v <;> exact ⟨_, rfl⟩

theorem dottedDefs_below {P : Loc} {ks : List Str} (h : ks ≠ []) :
    ∃ k, Below (P ++ [.key k]) (dottedDefs P ks).1 ∧ P ++ [.key k] <+: (dottedDefs P ks).2 := by
  cases ks with
  | nil => exact absurd rfl h
  | cons k ks => exact ⟨k, wayDefs_below _ _ ks k P⟩

theorem wayDefs_at (w : What) (count : Loc → Nat) (ks : List Str) (P : Loc) :
    Below P (wayDefs w count P ks).1 ∧ P <+: (wayDefs w count P ks).2 := by
  cases ks with
  | nil => exact ⟨Below.nil _, List.prefix_rfl⟩
  | cons k ks =>
    obtain ⟨h1, h2⟩ := wayDefs_below w count ks k P
    exact ⟨h1.mono (List.prefix_append _ _), (List.prefix_append _ _).trans h2⟩

mutual

theorem valDefs_below (v : TVal) (P : Loc) : Below P (valDefs v P) := by
  cases v with
  | array vs => exact .cons List.prefix_rfl (elemDefs_below vs 0 P)
  | table kvs => exact .cons List.prefix_rfl (pairDefs_below kvs P)
  | _ => exact .cons List.prefix_rfl (Below.nil _)

theorem elemDefs_below (vs : List TVal) (i : Nat) (P : Loc) : Below P (elemDefs vs i P) := by
  cases vs with
  | nil => exact Below.nil _
  | cons v vs =>
    exact ((valDefs_below v _).mono (List.prefix_append _ _)).append (elemDefs_below vs (i + 1) P)

theorem pairDefs_below (kvs : List (List Str × TVal)) (P : Loc) : Below P (pairDefs kvs P) := by
  cases kvs with
  | nil => exact Below.nil _
  | cons kv kvs =>
    obtain ⟨k, v⟩ := kv
    obtain ⟨h1, h2⟩ := wayDefs_at .dotted (fun _ => 0) k P
    exact (h1.append ((valDefs_below v _).mono h2)).append (pairDefs_below kvs P)

end

theorem elemDefs_at (vs : List TVal) (i : Nat) (P : Loc) :
    ∀ d ∈ elemDefs vs i P, ∃ j, i ≤ j ∧ P ++ [.idx j] <+: d.1 := by
  induction vs generalizing i with
  | nil => simp [elemDefs]
  | cons v vs ih =>
    intro d hd
    rcases List.mem_append.1 (show d ∈ valDefs v (P ++ [.idx i]) ++ elemDefs vs (i + 1) P from hd) with h | h
    · exact ⟨i, Nat.le_refl _, valDefs_below v _ d h⟩
    · obtain ⟨j, hj, hp⟩ := ih (i + 1) d h
      exact ⟨j, by omega, hp⟩

/-- No new definition at elements in front. -/
theorem elemDefs_other {vs : List TVal} {i : Nat} {P : Loc} {s : PStep} {p : Loc}
    (h : ∀ j, i ≤ j → s ≠ .idx j) : whats (elemDefs vs i P) (P ++ s :: p) = [] := by
  rw [List.eq_nil_iff_forall_not_mem]
  intro w hw
  obtain ⟨j, hj, hp⟩ := elemDefs_at vs i P _ (mem_whats.1 hw)
  have : P ++ .idx j :: [] <+: P ++ s :: p := hp
  exact idx_ne_below (h j hj) this

theorem elemDefs_self {vs : List TVal} {i : Nat} {P : Loc} : whats (elemDefs vs i P) P = [] := by
  rw [List.eq_nil_iff_forall_not_mem]
  intro w hw
  obtain ⟨j, hj, hp⟩ := elemDefs_at vs i P _ (mem_whats.1 hw)
  exact not_below_self hp

theorem keyValDefs_self {P : Loc} {k : List Str} {v : TVal} (h : k ≠ []) :
    whats (keyValDefs P k v) P = [] := by
  obtain ⟨x, h1, h2⟩ := dottedDefs_below (P := P) h
  exact whats_below (h1.append ((valDefs_below v _).mono h2)) not_below_self

theorem pairDefs_self {kvs : List (List Str × TVal)} {P : Loc} (h : ∀ x ∈ kvs, x.1 ≠ []) :
    whats (pairDefs kvs P) P = [] := by
  induction kvs with
  | nil => rfl
  | cons kv kvs ih =>
    obtain ⟨k, v⟩ := kv
    have : pairDefs ((k, v) :: kvs) P = keyValDefs P k v ++ pairDefs kvs P := by
      simp [pairDefs, keyValDefs]
    rw [this, whats_append, keyValDefs_self (h _ List.mem_cons_self),
      ih fun x hx => h x (List.mem_cons_of_mem _ hx)]
    rfl

/-! ## Inserting a value -/

/-- The value is mapped to its definitions. -/
def GoodV (v : TVal) (f : List Seg → Nat → MapM MapNode) : Prop :=
  ∀ P D path parent, Consistent D → Fresh P D → Good (RepN P [.value]) D (valDefs v P) (f path parent)

/-- The way of an assignment. -/
theorem mode_dotted {kind : ReprKind} (hk : kind.isAssignment = true) (D : List Def) :
    Mode kind .dotted (fun _ => 0) D where
  way := Or.inl rfl
  dotted := by simp [hk]
  assign := fun _ _ => rfl
  header := fun h => by rw [hk] at h; cases h
  cls := fun parent key hl => by
    cases kind <;> simp_all [reprCls, ReprKind.isAssignment, cls]

theorem reprCls_value {r : Repr} (hk : r.kind.isAssignment = true) (hl : r.key.isLast = true) :
    reprCls r = .value := by
  obtain ⟨p, k, kind⟩ := r
  cases kind <;> simp_all [reprCls, ReprKind.isAssignment]

theorem freshOk_value {v : TVal} {f : List Seg → Nat → MapM MapNode} (hv : GoodV v f) {kind : ReprKind}
    {count : Loc → Nat} :
    FreshOk (fun path => freshNode path (.value f)) kind .dotted count (valDefs v) .value := by
  intro P D path repr hm hcls hc hf
  refine Good.map (hv P D _ 0 hc hf) fun n hc2 hn => ?_
  show RepN P ([repr].map reprCls) n _
  simpa [hcls] using hn

/-- An occupied entry is defined. -/
theorem RepT.defined {P : Loc} {t : MapTable} {D : List Def} (h : RepT P t D) {k : Str} {e : Entry}
    (he : get t k = some e) :
    infoOf (whats D (P ++ [.key k])) = some (nodeInfo (e.reprs.map reprCls) e.node) := by
  have := h.entry he []
  simp only [List.append_nil, info] at this
  exact this.symm

theorem report_ne {er : Error} {m a : MapTable} {es : List Error}
    (h : (report er >>= fun _ => (pure m : MapM MapTable)) = some (a, es)) : es ≠ [] := by
  obtain ⟨es', _, rfl⟩ := report_bind_some.1 h
  simp

/-- An error about the original. -/
theorem lift_report_ne {α : Type} {o : Option α} {g : α → Option Error} {m a : MapTable}
    {es : List Error}
    (h : (lift o >>= fun x => lift (g x) >>= fun er => report er >>= fun _ => (pure m : MapM MapTable))
      = some (a, es)) : es ≠ [] := by
  obtain ⟨x, _, h⟩ := lift_bind_some.1 h
  obtain ⟨er, _, h⟩ := lift_bind_some.1 h
  exact report_ne h

theorem exists_what {ws : List What} {i : Info} (h : infoOf ws = some i) : ∃ w, w ∈ ws := by
  cases ws with
  | nil => cases h
  | cons w ws => exact ⟨w, List.mem_cons_self⟩

theorem leafOk_value {v : TVal} {f : List Seg → Nat → MapM MapNode} (hv : GoodV v f) {kind : ReprKind}
    {count : Loc → Nat} :
    LeafOk (fun path map i => insertNode path map i (.value f)) kind .dotted count (valDefs v) .value := by
  intro P D path map i repr hm hcls hc hr
  show Good _ _ _ (insertNode path map i (.value f) repr)
  unfold insertNode
  cases hg : get map i.text with
  | none =>
    simp only
    have := freshOk_value hv (kind := kind) (count := count) (P ++ [.key i.text]) D path repr hm hcls hc
      (hr.vacant hg)
    exact Good.map this fun e hc2 he => hr.put (valDefs_below v _) he
  | some e =>
    simp only
    refine Good.err (fun a es h => lift_report_ne h) ?_
    obtain ⟨N, hN⟩ := valDefs_head v (P ++ [.key i.text])
    rw [hN]
    obtain ⟨w, hw⟩ := exists_what (hr.defined hg)
    exact not_consistent_snoc hw (by cases w <;> exact id)

/-- `insert_node_at_path` with a value. -/
theorem insertValue_good {v : TVal} {f : List Seg → Nat → MapM MapNode} (hv : GoodV v f)
    {kind : ReprKind} (hk : kind.isAssignment = true) {P : Loc} {D : List Def} {path : List Seg}
    {parent : Nat} {map : MapTable} {key : Key} (hc : Consistent D) (hr : RepT P map D) :
    Good (RepT P) D (keyValDefs P (keyNames key) v)
      (insertNodeAtPath path parent map key (.value f) kind) := by
  cases key with
  | one i =>
    exact leafOk_value hv (kind := kind) (count := fun _ => 0) P D path map i _ (mode_dotted hk D)
      (reprCls_value hk rfl) hc hr
  | dotted ids =>
    cases ids with
    | nil =>
      intro a es h
      cases h
    | cons o rest =>
      have := walk_good (ids := o :: rest) (freshOk_value hv) (leafOk_value hv)
        (fun parent => reprCls_value hk (isLast_last (by simp))) (valDefs_below v) rest o 0 path parent P D
        map (by simp) (mode_dotted hk D) hc hr
      have e : keyNames (.dotted (o :: rest)) = (o :: rest).map (·.ident.text) := by
        simp [keyNames, Key.idents]
      rw [e]
      exact this

theorem insertValue_key {path : List Seg} {parent : Nat} {map : MapTable} {key : Key}
    {value : InsertValue} {kind : ReprKind} {a : MapTable} {es : List Error}
    (h : insertNodeAtPath path parent map key value kind = some (a, es)) : keyNames key ≠ [] := by
  cases key with
  | one i => simp [keyNames, Key.idents]
  | dotted ids =>
    cases ids with
    | nil => cases h
    | cons o rest => simp [keyNames, Key.idents]

theorem mapAssignments_keys {as : List InlineTableAssignment} {path : List Seg} {parent : Nat}
    {map a : MapTable} {es : List Error} (h : mapAssignments as path parent map = some (a, es)) :
    ∀ x ∈ pairsOf as, x.1 ≠ [] := by
  induction as generalizing map a es with
  | nil => simp [pairsOf]
  | cons x as ih =>
    obtain ⟨⟨k, q, v⟩, m⟩ := x
    unfold mapAssignments at h
    obtain ⟨map', e1, e2, h1, h2, rfl⟩ := bind_some.1 h
    intro y hy
    rcases List.mem_cons.1 (show y ∈ (keyNames k, valueOf v) :: pairsOf as from hy) with rfl | hy
    · exact insertValue_key h1
    · exact ih h2 y hy

/-! ## Values -/

/-- The elements represent the definitions of the array from the index `i` on. -/
def RepEs (n : Nat) (P : Loc) (i : Nat) (es : List InlineEntry) (D : List Def) : Prop :=
  es.length = n ∧ ∀ j p, (es[j]?.bind fun e => info [.value] e.node p) =
    infoOf (whats D (P ++ .idx (i + j) :: p))

theorem valuesOf_length (vs : List InlineArrayValue) : (valuesOf vs).length = vs.length := by
  induction vs with
  | nil => rfl
  | cons x vs ih => obtain ⟨c, v, m⟩ := x; simp [valuesOf, ih]

theorem scalar_good {s : Scalar} {v : TVal} (h1 : scalarVal s = v)
    (h2 : ∀ ws, infoOf (.value v :: ws) = some (.val v)) {P : Loc} {D : List Def} (hc : Consistent D)
    (hf : Fresh P D) : Good (RepN P [.value]) D [(P, .value v)] (pure (.scalar s)) := by
  apply Good.cons
  apply Good.pure (consistent_fresh hc hf.at)
  intro p
  cases p with
  | nil => rw [List.append_nil, whats_append, hf.at, whats_cons, if_pos rfl]; simp [info, nodeInfo, h1, h2]
  | cons s p =>
    have := fresh_snoc (w := .value v) hf s p
    rw [List.append_assoc] at this
    rw [show P ++ s :: p = P ++ ([s] ++ p) from rfl, this]
    cases s <;> rfl

mutual

theorem mapValue_good (v : Value) : GoodV (valueOf v) (mapValue v) := by
  intro P D path parent hc hf
  cases v with
  | string s => exact scalar_good rfl (fun _ => rfl) hc hf
  | int l s n => exact scalar_good rfl (fun _ => rfl) hc hf
  | float l s f => exact scalar_good rfl (fun _ => rfl) hc hf
  | bool s b => exact scalar_good rfl (fun _ => rfl) hc hf
  | dateTime l s d => exact scalar_good rfl (fun _ => rfl) hc hf
  | invalid l s => exact scalar_good rfl (fun _ => rfl) hc hf
  | inlineTable t =>
    obtain ⟨lp, as, stop⟩ := t
    unfold mapValue
    simp only [valueOf, valDefs]
    apply Good.cons
    have hc1 := consistent_fresh (w := .value (.table (pairsOf as))) hc hf.at
    have hr := repT_fresh_snoc (w := .value (.table (pairsOf as))) hf
    have := mapAssignments_good as P _ path parent [] hc1 hr
    intro a es h
    obtain ⟨t, h1, rfl⟩ := bind_pure_some.1 h
    obtain ⟨i1, r1⟩ := this t es h1
    refine ⟨i1, fun hc2 => (r1 hc2).toN ?_⟩
    rw [whats_append, whats_append, hf.at, whats_cons, if_pos rfl, pairDefs_self (mapAssignments_keys h1)]
    rfl
  | inlineArray t =>
    obtain ⟨c, lp, vs, stop⟩ := t
    unfold mapValue
    simp only [valueOf, valDefs]
    apply Good.cons
    have hc1 := consistent_fresh (w := .value (.array (valuesOf vs))) hc hf.at
    have := mapElements_good vs 0 P _ path parent hc1
      (fun j _ => fresh_snoc (w := .value (.array (valuesOf vs))) hf (.idx j))
    refine Good.map this fun es hc2 hes => ?_
    intro p
    cases p with
    | nil =>
      rw [List.append_nil, whats_append, whats_append, hf.at, whats_cons, if_pos rfl, elemDefs_self]
      simp [info, nodeInfo, hes.1, infoOf, valuesOf_length]
    | cons s p =>
      cases s with
      | key k =>
        have h1 := fresh_snoc (w := .value (.array (valuesOf vs))) hf (.key k) p
        rw [List.append_assoc] at h1
        rw [whats_append, elemDefs_other (by simp), List.append_nil,
          show P ++ .key k :: p = P ++ ([.key k] ++ p) from rfl, h1]
        rfl
      | idx j =>
        have := hes.2 j p
        simp only [Nat.zero_add] at this
        rw [← this]
        rfl

theorem mapElements_good (vs : List InlineArrayValue) (i : Nat) (P : Loc) (D : List Def)
    (path : List Seg) (parent : Nat) (hc : Consistent D) (hf : ∀ j, i ≤ j → Fresh (P ++ [.idx j]) D) :
    Good (RepEs vs.length P i) D (elemDefs (valuesOf vs) i P) (mapElements vs i path parent) := by
  cases vs with
  | nil =>
    apply Good.pure hc
    refine ⟨rfl, fun j p => ?_⟩
    have := hf (i + j) (by omega) p
    rw [List.append_assoc] at this
    rw [show P ++ .idx (i + j) :: p = P ++ ([.idx (i + j)] ++ p) from rfl, this]
    rfl
  | cons x vs =>
    obtain ⟨c, v, m⟩ := x
    unfold mapElements
    simp only [valuesOf, elemDefs]
    refine Good.bind (mapValue_good v (P ++ [.idx i]) D _ parent hc (hf i (Nat.le_refl _))) ?_
    intro n hc1 hn
    have hf1 : ∀ j, i + 1 ≤ j → Fresh (P ++ [.idx j]) (D ++ valDefs (valueOf v) (P ++ [.idx i])) := by
      intro j hj p
      rw [whats_append, hf j (by omega) p, whats_below (valDefs_below _ _)]
      · rfl
      · have hne : (PStep.idx j) ≠ .idx i := by
          intro e
          injection e with e
          omega
        intro h
        rw [List.append_assoc] at h
        exact idx_ne_below hne h
    refine Good.map (mapElements_good vs (i + 1) P _ path parent hc1 hf1) fun es hc2 hes => ?_
    refine ⟨by simp [hes.1], fun j p => ?_⟩
    cases j with
    | zero =>
      rw [whats_append, elemDefs_other, List.append_nil]
      · have := hn p
        rw [List.append_assoc] at this
        exact this
      · intro j hj e
        injection e with e
        omega
    | succ j =>
      have := hes.2 j p
      rw [show i + (j + 1) = i + 1 + j by omega]
      exact this

theorem mapAssignments_good (as : List InlineTableAssignment) (P : Loc) (D : List Def) (path : List Seg)
    (parent : Nat) (map : MapTable) (hc : Consistent D) (hr : RepT P map D) :
    Good (RepT P) D (pairDefs (pairsOf as) P) (mapAssignments as path parent map) := by
  cases as with
  | nil => exact Good.pure hc hr
  | cons x as =>
    obtain ⟨⟨k, q, v⟩, m⟩ := x
    unfold mapAssignments
    simp only [pairsOf, pairDefs]
    refine Good.bind (insertValue_good (kind := .inlineTableAssignment ⟨⟨k, q, v⟩, m⟩) (mapValue_good v)
      rfl hc hr) fun map' hc1 hr1 => ?_
    exact mapAssignments_good as P _ path parent map' hc1 hr1

end

end Verif.TomlMap
