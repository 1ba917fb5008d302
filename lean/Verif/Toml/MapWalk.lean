import Verif.Toml.MapRep

/-! # The map represents the definitions of the document: dotted keys -/

namespace Verif.TomlMap
open Verif Verif.Toml Verif.Spec.Toml

/-! ## Locations on the way -/

theorem wayDefs_below (w : What) (count : Loc → Nat) (ks : List Str) (k : Str) (P : Loc) :
    Below (P ++ [.key k]) (wayDefs w count P (k :: ks)).1 ∧
      P ++ [.key k] <+: (wayDefs w count P (k :: ks)).2 := by
  induction ks generalizing k P with
  | nil => exact ⟨Below.nil _, List.prefix_rfl⟩
  | cons k' ks ih =>
    unfold wayDefs
    simp only
    split
    · obtain ⟨h1, h2⟩ := ih k' (P ++ [.key k])
      exact ⟨.cons List.prefix_rfl (h1.mono (List.prefix_append _ _)), (List.prefix_append _ _).trans h2⟩
    · obtain ⟨h1, h2⟩ := ih k' (P ++ [.key k] ++ [.idx (count (P ++ [.key k]) - 1)])
      have : P ++ [.key k] <+:
          P ++ [.key k] ++ [.idx (count (P ++ [.key k]) - 1)] ++ [.key k'] := by
        rw [List.append_assoc]
        exact List.prefix_append _ _
      exact ⟨h1.mono this, this.trans h2⟩

theorem wayDefs_cons {w : What} {count : Loc → Nat} {P : Loc} {k k' : Str} {ks : List Str} :
    wayDefs w count P (k :: k' :: ks) =
      if count (P ++ [.key k]) = 0 then
        ((P ++ [.key k], w) :: (wayDefs w count (P ++ [.key k]) (k' :: ks)).1,
          (wayDefs w count (P ++ [.key k]) (k' :: ks)).2)
      else wayDefs w count (P ++ [.key k] ++ [.idx (count (P ++ [.key k]) - 1)]) (k' :: ks) := rfl

/-- How a key is walked: the class of the tables on the way, and the number of entries of arrays. -/
structure Mode (kind : ReprKind) (w : What) (count : Loc → Nat) (D : List Def) : Prop where
  way : IsWay w
  dotted : kind.isAssignment = true ↔ w = .dotted
  assign : kind.isAssignment = true → ∀ q, count q = 0
  header : kind.isAssignment = false → ∀ q, count q = entries D q
  cls : ∀ parent key, KeyRepr.isLast key = false → reprCls ⟨parent, key, kind⟩ = cls w

theorem IsWay.notEntry {w : What} (h : IsWay w) : w.isEntry = false := by
  rcases h with rfl | rfl | rfl <;> rfl

theorem entries_snoc {D : List Def} {q : Loc} {w : What} (h : w.isEntry = false) (p : Loc) :
    entries (D ++ [(q, w)]) p = entries D p := by
  unfold entries
  simp [List.filter_append, h]

theorem Mode.snoc {kind : ReprKind} {w : What} {count : Loc → Nat} {D : List Def} {q : Loc}
    (h : Mode kind w count D) : Mode kind w count (D ++ [(q, w)]) :=
  { h with header := fun hk p => by rw [h.header hk, entries_snoc h.way.notEntry] }

theorem Mode.zero {kind : ReprKind} {w : What} {count : Loc → Nat} {D : List Def} {q : Loc}
    (h : Mode kind w count D) (hq : ∀ w ∈ whats D q, w ≠ .entry) : count q = 0 := by
  cases hk : kind.isAssignment with
  | true => exact h.assign hk q
  | false => rw [h.header hk, entries_zero hq]

theorem Mode.infoOf {kind : ReprKind} {w : What} {count : Loc → Nat} {D : List Def}
    (h : Mode kind w count D) (ws : List What) : infoOf (w :: ws) = some (.tab ((w :: ws).map TomlMap.cls)) := by
  rcases h.way with rfl | rfl | rfl <;> rfl

/-! ## New chains -/

section
variable {fresh : List Seg → Repr → MapM Entry} {leaf : List Seg → MapTable → Ident → Repr → MapM MapTable}
  {kind : ReprKind} {w : What} {count : Loc → Nat} {L : Loc → List Def} {lc : Cls}

/-- The entry of the last identifier in a new table. -/
def FreshOk (fresh : List Seg → Repr → MapM Entry) (kind : ReprKind) (w : What) (count : Loc → Nat)
    (L : Loc → List Def) (lc : Cls) : Prop :=
  ∀ P D path repr, Mode kind w count D → reprCls repr = lc → Consistent D → Fresh P D →
    Good (RepE P) D (L P) (fresh path repr)

/-- The entry of the last identifier in an existing table. -/
def LeafOk (leaf : List Seg → MapTable → Ident → Repr → MapM MapTable) (kind : ReprKind) (w : What)
    (count : Loc → Nat) (L : Loc → List Def) (lc : Cls) : Prop :=
  ∀ P D path map i repr, Mode kind w count D → reprCls repr = lc → Consistent D → RepT P map D →
    Good (RepT P) D (L (P ++ [.key i.text])) (leaf path map i repr)

theorem isLast_lt {i : Nat} {ids : List DottedIdent} (h : i + 1 < ids.length) :
    (KeyRepr.dotted i ids).isLast = false := by
  simp [KeyRepr.isLast]; omega

theorem isLast_last {ids : List DottedIdent} (h : ids ≠ []) :
    (KeyRepr.dotted (ids.length - 1) ids).isLast = true := by
  have := List.length_pos_iff.2 h
  simp [KeyRepr.isLast]; omega

theorem vacantChain_good {ids : List DottedIdent} (hf : FreshOk fresh kind w count L lc)
    (hlc : ∀ parent, reprCls ⟨parent, .dotted (ids.length - 1) ids, kind⟩ = lc)
    (hL : ∀ q, Below q (L q)) :
    ∀ (rest : List DottedIdent) (o : DottedIdent) (j : Nat) (path : List Seg) (parent : Nat) (P : Loc)
      (D : List Def), j + (o :: rest).length = ids.length → Mode kind w count D → Consistent D →
      Fresh (P ++ [.key o.ident.text]) D →
      Good (RepE (P ++ [.key o.ident.text])) D
        ((wayDefs w count P ((o :: rest).map (·.ident.text))).1 ++
          L (wayDefs w count P ((o :: rest).map (·.ident.text))).2)
        (vacantChain fresh kind ids j (o :: rest) path parent) := by
  intro rest
  induction rest with
  | nil =>
    intro o j path parent P D hj hm hc hfr
    exact hf _ D path _ hm (hlc parent) hc hfr
  | cons o' rest ih =>
    intro o j path parent P D hj hm hc hfr
    simp only [List.map_cons]
    rw [wayDefs_cons, if_pos (hm.zero (by rw [hfr.at]; simp))]
    simp only [List.cons_append]
    unfold vacantChain
    have hcls : reprCls ⟨parent, .dotted j ids, kind⟩ = cls w :=
      hm.cls _ _ (isLast_lt (by simp at hj; omega))
    have hc1 := consistent_fresh (w := w) hc hfr.at
    have hfr1 := fresh_snoc (w := w) hfr (.key o'.ident.text)
    have := ih o' (j + 1) (.table [⟨parent, .dotted j ids, kind⟩] :: path) 0 (P ++ [.key o.ident.text])
      _ (by simp at hj ⊢; omega) hm.snoc hc1 hfr1
    refine Good.cons (Good.map this fun e hc2 he => ?_)
    have hb : Below (P ++ [.key o.ident.text] ++ [.key o'.ident.text])
        ((wayDefs w count (P ++ [.key o.ident.text]) ((o' :: rest).map (·.ident.text))).1 ++
          L (wayDefs w count (P ++ [.key o.ident.text]) ((o' :: rest).map (·.ident.text))).2) := by
      obtain ⟨h1, h2⟩ := wayDefs_below w count (rest.map (·.ident.text)) o'.ident.text
        (P ++ [.key o.ident.text])
      exact h1.append ((hL _).mono h2)
    have ht := (repT_fresh_snoc (w := w) hfr).put hb he
    refine ht.toN ?_
    rw [whats_append, whats_append, hfr.at, whats_cons, if_pos rfl, whats_nil, List.nil_append,
      List.singleton_append, whats_below hb, hm.infoOf]
    · simp [hcls]
    · intro h
      have := h.length_le
      simp at this

/-! ## Existing tables -/

theorem not_below_self {Q : Loc} {s : PStep} : ¬ Q ++ [s] <+: Q := by
  intro hh
  have := hh.length_le
  simp only [List.length_append, List.length_cons, List.length_nil] at this
  omega

theorem infoOf_snoc {ws : List What} {cs : List Cls} (h : infoOf ws = some (.tab cs)) (w : What) :
    infoOf (ws ++ [w]) = some (.tab (cs ++ [TomlMap.cls w])) := by
  cases ws with
  | nil => cases h
  | cons a ws =>
    cases a with
    | value v =>
      cases v with
      | table kvs =>
        simp only [infoOf, Option.some.injEq, Info.tab.injEq] at h
        subst h
        simp [infoOf]
      | _ => cases h
    | entry => cases h
    | _ =>
      simp only [infoOf, Option.some.injEq, Info.tab.injEq] at h
      subst h
      simp [infoOf]

theorem reprCls_ne (r : Repr) : reprCls r ≠ .entryTable := by
  unfold reprCls
  split <;> simp

theorem okCls_way {ws : List What} {cs : List Cls} {D : List Def} {q : Loc} {r : Repr}
    (hm : Mode kind w count D) (hr : reprCls r = cls w) (hcs : ws.map cls = cs)
    (hne : ∀ w ∈ ws, w ≠ .entry) {rs : List Repr} (hrs : rs.map reprCls = cs) :
    (∀ x ∈ rs ++ [r], okCls kind.isAssignment (reprCls x) = true) ↔ ∀ w' ∈ ws, Compatible w' w := by
  have h1 : (∀ x ∈ rs ++ [r], okCls kind.isAssignment (reprCls x) = true) ↔
      ∀ c ∈ ws.map cls, okCls kind.isAssignment c = true := by
    rw [hcs, ← hrs]
    simp only [List.mem_append, List.mem_singleton, List.forall_mem_map]
    constructor
    · intro h x hx
      exact h x (Or.inl hx)
    · rintro h x (hx | rfl)
      · exact h x hx
      · rw [hr]
        rcases hm.way with rfl | rfl | rfl
        · rw [hm.dotted.2 rfl]; rfl
        · have : kind.isAssignment = false := by
            cases hk : kind.isAssignment
            · rfl
            · cases hm.dotted.1 hk
          rw [this]; rfl
        · have : kind.isAssignment = false := by
            cases hk : kind.isAssignment
            · rfl
            · cases hm.dotted.1 hk
          rw [this]; rfl
  rw [h1, List.forall_mem_map]
  constructor
  · intro h w' hw'
    have := h w' hw'
    have hn := hne w' hw'
    have hn' : cls w' ≠ .entryTable := by
      intro e
      have hmem : cls w' ∈ rs.map reprCls := by
        rw [hrs, ← hcs]
        exact List.mem_map_of_mem hw'
      obtain ⟨x, _, hx⟩ := List.mem_map.1 hmem
      exact reprCls_ne x (hx.trans e)
    clear h h1 hne hcs hrs
    rcases hm.way with rfl | rfl | rfl
    · rw [hm.dotted.2 rfl] at this
      cases w' <;> simp_all [okCls, cls, Compatible]
    all_goals
      have hk : kind.isAssignment = false := by
        cases hk : kind.isAssignment
        · rfl
        · cases hm.dotted.1 hk
      rw [hk] at this
      cases w' <;> simp_all [okCls, cls, Compatible]
  · intro h w' hw'
    have := h w' hw'
    clear h h1 hne hcs hrs
    rcases hm.way with rfl | rfl | rfl
    · rw [hm.dotted.2 rfl]
      cases w' <;> simp_all [okCls, cls, Compatible]
    all_goals
      have hk : kind.isAssignment = false := by
        cases hk : kind.isAssignment
        · rfl
        · cases hm.dotted.1 hk
      rw [hk]
      cases w' <;> simp_all [okCls, cls, Compatible]

/-! ## Arrays of tables -/

theorem idx_ne_below {P : Loc} {i : Nat} {s : PStep} {p : Loc} {r : Loc} (h : s ≠ .idx i) :
    ¬ P ++ .idx i :: r <+: P ++ s :: p := by
  rintro ⟨r', hr⟩
  rw [List.append_assoc] at hr
  have := List.append_cancel_left hr
  simp at this
  exact h this.1.symm

theorem RepN.last {Q : Loc} {cs : List Cls} {es : List ArrayTable} {l : ArrayTable} {D : List Def}
    (h : RepN Q cs (.toplevel es) D) (hl : es.getLast? = some l) :
    RepN (Q ++ [.idx (es.length - 1)]) [.entryTable] (.table l.node) D := by
  intro p
  have := h (.idx (es.length - 1) :: p)
  rw [List.append_assoc]
  simp only [List.singleton_append]
  rw [← this]
  rw [List.getLast?_eq_getElem?] at hl
  simp only [info, hl, Option.bind_some]

theorem RepN.setTable {Q : Loc} {cs cs' : List Cls} {es : List ArrayTable} {l : ArrayTable}
    {D N : List Def} {t : MapTable} {k : Str} (h : RepN Q cs (.toplevel es) D)
    (hl : es.getLast? = some l)
    (hN : Below (Q ++ [.idx (es.length - 1)] ++ [.key k]) N)
    (ht : RepT (Q ++ [.idx (es.length - 1)]) t (D ++ N)) (hcs : cs.all headerCls = true)
    (hcs' : cs'.all headerCls = true) :
    RepN Q cs' (TomlMap.setTable (.toplevel es) t) (D ++ N) := by
  have hlast := h.last hl
  have hset : TomlMap.setTable (.toplevel es) t = .toplevel (es.dropLast ++ [{ l with node := t }]) := by
    simp [TomlMap.setTable, hl]
  have hlen : (es.dropLast ++ [{ l with node := t }]).length = es.length := by
    have : es ≠ [] := by rintro rfl; simp at hl
    have := List.length_pos_iff.2 this
    simp; omega
  rw [hset]
  intro p
  cases p with
  | nil =>
    have h0 := h []
    simp only [info, nodeInfo, hcs, hcs', hlen, List.append_nil] at h0 ⊢
    rw [h0, whats_append, whats_below hN, List.append_nil]
    intro hh
    have := hh.length_le
    simp only [List.length_append, List.length_cons, List.length_nil] at this
    omega
  | cons s p =>
    cases s with
    | key k' =>
      have h0 := h (.key k' :: p)
      rw [whats_append, whats_below hN, List.append_nil, ← h0]
      · rfl
      · rw [List.append_assoc]
        exact idx_ne_below (by simp)
    | idx i =>
      by_cases hi : i = es.length - 1
      · subst hi
        have hget : (es.dropLast ++ [{ l with node := t }])[es.length - 1]? = some { l with node := t } := by
          rw [List.getElem?_append_right (by simp)]
          simp
        simp only [info, hget, Option.bind_some]
        have : RepN (Q ++ [.idx (es.length - 1)]) [.entryTable] (.table t) (D ++ N) := by
          refine ht.toN ?_
          have := hlast []
          simp only [info, List.append_nil, nodeInfo] at this
          rw [whats_append, whats_below hN, List.append_nil, ← this]
          intro hh
          have := hh.length_le
          simp at this
        rw [this p, List.append_assoc]
        rfl
      · have h0 := h (.idx i :: p)
        rw [whats_append, whats_below hN, List.append_nil, ← h0]
        · have hget : (es.dropLast ++ [{ l with node := t }])[i]? = es[i]? := by
            by_cases hlt : i < es.length - 1
            · rw [List.getElem?_append_left (by simpa using hlt), List.getElem?_dropLast, if_pos hlt]
            · rw [List.getElem?_eq_none (by omega), List.getElem?_eq_none (by omega)]
          simp only [info, hget]
        · rw [List.append_assoc]
          exact idx_ne_below (by simpa using hi)

/-! ## Walking -/

theorem not_consistent_snoc {D N : List Def} {q : Loc} {w w' : What} (h : w' ∈ whats D q)
    (hc : ¬ Compatible w' w) : ¬ Consistent (D ++ (q, w) :: N) := by
  intro h2
  have : Consistent (D ++ [(q, w)]) := by
    apply consistent_left (N := N)
    simpa using h2
  exact hc ((consistent_snoc.1 this).2 _ h)

theorem no_entry_val {ws : List What} (hp : ws.Pairwise Compatible) {v : TVal} (hv : What.value v ∈ ws) :
    ∀ w ∈ ws, w ≠ .entry := by
  apply no_entry hp
  intro hh
  have := only_entry hp hh _ hv
  cases this

theorem walk_good {ids : List DottedIdent} (hf : FreshOk fresh kind w count L lc)
    (hl : LeafOk leaf kind w count L lc)
    (hlc : ∀ parent, reprCls ⟨parent, .dotted (ids.length - 1) ids, kind⟩ = lc)
    (hL : ∀ q, Below q (L q)) :
    ∀ (rest : List DottedIdent) (o : DottedIdent) (i : Nat) (path : List Seg) (parent : Nat) (P : Loc)
      (D : List Def) (map : MapTable), i + (o :: rest).length = ids.length → Mode kind w count D →
      Consistent D → RepT P map D →
      Good (RepT P) D
        ((wayDefs w count P ((o :: rest).map (·.ident.text))).1 ++
          L (wayDefs w count P ((o :: rest).map (·.ident.text))).2)
        (walk fresh leaf kind ids i (o :: rest) path parent map) := by
  intro rest
  induction rest with
  | nil =>
    intro o i path parent P D map hi hm hc hr
    exact hl _ D path map o.ident _ hm (hlc parent) hc hr
  | cons o' rest ih =>
    intro o i path parent P D map hi hm hc hr
    have hbelow := wayDefs_below w count ((o' :: rest).map (·.ident.text)) o.ident.text P
    have hB : Below (P ++ [.key o.ident.text])
        ((wayDefs w count P ((o :: o' :: rest).map (·.ident.text))).1 ++
          L (wayDefs w count P ((o :: o' :: rest).map (·.ident.text))).2) :=
      hbelow.1.append ((hL _).mono hbelow.2)
    cases hg : get map o.ident.text with
    | none =>
      unfold walk
      simp only [hg]
      have hfr := hr.vacant hg
      have := vacantChain_good hf hlc hL (o' :: rest) o i path parent P D hi hm hc hfr
      exact Good.map this fun e hc2 he => hr.put hB he
    | some e =>
      have hE := hr.entry hg
      have hcls : ∀ parent, reprCls ⟨parent, .dotted i ids, kind⟩ = cls w :=
        fun parent => hm.cls _ _ (isLast_lt (by simp at hi; omega))
      have hE0 := hE []
      simp only [List.append_nil, info] at hE0
      generalize hQ : P ++ [.key o.ident.text] = Q at *
      unfold walk
      simp only [hg]
      have hpw := whats_pairwise hc Q
      simp only [List.map_cons] at hB ⊢
      rw [wayDefs_cons, hQ] at hB ⊢
      -- the diagnostics of an entry that cannot be extended
      have herr : ∀ x : MapM MapTable, ¬ Consistent (D ++ [(Q, w)]) → count Q = 0 →
          (∀ a es, x = some (a, es) → es ≠ []) → Good (RepT P) D
          ((if count Q = 0 then ((Q, w) :: (wayDefs w count Q (o'.ident.text :: rest.map (·.ident.text))).1,
              (wayDefs w count Q (o'.ident.text :: rest.map (·.ident.text))).2)
            else wayDefs w count (Q ++ [.idx (count Q - 1)]) (o'.ident.text :: rest.map (·.ident.text))).1 ++
          L (if count Q = 0 then ((Q, w) :: (wayDefs w count Q (o'.ident.text :: rest.map (·.ident.text))).1,
              (wayDefs w count Q (o'.ident.text :: rest.map (·.ident.text))).2)
            else wayDefs w count (Q ++ [.idx (count Q - 1)]) (o'.ident.text :: rest.map (·.ident.text))).2)
          x := by
        intro x h1 h2 h3
        refine Good.err h3 fun h4 => h1 ?_
        rw [if_pos h2] at h4
        apply consistent_left (N := (wayDefs w count Q (o'.ident.text :: rest.map (·.ident.text))).1 ++
          L (wayDefs w count Q (o'.ident.text :: rest.map (·.ident.text))).2)
        simpa using h4
      have hwalkErr : ∀ (x : Option (Entry × Extend)) (y : Entry × Extend → MapM MapTable),
          (∀ e' ext, x = some (e', ext) → ∀ a es, y (e', ext) = some (a, es) → es ≠ []) →
          ∀ a es, (lift x >>= y) = some (a, es) → es ≠ [] := by
        intro x y hxy a es h
        obtain ⟨⟨e', ext⟩, h1, h2⟩ := lift_bind_some.1 h
        exact hxy e' ext h1 a es h2
      have hreport : ∀ (er : Error) (m : MapTable) (a : MapTable) (es : List Error),
          (report er >>= fun _ => (pure m : MapM MapTable)) = some (a, es) → es ≠ [] := by
        intro er m a es h
        obtain ⟨es', _, rfl⟩ := report_bind_some.1 h
        simp
      cases hn : e.node with
      | table t =>
        rw [hn] at hE0
        simp only [nodeInfo] at hE0
        obtain ⟨hcs, hne, hhd⟩ := infoOf_tab hE0.symm
        have hnoe := no_entry hpw hhd
        have hz := hm.zero hnoe
        have hok := okCls_way (q := Q) hm (hcls parent) hcs hnoe rfl
        have hiff : (∀ x ∈ e.reprs ++ [⟨parent, .dotted i ids, kind⟩],
            okCls kind.isAssignment (reprCls x) = true) ↔ Consistent (D ++ [(Q, w)]) := by
          rw [hok, consistent_snoc]
          exact ⟨fun h => ⟨hc, h⟩, fun h => h.2⟩
        by_cases hcon : Consistent (D ++ [(Q, w)])
        · rw [if_pos hz] at hB ⊢
          simp only [List.cons_append] at hB ⊢
          apply Good.cons
          intro a es h
          obtain ⟨⟨e', ext⟩, h1, h2⟩ := lift_bind_some.1 h
          obtain ⟨rfl, h3⟩ := gte_table hn h1
          rcases h3 with ⟨er, rfl, hbad⟩ | ⟨rfl, -⟩
          · exact absurd (hiff.2 hcon) hbad
          · simp only at h2
            have hT : RepT Q t (D ++ [(Q, w)]) := by
              rw [hn] at hE
              exact hE.table.snoc w
            have := ih o' (i + 1) (.table (e.reprs ++ [⟨parent, .dotted i ids, kind⟩]) :: path)
              e.reprs.length Q (D ++ [(Q, w)]) t (by simp at hi ⊢; omega) hm.snoc hcon hT
            refine Good.map (S := RepT P) this (fun t' hc2 ht' => ?_) a es h2
            rw [List.append_assoc] at ht' ⊢
            have hB' := hB
            refine RepT.put (by rw [hQ] at *; exact hr) (by rw [hQ]; exact hB') ?_
            rw [hQ]
            have hbel := wayDefs_below w count (rest.map (·.ident.text)) o'.ident.text Q
            have hB2 : Below (Q ++ [.key o'.ident.text])
                ((wayDefs w count Q (o'.ident.text :: rest.map (·.ident.text))).1 ++
                  L (wayDefs w count Q (o'.ident.text :: rest.map (·.ident.text))).2) :=
              hbel.1.append ((hL _).mono hbel.2)
            simp only [hn, TomlMap.setTable]
            refine ht'.toN ?_
            have := infoOf_snoc hE0.symm w
            rw [whats_append]
            simp only [List.map_cons, List.singleton_append]
            rw [whats_cons, if_pos rfl, whats_below hB2 not_below_self, this]
            simp [hcls]
        · refine herr _ hcon hz (hwalkErr _ _ fun e' ext h1 a es h2 => ?_)
          obtain ⟨rfl, h3⟩ := gte_table hn h1
          rcases h3 with ⟨er, rfl, -⟩ | ⟨rfl, hgood⟩
          · exact hreport _ _ _ _ h2
          · exact absurd (hiff.1 hgood) hcon
      | toplevel es0 =>
        rw [hn] at hE0
        simp only [nodeInfo] at hE0
        obtain ⟨hlen0, hhd, hall⟩ := infoOf_aot hE0.symm
        have hmem : What.entry ∈ whats D Q := by
          cases hw : whats D Q with
          | nil => rw [hw] at hhd; cases hhd
          | cons a b => rw [hw] at hhd; simp at hhd; subst hhd; simp
        cases hk : kind.isAssignment with
        | true =>
          have hw : w = .dotted := hm.dotted.1 hk
          refine herr _ ?_ (hm.assign hk Q) (hwalkErr _ _ fun e' ext h1 a es h2 => ?_)
          · subst hw
            exact not_consistent_snoc hmem (by simp [Compatible])
          · rcases gte_toplevel hn h1 with ⟨-, er, rfl⟩ | ⟨h3, -⟩
            · exact hreport _ _ _ _ h2
            · rw [hk] at h3; cases h3
        | false =>
          have hent : entries D Q = es0.length := by
            rw [entries_all (only_entry hpw hhd), hlen0]
          have hcount : count Q = es0.length := by rw [hm.header hk, hent]
          have hpos : 0 < es0.length := by
            rw [← hlen0]
            exact List.length_pos_of_mem hmem
          have hnz : ¬ count Q = 0 := by omega
          rw [if_neg hnz, hcount] at hB ⊢
          have hhc : headerCls (cls w) = true := by
            rcases hm.way with rfl | rfl | rfl
            · have := hm.dotted.2 rfl
              rw [hk] at this
              cases this
            · rfl
            · rfl
          have hall' : (e.reprs ++ [(⟨parent, .dotted i ids, kind⟩ : Repr)]).all
              (fun x => headerCls (reprCls x)) = true := by
            rw [List.all_append, Bool.and_eq_true]
            refine ⟨?_, by simp [hcls, hhc]⟩
            have hall2 := hall
            rw [List.all_map] at hall2
            exact hall2
          intro a es h
          obtain ⟨⟨e', ext⟩, h1, h2⟩ := lift_bind_some.1 h
          rcases gte_toplevel hn h1 with ⟨h3, -⟩ | ⟨-, rfl, h3⟩
          · rw [show (Repr.mk parent (.dotted i ids) kind).kind.isAssignment = kind.isAssignment from rfl,
              hk] at h3
            cases h3
          rcases h3 with ⟨er, rfl, hbad⟩ | ⟨l, hlast, rfl⟩
          · refine absurd (fun x hx => ?_) hbad
            have := List.all_eq_true.1 hall' x hx
            rw [show (Repr.mk parent (.dotted i ids) kind).kind.isAssignment = kind.isAssignment from rfl,
              hk]
            revert this
            cases reprCls x <;> simp [headerCls, okCls]
          · simp only at h2
            rw [hn] at hE
            have hT := (hE.last hlast).table
            have := ih o' (i + 1) (.array (es0.length - 1) ::
                .table (e.reprs ++ [⟨parent, .dotted i ids, kind⟩]) :: path)
              e.reprs.length (Q ++ [.idx (es0.length - 1)]) D l.node (by simp at hi ⊢; omega) hm hc hT
            refine Good.map (S := RepT P) this (fun t' hc2 ht' => ?_) a es h2
            refine RepT.put hr (by rw [hQ]; exact hB) ?_
            rw [hQ]
            have hbel := wayDefs_below w count (rest.map (·.ident.text)) o'.ident.text
              (Q ++ [.idx (es0.length - 1)])
            simp only [hn]
            refine hE.setTable hlast (hbel.1.append ((hL _).mono hbel.2)) ht' hall ?_
            rw [List.all_map]
            exact hall'
      | inline p0 r0 es0 =>
        rw [hn] at hE0
        obtain ⟨v, hv⟩ := infoOf_val (Or.inr ⟨_, hE0.symm⟩)
        refine herr _ (not_consistent_snoc hv ?_) (hm.zero ?_) (hwalkErr _ _ fun e' ext h1 a es h2 => ?_)
        · rcases hm.way with rfl | rfl | rfl <;> simp [Compatible]
        · exact no_entry_val hpw hv
        · obtain ⟨er, rfl⟩ := gte_other (Or.inl ⟨_, _, _, hn⟩) h1
          exact hreport _ _ _ _ h2
      | scalar s0 =>
        rw [hn] at hE0
        obtain ⟨v, hv⟩ := infoOf_val (Or.inl ⟨_, hE0.symm⟩)
        refine herr _ (not_consistent_snoc hv ?_) (hm.zero ?_) (hwalkErr _ _ fun e' ext h1 a es h2 => ?_)
        · rcases hm.way with rfl | rfl | rfl <;> simp [Compatible]
        · exact no_entry_val hpw hv
        · obtain ⟨er, rfl⟩ := gte_other (Or.inr ⟨_, hn⟩) h1
          exact hreport _ _ _ _ h2

end

end Verif.TomlMap
