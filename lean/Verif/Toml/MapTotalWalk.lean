import Verif.Toml.MapTotal

/-! # The map never panics, and its references are right: walking and values -/

namespace Verif.TomlMap
open Verif Verif.Toml Verif.Spec.Toml

variable {asts : List Ast}

/-! ## Extending a table -/

theorem getTableToExtend_some {path : List Seg} (hp : PathOk path) {k : Str} {e : Entry} {r : Repr}
    (he : EntryOk asts (around path) k e) (hr : ReprOk asts (around path) k r) (hnl : ¬ IsLast r) :
    ∃ e' ext, getTableToExtend path e r = some (e', ext) ∧ EntryOk asts (around path) k e' ∧
      (∀ parent next t, ext = .ok parent next t → PathOk next ∧ around next = some e'.reprs ∧
        e'.reprs[parent]? = some r ∧ NodeOk asts (some e'.reprs) (.table t) ∧
        ∀ t', NodeOk asts (some e'.reprs) (.table t') →
          EntryOk asts (around path) k ⟨setTable e'.node t', e'.reprs⟩) := by
  obtain ⟨h1, h2, h3, h4⟩ := he
  have hne : e.reprs ++ [r] ≠ [] := by simp
  have hall : ∀ x ∈ e.reprs ++ [r], ReprOk asts (around path) k x := by
    intro x hx
    rcases List.mem_append.1 hx with hx | hx
    · exact h2 x hx
    · rw [List.mem_singleton.1 hx]; exact hr
  have hmono := nodeOk_mono h3 rfl r
  have hpn := hp.table hne hall
  obtain ⟨o, ho⟩ : ∃ o, (e.reprs ++ [r]).head? = some o := by
    cases hh : (e.reprs ++ [r]).head? with
    | none => simp at hh
    | some o => exact ⟨o, rfl⟩
  have hd : (e.reprs ++ [r]).getLast? = some r := by simp
  have hoo := hall o (List.mem_of_head? ho)
  obtain ⟨o1, ho1⟩ : ∃ o, e.reprs.head? = some o := by
    cases hh : e.reprs with
    | nil => exact absurd hh h1
    | cons a b => exact ⟨a, rfl⟩
  have hoo1 := h2 o1 (List.mem_of_head? ho1)
  have hidx : (e.reprs ++ [r])[e.reprs.length]? = some r := by simp
  unfold getTableToExtend
  cases hn : e.node with
  | table t =>
    rw [hn] at hmono
    have hkind : ∀ t', KindOk (.table t') (e.reprs ++ [r]) := by
      rw [hn] at h4
      intro t' x hx hx2
      rcases List.mem_append.1 hx with hx | hx
      · obtain ⟨v, hv, hf⟩ := h4 x hx hx2
        cases hf
        exact ⟨_, hv, .table⟩
      · rw [List.mem_singleton.1 hx] at hx2; exact absurd hx2.2 hnl
    obtain ⟨x, hx⟩ := extendCheck_some (isA := r.kind.isAssignment) hp hpn (by simp) hoo hr (e.reprs ++ [r])
    cases x with
    | some er =>
      refine ⟨⟨.table t, e.reprs ++ [r]⟩, .err er, ?_, ⟨hne, hall, hmono, hkind t⟩, fun _ _ _ h => by cases h⟩
      simp only [ho, hd, Option.bind_eq_bind, Option.bind_some, hx]
      rfl
    | none =>
      refine ⟨⟨.table t, e.reprs ++ [r]⟩, .ok e.reprs.length (.table (e.reprs ++ [r]) :: path) t, ?_,
        ⟨hne, hall, hmono, hkind t⟩, ?_⟩
      · simp only [ho, hd, Option.bind_eq_bind, Option.bind_some, hx]
        rfl
      · intro parent next t0 h
        cases h
        exact ⟨hpn, rfl, hidx, hmono, fun t' h => ⟨hne, hall, h, hkind t'⟩⟩
  | toplevel es =>
    rw [hn] at h3 hmono
    simp only
    split
    · obtain ⟨er, he⟩ := extendError_some (mk := .cannotExtendArrayWithDottedKey) hp hoo1 hr
      refine ⟨⟨e.node, e.reprs⟩, .err er, ?_, ⟨h1, h2, by rw [hn]; exact h3, h4⟩, fun _ _ _ h => by cases h⟩
      simp only [ho1, Option.bind_eq_bind, Option.bind_some, he]
      rfl
    · rename_i hA
      have hes : es ≠ [] := by cases h3; assumption
      have hkind : KindOk (.toplevel es) (e.reprs ++ [r]) := by
        rw [hn] at h4
        intro x hx
        rcases List.mem_append.1 hx with hx | hx
        · exact h4 x hx
        · rw [List.mem_singleton.1 hx]; simpa using hA
      have hlen := List.length_pos_iff.2 hes
      obtain ⟨l, hl⟩ : ∃ l, es.getLast? = some l := ⟨_, List.getLast?_eq_some_getLast hes⟩
      have hi : subU es.length 1 = some (es.length - 1) := by
        unfold subU
        rw [if_pos (by omega)]
      have hpa : PathOk (.array (es.length - 1) :: .table (e.reprs ++ [r]) :: path) := ⟨by simp, hpn⟩
      obtain ⟨x, hx⟩ := extendCheck_some (isA := r.kind.isAssignment) hp hpa (by simp) hoo hr
        (e.reprs ++ [r])
      cases x with
      | some er =>
        refine ⟨⟨.toplevel es, e.reprs ++ [r]⟩, .err er, ?_, ⟨hne, hall, hmono, hkind⟩, fun _ _ _ h => by cases h⟩
        simp only [ho, hd, Option.bind_eq_bind, Option.bind_some, hi, hl, hx]
        rfl
      | none =>
        refine ⟨⟨.toplevel es, e.reprs ++ [r]⟩, .ok e.reprs.length
          (.array (es.length - 1) :: .table (e.reprs ++ [r]) :: path) l.node, ?_,
          ⟨hne, hall, hmono, hkind⟩, ?_⟩
        · simp only [ho, hd, Option.bind_eq_bind, Option.bind_some, hi, hl, hx]
          rfl
        · intro parent next t0 h
          cases h
          have hmem : l ∈ es := List.mem_of_getLast? hl
          refine ⟨hpa, rfl, hidx, ?_, ?_⟩
          · cases hmono with
            | toplevel _ _ g3 => exact g3 l hmem
          · intro t' ht'
            simp only [setTable, hl]
            cases hmono with
            | toplevel g1 g2 g3 =>
              refine ⟨hne, hall, .toplevel (by simp) ?_ ?_, hkind⟩ <;> intro e' he'
              all_goals
                rcases List.mem_append.1 he' with h | h
                · have := (List.dropLast_sublist es).subset h
                  first | exact g2 e' this | exact g3 e' this
                · rw [List.mem_singleton.1 h]
                  first | exact g2 l hmem | exact ht'
  | inline p a es =>
    rw [hn] at h3
    obtain ⟨er, he⟩ := extendError_some (mk := .cannotExtendInlineArrayAsTable) hp hoo1 hr
    refine ⟨⟨e.node, e.reprs⟩, .err er, ?_, ⟨h1, h2, by rw [hn]; exact h3, h4⟩, fun _ _ _ h => by cases h⟩
    simp only [ho1, Option.bind_eq_bind, Option.bind_some, he]
    rfl
  | scalar s =>
    rw [hn] at h3
    obtain ⟨er, he⟩ := duplicateKeyError_some hp hoo1 hr
    refine ⟨⟨e.node, e.reprs⟩, .err er, ?_, ⟨h1, h2, by rw [hn]; exact h3, h4⟩, fun _ _ _ h => by cases h⟩
    simp only [ho1, Option.bind_eq_bind, Option.bind_some, he]
    rfl

/-! ## Walking -/

/-- The entry of the last name in a new table. -/
def FreshT (asts : List Ast) (fresh : List Seg → Repr → MapM Entry) (kind : ReprKind) : Prop :=
  ∀ path k repr, PathOk path → ReprOk asts (around path) k repr → IsLast repr → repr.kind = kind →
    Ok (EntryOk asts (around path) k) (fresh path repr)

/-- The entry of the last name in an existing table. -/
def LeafT (asts : List Ast) (leaf : List Seg → MapTable → Ident → Repr → MapM MapTable)
    (kind : ReprKind) : Prop :=
  ∀ path map i repr, PathOk path → NodeOk asts (around path) (.table map) →
    ReprOk asts (around path) i.text repr → IsLast repr → repr.kind = kind →
    Ok (fun t => NodeOk asts (around path) (.table t)) (leaf path map i repr)

section
variable {fresh : List Seg → Repr → MapM Entry} {leaf : List Seg → MapTable → Ident → Repr → MapM MapTable}
  {kind : ReprKind}

theorem drop_cons {α : Type} {l : List α} {i : Nat} {a : α} {r : List α} (h : l.drop i = a :: r) :
    l[i]? = some a ∧ l.drop (i + 1) = r ∧ i + 1 + r.length = l.length := by
  have h1 : l[i]? = some a := by
    have : (l.drop i)[0]? = some a := by rw [h]; rfl
    simpa using this
  have h2 : l.drop (i + 1) = r := by
    have : (l.drop i).drop 1 = r := by rw [h]; rfl
    rw [List.drop_drop] at this
    exact this
  refine ⟨h1, h2, ?_⟩
  have : (l.drop i).length = r.length + 1 := by rw [h]; rfl
  rw [List.length_drop] at this
  omega

/-- The name of the next representation of a key. -/
theorem nextName {ids : List DottedIdent} (hk : kindKey kind = some (.dotted ids)) {j : Nat}
    {o : DottedIdent} (ho : ids[j]? = some o) (parent : Nat) :
    NameOk o.ident.text ⟨parent, .dotted j ids, kind⟩ := ⟨hk, o, ho, rfl⟩

/-- The next representation of a key belongs to the one in front. -/
theorem nextParent {ids : List DottedIdent} {i p0 p1 : Nat} {rs : List Repr}
    (h : rs[p1]? = some ⟨p0, .dotted i ids, kind⟩) :
    ParentOk asts (some rs) ⟨p1, .dotted (i + 1) ids, kind⟩ :=
  ⟨_, h, Or.inl ⟨i, ids, rfl, rfl, rfl⟩⟩

theorem vacantChain_ok {ids : List DottedIdent} (hk : kindKey kind = some (.dotted ids))
    (hf : FreshT asts fresh kind) :
    ∀ (rest : List DottedIdent) (o : DottedIdent) (j : Nat) (path : List Seg) (parent : Nat),
      ids.drop j = o :: rest → PathOk path →
      ParentOk asts (around path) ⟨parent, .dotted j ids, kind⟩ →
      Ok (EntryOk asts (around path) o.ident.text) (vacantChain fresh kind ids j (o :: rest) path parent) := by
  intro rest
  induction rest with
  | nil =>
    intro o j path parent hd hp hpar
    obtain ⟨h1, -, h3⟩ := drop_cons hd
    have hj : ids.length - 1 = j := by simp at h3; omega
    unfold vacantChain
    rw [hj]
    refine hf path _ _ hp ⟨nextName hk h1 _, hpar⟩ ?_ rfl
    show j + 1 = ids.length
    simp at h3; omega
  | cons o' rest ih =>
    intro o j path parent hd hp hpar
    obtain ⟨h1, h2, h3⟩ := drop_cons hd
    have hr : ReprOk asts (around path) o.ident.text ⟨parent, .dotted j ids, kind⟩ :=
      ⟨nextName hk h1 _, hpar⟩
    have hall : ∀ x ∈ [(⟨parent, .dotted j ids, kind⟩ : Repr)], ReprOk asts (around path) o.ident.text x := by
      intro x hx
      rw [List.mem_singleton.1 hx]
      exact hr
    have hp' := hp.table (by simp) hall
    unfold vacantChain
    refine Ok.bind (ih o' (j + 1) _ 0 h2 hp' (nextParent (p0 := parent) rfl)) fun inner hi => ?_
    refine Ok.pure ⟨by simp, hall, (nodeOk_empty _).put hi, ?_⟩
    intro x hx hx2
    rw [List.mem_singleton.1 hx] at hx2
    have : j + 1 = ids.length := hx2.2
    simp at h3; omega

theorem walk_ok {ids : List DottedIdent} (hk : kindKey kind = some (.dotted ids))
    (hf : FreshT asts fresh kind) (hl : LeafT asts leaf kind) :
    ∀ (rest : List DottedIdent) (o : DottedIdent) (i : Nat) (path : List Seg) (parent : Nat)
      (map : MapTable), ids.drop i = o :: rest → PathOk path →
      ParentOk asts (around path) ⟨parent, .dotted i ids, kind⟩ →
      NodeOk asts (around path) (.table map) →
      Ok (fun t => NodeOk asts (around path) (.table t)) (walk fresh leaf kind ids i (o :: rest) path parent map)
      := by
  intro rest
  induction rest with
  | nil =>
    intro o j path parent map hd hp hpar hm
    obtain ⟨h1, -, h3⟩ := drop_cons hd
    have hj : ids.length - 1 = j := by simp at h3; omega
    unfold walk
    rw [hj]
    refine hl path map _ _ hp hm ⟨nextName hk h1 _, hpar⟩ ?_ rfl
    show j + 1 = ids.length
    simp at h3; omega
  | cons o' rest ih =>
    intro o j path parent map hd hp hpar hm
    obtain ⟨h1, h2, h3⟩ := drop_cons hd
    have hr : ReprOk asts (around path) o.ident.text ⟨parent, .dotted j ids, kind⟩ :=
      ⟨nextName hk h1 _, hpar⟩
    unfold walk
    cases hg : get map o.ident.text with
    | none =>
      simp only
      refine Ok.bind (vacantChain_ok hk hf (o' :: rest) o j path parent hd hp hpar) fun e he => ?_
      exact Ok.pure (hm.put he)
    | some e =>
      simp only
      obtain ⟨e', ext, he, k1, k4⟩ := getTableToExtend_some hp (hm.entry hg) hr
        (fun h => by have : j + 1 = ids.length := h; simp at h3; omega)
      refine Ok.lift he ?_
      cases ext with
      | err er => exact Ok.report (Ok.pure (hm.put k1))
      | ok p1 next t =>
        obtain ⟨m1, m2, m3, m4, m5⟩ := k4 _ _ _ rfl
        simp only
        have hpar' : ParentOk asts (around next) ⟨p1, .dotted (j + 1) ids, kind⟩ := by
          rw [m2]
          exact nextParent m3
        refine Ok.bind (ih o' (j + 1) next p1 t h2 m1 hpar' (by rw [m2]; exact m4)) fun t' ht' => ?_
        rw [m2] at ht'
        exact Ok.pure (hm.put (m5 t' ht'))

end

/-! ## Inserting -/

theorem kindVal_assign {kind : ReprKind} {v : Value} (h : kindVal kind = some v) :
    kind.isAssignment = true := by
  cases kind <;> simp [kindVal] at h <;> rfl

/-- The value `v` can be mapped behind a representation of kind `kind`. -/
def ValueT (asts : List Ast) (f : List Seg → Nat → MapM MapNode) (kind : ReprKind) (v : Value) : Prop :=
  ∀ path parent rs p, PathOk path → path ≠ [] → around path = some rs → rs[parent]? = some p → IsLast p →
    p.kind = kind → Ok (fun n => NodeOk asts (some rs) n ∧ FromValue v n) (f path parent)

/-- The assignments can be inserted behind a representation of kind `kind`. -/
def AssignsT (asts : List Ast) (f : List Seg → Nat → MapTable → MapM MapTable) (kind : ReprKind) : Prop :=
  ∀ path parent rs p t, PathOk path → path ≠ [] → around path = some rs → rs[parent]? = some p → IsLast p →
    p.kind = kind → NodeOk asts (some rs) (.table t) →
    Ok (fun t => NodeOk asts (some rs) (.table t)) (f path parent t)

def InsertT (asts : List Ast) (v : InsertValue) (kind : ReprKind) : Prop :=
  match v with
  | .value f => ∃ v, ValueT asts f kind v ∧ kindVal kind = some v
  | .tableAssignments f => AssignsT asts f kind ∧ kind.isAssignment = false

theorem freshNode_ok {v : InsertValue} {kind : ReprKind} (hv : InsertT asts v kind) :
    FreshT asts (fun path => freshNode path v) kind := by
  intro path k repr hp hr hl hk
  have hall : ∀ x ∈ [repr], ReprOk asts (around path) k x := by
    intro x hx
    rw [List.mem_singleton.1 hx]
    exact hr
  have hp' := hp.table (by simp) hall
  show Ok _ (freshNode path v repr)
  unfold freshNode
  refine Ok.bind (R := fun n => NodeOk asts (some [repr]) n ∧ KindOk n [repr]) ?_
    fun n hn => Ok.pure ⟨by simp, hall, hn.1, hn.2⟩
  cases v with
  | value f =>
    obtain ⟨v, hv, hkv⟩ := hv
    refine Ok.mono (hv _ 0 [repr] repr hp' (by simp) rfl rfl hl hk) fun n hn => ⟨hn.1, ?_⟩
    have hd : Defines repr n := ⟨v, hk ▸ hkv, hn.2⟩
    have ha : repr.kind.isAssignment = true := hk ▸ kindVal_assign hkv
    cases n with
    | table t => intro x hx _; rw [List.mem_singleton.1 hx]; exact hd
    | toplevel es => cases hn.2
    | inline p a es => exact ⟨repr, rfl, ⟨ha, hl⟩, hd⟩
    | scalar s => exact ⟨repr, rfl, ⟨ha, hl⟩, hd⟩
  | tableAssignments f =>
    refine Ok.bind (hv.1 _ 0 [repr] repr [] hp' (by simp) rfl rfl hl hk (nodeOk_empty _))
      fun t ht => Ok.pure ⟨ht, ?_⟩
    intro x hx hx2
    rw [List.mem_singleton.1 hx, IsValueRepr, hk, hv.2] at hx2
    cases hx2.1

theorem insertNode_ok {v : InsertValue} {kind : ReprKind} (hv : InsertT asts v kind) :
    LeafT asts (fun path map i => insertNode path map i v) kind := by
  intro path map i repr hp hm hr hl hk
  show Ok _ (insertNode path map i v repr)
  unfold insertNode
  cases hg : get map i.text with
  | none =>
    simp only
    exact Ok.bind (freshNode_ok hv path i.text repr hp hr hl hk) fun e he =>
      Ok.pure (hm.put he)
  | some e =>
    simp only
    obtain ⟨g1, g2, g3, g4⟩ := hm.entry hg
    obtain ⟨o1, ho1⟩ : ∃ o, e.reprs.head? = some o := by
      cases hh : e.reprs with
      | nil => exact absurd hh g1
      | cons a b => exact ⟨a, rfl⟩
    obtain ⟨er, her⟩ := duplicateKeyError_some hp (g2 o1 (List.mem_of_head? ho1)) hr
    have herr : Ok (fun t => NodeOk asts (around path) (.table t))
        (lift e.reprs.head? >>= fun orig => lift (duplicateKeyError path orig repr) >>= fun er =>
          report er >>= fun _ => (pure map : MapM MapTable)) :=
      Ok.lift ho1 (Ok.lift her (Ok.report (Ok.pure hm)))
    cases v with
    | value f => exact herr
    | tableAssignments f =>
      simp only
      cases hn : e.node with
      | table t =>
        simp only
        obtain ⟨x, hx⟩ := superTableCheck_some hp hr g2
        refine Ok.lift hx ?_
        cases x with
        | some er => exact Ok.report (Ok.pure hm)
        | none =>
          simp only
          have hall : ∀ x ∈ e.reprs ++ [repr], ReprOk asts (around path) i.text x := by
            intro x hx
            rcases List.mem_append.1 hx with hx | hx
            · exact g2 x hx
            · rw [List.mem_singleton.1 hx]; exact hr
          have hp' := hp.table (by simp) hall
          have hmono := nodeOk_mono g3 rfl repr
          rw [hn] at hmono
          refine Ok.bind (hv.1 _ _ (e.reprs ++ [repr]) repr t hp' (by simp) rfl (by simp) hl hk hmono)
            fun t' ht' => ?_
          refine Ok.pure (hm.put ⟨by simp, hall, ht', ?_⟩)
          rw [hn] at g4
          intro x hx hx2
          rcases List.mem_append.1 hx with hx | hx
          · obtain ⟨v, hv, hf⟩ := g4 x hx hx2
            cases hf
            exact ⟨_, hv, .table⟩
          · rw [List.mem_singleton.1 hx, IsValueRepr, hk, hv.2] at hx2
            cases hx2.1
      | toplevel es => exact herr
      | inline p a es => exact herr
      | scalar s => exact herr

theorem insertNodeAtPath_ok {v : InsertValue} {kind : ReprKind} {key : Key} (hv : InsertT asts v kind)
    (hk : kindKey kind = some key) (hne : KeyOk key) {path : List Seg} {parent : Nat} {map : MapTable}
    (hp : PathOk path) (hpar : ∀ kr, IsFirst ⟨parent, kr, kind⟩ → ParentOk asts (around path) ⟨parent, kr, kind⟩)
    (hm : NodeOk asts (around path) (.table map)) :
    Ok (fun t => NodeOk asts (around path) (.table t)) (insertNodeAtPath path parent map key v kind) := by
  cases key with
  | one i =>
    refine insertNode_ok hv path map i _ hp hm ⟨⟨hk, rfl⟩, hpar _ trivial⟩ trivial rfl
  | dotted ids =>
    cases ids with
    | nil => exact absurd rfl hne
    | cons o rest =>
      exact walk_ok hk (freshNode_ok hv) (insertNode_ok hv) rest o 0 path parent map rfl hp (hpar _ rfl) hm

/-- What is inside of a part. -/
theorem belongs_first {p : Repr} (hl : IsLast p) {rs : List Repr} {parent : Nat}
    (hp : rs[parent]? = some p) {kind : ReprKind} (hc : Contains p.kind kind) (kr : KeyRepr)
    (hf : IsFirst ⟨parent, kr, kind⟩) : ParentOk asts (some rs) ⟨parent, kr, kind⟩ :=
  ⟨p, hp, Or.inr ⟨hl, hf, hc⟩⟩

/-! ## Values -/

theorem contains_val {kind : ReprKind} {v : Value} (h : kindVal kind = some v) {x : InlineTableAssignment}
    (hx : HasAssignment v x) : Contains kind (.inlineTableAssignment x) := by
  cases kind <;> simp [kindVal] at h <;> subst h <;> exact hx

mutual

theorem mapValue_ok (v v0 : Value) (kind : ReprKind) (hk : kindVal kind = some v0) (hv : ValOk v)
    (hsub : ∀ x, HasAssignment v x → HasAssignment v0 x) : ValueT asts (mapValue v) kind v := by
  intro path parent rs p hp hne har hpar hl hpk
  cases v with
  | string s => exact Ok.pure ⟨.scalar, .scalar rfl⟩
  | int l s n => exact Ok.pure ⟨.scalar, .scalar rfl⟩
  | float l s f => exact Ok.pure ⟨.scalar, .scalar rfl⟩
  | bool s b => exact Ok.pure ⟨.scalar, .scalar rfl⟩
  | dateTime l s d => exact Ok.pure ⟨.scalar, .scalar rfl⟩
  | invalid l s => exact Ok.pure ⟨.scalar, .scalar rfl⟩
  | inlineTable t =>
    obtain ⟨lp, as, stop⟩ := t
    unfold mapValue
    refine Ok.bind (mapAssignments_ok as v0 kind hk hv (fun x hx => hsub x (.here hx)) path parent rs p []
      hp hne har hpar hl hpk (nodeOk_empty _)) fun t ht => Ok.pure ⟨ht, .table⟩
  | inlineArray t =>
    obtain ⟨c, lp, vs, stop⟩ := t
    unfold mapValue
    refine Ok.bind (mapElements_ok vs v0 kind hk hv
      (fun y hy x hx => hsub x (.elem hy hx)) 0 path parent rs p hp hne har hpar hl hpk) fun es hes => ?_
    exact Ok.pure ⟨.inline ⟨p, hpar, hl, hpk ▸ kindVal_assign hk⟩ hes.1 hes.2.1 hes.2.2, .inline hes.1 hes.2.1⟩

theorem mapElements_ok (vs : List InlineArrayValue) (v0 : Value) (kind : ReprKind)
    (hk : kindVal kind = some v0) (hv : ValsOk vs)
    (hsub : ∀ y ∈ vs, ∀ x, HasAssignment y.val x → HasAssignment v0 x) (i : Nat) (path : List Seg)
    (parent : Nat) (rs : List Repr) (p : Repr) (hp : PathOk path) (hne : path ≠ [])
    (har : around path = some rs) (hpar : rs[parent]? = some p) (hl : IsLast p) (hpk : p.kind = kind) :
    Ok (fun es => es.map (·.repr) = vs ∧ (∀ e ∈ es, FromValue e.repr.val e.node) ∧ ∀ e ∈ es, NodeOk asts (some rs) e.node)
      (mapElements vs i path parent) := by
  cases vs with
  | nil => exact Ok.pure ⟨rfl, by simp, by simp⟩
  | cons x vs =>
    obtain ⟨c, v, m⟩ := x
    unfold mapElements
    refine Ok.bind (mapValue_ok v v0 kind hk hv.1 (hsub ⟨c, v, m⟩ List.mem_cons_self) (.array i :: path) parent
      rs p ⟨hne, hp⟩ (by simp) har hpar hl hpk) fun n hn => ?_
    refine Ok.bind (mapElements_ok vs v0 kind hk hv.2 (fun y hy => hsub y (List.mem_cons_of_mem _ hy)) (i + 1)
      path parent rs p hp hne har hpar hl hpk) fun es hes => ?_
    refine Ok.pure ⟨by simp [hes.1], ?_, ?_⟩ <;> intro e he <;> rcases List.mem_cons.1 he with rfl | he
    · exact hn.2
    · exact hes.2.1 e he
    · exact hn.1
    · exact hes.2.2 e he

theorem mapAssignments_ok (as : List InlineTableAssignment) (v0 : Value) (kind : ReprKind)
    (hk : kindVal kind = some v0) (hv : PairsOk as) (hsub : ∀ x ∈ as, HasAssignment v0 x)
    (path : List Seg) (parent : Nat) (rs : List Repr) (p : Repr) (t : MapTable) (hp : PathOk path)
    (hne : path ≠ []) (har : around path = some rs) (hpar : rs[parent]? = some p) (hl : IsLast p)
    (hpk : p.kind = kind) (ht : NodeOk asts (some rs) (.table t)) :
    Ok (fun t => NodeOk asts (some rs) (.table t)) (mapAssignments as path parent t) := by
  cases as with
  | nil => exact Ok.pure ht
  | cons x as =>
    obtain ⟨⟨k, q, v⟩, m⟩ := x
    unfold mapAssignments
    have hin : Contains p.kind (.inlineTableAssignment ⟨⟨k, q, v⟩, m⟩) := by
      rw [hpk]
      exact contains_val hk (hsub _ List.mem_cons_self)
    have hval : InsertT asts (.value fun path parent => mapValue v path parent)
        (.inlineTableAssignment ⟨⟨k, q, v⟩, m⟩) :=
      ⟨v, mapValue_ok v v (.inlineTableAssignment ⟨⟨k, q, v⟩, m⟩) rfl hv.2.1 (fun _ h => h), rfl⟩
    refine Ok.bind (insertNodeAtPath_ok (kind := .inlineTableAssignment ⟨⟨k, q, v⟩, m⟩) hval rfl hv.1 hp
      (fun kr hf => by rw [har]; exact belongs_first hl hpar hin kr hf) (by rw [har]; exact ht))
      fun t' ht' => ?_
    rw [har] at ht'
    exact mapAssignments_ok as v0 kind hk hv.2.2 (fun x hx => hsub x (List.mem_cons_of_mem _ hx)) path parent
      rs p t' hp hne har hpar hl hpk ht'

end

/-! ## Assignments -/

theorem insertTop_ok (kind : ReprKind) (as : List ToplevelAssignment) (hv : ∀ a ∈ as, AssignOk a)
    (hin : ∀ a ∈ as, Contains kind (.toplevelAssignment a)) :
    AssignsT asts (insertTopLevelAssignments as) kind := by
  intro path parent rs p t hp hne har hpar hl hpk ht
  induction as generalizing t with
  | nil => exact Ok.pure ht
  | cons a as ih =>
    unfold insertTopLevelAssignments
    have hval : InsertT asts (.value (mapValue a.assignment.val)) (.toplevelAssignment a) :=
      ⟨_, mapValue_ok _ _ (.toplevelAssignment a) rfl (hv a List.mem_cons_self).2 (fun _ h => h), rfl⟩
    have hin' : Contains p.kind (.toplevelAssignment a) := by
      rw [hpk]
      exact hin a List.mem_cons_self
    refine Ok.bind (insertNodeAtPath_ok (kind := .toplevelAssignment a) hval rfl (hv a List.mem_cons_self).1 hp
      (fun kr hf => by rw [har]; exact belongs_first hl hpar hin' kr hf) (by rw [har]; exact ht))
      fun t' ht' => ?_
    rw [har] at ht'
    exact ih (fun x hx => hv x (List.mem_cons_of_mem _ hx)) (fun x hx => hin x (List.mem_cons_of_mem _ hx))
      t' ht'

theorem arrayTable_ok (a : ArrayEntry) (hv : ∀ x ∈ a.assignments, AssignOk x) {path : List Seg}
    {parent : Nat} {rs : List Repr} {p : Repr} (hp : PathOk path) (hne : path ≠ [])
    (har : around path = some rs) (hpar : rs[parent]? = some p) (hl : IsLast p)
    (hpk : p.kind = .arrayEntry a) :
    Ok (fun e => e.parent = parent ∧ e.repr = a ∧ NodeOk asts (some rs) (.table e.node))
      (arrayTable a path parent) := by
  unfold arrayTable
  refine Ok.bind (insertTop_ok (asts := asts) (.arrayEntry a) a.assignments hv (fun x hx => hx) path parent rs p [] hp hne har
    hpar hl hpk (nodeOk_empty _)) fun t ht => ?_
  exact Ok.pure ⟨rfl, rfl, ht⟩

theorem freshArray_ok (a : ArrayEntry) (hv : ∀ x ∈ a.assignments, AssignOk x) :
    FreshT asts (freshArray a) (.arrayEntry a) := by
  intro path k repr hp hr hl hk
  have hall : ∀ x ∈ [repr], ReprOk asts (around path) k x := by
    intro x hx
    rw [List.mem_singleton.1 hx]
    exact hr
  have hp' : PathOk (.array 0 :: .table [repr] :: path) := ⟨by simp, hp.table (by simp) hall⟩
  unfold freshArray
  refine Ok.bind (arrayTable_ok (asts := asts) a hv hp' (by simp) rfl rfl hl hk) fun e he => ?_
  refine Ok.pure ⟨by simp, hall, .toplevel (by simp) ?_ ?_, ?_⟩
  · intro x hx
    rw [List.mem_singleton.1 hx, he.1, he.2.1]
    exact ⟨repr, rfl, hl, hk⟩
  · intro x hx
    rw [List.mem_singleton.1 hx]
    exact he.2.2
  · intro x hx
    rw [List.mem_singleton.1 hx, hk]
    rfl

theorem insertArrayEntry_ok (a : ArrayEntry) (hv : ∀ x ∈ a.assignments, AssignOk x) :
    LeafT asts (insertArrayEntry a) (.arrayEntry a) := by
  intro path map i repr hp hm hr hl hk
  unfold insertArrayEntry
  cases hg : get map i.text with
  | none =>
    simp only
    exact Ok.bind (freshArray_ok a hv path i.text repr hp hr hl hk) fun e he =>
      Ok.pure (hm.put he)
  | some e =>
    simp only
    obtain ⟨g1, g2, g3, g4⟩ := hm.entry hg
    obtain ⟨o1, ho1⟩ : ∃ o, e.reprs.head? = some o := by
      cases hh : e.reprs with
      | nil => exact absurd hh g1
      | cons a b => exact ⟨a, rfl⟩
    have ho := g2 o1 (List.mem_of_head? ho1)
    have herr : ∀ er : Error, ∀ g : Repr → Option Error, g o1 = some er →
        Ok (fun t => NodeOk asts (around path) (.table t))
        (lift e.reprs.head? >>= fun orig => lift (g orig) >>= fun er =>
          report er >>= fun _ => (pure map : MapM MapTable)) :=
      fun er g hg => Ok.lift ho1 (Ok.lift hg (Ok.report (Ok.pure hm)))
    obtain ⟨er1, her1⟩ := duplicateKeyError_some hp ho hr
    obtain ⟨er2, her2⟩ := extendError_some (mk := .cannotExtendInlineArray) hp ho hr
    cases hn : e.node with
    | toplevel es =>
      simp only
      have hall : ∀ x ∈ e.reprs ++ [repr], ReprOk asts (around path) i.text x := by
        intro x hx
        rcases List.mem_append.1 hx with hx | hx
        · exact g2 x hx
        · rw [List.mem_singleton.1 hx]; exact hr
      have hp' : PathOk (.array es.length :: .table (e.reprs ++ [repr]) :: path) :=
        ⟨by simp, hp.table (by simp) hall⟩
      have hmono := nodeOk_mono g3 rfl repr
      rw [hn] at hmono
      have hidx : (e.reprs ++ [repr])[e.reprs.length]? = some repr := by simp
      refine Ok.bind (arrayTable_ok (asts := asts) a hv hp' (by simp) rfl hidx hl hk) fun e' he' => ?_
      refine Ok.pure (hm.put ⟨by simp, hall, ?_, ?_⟩)
      rotate_left
      · rw [hn] at g4
        intro x hx
        rcases List.mem_append.1 hx with hx | hx
        · exact g4 x hx
        · rw [List.mem_singleton.1 hx, hk]; rfl
      cases hmono with
      | toplevel k1 k2 k3 =>
        refine .toplevel (by simp) ?_ ?_ <;> intro x hx
        · rcases List.mem_append.1 hx with hx | hx
          · exact k2 x hx
          · rw [List.mem_singleton.1 hx, he'.1, he'.2.1]
            exact ⟨repr, hidx, hl, hk⟩
        · rcases List.mem_append.1 hx with hx | hx
          · exact k3 x hx
          · rw [List.mem_singleton.1 hx]
            exact he'.2.2
    | table t => exact herr _ _ her1
    | inline p a es => exact herr _ _ her2
    | scalar s => exact herr _ _ her1

/-! ## Documents -/

theorem mapAst_ok {root : MapTable} (hm : MapOk asts root) {x : Ast} (hx : x ∈ asts) (hok : AstOk x) :
    Ok (MapOk asts) (mapAst root x) := by
  cases x with
  | assignment a =>
    exact insertNodeAtPath_ok (path := []) (kind := .toplevelAssignment a) (v := .value _)
      ⟨_, mapValue_ok _ _ (.toplevelAssignment a) rfl hok.2 (fun _ h => h), rfl⟩ rfl hok.1 trivial
      (fun kr hf => ⟨rfl, hf, hx⟩) hm
  | comment c => exact Ok.pure hm
  | table t =>
    unfold mapAst
    simp only
    cases hk : t.header.key with
    | none => exact Ok.pure hm
    | some key =>
      exact insertNodeAtPath_ok (path := []) (kind := .table t) (v := .tableAssignments _)
        ⟨insertTop_ok (.table t) t.assignments hok.2 (fun _ h => h), rfl⟩ hk (hok.1 key hk) trivial
        (fun kr hf => ⟨rfl, hf, hx⟩) hm
  | array t =>
    unfold mapAst
    simp only
    cases hk : t.header.key with
    | none => exact Ok.pure hm
    | some key =>
      simp only
      cases key with
      | one i =>
        exact insertArrayEntry_ok t hok.2 [] root i _ trivial hm ⟨⟨hk, rfl⟩, rfl, trivial, hx⟩ trivial rfl
      | dotted ids =>
        cases ids with
        | nil => exact absurd rfl (hok.1 _ hk)
        | cons o rest =>
          exact walk_ok (kind := .arrayEntry t) hk (freshArray_ok t hok.2) (insertArrayEntry_ok t hok.2) rest o
            0 [] ROOT_PARENT root rfl trivial ⟨rfl, rfl, hx⟩ hm

theorem mapAsts_ok (l : List Ast) (hl : ∀ x ∈ l, x ∈ asts ∧ AstOk x) {root : MapTable}
    (hm : MapOk asts root) : Ok (MapOk asts) (mapAsts l root) := by
  induction l generalizing root with
  | nil => exact Ok.pure hm
  | cons x l ih =>
    unfold mapAsts
    have := hl x List.mem_cons_self
    exact Ok.bind (mapAst_ok hm this.1 this.2) fun r hr => ih (fun y hy => hl y (List.mem_cons_of_mem _ hy)) hr

/-- The map of a tree whose keys have names. -/
theorem map_ok (asts : List Ast) (h : ∀ x ∈ asts, AstOk x) : Ok (MapOk asts) (map asts) :=
  mapAsts_ok asts (fun x hx => ⟨hx, h x hx⟩) (nodeOk_empty _)

end Verif.TomlMap
