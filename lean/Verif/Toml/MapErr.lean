import Verif.Spec.MapErrors
import Verif.Toml.MapGrow
import Verif.Toml.MapShape
import Verif.Toml.MapTotalWalk
import Verif.Toml.PathLemmas

/-! # The diagnostics of the map: growing -/

namespace Verif.TomlMap
open Verif Verif.Toml Verif.Spec.Toml

variable {asts : List Ast}

/-- The path with more representations. -/
inductive SegsLe : List Seg → List Seg → Prop
  | nil : SegsLe [] []
  | table {rs rs' p p'} : rs <+: rs' → SegsLe p p' → SegsLe (.table rs :: p) (.table rs' :: p')
  | array {i p p'} : SegsLe p p' → SegsLe (.array i :: p) (.array i :: p')

theorem SegsLe.refl : ∀ p, SegsLe p p
  | [] => .nil
  | .table _ :: p => .table List.prefix_rfl (SegsLe.refl p)
  | .array _ :: p => .array (SegsLe.refl p)

theorem prefix_getElem? {α : Type} {l l' : List α} (h : l <+: l') {n : Nat} (hn : n < l.length) : l'[n]? = l[n]? := by
  obtain ⟨t, rfl⟩ := h
  rw [List.getElem?_append_left hn]

theorem encloses_le {p p' : List Seg} (h : SegsLe p p') (hp : PathOk p) {n : Nat} (hn : InRange p n) (q : Repr) :
    Encloses p n q ↔ Encloses p' n q := by
  induction h generalizing n q with
  | nil => exact Iff.rfl
  | @table rs rs' p p' hrs hle ih =>
    have hn' : n < rs.length := hn
    have e := prefix_getElem? hrs hn'
    have hr := hp.2.1 rs[n] (List.getElem_mem hn')
    constructor
    · intro hq
      cases hq with
      | here h1 => exact .here (by rw [e]; exact h1)
      | up h1 h2 =>
        refine .up (by rw [e]; exact h1) ?_
        rw [List.getElem?_eq_getElem hn'] at h1
        cases h1
        exact (ih hp.2.2 hr.2 _).1 h2
    · intro hq
      cases hq with
      | here h1 => exact .here (by rw [← e]; exact h1)
      | up h1 h2 =>
        rw [e] at h1
        refine .up h1 ?_
        rw [List.getElem?_eq_getElem hn'] at h1
        cases h1
        exact (ih hp.2.2 hr.2 _).2 h2
  | array hle ih =>
    constructor
    · intro hq
      cases hq with
      | skip h => exact .skip ((ih hp.2 hn _).1 h)
    · intro hq
      cases hq with
      | skip h => exact .skip ((ih hp.2 hn _).2 h)

theorem contextLines_le {p p' : List Seg} (h : SegsLe p p') (hp : PathOk p) {ns ls : List Nat}
    (hn : ∀ n ∈ ns, InRange p n) (hc : ContextLines p ns ls) : ContextLines p' ns ls := by
  refine ⟨hc.1, fun l => (hc.2 l).trans ?_⟩
  constructor
  · rintro ⟨n, h1, q, h2, h3⟩
    exact ⟨n, h1, q, (encloses_le h hp (hn n h1) q).1 h2, h3⟩
  · rintro ⟨n, h1, q, h2, h3⟩
    exact ⟨n, h1, q, (encloses_le h hp (hn n h1) q).2 h2, h3⟩

theorem parentOk_le {p p' : List Seg} (h : SegsLe p p') {r : Repr} (hr : ParentOk asts (around p) r) :
    ParentOk asts (around p') r := by
  induction h with
  | nil => exact hr
  | table hrs hle =>
    obtain ⟨q, hq, hb⟩ := hr
    refine ⟨q, ?_, hb⟩
    obtain ⟨t, rfl⟩ := hrs
    rw [List.getElem?_append_left (List.getElem?_eq_some_iff.1 hq).1]
    exact hq
  | array hle ih => exact ih hr

/-! ## Paths in a map that grows -/

theorem gr_kind {n n' : MapNode} {rs rs' : List Repr} (h : Gr n rs n' rs') : SameKind n n' ∧ rs <+: rs' := by
  obtain ⟨x, hx, hr⟩ := h [] (n, rs) (by cases n <;> rfl)
  have : x = (n', rs') := by
    have e : entryAt n' rs' [] = some (n', rs') := by cases n' <;> rfl
    rw [e] at hx
    cases hx
    rfl
  subst this
  exact ⟨hr.2.1, hr.1⟩

theorem pathTo_gr (p : Loc) : ∀ {n n' : MapNode} {rs rs' : List Repr} {prev prev' segs : List Seg} {e : Entry},
    Gr n rs n' rs' → SegsLe prev prev' → pathTo n prev p = some (segs, e) →
    ∃ segs' e', pathTo n' prev' p = some (segs', e') ∧ SegsLe segs segs' ∧
      Rel (e.node, e.reprs) (e'.node, e'.reprs) := by
  induction p with
  | nil =>
    intro n n' rs rs' prev prev' segs e hg hle h
    cases n <;> simp [pathTo] at h
  | cons s p ih =>
    intro n n' rs rs' prev prev' segs e hg hle h
    obtain ⟨hk, -⟩ := gr_kind hg
    cases n with
    | table t =>
      cases n' with
      | table t' =>
        cases s with
        | idx i => simp [pathTo] at h
        | key k =>
          unfold pathTo at h ⊢
          cases hgt : get t k with
          | none => rw [hgt] at h; cases h
          | some e0 =>
            rw [hgt] at h
            obtain ⟨e1, he1, hg1⟩ := hg.entries k e0 hgt
            rw [he1]
            simp only at h ⊢
            cases p with
            | nil =>
              simp only [Option.some.injEq, Prod.mk.injEq] at h
              obtain ⟨rfl, rfl⟩ := h
              obtain ⟨x, hx, hr⟩ := hg1 [] (e0.node, e0.reprs) (by cases e0.node <;> rfl)
              have : x = (e1.node, e1.reprs) := by
                have e : entryAt e1.node e1.reprs [] = some (e1.node, e1.reprs) := by cases e1.node <;> rfl
                rw [e] at hx
                cases hx
                rfl
              subst this
              exact ⟨prev', e1, rfl, hle, hr⟩
            | cons s' p' =>
              simp only at h ⊢
              exact ih hg1 (.table (gr_kind hg1).2 hle) h
      | _ => simp [SameKind] at hk
    | toplevel es =>
      cases n' with
      | toplevel es' =>
        cases s with
        | key k => simp [pathTo] at h
        | idx i =>
          unfold pathTo at h ⊢
          simp only [Option.bind_eq_some_iff] at h ⊢
          obtain ⟨x, hx, h⟩ := h
          obtain ⟨y, hy, -⟩ := hg [.idx i] (.table x.node, []) (by simp [entryAt, hx])
          simp only [entryAt, Option.bind_eq_some_iff] at hy
          obtain ⟨x', hx', -⟩ := hy
          have hg' : Gr (.table x.node) [] (.table x'.node) [] := by
            intro q z hz
            obtain ⟨z', hz', hr⟩ := hg (.idx i :: q) z (by simp only [entryAt, hx, Option.bind_some]; exact hz)
            simp only [entryAt, hx', Option.bind_some] at hz'
            exact ⟨z', hz', hr⟩
          obtain ⟨segs', e', h1, h2⟩ := ih hg' (.array hle) h
          exact ⟨segs', e', ⟨x', hx', h1⟩, h2⟩
      | _ => simp [SameKind] at hk
    | inline q a es =>
      have hk' : n' = .inline q a es := by cases n' <;> simpa [SameKind] using hk
      subst hk'
      cases s with
      | key k => simp [pathTo] at h
      | idx i =>
        unfold pathTo at h ⊢
        simp only [Option.bind_eq_some_iff] at h ⊢
        obtain ⟨x, hx, h⟩ := h
        obtain ⟨segs', e', h1, h2⟩ := ih (Gr.refl x.node []) (.array hle) h
        exact ⟨segs', e', ⟨x, hx, h1⟩, h2⟩
    | scalar x => cases s <;> simp [pathTo] at h

/-! ## Diagnostics in a map that grows -/

theorem rel_scalar {x y : MapNode × List Repr} (h : Rel x y) {s : Scalar} (hx : x.1 = .scalar s) : y.1 = .scalar s := by
  obtain ⟨x1, x2⟩ := x
  obtain ⟨y1, y2⟩ := y
  dsimp only at hx
  subst hx
  have := h.2.1
  cases y1 <;> simpa [SameKind] using this

theorem rel_table {x y : MapNode × List Repr} (h : Rel x y) (hx : ∃ t, x.1 = .table t) : ∃ t, y.1 = .table t := by
  obtain ⟨x1, x2⟩ := x
  obtain ⟨y1, y2⟩ := y
  obtain ⟨t, hx⟩ := hx
  dsimp only at hx
  subst hx
  have := h.2.1
  cases y1 <;> simp [SameKind] at this ⊢

theorem rel_toplevel {x y : MapNode × List Repr} (h : Rel x y) (hx : ∃ t, x.1 = .toplevel t) :
    ∃ t, y.1 = .toplevel t := by
  obtain ⟨x1, x2⟩ := x
  obtain ⟨y1, y2⟩ := y
  obtain ⟨t, hx⟩ := hx
  dsimp only at hx
  subst hx
  have := h.2.1
  cases y1 <;> simp [SameKind] at this ⊢

theorem rel_inline {x y : MapNode × List Repr} (h : Rel x y) (hx : ∃ p a es, x.1 = .inline p a es) :
    ∃ p a es, y.1 = .inline p a es := by
  obtain ⟨x1, x2⟩ := x
  obtain ⟨y1, y2⟩ := y
  obtain ⟨p, a, es, hx⟩ := hx
  dsimp only at hx
  subst hx
  have := h.2.1
  cases y1 <;> simp_all [SameKind]

theorem rel_closed {x y : MapNode × List Repr} (h : Rel x y) (hx : ClosedTable x.1 x.2) : ClosedTable y.1 y.2 := by
  rcases hx with hx | ⟨r, hr, hx⟩
  · left
    intro t ht
    obtain ⟨x1, x2⟩ := x
    obtain ⟨y1, y2⟩ := y
    dsimp only at ht
    subst ht
    have := h.2.1
    cases x1 <;> simp_all [SameKind]
  · exact Or.inr ⟨r, h.1.subset hr, hx⟩

theorem rel_head {rs rs' : List Repr} (h : rs <+: rs') {o : Repr} (ho : rs.head? = some o) : rs'.head? = some o := by
  obtain ⟨t, rfl⟩ := h
  cases rs with
  | nil => cases ho
  | cons a l => exact ho

theorem collision_le {p p' : List Seg} {loc : Loc} {e e' : Entry} {o r : Repr} {er : Error} (hle : SegsLe p p')
    (hp : PathOk p) (ho : InRange p o.parent) (hr : InRange p r.parent)
    (hrel : Rel (e.node, e.reprs) (e'.node, e'.reprs)) (h : Collision p loc e o r er) :
    Collision p' loc e' o r er := by
  have hc : ∀ ls, ContextLines p [o.parent, r.parent] ls → ContextLines p' [o.parent, r.parent] ls :=
    fun ls hl => contextLines_le hle hp (by simp [ho, hr]) hl
  cases h with
  | duplicateKey h1 h2 h3 h4 =>
    refine .duplicateKey (hc _ h1) h2 h3 ?_
    rcases h4 with ⟨h4, s, h5⟩ | ⟨h4, h5 | ⟨h5, h6⟩ | ⟨h5, h6 | ⟨s, h6⟩⟩⟩
    · exact Or.inl ⟨h4, s, rel_scalar hrel h5⟩
    · exact Or.inr ⟨h4, Or.inl h5⟩
    · exact Or.inr ⟨h4, Or.inr (Or.inl ⟨h5, rel_closed hrel h6⟩)⟩
    · exact Or.inr ⟨h4, Or.inr (Or.inr ⟨h5, Or.inl (rel_table hrel h6)⟩)⟩
    · exact Or.inr ⟨h4, Or.inr (Or.inr ⟨h5, Or.inr ⟨s, rel_scalar hrel h6⟩⟩)⟩
  | tableWithDottedKey h1 h2 h3 h4 h5 h6 h7 h8 =>
    obtain ⟨q, hq, h8⟩ := h8
    exact .tableWithDottedKey (hc _ h1) h2 h3 (rel_head hrel.1 h4) h5 h6 (rel_table hrel h7) ⟨q, hrel.1.subset hq, h8⟩
  | inlineTable h1 h2 h3 h4 h5 h6 h7 =>
    obtain ⟨q, hq, h7⟩ := h7
    exact .inlineTable (hc _ h1) h2 h3 (rel_head hrel.1 h4) h5 (rel_table hrel h6) ⟨q, hrel.1.subset hq, h7⟩
  | arrayWithDottedKey h1 h2 h3 h4 h5 h6 h7 =>
    exact .arrayWithDottedKey (hc _ h1) h2 h3 (rel_head hrel.1 h4) h5 h6 (rel_toplevel hrel h7)
  | inlineArray h1 h2 h3 h4 h5 h6 h7 =>
    exact .inlineArray (hc _ h1) h2 h3 (rel_head hrel.1 h4) h5 h6 (rel_inline hrel h7)
  | inlineArrayAsTable h1 h2 h3 h4 h5 h6 =>
    exact .inlineArrayAsTable (hc _ h1) h2 h3 (rel_head hrel.1 h4) h5 (rel_inline hrel h6)

/-- The diagnostic is about something below the node, to which the path and the location lead. -/
def Blame (asts : List Ast) (path : List Seg) (loc : Loc) (n : MapNode) (er : Error) : Prop :=
  ∃ p k segs e o r, pathTo n path (p ++ [.key k]) = some (segs, e) ∧ o ∈ e.reprs ∧ ReprOk asts (around segs) k r ∧
    Collision segs (loc ++ p ++ [.key k]) e o r er

theorem Blame.grow {path path' : List Seg} {loc : Loc} {n n' : MapNode} {rs rs' : List Repr} {er : Error}
    (h : Blame asts path loc n er) (hp : PathOk path) (hn : NodeOk asts (around path) n)
    (hne : (∃ t, n = .table t) ∨ path ≠ []) (hle : SegsLe path path') (hg : Gr n rs n' rs') :
    Blame asts path' loc n' er := by
  obtain ⟨p, k, segs, e, o, r, h1, h2, h3, h4⟩ := h
  obtain ⟨hps, k', he⟩ := pathTo_ok _ n path hp hn hne segs e h1
  obtain ⟨segs', e', g1, g2, g3⟩ := pathTo_gr _ hg hle h1
  exact ⟨p, k, segs', e', o, r, g1, g3.1.subset h2, ⟨h3.1, parentOk_le g2 h3.2⟩,
    collision_le g2 hps (he.2.1 o h2).inRange h3.inRange g3 h4⟩

/-! ## Going up -/

theorem pathTo_key {t : MapTable} {path : List Seg} {k : Str} {e : Entry} (hg : get t k = some e) {p : Loc}
    (hp : p ≠ []) : pathTo (.table t) path (.key k :: p) = pathTo e.node (.table e.reprs :: path) p := by
  cases p with
  | nil => exact absurd rfl hp
  | cons s p => simp only [pathTo, hg]

theorem Blame.key {path : List Seg} {loc : Loc} {t : MapTable} {k : Str} {e : Entry} {er : Error}
    (hg : get t k = some e) (h : Blame asts (.table e.reprs :: path) (loc ++ [.key k]) e.node er) :
    Blame asts path loc (.table t) er := by
  obtain ⟨p, k', segs, e', o, r, h1, h2⟩ := h
  refine ⟨.key k :: p, k', segs, e', o, r, ?_, ?_⟩
  · rw [List.cons_append, pathTo_key hg (by simp)]
    exact h1
  · simpa using h2

theorem Blame.toplevel {path : List Seg} {loc : Loc} {es : List ArrayTable} {i : Nat} {x : ArrayTable} {er : Error}
    (hx : es[i]? = some x) (h : Blame asts (.array i :: path) (loc ++ [.idx i]) (.table x.node) er) :
    Blame asts path loc (.toplevel es) er := by
  obtain ⟨p, k', segs, e', o, r, h1, h2⟩ := h
  refine ⟨.idx i :: p, k', segs, e', o, r, ?_, ?_⟩
  · simp only [List.cons_append, pathTo, hx, Option.bind_some]
    exact h1
  · simpa using h2

theorem Blame.inline {path : List Seg} {loc : Loc} {q : Nat} {a : InlineArray} {es : List InlineEntry} {i : Nat}
    {x : InlineEntry} {er : Error} (hx : es[i]? = some x)
    (h : Blame asts (.array i :: path) (loc ++ [.idx i]) x.node er) :
    Blame asts path loc (.inline q a es) er := by
  obtain ⟨p, k', segs, e', o, r, h1, h2⟩ := h
  refine ⟨.idx i :: p, k', segs, e', o, r, ?_, ?_⟩
  · simp only [List.cons_append, pathTo, hx, Option.bind_some]
    exact h1
  · simpa using h2

theorem Blame.here {path : List Seg} {loc : Loc} {t : MapTable} {k : Str} {e : Entry} {o r : Repr} {er : Error}
    (hg : get t k = some e) (ho : o ∈ e.reprs) (hr : ReprOk asts (around path) k r)
    (h : Collision path (loc ++ [.key k]) e o r er) : Blame asts path loc (.table t) er :=
  ⟨[], k, path, e, o, r, by simp [pathTo, hg], ho, hr, by simpa using h⟩

end Verif.TomlMap
