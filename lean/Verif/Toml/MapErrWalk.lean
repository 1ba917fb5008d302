import Verif.Toml.MapErr

/-! # The diagnostics of the map: each one names a collision -/

namespace Verif.TomlMap
open Verif Verif.Toml Verif.Spec.Toml

variable {asts : List Ast}

/-- All diagnostics of the computation are right for its result. -/
def Errs {α : Type} (P : α → Error → Prop) (r : MapM α) : Prop := ∀ a es, r = some (a, es) → ∀ e ∈ es, P a e

theorem Errs.pure {α : Type} {P : α → Error → Prop} (a : α) : Errs P (Pure.pure a : MapM α) := by
  intro b es h e he
  obtain ⟨rfl, rfl⟩ := pure_some.1 h
  cases he

theorem Ok.of {α : Type} {R : α → Prop} {r : MapM α} (h : Ok R r) {a : α} {es : List Error} (hr : r = some (a, es)) :
    R a := by
  obtain ⟨b, es', hb, h⟩ := h
  rw [hr] at hb
  cases hb
  exact h

/-! ## Messages -/

theorem duplicateKeyError_names {path : List Seg} {loc : Loc} (hn : Names path loc) {k : Str} {o r : Repr} {er : Error}
    (hr : NameOk k r) (h : duplicateKeyError path o r = some er) :
    ∃ ls i j, ContextLines path [o.parent, r.parent] ls ∧ o.key.reprIdent = some i ∧ r.key.reprIdent = some j ∧
      er = .duplicateKey ls (showLoc (loc ++ [.key k])) i.litSpan j.litSpan := by
  obtain ⟨j, hj, rfl⟩ := nameOk_ident hr
  unfold duplicateKeyError at h
  simp only [Option.bind_eq_bind, Option.bind_eq_some_iff] at h
  obtain ⟨ls, h1, j', h2, x, h3, i, h4, h5⟩ := h
  rw [hj] at h2
  cases h2
  rw [joinedPath_names hn] at h3
  cases h3
  cases h5
  exact ⟨ls, i, j, contextLines_spec h1, h4, hj, rfl⟩

theorem extendError_names {mk : List Nat → Str → Span → Span → Error} {path : List Seg} {loc : Loc} (hn : Names path loc)
    {k : Str} {o r : Repr} {er : Error} (hr : NameOk k r) (h : extendError mk path o r = some er) :
    ∃ ls s j, ContextLines path [o.parent, r.parent] ls ∧ o.kind.span = some s ∧ r.key.reprIdent = some j ∧
      er = mk ls (showLoc (loc ++ [.key k])) s j.litSpan := by
  obtain ⟨j, hj, rfl⟩ := nameOk_ident hr
  unfold extendError at h
  simp only [Option.bind_eq_bind, Option.bind_eq_some_iff] at h
  obtain ⟨ls, h1, j', h2, x, h3, i, h4, h5⟩ := h
  rw [hj] at h2
  cases h2
  rw [joinedPath_names hn] at h3
  cases h3
  cases h5
  exact ⟨ls, i, j, contextLines_spec h1, h4, hj, rfl⟩

theorem extendError'_names {mk : List Nat → Str → Span → Span → Error} {path next : List Seg} {shown : Loc}
    (hn : Names next shown) (hne : next ≠ []) {o r : Repr} {er : Error}
    (h : extendError' mk path next o r = some er) :
    ∃ ls s j, ContextLines path [o.parent, r.parent] ls ∧ o.kind.span = some s ∧ r.key.reprIdent = some j ∧
      er = mk ls (showLoc shown) s j.litSpan := by
  unfold extendError' at h
  simp only [Option.bind_eq_bind, Option.bind_eq_some_iff] at h
  obtain ⟨ls, h1, x, h2, s, h3, j, h4, h5⟩ := h
  rw [fmtPath_names hn hne] at h2
  cases h2
  cases h5
  exact ⟨ls, s, j, contextLines_spec h1, h3, h4, rfl⟩

theorem superTableCheck_err {path : List Seg} {new : Repr} {rs : List Repr} {er : Error}
    (h : superTableCheck path new rs = some (some er)) :
    ∃ o ∈ rs, (o.kind.isAssignment = true ∨ IsLast o) ∧ duplicateKeyError path o new = some er := by
  induction rs with
  | nil => cases h
  | cons r rs ih =>
    unfold superTableCheck at h
    split at h
    · obtain ⟨o, h1, h2⟩ := ih h
      exact ⟨o, List.mem_cons_of_mem _ h1, h2⟩
    · rename_i hc
      simp only [Option.bind_eq_bind, Option.bind_eq_some_iff] at h
      obtain ⟨e, h1, h2⟩ := h
      cases h2
      refine ⟨r, List.mem_cons_self, ?_, h1⟩
      rw [isLast_iff]
      cases h1 : r.kind.isAssignment <;> cases h2 : r.key.isLast <;> simp [h1, h2] at hc ⊢

theorem extendCheck_err {prev next : List Seg} {isA : Bool} {o d : Repr} {rs : List Repr} {er : Error}
    (h : extendCheck prev next isA o d rs = some (some er)) :
    (isA = true ∧ (∃ q ∈ rs, ∃ t, q.kind = .table t) ∧
      extendError' .cannotExtendTableWithDottedKey prev next o d = some er) ∨
    ((∃ q ∈ rs, IsValueRepr q) ∧ extendError' .cannotExtendInlineTable prev next o d = some er) := by
  induction rs with
  | nil => cases h
  | cons r rs ih =>
    have up : ((isA = true ∧ (∃ q ∈ rs, ∃ t, q.kind = .table t) ∧
        extendError' .cannotExtendTableWithDottedKey prev next o d = some er) ∨
      ((∃ q ∈ rs, IsValueRepr q) ∧ extendError' .cannotExtendInlineTable prev next o d = some er)) →
      ((isA = true ∧ (∃ q ∈ r :: rs, ∃ t, q.kind = .table t) ∧
        extendError' .cannotExtendTableWithDottedKey prev next o d = some er) ∨
      ((∃ q ∈ r :: rs, IsValueRepr q) ∧ extendError' .cannotExtendInlineTable prev next o d = some er)) := by
      rintro (⟨h1, ⟨q, h2, h3⟩, h4⟩ | ⟨⟨q, h2, h3⟩, h4⟩)
      · exact Or.inl ⟨h1, ⟨q, List.mem_cons_of_mem _ h2, h3⟩, h4⟩
      · exact Or.inr ⟨⟨q, List.mem_cons_of_mem _ h2, h3⟩, h4⟩
    unfold extendCheck at h
    split at h
    · rename_i t hk
      split at h
      · rename_i ha
        simp only [Option.bind_eq_bind, Option.bind_eq_some_iff] at h
        obtain ⟨e, h1, h2⟩ := h
        cases h2
        exact Or.inl ⟨ha, ⟨r, List.mem_cons_self, t, hk⟩, h1⟩
      · exact up (ih h)
    · exact up (ih h)
    · rename_i a hk
      split at h
      · rename_i ha
        simp only [Option.bind_eq_bind, Option.bind_eq_some_iff] at h
        obtain ⟨e, h1, h2⟩ := h
        cases h2
        exact Or.inr ⟨⟨r, List.mem_cons_self, by rw [hk]; rfl, (isLast_iff r).2 ha⟩, h1⟩
      · exact up (ih h)
    · rename_i a hk
      split at h
      · rename_i ha
        simp only [Option.bind_eq_bind, Option.bind_eq_some_iff] at h
        obtain ⟨e, h1, h2⟩ := h
        cases h2
        exact Or.inr ⟨⟨r, List.mem_cons_self, by rw [hk]; rfl, (isLast_iff r).2 ha⟩, h1⟩
      · exact up (ih h)

/-! ## Extending a table -/

theorem names_table {path : List Seg} {loc : Loc} (hn : Names path loc) {ar : Option (List Repr)} {k : Str} {rs : List Repr}
    (h1 : rs ≠ []) (h2 : ∀ x ∈ rs, ReprOk asts ar k x) : Names (.table rs :: path) (loc ++ [.key k]) := by
  refine .table ?_ hn
  cases rs with
  | nil => exact absurd rfl h1
  | cons r rs =>
    obtain ⟨i, hi, ht⟩ := nameOk_ident (h2 r List.mem_cons_self).1
    simp [firstText, hi, ht]

theorem gte_err {path : List Seg} {loc : Loc} (hn : Names path loc) {k : Str} {e e' : Entry}
    {r : Repr} {er : Error} (he : EntryOk asts (around path) k e) (hr : ReprOk asts (around path) k r)
    (hnl : ¬ IsLast r) (h : getTableToExtend path e r = some (e', .err er)) :
    ∃ o ∈ e'.reprs, Collision path (loc ++ [.key k]) e' o r er := by
  obtain ⟨h1, h2, h3, h4⟩ := he
  have hall : ∀ x ∈ e.reprs ++ [r], ReprOk asts (around path) k x := by
    intro x hx
    rcases List.mem_append.1 hx with hx | hx
    · exact h2 x hx
    · rw [List.mem_singleton.1 hx]; exact hr
  have hnv : ¬ IsValueRepr r := fun h => hnl h.2
  unfold getTableToExtend at h
  cases hnode : e.node with
  | table t =>
    rw [hnode] at h
    simp only [Option.bind_eq_bind, Option.bind_eq_some_iff] at h
    obtain ⟨o, ho, d, hd, x, hx, h⟩ := h
    obtain rfl : r = d := by simpa using hd
    cases x with
    | none => cases h
    | some er' =>
      simp only [Option.pure_def, Option.some.injEq, Prod.mk.injEq, Extend.err.injEq] at h
      obtain ⟨rfl, rfl⟩ := h
      have hom := List.mem_of_head? ho
      rcases extendCheck_err hx with ⟨g1, g2, g3⟩ | ⟨g1, g2⟩
      · obtain ⟨ls, s, j, k1, k2, k3, rfl⟩ := extendError'_names (names_table hn (by simp) hall) (by simp) g3
        exact ⟨o, hom, .tableWithDottedKey k1 k2 k3 ho hnl g1 ⟨t, rfl⟩ g2⟩
      · obtain ⟨ls, s, j, k1, k2, k3, rfl⟩ := extendError'_names (names_table hn (by simp) hall) (by simp) g2
        exact ⟨o, hom, .inlineTable k1 k2 k3 ho hnl ⟨t, rfl⟩ g1⟩
  | toplevel es =>
    rw [hnode] at h
    simp only at h
    split at h
    · rename_i ha
      simp only [Option.bind_eq_bind, Option.bind_eq_some_iff] at h
      obtain ⟨o, ho, er', h5, h⟩ := h
      simp only [Option.pure_def, Option.some.injEq, Prod.mk.injEq, Extend.err.injEq] at h
      obtain ⟨rfl, rfl⟩ := h
      obtain ⟨ls, s, j, k1, k2, k3, rfl⟩ := extendError_names hn hr.1 h5
      exact ⟨o, List.mem_of_head? ho, .arrayWithDottedKey k1 k2 k3 ho hnl ha ⟨es, hnode⟩⟩
    · rename_i ha
      simp only [Option.bind_eq_bind, Option.bind_eq_some_iff] at h
      obtain ⟨i, hi, l, hl, o, ho, d, hd, x, hx, h⟩ := h
      cases x with
      | none => cases h
      | some er' =>
        exfalso
        rcases extendCheck_err hx with ⟨g1, g2, g3⟩ | ⟨⟨q, g1, g2⟩, -⟩
        · exact ha g1
        · rw [hnode] at h4
          rcases List.mem_append.1 g1 with g | g
          · have := h4 q g
            rw [g2.1] at this
            cases this
          · rw [List.mem_singleton.1 g] at g2
            exact hnv g2
  | inline p a es =>
    rw [hnode] at h
    simp only [Option.bind_eq_bind, Option.bind_eq_some_iff] at h
    obtain ⟨o, ho, er', h5, h⟩ := h
    simp only [Option.pure_def, Option.some.injEq, Prod.mk.injEq, Extend.err.injEq] at h
    obtain ⟨rfl, rfl⟩ := h
    obtain ⟨ls, s, j, k1, k2, k3, rfl⟩ := extendError_names hn hr.1 h5
    exact ⟨o, List.mem_of_head? ho, .inlineArrayAsTable k1 k2 k3 ho hnl ⟨p, a, es, hnode⟩⟩
  | scalar s =>
    rw [hnode] at h
    simp only [Option.bind_eq_bind, Option.bind_eq_some_iff] at h
    obtain ⟨o, ho, er', h5, h⟩ := h
    simp only [Option.pure_def, Option.some.injEq, Prod.mk.injEq, Extend.err.injEq] at h
    obtain ⟨rfl, rfl⟩ := h
    obtain ⟨ls, i, j, k1, k2, k3, rfl⟩ := duplicateKeyError_names hn hr.1 h5
    exact ⟨o, List.mem_of_head? ho, .duplicateKey k1 k2 k3 (Or.inl ⟨hnl, s, hnode⟩)⟩

theorem gte_up {path : List Seg} {loc : Loc} (hn : Names path loc) {k : Str} {e e' : Entry}
    {r : Repr} {parent : Nat} {next : List Seg} {t : MapTable} (he : EntryOk asts (around path) k e)
    (hr : ReprOk asts (around path) k r) (h : getTableToExtend path e r = some (e', .ok parent next t)) :
    ∃ loc', Names next loc' ∧ ∀ t' er, Blame asts next loc' (.table t') er →
      Blame asts (.table e'.reprs :: path) (loc ++ [.key k]) (setTable e'.node t') er := by
  obtain ⟨h1, h2, h3, h4⟩ := he
  have hall : ∀ x ∈ e.reprs ++ [r], ReprOk asts (around path) k x := by
    intro x hx
    rcases List.mem_append.1 hx with hx | hx
    · exact h2 x hx
    · rw [List.mem_singleton.1 hx]; exact hr
  have hnt : Names (.table (e.reprs ++ [r]) :: path) (loc ++ [.key k]) := names_table hn (by simp) hall
  unfold getTableToExtend at h
  cases hnode : e.node with
  | table t0 =>
    rw [hnode] at h
    simp only [Option.bind_eq_bind, Option.bind_eq_some_iff] at h
    obtain ⟨o, ho, d, hd, x, hx, h⟩ := h
    cases x with
    | some er' => cases h
    | none =>
      simp only [Option.pure_def, Option.some.injEq, Prod.mk.injEq, Extend.ok.injEq] at h
      obtain ⟨rfl, rfl, rfl, rfl⟩ := h
      exact ⟨_, hnt, fun t' er hb => hb⟩
  | toplevel es =>
    rw [hnode] at h
    simp only at h
    split at h
    · simp only [Option.bind_eq_bind, Option.bind_eq_some_iff] at h
      obtain ⟨o, ho, er', h5, h⟩ := h
      cases h
    · simp only [Option.bind_eq_bind, Option.bind_eq_some_iff] at h
      obtain ⟨i, hi, l, hl, o, ho, d, hd, x, hx, h⟩ := h
      cases x with
      | some er' => cases h
      | none =>
        simp only [Option.pure_def, Option.some.injEq, Prod.mk.injEq, Extend.ok.injEq] at h
        obtain ⟨rfl, rfl, rfl, rfl⟩ := h
        have hi' : es.length - 1 = i := by
          unfold subU at hi
          split at hi
          · simpa using hi
          · cases hi
        refine ⟨_, .array (by simp) hnt, fun t' er hb => ?_⟩
        have hst : setTable (.toplevel es) t' = .toplevel (es.dropLast ++ [{ l with node := t' }]) := by
          simp [setTable, hl]
        simp only
        rw [hst]
        refine Blame.toplevel (i := i) (x := { l with node := t' }) ?_ hb
        rw [← hi', List.getElem?_append_right (by simp)]
        simp
  | inline p a es =>
    rw [hnode] at h
    simp only [Option.bind_eq_bind, Option.bind_eq_some_iff] at h
    obtain ⟨o, ho, er', h5, h⟩ := h
    cases h
  | scalar s =>
    rw [hnode] at h
    simp only [Option.bind_eq_bind, Option.bind_eq_some_iff] at h
    obtain ⟨o, ho, er', h5, h⟩ := h
    cases h

/-! ## Walking -/

/-- The diagnostics of the entry of the last name in a new table. -/
def FreshE (asts : List Ast) (fresh : List Seg → Repr → MapM Entry) (kind : ReprKind) : Prop :=
  ∀ path loc k repr, PathOk path → Names path loc → ReprOk asts (around path) k repr → IsLast repr →
    repr.kind = kind →
    Errs (fun (e : Entry) er => Blame asts (.table e.reprs :: path) (loc ++ [.key k]) e.node er) (fresh path repr)

/-- The diagnostics of the entry of the last name in an existing table. -/
def LeafE (asts : List Ast) (leaf : List Seg → MapTable → Ident → Repr → MapM MapTable)
    (kind : ReprKind) : Prop :=
  ∀ path loc map i repr, PathOk path → Names path loc → NodeOk asts (around path) (.table map) →
    ReprOk asts (around path) i.text repr → IsLast repr → repr.kind = kind →
    Errs (fun t er => Blame asts path loc (.table t) er) (leaf path map i repr)

section
variable {fresh : List Seg → Repr → MapM Entry} {leaf : List Seg → MapTable → Ident → Repr → MapM MapTable}
  {kind : ReprKind}

theorem vacantChain_errs {ids : List DottedIdent} (hk : kindKey kind = some (.dotted ids))
    (hf : FreshE asts fresh kind) :
    ∀ (rest : List DottedIdent) (o : DottedIdent) (j : Nat) (path : List Seg) (loc : Loc) (parent : Nat),
      ids.drop j = o :: rest → PathOk path → Names path loc →
      ParentOk asts (around path) ⟨parent, .dotted j ids, kind⟩ →
      Errs (fun (e : Entry) er => Blame asts (.table e.reprs :: path) (loc ++ [.key o.ident.text]) e.node er)
        (vacantChain fresh kind ids j (o :: rest) path parent) := by
  intro rest
  induction rest with
  | nil =>
    intro o j path loc parent hd hp hn hpar
    obtain ⟨h1, -, h3⟩ := drop_cons hd
    have hj : ids.length - 1 = j := by simp at h3; omega
    unfold vacantChain
    rw [hj]
    refine hf path loc _ _ hp hn ⟨nextName hk h1 _, hpar⟩ ?_ rfl
    show j + 1 = ids.length
    simp at h3; omega
  | cons o' rest ih =>
    intro o j path loc parent hd hp hn hpar
    obtain ⟨h1, h2, h3⟩ := drop_cons hd
    have hr : ReprOk asts (around path) o.ident.text ⟨parent, .dotted j ids, kind⟩ :=
      ⟨nextName hk h1 _, hpar⟩
    have hall : ∀ x ∈ [(⟨parent, .dotted j ids, kind⟩ : Repr)], ReprOk asts (around path) o.ident.text x := by
      intro x hx
      rw [List.mem_singleton.1 hx]
      exact hr
    have hp' := hp.table (by simp) hall
    unfold vacantChain
    intro e es h er her
    obtain ⟨inner, h4, rfl⟩ := bind_pure_some.1 h
    have := ih o' (j + 1) _ _ 0 h2 hp' (names_table hn (by simp) hall) (nextParent (p0 := parent) rfl) inner es h4 er her
    exact Blame.key (k := o'.ident.text) (e := inner) (by simp [put, get]) this

theorem walk_errs {ids : List DottedIdent} (hk : kindKey kind = some (.dotted ids))
    (hf : FreshE asts fresh kind) (hl : LeafE asts leaf kind) :
    ∀ (rest : List DottedIdent) (o : DottedIdent) (i : Nat) (path : List Seg) (loc : Loc) (parent : Nat)
      (map : MapTable), ids.drop i = o :: rest → PathOk path → Names path loc →
      ParentOk asts (around path) ⟨parent, .dotted i ids, kind⟩ →
      NodeOk asts (around path) (.table map) →
      Errs (fun t er => Blame asts path loc (.table t) er) (walk fresh leaf kind ids i (o :: rest) path parent map)
      := by
  intro rest
  induction rest with
  | nil =>
    intro o j path loc parent map hd hp hn hpar hm
    obtain ⟨h1, -, h3⟩ := drop_cons hd
    have hj : ids.length - 1 = j := by simp at h3; omega
    unfold walk
    rw [hj]
    refine hl path loc map _ _ hp hn hm ⟨nextName hk h1 _, hpar⟩ ?_ rfl
    show j + 1 = ids.length
    simp at h3; omega
  | cons o' rest ih =>
    intro o j path loc parent map hd hp hn hpar hm
    obtain ⟨h1, h2, h3⟩ := drop_cons hd
    have hr : ReprOk asts (around path) o.ident.text ⟨parent, .dotted j ids, kind⟩ :=
      ⟨nextName hk h1 _, hpar⟩
    unfold walk
    cases hg : get map o.ident.text with
    | none =>
      simp only
      intro t es h er her
      obtain ⟨e, h4, rfl⟩ := bind_pure_some.1 h
      have := vacantChain_errs hk hf (o' :: rest) o j path loc parent hd hp hn hpar e es h4 er her
      exact Blame.key (k := o.ident.text) (e := e) (get_put_same _ _ _) this
    | some e =>
      simp only
      have hnl : ¬ IsLast ⟨parent, .dotted j ids, kind⟩ := fun h => by
        have : j + 1 = ids.length := h
        simp at h3; omega
      intro t es h er her
      obtain ⟨⟨e', ext⟩, h4, h⟩ := lift_bind_some.1 h
      obtain ⟨e'', ext', he, k1, k4⟩ := getTableToExtend_some hp (hm.entry hg) hr hnl
      rw [h4] at he
      cases he
      cases ext with
      | err er' =>
        obtain ⟨es', h5, rfl⟩ := report_bind_some.1 h
        obtain ⟨rfl, rfl⟩ := pure_some.1 h5
        obtain rfl := List.mem_singleton.1 her
        obtain ⟨o1, ho1, hc⟩ := gte_err hn (hm.entry hg) hr hnl h4
        exact Blame.here (get_put_same _ _ _) ho1 hr hc
      | ok p1 next t0 =>
        obtain ⟨m1, m2, m3, m4, m5⟩ := k4 _ _ _ rfl
        simp only at h
        obtain ⟨t', h5, rfl⟩ := bind_pure_some.1 h
        have hpar' : ParentOk asts (around next) ⟨p1, .dotted (j + 1) ids, kind⟩ := by
          rw [m2]
          exact nextParent m3
        obtain ⟨loc', hn', hup⟩ := gte_up hn (hm.entry hg) hr h4
        have := ih o' (j + 1) next loc' p1 t0 h2 m1 hn' hpar' (by rw [m2]; exact m4) t' es h5 er her
        exact Blame.key (e := ⟨setTable e'.node t', e'.reprs⟩) (get_put_same _ _ _) (hup t' er this)

end

/-! ## Inserting -/

/-- The diagnostics of a value behind a representation of kind `kind`. -/
def ValueE (asts : List Ast) (f : List Seg → Nat → MapM MapNode) (kind : ReprKind) : Prop :=
  ∀ path loc parent rs p, PathOk path → path ≠ [] → Names path loc → around path = some rs → rs[parent]? = some p →
    IsLast p → p.kind = kind → Errs (fun n er => Blame asts path loc n er) (f path parent)

/-- The diagnostics of assignments behind a representation of kind `kind`. -/
def AssignsE (asts : List Ast) (f : List Seg → Nat → MapTable → MapM MapTable) (kind : ReprKind) : Prop :=
  ∀ path loc parent rs p t, PathOk path → path ≠ [] → Names path loc → around path = some rs → rs[parent]? = some p →
    IsLast p → p.kind = kind → NodeOk asts (some rs) (.table t) →
    Errs (fun t er => Blame asts path loc (.table t) er) (f path parent t)

def InsertE (asts : List Ast) (v : InsertValue) (kind : ReprKind) : Prop :=
  match v with
  | .value f => ValueE asts f kind ∧ kind.isAssignment = true
  | .tableAssignments f => AssignsE asts f kind ∧ ∃ t, kind = .table t

theorem freshNode_errs {v : InsertValue} {kind : ReprKind} (hv : InsertE asts v kind) :
    FreshE asts (fun path => freshNode path v) kind := by
  intro path loc k repr hp hn hr hl hk
  have hall : ∀ x ∈ [repr], ReprOk asts (around path) k x := by
    intro x hx
    rw [List.mem_singleton.1 hx]
    exact hr
  have hp' := hp.table (by simp) hall
  have hn' : Names (.table [repr] :: path) (loc ++ [.key k]) := names_table hn (by simp) hall
  show Errs _ (freshNode path v repr)
  unfold freshNode
  intro e es h er her
  obtain ⟨n, h4, rfl⟩ := bind_pure_some.1 h
  show Blame asts (.table [repr] :: path) _ n er
  cases v with
  | value f => exact hv.1 _ _ 0 [repr] repr hp' (by simp) hn' rfl rfl hl hk n es h4 er her
  | tableAssignments f =>
    unfold mapInsertValue at h4
    obtain ⟨t, h5, rfl⟩ := bind_pure_some.1 h4
    exact hv.1 _ _ 0 [repr] repr [] hp' (by simp) hn' rfl rfl hl hk (nodeOk_empty _) t es h5 er her

theorem insertNode_errs {v : InsertValue} {kind : ReprKind} (hv : InsertE asts v kind) :
    LeafE asts (fun path map i => insertNode path map i v) kind := by
  intro path loc map i repr hp hn hm hr hl hk
  show Errs _ (insertNode path map i v repr)
  unfold insertNode
  cases hg : get map i.text with
  | none =>
    simp only
    intro t es h er her
    obtain ⟨e, h4, rfl⟩ := bind_pure_some.1 h
    exact Blame.key (e := e) (get_put_same _ _ _)
      (freshNode_errs hv path loc i.text repr hp hn hr hl hk e es h4 er her)
  | some e =>
    simp only
    obtain ⟨g1, g2, g3, g4⟩ := hm.entry hg
    have herr : Duplicate e repr → Errs (fun t er => Blame asts path loc (.table t) er)
        (lift e.reprs.head? >>= fun orig => lift (duplicateKeyError path orig repr) >>= fun er =>
          report er >>= fun _ => (pure map : MapM MapTable)) := by
      intro hd t es h er her
      obtain ⟨o, ho, h⟩ := lift_bind_some.1 h
      obtain ⟨er', he, h⟩ := lift_bind_some.1 h
      obtain ⟨es', h5, rfl⟩ := report_bind_some.1 h
      obtain ⟨rfl, rfl⟩ := pure_some.1 h5
      obtain rfl := List.mem_singleton.1 her
      obtain ⟨ls, i', j, k1, k2, k3, rfl⟩ := duplicateKeyError_names hn hr.1 he
      exact Blame.here hg (List.mem_of_head? ho) hr (.duplicateKey k1 k2 k3 hd)
    cases v with
    | value f =>
      exact herr (Or.inr ⟨hl, Or.inl (by rw [hk]; exact hv.2)⟩)
    | tableAssignments f =>
      obtain ⟨hv1, tb, hkt⟩ := hv
      simp only
      have hclosed : (∀ t, e.node ≠ .table t) → Duplicate e repr := fun h =>
        Or.inr ⟨hl, Or.inr (Or.inl ⟨⟨tb, by rw [hk, hkt]⟩, Or.inl h⟩)⟩
      cases hnode : e.node with
      | table t =>
        simp only
        intro t' es h er her
        obtain ⟨x, hx, h⟩ := lift_bind_some.1 h
        cases x with
        | some er' =>
          obtain ⟨es', h5, rfl⟩ := report_bind_some.1 h
          obtain ⟨rfl, rfl⟩ := pure_some.1 h5
          obtain rfl := List.mem_singleton.1 her
          obtain ⟨o, ho, hoc, he⟩ := superTableCheck_err hx
          obtain ⟨ls, i', j, k1, k2, k3, rfl⟩ := duplicateKeyError_names hn hr.1 he
          exact Blame.here hg ho hr (.duplicateKey k1 k2 k3
            (Or.inr ⟨hl, Or.inr (Or.inl ⟨⟨tb, by rw [hk, hkt]⟩, Or.inr ⟨o, ho, hoc⟩⟩)⟩))
        | none =>
          simp only at h
          have hall : ∀ x ∈ e.reprs ++ [repr], ReprOk asts (around path) i.text x := by
            intro x hx
            rcases List.mem_append.1 hx with hx | hx
            · exact g2 x hx
            · rw [List.mem_singleton.1 hx]; exact hr
          have hp' := hp.table (by simp) hall
          have hmono := nodeOk_mono g3 rfl repr
          rw [hnode] at hmono
          obtain ⟨t1, h5, rfl⟩ := bind_pure_some.1 h
          have := hv1 _ _ _ (e.reprs ++ [repr]) repr t hp' (by simp) (names_table hn (by simp) hall) rfl (by simp) hl hk
            hmono t1 es h5 er her
          exact Blame.key (e := ⟨.table t1, e.reprs ++ [repr]⟩) (get_put_same _ _ _) this
      | toplevel es => exact herr (hclosed (by rw [hnode]; intro t h; cases h))
      | inline p a es => exact herr (hclosed (by rw [hnode]; intro t h; cases h))
      | scalar s => exact herr (hclosed (by rw [hnode]; intro t h; cases h))

theorem insertNodeAtPath_errs {v : InsertValue} {kind : ReprKind} {key : Key} (hv : InsertE asts v kind)
    (hk : kindKey kind = some key) (hne : KeyOk key) {path : List Seg} {loc : Loc} {parent : Nat} {map : MapTable}
    (hp : PathOk path) (hn : Names path loc)
    (hpar : ∀ kr, IsFirst ⟨parent, kr, kind⟩ → ParentOk asts (around path) ⟨parent, kr, kind⟩)
    (hm : NodeOk asts (around path) (.table map)) :
    Errs (fun t er => Blame asts path loc (.table t) er) (insertNodeAtPath path parent map key v kind) := by
  cases key with
  | one i =>
    refine insertNode_errs hv path loc map i _ hp hn hm ⟨⟨hk, rfl⟩, hpar _ trivial⟩ trivial rfl
  | dotted ids =>
    cases ids with
    | nil => exact absurd rfl hne
    | cons o rest =>
      exact walk_errs hk (freshNode_errs hv) (insertNode_errs hv) rest o 0 path loc parent map rfl hp hn (hpar _ rfl) hm

end Verif.TomlMap
