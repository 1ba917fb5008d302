import Verif.Spec.MapAll
import Verif.Toml.MapGrow

/-! # Every part of a document is in the map or is reported -/

namespace Verif.TomlMap
open Verif Verif.Toml Verif.Spec.Toml

/-- The part is an entry below a node. -/
def Hd (n : MapNode) (rs : List Repr) (k : ReprKind) : Prop :=
  ∃ p m qs r, entryAt n rs p = some (m, qs) ∧ r ∈ qs ∧ r.kind = k ∧ IsLast r

theorem Hd.gr {n n' : MapNode} {rs rs' : List Repr} {k : ReprKind} (h : Hd n rs k) (hg : Gr n rs n' rs') : Hd n' rs' k := by
  obtain ⟨p, m, qs, r, h1, h2, h3, h4⟩ := h
  obtain ⟨⟨m', qs'⟩, g1, g2⟩ := hg p _ h1
  exact ⟨p, m', qs', r, g1, g2.1.subset h2, h3, h4⟩

theorem Hd.reprs {n : MapNode} {rs : List Repr} {k : ReprKind} (h : Hd n [] k) : Hd n rs k := h.gr (Gr.reprs n (List.nil_prefix))

theorem Hd.self {n : MapNode} {rs : List Repr} {r : Repr} (h : r ∈ rs) (hl : IsLast r) : Hd n rs r.kind :=
  ⟨[], n, rs, r, by simp [entryAt], h, rfl, hl⟩

theorem Hd.table {t : MapTable} {rs : List Repr} {x : Str} {e : Entry} {k : ReprKind} (hg : get t x = some e) (h : Hd e.node e.reprs k) :
    Hd (.table t) rs k := by
  obtain ⟨p, m, qs, r, h1, h2⟩ := h
  exact ⟨.key x :: p, m, qs, r, by simp only [entryAt, hg, Option.bind_some]; exact h1, h2⟩

theorem Hd.put {t : MapTable} {rs : List Repr} {x : Str} {e : Entry} {k : ReprKind} (h : Hd e.node e.reprs k) : Hd (.table (put t x e)) rs k :=
  Hd.table (get_put_same t x e) h

theorem Hd.toplevel {es : List ArrayTable} {rs : List Repr} {i : Nat} {e : ArrayTable} {k : ReprKind} (hg : es[i]? = some e)
    (h : Hd (.table e.node) [] k) : Hd (.toplevel es) rs k := by
  obtain ⟨p, m, qs, r, h1, h2⟩ := h
  exact ⟨.idx i :: p, m, qs, r, by simp only [entryAt, hg, Option.bind_some]; exact h1, h2⟩

theorem Hd.inline {es : List InlineEntry} {q : Nat} {a : InlineArray} {rs : List Repr} {i : Nat} {e : InlineEntry} {k : ReprKind} (hg : es[i]? = some e)
    (h : Hd e.node [] k) : Hd (.inline q a es) rs k := by
  obtain ⟨p, m, qs, r, h1, h2⟩ := h
  exact ⟨.idx i :: p, m, qs, r, by simp only [entryAt, hg, Option.bind_some]; exact h1, h2⟩

/-! ## Accounting -/

section
variable {H H' : ReprKind → Prop} {parts parts' : List ReprKind} {es es' : List Error} {k : ReprKind}

theorem _root_.Verif.Spec.Toml.Matches.append {ks ks' : List ReprKind} (h : Matches es ks) (h' : Matches es' ks') : Matches (es ++ es') (ks ++ ks') := by
  induction h with
  | nil => exact h'
  | cons h1 _ ih => exact .cons h1 ih

theorem _root_.Verif.Spec.Toml.Accounted.nil : Accounted H [] [] := ⟨[], .slnil, .nil, by simp⟩

theorem _root_.Verif.Spec.Toml.Accounted.mono (h : Accounted H parts es) (hm : ∀ k, H k → H' k) : Accounted H' parts es := by
  obtain ⟨ks, h1, h2, h3⟩ := h
  exact ⟨ks, h1, h2, fun k hk => (h3 k hk).imp (hm k) id⟩

theorem _root_.Verif.Spec.Toml.Accounted.append (h : Accounted H parts es) (h' : Accounted H parts' es') : Accounted H (parts ++ parts') (es ++ es') := by
  obtain ⟨ks, h1, h2, h3⟩ := h
  obtain ⟨ks', h1', h2', h3'⟩ := h'
  refine ⟨ks ++ ks', h1.append h1', h2.append h2', fun k hk => ?_⟩
  rcases List.mem_append.1 hk with hk | hk
  · rcases h3 k hk with h | ⟨k', hk', h⟩
    · exact .inl h
    · exact .inr ⟨k', List.mem_append_left _ hk', h⟩
  · rcases h3' k hk with h | ⟨k', hk', h⟩
    · exact .inl h
    · exact .inr ⟨k', List.mem_append_right _ hk', h⟩

theorem _root_.Verif.Spec.Toml.Accounted.cons (hk : H k) (h : Accounted H parts es) : Accounted H (k :: parts) es := by
  obtain ⟨ks, h1, h2, h3⟩ := h
  refine ⟨ks, h1.cons _, h2, fun k' hk' => ?_⟩
  rcases List.mem_cons.1 hk' with rfl | hk'
  · exact .inl hk
  · exact h3 k' hk'

theorem kindParts_self : k ∈ kindParts k := by
  cases k <;> simp [kindParts, lineParts]

theorem _root_.Verif.Spec.Toml.Accounted.rejected {e : Error} (h : Rejects e k) : Accounted H (kindParts k) [e] :=
  ⟨[k], List.singleton_sublist.2 kindParts_self, .cons h .nil, fun k' hk' => .inr ⟨k, by simp, hk'⟩⟩

end

/-! ## Diagnostics -/

/-- The diagnostic marks the name of the representation. -/
def Marks (e : Error) (r : Repr) : Prop := ∃ i, r.key.reprIdent = some i ∧ rejectedAt e = some i.litSpan

theorem duplicate_marks {path : List Seg} {o r : Repr} {e : Error} (h : duplicateKeyError path o r = some e) : Marks e r := by
  unfold duplicateKeyError at h
  simp only [Option.bind_eq_bind, Option.bind_eq_some_iff, Option.pure_def, Option.some.injEq] at h
  obtain ⟨_, _, i, hi, _, _, _, _, rfl⟩ := h
  exact ⟨i, hi, rfl⟩

theorem extend_marks {mk : List Nat → Str → Span → Span → Error} (hmk : ∀ a b c d, rejectedAt (mk a b c d) = some d) {path : List Seg} {o r : Repr}
    {e : Error} (h : extendError mk path o r = some e) : Marks e r := by
  unfold extendError at h
  simp only [Option.bind_eq_bind, Option.bind_eq_some_iff, Option.pure_def, Option.some.injEq] at h
  obtain ⟨_, _, i, hi, _, _, _, _, rfl⟩ := h
  exact ⟨i, hi, hmk _ _ _ _⟩

theorem extend_marks' {mk : List Nat → Str → Span → Span → Error} (hmk : ∀ a b c d, rejectedAt (mk a b c d) = some d) {path next : List Seg} {o r : Repr}
    {e : Error} (h : extendError' mk path next o r = some e) : Marks e r := by
  unfold extendError' at h
  simp only [Option.bind_eq_bind, Option.bind_eq_some_iff, Option.pure_def, Option.some.injEq] at h
  obtain ⟨_, _, _, _, _, _, i, hi, rfl⟩ := h
  exact ⟨i, hi, hmk _ _ _ _⟩

theorem superTable_marks {path : List Seg} {new : Repr} {rs : List Repr} {e : Error} (h : superTableCheck path new rs = some (some e)) : Marks e new := by
  induction rs with
  | nil => cases h
  | cons r rs ih =>
    unfold superTableCheck at h
    split at h
    · exact ih h
    · simp only [Option.bind_eq_bind, Option.bind_eq_some_iff, Option.pure_def, Option.some.injEq] at h
      obtain ⟨_, h1, rfl⟩ := h
      exact duplicate_marks h1

theorem extendCheck_marks {prev next : List Seg} {isA : Bool} {o d : Repr} {rs : List Repr} {e : Error}
    (h : extendCheck prev next isA o d rs = some (some e)) : Marks e d := by
  induction rs with
  | nil => cases h
  | cons r rs ih =>
    unfold extendCheck at h
    split at h
    · split at h
      · simp only [Option.bind_eq_bind, Option.bind_eq_some_iff, Option.pure_def, Option.some.injEq] at h
        obtain ⟨_, h1, rfl⟩ := h
        exact extend_marks' (fun _ _ _ _ => rfl) h1
      · exact ih h
    · exact ih h
    · split at h
      · simp only [Option.bind_eq_bind, Option.bind_eq_some_iff, Option.pure_def, Option.some.injEq] at h
        obtain ⟨_, h1, rfl⟩ := h
        exact extend_marks' (fun _ _ _ _ => rfl) h1
      · exact ih h
    · split at h
      · simp only [Option.bind_eq_bind, Option.bind_eq_some_iff, Option.pure_def, Option.some.injEq] at h
        obtain ⟨_, h1, rfl⟩ := h
        exact extend_marks' (fun _ _ _ _ => rfl) h1
      · exact ih h

theorem gte_marks {prev : List Seg} {entry e' : Entry} {r : Repr} {er : Error} (h : getTableToExtend prev entry r = some (e', .err er)) : Marks er r := by
  unfold getTableToExtend at h
  cases hn : entry.node with
  | table t0 =>
    rw [hn] at h
    simp only [Option.bind_eq_bind, Option.bind_eq_some_iff, Option.pure_def] at h
    obtain ⟨o, ho, d, hd, x, hx, h⟩ := h
    obtain rfl : r = d := by simpa using hd
    cases x with
    | none => simp at h
    | some e =>
      simp only [Option.some.injEq, Prod.mk.injEq, Extend.err.injEq] at h
      obtain ⟨-, rfl⟩ := h
      exact extendCheck_marks hx
  | toplevel es =>
    rw [hn] at h
    simp only at h
    split at h
    · simp only [Option.bind_eq_bind, Option.bind_eq_some_iff, Option.pure_def, Option.some.injEq, Prod.mk.injEq, Extend.err.injEq] at h
      obtain ⟨_, _, e, h1, -, rfl⟩ := h
      exact extend_marks (fun _ _ _ _ => rfl) h1
    · simp only [Option.bind_eq_bind, Option.bind_eq_some_iff, Option.pure_def] at h
      obtain ⟨_, _, _, _, o, ho, d, hd, x, hx, h⟩ := h
      obtain rfl : r = d := by simpa using hd
      cases x with
      | none => simp at h
      | some e =>
        simp only [Option.some.injEq, Prod.mk.injEq, Extend.err.injEq] at h
        obtain ⟨-, rfl⟩ := h
        exact extendCheck_marks hx
  | inline p a es =>
    rw [hn] at h
    simp only [Option.bind_eq_bind, Option.bind_eq_some_iff, Option.pure_def, Option.some.injEq, Prod.mk.injEq, Extend.err.injEq] at h
    obtain ⟨_, _, e, h1, -, rfl⟩ := h
    exact extend_marks (fun _ _ _ _ => rfl) h1
  | scalar s =>
    rw [hn] at h
    simp only [Option.bind_eq_bind, Option.bind_eq_some_iff, Option.pure_def, Option.some.injEq, Prod.mk.injEq, Extend.err.injEq] at h
    obtain ⟨_, _, e, h1, -, rfl⟩ := h
    exact duplicate_marks h1

/-- The name that is marked is one of the key. -/
theorem Marks.rejects {e : Error} {r : Repr} {key : Key} (h : Marks e r) (hk : kindKey r.kind = some key)
    (hr : r.key = (match key with | .one i => .one i | .dotted ids => r.key) ∧ ∀ ids, key = .dotted ids → ∃ j, r.key = .dotted j ids) : Rejects e r.kind := by
  obtain ⟨i, h1, h2⟩ := h
  refine ⟨key, i, hk, ?_, h2⟩
  cases key with
  | one i' =>
    have := hr.1
    simp only at this
    rw [this] at h1
    cases h1
    simp [Key.idents]
  | dotted ids =>
    obtain ⟨j, hj⟩ := hr.2 ids rfl
    rw [hj] at h1
    simp only [KeyRepr.reprIdent, Option.map_eq_some_iff] at h1
    obtain ⟨d, hd, rfl⟩ := h1
    simp only [Key.idents, List.mem_map]
    exact ⟨d, List.mem_of_getElem? hd, rfl⟩

/-! ## Walking -/

/-- The representation is for a name of the key, with this part. -/
def RepOf (kind : ReprKind) (key : Key) (r : Repr) : Prop :=
  r.kind = kind ∧ match key with
  | .one i => r.key = .one i
  | .dotted ids => ∃ j, r.key = .dotted j ids

theorem RepOf.rejects {e : Error} {kind : ReprKind} {key : Key} {r : Repr} (h : RepOf kind key r) (hk : kindKey kind = some key) (hm : Marks e r) :
    Rejects e kind := by
  obtain ⟨rfl, h⟩ := h
  refine hm.rejects hk ⟨?_, ?_⟩
  · cases key with
    | one i => exact h
    | dotted ids => rfl
  · rintro ids rfl
    exact h

/-- The accounting of a computation that gives a table. -/
def AccT (parts : List ReprKind) (r : MapM MapTable) : Prop := ∀ t' es, r = some (t', es) → Accounted (Hd (.table t') []) parts es

def AccE (parts : List ReprKind) (r : MapM Entry) : Prop := ∀ e es, r = some (e, es) → Accounted (Hd e.node e.reprs) parts es

section
variable {fresh : List Seg → Repr → MapM Entry} {leaf : List Seg → MapTable → Ident → Repr → MapM MapTable}
  {kind : ReprKind} {ids : List DottedIdent}

theorem chain_acc (hne : ids ≠ []) (hf : ∀ path r, RepOf kind (.dotted ids) r → IsLast r → AccE (kindParts kind) (fresh path r)) :
    ∀ (rest : List DottedIdent) (j : Nat) (path : List Seg) (parent : Nat), AccE (kindParts kind) (vacantChain fresh kind ids j rest path parent) := by
  intro rest
  induction rest with
  | nil => intro j path parent e es h; cases h
  | cons o rest ih =>
    intro j path parent
    cases rest with
    | nil =>
      refine hf _ _ ⟨rfl, _, rfl⟩ ?_
      have := List.length_pos_iff.2 hne
      show ids.length - 1 + 1 = ids.length
      omega
    | cons o' rest =>
      intro e es h
      unfold vacantChain at h
      obtain ⟨inner, h1, rfl⟩ := bind_pure_some.1 h
      exact (ih _ _ _ _ _ h1).mono fun k hk => Hd.put hk

theorem setTable_hd {prev : List Seg} {entry e' : Entry} {r : Repr} {parent : Nat} {next : List Seg} {t : MapTable}
    (h : getTableToExtend prev entry r = some (e', .ok parent next t)) {t' : MapTable} {rs : List Repr} {k : ReprKind} (hk : Hd (.table t') [] k) :
    Hd (setTable e'.node t') rs k := by
  cases hn : entry.node with
  | table t0 =>
    obtain ⟨rfl, -⟩ := gte_table hn h
    simp only [hn, setTable]
    exact hk.reprs
  | toplevel es =>
    rcases gte_toplevel hn h with ⟨hA, er, h3⟩ | ⟨hA, rfl, h3⟩
    · cases h3
    · rcases h3 with ⟨er, h3, -⟩ | ⟨l, hl, -⟩
      · cases h3
      · simp only [hn, setTable_last hl]
        exact Hd.toplevel (i := es.dropLast.length) (e := { l with node := t' }) (by simp) hk
  | inline p a es =>
    obtain ⟨er, h3⟩ := gte_other (Or.inl ⟨_, _, _, hn⟩) h
    cases h3
  | scalar s =>
    obtain ⟨er, h3⟩ := gte_other (Or.inr ⟨_, hn⟩) h
    cases h3

theorem walk_acc (hne : ids ≠ []) (hk : kindKey kind = some (.dotted ids))
    (hf : ∀ path r, RepOf kind (.dotted ids) r → IsLast r → AccE (kindParts kind) (fresh path r))
    (hl : ∀ path map i r, RepOf kind (.dotted ids) r → IsLast r → AccT (kindParts kind) (leaf path map i r)) :
    ∀ (rest : List DottedIdent) (i : Nat) (path : List Seg) (parent : Nat) (map : MapTable),
      AccT (kindParts kind) (walk fresh leaf kind ids i rest path parent map) := by
  intro rest
  induction rest with
  | nil => intro i path parent map t' es h; cases h
  | cons o rest ih =>
    intro i path parent map
    cases rest with
    | nil =>
      refine hl _ _ _ _ ⟨rfl, _, rfl⟩ ?_
      have := List.length_pos_iff.2 hne
      show ids.length - 1 + 1 = ids.length
      omega
    | cons o' rest =>
      unfold walk
      intro t' es h
      cases hg : get map o.ident.text with
      | none =>
        simp only [hg] at h
        obtain ⟨e, h1, rfl⟩ := bind_pure_some.1 h
        exact (chain_acc hne hf _ _ _ _ _ _ h1).mono fun k hk => Hd.put hk
      | some e =>
        simp only [hg] at h
        obtain ⟨⟨e', ext⟩, h1, h⟩ := lift_bind_some.1 h
        cases ext with
        | err er =>
          obtain ⟨es', h3, rfl⟩ := report_bind_some.1 h
          obtain ⟨rfl, rfl⟩ := pure_some.1 h3
          exact .rejected (RepOf.rejects (key := .dotted ids) ⟨rfl, _, rfl⟩ hk (gte_marks h1))
        | ok p1 next t =>
          simp only at h
          obtain ⟨t1, h2, rfl⟩ := bind_pure_some.1 h
          exact (ih _ _ _ _ _ _ h2).mono fun k hk => Hd.put (setTable_hd h1 hk)

end

/-! ## Inserting -/

/-- The accounting of a value that is inserted. -/
def AccV (parts : List ReprKind) : InsertValue → Prop
  | .value f => ∀ path parent n es, f path parent = some (n, es) → Accounted (Hd n []) parts es
  | .tableAssignments f => ∀ path parent t, AccT parts (f path parent t)

theorem fresh_acc {parts : List ReprKind} {v : InsertValue} (hv : AccV parts v) {path : List Seg} {r : Repr} (hl : IsLast r) :
    AccE (r.kind :: parts) (freshNode path v r) := by
  intro e es h
  unfold freshNode at h
  obtain ⟨n, h1, rfl⟩ := bind_pure_some.1 h
  refine .cons (Hd.self (by simp) hl) ?_
  unfold mapInsertValue at h1
  cases v with
  | value f => exact (hv _ _ _ _ h1).mono fun k hk => hk.reprs
  | tableAssignments f =>
    obtain ⟨t, h2, rfl⟩ := bind_pure_some.1 h1
    exact (hv _ _ _ _ _ h2).mono fun k hk => hk.reprs

theorem err_acc {α : Type} {t : MapTable} {o : Option α} {g : α → Option Error} {kind : ReprKind} (hg : ∀ x e, g x = some e → Rejects e kind) :
    AccT (kindParts kind) (lift o >>= fun x => lift (g x) >>= fun er => report er >>= fun _ => (Pure.pure t : MapM MapTable)) := by
  intro t' es h
  obtain ⟨x, _, h⟩ := lift_bind_some.1 h
  obtain ⟨er, he, h⟩ := lift_bind_some.1 h
  obtain ⟨es', h3, rfl⟩ := report_bind_some.1 h
  obtain ⟨-, rfl⟩ := pure_some.1 h3
  exact .rejected (hg _ _ he)

theorem insertNode_acc {parts : List ReprKind} {v : InsertValue} (hv : AccV parts v) {kind : ReprKind} {key : Key} (hk : kindKey kind = some key)
    (hp : kindParts kind = kind :: parts) {path : List Seg} {map : MapTable} {i : Ident} {r : Repr} (hr : RepOf kind key r) (hl : IsLast r) :
    AccT (kindParts kind) (insertNode path map i v r) := by
  have hrk := hr.1
  unfold insertNode
  cases hg : get map i.text with
  | none =>
    simp only
    intro t' es h
    obtain ⟨e, h1, rfl⟩ := bind_pure_some.1 h
    have := fresh_acc hv hl _ _ h1
    rw [hrk, ← hp] at this
    exact this.mono fun k hk => Hd.put hk
  | some e =>
    simp only
    cases v with
    | value f => exact err_acc fun x er he => hr.rejects hk (duplicate_marks he)
    | tableAssignments f =>
      simp only
      cases hn : e.node with
      | table t =>
        simp only
        intro t' es h
        obtain ⟨x, hx, h⟩ := lift_bind_some.1 h
        cases x with
        | some er =>
          obtain ⟨es', h3, rfl⟩ := report_bind_some.1 h
          obtain ⟨-, rfl⟩ := pure_some.1 h3
          exact .rejected (hr.rejects hk (superTable_marks hx))
        | none =>
          simp only at h
          obtain ⟨t1, h2, rfl⟩ := bind_pure_some.1 h
          rw [hp]
          refine .cons (Hd.put ?_) ((hv _ _ _ _ _ h2).mono fun k hk => Hd.put hk.reprs)
          rw [← hrk]
          exact Hd.self (by simp) hl
      | toplevel es => exact err_acc fun x er he => hr.rejects hk (duplicate_marks he)
      | inline p a es => exact err_acc fun x er he => hr.rejects hk (duplicate_marks he)
      | scalar s => exact err_acc fun x er he => hr.rejects hk (duplicate_marks he)

theorem insertAtPath_acc {parts : List ReprKind} {v : InsertValue} (hv : AccV parts v) {kind : ReprKind} {key : Key} (hk : kindKey kind = some key)
    (hok : KeyOk key) (hp : kindParts kind = kind :: parts) {path : List Seg} {parent : Nat} {map : MapTable} :
    AccT (kindParts kind) (insertNodeAtPath path parent map key v kind) := by
  cases key with
  | one i => exact insertNode_acc hv hk hp ⟨rfl, rfl⟩ trivial
  | dotted ids =>
    have hne : ids ≠ [] := by
      rintro rfl
      exact hok rfl
    refine walk_acc hne hk (fun path r hr hl => ?_) (fun path map i r hr hl => insertNode_acc hv hk hp hr hl) _ _ _ _ _
    rw [hp]
    have := fresh_acc (path := path) hv hl
    rw [hr.1] at this
    exact this

/-! ## Values -/

theorem AccT.bind {parts parts' : List ReprKind} {x : MapM MapTable} {f : MapTable → MapM MapTable} (hx : AccT parts x) (hf : ∀ t, AccT parts' (f t))
    (hg : ∀ t, GrT t (f t)) : AccT (parts ++ parts') (x >>= f) := by
  intro t' es h
  obtain ⟨a, e1, e2, h1, h2, rfl⟩ := bind_some.1 h
  exact ((hx _ _ h1).mono fun k hk => hk.gr (hg _ _ _ h2)).append (hf _ _ _ h2)

mutual

theorem mapValue_acc : ∀ (v : Value), ValOk v → ∀ path parent n es, mapValue v path parent = some (n, es) → Accounted (Hd n []) (valParts v) es
  | .string s, _, path, parent, n, es, h => by
    unfold mapValue at h; obtain ⟨rfl, rfl⟩ := pure_some.1 h; exact .nil
  | .int l s v, _, path, parent, n, es, h => by
    unfold mapValue at h; obtain ⟨rfl, rfl⟩ := pure_some.1 h; exact .nil
  | .float l s v, _, path, parent, n, es, h => by
    unfold mapValue at h; obtain ⟨rfl, rfl⟩ := pure_some.1 h; exact .nil
  | .bool s v, _, path, parent, n, es, h => by
    unfold mapValue at h; obtain ⟨rfl, rfl⟩ := pure_some.1 h; exact .nil
  | .dateTime l s v, _, path, parent, n, es, h => by
    unfold mapValue at h; obtain ⟨rfl, rfl⟩ := pure_some.1 h; exact .nil
  | .invalid l s, _, path, parent, n, es, h => by
    unfold mapValue at h; obtain ⟨rfl, rfl⟩ := pure_some.1 h; exact .nil
  | .inlineTable ⟨l, as, r⟩, hok, path, parent, n, es, h => by
    unfold mapValue at h
    obtain ⟨t, h1, rfl⟩ := bind_pure_some.1 h
    unfold valParts
    exact mapAssignments_acc as (by simpa [ValOk] using hok) _ _ _ _ _ h1
  | .inlineArray ⟨c, l, vs, e⟩, hok, path, parent, n, es, h => by
    unfold mapValue at h
    obtain ⟨xs, h1, rfl⟩ := bind_pure_some.1 h
    unfold valParts
    refine (mapElements_acc vs (by simpa [ValOk] using hok) _ _ _ _ _ h1).mono fun k hk => ?_
    obtain ⟨x, hx, hk⟩ := hk
    obtain ⟨i, hi⟩ := List.getElem?_of_mem hx
    exact Hd.inline hi hk

theorem mapElements_acc : ∀ (vs : List InlineArrayValue), ValsOk vs → ∀ i path parent xs es, mapElements vs i path parent = some (xs, es) →
    Accounted (fun k => ∃ x ∈ xs, Hd x.node [] k) (elemParts vs) es
  | [], _, i, path, parent, xs, es, h => by
    unfold mapElements at h
    obtain ⟨rfl, rfl⟩ := pure_some.1 h
    exact .nil
  | ⟨c, v, m⟩ :: vs, hok, i, path, parent, xs, es, h => by
    unfold mapElements at h
    obtain ⟨n, e1, e2, h1, h', rfl⟩ := bind_some.1 h
    obtain ⟨xs', h2, rfl⟩ := bind_pure_some.1 h'
    unfold ValsOk at hok
    unfold elemParts
    refine ((mapValue_acc v hok.1 _ _ _ _ h1).mono fun k hk => ?_).append ((mapElements_acc vs hok.2 _ _ _ _ _ h2).mono fun k hk => ?_)
    · exact ⟨_, List.mem_cons_self, hk⟩
    · obtain ⟨x, hx, hk⟩ := hk
      exact ⟨x, List.mem_cons_of_mem _ hx, hk⟩

theorem mapAssignments_acc : ∀ (as : List InlineTableAssignment), PairsOk as → ∀ path parent t, AccT (pairParts as) (mapAssignments as path parent t)
  | [], _, path, parent, t => by
    intro t' es h
    unfold mapAssignments at h
    obtain ⟨rfl, rfl⟩ := pure_some.1 h
    exact .nil
  | ⟨⟨k, q, v⟩, m⟩ :: as, hok, path, parent, t => by
    unfold mapAssignments
    unfold PairsOk at hok
    unfold pairParts
    have h1 := insertAtPath_acc (parts := valParts v) (v := .value fun path parent => mapValue v path parent)
      (fun path parent n es h => mapValue_acc v hok.2.1 path parent n es h)
      (kind := .inlineTableAssignment ⟨⟨k, q, v⟩, m⟩) (key := k) rfl hok.1 rfl (path := path) (parent := parent) (map := t)
    exact AccT.bind h1 (fun t => mapAssignments_acc as hok.2.2 _ _ _) (fun t => mapAssignments_gr as _ _ _)

end

/-! ## Documents -/

theorem insertTop_acc (as : List ToplevelAssignment) (hok : ∀ a ∈ as, AssignOk a) (path : List Seg) (parent : Nat) (t : MapTable) :
    AccT (as.flatMap lineParts) (insertTopLevelAssignments as path parent t) := by
  induction as generalizing t with
  | nil =>
    intro t' es h
    obtain ⟨rfl, rfl⟩ := pure_some.1 h
    exact .nil
  | cons a as ih =>
    unfold insertTopLevelAssignments
    rw [List.flatMap_cons]
    obtain ⟨h1, h2⟩ := hok a (by simp)
    refine AccT.bind (insertAtPath_acc (kind := .toplevelAssignment a) (parts := valParts a.assignment.val) ?_ rfl h1 rfl) (fun t => ih (fun b hb => hok b (by simp [hb])) t)
      (fun t => insertTop_gr as _ _ _)
    exact fun path parent n es h => mapValue_acc _ h2 _ _ _ _ h

theorem arrayTable_acc {a : ArrayEntry} (hok : ∀ x ∈ a.assignments, AssignOk x) {path : List Seg} {parent : Nat} {e : ArrayTable} {es : List Error}
    (h : arrayTable a path parent = some (e, es)) : Accounted (Hd (.table e.node) []) (a.assignments.flatMap lineParts) es := by
  unfold arrayTable at h
  obtain ⟨t, h1, rfl⟩ := bind_pure_some.1 h
  exact insertTop_acc _ hok _ _ _ _ _ h1

theorem freshArray_acc {a : ArrayEntry} (hok : ∀ x ∈ a.assignments, AssignOk x) {path : List Seg} {r : Repr} (hr : r.kind = .arrayEntry a) (hl : IsLast r) :
    AccE (kindParts (.arrayEntry a)) (freshArray a path r) := by
  intro e es h
  unfold freshArray at h
  obtain ⟨x, h1, rfl⟩ := bind_pure_some.1 h
  refine .cons (by rw [← hr]; exact Hd.self (by simp) hl) ((arrayTable_acc hok h1).mono fun k hk => ?_)
  exact Hd.toplevel (i := 0) (e := x) rfl hk

theorem insertArrayEntry_acc {a : ArrayEntry} (hok : ∀ x ∈ a.assignments, AssignOk x) {key : Key} (hk : a.header.key = some key) {path : List Seg}
    {map : MapTable} {i : Ident} {r : Repr} (hr : RepOf (.arrayEntry a) key r) (hl : IsLast r) :
    AccT (kindParts (.arrayEntry a)) (insertArrayEntry a path map i r) := by
  unfold insertArrayEntry
  cases hg : get map i.text with
  | none =>
    simp only
    intro t' es h
    obtain ⟨e, h1, rfl⟩ := bind_pure_some.1 h
    exact (freshArray_acc hok hr.1 hl _ _ h1).mono fun k hk => Hd.put hk
  | some e =>
    simp only
    cases hn : e.node with
    | toplevel es0 =>
      simp only
      intro t' es h
      obtain ⟨x, h1, rfl⟩ := bind_pure_some.1 h
      refine .cons (Hd.put (by rw [← hr.1]; exact Hd.self (by simp) hl)) ((arrayTable_acc hok h1).mono fun k hk => Hd.put ?_)
      exact Hd.toplevel (i := es0.length) (e := x) (by simp) hk
    | inline p b es => exact err_acc fun x er he => hr.rejects hk (extend_marks (fun _ _ _ _ => rfl) he)
    | table t => exact err_acc fun x er he => hr.rejects hk (duplicate_marks he)
    | scalar s => exact err_acc fun x er he => hr.rejects hk (duplicate_marks he)

theorem insertArrayAtPath_acc {a : ArrayEntry} (hok : ∀ x ∈ a.assignments, AssignOk x) {key : Key} (hk : a.header.key = some key) (hko : KeyOk key)
    {map : MapTable} : AccT (kindParts (.arrayEntry a)) (insertArrayEntryAtPath a map key) := by
  cases key with
  | one i => exact insertArrayEntry_acc hok hk ⟨rfl, rfl⟩ trivial
  | dotted ids =>
    have hne : ids ≠ [] := by
      rintro rfl
      exact hko rfl
    exact walk_acc (kind := .arrayEntry a) hne hk (fun path r hr hl => freshArray_acc hok hr.1 hl) (fun path map i r hr hl => insertArrayEntry_acc hok hk hr hl) _ _ _ _ _

theorem mapAst_acc {x : Ast} (hok : AstOk x) (root : MapTable) : AccT (astParts x) (mapAst root x) := by
  have quiet : AccT [] (pure root : MapM MapTable) := by
    intro t' es h
    obtain ⟨rfl, rfl⟩ := pure_some.1 h
    exact .nil
  cases x with
  | comment c => exact quiet
  | assignment a => 
    refine insertAtPath_acc (kind := .toplevelAssignment a) (parts := valParts a.assignment.val) ?_ rfl hok.1 rfl
    exact fun path parent n es h => mapValue_acc _ hok.2 _ _ _ _ h
  | table t =>
    unfold mapAst astParts
    simp only
    cases hk : t.header.key with
    | none => exact quiet
    | some key =>
      refine insertAtPath_acc (kind := .table t) (parts := t.assignments.flatMap lineParts) ?_ hk (hok.1 key hk) rfl
      exact fun path parent t0 => insertTop_acc _ hok.2 _ _ _
  | array t =>
    unfold mapAst astParts
    simp only
    cases hk : t.header.key with
    | none => exact quiet
    | some key => exact insertArrayAtPath_acc hok.2 hk (hok.1 key hk)

theorem mapAsts_acc (l : List Ast) (hok : ∀ x ∈ l, AstOk x) (root : MapTable) : AccT (docParts l) (mapAsts l root) := by
  induction l generalizing root with
  | nil =>
    intro t' es h
    obtain ⟨rfl, rfl⟩ := pure_some.1 h
    exact .nil
  | cons x l ih =>
    unfold mapAsts docParts
    rw [List.flatMap_cons]
    exact AccT.bind (mapAst_acc (hok x (by simp)) root) (fun t => ih (fun y hy => hok y (by simp [hy])) t) (fun t => mapAsts_gr l t)

end Verif.TomlMap
