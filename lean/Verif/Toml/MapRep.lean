import Verif.Toml.MapBase

/-! # The map represents the definitions of the document: keys -/

namespace Verif.TomlMap
open Verif Verif.Toml Verif.Spec.Toml

/-- There are diagnostics exactly if the new definitions `N` contradict, and else the result represents
all definitions. -/
def Good {α : Type} (R : α → List Def → Prop) (D N : List Def) (r : MapM α) : Prop :=
  ∀ a es, r = some (a, es) → (es = [] ↔ Consistent (D ++ N)) ∧ (Consistent (D ++ N) → R a (D ++ N))

section
variable {α β : Type} {R : α → List Def → Prop} {S : β → List Def → Prop} {D N M : List Def}

theorem Good.bind {x : MapM α} {f : α → MapM β} (hx : Good R D N x)
    (hf : ∀ a, Consistent (D ++ N) → R a (D ++ N) → Good S (D ++ N) M (f a)) :
    Good S D (N ++ M) (x >>= f) := by
  intro b es h
  obtain ⟨a, e1, e2, h1, h2, rfl⟩ := bind_some.1 h
  obtain ⟨i1, r1⟩ := hx a e1 h1
  rw [← List.append_assoc]
  by_cases hc : Consistent (D ++ N)
  · obtain ⟨i2, r2⟩ := hf a hc (r1 hc) b e2 h2
    rw [i1.2 hc]
    exact ⟨by simpa using i2, r2⟩
  · have hc' : ¬ Consistent (D ++ N ++ M) := fun h => hc (consistent_left h)
    refine ⟨⟨fun h => ?_, fun h => absurd h hc'⟩, fun h => absurd h hc'⟩
    exact absurd (i1.1 (List.append_eq_nil_iff.1 h).1) hc

theorem Good.map {x : MapM α} {f : α → β} (hx : Good R D N x)
    (hf : ∀ a, Consistent (D ++ N) → R a (D ++ N) → S (f a) (D ++ N)) :
    Good S D N (x >>= fun a => pure (f a)) := by
  intro b es h
  obtain ⟨a, h1, rfl⟩ := bind_pure_some.1 h
  obtain ⟨i1, r1⟩ := hx a es h1
  exact ⟨i1, fun h => hf a h (r1 h)⟩

theorem Good.pure {a : α} (hc : Consistent D) (h : R a D) : Good R D [] (Pure.pure a : MapM α) := by
  intro b es hb
  obtain ⟨rfl, rfl⟩ := pure_some.1 hb
  simp only [List.append_nil]
  exact ⟨⟨fun _ => hc, fun _ => trivial⟩, fun _ => h⟩

theorem Good.cons {x : MapM α} {d : Def} (hx : Good R (D ++ [d]) N x) : Good R D (d :: N) x := by
  intro a es h
  have := hx a es h
  rwa [List.append_assoc] at this

/-- An error for a contradiction. -/
theorem Good.err {x : MapM α} (hx : ∀ a es, x = some (a, es) → es ≠ []) (hc : ¬ Consistent (D ++ N)) :
    Good R D N x := by
  intro a es h
  exact ⟨⟨fun e => absurd e (hx a es h), fun h => absurd h hc⟩, fun h => absurd h hc⟩

end

/-- The entry represents the definitions at `P` and below it. -/
def RepE (P : Loc) (e : Entry) (D : List Def) : Prop := RepN P (e.reprs.map reprCls) e.node D

/-- The definitions of a fresh location are consistent. -/
theorem consistent_fresh {D : List Def} {q : Loc} {w : What} (hc : Consistent D) (hf : whats D q = []) :
    Consistent (D ++ [(q, w)]) := by
  rw [consistent_snoc, hf]
  exact ⟨hc, by simp⟩

theorem fresh_snoc {D : List Def} {q : Loc} {w : What} (hf : Fresh q D) (s : PStep) :
    Fresh (q ++ [s]) (D ++ [(q, w)]) := by
  intro p
  rw [whats_append, List.append_assoc, hf, whats_cons, if_neg, whats_nil, List.append_nil]
  intro e
  have := congrArg List.length e
  simp at this

theorem repT_fresh_snoc {D : List Def} {q : Loc} {w : What} (hf : Fresh q D) :
    RepT q [] (D ++ [(q, w)]) := (RepT.fresh hf).snoc w

/-- A table with a fresh definition. -/
theorem RepT.toN {P : Loc} {t : MapTable} {D : List Def} {cs : List Cls} (h : RepT P t D)
    (hP : infoOf (whats D P) = some (.tab cs)) : RepN P cs (.table t) D := by
  intro p
  cases p with
  | nil => rw [List.append_nil, hP]; rfl
  | cons s p => rw [info_table_cons cs []]; exact h s p

/-! ## Classes of definitions -/

/-- The definitions on the way of a key. -/
def IsWay (w : What) : Prop := w = .dotted ∨ w = .super ∨ w = .superArray

theorem infoOf_tab {ws : List What} {cs : List Cls} (h : infoOf ws = some (.tab cs)) :
    ws.map cls = cs ∧ ws ≠ [] ∧ ws.head? ≠ some .entry := by
  unfold infoOf at h
  split at h <;> cases h
  all_goals simp_all

theorem infoOf_aot {ws : List What} {n : Nat} {ok : Bool} (h : infoOf ws = some (.aot n ok)) :
    ws.length = n ∧ ws.head? = some .entry ∧ ok = true := by
  unfold infoOf at h
  split at h <;> try cases h
  simp_all

theorem infoOf_val {ws : List What} (h : (∃ v, infoOf ws = some (.val v)) ∨ ∃ n, infoOf ws = some (.arr n)) :
    ∃ v, What.value v ∈ ws := by
  unfold infoOf at h
  split at h
  · simp at h
  · exact ⟨_, List.mem_cons_self⟩
  · simp at h
  · exact ⟨_, List.mem_cons_self⟩
  · simp at h
  · simp at h

theorem no_entry {ws : List What} (hp : ws.Pairwise Compatible) (h : ws.head? ≠ some .entry) :
    ∀ w ∈ ws, w ≠ .entry := by
  cases ws with
  | nil => simp
  | cons a ws =>
    have ha : a ≠ .entry := fun e => h (by rw [e]; rfl)
    intro w hw e
    subst e
    rcases List.mem_cons.1 hw with rfl | hw
    · exact ha rfl
    · exact ha ((List.pairwise_cons.1 hp).1 _ hw)

theorem only_entry {ws : List What} (hp : ws.Pairwise Compatible) (h : ws.head? = some .entry) :
    ∀ w ∈ ws, w = .entry := by
  cases ws with
  | nil => simp
  | cons a ws =>
    simp at h
    subst h
    intro w hm
    rcases List.mem_cons.1 hm with rfl | hm'
    · rfl
    · have := (List.pairwise_cons.1 hp).1 _ hm'
      cases w with
      | entry => rfl
      | value v => exact this.elim
      | dotted => simp [Compatible] at this
      | header => simp [Compatible] at this
      | super => exact this.elim
      | superArray => exact this.elim
      | entryTable => exact this.elim

theorem entries_zero {D : List Def} {q : Loc} (h : ∀ w ∈ whats D q, w ≠ .entry) : entries D q = 0 := by
  rw [entries_eq, List.length_eq_zero_iff, List.filter_eq_nil_iff]
  intro w hw e
  apply h w hw
  cases w <;> simp_all [What.isEntry]

theorem entries_all {D : List Def} {q : Loc} (h : ∀ w ∈ whats D q, w = .entry) :
    entries D q = (whats D q).length := by
  rw [entries_eq, List.filter_eq_self.2]
  intro w hw
  rw [h w hw]
  rfl

/-- May a table with such a representation be extended? -/
def okCls (isA : Bool) (c : Cls) : Bool :=
  if isA then c ≠ .header && c ≠ .super && c ≠ .value else c ≠ .value

theorem extendCheck_none {prev next : List Seg} {isA : Bool} {o d : Repr} {rs : List Repr}
    {r : Option Error} (h : extendCheck prev next isA o d rs = some r) :
    r = none ↔ ∀ x ∈ rs, okCls isA (reprCls x) = true := by
  induction rs with
  | nil => simp [extendCheck] at h; simp [← h]
  | cons x rs ih =>
    unfold extendCheck at h
    have hx : reprCls x = match x.kind, x.key.isLast with
      | .table _, true => .header
      | .table _, false => .super
      | .arrayEntry _, true => .entry
      | .arrayEntry _, false => .superArray
      | .toplevelAssignment _, true => .value
      | .toplevelAssignment _, false => .dotted
      | .inlineTableAssignment _, true => .value
      | .inlineTableAssignment _, false => .dotted := rfl
    simp only [List.forall_mem_cons]
    split at h
    · rename_i t hk
      rw [hk] at hx
      split at h
      · rename_i hA
        subst hA
        simp only [Option.bind_eq_bind, Option.bind_eq_some_iff, Option.pure_def, Option.some.injEq] at h
        obtain ⟨e, _, rfl⟩ := h
        cases hl : x.key.isLast <;> rw [hl] at hx <;> simp [hx, okCls]
      · rename_i hA
        have hA' : isA = false := by simpa using hA
        rw [ih h]
        subst hA'
        cases hl : x.key.isLast <;> rw [hl] at hx <;> simp [hx, okCls]
    · rename_i t hk
      rw [hk] at hx
      rw [ih h]
      cases hl : x.key.isLast <;> rw [hl] at hx <;> cases isA <;> simp [hx, okCls]
    all_goals
      rename_i t hk
      rw [hk] at hx
      split at h
      · rename_i hl
        rw [hl] at hx
        simp only [Option.bind_eq_bind, Option.bind_eq_some_iff, Option.pure_def, Option.some.injEq] at h
        obtain ⟨e, _, rfl⟩ := h
        cases isA <;> simp [hx, okCls]
      · rename_i hl
        have hl' : x.key.isLast = false := by simpa using hl
        rw [hl'] at hx
        rw [ih h]
        cases isA <;> simp [hx, okCls]

/-! ## Extending a table -/

theorem gte_table {prev : List Seg} {entry e' : Entry} {repr : Repr} {ext : Extend} {t : MapTable}
    (hn : entry.node = .table t) (h : getTableToExtend prev entry repr = some (e', ext)) :
    e' = ⟨entry.node, entry.reprs ++ [repr]⟩ ∧
    ((∃ er, ext = .err er ∧ ¬ ∀ x ∈ entry.reprs ++ [repr], okCls repr.kind.isAssignment (reprCls x) = true) ∨
     (ext = .ok entry.reprs.length (.table (entry.reprs ++ [repr]) :: prev) t ∧
      ∀ x ∈ entry.reprs ++ [repr], okCls repr.kind.isAssignment (reprCls x) = true)) := by
  unfold getTableToExtend at h
  rw [hn] at h
  simp only [Option.bind_eq_bind, Option.bind_eq_some_iff, Option.pure_def] at h
  obtain ⟨o, _, d, _, r, hr, h⟩ := h
  have := extendCheck_none hr
  cases r with
  | none =>
    simp only [Option.some.injEq, Prod.mk.injEq] at h
    obtain ⟨rfl, rfl⟩ := h
    rw [hn]
    exact ⟨rfl, Or.inr ⟨rfl, this.1 rfl⟩⟩
  | some er =>
    simp only [Option.some.injEq, Prod.mk.injEq] at h
    obtain ⟨rfl, rfl⟩ := h
    rw [hn]
    refine ⟨rfl, Or.inl ⟨er, rfl, fun hh => ?_⟩⟩
    have := this.2 hh
    cases this

theorem gte_toplevel {prev : List Seg} {entry e' : Entry} {repr : Repr} {ext : Extend}
    {es : List ArrayTable} (hn : entry.node = .toplevel es)
    (h : getTableToExtend prev entry repr = some (e', ext)) :
    (repr.kind.isAssignment = true ∧ ∃ er, ext = .err er) ∨
    (repr.kind.isAssignment = false ∧ e' = ⟨entry.node, entry.reprs ++ [repr]⟩ ∧
      ((∃ er, ext = .err er ∧
          ¬ ∀ x ∈ entry.reprs ++ [repr], okCls repr.kind.isAssignment (reprCls x) = true) ∨
       ∃ last, es.getLast? = some last ∧
        ext = .ok entry.reprs.length (.array (es.length - 1) :: .table (entry.reprs ++ [repr]) :: prev)
          last.node)) := by
  unfold getTableToExtend at h
  rw [hn] at h
  simp only at h
  split at h
  · rename_i hA
    simp only [Option.bind_eq_bind, Option.bind_eq_some_iff, Option.pure_def, Option.some.injEq,
      Prod.mk.injEq] at h
    obtain ⟨o, _, e, _, rfl, rfl⟩ := h
    exact Or.inl ⟨hA, _, rfl⟩
  · rename_i hA
    have hA' : repr.kind.isAssignment = false := by simpa using hA
    refine Or.inr ⟨hA', ?_⟩
    simp only [Option.bind_eq_bind, Option.bind_eq_some_iff, Option.pure_def] at h
    obtain ⟨i, hi, l, hl, o, _, d, _, r, hr, h⟩ := h
    have := extendCheck_none hr
    have hi' : i = es.length - 1 := by
      unfold subU at hi
      split at hi
      · simpa using hi.symm
      · cases hi
    subst hi'
    cases r with
    | none =>
      simp only [Option.some.injEq, Prod.mk.injEq] at h
      obtain ⟨rfl, rfl⟩ := h
      rw [hn]
      exact ⟨rfl, Or.inr ⟨l, hl, rfl⟩⟩
    | some er =>
      simp only [Option.some.injEq, Prod.mk.injEq] at h
      obtain ⟨rfl, rfl⟩ := h
      rw [hn]
      refine ⟨rfl, Or.inl ⟨er, rfl, fun hh => ?_⟩⟩
      have := this.2 hh
      cases this

theorem gte_other {prev : List Seg} {entry e' : Entry} {repr : Repr} {ext : Extend}
    (hn : (∃ p r es, entry.node = .inline p r es) ∨ ∃ s, entry.node = .scalar s)
    (h : getTableToExtend prev entry repr = some (e', ext)) : ∃ er, ext = .err er := by
  unfold getTableToExtend at h
  rcases hn with ⟨p, r, es, hn⟩ | ⟨s, hn⟩ <;> rw [hn] at h <;>
    simp only [Option.bind_eq_bind, Option.bind_eq_some_iff, Option.pure_def, Option.some.injEq,
      Prod.mk.injEq] at h
  · obtain ⟨o, _, e, _, rfl, rfl⟩ := h
    exact ⟨_, rfl⟩
  · obtain ⟨o, _, e, _, rfl, rfl⟩ := h
    exact ⟨_, rfl⟩

end Verif.TomlMap
