import Verif.Spec.Map

/-! # Lemmas about the map: entries, diagnostics, definitions -/

namespace Verif.TomlMap
open Verif Verif.Toml Verif.Spec.Toml

/-! ## Entries -/

section
variable {N : Type}

theorem get_put (t : TableF N) (k x : Str) (e : EntryF N) :
    get (put t k e) x = if k = x then some e else get t x := by
  induction t with
  | nil => simp [put, get]
  | cons h t ih =>
    obtain ⟨k', e'⟩ := h
    unfold put
    by_cases hk : k' = k
    · subst hk
      simp only [if_true, get]
      split <;> rfl
    · simp only [hk, if_false, get, ih]
      by_cases hx : k' = x
      · subst hx
        simp [Ne.symm hk]
      · simp [hx]

theorem get_put_same (t : TableF N) (k : Str) (e : EntryF N) : get (put t k e) k = some e := by
  simp [get_put]

end

/-! ## Diagnostics -/

section
variable {α β : Type}

theorem MapM.bind_eq (x : MapM α) (f : α → MapM β) : (x >>= f) = MapM.bind x f := rfl

theorem bind_some {x : MapM α} {f : α → MapM β} {b : β} {es : List Error} :
    (x >>= f) = some (b, es) ↔
      ∃ a e1 e2, x = some (a, e1) ∧ f a = some (b, e2) ∧ es = e1 ++ e2 := by
  rw [MapM.bind_eq]
  unfold MapM.bind
  constructor
  · intro h
    split at h
    · cases h
    · rename_i a e1
      split at h
      · cases h
      · rename_i b' e2 hf
        cases h
        exact ⟨a, e1, e2, rfl, hf, rfl⟩
  · rintro ⟨a, e1, e2, rfl, h2, rfl⟩
    simp only [h2]
    rfl

theorem pure_some {a b : α} {es : List Error} : (pure a : MapM α) = some (b, es) ↔ b = a ∧ es = [] := by
  show some (a, ([] : List Error)) = some (b, es) ↔ _
  constructor
  · intro h; cases h; exact ⟨rfl, rfl⟩
  · rintro ⟨rfl, rfl⟩; rfl

theorem report_some {e : Error} {u : Unit} {es : List Error} :
    report e = some (u, es) ↔ es = [e] := by
  unfold report
  constructor
  · intro h; cases h; rfl
  · rintro rfl; rfl

theorem lift_some {x : Option α} {a : α} {es : List Error} :
    lift x = some (a, es) ↔ x = some a ∧ es = [] := by
  unfold lift
  cases x with
  | none =>
    constructor
    · intro h
      cases h
    · rintro ⟨h, _⟩
      cases h
  | some y =>
    constructor
    · intro h
      cases h
      exact ⟨rfl, rfl⟩
    · rintro ⟨h, rfl⟩
      cases h
      rfl

theorem lift_bind_some {x : Option α} {f : α → MapM β} {b : β} {es : List Error} :
    (lift x >>= f) = some (b, es) ↔ ∃ a, x = some a ∧ f a = some (b, es) := by
  rw [bind_some]
  constructor
  · rintro ⟨a, e1, e2, h1, h2, rfl⟩
    obtain ⟨h1', rfl⟩ := lift_some.1 h1
    exact ⟨a, h1', h2⟩
  · rintro ⟨a, h1, h2⟩
    exact ⟨a, [], es, lift_some.2 ⟨h1, rfl⟩, h2, rfl⟩

theorem report_bind_some {e : Error} {f : Unit → MapM β} {b : β} {es : List Error} :
    (report e >>= f) = some (b, es) ↔ ∃ es', f () = some (b, es') ∧ es = e :: es' := by
  rw [bind_some]
  constructor
  · rintro ⟨a, e1, e2, h1, h2, rfl⟩
    obtain rfl := report_some.1 h1
    exact ⟨e2, h2, rfl⟩
  · rintro ⟨es', h2, rfl⟩
    exact ⟨(), [e], es', rfl, h2, rfl⟩

theorem bind_pure_some {x : MapM α} {f : α → β} {b : β} {es : List Error} :
    (x >>= fun a => pure (f a)) = some (b, es) ↔ ∃ a, x = some (a, es) ∧ b = f a := by
  rw [bind_some]
  constructor
  · rintro ⟨a, e1, e2, h1, h2, rfl⟩
    obtain ⟨rfl, rfl⟩ := pure_some.1 h2
    exact ⟨a, by simpa using h1, rfl⟩
  · rintro ⟨a, h1, rfl⟩
    exact ⟨a, es, [], h1, rfl, by simp⟩

end

/-! ## Definitions -/

/-- How a location is defined, in order. -/
def whats (D : List Def) (p : Loc) : List What := (D.filter fun d => d.1 = p).map (·.2)

theorem whats_append (D N : List Def) (p : Loc) : whats (D ++ N) p = whats D p ++ whats N p := by
  simp [whats]

@[simp] theorem whats_nil (p : Loc) : whats [] p = [] := rfl

theorem whats_cons (d : Def) (D : List Def) (p : Loc) :
    whats (d :: D) p = if d.1 = p then d.2 :: whats D p else whats D p := by
  unfold whats
  by_cases h : d.1 = p <;> simp [h]

theorem mem_whats {D : List Def} {p : Loc} {w : What} : w ∈ whats D p ↔ (p, w) ∈ D := by
  unfold whats
  simp only [List.mem_map, List.mem_filter, decide_eq_true_eq]
  constructor
  · rintro ⟨⟨q, w'⟩, ⟨h, rfl⟩, rfl⟩
    exact h
  · intro h
    exact ⟨(p, w), ⟨h, rfl⟩, rfl⟩

/-- All definitions are at `q` or below it. -/
def Below (q : Loc) (N : List Def) : Prop := ∀ d ∈ N, q <+: d.1

theorem whats_below {q p : Loc} {N : List Def} (h : Below q N) (hp : ¬ q <+: p) : whats N p = [] := by
  rw [List.eq_nil_iff_forall_not_mem]
  intro w hw
  exact hp (h _ (mem_whats.1 hw))

theorem Below.nil (q : Loc) : Below q [] := by simp [Below]

theorem Below.append {q : Loc} {M N : List Def} (h1 : Below q M) (h2 : Below q N) : Below q (M ++ N) := by
  intro d hd
  rcases List.mem_append.1 hd with h | h
  · exact h1 d h
  · exact h2 d h

theorem Below.cons {q : Loc} {d : Def} {N : List Def} (h1 : q <+: d.1) (h2 : Below q N) :
    Below q (d :: N) := by
  intro d' hd
  rcases List.mem_cons.1 hd with rfl | h
  · exact h1
  · exact h2 d' h

theorem Below.mono {q q' : Loc} {N : List Def} (h : Below q' N) (hq : q <+: q') : Below q N :=
  fun d hd => hq.trans (h d hd)

/-- No definition at `q` or below it. -/
def Fresh (q : Loc) (D : List Def) : Prop := ∀ p, whats D (q ++ p) = []

theorem Fresh.at {q : Loc} {D : List Def} (h : Fresh q D) : whats D q = [] := by
  simpa using h []

theorem Fresh.down {q : Loc} {D : List Def} (h : Fresh q D) (r : Loc) : Fresh (q ++ r) D := by
  intro p
  rw [List.append_assoc]
  exact h _

theorem entries_eq (D : List Def) (p : Loc) : entries D p = ((whats D p).filter What.isEntry).length := by
  unfold entries whats
  rw [List.filter_map, List.length_map, List.filter_filter]
  congr 1
  congr 1
  funext d
  simp [Bool.and_comm]

theorem entries_of_whats {D N : List Def} {p : Loc} (h : whats D p = whats N p) :
    entries D p = entries N p := by rw [entries_eq, entries_eq, h]

theorem consistent_append {D N : List Def} : Consistent (D ++ N) ↔
    Consistent D ∧ Consistent N ∧ ∀ a ∈ D, ∀ b ∈ N, a.1 = b.1 → Compatible a.2 b.2 :=
  List.pairwise_append

theorem consistent_left {D N : List Def} (h : Consistent (D ++ N)) : Consistent D :=
  (consistent_append.1 h).1

theorem consistent_snoc {D : List Def} {q : Loc} {w : What} : Consistent (D ++ [(q, w)]) ↔
    Consistent D ∧ ∀ w' ∈ whats D q, Compatible w' w := by
  rw [consistent_append]
  constructor
  · rintro ⟨h1, _, h3⟩
    refine ⟨h1, fun w' hw => ?_⟩
    exact h3 _ (mem_whats.1 hw) _ (List.mem_singleton.2 rfl) rfl
  · rintro ⟨h1, h2⟩
    refine ⟨h1, List.pairwise_singleton _ _, fun a ha b hb hab => ?_⟩
    obtain rfl := List.mem_singleton.1 hb
    exact h2 _ (mem_whats.2 (by have e : a.1 = q := hab; rw [← e]; exact ha))

theorem whats_pairwise {D : List Def} (h : Consistent D) (p : Loc) : (whats D p).Pairwise Compatible := by
  unfold whats
  rw [List.pairwise_map]
  have h2 : (D.filter fun d => d.1 = p).Pairwise fun a b => a.1 = b.1 → Compatible a.2 b.2 :=
    List.Pairwise.filter _ h
  refine h2.imp_of_mem fun ha hb hab => hab ?_
  have h3 := (List.mem_filter.1 ha).2
  have h4 := (List.mem_filter.1 hb).2
  simp only [decide_eq_true_eq] at h3 h4
  rw [h3, h4]

/-! ## The abstract state of a location -/

/-- A `What` without the value. -/
inductive Cls
  | value | dotted | header | super | superArray | entry | entryTable
  deriving DecidableEq

def cls : What → Cls
  | .value _ => .value
  | .dotted => .dotted
  | .header => .header
  | .super => .super
  | .superArray => .superArray
  | .entry => .entry
  | .entryTable => .entryTable

/-- The class of a representation. -/
def reprCls (r : Repr) : Cls :=
  match r.kind, r.key.isLast with
  | .table _, true => .header
  | .table _, false => .super
  | .arrayEntry _, true => .entry
  | .arrayEntry _, false => .superArray
  | .toplevelAssignment _, true => .value
  | .toplevelAssignment _, false => .dotted
  | .inlineTableAssignment _, true => .value
  | .inlineTableAssignment _, false => .dotted

/-- The classes of representations of an array of tables. -/
def headerCls (c : Cls) : Bool := c = .entry || c = .super || c = .superArray

/-- What is known about a location. -/
inductive Info
  | val (v : TVal)
  | arr (n : Nat)
  | tab (cs : List Cls)
  | aot (n : Nat) (ok : Bool)

/-- The information of the definitions of a location. -/
def infoOf : List What → Option Info
  | [] => none
  | .value (.array vs) :: _ => some (.arr vs.length)
  | .value (.table kvs) :: ws => some (.tab ((What.value (.table kvs) :: ws).map cls))
  | .value v :: _ => some (.val v)
  | .entry :: ws => some (.aot (ws.length + 1) true)
  | w :: ws => some (.tab ((w :: ws).map cls))

/-- The information of a node, with the classes of its representations. -/
def nodeInfo (cs : List Cls) : MapNode → Info
  | .table _ => .tab cs
  | .toplevel es => .aot es.length (cs.all headerCls)
  | .inline _ _ es => .arr es.length
  | .scalar s => .val (scalarVal s)

/-- The information at a location below a node. -/
def info (cs : List Cls) : MapNode → Loc → Option Info
  | n, [] => some (nodeInfo cs n)
  | .table t, .key k :: p => (get t k).bind fun e => info (e.reprs.map reprCls) e.node p
  | .toplevel es, .idx i :: p => es[i]?.bind fun e => info [.entryTable] (.table e.node) p
  | .inline _ _ es, .idx i :: p => es[i]?.bind fun e => info [.value] e.node p
  | _, _ => none

theorem infoOf_none {ws : List What} : infoOf ws = none ↔ ws = [] := by
  constructor
  · intro h
    unfold infoOf at h
    split at h <;> first | rfl | cases h
  · rintro rfl; rfl

/-- The node represents the definitions at `P` and below it. -/
def RepN (P : Loc) (cs : List Cls) (n : MapNode) (D : List Def) : Prop :=
  ∀ p, info cs n p = infoOf (whats D (P ++ p))

/-- The table represents the definitions below `P`. -/
def RepT (P : Loc) (t : MapTable) (D : List Def) : Prop :=
  ∀ s p, info [] (.table t) (s :: p) = infoOf (whats D (P ++ s :: p))

theorem info_table_cons (cs cs' : List Cls) (t : MapTable) (s : PStep) (p : Loc) :
    info cs (.table t) (s :: p) = info cs' (.table t) (s :: p) := by
  cases s <;> rfl

theorem RepN.table {P : Loc} {cs : List Cls} {t : MapTable} {D : List Def}
    (h : RepN P cs (.table t) D) : RepT P t D := by
  intro s p
  rw [info_table_cons [] cs]
  exact h _

theorem RepT.entry {P : Loc} {t : MapTable} {D : List Def} (h : RepT P t D) {k : Str} {e : Entry}
    (he : get t k = some e) : RepN (P ++ [.key k]) (e.reprs.map reprCls) e.node D := by
  intro p
  have := h (.key k) p
  simp only [info, he, Option.bind_some] at this
  rw [this, List.append_assoc]
  rfl

theorem RepT.vacant {P : Loc} {t : MapTable} {D : List Def} (h : RepT P t D) {k : Str}
    (he : get t k = none) : Fresh (P ++ [.key k]) D := by
  intro p
  have := h (.key k) p
  simp only [info, he, Option.bind_none] at this
  rw [List.append_assoc]
  exact infoOf_none.1 this.symm

theorem key_ne_below {P : Loc} {k : Str} {s : PStep} {p : Loc} (h : s ≠ .key k) :
    ¬ P ++ [.key k] <+: P ++ s :: p := by
  rintro ⟨r, hr⟩
  rw [List.append_assoc] at hr
  have := List.append_cancel_left hr
  simp at this
  exact h this.1.symm

/-- Replacing an entry. -/
theorem RepT.put {P : Loc} {t : MapTable} {D N : List Def} (h : RepT P t D) {k : Str} {e : Entry}
    (hN : Below (P ++ [.key k]) N)
    (he : RepN (P ++ [.key k]) (e.reprs.map reprCls) e.node (D ++ N)) : RepT P (put t k e) (D ++ N) := by
  intro s p
  by_cases hs : s = .key k
  · subst hs
    have := he p
    simp only [info, get_put_same, Option.bind_some]
    rw [this, List.append_assoc]
    rfl
  · rw [whats_append, whats_below hN (key_ne_below hs), List.append_nil, ← h s p]
    cases s with
    | idx i => rfl
    | key k' =>
      have hk : ¬ k = k' := fun e => hs (by rw [e])
      simp only [info, get_put, hk, if_false]

/-- A new definition of the table itself. -/
theorem RepT.snoc {P : Loc} {t : MapTable} {D : List Def} (h : RepT P t D) (w : What) :
    RepT P t (D ++ [(P, w)]) := by
  intro s p
  rw [h s p, whats_append, whats_cons, if_neg, whats_nil, List.append_nil]
  intro e
  have := congrArg List.length e
  simp at this

theorem RepT.fresh {P : Loc} {D : List Def} (h : Fresh P D) : RepT P [] D := by
  intro s p
  rw [h]
  cases s <;> rfl

end Verif.TomlMap
