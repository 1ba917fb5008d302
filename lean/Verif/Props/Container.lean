import Verif.Spec.Container
import Verif.Props.Parse

/-! # Property C95: containers

The specification (`history`, `contents`, `arenas`) is in `Spec/Container.lean`. -/

namespace Verif.Props
open Verif Verif.Toml Verif.Toml.Mem Verif.Spec.Toml

variable {ovf : Bool} {n : Nat} {w w' : World} {cs : List (Option Str)}

/-- The container holds what the text parses to, in its own arena. -/
structure Holds (ovf : Bool) (regions : List Region) (c : Container) (s : Str) : Prop where
  mem : ∃ x, regions[c.bump]? = some x ∧ x.arena = true ∧ x.live = true ∧ x.texts[c.toml.input.index]? = some s
  input : c.toml.input.region = c.bump
  refs : c.toml.refs = [c.bump, c.bump]
  con : contents ovf s = some (c.toml.tokens, c.toml.asts, c.toml.map)

/-- The containers and the memory after a history. -/
structure MemOk (ovf : Bool) (w : World) (cs : List (Option Str)) (leaked : Nat) : Prop where
  len : w.containers.length = cs.length
  good : ∀ (i : Nat) (c : Container), w.containers[i]? = some (some c) → ∃ s, cs[i]? = some (some s) ∧ Holds ovf w.regions c s
  dead : ∀ i : Nat, w.containers[i]? = some none → cs[i]? = some none
  uniq : ∀ (i j : Nat) (c d : Container), w.containers[i]? = some (some c) → w.containers[j]? = some (some d) → c.bump = d.bump → i = j
  count : arenas w = containersOf cs + leaked

theorem filter_set_same {α : Type} {p : α → Bool} : ∀ {l : List α} {i : Nat} {x y : α}, l[i]? = some x → p x = p y →
    ((l.set i y).filter p).length = (l.filter p).length := by
  intro l
  induction l with
  | nil => intro i x y h _; simp at h
  | cons a l ih =>
    intro i x y h hp
    cases i with
    | zero =>
      cases h
      simp only [List.set_cons_zero, List.filter_cons, hp]
      split <;> simp
    | succ i =>
      have := ih (i := i) (by simpa using h) hp
      simp only [List.set_cons_succ, List.filter_cons]
      split <;> simp [this]

theorem filter_set_off {α : Type} {p : α → Bool} : ∀ {l : List α} {i : Nat} {x y : α}, l[i]? = some x → p x = true → p y = false →
    ((l.set i y).filter p).length + 1 = (l.filter p).length := by
  intro l
  induction l with
  | nil => intro i x y h _ _; simp at h
  | cons a l ih =>
    intro i x y h hx hy
    cases i with
    | zero =>
      cases h
      simp [List.filter_cons, hx, hy]
    | succ i =>
      have := ih (i := i) (by simpa using h) hx hy
      simp only [List.set_cons_succ, List.filter_cons]
      split <;> simp [this]

theorem get_append {α : Type} {l : List α} {i : Nat} {x y : α} (h : l[i]? = some x) : (l ++ [y])[i]? = some x := by
  obtain ⟨hi, -⟩ := List.getElem?_eq_some_iff.1 h
  rw [List.getElem?_append_left hi]
  exact h

theorem get_snoc {α : Type} {l : List α} {i : Nat} {x y : α} (h : (l ++ [y])[i]? = some x) : l[i]? = some x ∨ i = l.length ∧ x = y := by
  by_cases hi : i < l.length
  · rw [List.getElem?_append_left hi] at h; exact .inl h
  · rw [List.getElem?_append_right (by omega)] at h
    obtain ⟨hl, -⟩ := List.getElem?_eq_some_iff.1 h
    simp at hl
    have : i - l.length = 0 := by omega
    rw [this] at h
    simp at h
    exact .inr ⟨by omega, h.symm⟩

theorem Holds.append {regions : List Region} {c : Container} {s : Str} {r : Region} (h : Holds ovf regions c s) : Holds ovf (regions ++ [r]) c s := by
  obtain ⟨x, h1, h2⟩ := h.mem
  exact ⟨⟨x, get_append h1, h2⟩, h.input, h.refs, h.con⟩

theorem Holds.set {regions : List Region} {c : Container} {s : Str} {i : Nat} {r : Region} (h : Holds ovf regions c s) (hi : i ≠ c.bump) :
    Holds ovf (regions.set i r) c s := by
  obtain ⟨x, h1, h2⟩ := h.mem
  exact ⟨⟨x, by rw [List.getElem?_set_ne hi]; exact h1, h2⟩, h.input, h.refs, h.con⟩

theorem Holds.read {c : Container} {s : Str} (h : Holds ovf w.regions c s) :
    containerToml w c = some (s, c.toml.tokens, c.toml.asts, c.toml.map) ∧ c.toml.refs.all w.live = true := by
  obtain ⟨x, h1, -, h2, h3⟩ := h.mem
  have hl : w.live c.bump = true := by simp [World.live, h1, h2]
  have hr : c.toml.refs.all w.live = true := by simp [h.refs, hl]
  have hd : deref w c.toml.input = some s := by simp [deref, h.input, h1, h2, h3]
  exact ⟨by simp only [containerToml, hd, hr, if_true], hr⟩

/-- A new arena with a text in it is parsed. -/
theorem made (h : MemOk ovf w cs n) (s : Str) : ∃ w', keep (containerParse ovf w s) = some (w', if (contents ovf s).isSome then .nothing else .panicked) ∧
    MemOk ovf w' (if (contents ovf s).isSome then cs ++ [some s] else cs) (n + if (contents ovf s).isSome then 0 else 1) := by
  have hset : (w.regions ++ [(⟨true, true, []⟩ : Region)]).set w.regions.length ⟨true, true, [s]⟩ = w.regions ++ [⟨true, true, [s]⟩] := by
    rw [List.set_append_right _ _ (by omega)]; simp
  have hal : allocStr (newBump w).2 w.regions.length s = some (⟨w.regions.length, 0⟩, ⟨w.regions ++ [⟨true, true, [s]⟩], w.containers⟩) := by
    simp [allocStr, newBump, hset]
  have e : containerParse ovf w s = buildContainer ovf ⟨w.regions ++ [⟨true, true, [s]⟩], w.containers⟩ w.regions.length ⟨w.regions.length, 0⟩ := by
    show (match allocStr (newBump w).2 w.regions.length s with | none => Out.fault | some (p, w') => buildContainer ovf w' w.regions.length p) = _
    rw [hal]
  have hlive : World.live ⟨w.regions ++ [⟨true, true, [s]⟩], w.containers⟩ w.regions.length = true := by simp [World.live]
  have hder : deref ⟨w.regions ++ [⟨true, true, [s]⟩], w.containers⟩ ⟨w.regions.length, 0⟩ = some s := by simp [deref]
  have hcnt : arenas ⟨w.regions ++ [⟨true, true, [s]⟩], w.containers⟩ = arenas w + 1 := by simp [arenas, List.filter_append]
  have bad : contents ovf s = none → MemOk ovf ⟨w.regions ++ [⟨true, true, [s]⟩], w.containers⟩ cs (n + 1) := by
    intro _
    refine ⟨h.len, fun i c hc => ?_, h.dead, h.uniq, ?_⟩
    · obtain ⟨t, h1, h2⟩ := h.good i c hc
      exact ⟨t, h1, h2.append⟩
    · rw [hcnt, h.count]; omega
  rw [e]
  unfold buildContainer
  rw [if_pos hlive, hder]
  cases hl : lex s with
  | none =>
    have hc : contents ovf s = none := by simp [contents, hl]
    refine ⟨_, by simp only [hl, keep, hc]; rfl, ?_⟩
    rw [hc]; exact bad hc
  | some r =>
    obtain ⟨T, es⟩ := r
    cases hp : parse ovf s T es with
    | panic =>
      have hc : contents ovf s = none := by simp [contents, hl, hp]
      refine ⟨_, by simp only [hl, hp, keep, hc]; rfl, ?_⟩
      rw [hc]; exact bad hc
    | timeout =>
      have hc : contents ovf s = none := by simp [contents, hl, hp]
      refine ⟨_, by simp only [hl, hp, keep, hc]; rfl, ?_⟩
      rw [hc]; exact bad hc
    | ok a st =>
      cases hm : TomlMap.map a.asts with
      | none =>
        have hc : contents ovf s = none := by simp [contents, hl, hp, hm]
        refine ⟨_, by simp only [hl, hp, hm, keep, hc]; rfl, ?_⟩
        rw [hc]; exact bad hc
      | some m =>
        obtain ⟨m, es'⟩ := m
        have hc : contents ovf s = some (T, a, m) := by simp [contents, hl, hp, hm]
        refine ⟨_, by simp only [hl, hp, hm, keep, hc]; rfl, ?_⟩
        rw [hc]
        simp only [Option.isSome_some, if_true]
        have hb : ∀ (i : Nat) (c : Container), w.containers[i]? = some (some c) → c.bump < w.regions.length := by
          intro i c hi
          obtain ⟨t, -, h2⟩ := h.good i c hi
          obtain ⟨x, h3, -⟩ := h2.mem
          exact (List.getElem?_eq_some_iff.1 h3).1
        refine ⟨by simp [h.len], ?_, ?_, ?_, ?_⟩
        · intro i c hi
          rcases get_snoc hi with hi | ⟨rfl, hx⟩
          · obtain ⟨t, h1, h2⟩ := h.good i c hi
            exact ⟨t, get_append h1, h2.append⟩
          · cases hx
            refine ⟨s, by rw [h.len]; simp, ⟨⟨true, true, [s]⟩, by simp, rfl, rfl, rfl⟩, rfl, rfl, hc⟩
        · intro i hi
          rcases get_snoc hi with hi | ⟨rfl, hx⟩
          · exact get_append (h.dead i hi)
          · cases hx
        · intro i j c d hi hj hcd
          rcases get_snoc hi with hi | ⟨rfl, hx⟩ <;> rcases get_snoc hj with hj | ⟨rfl, hy⟩
          · exact h.uniq i j c d hi hj hcd
          · cases hy
            have := hb i c hi
            simp only at hcd
            omega
          · cases hx
            have := hb j d hj
            simp only at hcd
            omega
          · rfl
        · have : arenas ⟨w.regions ++ [⟨true, true, [s]⟩], w.containers ++ [some ⟨⟨⟨w.regions.length, 0⟩, T, a, m, [w.regions.length, w.regions.length]⟩, w.regions.length⟩]⟩ = arenas w + 1 := hcnt
          show arenas _ = _
          rw [this, h.count]
          simp [containersOf, List.filter_append]
          omega

/-- A call of a program that keeps to the rule. -/
theorem step_ok (h : MemOk ovf w cs n) {op : Op} (hb : Behaved op) : ∃ w', step ovf w op = some (w', shown ovf op cs) ∧
    MemOk ovf w' (texts ovf op cs) (n + panics [shown ovf op cs]) := by
  cases op with
  | parse s =>
    obtain ⟨w', h1, h2⟩ := made h s
    refine ⟨w', h1, ?_⟩
    simp only [texts, madeFrom, shown]
    cases hc : (contents ovf s).isSome <;> simp [hc, panics] at h2 ⊢ <;> exact h2
  | parseWith f =>
    cases f with
    | alloc s =>
      obtain ⟨w', h1, h2⟩ := made h s
      refine ⟨w', h1, ?_⟩
      simp only [texts, madeFrom, shown]
      cases hc : (contents ovf s).isSome <;> simp [hc, panics] at h2 ⊢ <;> exact h2
    | panic =>
      refine ⟨_, rfl, ⟨h.len, fun i c hi => ?_, h.dead, h.uniq, ?_⟩⟩
      · obtain ⟨t, h1, h2⟩ := h.good i c hi
        exact ⟨t, h1, h2.append⟩
      · have := h.count
        simp [arenas, newBump, List.filter_append, panics, shown, texts, madeFrom] at this ⊢
        omega
    | foreign p => exact absurd hb id
  | read i =>
    have hz : ∀ cs : List (Option Str), panics [shown ovf (.read i) cs] = 0 := by
      intro cs
      simp only [shown]
      split
      · split <;> rfl
      · rfl
    rw [hz]
    simp only [step, shown, texts, madeFrom, Nat.add_zero]
    cases hc : w.containers[i]? with
    | none =>
      have : cs[i]? = none := by
        rw [List.getElem?_eq_none_iff] at hc ⊢
        rw [← h.len]; exact hc
      exact ⟨w, by simp [this], h⟩
    | some o =>
      cases o with
      | none => exact ⟨w, by simp [h.dead i hc], h⟩
      | some c =>
        obtain ⟨s, h1, h2⟩ := h.good i c hc
        refine ⟨w, ?_, h⟩
        simp [h1, h2.con, h2.read.1]
  | drop i =>
    simp only [step, shown, texts, madeFrom, panics]
    cases hc : w.containers[i]? with
    | none =>
      have : cs.set i none = cs := List.set_eq_of_length_le (by rw [← h.len]; exact List.getElem?_eq_none_iff.1 hc)
      exact ⟨w, rfl, by rw [this]; exact h⟩
    | some o =>
      cases o with
      | none =>
        have : cs.set i none = cs := by
          have := h.dead i hc
          obtain ⟨hi, he⟩ := List.getElem?_eq_some_iff.1 this
          rw [← he]
          exact List.set_getElem_self _
        exact ⟨w, rfl, by rw [this]; exact h⟩
      | some c =>
        obtain ⟨s, h1, h2⟩ := h.good i c hc
        obtain ⟨x, h3, h4, h5, h6⟩ := h2.mem
        refine ⟨⟨w.regions.set c.bump { x with live := false }, w.containers.set i none⟩, ?_, ?_⟩
        · simp [containerDrop, h2.read.2, free, h3, h5]
        have hne : ∀ {j d}, (w.containers.set i none)[j]? = some (some d) → i ≠ j ∧ w.containers[j]? = some (some d) := by
          intro j d hj
          by_cases hij : i = j
          · subst hij
            rw [List.getElem?_set_self (List.getElem?_eq_some_iff.1 hc).1] at hj
            cases hj
          · rw [List.getElem?_set_ne hij] at hj
            exact ⟨hij, hj⟩
        refine ⟨by simp [h.len], ?_, ?_, ?_, ?_⟩
        · intro j d hj
          obtain ⟨hij, hj⟩ := hne hj
          obtain ⟨t, g1, g2⟩ := h.good j d hj
          refine ⟨t, by rw [List.getElem?_set_ne hij]; exact g1, g2.set fun he => hij (h.uniq i j c d hc hj he)⟩
        · intro j hj
          by_cases hij : i = j
          · subst hij
            exact List.getElem?_set_self (List.getElem?_eq_some_iff.1 h1).1
          · have hj : (w.containers.set i none)[j]? = some none := hj
            rw [List.getElem?_set_ne hij] at hj ⊢
            exact h.dead j hj
        · intro j k d e hj hk hde
          exact h.uniq j k d e (hne hj).2 (hne hk).2 hde
        · have c1 := filter_set_off (p := fun r : Region => r.arena && r.live) (y := { x with live := false }) h3 (by simp [h4, h5]) (by simp)
          have c2 := filter_set_off (p := Option.isSome) (y := (none : Option Str)) h1 rfl rfl
          have := h.count
          unfold arenas containersOf at this ⊢
          simp only [List.filter_cons, List.filter_nil] at c1 c2 ⊢
          simp
          omega
  | newBuffer s =>
    refine ⟨_, rfl, ⟨h.len, fun i c hi => ?_, h.dead, h.uniq, ?_⟩⟩
    · obtain ⟨t, h1, h2⟩ := h.good i c hi
      exact ⟨t, h1, h2.append⟩
    · have := h.count
      simpa [arenas, List.filter_append, panics, shown, texts, madeFrom] using this
  | freeBuffer r =>
    simp only [step, shown, texts, madeFrom, panics]
    cases hr : w.regions[r]? with
    | none => exact ⟨w, rfl, h⟩
    | some x =>
      by_cases hx : x.arena = false ∧ x.live = true
      · simp only [hx, and_self, if_true]
        refine ⟨⟨w.regions.set r { x with live := false }, w.containers⟩, by simp [free, hr, hx], ⟨h.len, fun i c hi => ?_, h.dead, h.uniq, ?_⟩⟩
        · obtain ⟨t, h1, h2⟩ := h.good i c hi
          refine ⟨t, h1, h2.set ?_⟩
          rintro rfl
          obtain ⟨y, h3, h4, -⟩ := h2.mem
          rw [hr] at h3
          cases h3
          rw [hx.1] at h4
          cases h4
        · have := filter_set_same (p := fun r : Region => r.arena && r.live) (y := { x with live := false }) hr (by simp [hx.1])
          have c := h.count
          unfold arenas at c ⊢
          simpa [this] using c
      · simp only [hx, if_false]
        exact ⟨w, rfl, h⟩

theorem run_ok : ∀ (ops : List Op) {w : World} {cs : List (Option Str)} {n : Nat}, MemOk ovf w cs n → (∀ op ∈ ops, Behaved op) →
    ∃ w', run ovf w ops = some (w', (history ovf cs ops).2) ∧ MemOk ovf w' (history ovf cs ops).1 (n + panics (history ovf cs ops).2) := by
  intro ops
  induction ops with
  | nil => intro w cs n h _; exact ⟨w, rfl, h⟩
  | cons op ops ih =>
    intro w cs n h hb
    obtain ⟨w1, h1, h2⟩ := step_ok h (hb op (by simp))
    obtain ⟨w2, h3, h4⟩ := ih h2 fun o ho => hb o (by simp [ho])
    refine ⟨w2, by simp [run, h1, h3, history], ?_⟩
    have : panics (history ovf cs (op :: ops)).2 = panics [shown ovf op cs] + panics (history ovf (texts ovf op cs) ops).2 := by
      simp only [history, panics, List.filter_cons]
      split <;> simp <;> omega
    rw [this, ← Nat.add_assoc]
    exact h4

/-- C95: whatever a program does with containers - making, reading and dropping them in any order, with its own memory in between - there is no
access to freed memory and no arena is freed twice; every container shows exactly what its text parses to, as if it had no memory at all; and the
arenas in memory are those of the containers that are there and those of the calls that panicked. -/
theorem C95_safe_partial (ovf : Bool) (ops : List Op) (hb : ∀ op ∈ ops, Behaved op) :
    ∃ w, run ovf .empty ops = some (w, (history ovf [] ops).2) ∧
      arenas w = containersOf (history ovf [] ops).1 + panics (history ovf [] ops).2 := by
  obtain ⟨w, h1, h2⟩ := run_ok (ovf := ovf) ops (w := .empty) (cs := []) (n := 0)
    ⟨rfl, by simp [World.empty], by simp [World.empty], by simp [World.empty], rfl⟩ hb
  exact ⟨w, h1, by simpa using h2.count⟩

/-- C95: if no call panics and all containers are dropped, all arenas are freed. -/
theorem C95_freed (ovf : Bool) (ops : List Op) (hb : ∀ op ∈ ops, Behaved op) (hp : ∀ o ∈ (history ovf [] ops).2, o ≠ .panicked)
    (hd : ∀ c ∈ (history ovf [] ops).1, c = none) :
    ∃ w, run ovf .empty ops = some (w, (history ovf [] ops).2) ∧ ∀ r ∈ w.regions, r.arena = true → r.live = false := by
  obtain ⟨w, h1, h2⟩ := C95_safe_partial ovf ops hb
  refine ⟨w, h1, fun r hr ha => ?_⟩
  have e1 : containersOf (history ovf [] ops).1 = 0 := by
    unfold containersOf
    rw [List.length_eq_zero_iff, List.filter_eq_nil_iff]
    intro c hc
    rw [hd c hc]; simp
  have e2 : panics (history ovf [] ops).2 = 0 := by
    unfold panics
    rw [List.length_eq_zero_iff, List.filter_eq_nil_iff]
    intro o ho
    have := hp o ho
    cases o <;> simp_all
  rw [e1, e2] at h2
  unfold arenas at h2
  rw [Nat.add_zero, List.length_eq_zero_iff, List.filter_eq_nil_iff] at h2
  have := h2 r hr
  simp [ha] at this
  exact this

/-- A program that makes two containers, one of them with its own function, drops the first and reads the second. -/
def containerOps : List Op := [.parse ['a', '=', '1'], .newBuffer ['x'], .parseWith (.alloc ['[', 't', ']']), .drop 0, .freeBuffer 1, .read 1, .drop 1]

/-- Whether the calls show something. -/
def seenText : Obs → Option Str
  | .seen s _ _ _ => some s
  | _ => none

set_option maxRecDepth 100000 in
/-- It shows the text of the second container, there are no panics, and no container is left. -/
example : (history true [] containerOps).2.map seenText = [none, none, none, none, none, some ['[', 't', ']'], none] ∧
    panics (history true [] containerOps).2 = 0 ∧ (history true [] containerOps).1 = [none, none] := by decide +kernel

set_option maxRecDepth 100000 in
/-- C95 (false today): the function given to `parse_with` may return a text that is not in the arena, since the caller chooses the lifetime. Safe code
can free the text and then read it through the container. -/
theorem C95_counterexample : (run true .empty [.newBuffer ['a', '=', '1'], .parseWith (.foreign ⟨0, 0⟩), .freeBuffer 0, .read 0]).isNone = true := by
  decide +kernel

/-- C95: what the theorems above exclude: to read or to drop a container with a reference to memory that is not there is a fault. -/
theorem C95_fault {ovf : Bool} {w : World} {i : Nat} {c : Container} (hc : w.containers[i]? = some (some c)) {r : Nat} (hr : r ∈ c.toml.refs)
    (hl : w.live r = false) : step ovf w (.read i) = none ∧ step ovf w (.drop i) = none := by
  have : c.toml.refs.all w.live = false := by
    rw [List.all_eq_false]
    exact ⟨r, hr, by simp [hl]⟩
  constructor
  · simp only [step, hc, containerToml, this, Bool.false_eq_true, if_false]
    split <;> rfl
  · simp only [step, hc, containerDrop, this, Bool.false_eq_true, if_false]
    rfl

set_option maxRecDepth 100000 in
/-- There is such a container after the function given to `parse_with` returned a text of a buffer that was freed then. -/
example : ((run true .empty [.newBuffer ['a', '=', '1'], .parseWith (.foreign ⟨0, 0⟩), .freeBuffer 0]).bind fun x =>
    x.1.containers.head?.bind fun c => c.map fun c => (c.toml.refs, c.toml.refs.map x.1.live)) = some ([0, 1], [false, true]) := by decide +kernel

end Verif.Props
