import Verif.Semver.InlineStrLemmas
import Verif.Props.SemverParse

/-! # Properties C27-C29: the inline/heap string of prerelease and build tags -/

namespace Verif.Props
open Verif.InlineStr Verif.Spec.InlineStr

/-- C27: building a string from a valid text and reading it back gives the text, whatever the
allocator and the current heap; the only other outcome is the abort on allocation failure. -/
theorem C27_faithful (A : Allocator) (hA : A.Ok) (h : Heap) (s : Bytes) (hs : ValidText s) :
    newUnchecked A h s = .abort ∨
    ∃ r h', newUnchecked A h s = .ok (r, h') ∧ asStr h' r = .ok s ∧
      (isEmpty r = true ↔ s = []) ∧ (isInline r = true ↔ 1 ≤ s.length ∧ s.length ≤ 8) ∧
      (s.length ≤ 8 → h' = h) := by
  rcases new_created hA h s hs with e | ⟨w, h', e, hw, hx⟩
  · exact .inl e
  · refine .inr ⟨w, h', e, asStr_holds hw, ?_⟩
    cases hw with
    | empty =>
      refine ⟨by simp [empty_kind], by simp [empty_kind], fun _ => ?_⟩
      rcases hx with ⟨-, hx⟩ | ⟨p, hp, -⟩
      · exact hx
      · rw [ptrOf_empty] at hp; cases hp
    | inline _ hne hl hb =>
      have k := inline_kind hne hl hb
      refine ⟨by simp [k.1, hne], ?_, fun _ => ?_⟩
      · simp only [k.2, true_iff]; exact ⟨List.length_pos_iff.2 hne, hl⟩
      · rcases hx with ⟨-, hx⟩ | ⟨p, hp, -⟩
        · exact hx
        · rw [ptrOf_inline hne hl hb] at hp; cases hp
    | heap p _ hp h8 hm hc =>
      have k := hp.kind
      refine ⟨?_, ?_, fun _ => by omega⟩
      · simp only [k.1, Bool.false_eq_true, false_iff]; rintro rfl; simp at h8
      · simp only [k.2, Bool.false_eq_true, false_iff]; omega

/-- An allocator satisfying the contract exists: hand out address `2 * (t + 1)` if it is free. -/
def bump (t : Nat) : Allocator where
  addr := fun h _ => match h (2 * (t + 1)) with
    | some _ => 0
    | none => if t < 1000 then 2 * (t + 1) else 0
  junk := fun n => List.replicate n 170

theorem bump_ok (t : Nat) : (bump t).Ok := by
  refine ⟨fun h n => ?_, by simp [bump]⟩
  simp only [bump]
  cases hh : h (2 * (t + 1)) with
  | some _ => exact .inl rfl
  | none =>
    by_cases ht : t < 1000
    · right; simp only [if_pos ht]; exact ⟨by omega, by omega, hh⟩
    · left; simp [ht]

/-- `alpha.11.beta` (13 bytes, on the heap) meets the precondition and is stored and read back. -/
example : ValidText ("alpha.11.beta".toList.map Char.toNat) := ⟨by decide, by decide⟩

example : (do
    let (r, h) ← newUnchecked (bump 0) (fun _ => none) ("alpha.11.beta".toList.map Char.toNat)
    asStr h r) = .ok ("alpha.11.beta".toList.map Char.toNat) := by decide

/-- The precondition matters: a nul byte at the end is lost. -/
example : (do
    let (r, h) ← newUnchecked (bump 0) (fun _ => none) [97, 0]
    asStr h r) = .ok [97] := by decide

/-- Every tag the parsers hand to `new_unchecked` (C26) satisfies its precondition, and its bytes
are the code points of its characters. -/
theorem C27_tags_are_valid (s : Str) (h : Spec.Semver.PreTag s ∨ Spec.Semver.BuildTag s)
    (hl : s.length ≤ 2 ^ 63 - 9) : ValidText (s.map Char.toNat) := by
  obtain ⟨-, hc⟩ := C26_tag_characters s h
  refine ⟨?_, by simpa using hl⟩
  intro b hb
  obtain ⟨c, hc', rfl⟩ := List.mem_map.1 hb
  obtain ⟨-, h1, h2⟩ := hc c hc'
  omega

/-- C28: after any history, comparing two live values tells whether their texts are equal. -/
theorem C28_equality_is_text_equality (A : Nat → Allocator) (hA : ∀ n, (A n).Ok) (cs : List Cmd)
    (hc : ∀ c ∈ cs, ValidCmd c) (st : State) (os : List Obs)
    (hrun : run A State.init cs = .ok (st, os)) (i j : Nat) (s t : Bytes)
    (hi : slot (specRun [] cs).1 i = some s) (hj : slot (specRun [] cs).1 j = some t) :
    ∃ a b, slot st.slots i = some a ∧ slot st.slots j = some b ∧
      InlineStr.eq st.heap a b = .ok (decide (s = t)) ∧
      asStr st.heap a = .ok s ∧ asStr st.heap b = .ok t := by
  rcases run_refines hA Inv.init cs hc with e | ⟨st', e, h⟩
  · rw [e] at hrun; cases hrun
  · rw [e] at hrun; cases hrun
    have live : ∀ k u, slot (specRun [] cs).1 k = some u → ∃ r, slot st.slots k = some r := by
      intro k u hk
      cases hr : slot st.slots k with
      | none => rw [(h.none_iff k).1 hr] at hk; cases hk
      | some r => exact ⟨r, rfl⟩
    obtain ⟨a, ha⟩ := live i s hi
    obtain ⟨b, hb⟩ := live j t hj
    have h1 := h.holds i a s ha hi
    have h2 := h.holds j b t hb hj
    exact ⟨a, b, ha, hb, eq_holds h1 h2, asStr_holds h1, asStr_holds h2⟩

theorem slot_cons {α : Type} (x : Option α) (l : List (Option α)) (i : Nat) :
    slot (x :: l) (i + 1) = slot l i := by simp [slot]

theorem buffers_count (l : List (Option Nat)) (v : List (Option Bytes)) (hl : l.length = v.length)
    (h1 : ∀ i, slot l i = none ↔ slot v i = none)
    (h2 : ∀ i r s, slot l i = some r → slot v i = some s → (8 < s.length ↔ ∃ p, ptrOf r = some p)) :
    (l.filterMap (fun o => o.bind ptrOf)).length = longLive v := by
  induction l generalizing v with
  | nil => cases v with
    | nil => rfl
    | cons => simp at hl
  | cons x l ih =>
    cases v with
    | nil => simp at hl
    | cons y v =>
      have ih' := ih v (by simpa using hl) (fun i => by simpa [slot_cons] using h1 (i + 1))
        (fun i r s hr hs => h2 (i + 1) r s (by simpa [slot_cons] using hr) (by simpa [slot_cons] using hs))
      have n0 := h1 0
      simp only [slot, List.getElem?_cons_zero, Option.join_some] at n0
      unfold longLive at ih' ⊢
      cases x with
      | none =>
        have : y = none := n0.1 rfl
        subst this
        simpa using ih'
      | some r =>
        cases y with
        | none => simp at n0
        | some s =>
          have h0 := h2 0 r s (by simp [slot]) (by simp [slot])
          simp only [List.filterMap_cons, Option.bind_some, List.filter_cons]
          by_cases h8 : 8 < s.length
          · obtain ⟨p, hp⟩ := h0.1 h8
            simp [hp, h8, ih']
          · have : ptrOf r = none := by
              cases hp : ptrOf r with
              | none => rfl
              | some p => exact absurd (h0.2 ⟨p, hp⟩) h8
            simp [this, h8, ih']

theorem buffers_nodup (l : List (Option Nat))
    (h : ∀ i j r r' p, slot l i = some r → slot l j = some r' → ptrOf r = some p →
      ptrOf r' = some p → i = j) : (l.filterMap (fun o => o.bind ptrOf)).Nodup := by
  induction l with
  | nil => simp
  | cons x l ih =>
    have ih' := ih (fun i j r r' p hi hj hp hp' => by
      have := h (i + 1) (j + 1) r r' p (by simpa [slot_cons] using hi)
        (by simpa [slot_cons] using hj) hp hp'
      omega)
    simp only [List.filterMap_cons]
    cases hx : x.bind ptrOf with
    | none => exact ih'
    | some p =>
      refine List.nodup_cons.2 ⟨fun hm => ?_, ih'⟩
      obtain ⟨o, ho, hop⟩ := List.mem_filterMap.1 hm
      obtain ⟨j, hj⟩ := List.mem_iff_getElem?.1 ho
      cases x with
      | none => simp at hx
      | some r =>
        cases o with
        | none => simp at hop
        | some r' =>
          have := h 0 (j + 1) r r' p (by simp [slot]) (by simp [slot, hj]) hx hop
          omega

/-- C29: every history of constructions (from valid texts), clones, drops, reads and comparisons,
with any allocator that keeps its contract, runs without undefined behaviour (no use after free,
no double free, no out-of-bounds access, no `dealloc` with a wrong layout) and without panic; it
observes exactly what the same history observes on plain strings; and the live buffers are exactly
one for each live value longer than 8 bytes, so that none is left when everything is dropped. -/
theorem C29_heap_discipline (A : Nat → Allocator) (hA : ∀ n, (A n).Ok) (cs : List Cmd)
    (hc : ∀ c ∈ cs, ValidCmd c) :
    run A State.init cs = .abort ∨
    ∃ st, run A State.init cs = .ok (st, (specRun [] cs).2) ∧
      (∃ live : List Nat, live.Nodup ∧ live.length = longLive (specRun [] cs).1 ∧
        ∀ p, st.heap p ≠ none ↔ p ∈ live) ∧
      ((∀ i, slot (specRun [] cs).1 i = none) → ∀ p, st.heap p = none) := by
  rcases run_refines hA Inv.init cs hc with e | ⟨st, e, h⟩
  · exact .inl e
  · refine .inr ⟨st, e, ⟨st.slots.filterMap (fun o => o.bind ptrOf), buffers_nodup _ h.unique,
      buffers_count _ _ h.len h.none_iff ?_, ?_⟩, ?_⟩
    · intro i r s hr hs
      have hh := h.holds i r s hr hs
      exact ⟨hh.owner, fun ⟨p, hp⟩ => (hh.live hp).2⟩
    · intro p
      rw [List.mem_filterMap]
      constructor
      · intro hp
        obtain ⟨i, r, hi, hr⟩ := h.owned p hp
        refine ⟨some r, ?_, by simpa using hr⟩
        unfold slot at hi
        rw [List.mem_iff_getElem?]
        refine ⟨i, ?_⟩
        cases hg : st.slots[i]? with
        | none => rw [hg] at hi; cases hi
        | some o => rw [hg] at hi; simp only [Option.join_some] at hi; rw [hi]
      · rintro ⟨o, ho, hop⟩
        cases o with
        | none => simp at hop
        | some r =>
          obtain ⟨j, hj⟩ := List.mem_iff_getElem?.1 ho
          obtain ⟨s, -, hh⟩ := h.get (i := j) (r := r) (by simp [slot, hj])
          rw [(hh.live hop).1]; simp
    · intro hn p
      cases hp : st.heap p with
      | none => rfl
      | some b =>
        obtain ⟨i, r, hi, -⟩ := h.owned p (by rw [hp]; simp)
        rw [(h.none_iff i).2 (hn i)] at hi; cases hi

/-- A history with heap strings, a clone that outlives its original, and everything dropped. -/
example : ∃ st, run bump State.init
    [.new ("alpha.11.beta".toList.map Char.toNat), .clone 0, .drop 0, .read 1, .cmp 0 1, .drop 1]
    = .ok (st, [.none, .none, .none, .text ("alpha.11.beta".toList.map Char.toNat), .none, .none]) := by
  rcases C29_heap_discipline bump bump_ok
    [.new ("alpha.11.beta".toList.map Char.toNat), .clone 0, .drop 0, .read 1, .cmp 0 1, .drop 1]
    (by
      intro c hc
      simp only [List.mem_cons, List.not_mem_nil, or_false] at hc
      rcases hc with rfl | rfl | rfl | rfl | rfl | rfl
      · exact ⟨by decide, by decide⟩
      all_goals trivial) with h | ⟨st, h, -⟩
  · have hd : (match run bump State.init [.new ("alpha.11.beta".toList.map Char.toNat), .clone 0,
        .drop 0, .read 1, .cmp 0 1, .drop 1] with
      | .abort => true
      | _ => false) = false := by decide
    rw [h] at hd; cases hd
  · exact ⟨st, h⟩

end Verif.Props
