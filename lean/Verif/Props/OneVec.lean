import Verif.Toml.OneVec

/-! # Property C85: vectors with at least one element -/

namespace Verif.Props
open Verif Verif.Toml

variable {α : Type}

/-- The number of `push` in a history. -/
def pushes : List (OneVec.Call α) → Nat
  | [] => 0
  | .push _ :: cs => pushes cs + 1
  | _ :: cs => pushes cs

/-- All indices of a history are in bounds, if it starts with `n` elements. -/
def InBounds (n : Nat) : List (OneVec.Call α) → Prop
  | [] => True
  | .push _ :: cs => InBounds (n + 1) cs
  | .indexSet i _ :: cs => i < n ∧ InBounds n cs
  | _ :: cs => InBounds n cs

/-- What a history leaves at the place `i`: the last value written there. -/
def lastWritten (n : Nat) (init : Nat → Option α) : List (OneVec.Call α) → Nat → Option α
  | [] => init
  | .push x :: cs => lastWritten (n + 1) (fun i => if i = n then some x else init i) cs
  | .indexSet k x :: cs => lastWritten n (fun i => if i = k then some x else init i) cs
  | .firstSet x :: cs => lastWritten n (fun i => if i = 0 then some x else init i) cs
  | .lastSet x :: cs => lastWritten n (fun i => if i + 1 = n then some x else init i) cs

theorem calls_spec (cs : List (OneVec.Call α)) : ∀ (v : OneVec α), 0 < v.inner.length →
    (InBounds v.inner.length cs ↔ ∃ w, v.calls cs = some w) ∧
    ∀ w, v.calls cs = some w → w.inner.length = v.inner.length + pushes cs ∧
      ∀ i, w.inner[i]? = lastWritten v.inner.length (fun i => v.inner[i]?) cs i := by
  induction cs with
  | nil =>
    intro v hv
    refine ⟨⟨fun _ => ⟨v, rfl⟩, fun _ => trivial⟩, ?_⟩
    intro w h
    cases h
    exact ⟨rfl, fun i => rfl⟩
  | cons c cs ih =>
    intro v hv
    have hset : ∀ (k : Nat) (x : α), k < v.inner.length →
        (fun i => (v.inner.set k x)[i]?) = fun i => if i = k then some x else v.inner[i]? := by
      intro k x hk
      funext i
      rw [List.getElem?_set]
      by_cases h : k = i
      · subst h; simp [hk]
      · rw [if_neg h, if_neg (Ne.symm h)]
    cases c with
    | push x =>
      obtain ⟨h1, h2⟩ := ih ⟨v.inner ++ [x]⟩ (by simp)
      simp only [List.length_append, List.length_cons, List.length_nil, Nat.zero_add] at h1 h2
      refine ⟨h1, fun w hw => ?_⟩
      obtain ⟨h3, h4⟩ := h2 w hw
      refine ⟨by rw [h3]; simp only [pushes]; omega, fun i => ?_⟩
      rw [h4, lastWritten]
      congr 1
      funext i
      by_cases hi : i < v.inner.length
      · rw [List.getElem?_append_left hi, if_neg (by omega)]
      · rw [List.getElem?_append_right (by omega)]
        by_cases he : i = v.inner.length
        · simp [he]
        · rw [if_neg he, List.getElem?_eq_none (by simp; omega), List.getElem?_eq_none (by omega)]
    | indexSet k x =>
      by_cases hk : k < v.inner.length
      · obtain ⟨h1, h2⟩ := ih ⟨v.inner.set k x⟩ (by simpa using hv)
        simp only [List.length_set] at h1 h2
        have he : v.calls (.indexSet k x :: cs) = OneVec.calls ⟨v.inner.set k x⟩ cs := by
          simp [OneVec.calls, OneVec.call, OneVec.indexSet, hk]
        rw [he]
        refine ⟨by rw [InBounds, ← h1]; simp [hk], fun w hw => ?_⟩
        obtain ⟨h3, h4⟩ := h2 w hw
        refine ⟨by rw [h3]; rfl, fun i => ?_⟩
        rw [h4, lastWritten, hset _ _ hk]
      · have he : v.calls (.indexSet k x :: cs) = none := by
          simp [OneVec.calls, OneVec.call, OneVec.indexSet, hk]
        rw [he]
        exact ⟨⟨fun h => absurd h.1 hk, fun ⟨w, h⟩ => by cases h⟩, (fun w h => by cases h)⟩
    | firstSet x =>
      obtain ⟨h1, h2⟩ := ih ⟨v.inner.set 0 x⟩ (by simpa using hv)
      simp only [List.length_set] at h1 h2
      have he : v.calls (.firstSet x :: cs) = OneVec.calls ⟨v.inner.set 0 x⟩ cs := by
        simp [OneVec.calls, OneVec.call, OneVec.firstSet, hv]
      rw [he]
      refine ⟨h1, fun w hw => ?_⟩
      obtain ⟨h3, h4⟩ := h2 w hw
      refine ⟨by rw [h3]; rfl, fun i => ?_⟩
      rw [h4, lastWritten, hset _ _ hv]
    | lastSet x =>
      obtain ⟨h1, h2⟩ := ih ⟨v.inner.set (v.inner.length - 1) x⟩ (by simpa using hv)
      simp only [List.length_set] at h1 h2
      have he : v.calls (.lastSet x :: cs) = OneVec.calls ⟨v.inner.set (v.inner.length - 1) x⟩ cs := by
        simp [OneVec.calls, OneVec.call, OneVec.lastSet, Nat.not_lt.2 hv, show v.inner ≠ [] by
          intro h; rw [h] at hv; exact absurd hv (by simp)]
      rw [he]
      refine ⟨h1, fun w hw => ?_⟩
      obtain ⟨h3, h4⟩ := h2 w hw
      refine ⟨by rw [h3]; rfl, fun i => ?_⟩
      rw [h4, lastWritten, hset _ _ (by omega)]
      have : (fun i => if i = v.inner.length - 1 then some x else v.inner[i]?) =
          fun i => if i + 1 = v.inner.length then some x else v.inner[i]? := by
        funext i
        have : i = v.inner.length - 1 ↔ i + 1 = v.inner.length := by omega
        simp only [this]
      rw [this]

/-- C85: after any history of calls that starts with one element and whose indices are in bounds, no unchecked
access was out of bounds, and the vector has one element more for each `push`. -/
theorem C85_history (x : α) (cs : List (OneVec.Call α)) :
    (InBounds 1 cs ↔ ∃ w, (OneVec.new x).calls cs = some w) ∧
    ∀ w, (OneVec.new x).calls cs = some w → w.len = 1 + pushes cs ∧ w.isEmpty = false ∧
      ∀ i, w.index i = lastWritten 1 (fun i => if i = 0 then some x else none) cs i := by
  obtain ⟨h1, h2⟩ := calls_spec cs (OneVec.new x) (by simp [OneVec.new])
  refine ⟨h1, fun w hw => ?_⟩
  obtain ⟨h3, h4⟩ := h2 w hw
  have h3 : w.inner.length = 1 + pushes cs := h3
  refine ⟨h3, ?_, fun i => ?_⟩
  · unfold OneVec.isEmpty
    cases hw : w.inner with
    | nil => rw [hw] at h3; simp only [List.length_nil] at h3; omega
    | cons a as => rfl
  · have := h4 i
    unfold OneVec.index
    rw [this]
    have : (fun i => (OneVec.new x).inner[i]?) = fun i => if i = 0 then some x else none := by
      funext i
      cases i <;> simp [OneVec.new]
    rw [this]
    rfl

/-- C85: then `first` and `last` are in bounds: the elements number 0 and `len - 1`. -/
theorem C85_ends {x : α} {cs : List (OneVec.Call α)} {w : OneVec α} (h : (OneVec.new x).calls cs = some w) :
    ∃ a b, w.first = some a ∧ w.last = some b ∧ w.index 0 = some a ∧ w.index (w.len - 1) = some b := by
  have hl := ((C85_history x cs).2 w h).1
  unfold OneVec.len at hl
  have h0 : 0 < w.inner.length := by omega
  refine ⟨w.inner[0], w.inner[w.inner.length - 1], ?_, ?_, ?_, ?_⟩
  · exact List.getElem?_eq_getElem h0
  · unfold OneVec.last
    rw [if_neg (by omega)]
    exact List.getElem?_eq_getElem (by omega)
  · exact List.getElem?_eq_getElem h0
  · exact List.getElem?_eq_getElem (by unfold OneVec.len; omega)

example : InBounds 1 [.push 2, .indexSet 1 5, .firstSet 7, .push 3, .lastSet (4 : Nat)] := by simp [InBounds]

example : (OneVec.new 1).calls [.push 2, .indexSet 1 5, .firstSet 7, .push 3, .lastSet (4 : Nat)] =
    some ⟨[7, 5, 4]⟩ := by decide

/-- The unsafe constructor: `first` of an empty vector is undefined behaviour. -/
theorem C85_unchecked : (OneVec.fromVecUnchecked ([] : List α)).first = none ∧
    (OneVec.fromVecUnchecked ([] : List α)).last = none := ⟨rfl, rfl⟩

end Verif.Props
