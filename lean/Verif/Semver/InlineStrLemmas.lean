import Verif.Spec.InlineStr

namespace Verif.InlineStr
open Verif.Spec.InlineStr

@[simp] theorem bind_ok {α β : Type} (a : α) (f : α → Mem β) : (Mem.ok a >>= f) = f a := rfl
@[simp] theorem bind_abort {α β : Type} (f : α → Mem β) : ((Mem.abort : Mem α) >>= f) = .abort := rfl
@[simp] theorem bind_panic {α β : Type} (f : α → Mem β) : ((Mem.panic : Mem α) >>= f) = .panic := rfl
@[simp] theorem bind_ub {α β : Type} (f : α → Mem β) : ((Mem.ub : Mem α) >>= f) = .ub := rfl
@[simp] theorem pure_ok {α : Type} (a : α) : (pure a : Mem α) = .ok a := rfl

/-! ## words and bytes -/

theorem leBytes_length (k x : Nat) : (leBytes k x).length = k := by
  induction k generalizing x with
  | zero => rfl
  | succ k ih => simp [leBytes, ih]

theorem fromLe_leBytes (k x : Nat) (h : x < 256 ^ k) : fromLe (leBytes k x) = x := by
  induction k generalizing x with
  | zero => simp at h; subst h; rfl
  | succ k ih =>
    simp only [leBytes, fromLe]
    rw [ih (x / 256) (by rw [Nat.pow_succ] at h; omega)]
    omega

theorem leBytes_fromLe (s : Bytes) (h : ∀ b ∈ s, b < 256) : leBytes s.length (fromLe s) = s := by
  induction s with
  | nil => rfl
  | cons b bs ih =>
    have hb := h b (by simp)
    have := ih (fun x hx => h x (by simp [hx]))
    simp only [List.length_cons, leBytes, fromLe]
    have e1 : (b + 256 * fromLe bs) % 256 = b := by omega
    have e2 : (b + 256 * fromLe bs) / 256 = fromLe bs := by omega
    rw [e1, e2, this]

theorem fromLe_zeros (s : Bytes) (n : Nat) : fromLe (s ++ List.replicate n 0) = fromLe s := by
  induction s with
  | nil =>
    induction n with
    | zero => rfl
    | succ n ih => simp only [List.replicate_succ, List.nil_append, fromLe] at ih ⊢; omega
  | cons b bs ih => simp [fromLe, ih]

/-- A text of 1 to 8 valid bytes is a word in `[256^(n-1), 128 * 256^(n-1))`. -/
theorem fromLe_range (s : Bytes) (hs : s ≠ []) (h : ∀ b ∈ s, 1 ≤ b ∧ b ≤ 127) :
    256 ^ (s.length - 1) ≤ fromLe s ∧ fromLe s < 128 * 256 ^ (s.length - 1) := by
  induction s with
  | nil => exact absurd rfl hs
  | cons b bs ih =>
    have hb := h b (by simp)
    cases bs with
    | nil => simp [fromLe]; omega
    | cons c cs =>
      obtain ⟨h1, h2⟩ := ih (by simp) (fun x hx => h x (by simp [hx]))
      simp only [List.length_cons, Nat.add_sub_cancel] at h1 h2 ⊢
      rw [Nat.pow_succ]
      simp only [fromLe] at h1 h2 ⊢
      generalize 256 ^ cs.length = P at *
      generalize fromLe cs = F at *
      omega

theorem pad_word (s : Bytes) (hs : s ≠ []) (hl : s.length ≤ 8) (h : ∀ b ∈ s, 1 ≤ b ∧ b ≤ 127) :
    fromLe s < 2 ^ 63 ∧ 0 < fromLe s ∧ 8 - leadingZeros (fromLe s) / 8 = s.length := by
  obtain ⟨h1, h2⟩ := fromLe_range s hs h
  have hn : 1 ≤ s.length := List.length_pos_iff.2 hs
  generalize hF : fromLe s = F at *
  obtain ⟨k, hk⟩ : ∃ k, s.length = k + 1 := ⟨s.length - 1, by omega⟩
  rw [hk] at h1 h2 hl ⊢
  simp only [Nat.add_sub_cancel] at h1 h2
  have e : (256 : Nat) ^ k = 2 ^ (8 * k) := by rw [Nat.pow_mul]
  have e2 : 128 * 2 ^ (8 * k) = 2 ^ (8 * k + 7) := by rw [Nat.pow_add]; omega
  rw [e] at h1 h2
  rw [e2] at h2
  have hpos : 0 < F := Nat.lt_of_lt_of_le (Nat.two_pow_pos _) h1
  have hlt : F < 2 ^ 63 := Nat.lt_of_lt_of_le h2 (Nat.pow_le_pow_right (by decide) (by omega))
  refine ⟨hlt, hpos, ?_⟩
  have l1 : 8 * k ≤ F.log2 := (Nat.le_log2 (by omega)).2 h1
  have l2 : F.log2 < 8 * k + 7 := (Nat.log2_lt (by omega)).2 h2
  unfold leadingZeros
  rw [if_neg (by omega)]
  omega

theorem or_one_even (p : Nat) (h : p % 2 = 0) : p ||| 1 = p + 1 := by
  apply Nat.eq_of_testBit_eq
  intro i
  rw [Nat.testBit_or]
  obtain ⟨q, rfl⟩ : ∃ q, p = 2 * q := ⟨p / 2, by omega⟩
  cases i with
  | zero => simp [Nat.testBit_zero]
  | succ i =>
    simp only [Nat.testBit_succ]
    have e1 : (2 * q) / 2 = q := by omega
    have e2 : (2 * q + 1) / 2 = q := by omega
    have e3 : (1 : Nat) / 2 = 0 := by decide
    rw [e1, e2, e3]; simp

theorem ptrToRepr_eq (p : Nat) (h : p % 2 = 0) (hp : p < 2 ^ 64) :
    ptrToRepr p = p / 2 + 2 ^ 63 := by
  simp only [ptrToRepr, or_one_even p h, rotateRight1, wrappingAdd, wrappingSub]
  omega

theorem reprToPtr_eq (p : Nat) (h : p % 2 = 0) (hp : p < 2 ^ 64) :
    reprToPtr (ptrToRepr p) = p := by
  rw [ptrToRepr_eq p h hp]
  simp only [reprToPtr, wrappingAdd, wrappingSub]
  omega

theorem EMPTY_eq : EMPTY = 2 ^ 63 := by decide

theorem isInline_iff (r : Nat) : isInline r = true ↔ r < 2 ^ 63 := by
  simp only [isInline, PTR_SIZE, Nat.shiftRight_eq_div_pow, beq_iff_eq]
  omega

/-! ## what a representation holds -/

/-- `p` is an address the allocator may return. -/
structure GoodPtr (p : Nat) : Prop where
  even : p % 2 = 0
  lt : p < 2 ^ 64
  pos : p ≠ 0

/-- Representation `r` holds the text `s`. -/
inductive Holds (h : Heap) : Nat → Bytes → Prop
  | empty : Holds h EMPTY []
  | inline (s : Bytes) : s ≠ [] → s.length ≤ 8 → (∀ b ∈ s, 1 ≤ b ∧ b ≤ 127) → Holds h (fromLe s) s
  | heap (p : Nat) (s : Bytes) : GoodPtr p → 8 < s.length → s.length ≤ MAX_STR_LEN →
      h p = some (leBytes 8 s.length ++ s) → Holds h (ptrToRepr p) s

/-- The buffer a representation owns. -/
def ptrOf (r : Nat) : Option Nat := if isEmpty r || isInline r then none else some (reprToPtr r)

theorem GoodPtr.kind {p : Nat} (h : GoodPtr p) :
    isEmpty (ptrToRepr p) = false ∧ isInline (ptrToRepr p) = false := by
  obtain ⟨h1, h2, h3⟩ := h
  rw [ptrToRepr_eq p h1 h2]
  constructor
  · simp only [isEmpty, EMPTY_eq, beq_eq_false_iff_ne, ne_eq]; omega
  · cases hi : isInline (p / 2 + 2 ^ 63)
    · rfl
    · rw [isInline_iff] at hi; omega

theorem inline_kind {s : Bytes} (hs : s ≠ []) (hl : s.length ≤ 8) (h : ∀ b ∈ s, 1 ≤ b ∧ b ≤ 127) :
    isEmpty (fromLe s) = false ∧ isInline (fromLe s) = true := by
  obtain ⟨h1, h2, -⟩ := pad_word s hs hl h
  refine ⟨?_, (isInline_iff _).2 h1⟩
  simp only [isEmpty, EMPTY_eq, beq_eq_false_iff_ne, ne_eq]; omega

theorem empty_kind : isEmpty EMPTY = true ∧ isInline EMPTY = false := by decide

theorem ptrOf_heap {p : Nat} (h : GoodPtr p) : ptrOf (ptrToRepr p) = some p := by
  simp [ptrOf, h.kind.1, h.kind.2, reprToPtr_eq p h.even h.lt]

theorem ptrOf_inline {s : Bytes} (hs : s ≠ []) (hl : s.length ≤ 8)
    (h : ∀ b ∈ s, 1 ≤ b ∧ b ≤ 127) : ptrOf (fromLe s) = none := by
  simp [ptrOf, inline_kind hs hl h]

theorem ptrOf_empty : ptrOf EMPTY = none := by decide

theorem len_lt {n : Nat} (h : n ≤ MAX_STR_LEN) : n < 256 ^ 8 := by
  simp only [MAX_STR_LEN, PTR_SIZE] at h; omega

theorem readLen_heap {h : Heap} {p : Nat} {s : Bytes} (hh : h p = some (leBytes 8 s.length ++ s))
    (hm : s.length ≤ MAX_STR_LEN) : readLen h p = .ok s.length := by
  simp only [readLen, readBytes, hh, PTR_SIZE]
  rw [if_pos (by simp [leBytes_length])]
  simp only [List.drop_zero, bind_ok, pure_ok]
  rw [List.take_append_of_le_length (by simp [leBytes_length]),
    List.take_of_length_le (by simp [leBytes_length]), fromLe_leBytes 8 _ (len_lt hm)]

theorem ptrAsStr_heap {h : Heap} {p : Nat} {s : Bytes} (hp : GoodPtr p)
    (hh : h p = some (leBytes 8 s.length ++ s)) (hm : s.length ≤ MAX_STR_LEN) :
    ptrAsStr h (ptrToRepr p) = .ok s := by
  simp only [ptrAsStr, reprToPtr_eq p hp.even hp.lt, readLen_heap hh hm, bind_ok, readBytes, hh,
    PTR_SIZE]
  rw [if_pos (by simp [leBytes_length])]
  rw [List.drop_append_of_le_length (by simp [leBytes_length]),
    List.drop_of_length_le (by simp [leBytes_length])]
  simp

/-- Reading gives the text that is held. -/
theorem asStr_holds {h : Heap} {r : Nat} {s : Bytes} (hh : Holds h r s) : asStr h r = .ok s := by
  cases hh with
  | empty => simp [asStr, empty_kind]
  | inline _ hs hl hb =>
    obtain ⟨k1, k2⟩ := inline_kind hs hl hb
    obtain ⟨-, -, h3⟩ := pad_word s hs hl hb
    simp only [asStr, k1, k2, if_true, PTR_SIZE, h3]
    have : leBytes 8 (fromLe s) = s ++ List.replicate (8 - s.length) 0 := by
      rw [← fromLe_zeros s (8 - s.length)]
      have hlen : (s ++ List.replicate (8 - s.length) 0).length = 8 := by simp; omega
      have key := leBytes_fromLe (s ++ List.replicate (8 - s.length) 0)
      rw [hlen] at key
      apply key
      intro b hb'
      rcases List.mem_append.1 hb' with hb' | hb'
      · have := hb b hb'; omega
      · have := (List.mem_replicate.1 hb').2; omega
    rw [this]; simp
  | heap p _ hp h8 hm hc =>
    simp [asStr, hp.kind.1, hp.kind.2, ptrAsStr_heap hp hc hm]

/-- Equality of representations is equality of the texts. -/
theorem eq_holds {h : Heap} {r r' : Nat} {s t : Bytes} (h1 : Holds h r s) (h2 : Holds h r' t) :
    eq h r r' = .ok (decide (s = t)) := by
  have hword : ∀ (a b : Nat) (c : Bool), (c = true ↔ a = b) → Mem.ok (a == b) = Mem.ok c := by
    intro a b c hc
    congr 1
    cases c
    · simp only [Bool.false_eq_true, false_iff] at hc; simpa using hc
    · simp only [true_iff] at hc; simpa using hc
  cases h1 with
  | empty =>
    simp only [eq, empty_kind, Bool.true_or, if_true]
    apply hword
    cases h2 with
    | empty => simp
    | inline _ hs hl hb =>
      have := (inline_kind hs hl hb).1
      simp only [isEmpty, beq_eq_false_iff_ne, ne_eq] at this
      simp only [decide_eq_true_eq]
      exact ⟨fun e => absurd e.symm hs, fun e => absurd e.symm this⟩
    | heap p _ hp h8 hm hc =>
      have := hp.kind.1
      simp only [isEmpty, beq_eq_false_iff_ne, ne_eq] at this
      simp only [decide_eq_true_eq]
      exact ⟨fun e => by subst e; simp at h8, fun e => absurd e.symm this⟩
  | inline _ hs hl hb =>
    obtain ⟨k1, k2⟩ := inline_kind hs hl hb
    simp only [eq, k2, Bool.or_true, if_true]
    apply hword
    simp only [decide_eq_true_eq]
    refine ⟨fun e => ?_, fun e => ?_⟩
    · subst e
      cases h2 with
      | empty => exact absurd rfl hs
      | inline => rfl
      | heap p _ hp h8 hm hc => omega
    · have e1 := asStr_holds (h := h) (Holds.inline s hs hl hb)
      have e2 := asStr_holds h2
      rw [e, e2] at e1
      exact (Mem.ok.inj e1).symm
  | heap p _ hp h8 hm hc =>
    obtain ⟨k1, k2⟩ := hp.kind
    simp only [eq, k1, k2, Bool.or_false, Bool.false_eq_true, if_false]
    cases h2 with
    | empty =>
      simp only [empty_kind, Bool.true_or, if_true]
      congr 1; symm; simp; rintro rfl; simp at h8
    | inline _ hs hl hb =>
      obtain ⟨k3, k4⟩ := inline_kind hs hl hb
      simp only [k4, Bool.or_true, if_true]
      congr 1; symm; simp; rintro rfl; omega
    | heap p' _ hp' h8' hm' hc' =>
      obtain ⟨k3, k4⟩ := hp'.kind
      simp only [k3, k4, Bool.or_false, Bool.false_eq_true, if_false, ptrAsStr_heap hp hc hm,
        ptrAsStr_heap hp' hc' hm', bind_ok, pure_ok]
      rw [Bool.beq_eq_decide_eq]

/-- Holding depends only on the buffer that is owned. -/
theorem Holds.mono {h h' : Heap} {r : Nat} {s : Bytes} (hh : Holds h r s)
    (he : ∀ p, ptrOf r = some p → h' p = h p) : Holds h' r s := by
  cases hh with
  | empty => exact .empty
  | inline _ hs hl hb => exact .inline s hs hl hb
  | heap p _ hp h8 hm hc => exact .heap p s hp h8 hm (by rw [he p (ptrOf_heap hp)]; exact hc)

theorem Holds.live {h : Heap} {r : Nat} {s : Bytes} {p : Nat} (hh : Holds h r s)
    (hp : ptrOf r = some p) : h p = some (leBytes 8 s.length ++ s) ∧ 8 < s.length := by
  cases hh with
  | empty => rw [ptrOf_empty] at hp; cases hp
  | inline _ hs hl hb => rw [ptrOf_inline hs hl hb] at hp; cases hp
  | heap q _ hq h8 hm hc =>
    rw [ptrOf_heap hq] at hp; cases hp; exact ⟨hc, h8⟩

theorem Holds.owner {h : Heap} {r : Nat} {s : Bytes} (hh : Holds h r s) (h8 : 8 < s.length) :
    ∃ p, ptrOf r = some p := by
  cases hh with
  | empty => simp at h8
  | inline _ hs hl hb => omega
  | heap q _ hq h8 hm hc => exact ⟨q, ptrOf_heap hq⟩

/-- The effect of creating a value: an abort, or a value that holds `s` and either no heap change
or one fresh buffer. -/
def Created (h : Heap) (s : Bytes) (r : Mem (Nat × Heap)) : Prop :=
  r = .abort ∨ ∃ w h', r = .ok (w, h') ∧ Holds h' w s ∧
    ((ptrOf w = none ∧ h' = h) ∨
      ∃ p, ptrOf w = some p ∧ h p = none ∧ h' p ≠ none ∧ ∀ q, q ≠ p → h' q = h q)

theorem new_created {A : Allocator} (hA : A.Ok) (h : Heap) (s : Bytes) (hs : ValidText s) :
    Created h s (newUnchecked A h s) := by
  obtain ⟨hb, hl⟩ := hs
  unfold newUnchecked
  simp only
  split
  · rename_i h0
    have : s = [] := List.length_eq_zero_iff.1 h0
    subst this
    exact .inr ⟨_, _, rfl, .empty, .inl ⟨ptrOf_empty, rfl⟩⟩
  · rename_i h0
    have hne : s ≠ [] := by rintro rfl; exact h0 rfl
    split
    · rename_i h8
      rw [fromLe_zeros]
      exact .inr ⟨_, _, rfl, .inline s hne h8 hb, .inl ⟨ptrOf_inline hne h8 hb, rfl⟩⟩
    · rename_i h8
      have hmax : s.length ≤ MAX_STR_LEN := by simp only [MAX_STR_LEN, PTR_SIZE]; omega
      rw [if_pos hmax]
      simp only [PTR_SIZE] at h8 ⊢
      unfold alloc
      simp only
      generalize hp : A.addr h (8 + s.length) = p
      have hA' := hA.null_or_fresh h (8 + s.length)
      rw [hp] at hA'
      split
      · exact .inl rfl
      · rename_i hp0
        obtain ⟨he, hlt, hfree⟩ := hA'.resolve_left hp0
        have hg : GoodPtr p := ⟨he, hlt, hp0⟩
        have hj := hA.junk (8 + s.length)
        simp only [bind_ok, writeBytes, if_true]
        rw [if_pos (by simp [leBytes_length, hj])]
        simp only [bind_ok, if_true]
        rw [if_pos (by simp [leBytes_length, hj])]
        simp only [bind_ok, pure_ok, leBytes_length, List.take_zero, List.nil_append, Nat.zero_add]
        refine .inr ⟨_, _, rfl, ?_, .inr ⟨p, ptrOf_heap hg, hfree, by simp, ?_⟩⟩
        · refine .heap p s hg (by omega) hmax ?_
          simp only [if_true, Option.some.injEq]
          rw [List.take_append_of_le_length (by simp [leBytes_length]),
            List.take_of_length_le (by simp [leBytes_length]),
            List.drop_of_length_le (by simp [leBytes_length, hj])]
          simp
        · intro q hq; simp [hq]

theorem clone_created {A : Allocator} (hA : A.Ok) (h : Heap) (r : Nat) (s : Bytes)
    (hh : Holds h r s) : Created h s (clone A h r) := by
  cases id hh with
  | empty => exact .inr ⟨EMPTY, h, by simp [clone, empty_kind], .empty, .inl ⟨ptrOf_empty, rfl⟩⟩
  | inline _ hs hl hb =>
    exact .inr ⟨_, h, by simp [clone, inline_kind hs hl hb], hh, .inl ⟨ptrOf_inline hs hl hb, rfl⟩⟩
  | heap q _ hq h8 hm hc =>
    unfold clone
    simp only [hq.kind.1, hq.kind.2, Bool.or_false, Bool.false_eq_true, if_false,
      reprToPtr_eq q hq.even hq.lt, readLen_heap hc hm, bind_ok, PTR_SIZE]
    unfold alloc
    simp only
    generalize hp : A.addr h (8 + s.length) = p
    have hA' := hA.null_or_fresh h (8 + s.length)
    rw [hp] at hA'
    split
    · exact .inl rfl
    · rename_i hp0
      obtain ⟨he, hlt, hfree⟩ := hA'.resolve_left hp0
      have hg : GoodPtr p := ⟨he, hlt, hp0⟩
      have hj := hA.junk (8 + s.length)
      have hqp : q ≠ p := by rintro rfl; rw [hfree] at hc; cases hc
      simp only [bind_ok, readBytes, if_neg hqp, hc]
      rw [if_pos (by simp [leBytes_length])]
      simp only [bind_ok, writeBytes, if_true, List.drop_zero]
      have htake : (leBytes 8 s.length ++ s).take (8 + s.length) = leBytes 8 s.length ++ s := by
        rw [List.take_of_length_le (by simp [leBytes_length])]
      rw [htake, if_pos (by simp [leBytes_length, hj])]
      simp only [bind_ok, pure_ok]
      refine .inr ⟨_, _, rfl, ?_, .inr ⟨p, ptrOf_heap hg, hfree, by simp, ?_⟩⟩
      · refine .heap p s hg h8 hm ?_
        simp only [if_true, Option.some.injEq, List.take_zero, List.nil_append, Nat.zero_add]
        rw [List.drop_of_length_le (by simp [leBytes_length, hj])]
        simp
      · intro q hq; simp [hq]

theorem drop_ok {h : Heap} {r : Nat} {s : Bytes} (hh : Holds h r s) :
    ∃ h', drop h r = .ok h' ∧ (∀ p, ptrOf r = some p → h' p = none) ∧
      ∀ q, ptrOf r ≠ some q → h' q = h q := by
  cases hh with
  | empty =>
    exact ⟨h, by simp [drop, empty_kind], by simp [ptrOf_empty], fun _ _ => rfl⟩
  | inline _ hs hl hb =>
    exact ⟨h, by simp [drop, inline_kind hs hl hb], by simp [ptrOf_inline hs hl hb], fun _ _ => rfl⟩
  | heap p _ hp h8 hm hc =>
    refine ⟨fun q => if q = p then none else h q, ?_, ?_, ?_⟩
    · simp only [drop, hp.kind.1, hp.kind.2, Bool.or_false, Bool.false_eq_true, if_false,
        reprToPtr_eq p hp.even hp.lt, readLen_heap hc hm, bind_ok, dealloc, hc, PTR_SIZE]
      rw [if_pos (by simp [leBytes_length])]
    · intro q hq; rw [ptrOf_heap hp] at hq; cases hq; simp
    · intro q hq
      rw [ptrOf_heap hp] at hq
      have : q ≠ p := fun e => hq (by rw [e])
      simp [this]

/-! ## histories -/

/-- The values hold their texts, no two values share a buffer, and every live buffer is owned. -/
structure Inv (st : State) (v : List (Option Bytes)) : Prop where
  len : st.slots.length = v.length
  none_iff : ∀ i, slot st.slots i = none ↔ slot v i = none
  holds : ∀ i r s, slot st.slots i = some r → slot v i = some s → Holds st.heap r s
  unique : ∀ i j r r' p, slot st.slots i = some r → slot st.slots j = some r' →
    ptrOf r = some p → ptrOf r' = some p → i = j
  owned : ∀ p, st.heap p ≠ none → ∃ i r, slot st.slots i = some r ∧ ptrOf r = some p

theorem slot_append {α : Type} (l : List (Option α)) (x : α) (i : Nat) :
    slot (l ++ [some x]) i = if i = l.length then some x else slot l i := by
  unfold slot
  rcases Nat.lt_trichotomy i l.length with h | h | h
  · rw [List.getElem?_append_left h, if_neg (by omega)]
  · subst h; simp
  · rw [if_neg (by omega), List.getElem?_eq_none (by simp; omega), List.getElem?_eq_none (by omega)]

theorem slot_set {α : Type} (l : List (Option α)) (i j : Nat) :
    slot (l.set i none) j = if j = i then none else slot l j := by
  unfold slot
  rw [List.getElem?_set]
  by_cases h : i = j
  · subst h
    simp only [if_true]
    split <;> simp
  · rw [if_neg h, if_neg (fun e => h e.symm)]

theorem slot_len {α : Type} {l : List (Option α)} {i : Nat} {x : α} (h : slot l i = some x) :
    i < l.length := by
  unfold slot at h
  by_cases hi : i < l.length
  · exact hi
  · rw [List.getElem?_eq_none (by omega)] at h; simp at h

theorem Inv.init : Inv State.init [] :=
  ⟨rfl, by simp [State.init, slot], by simp [State.init, slot], by simp [State.init, slot],
    by simp [State.init]⟩

theorem Inv.get {st : State} {v : List (Option Bytes)} (h : Inv st v) {i : Nat} {r : Nat}
    (hr : slot st.slots i = some r) : ∃ s, slot v i = some s ∧ Holds st.heap r s := by
  cases hv : slot v i with
  | none => rw [(h.none_iff i).2 hv] at hr; cases hr
  | some s => exact ⟨s, rfl, h.holds i r s hr hv⟩

theorem Inv.push {st : State} {v : List (Option Bytes)} (h : Inv st v) {w : Nat} {h' : Heap}
    {s : Bytes} (hw : Holds h' w s)
    (hc : (ptrOf w = none ∧ h' = st.heap) ∨
      ∃ p, ptrOf w = some p ∧ st.heap p = none ∧ h' p ≠ none ∧ ∀ q, q ≠ p → h' q = st.heap q) :
    Inv ⟨st.slots ++ [some w], h'⟩ (v ++ [some s]) := by
  have hlen := h.len
  have old : ∀ i r, slot st.slots i = some r → ∀ p, ptrOf r = some p →
      h' p = st.heap p ∧ ptrOf w ≠ some p := by
    intro i r hr p hp
    obtain ⟨t, -, ht⟩ := h.get hr
    have hl := (ht.live hp).1
    rcases hc with ⟨h1, rfl⟩ | ⟨q, h1, h2, h3, h4⟩
    · exact ⟨rfl, by rw [h1]; simp⟩
    · have : p ≠ q := by rintro rfl; rw [h2] at hl; cases hl
      exact ⟨h4 p this, by rw [h1]; simp; exact fun e => this e.symm⟩
  refine ⟨by simp [hlen], ?_, ?_, ?_, ?_⟩
  · intro i
    simp only [slot_append, hlen]
    split
    · simp
    · exact h.none_iff i
  · intro i r t hr ht
    simp only [slot_append, hlen] at hr ht
    split at hr
    · rename_i hi
      rw [if_pos hi] at ht
      cases hr; cases ht; exact hw
    · rename_i hi
      rw [if_neg hi] at ht
      exact (h.holds i r t hr ht).mono fun p hp => (old i r hr p hp).1
  · intro i j r r' p hi hj hp hp'
    simp only [slot_append] at hi hj
    split at hi <;> split at hj
    · omega
    · cases hi
      exact absurd hp (old j r' hj p hp').2
    · cases hj
      exact absurd hp' (old i r hi p hp).2
    · exact h.unique i j r r' p hi hj hp hp'
  · intro p hp
    have hsame : st.heap p ≠ none → ∃ i r, slot (st.slots ++ [some w]) i = some r ∧ ptrOf r = some p := by
      intro hn
      obtain ⟨i, r, hi, hr⟩ := h.owned p hn
      refine ⟨i, r, ?_, hr⟩
      rw [slot_append, if_neg (by have := slot_len hi; omega)]
      exact hi
    rcases hc with ⟨h1, rfl⟩ | ⟨q, h1, h2, h3, h4⟩
    · exact hsame hp
    · by_cases hpq : p = q
      · subst hpq
        exact ⟨st.slots.length, w, by simp [slot_append], h1⟩
      · apply hsame; rw [← h4 p hpq]; exact hp

theorem Inv.remove {st : State} {v : List (Option Bytes)} (h : Inv st v) {i : Nat} {r : Nat}
    (hr : slot st.slots i = some r) {h' : Heap}
    (hd : (∀ p, ptrOf r = some p → h' p = none) ∧ ∀ q, ptrOf r ≠ some q → h' q = st.heap q) :
    Inv ⟨st.slots.set i none, h'⟩ (v.set i none) := by
  refine ⟨by simp [h.len], ?_, ?_, ?_, ?_⟩
  · intro j
    simp only [slot_set]
    split
    · simp
    · exact h.none_iff j
  · intro j r' s hj hs
    simp only [slot_set] at hj hs
    split at hj
    · cases hj
    · rename_i hne
      rw [if_neg hne] at hs
      refine (h.holds j r' s hj hs).mono fun p hp => hd.2 p fun e => hne ?_
      exact h.unique j i r' r p hj hr hp e
  · intro j k r' r'' p hj hk hp hp'
    simp only [slot_set] at hj hk
    split at hj
    · cases hj
    · split at hk
      · cases hk
      · exact h.unique j k r' r'' p hj hk hp hp'
  · intro p hp
    by_cases hown : ptrOf r = some p
    · exact absurd (hd.1 p hown) hp
    · simp only at hp
      rw [hd.2 p hown] at hp
      obtain ⟨j, r', hj, hr'⟩ := h.owned p hp
      refine ⟨j, r', ?_, hr'⟩
      simp only [slot_set]
      rw [if_neg]
      · exact hj
      · rintro rfl
        rw [hr] at hj; cases hj
        exact hown hr'

/-- One step: no undefined behaviour, no panic, same observation as the specification. -/
theorem step_refines {A : Allocator} (hA : A.Ok) {st : State} {v : List (Option Bytes)}
    (h : Inv st v) (c : Cmd) (hc : ValidCmd c) :
    step A st c = .abort ∨ ∃ st', step A st c = .ok (st', (specStep v c).2) ∧
      Inv st' (specStep v c).1 := by
  cases c with
  | new s =>
    rcases new_created hA st.heap s hc with e | ⟨w, h', e, hw, hx⟩
    · left; simp [step, e]
    · right; simp only [step, e, bind_ok, pure_ok, specStep]
      exact ⟨_, rfl, h.push hw hx⟩
  | clone i =>
    cases hi : slot st.slots i with
    | none =>
      right; simp only [step, hi, specStep, (h.none_iff i).1 hi, pure_ok]
      exact ⟨_, rfl, h⟩
    | some r =>
      obtain ⟨s, hs, hh⟩ := h.get hi
      rcases clone_created hA st.heap r s hh with e | ⟨w, h', e, hw, hx⟩
      · left; simp [step, hi, e]
      · right; simp only [step, hi, e, bind_ok, pure_ok, specStep, hs]
        exact ⟨_, rfl, h.push hw hx⟩
  | drop i =>
    right
    cases hi : slot st.slots i with
    | none =>
      simp only [step, hi, specStep, (h.none_iff i).1 hi, pure_ok]
      exact ⟨_, rfl, h⟩
    | some r =>
      obtain ⟨s, hs, hh⟩ := h.get hi
      obtain ⟨h', e, hx⟩ := drop_ok hh
      simp only [step, hi, e, bind_ok, pure_ok, specStep, hs]
      exact ⟨_, rfl, h.remove hi hx⟩
  | read i =>
    right
    cases hi : slot st.slots i with
    | none =>
      simp only [step, hi, specStep, (h.none_iff i).1 hi, pure_ok]
      exact ⟨_, rfl, h⟩
    | some r =>
      obtain ⟨s, hs, hh⟩ := h.get hi
      simp only [step, hi, asStr_holds hh, bind_ok, pure_ok, specStep, hs]
      exact ⟨_, rfl, h⟩
  | cmp i j =>
    right
    cases hi : slot st.slots i with
    | none =>
      simp only [step, hi, specStep, (h.none_iff i).1 hi, pure_ok]
      exact ⟨_, rfl, h⟩
    | some r =>
      obtain ⟨s, hs, hh⟩ := h.get hi
      cases hj : slot st.slots j with
      | none =>
        simp only [step, hi, hj, specStep, hs, (h.none_iff j).1 hj, pure_ok]
        exact ⟨_, rfl, h⟩
      | some r' =>
        obtain ⟨t, ht, hh'⟩ := h.get hj
        simp only [step, hi, hj, eq_holds hh hh', bind_ok, pure_ok, specStep, hs, ht]
        exact ⟨_, rfl, h⟩

theorem run_refines {A : Nat → Allocator} (hA : ∀ n, (A n).Ok) {st : State}
    {v : List (Option Bytes)} (h : Inv st v) (cs : List Cmd) (hc : ∀ c ∈ cs, ValidCmd c) :
    run A st cs = .abort ∨ ∃ st', run A st cs = .ok (st', (specRun v cs).2) ∧
      Inv st' (specRun v cs).1 := by
  induction cs generalizing A st v with
  | nil => right; exact ⟨st, rfl, h⟩
  | cons c cs ih =>
    rcases step_refines (hA 0) h c (hc c (by simp)) with e | ⟨st', e, h'⟩
    · left; simp [run, e]
    · rcases ih (A := fun n => A (n + 1)) (fun n => hA (n + 1)) h' (fun d hd => hc d (by simp [hd]))
        with e' | ⟨st'', e', h''⟩
      · left; simp [run, e, e']
      · right; simp only [run, e, e', bind_ok, pure_ok, specRun]
        exact ⟨_, rfl, h''⟩

end Verif.InlineStr
