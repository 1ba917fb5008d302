import Verif.Toml.AssocEnt
import Verif.Spec.AssocLevel

/-! # Comments: their levels in values -/

namespace Verif.Toml
open Verif Verif.Spec.Toml

variable {α β : Type} {E : Env} {s s' s1 s2 : PS}

/-- Comments stored before are unchanged or marked as above something. -/
structure Stay (s s' : PS) : Prop where
  len : s.storage.length ≤ s'.storage.length
  same : ∀ (i : Nat) (c : AssocComment), i < s.storage.length → s'.storage[i]? = some c → c.pos ≠ .above → s.storage[i]? = some c

theorem Stay.refl (s : PS) : Stay s s := ⟨Nat.le_refl _, fun _ _ _ h _ => h⟩

theorem Stay.trans (h1 : Stay s s1) (h2 : Stay s1 s2) : Stay s s2 :=
  ⟨Nat.le_trans h1.len h2.len, fun i c hi h hp => h1.same i c hi (h2.same i c (Nat.lt_of_lt_of_le hi h1.len) h hp) hp⟩

theorem Stay.eq (h : s'.storage = s.storage) : Stay s s' := ⟨by rw [h]; exact Nat.le_refl _, fun i c _ hc _ => by rw [← h]; exact hc⟩

theorem Stay.more {new : List AssocComment} (h : s'.storage = s.storage ++ new) : Stay s s' := by
  refine ⟨by rw [h]; simp, fun i c hi hc _ => ?_⟩
  rw [h, List.getElem?_append_left hi] at hc
  exact hc

/-- The comments from number `b` on that are not above something satisfy `P`. -/
def From (b : Nat) (P : Nat → AssocComment → Prop) (s : PS) : Prop :=
  ∀ (i : Nat) (c : AssocComment), b ≤ i → s.storage[i]? = some c → c.pos ≠ .above → P i c

theorem From.stay {b : Nat} {P : Nat → AssocComment → Prop} (h : From b P s) (hk : Stay s s') (hn : From s.storage.length P s') : From b P s' := by
  intro i c hi hc hp
  by_cases hl : i < s.storage.length
  · exact h i c hi (hk.same i c hl hc hp) hp
  · exact hn i c (by omega) hc hp

theorem From.eq {b : Nat} {P : Nat → AssocComment → Prop} (h : From b P s) (hs : s'.storage = s.storage) : From b P s' := by
  intro i c hi hc hp
  rw [hs] at hc
  exact h i c hi hc hp

theorem From.more {P : Nat → AssocComment → Prop} {new : List AssocComment} (h : s'.storage = s.storage ++ new)
    (hn : ∀ i c, s.storage.length ≤ i → c ∈ new → P i c) : From s.storage.length P s' := by
  intro i c hi hc _
  rw [h, List.getElem?_append_right hi] at hc
  exact hn i c hi (List.mem_of_getElem? hc)

theorem From.imp {b : Nat} {P Q : Nat → AssocComment → Prop} (h : From b P s) (hi : ∀ i c, P i c → Q i c) : From b Q s :=
  fun i c hb hc hp => hi i c (h i c hb hc hp)

theorem From.nothing {P : Nat → AssocComment → Prop} (h : s'.storage = s.storage) : From s.storage.length P s' :=
  From.more (new := []) (by simpa using h) (by simp)

/-- The levels of the comments of an array are right. -/
def Right (st : List AssocComment) (arr : InlineArray) : Prop :=
  arr.comments.start + arr.comments.len ≤ st.length ∧
  (∀ x ∈ arr.values, x.comments.level = arr.comments.level + 1) ∧
  ∀ (i : Nat) (c : AssocComment), Directly arr i → st[i]? = some c → c.pos ≠ .above → c.level = innerLevel arr i

theorem Right.stay {arr : InlineArray} (h : Right s.storage arr) (hk : Stay s s') : Right s'.storage arr := by
  refine ⟨Nat.le_trans h.1 hk.len, h.2.1, fun i c hi hc hp => ?_⟩
  have : i < s.storage.length := Nat.lt_of_lt_of_le hi.1.2 h.1
  exact h.2.2 i c hi (hk.same i c this hc hp) hp

/-- All arrays of a value are right. -/
def Fit (st : List AssocComment) (v : Value) : Prop := ∀ arr, ArrayIn arr v → Right st arr

theorem Fit.stay {v : Value} (h : Fit s.storage v) (hk : Stay s s') : Fit s'.storage v := fun arr ha => (h arr ha).stay hk

/-- The levels of the arrays of a value. -/
def Depth (n : Nat) (v : Value) : Prop := ∀ arr m, ArrayAt arr m v → arr.comments.level = n + m

/-- What is known behind a value. -/
structure LvRun (n : Nat) (s s' : PS) (o : Except Error Value) : Prop where
  stay : Stay s s'
  ge : From s.storage.length (fun _ c => n ≤ c.level) s'
  fit : ∀ v, o = .ok v → Fit s'.storage v ∧ Depth n v
  cover : ∀ i, s.storage.length ≤ i → i < s'.storage.length → (∃ p, o = .error (.recursionLimitExceeded p)) ∨
    ∃ v arr, o = .ok v ∧ ArrayIn arr v ∧ Has arr.comments i

/-- The computation gives the comments the right levels. -/
def LvElem (n : Nat) (elem : M (Except Error Value)) : Prop := ∀ s o s', elem s = .ok o s' → LvRun n s s' o

theorem LvRun.calm {n : Nat} {o : Except Error Value} (h : s'.storage = s.storage) (ho : ∀ v, o = .ok v → Scal v) : LvRun n s s' o := by
  refine ⟨.eq h, .nothing h, fun v hv => ?_, fun i h1 h2 => by rw [h] at h2; omega⟩
  have hs := ho v hv
  refine ⟨fun arr ha => ?_, fun arr m ha => ?_⟩
  · cases ha with
    | here => exact absurd rfl (hs.2 _)
    | inArray _ _ => exact absurd rfl (hs.2 _)
    | inTable _ _ => exact absurd rfl (hs.1 _)
  · cases ha with
    | here => exact absurd rfl (hs.2 _)
    | inArray _ _ => exact absurd rfl (hs.2 _)
    | inTable _ _ => exact absurd rfl (hs.1 _)

/-! ## Ranges -/

theorem append_level {r a : CommentRange} {id : Nat} (h : r.append id = some a) :
    a.level = r.level ∧ a.start = r.start ∧ a.start + a.len = id + 1 := by
  unfold CommentRange.append at h
  simp only [Option.bind_eq_bind, Option.pure_def, Option.bind_eq_some_iff, Option.some.injEq] at h
  obtain ⟨d, hd, rfl⟩ := h
  unfold subU at hd
  split at hd <;> cases hd
  refine ⟨rfl, rfl, ?_⟩
  dsimp only
  omega

theorem extend_level {r a : CommentRange} {id : Nat} (h : r.extendTo id = some a) :
    a.level = r.level ∧ a.start = r.start ∧ a.start + a.len = id := by
  unfold CommentRange.extendTo at h
  simp only [Option.bind_eq_bind, Option.pure_def, Option.bind_eq_some_iff, Option.some.injEq] at h
  obtain ⟨d, hd, rfl⟩ := h
  unfold subU at hd
  split at hd <;> cases hd
  refine ⟨rfl, rfl, ?_⟩
  dsimp only
  omega

theorem addComment_level {r a : CommentRange} {c : Comment} {p : AssocPos} (h : addComment r c p s = .ok a s') :
    s'.storage = s.storage ++ [⟨p, r.level, c⟩] ∧ a.level = r.level ∧ a.start = r.start ∧ a.start + a.len = s'.storage.length := by
  unfold addComment at h
  obtain ⟨id, s1, h1, h2⟩ := bind_inv h
  cases h1
  obtain ⟨h3, rfl⟩ := lift_inv h2
  obtain ⟨e1, e2, e3⟩ := append_level h3
  exact ⟨rfl, e1, e2, by rw [e3]; simp⟩

/-- A comment at the end of a line is added to the range, with its level. -/
theorem lineEnd_level {r a : CommentRange} (h : lineEndComment E r s = .ok a s') :
    a.level = r.level ∧ a.start = r.start ∧ ((s'.storage = s.storage ∧ a = r) ∨
      ∃ c, s'.storage = s.storage ++ [⟨.lineEnd, r.level, c⟩] ∧ a.start + a.len = s'.storage.length) := by
  unfold lineEndComment at h
  obtain ⟨o, s1, h1, h'⟩ := bind_inv h
  rcases eatComment_run h1 with ⟨rfl, rfl⟩ | ⟨c, rfl, -, rfl, -⟩
  · obtain ⟨rfl, rfl⟩ := pure_inv h'
    exact ⟨rfl, rfl, .inl ⟨rfl, rfl⟩⟩
  · dsimp only at h'
    obtain ⟨e1, e2, e3, e4⟩ := addComment_level h'
    rw [adv_storage] at e1
    exact ⟨e2, e3, .inr ⟨c, e1, e4⟩⟩

theorem contained_level (hE : EnvEof E) : ∀ n {r a : CommentRange} {s : PS}, containedComments E n r s = .ok a s' →
    a.level = r.level ∧ a.start = r.start ∧ ∃ new, s'.storage = s.storage ++ new ∧ ∀ c ∈ new, c.level = r.level ∧ c.pos = .contained := by
  intro n
  induction n with
  | zero => intro r a s h; cases h
  | succ n ih =>
    intro r a s h
    unfold containedComments at h
    obtain ⟨o, s1, h1, h⟩ := bind_inv h
    unfold eatCommentAndNewlines at h1
    rw [bind_budget] at h1
    obtain ⟨e1, -⟩ := eatLoop_run hE _ h1
    clear h1
    split at h
    · obtain ⟨r1, s2, h2, h⟩ := bind_inv h
      obtain ⟨f1, f2, f3, -⟩ := addComment_level h2
      obtain ⟨g1, g2, new, e2, e3⟩ := ih h
      refine ⟨g1.trans f2, g2.trans f3, _ :: new, by rw [e2, f1, e1, List.append_assoc]; rfl, ?_⟩
      intro c hc
      rcases List.mem_cons.1 hc with rfl | hc
      · exact ⟨rfl, rfl⟩
      · rw [← f2]; exact e3 c hc
    · obtain ⟨rfl, rfl⟩ := pure_inv h
      exact ⟨rfl, rfl, [], by rw [e1]; simp, by simp⟩

theorem markAboveLoop_level {level : Nat} : ∀ (cs : List AssocComment) (line k : Nat),
    (∀ (i : Nat) (c : AssocComment), (markAboveLoop level cs line k).1[i]? = some c → c.pos ≠ .above →
      cs[i]? = some c ∧ ∀ m, (markAboveLoop level cs line k).2 = some m → m ≤ k + i) ∧
    ∀ m, (markAboveLoop level cs line k).2 = some m → k ≤ m ∧ m ≤ k + cs.length := by
  intro cs
  induction cs with
  | nil => intro line k; simp [markAboveLoop]
  | cons d cs ih =>
    intro line k
    unfold markAboveLoop
    split
    · obtain ⟨h1, h2⟩ := ih (line - 1) (k + 1)
      refine ⟨fun i c hi hp => ?_, fun m hm => ?_⟩
      · cases i with
        | zero =>
          simp only [List.getElem?_cons_zero, Option.some.injEq] at hi
          rw [← hi] at hp
          exact absurd rfl hp
        | succ i =>
          simp only [List.getElem?_cons_succ] at hi ⊢
          obtain ⟨h3, h4⟩ := h1 i c hi hp
          exact ⟨h3, fun m hm => by have := h4 m hm; omega⟩
      · have := h2 m hm
        simp only [List.length_cons]
        omega
    · refine ⟨fun i c hi hp => ⟨hi, fun m hm => by cases hm; omega⟩, fun m hm => by cases hm; simp⟩

theorem markAbove_level {line level : Nat} {r : CommentRange} (h : markCommentsAbove line level s = .ok r s') :
    s'.storage.length = s.storage.length ∧ r.level = level ∧ r.start + r.len = s.storage.length ∧
    ∀ (i : Nat) (c : AssocComment), s'.storage[i]? = some c → c.pos ≠ .above → s.storage[i]? = some c ∧ ¬ Has r i := by
  obtain ⟨h1, h2⟩ := markAboveLoop_level (level := level) s.storage.reverse line 0
  have hlen := markAboveLoop_length (level := level) s.storage.reverse line 0
  rw [List.length_reverse] at h2 hlen
  unfold markCommentsAbove at h
  cases h
  generalize markAboveLoop level s.storage.reverse line 0 = o at *
  obtain ⟨st, l⟩ := o
  dsimp only at *
  have hl : l.getD 0 ≤ s.storage.length := by
    cases l with
    | none => simp
    | some m => have := h2 m rfl; simp only [Option.getD_some]; omega
  refine ⟨by simpa using hlen, rfl, by omega, fun i c hi hp => ?_⟩
  have hi' : i < s.storage.length := by
    have := (List.getElem?_eq_some_iff.1 hi).1
    simp only [List.length_reverse] at this
    omega
  rw [List.getElem?_reverse (by omega)] at hi
  obtain ⟨h3, h4⟩ := h1 _ c hi hp
  rw [List.getElem?_reverse (by omega)] at h3
  refine ⟨by rw [← h3]; congr 1; omega, ?_⟩
  unfold Has
  dsimp only
  cases l with
  | none => simp
  | some m =>
    have := h4 m rfl
    simp only [Option.getD_some]
    omega

theorem raise_level {r : CommentRange} {level : Nat} {a : Unit} (h : markContainedComments r level s = .ok a s') :
    s'.storage.length = s.storage.length ∧ ∀ (i : Nat) (c : AssocComment), s'.storage[i]? = some c →
      ∃ d, s.storage[i]? = some d ∧ c = if Has r i then d.raise level else d := by
  unfold markContainedComments at h
  split at h
  · rename_i hle
    cases h
    dsimp only
    have hlen : (s.storage.take r.start ++ ((s.storage.drop r.start).take r.len).map (AssocComment.raise level) ++
        s.storage.drop (r.start + r.len)).length = s.storage.length := by
      simp only [List.length_append, List.length_take, List.length_map, List.length_drop]
      omega
    refine ⟨hlen, fun i c hi => ?_⟩
    have hi' : i < s.storage.length := by rw [← hlen]; exact (List.getElem?_eq_some_iff.1 hi).1
    refine ⟨s.storage[i], List.getElem?_eq_getElem hi', ?_⟩
    by_cases h1 : i < r.start
    · rw [List.append_assoc, List.getElem?_append_left (by simp; omega), List.getElem?_take_of_lt h1, List.getElem?_eq_getElem hi'] at hi
      cases hi
      rw [if_neg (by unfold Has; omega)]
    · by_cases h2 : i < r.start + r.len
      · rw [List.getElem?_append_left (by simp; omega), List.getElem?_append_right (by simp; omega)] at hi
        simp only [List.length_take, List.getElem?_map, Option.map_eq_some_iff] at hi
        obtain ⟨d, hd, rfl⟩ := hi
        rw [if_pos (show Has r i from ⟨by omega, h2⟩)]
        rw [List.getElem?_take_of_lt (by omega), List.getElem?_drop, show r.start + (i - min r.start s.storage.length) = i by omega,
          List.getElem?_eq_getElem hi'] at hd
        cases hd
        rfl
      · rw [List.getElem?_append_right (by simp; omega)] at hi
        simp only [List.length_append, List.length_take, List.length_map, List.length_drop, List.getElem?_drop] at hi
        rw [show r.start + r.len + (i - (min r.start s.storage.length + min r.len (s.storage.length - r.start))) = i by omega,
          List.getElem?_eq_getElem hi'] at hi
        cases hi
        rw [if_neg (by unfold Has; omega)]
  · cases h

theorem raise_pos (level : Nat) (c : AssocComment) : (c.raise level).pos = c.pos := by
  unfold AssocComment.raise
  split <;> rfl

theorem raise_ge {level : Nat} {c : AssocComment} (h : level ≤ c.level) : c.raise level = c := by
  unfold AssocComment.raise
  rw [if_neg (by omega)]

theorem raise_le {level : Nat} {c : AssocComment} (h : c.level ≤ level) : (c.raise level).level = level := by
  unfold AssocComment.raise
  split <;> simp_all
  omega

/-! ## Arrays -/

/-- The comment number `i` is in an array inside of one of the entries. -/
def Deeper (vs : List InlineArrayValue) (i : Nat) : Prop := ∃ x ∈ vs, ∃ inner, ArrayIn inner x.val ∧ Has inner.comments i

/-- The comment number `i` is one of the entries. -/
def Entry (vs : List InlineArrayValue) (i : Nat) : Prop := ∃ x ∈ vs, Has x.comments i

instance (vs : List InlineArrayValue) (i : Nat) : Decidable (Entry vs i) := by unfold Entry; infer_instance

/-- The level of a comment directly in an array. -/
def lvl (n : Nat) (vs : List InlineArrayValue) (i : Nat) : Nat := n + if Entry vs i then 1 else 0

/-- What holds in the loop over an array of level `n` whose comments start with number `b`. -/
structure ALv (n b : Nat) (s : PS) (st : ArrSt) : Prop where
  level : st.comments.level = n
  start : st.comments.start = b
  le : b ≤ s.storage.length
  ge : From b (fun _ c => n ≤ c.level) s
  vals : ∀ x ∈ st.values, Fit s.storage x.val ∧ Depth (n + 1) x.val ∧ x.comments.level = n + 1 ∧ x.comments.start + x.comments.len ≤ s.storage.length
  exact : From b (fun i c => ¬ Deeper st.values i → c.level = lvl n st.values i) s

theorem ALv.fresh {n b : Nat} {st : ArrSt} (h : ALv n b s st) {i : Nat} (hi : s.storage.length ≤ i) : lvl n st.values i = n := by
  unfold lvl
  rw [if_neg]
  · rfl
  · rintro ⟨x, hx, h1⟩
    have := (h.vals x hx).2.2.2
    unfold Has at h1
    omega

/-- More comments that are directly in the array. -/
theorem ALv.more {n b : Nat} {st st' : ArrSt} (h : ALv n b s st) {new : List AssocComment} (hs : s'.storage = s.storage ++ new)
    (hn : ∀ c ∈ new, c.level = n) (h1 : st'.comments.level = n) (h2 : st'.comments.start = b) (h3 : st'.values = st.values) : ALv n b s' st' := by
  have hk := Stay.more hs
  refine ⟨h1, h2, Nat.le_trans h.le hk.len, ?_, fun x hx => ?_, ?_⟩
  · exact h.ge.stay hk (From.more hs fun i c _ hc => by rw [hn c hc]; exact Nat.le_refl _)
  · rw [h3] at hx
    obtain ⟨e1, e2, e3, e4⟩ := h.vals x hx
    exact ⟨e1.stay hk, e2, e3, Nat.le_trans e4 hk.len⟩
  · rw [h3]
    exact h.exact.stay hk (From.more hs fun i c hi hc _ => by rw [hn c hc, h.fresh hi])

/-- What holds behind a value of an array. -/
theorem afterValue_level (hE : EnvEof E) {n : Nat} {st : ArrSt} {v : Value} {r : Round ArrSt} (hst : st.comments.level = n)
    (h : arrayAfterValue E n st v s = .ok r s') :
    ∃ x st', (r = .continue st' ∨ r = .break st') ∧ st'.values = st.values ++ [x] ∧ st'.comments.level = n ∧ st'.comments.start = st.comments.start ∧
      x.val = v ∧ x.comments.level = n + 1 ∧ x.comments.start + x.comments.len ≤ s'.storage.length ∧ Stay s s' ∧
      ∀ (i : Nat) (c : AssocComment), s'.storage[i]? = some c → c.pos ≠ .above →
        (i < s.storage.length → ¬ Has x.comments i) ∧ (s.storage.length ≤ i → c.level = n + if Has x.comments i then 1 else 0) := by
  unfold arrayAfterValue at h
  obtain ⟨vc, s1, h1, h⟩ := bind_inv h
  obtain ⟨a1, a2, a3, a4⟩ := markAbove_level h1
  obtain ⟨vc', s2, h2, h⟩ := bind_inv h
  obtain ⟨b1, b2, b3⟩ := lineEnd_level h2
  rw [bind_budget] at h
  obtain ⟨cm, s3, h3, h⟩ := bind_inv h
  obtain ⟨c1, c2, new, c3, c4'⟩ := contained_level hE _ h3
  have c4 : ∀ c ∈ new, c.level = n := fun c hc => (c4' c hc).1.trans hst
  rw [hst] at c1
  -- the comments up to here
  have key : vc'.start + vc'.len = s2.storage.length ∧ s.storage.length ≤ s2.storage.length ∧ s2.storage.length ≤ s3.storage.length ∧
      ∀ (i : Nat) (c : AssocComment), s3.storage[i]? = some c → c.pos ≠ .above → (i < s.storage.length → s.storage[i]? = some c ∧ ¬ vc'.start ≤ i) ∧
        (s.storage.length ≤ i → i < s2.storage.length → c.level = n + 1) ∧ (s2.storage.length ≤ i → c.level = n) := by
    have hnew : ∀ (i : Nat) (c : AssocComment), s3.storage[i]? = some c → s2.storage.length ≤ i → c.level = n := by
      intro i c hc hi
      rw [c3, List.getElem?_append_right hi] at hc
      exact c4 c (List.mem_of_getElem? hc)
    have hold : ∀ (i : Nat) (c : AssocComment), s3.storage[i]? = some c → i < s2.storage.length → s2.storage[i]? = some c := by
      intro i c hc hi
      rw [c3, List.getElem?_append_left hi] at hc
      exact hc
    have hle : s2.storage.length ≤ s3.storage.length := by rw [c3]; simp
    have hsm : ∀ (i : Nat) (c : AssocComment), s2.storage[i]? = some c → i < s1.storage.length → c.pos ≠ .above →
        s.storage[i]? = some c ∧ ¬ vc'.start ≤ i := by
      intro i c hc hi hp
      have : s1.storage[i]? = some c := by
        rcases b3 with ⟨e, -⟩ | ⟨d, e, -⟩
        · rw [← e]; exact hc
        · rw [e, List.getElem?_append_left hi] at hc; exact hc
      obtain ⟨g1, g2⟩ := a4 i c this hp
      refine ⟨g1, fun hs => g2 ⟨by omega, by omega⟩⟩
    rcases b3 with ⟨e1, rfl⟩ | ⟨d, e1, e2⟩
    · refine ⟨by rw [a3, e1, a1], by rw [e1, a1]; exact Nat.le_refl _, hle, fun i c hc hp => ⟨fun hi => ?_, fun hi hi2 => ?_, hnew i c hc⟩⟩
      · exact hsm i c (hold i c hc (by rw [e1, a1]; exact hi)) (by omega) hp
      · rw [e1, a1] at hi2; omega
    · have hl : s2.storage.length = s1.storage.length + 1 := by rw [e1]; simp
      refine ⟨e2, by omega, hle, fun i c hc hp => ⟨fun hi => ?_, fun hi hi2 => ?_, hnew i c hc⟩⟩
      · exact hsm i c (hold i c hc (by omega)) (by omega) hp
      · have := hold i c hc hi2
        rw [e1, List.getElem?_append_right (by omega), show i - s1.storage.length = 0 by omega] at this
        cases this
        exact a2
  obtain ⟨k1, k2, k3, k4⟩ := key
  -- without a comma
  have plain : ∀ i c, s3.storage[i]? = some c → c.pos ≠ .above →
        (i < s.storage.length → ¬ Has vc' i) ∧ (s.storage.length ≤ i → c.level = n + if Has vc' i then 1 else 0) := by
    intro i c hc hp
    obtain ⟨g1, g2, g3⟩ := k4 i c hc hp
    refine ⟨fun hi hh => (g1 hi).2 hh.1, fun hi => ?_⟩
    by_cases hi2 : i < s2.storage.length
    · rw [if_pos (show Has vc' i from ⟨by omega, by omega⟩)]
      exact g2 hi hi2
    · rw [if_neg (by unfold Has; omega)]
      exact g3 (by omega)
  have stay3 : Stay s s3 := ⟨by omega, fun i c hi hc hp => ((k4 i c hc hp).1 hi).1⟩
  rw [bind_peek] at h
  split at h
  · rw [bind_nextId] at h
    obtain ⟨vc3, hvc, h⟩ := bind_lift_inv h
    obtain ⟨d1, d2, d3⟩ := extend_level hvc
    obtain ⟨_, s4, h4, h⟩ := bind_inv h
    obtain ⟨r1, r2⟩ := raise_level h4
    rw [bind_next] at h
    obtain ⟨vc5, s5, h5, h⟩ := bind_inv h
    obtain ⟨f1, f2, f3⟩ := lineEnd_level h5
    rw [adv_storage] at f3
    obtain ⟨rfl, rfl⟩ := pure_inv h
    refine ⟨_, _, .inl rfl, rfl, c1, c2, rfl, by rw [f1, d1, b1, a2], ?_⟩
    dsimp only
    -- the comments in front of the comma
    have k5 : ∀ i c, s4.storage[i]? = some c → c.pos ≠ .above → (i < s.storage.length → s.storage[i]? = some c ∧ ¬ vc5.start ≤ i) ∧
        (s.storage.length ≤ i → c.level = n + 1) := by
      intro i c hc hp
      obtain ⟨d, hd, e⟩ := r2 i c hc
      have hp' : d.pos ≠ .above := by
        rw [e] at hp
        split at hp
        · rwa [raise_pos] at hp
        · exact hp
      obtain ⟨g1, g2, g3⟩ := k4 i d hd hp'
      have hi3 : i < s3.storage.length := (List.getElem?_eq_some_iff.1 hd).1
      refine ⟨fun hi => ?_, fun hi => ?_⟩
      · obtain ⟨g4, g5⟩ := g1 hi
        rw [if_neg (by unfold Has; omega)] at e
        rw [e]
        exact ⟨g4, by omega⟩
      · rw [if_pos (show Has vc3 i from ⟨by omega, by omega⟩)] at e
        rw [e]
        by_cases hi2 : i < s2.storage.length
        · rw [raise_ge (by have := g2 hi hi2; omega)]
          exact g2 hi hi2
        · exact raise_le (by have := g3 (by omega); omega)
    rcases f3 with ⟨e1, rfl⟩ | ⟨cc, e1, e2⟩
    · refine ⟨by rw [d3, e1, r1]; exact Nat.le_refl _, ⟨by rw [e1, r1]; omega, fun i c hi hc hp => ?_⟩, fun i c hc hp => ?_⟩
      · rw [e1] at hc
        exact ((k5 i c hc hp).1 hi).1
      · rw [e1] at hc
        have hi4 : i < s4.storage.length := (List.getElem?_eq_some_iff.1 hc).1
        obtain ⟨g1, g2⟩ := k5 i c hc hp
        refine ⟨fun hi hh => (g1 hi).2 hh.1, fun hi => ?_⟩
        rw [if_pos (show Has vc5 i from ⟨by omega, by omega⟩)]
        exact g2 hi
    · have hl : s5.storage.length = s4.storage.length + 1 := by rw [e1]; simp
      have k6 : ∀ i c, s5.storage[i]? = some c → c.pos ≠ .above → (i < s.storage.length → s.storage[i]? = some c ∧ ¬ vc5.start ≤ i) ∧
          (s.storage.length ≤ i → c.level = n + 1) := by
        intro i c hc hp
        have hi5 : i < s5.storage.length := (List.getElem?_eq_some_iff.1 hc).1
        by_cases hi4 : i < s4.storage.length
        · rw [e1, List.getElem?_append_left hi4] at hc
          exact k5 i c hc hp
        · rw [e1, List.getElem?_append_right (by omega), show i - s4.storage.length = 0 by omega] at hc
          cases hc
          refine ⟨fun hi => by omega, fun _ => ?_⟩
          show vc3.level = n + 1
          rw [d1, b1, a2]
      refine ⟨by rw [e2]; exact Nat.le_refl _, ⟨by omega, fun i c hi hc hp => ((k6 i c hc hp).1 hi).1⟩, fun i c hc hp => ?_⟩
      have hi5 : i < s5.storage.length := (List.getElem?_eq_some_iff.1 hc).1
      obtain ⟨g1, g2⟩ := k6 i c hc hp
      refine ⟨fun hi hh => (g1 hi).2 hh.1, fun hi => ?_⟩
      rw [if_pos (show Has vc5 i from ⟨by omega, by omega⟩)]
      exact g2 hi
  · split at h
    · obtain ⟨rfl, rfl⟩ := pure_inv h
      exact ⟨_, _, .inr rfl, rfl, c1, c2, rfl, by rw [b1, a2], by show _ ≤ _; rw [k1]; exact k3, stay3, plain⟩
    · rw [bind_error] at h
      obtain ⟨rfl, rfl⟩ := pure_inv h
      exact ⟨_, _, .inl rfl, rfl, c1, c2, rfl, by rw [b1, a2], by show _ ≤ _; rw [k1]; exact k3, ⟨stay3.len, stay3.same⟩, plain⟩

theorem Deeper.append {vs : List InlineArrayValue} {x : InlineArrayValue} {i : Nat} (h : ¬ Deeper (vs ++ [x]) i) :
    ¬ Deeper vs i ∧ ∀ inner, ArrayIn inner x.val → ¬ Has inner.comments i :=
  ⟨fun ⟨y, hy, h1⟩ => h ⟨y, by simp [hy], h1⟩, fun inner h1 h2 => h ⟨x, by simp, inner, h1, h2⟩⟩

theorem lvl_append {n : Nat} {vs : List InlineArrayValue} {x : InlineArrayValue} {i : Nat} :
    lvl n (vs ++ [x]) i = if Has x.comments i then n + 1 else lvl n vs i := by
  unfold lvl
  by_cases h : Has x.comments i
  · rw [if_pos h, if_pos ⟨x, by simp, h⟩]
  · rw [if_neg h]
    congr 1
    have : Entry (vs ++ [x]) i ↔ Entry vs i := by
      constructor
      · rintro ⟨y, hy, h1⟩
        rcases List.mem_append.1 hy with hy | hy
        · exact ⟨y, hy, h1⟩
        · rw [List.mem_singleton.1 hy] at h1; exact absurd h1 h
      · rintro ⟨y, hy, h1⟩
        exact ⟨y, by simp [hy], h1⟩
    simp only [this]

/-- What a round of a loop leaves, if it does not end in an error. -/
def LRound {σ : Type} (P : σ → Prop) (Q : Error → Prop) : Round σ → Prop
  | .continue st => P st
  | .break st => P st
  | .return e => Q e

/-- The error for values that are nested too deeply. -/
def TooDeep (e : Error) : Prop := ∃ p, e = .recursionLimitExceeded p

theorem calm_arrayRecover (st : ArrSt) : Calm (arrayRecover E st) := by unfold arrayRecover; calm
theorem calm_tableRecover (st : TabSt) : Calm (tableRecover E st) := by unfold tableRecover; calm

theorem arrayRecover_round {st : ArrSt} {r : Round ArrSt} (h : arrayRecover E st s = .ok r s') : r = .continue st ∨ r = .break st := by
  unfold arrayRecover at h
  obtain ⟨_, s1, -, h⟩ := bind_inv h
  rw [bind_peek] at h
  generalize (pk E s1).ty = ty at h
  split at h
  · obtain ⟨rfl, -⟩ := pure_inv h; exact .inr rfl
  · obtain ⟨rfl, -⟩ := pure_inv h; exact .inr rfl
  · rw [bind_next] at h
    obtain ⟨rfl, -⟩ := pure_inv h; exact .inl rfl

theorem tableRecover_round {st : TabSt} {r : Round TabSt} (h : tableRecover E st s = .ok r s') : r = .continue st ∨ r = .break st := by
  unfold tableRecover at h
  obtain ⟨_, s1, -, h⟩ := bind_inv h
  rw [bind_peek] at h
  split at h
  · rw [bind_next] at h
    obtain ⟨rfl, -⟩ := pure_inv h; exact .inl rfl
  · obtain ⟨rfl, -⟩ := pure_inv h; exact .inr rfl

/-- Behind an error in a value no comment is new. -/
theorem LvRun.same {n : Nat} {e : Error} (h : LvRun n s s' (.error e)) (he : ¬ TooDeep e) : s'.storage.length = s.storage.length := by
  have h1 := h.stay.len
  by_cases hl : s.storage.length < s'.storage.length
  · rcases h.cover _ (Nat.le_refl _) hl with ⟨p, hp⟩ | ⟨v, arr, hv, -⟩
    · cases hp; exact absurd ⟨p, rfl⟩ he
    · cases hv
  · omega

theorem arrayRound_level (hE : EnvEof E) {n b : Nat} {elem : M (Except Error Value)} (hk : LvElem (n + 1) elem) {st : ArrSt} {r : Round ArrSt}
    (hA : ALv n b s st) (h : arrayRound E elem n st s = .ok r s') :
    Stay s s' ∧ From s.storage.length (fun _ c => n ≤ c.level) s' ∧ LRound (ALv n b s') TooDeep r := by
  unfold arrayRound at h
  rw [bind_budget] at h
  obtain ⟨cm, s1, h1, h⟩ := bind_inv h
  obtain ⟨c1, c2, new, c3, c4'⟩ := contained_level hE _ h1
  have c4 : ∀ c ∈ new, c.level = n := fun c hc => (c4' c hc).1.trans hA.level
  rw [hA.level] at c1
  rw [hA.start] at c2
  have k1 := Stay.more c3
  have A1 : ALv n b s1 { st with comments := cm } := hA.more c3 c4 c1 c2 rfl
  have F1 : From s.storage.length (fun _ c => n ≤ c.level) s1 := From.more c3 fun i c _ hc => by rw [c4 c hc]; exact Nat.le_refl _
  dsimp only at h
  rw [bind_peek] at h
  split at h
  · obtain ⟨rfl, rfl⟩ := pure_inv h
    exact ⟨k1, F1, A1⟩
  · obtain ⟨rv, s2, h2, h⟩ := bind_inv h
    have e2 := hk _ _ _ h2
    have F2 : From s.storage.length (fun _ c => n ≤ c.level) s2 := F1.stay e2.stay (e2.ge.imp fun i c h => by omega)
    split at h
    · rename_i val
      obtain ⟨f1, f2⟩ := e2.fit _ rfl
      obtain ⟨x, st', hr, g1, g2, g3, g4, g5, g6, g7, g8⟩ := afterValue_level (n := n) hE (by exact c1) h
      dsimp only at g1 g3
      have k3 := (k1.trans e2.stay).trans g7
      have F3 : From s2.storage.length (fun _ c => n ≤ c.level) s' := fun i c hi hc hp => by
        show n ≤ c.level
        rw [(g8 i c hc hp).2 hi]
        exact Nat.le_add_right _ _
      have A3 : ALv n b s' st' := by
        refine ⟨g2, g3.trans c2, Nat.le_trans hA.le k3.len, ?_, fun y hy => ?_, ?_⟩
        · exact (A1.ge.stay e2.stay (e2.ge.imp fun i c h => by omega)).stay g7 F3
        · rw [g1] at hy
          rcases List.mem_append.1 hy with hy | hy
          · obtain ⟨q1, q2, q3, q4⟩ := hA.vals y hy
            exact ⟨q1.stay k3, q2, q3, Nat.le_trans q4 k3.len⟩
          · rw [List.mem_singleton.1 hy, g4]
            exact ⟨f1.stay g7, f2, g5, g6⟩
        · intro i c hi hc hp hd
          rw [g1] at hd ⊢
          obtain ⟨d1, d2⟩ := Deeper.append hd
          rw [lvl_append]
          obtain ⟨w1, w2⟩ := g8 i c hc hp
          by_cases hi2 : i < s2.storage.length
          · rw [if_neg (w1 hi2)]
            have hc2 := g7.same i c hi2 hc hp
            by_cases hi1 : i < s1.storage.length
            · exact A1.exact i c hi (e2.stay.same i c hi1 hc2 hp) hp d1
            · rcases e2.cover i (by omega) hi2 with ⟨p, hp⟩ | ⟨v, arr, hv, ha, hh⟩
              · cases hp
              · cases hv
                exact absurd hh (d2 arr (by rw [g4]; exact ha))
          · rw [w2 (by omega)]
            split
            · rfl
            · refine (ALv.fresh A1 ?_).symm
              have := e2.stay.len
              omega
      refine ⟨k3, F2.stay g7 F3, ?_⟩
      rcases hr with rfl | rfl
      · exact A3
      · exact A3
    · obtain ⟨rfl, rfl⟩ := pure_inv h
      exact ⟨k1.trans e2.stay, F2, _, rfl⟩
    · rename_i e hne
      rw [bind_error] at h
      have hlen := e2.same (fun ⟨p, hp⟩ => hne p hp)
      have hst : s'.storage = s2.storage := (calm_arrayRecover _).out (s2.err e) _ _ h
      have k2 : Stay s1 s' := ⟨by rw [hst, hlen]; exact Nat.le_refl _, fun i c hi hc hp => by rw [hst] at hc; exact e2.stay.same i c hi hc hp⟩
      have A2 : ALv n b s' { st with comments := cm } := by
        have hno : ∀ P, From s1.storage.length P s' := fun P i c hi hc _ => by
          have := (List.getElem?_eq_some_iff.1 hc).1
          rw [hst, hlen] at this
          omega
        refine ⟨c1, c2, by rw [hst, hlen]; exact A1.le, A1.ge.stay k2 (hno _), fun y hy => ?_, A1.exact.stay k2 (hno _)⟩
        obtain ⟨q1, q2, q3, q4⟩ := A1.vals y hy
        exact ⟨q1.stay k2, q2, q3, Nat.le_trans q4 k2.len⟩
      refine ⟨k1.trans k2, F2.eq hst, ?_⟩
      rcases arrayRecover_round h with rfl | rfl
      · exact A2
      · exact A2

/-- A property of the rounds of a loop holds of the loop. -/
theorem loop_level {σ : Type} {P : σ → PS → Prop} {n : Nat} {round : σ → M (Round σ)}
    (hr : ∀ {st s r s'}, P st s → round st s = .ok r s' → Stay s s' ∧ From s.storage.length (fun _ c => n ≤ c.level) s' ∧ LRound (P · s') TooDeep r) :
    ∀ k {st : σ} {s s' : PS} {o : Except Error σ}, P st s → loopM round k st s = .ok o s' →
      Stay s s' ∧ From s.storage.length (fun _ c => n ≤ c.level) s' ∧ (∀ e, o = .error e → TooDeep e) ∧ ∀ st', o = .ok st' → P st' s' := by
  intro k
  induction k with
  | zero => intro st s s' o _ h; cases h
  | succ k ih =>
    intro st s s' o hP h
    unfold loopM at h
    obtain ⟨r, s1, h1, h⟩ := bind_inv h
    obtain ⟨e1, e2, e3⟩ := hr hP h1
    split at h
    · obtain ⟨f1, f2, f3⟩ := ih e3 h
      exact ⟨e1.trans f1, e2.stay f1 f2, f3⟩
    · obtain ⟨rfl, rfl⟩ := pure_inv h
      exact ⟨e1, e2, by simp, fun st' h => by cases h; exact e3⟩
    · obtain ⟨rfl, rfl⟩ := pure_inv h
      exact ⟨e1, e2, fun e h => by cases h; exact e3, by simp⟩

theorem arrayClose_calm (p : Pos) : Calm (arrayClose E p) := by
  unfold arrayClose tokenFmtStrAndSpan tokenFmtStr tokenSpan
  calm
  exact ⟨fun s b s' h => by cases h; rfl⟩

theorem tableClose_calm (p : Pos) : Calm (tableClose E p) := by
  unfold tableClose tokenFmtStrAndSpan tokenFmtStr tokenSpan
  calm

theorem parseArray_level (hE : EnvEof E) {n : Nat} {elem : M (Except Error Value)} (hk : LvElem (n + 1) elem) (p : Pos) :
    LvElem n (parseArray E elem n p) := by
  intro s o s' h
  unfold parseArray at h
  rw [bind_next] at h
  split at h
  · obtain ⟨_, s1, h1, h⟩ := bind_inv h
    obtain ⟨rfl, rfl⟩ := pure_inv h
    refine LvRun.calm ?_ (by simp)
    cases h1
    exact adv_storage
  · rw [bind_nextId] at h
    obtain ⟨cm, s2, h2, h⟩ := bind_inv h
    obtain ⟨a1, a2, a3⟩ := lineEnd_level h2
    rw [adv_storage] at a3
    dsimp only at a1 a2 a3
    rw [bind_budget] at h
    obtain ⟨rl, s3, h3, h⟩ := bind_inv h
    have new : ∃ l, s2.storage = s.storage ++ l ∧ ∀ c ∈ l, c.level = n := by
      rcases a3 with ⟨e, -⟩ | ⟨c, e, -⟩
      · exact ⟨[], by simpa using e, by simp⟩
      · exact ⟨_, e, by simp⟩
    obtain ⟨l, e1, e2⟩ := new
    have k2 := Stay.more e1
    have F2 : From s.storage.length (fun _ c => n ≤ c.level) s2 := From.more e1 fun i c _ hc => by rw [e2 c hc]; exact Nat.le_refl _
    have A0 : ALv n s.storage.length s ⟨⟨s.storage.length, 0, n⟩, []⟩ := by
      have hno : ∀ P, From s.storage.length P s := fun P i c hi hc _ => by
        have := (List.getElem?_eq_some_iff.1 hc).1
        omega
      exact ⟨rfl, rfl, Nat.le_refl _, hno _, by simp, hno _⟩
    have A2 : ALv n s.storage.length s2 ⟨cm, []⟩ := A0.more e1 e2 a1 (by rw [a2, adv_storage]) rfl
    obtain ⟨k3, F3, e3, e4⟩ := loop_level (P := fun st s => ALv n _ s st) (n := n) (fun hP hr => arrayRound_level hE hk hP hr) _ A2 h3
    have k23 := k2.trans k3
    have F23 := F2.stay k3 F3
    split at h
    · obtain ⟨rfl, rfl⟩ := pure_inv h
      obtain ⟨q, rfl⟩ := e3 _ rfl
      exact ⟨k23, F23, by simp, fun i _ _ => .inl ⟨q, rfl⟩⟩
    · rename_i st
      have A3 := e4 _ rfl
      obtain ⟨rp, s4, h4, h⟩ := bind_inv h
      have hs4 := (arrayClose_calm _).out _ _ _ h4
      rw [bind_nextId] at h
      obtain ⟨cm2, hcm, h⟩ := bind_lift_inv h
      obtain ⟨b1, b2, b3⟩ := extend_level hcm
      obtain ⟨_, s5, h5, h⟩ := bind_inv h
      obtain ⟨r1, r2⟩ := raise_level h5
      obtain ⟨rfl, rfl⟩ := pure_inv h
      rw [A3.level] at b1
      rw [A3.start] at b2
      rw [hs4] at b3 r1 r2
      -- nothing is raised
      have same : ∀ (i : Nat) (c : AssocComment), s5.storage[i]? = some c → c.pos ≠ .above → s3.storage[i]? = some c := by
        intro i c hc hp
        obtain ⟨d, hd, e⟩ := r2 i c hc
        by_cases hh : Has cm2 i
        · rw [if_pos hh] at e
          have hp' : d.pos ≠ .above := by rw [e, raise_pos] at hp; exact hp
          have := A3.ge i d (by unfold Has at hh; omega) hd hp'
          rw [raise_ge this] at e
          rw [e]; exact hd
        · rw [if_neg hh] at e
          rw [e]; exact hd
      have k5 : Stay s3 s5 := ⟨by rw [r1]; exact Nat.le_refl _, fun i c _ hc hp => same i c hc hp⟩
      refine ⟨k23.trans k5, fun i c hi hc hp => F23 i c hi (same i c hc hp) hp, fun v hv => ?_, fun i h1 h2 => .inr ?_⟩
      · cases hv
        refine ⟨fun arr ha => ?_, fun arr m ha => ?_⟩
        · cases ha with
          | here =>
            refine ⟨by show _ ≤ _; dsimp only; omega, fun x hx => ?_, fun i c hi hc hp => ?_⟩
            · dsimp only; rw [b1]; exact (A3.vals x hx).2.2.1
            · obtain ⟨hi1, hi2⟩ := hi
              unfold Has at hi1
              dsimp only at hi1 hi2
              have := A3.exact i c (by omega) (same i c hc hp) hp (fun ⟨x, hx, inner, h1, h2⟩ => hi2 x hx inner h1 h2)
              rw [this]
              unfold lvl innerLevel
              dsimp only
              rw [b1]
              rfl
          | inArray hx ha => exact ((A3.vals _ hx).1.stay k5) arr ha
        · cases ha with
          | here => exact b1
          | inArray hx ha => have := (A3.vals _ hx).2.1 arr _ ha; omega
      · refine ⟨_, _, rfl, .here, ?_⟩
        unfold Has
        dsimp only
        omega

/-! ## Inline tables -/

/-- What holds in the loop over an inline table of level `n` behind the state `s0`. -/
structure TLv (n b : Nat) (s : PS) (st : TabSt) : Prop where
  vals : ∀ x ∈ st.assignments, Fit s.storage x.assignment.val ∧ Depth (n + 1) x.assignment.val
  cover : ∀ i, b ≤ i → i < s.storage.length → ∃ x ∈ st.assignments, ∃ arr, ArrayIn arr x.assignment.val ∧ Has arr.comments i

theorem TLv.calm {n b : Nat} {st : TabSt} (h : TLv n b s st) (hs : s'.storage = s.storage) : TLv n b s' st := by
  refine ⟨?_, ?_⟩
  · rw [hs]; exact h.vals
  · rw [hs]; exact h.cover

theorem tableRound_level {n b : Nat} {elem : M (Except Error Value)} (hk : LvElem (n + 1) elem) {st : TabSt} {r : Round TabSt}
    (hA : TLv n b s st) (h : tableRound E elem st s = .ok r s') :
    Stay s s' ∧ From s.storage.length (fun _ c => n ≤ c.level) s' ∧ LRound (TLv n b s') TooDeep r := by
  have quiet : s'.storage = s.storage → (r = .continue st ∨ r = .break st) →
      Stay s s' ∧ From s.storage.length (fun _ c => n ≤ c.level) s' ∧ LRound (TLv n b s') TooDeep r := by
    intro hs hr
    refine ⟨.eq hs, .nothing hs, ?_⟩
    rcases hr with rfl | rfl
    · exact hA.calm hs
    · exact hA.calm hs
  unfold tableRound at h
  rw [bind_peek] at h
  split at h
  · obtain ⟨_, s1, h1, h⟩ := bind_inv h
    obtain ⟨rfl, rfl⟩ := pure_inv h
    refine quiet ?_ (.inr rfl)
    unfold trailingComma at h1
    generalize st.comma = c at h1
    split at h1
    · cases h1; rfl
    · cases h1; rfl
  · obtain ⟨kr, s1, h1, h⟩ := bind_inv h
    have m1 := calm_parseKey.out _ _ _ h1
    split at h
    · rename_i key
      unfold tableAfterKey at h
      rw [bind_peek] at h
      split at h
      · rw [bind_next] at h
        obtain ⟨rv, s3, h3, h⟩ := bind_inv h
        have e3 := hk _ _ _ h3
        have hs : s1.adv.storage = s.storage := by rw [adv_storage, m1]
        have k0 : Stay s s1.adv := .eq hs
        have k3 : Stay s s3 := k0.trans e3.stay
        have F3 : From s.storage.length (fun _ c => n ≤ c.level) s3 := by
          rw [← hs]
          exact e3.ge.imp fun i c h => by omega
        split at h
        · rename_i val
          obtain ⟨f1, f2⟩ := e3.fit _ rfl
          have A3 : ∀ st' : TabSt, (∃ x : InlineTableAssignment, x.assignment.val = val ∧ st'.assignments = st.assignments ++ [x]) → TLv n b s3 st' := by
            rintro st' ⟨x, hx, e⟩
            refine ⟨fun y hy => ?_, fun i h1 h2 => ?_⟩
            · rw [e] at hy
              rcases List.mem_append.1 hy with hy | hy
              · exact ⟨(hA.vals y hy).1.stay k3, (hA.vals y hy).2⟩
              · rw [List.mem_singleton.1 hy, hx]
                exact ⟨f1, f2⟩
            · rw [e]
              by_cases hi : i < s.storage.length
              · obtain ⟨y, hy, h4⟩ := hA.cover i h1 hi
                exact ⟨y, by simp [hy], h4⟩
              · rcases e3.cover i (by rw [hs]; omega) h2 with ⟨p, hp⟩ | ⟨v, arr, hv, ha, hh⟩
                · cases hp
                · cases hv
                  exact ⟨x, by simp, arr, by rw [hx]; exact ha, hh⟩
          unfold tableAfterValue at h
          rw [bind_peek] at h
          split at h
          · rw [bind_next] at h
            obtain ⟨rfl, rfl⟩ := pure_inv h
            have hs' : s3.adv.storage = s3.storage := adv_storage
            exact ⟨k3.trans (.eq hs'), F3.eq hs', (A3 _ ⟨_, rfl, rfl⟩).calm hs'⟩
          · split at h
            · obtain ⟨rfl, rfl⟩ := pure_inv h
              exact ⟨k3, F3, A3 _ ⟨_, rfl, rfl⟩⟩
            · rw [bind_error] at h
              obtain ⟨rfl, rfl⟩ := pure_inv h
              exact ⟨k3.trans (.eq rfl), F3.eq rfl, (A3 _ ⟨_, rfl, rfl⟩).calm rfl⟩
        · obtain ⟨rfl, rfl⟩ := pure_inv h
          exact ⟨k3, F3, _, rfl⟩
        · rename_i e hne
          rw [bind_error] at h
          have hlen := e3.same (fun ⟨p, hp⟩ => hne p hp)
          have hst : s'.storage = s3.storage := (calm_tableRecover _).out (s3.err e) _ _ h
          have A3 : TLv n b s' st := by
            refine ⟨fun y hy => ?_, fun i h1 h2 => ?_⟩
            · rw [hst]
              exact ⟨(hA.vals y hy).1.stay k3, (hA.vals y hy).2⟩
            · rw [hst, hlen, hs] at h2
              exact hA.cover i h1 h2
          refine ⟨k3.trans (.eq hst), F3.eq hst, ?_⟩
          rcases tableRecover_round h with rfl | rfl
          · exact A3
          · exact A3
      · obtain ⟨f, s2, h2, h⟩ := bind_inv h
        have hs2 : s2.storage = s1.storage := by
          refine Calm.out (m := tokenFmtStrAndSpan E _) ?_ _ _ _ h2
          unfold tokenFmtStrAndSpan tokenFmtStr tokenSpan
          calm
        dsimp only at h
        rw [bind_error] at h
        have hs3 : s'.storage = s2.storage := (calm_tableRecover _).out (s2.err _) _ _ h
        exact quiet (by rw [hs3, hs2, m1]) (tableRecover_round h)
    · obtain ⟨rfl, rfl⟩ := pure_inv h
      exact quiet m1 (.inr rfl)
    · rw [bind_error] at h
      have hs3 : s'.storage = s1.storage := (calm_tableRecover _).out (s1.err _) _ _ h
      exact quiet (by rw [hs3, m1]) (tableRecover_round h)

theorem parseTable_level {n : Nat} {elem : M (Except Error Value)} (hk : LvElem (n + 1) elem) (p : Pos) :
    LvElem n (parseTable E elem n p) := by
  intro s o s' h
  unfold parseTable at h
  rw [bind_next] at h
  split at h
  · obtain ⟨_, s1, h1, h⟩ := bind_inv h
    obtain ⟨rfl, rfl⟩ := pure_inv h
    refine LvRun.calm ?_ (by simp)
    cases h1
    exact adv_storage
  · rw [bind_budget] at h
    obtain ⟨rl, s3, h3, h⟩ := bind_inv h
    have hs : s.adv.storage = s.storage := adv_storage
    have A0 : TLv n s.storage.length s.adv ⟨[], none⟩ := ⟨by simp, fun i h1 h2 => by rw [hs] at h2; omega⟩
    obtain ⟨k3, F3, e3, e4⟩ := loop_level (P := fun st s => TLv n _ s st) (n := n) (fun hP hr => tableRound_level hk hP hr) _ A0 h3
    rw [hs] at F3
    have k3 : Stay s s3 := Stay.trans (.eq hs) k3
    split at h
    · obtain ⟨rfl, rfl⟩ := pure_inv h
      obtain ⟨q, rfl⟩ := e3 _ rfl
      exact ⟨k3, F3, by simp, fun i _ _ => .inl ⟨q, rfl⟩⟩
    · rename_i st
      have A3 := e4 _ rfl
      obtain ⟨rp, s4, h4, h⟩ := bind_inv h
      have hs4 := (tableClose_calm _).out _ _ _ h4
      obtain ⟨rfl, rfl⟩ := pure_inv h
      refine ⟨k3.trans (.eq hs4), F3.eq hs4, fun v hv => ?_, fun i h1 h2 => .inr ?_⟩
      · cases hv
        rw [hs4]
        refine ⟨fun arr ha => ?_, fun arr m ha => ?_⟩
        · cases ha with
          | inTable hx ha => exact (A3.vals _ hx).1 arr ha
        · cases ha with
          | inTable hx ha => have := (A3.vals _ hx).2 arr _ ha; omega
      · rw [hs4] at h2
        obtain ⟨x, hx, arr, ha, hh⟩ := A3.cover i h1 h2
        exact ⟨_, arr, rfl, .inTable hx ha, hh⟩

/-! ## Values -/

theorem parseValue_level (hE : EnvEof E) : ∀ (d n : Nat), LvElem n (parseValue E d n) := by
  intro d
  induction d with
  | zero => intro n s o s' h; cases h
  | succ d ih =>
    intro n s o s' h
    unfold parseValue at h
    rw [bind_peek] at h
    generalize hty : (pk E s).ty = ty at h
    split at h
    · have hst : s'.storage = s.storage := by
        refine Calm.out (m := parseStringValue E _ >>= _) (Calm.bind ?_ fun _ => calm_pure _) _ _ _ h
        unfold parseStringValue getString; calm
      obtain ⟨w, s1, h1, h⟩ := bind_inv h
      obtain ⟨rfl, rfl⟩ := pure_inv h
      refine .calm hst fun v hv => ?_
      cases hv
      unfold parseStringValue at h1
      rw [bind_next] at h1
      obtain ⟨str, s2, -, h1⟩ := bind_inv h1
      obtain ⟨rfl, -⟩ := pure_inv h1
      simp [Scal]
    · have hst : s'.storage = s.storage := by
        refine Calm.out (m := parseLiteralValue E _ >>= _) (Calm.bind ?_ fun _ => calm_pure _) _ _ _ h
        exact calm_parseLiteralValue _
      obtain ⟨w, s1, h1, h⟩ := bind_inv h
      obtain ⟨rfl, rfl⟩ := pure_inv h
      refine .calm hst fun v hv => ?_
      cases hv
      unfold parseLiteralValue at h1
      rw [bind_next] at h1
      obtain ⟨l1, s2, -, h1⟩ := bind_inv h1
      obtain ⟨⟨l2, sp2⟩, s3, h3, h1⟩ := bind_inv h1
      exact literalValue_scal _ _ _ _ _ h1
    · refine .calm ?_ fun v hv => parseDot_scal _ _ _ h v hv
      refine Calm.out (m := parseDotValue E _) ?_ _ _ _ h
      unfold parseDotValue literal extendStrFront tokenFmtStrAndSpan tokenFmtStr tokenSpan
      calm
      all_goals exact calm_combine _ _
    · exact parseArray_level hE (ih _) _ _ _ _ h
    · exact parseTable_level (ih _) _ _ _ _ h
    · obtain ⟨f, s1, h1, h⟩ := bind_inv h
      obtain ⟨rfl, rfl⟩ := pure_inv h
      refine .calm ?_ (by simp)
      refine Calm.out (m := tokenFmtStrAndSpan E _) ?_ _ _ _ h1
      unfold tokenFmtStrAndSpan tokenFmtStr tokenSpan
      calm

end Verif.Toml
