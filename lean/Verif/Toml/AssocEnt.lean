import Verif.Toml.AssocAboveRoot

/-! # Comments: those directly above the entry of an array are marked -/

namespace Verif.Toml
open Verif Verif.Spec.Toml

variable {α β : Type} {E : Env} {s s' s1 s2 : PS}

/-- Tokens have been consumed; of the comments stored before, none has become one that is only contained. -/
structure Mv (s s' : PS) : Prop where
  adv : Adv s s'
  soft : ∀ (i : Nat) (c' c : AssocComment), s'.storage[i]? = some c' → s.storage[i]? = some c → c'.pos = .contained → c.pos = .contained

theorem Adv.keep (h : Adv s s') {i : Nat} {c : AssocComment} (hi : s.storage[i]? = some c) :
    ∃ c', s'.storage[i]? = some c' ∧ c'.comment.span.start = c.comment.span.start := by
  obtain ⟨new, h1, -⟩ := h
  have hc : (cps s'.storage)[i]? = some c.comment.span.start := by
    rw [h1, List.getElem?_append_left]
    · simp [cps, hi]
    · simp only [cps, List.length_map]
      exact (List.getElem?_eq_some_iff.1 hi).1
  simp only [cps, List.getElem?_map, Option.map_eq_some_iff] at hc
  obtain ⟨c', h2, h3⟩ := hc
  exact ⟨c', h2, h3⟩

theorem Mv.refl (s : PS) : Mv s s := ⟨.refl s, fun i c' c h h' hp => by rw [h] at h'; cases h'; exact hp⟩

theorem Mv.trans (h1 : Mv s s1) (h2 : Mv s1 s2) : Mv s s2 := by
  refine ⟨h1.adv.trans h2.adv, fun i c' c h h' hp => ?_⟩
  obtain ⟨c1, e1, -⟩ := h1.adv.keep h'
  exact h1.soft _ _ _ e1 h' (h2.soft _ _ _ h e1 hp)

theorem Mv.same (h : Adv s s') (hs : s'.storage = s.storage) : Mv s s' := by
  refine ⟨h, fun i c' c h h' hp => ?_⟩
  rw [hs, h'] at h
  cases h
  exact hp

theorem Mv.more (h : Adv s s') {new : List AssocComment} (hs : s'.storage = s.storage ++ new) : Mv s s' := by
  refine ⟨h, fun i c' c h h' hp => ?_⟩
  rw [hs, List.getElem?_append_left (List.getElem?_eq_some_iff.1 h').1, h'] at h
  cases h
  exact hp

/-- The comment on the line above line `l` is marked, if no comment stored later is in front of `b` or `e`. -/
def EntOk (st : List AssocComment) (R : List Pos) (l : Nat) (b e : Pos) : Prop :=
  (∀ p ∈ R, l ≤ p.line) ∧ ∀ (i : Nat) (c : AssocComment), st[i]? = some c → c.comment.span.start.line + 1 = l →
    (∀ (j : Nat) (d : AssocComment), i < j → st[j]? = some d → ¬ Sooner d.comment.span.start b ∧ ¬ Sooner d.comment.span.start e) → c.pos ≠ .contained

theorem EntOk.mv {l : Nat} {b e : Pos} (h : EntOk s.storage (rps s.rest) l b e) (hm : Mv s s') : EntOk s'.storage (rps s'.rest) l b e := by
  refine ⟨fun p hp => h.1 p (hm.adv.rest.subset hp), fun i c' hi hl hj hp => ?_⟩
  by_cases hlen : i < s.storage.length
  · have h1 : s.storage[i]? = some s.storage[i] := List.getElem?_eq_getElem hlen
    obtain ⟨c1, e1, e2⟩ := hm.adv.keep h1
    rw [hi] at e1
    cases e1
    refine h.2 i _ h1 (by rw [← e2]; exact hl) (fun j d hij hd => ?_) (hm.soft _ _ _ hi h1 hp)
    obtain ⟨d', f1, f2⟩ := hm.adv.keep hd
    rw [← f2]
    exact hj j d' hij f1
  · obtain ⟨new, e1, e2⟩ := hm.adv
    have : c'.comment.span.start ∈ new := by
      have h3 : (cps s'.storage)[i]? = some c'.comment.span.start := by simp [cps, hi]
      rw [e1, List.getElem?_append_right (by simp [cps]; omega)] at h3
      exact List.mem_of_getElem? h3
    have := h.1 _ (e2.subset (List.mem_append_left _ this))
    omega

/-- An entry of an array in the value: its line, its start and its end. -/
def Ents (v : Value) (l : Nat) (b e : Pos) : Prop :=
  ∃ arr x, ArrayIn arr v ∧ x ∈ arr.values ∧ x.val.start.line = l ∧ x.val.start = b ∧ x.val.stop = e

/-- The entries of the state of an array. -/
def AE (vs : List InlineArrayValue) (l : Nat) (b e : Pos) : Prop :=
  ∃ x ∈ vs, (x.val.start.line = l ∧ x.val.start = b ∧ x.val.stop = e) ∨ Ents x.val l b e

/-- The entries of arrays of the state of an inline table. -/
def TE (vs : List InlineTableAssignment) (l : Nat) (b e : Pos) : Prop := ∃ x ∈ vs, Ents x.assignment.val l b e

/-- All these entries are all right. -/
def AllOk (s : PS) (F : Nat → Pos → Pos → Prop) : Prop := ∀ l b e, F l b e → EntOk s.storage (rps s.rest) l b e

theorem AllOk.mv {F : Nat → Pos → Pos → Prop} (h : AllOk s F) (hm : Mv s s') : AllOk s' F := fun l b e hF => (h l b e hF).mv hm

theorem mv_adv : Mv s s.adv := by
  refine Mv.same ?_ adv_storage
  refine ⟨[], by rw [adv_storage]; simp, ?_⟩
  unfold PS.adv
  cases h : s.rest with
  | nil => rw [h]; simp
  | cons t ts => simp [rps]

/-- What is known behind a value. -/
structure EntRun (E : Env) (s s' : PS) (v : Value) : Prop where
  past : Mv s.adv s'
  ents : AllOk s' (Ents v)
  start : v.start = (pk E s).start
  ne : (pk E s).ty ≠ .eof
  before : ∀ c ∈ s'.storage, Sooner c.comment.span.start v.start ∨ Sooner c.comment.span.start v.stop

theorem EntRun.mv {v : Value} (h : EntRun E s s' v) : Mv s s' := mv_adv.trans h.past

/-- The computation marks the comments above entries. -/
def EntElem (E : Env) (elem : M (Except Error Value)) : Prop :=
  ∀ s v s', Srt s → elem s = .ok (.ok v) s' → s'.errors = [] → EntRun E s s' v

theorem EntRun.line (hE : EnvEof E) (h0 : Srt s) {v : Value} (h : EntRun E s s' v) : ∀ p ∈ rps s'.rest, v.start.line ≤ p.line := by
  intro p hp
  have hp := h.mv.adv.rest.subset hp
  rw [adv_rest hE h.ne] at hp
  rw [h.start]
  rcases List.mem_cons.1 hp with rfl | hp
  · exact Nat.le_refl _
  · unfold Srt at h0
    rw [adv_rest hE h.ne] at h0
    have h1 := (List.pairwise_append.1 h0).2.1
    have := (List.pairwise_cons.1 h1).1 p hp
    unfold Sooner at this
    dsimp only at this
    omega

theorem lineEnd_mv (hE : EnvEof E) {r a : CommentRange} (h : lineEndComment E r s = .ok a s') : Mv s s' := by
  have ha := (lineEnd_run hE h).1
  unfold lineEndComment at h
  obtain ⟨o, s1, h1, h'⟩ := bind_inv h
  rcases eatComment_run h1 with ⟨rfl, rfl⟩ | ⟨c, rfl, -, rfl, -⟩
  · obtain ⟨rfl, rfl⟩ := pure_inv h'
    exact .refl _
  · dsimp only at h'
    obtain ⟨rfl, -⟩ := addComment_storage h'
    refine Mv.more ha (new := [⟨.lineEnd, r.level, c⟩]) ?_
    simp only [PS.stored, adv_storage]

theorem contained_more (hE : EnvEof E) : ∀ n {r a : CommentRange} {s : PS}, containedComments E n r s = .ok a s' →
    ∃ new, s'.storage = s.storage ++ new := by
  intro n
  induction n with
  | zero => intro r a s h; cases h
  | succ n ih =>
    intro r a s h
    unfold containedComments at h
    obtain ⟨o, s1, h1, h⟩ := bind_inv h
    unfold eatCommentAndNewlines at h1
    rw [bind_budget] at h1
    obtain ⟨e1, -⟩ := eatLoop_run hE _ h1
    clear h1
    split at h
    · obtain ⟨r1, s2, h2, h⟩ := bind_inv h
      obtain ⟨rfl, -⟩ := addComment_storage h2
      obtain ⟨new, e2⟩ := ih h
      exact ⟨_, by rw [e2]; simp only [PS.stored, e1]; rw [List.append_assoc]⟩
    · obtain ⟨rfl, rfl⟩ := pure_inv h
      exact ⟨[], by rw [e1]; simp⟩

theorem contained_mv (hE : EnvEof E) {n : Nat} {r a : CommentRange} (h : containedComments E n r s = .ok a s') : Mv s s' := by
  obtain ⟨new, e⟩ := contained_more hE n h
  exact Mv.more (contained_run hE n h).1 e

theorem markContained_mv {r : CommentRange} {level : Nat} {a : Unit} (h : markContainedComments r level s = .ok a s') : Mv s s' := by
  refine ⟨(moves_markContained r level).out _ _ _ h, ?_⟩
  unfold markContainedComments at h
  split at h
  · rename_i hle
    cases h
    intro i c' c h h' hp
    have key : (s.storage.take r.start ++ ((s.storage.drop r.start).take r.len).map (AssocComment.raise level) ++
        s.storage.drop (r.start + r.len)).map (·.pos) = s.storage.map (·.pos) := by
      have hr : ∀ l : List AssocComment, (l.map (AssocComment.raise level)).map (·.pos) = l.map (·.pos) := by
        intro l
        rw [List.map_map]
        apply List.map_congr_left
        intro c _
        simp only [Function.comp, AssocComment.raise]
        split <;> rfl
      simp only [List.map_append, hr]
      rw [← List.map_append, ← List.map_append, ← List.drop_drop, List.append_assoc, List.take_append_drop, List.take_append_drop]
    have h1 := congrArg (fun l : List AssocPos => l[i]?) key
    rw [List.getElem?_map, List.getElem?_map, h, h'] at h1
    simp only [Option.map_some, Option.some.injEq] at h1
    rw [← h1]; exact hp
  · cases h

theorem markContained_cps {r : CommentRange} {level : Nat} {a : Unit} (h : markContainedComments r level s = .ok a s') :
    cps s'.storage = cps s.storage := by
  obtain ⟨new, g1, -⟩ := (moves_markContained r level).out _ _ _ h
  unfold markContainedComments at h
  split at h
  · have hl : s'.storage.length = s.storage.length := by
      cases h
      simp only [List.length_append, List.length_take, List.length_map, List.length_drop]
      omega
    have : new = [] := by
      have := congrArg List.length g1
      simp only [cps, List.length_map, List.length_append] at this
      exact List.eq_nil_of_length_eq_zero (by omega)
    rw [g1, this, List.append_nil]
  · cases h

theorem markAboveLoop_soft {level : Nat} : ∀ (cs : List AssocComment) (line k i : Nat) (c c' : AssocComment),
    (markAboveLoop level cs line k).1[i]? = some c' → cs[i]? = some c → c'.pos = .contained → c.pos = .contained := by
  intro cs
  induction cs with
  | nil => intro line k i c c' h; simp [markAboveLoop] at h
  | cons d cs ih =>
    intro line k i c c' h h' hp
    unfold markAboveLoop at h
    split at h
    · cases i with
      | zero =>
        simp only [List.getElem?_cons_zero, Option.some.injEq] at h
        rw [← h] at hp
        cases hp
      | succ i =>
        simp only [List.getElem?_cons_succ] at h h'
        exact ih _ _ _ _ _ h h' hp
    · rw [h'] at h
      cases h
      exact hp

theorem markAboveLoop_length {level : Nat} (cs : List AssocComment) (line k : Nat) : (markAboveLoop level cs line k).1.length = cs.length := by
  have := congrArg List.length (cps_markAboveLoop (level := level) cs line k)
  simpa [cps] using this

theorem markAbove_mv {line level : Nat} {a : CommentRange} (h : markCommentsAbove line level s = .ok a s') : Mv s s' := by
  refine ⟨(moves_markAbove line level).out _ _ _ h, ?_⟩
  unfold markCommentsAbove at h
  cases h
  intro i c' c h h' hp
  dsimp only at h
  have hl := (List.getElem?_eq_some_iff.1 h').1
  rw [List.getElem?_reverse (by rw [markAboveLoop_length]; simpa using hl)] at h
  refine markAboveLoop_soft _ _ _ _ _ _ h ?_ hp
  rw [markAboveLoop_length, List.length_reverse, List.getElem?_reverse (by omega), ← h']
  congr 1
  omega

/-- The last comment, if it is directly above the line, is marked. -/
theorem markAbove_last {line level : Nat} {a : CommentRange} (h : markCommentsAbove line level s = .ok a s') {i : Nat} {c : AssocComment}
    (hi : s'.storage[i]? = some c) (hl : i + 1 = s.storage.length) (hc : c.comment.span.start.line + 1 = line) : c.pos ≠ .contained := by
  unfold markCommentsAbove at h
  cases h
  dsimp only at hi
  rw [List.getElem?_reverse (by rw [markAboveLoop_length]; simp; omega), markAboveLoop_length, List.length_reverse,
    show s.storage.length - 1 - i = 0 by omega] at hi
  intro hp
  generalize hr : s.storage.reverse = cs at hi
  cases cs with
  | nil => simp [markAboveLoop] at hi
  | cons d cs =>
    unfold markAboveLoop at hi
    split at hi
    · simp only [List.getElem?_cons_zero, Option.some.injEq] at hi
      rw [← hi] at hp
      cases hp
    · rename_i hd
      simp only [List.getElem?_cons_zero, Option.some.injEq] at hi
      subst hi
      exact hd ⟨hc, hp⟩

/-! ## Values -/

theorem AE.append {vs ws : List InlineArrayValue} {l : Nat} {b e : Pos} (h : AE (vs ++ ws) l b e) : AE vs l b e ∨ AE ws l b e := by
  obtain ⟨x, hx, h⟩ := h
  rcases List.mem_append.1 hx with hx | hx
  · exact .inl ⟨x, hx, h⟩
  · exact .inr ⟨x, hx, h⟩

theorem arrayAfterValue_ent (hE : EnvEof E) {level : Nat} {st : ArrSt} {v : Value} {r : Round ArrSt} {s0 : PS} (h0 : Srt s0)
    (hA : AllOk s (AE st.values)) (hv : EntRun E s0 s v) (h : arrayAfterValue E level st v s = .ok r s') (he : s'.errors = []) :
    ARound (fun st => Mv s s' ∧ AllOk s' (AE st.values)) r := by
  unfold arrayAfterValue at h
  obtain ⟨vc, s1, h1, h⟩ := bind_inv h
  have m1 := markAbove_mv h1
  have k1 : ∀ x : InlineArrayValue, x.val = v → AllOk s1 (AE (st.values ++ [x])) := by
    rintro x rfl l b e hx
    rcases hx.append with hx | ⟨y, hy, hx⟩
    · exact (hA l b e hx).mv m1
    · rw [List.mem_singleton.1 hy] at hx
      rcases hx with ⟨e1, e2, e3⟩ | hx
      · rw [← e1, ← e2, ← e3]
        refine ⟨fun p hp => hv.line hE h0 p (m1.adv.rest.subset hp), fun i c hi hl hj => ?_⟩
        refine markAbove_last h1 hi ?_ hl
        have hlen : s1.storage.length = s.storage.length := by
          unfold markCommentsAbove at h1
          cases h1
          simp [markAboveLoop_length]
        have hi' := (List.getElem?_eq_some_iff.1 hi).1
        by_cases hlt : i + 1 < s.storage.length
        · exfalso
          have h3 : s.storage[i + 1]? = some s.storage[i + 1] := List.getElem?_eq_getElem hlt
          obtain ⟨d', f1, f2⟩ := m1.adv.keep h3
          obtain ⟨g1, g2⟩ := hj (i + 1) d' (by omega) f1
          rw [f2] at g1 g2
          rcases hv.before _ (List.getElem_mem hlt) with hb | hb
          · exact g1 hb
          · exact g2 hb
        · omega
      · exact (hv.ents l b e hx).mv m1
  obtain ⟨vc', s2, h2, h⟩ := bind_inv h
  rw [bind_budget] at h
  obtain ⟨cm, s3, h3, h⟩ := bind_inv h
  have m3 := (lineEnd_mv hE h2).trans (contained_mv hE h3)
  rw [bind_peek] at h
  split at h
  · rw [bind_nextId] at h
    obtain ⟨vc3, hvc, h⟩ := bind_lift_inv h
    obtain ⟨_, s4, h4, h⟩ := bind_inv h
    rw [bind_next] at h
    obtain ⟨vc5, s5, h5, h⟩ := bind_inv h
    obtain ⟨rfl, rfl⟩ := pure_inv h
    have m5 := m3.trans ((markContained_mv h4).trans (mv_adv.trans (lineEnd_mv hE h5)))
    exact ⟨m1.trans m5, (k1 _ rfl).mv m5⟩
  · split at h
    · obtain ⟨rfl, rfl⟩ := pure_inv h
      exact ⟨m1.trans m3, (k1 _ rfl).mv m3⟩
    · exact absurd he (bind_error_dirty h (fun _ => by dirty))

theorem arrayRound_ent (hE : EnvEof E) {level : Nat} {elem : M (Except Error Value)} {st : ArrSt} {s0 : PS}
    {r : Round ArrSt} (hd : Dirty elem) (hk : EntElem E elem) (hA : Srt s ∧ Mv s0 s ∧ AllOk s (AE st.values))
    (h : arrayRound E elem level st s = .ok r s') (he : s'.errors = []) :
    ARound (fun st => Srt s' ∧ Mv s0 s' ∧ AllOk s' (AE st.values)) r := by
  obtain ⟨hS, hM, hA⟩ := hA
  unfold arrayRound at h
  rw [bind_budget] at h
  obtain ⟨cm, s1, h1, h⟩ := bind_inv h
  have m1 := contained_mv hE h1
  dsimp only at h
  rw [bind_peek] at h
  split at h
  · obtain ⟨rfl, rfl⟩ := pure_inv h
    exact ⟨hS.adv m1.adv, hM.trans m1, hA.mv m1⟩
  · obtain ⟨rv, s2, h2, h, he2⟩ := bind_clean h he (by
      dirty
      all_goals first
        | exact dirty_arrayAfterValue _ _ _ | exact dirty_arrayRecover _)
    split at h
    · have e2 := hk _ _ _ (hS.adv m1.adv) h2 he2
      have := arrayAfterValue_ent (st := { st with comments := cm }) hE (hS.adv m1.adv) ((hA.mv m1).mv e2.mv) e2 h he
      cases r with
      | «return» => trivial
      | «continue» st' =>
        have m3 := m1.trans (e2.mv.trans this.1)
        exact ⟨hS.adv m3.adv, hM.trans m3, this.2⟩
      | «break» st' =>
        have m3 := m1.trans (e2.mv.trans this.1)
        exact ⟨hS.adv m3.adv, hM.trans m3, this.2⟩
    · obtain ⟨rfl, -⟩ := pure_inv h
      trivial
    · exact absurd he (bind_error_dirty h (fun _ => dirty_arrayRecover _))

/-- All comments stored are in front of the next token. -/
theorem Srt.before (hE : EnvEof E) (h : Srt s) (hn : (pk E s).ty ≠ .eof) : ∀ c ∈ s.storage, Sooner c.comment.span.start (pk E s).start := by
  intro c hc
  unfold Srt at h
  rw [adv_rest hE hn] at h
  exact (List.pairwise_append.1 h).2.2 _ (List.mem_map_of_mem hc) _ (by simp [rps])

theorem sooner_plus {p q : Pos} {n : Nat} (h : Sooner p q) : Sooner p (q.plus n) := by
  unfold Sooner Pos.plus at *
  dsimp only
  omega

theorem parseArray_ent (hE : EnvEof E) {level : Nat} {elem : M (Except Error Value)} (hd : Dirty elem)
    (hk : EntElem E elem) {v : Value} (hty : (pk E s).ty = .squareLeft) (h0 : Srt s)
    (h : parseArray E elem level (pk E s).start s = .ok (.ok v) s') (he : s'.errors = []) : EntRun E s s' v := by
  unfold parseArray at h
  rw [bind_next] at h
  split at h
  · obtain ⟨_, s1, -, h⟩ := bind_inv h
    obtain ⟨h, -⟩ := pure_inv h
    cases h
  · rw [bind_nextId] at h
    obtain ⟨cm, s2, h2, h⟩ := bind_inv h
    have m2 := lineEnd_mv hE h2
    rw [bind_budget] at h
    obtain ⟨rl, s3, h3, h, he3⟩ := bind_clean h he (by
      dirty
      all_goals exact dirty_arrayClose _)
    split at h
    · obtain ⟨h, -⟩ := pure_inv h; cases h
    · obtain ⟨hS3, m3, k3⟩ := loop_above (P := fun (st : ArrSt) s1 => Srt s1 ∧ Mv s.adv s1 ∧ AllOk s1 (AE st.values)) (dirty_arrayRound hd _)
        (fun hP hr he => arrayRound_ent hE hd hk hP hr he) _
        ⟨(h0.adv mv_adv.adv).adv m2.adv, m2, fun l b e hx => by obtain ⟨x, hx, -⟩ := hx; cases hx⟩ h3 he3
      obtain ⟨rp, s4, h4, h, he4⟩ := bind_clean h he (by dirty)
      unfold arrayClose at h4
      rw [bind_peek] at h4
      split at h4
      · rename_i hr
        rw [bind_next] at h4
        obtain ⟨rfl, rfl⟩ := pure_inv h4
        rw [bind_nextId] at h
        obtain ⟨cm2, -, h⟩ := bind_lift_inv h
        obtain ⟨_, s5, h5, h⟩ := bind_inv h
        obtain ⟨h6, rfl⟩ := pure_inv h
        cases h6
        have m5 := mv_adv.trans (markContained_mv h5)
        refine ⟨m3.trans m5, ?_, rfl, by rw [hty]; simp, ?_⟩
        · refine AllOk.mv (s := s3) ?_ m5
          rintro l b e ⟨arr, x, ha, hx, e1, e2, e3⟩
          cases ha with
          | here => exact k3 l b e ⟨x, hx, .inl ⟨e1, e2, e3⟩⟩
          | inArray hy ha => exact k3 l b e ⟨_, hy, .inr ⟨arr, x, ha, hx, e1, e2, e3⟩⟩
        · intro c hc
          right
          have hb := hS3.before hE (E := E) (by rw [hr]; simp)
          show Sooner _ ((Toml.pk E s3).start.plus 1)
          apply sooner_plus
          have hcps := markContained_cps h5
          rw [adv_storage] at hcps
          have : c.comment.span.start ∈ cps s3.storage := by rw [← hcps]; exact List.mem_map_of_mem hc
          obtain ⟨d, hd, e⟩ := List.mem_map.1 this
          rw [← e]
          exact hb d hd
      · obtain ⟨_, s5, -, h4⟩ := bind_inv h4
        dsimp only at h4
        rw [bind_peekPrev] at h4
        exact absurd he4 (bind_error_dirty h4 (fun _ => by dirty))

theorem tableRound_ent (hE : EnvEof E) {elem : M (Except Error Value)} {st : TabSt} {s0 : PS}
    {r : Round TabSt} (hd : Dirty elem) (hk : EntElem E elem) (hA : Srt s ∧ Mv s0 s ∧ AllOk s (TE st.assignments))
    (h : tableRound E elem st s = .ok r s') (he : s'.errors = []) :
    ARound (fun st => Srt s' ∧ Mv s0 s' ∧ AllOk s' (TE st.assignments)) r := by
  obtain ⟨hS, hM, hA⟩ := hA
  unfold tableRound at h
  rw [bind_peek] at h
  split at h
  · unfold trailingComma at h
    generalize hc : st.comma = c at h
    split at h
    · exact absurd he (bind_error_dirty h (fun _ => by dirty))
    · obtain ⟨rfl, rfl⟩ := pure_inv h
      exact ⟨hS, hM, hA⟩
  · obtain ⟨kr, s1, h1, h, he1⟩ := bind_clean h he (by
      dirty
      all_goals first
        | exact dirty_tableAfterKey hd _ _ | exact dirty_tableRecover _)
    have m1 := Mv.same (moves_parseKey.out _ _ _ h1) (calm_parseKey.out _ _ _ h1)
    split at h
    · rename_i key
      unfold tableAfterKey at h
      rw [bind_peek] at h
      split at h
      · rename_i heq
        rw [bind_next] at h
        obtain ⟨rv, s3, h3, h, he3⟩ := bind_clean h he (by
          dirty
          all_goals first
            | exact dirty_tableAfterValue _ _ | exact dirty_tableRecover _)
        split at h
        · rename_i val
          have m2 := m1.trans mv_adv
          have e3 := hk _ _ _ (hS.adv m2.adv) h3 he3
          have m3 := m2.trans e3.mv
          have k4 : ∀ x : InlineTableAssignment, x.assignment.val = val → AllOk s3 (TE (st.assignments ++ [x])) := by
            rintro x rfl l b e ⟨y, hy, hx⟩
            rcases List.mem_append.1 hy with hy | hy
            · exact (hA.mv m3) l b e ⟨y, hy, hx⟩
            · rw [List.mem_singleton.1 hy] at hx
              exact e3.ents l b e hx
          unfold tableAfterValue at h
          rw [bind_peek] at h
          split at h
          · rename_i hc
            rw [bind_next] at h
            obtain ⟨rfl, rfl⟩ := pure_inv h
            have m4 := m3.trans mv_adv
            exact ⟨hS.adv m4.adv, hM.trans m4, (k4 _ rfl).mv mv_adv⟩
          · split at h
            · obtain ⟨rfl, rfl⟩ := pure_inv h
              exact ⟨hS.adv m3.adv, hM.trans m3, k4 _ rfl⟩
            · exact absurd he (bind_error_dirty h (fun _ => by dirty))
        · obtain ⟨rfl, -⟩ := pure_inv h
          trivial
        · exact absurd he (bind_error_dirty h (fun _ => dirty_tableRecover _))
      · obtain ⟨f, s2, -, h⟩ := bind_inv h
        exact absurd he (bind_error_dirty h (fun _ => dirty_tableRecover _))
    · obtain ⟨rfl, rfl⟩ := pure_inv h
      exact ⟨hS.adv m1.adv, hM.trans m1, hA.mv m1⟩
    · exact absurd he (bind_error_dirty h (fun _ => dirty_tableRecover _))

theorem parseTable_ent (hE : EnvEof E) {level : Nat} {elem : M (Except Error Value)} (hd : Dirty elem) (hk : EntElem E elem)
    {v : Value} (hty : (pk E s).ty = .curlyLeft) (h0 : Srt s)
    (h : parseTable E elem level (pk E s).start s = .ok (.ok v) s') (he : s'.errors = []) : EntRun E s s' v := by
  unfold parseTable at h
  rw [bind_next] at h
  split at h
  · obtain ⟨_, s1, -, h⟩ := bind_inv h
    obtain ⟨h, -⟩ := pure_inv h
    cases h
  · rw [bind_budget] at h
    obtain ⟨rl, s3, h3, h, he3⟩ := bind_clean h he (by
      dirty
      all_goals exact dirty_tableClose _)
    split at h
    · obtain ⟨h, -⟩ := pure_inv h; cases h
    · obtain ⟨hS3, m3, k3⟩ := loop_above (P := fun (st : TabSt) s1 => Srt s1 ∧ Mv s.adv s1 ∧ AllOk s1 (TE st.assignments)) (dirty_tableRound hd)
        (fun hP hr he => tableRound_ent hE hd hk hP hr he) _
        ⟨h0.adv mv_adv.adv, .refl _, fun l b e hx => by obtain ⟨x, hx, -⟩ := hx; cases hx⟩ h3 he3
      obtain ⟨rp, s4, h4, h, he4⟩ := bind_clean h he (by dirty)
      unfold tableClose at h4
      rw [bind_peek] at h4
      split at h4
      · rename_i hr
        rw [bind_next] at h4
        obtain ⟨rfl, rfl⟩ := pure_inv h4
        obtain ⟨h6, rfl⟩ := pure_inv h
        cases h6
        refine ⟨m3.trans mv_adv, ?_, rfl, by rw [hty]; simp, ?_⟩
        · refine AllOk.mv (s := s3) ?_ mv_adv
          rintro l b e ⟨arr, x, ha, hx, e1, e2, e3⟩
          cases ha with
          | inTable hy ha => exact k3 l b e ⟨_, hy, arr, x, ha, hx, e1, e2, e3⟩
        · intro c hc
          right
          have hb := hS3.before hE (E := E) (by rw [hr]; simp)
          rw [adv_storage] at hc
          exact sooner_plus (hb c hc)
      · obtain ⟨_, s5, -, h4⟩ := bind_inv h4
        exact absurd he4 (bind_error_dirty h4 (fun _ => by dirty))

/-! ## Values that are not nested -/

theorem combineLoop_start : ∀ n {lit : Slice} {sp : Span} {o : Slice × Span} {s : PS}, combineLoop E n lit sp s = .ok o s' →
    o.2.start = sp.start := by
  intro n
  induction n with
  | zero => intro lit sp o s h; cases h
  | succ n ih =>
    intro lit sp o s h
    unfold combineLoop at h
    rw [bind_peek] at h
    split at h
    · obtain ⟨rfl, -⟩ := pure_inv h; rfl
    · generalize (pk E s).ty = ty at h
      split at h
      · obtain ⟨l1, s1, -, h⟩ := bind_inv h
        rw [bind_next] at h
        have := ih h
        exact this
      · obtain ⟨l1, s1, -, h⟩ := bind_inv h
        obtain ⟨l2, s2, -, h⟩ := bind_inv h
        rw [bind_next] at h
        have := ih h
        exact this
      · obtain ⟨rfl, -⟩ := pure_inv h; rfl

theorem combine_start {lit : Slice} {sp : Span} {o : Slice × Span} (h : combineAdjacentDotAndLit E lit sp s = .ok o s') :
    o.2.start = sp.start := by
  unfold combineAdjacentDotAndLit at h
  rw [bind_budget] at h
  exact combineLoop_start _ h

theorem literalValue_start {lit : Slice} {sp : Span} {v : Value} (h : literalValue E lit sp s = .ok v s') (he : s'.errors = []) :
    v.start = sp.start ∧ Scal v := by
  unfold literalValue at h
  generalize parseLiteral E.ovf lit.text sp = pl at h
  split at h
  · obtain ⟨rfl, -⟩ := pure_inv h; exact ⟨rfl, by simp [Scal]⟩
  · obtain ⟨rfl, -⟩ := pure_inv h; exact ⟨rfl, by simp [Scal]⟩
  · obtain ⟨rfl, -⟩ := pure_inv h; exact ⟨rfl, by simp [Scal]⟩
  · obtain ⟨rfl, -⟩ := pure_inv h; exact ⟨rfl, by simp [Scal]⟩
  · unfold tryToParseTimePart at h
    rw [bind_peek] at h
    generalize (pk E s).ty = ty at h
    split at h
    · rw [bind_next] at h
      obtain ⟨l1, s1, -, h⟩ := bind_inv h
      obtain ⟨⟨l2, sp2⟩, s2, -, h⟩ := bind_inv h
      dsimp only at h
      unfold timePart at h
      split at h
      · exact absurd he (bind_error_dirty h (fun _ => by unfold concatStrs; dirty))
      · obtain ⟨l3, s4, -, h⟩ := bind_inv h
        dsimp only at h
        generalize parseTimeAndOffset _ sp2 = pt at h
        split at h
        · obtain ⟨rfl, -⟩ := pure_inv h; exact ⟨rfl, by simp [Scal]⟩
        · exact absurd he (bind_error_dirty h (fun _ => by dirty))
        · cases h
    · obtain ⟨rfl, -⟩ := pure_inv h; exact ⟨rfl, by simp [Scal]⟩
  · refine absurd he (bind_error_dirty h (fun _ => ?_))
    unfold tryCombineTimePart literal concatStrs
    dirty
    all_goals exact (quiet_combine _ _).dirty
  · exact absurd he (bind_error_dirty h (fun _ => by dirty))
  · cases h

theorem EntRun.scalar (hE : EnvEof E) {v : Value} (h0 : Srt s) (hs : Scal v) (ha : Adv s.adv s') (hst : s'.storage = s.storage) (hv : v.start = (pk E s).start)
    (hn : (pk E s).ty ≠ .eof) : EntRun E s s' v := by
  refine ⟨Mv.same ha (by rw [hst, adv_storage]), ?_, hv, hn, fun c hc => .inl ?_⟩
  · rintro l b e ⟨arr, x, ha, -⟩
    cases ha with
    | here => exact absurd rfl (hs.2 _)
    | inArray _ _ => exact absurd rfl (hs.2 _)
    | inTable _ _ => exact absurd rfl (hs.1 _)
  · rw [hv]
    rw [hst] at hc
    exact h0.before hE hn c hc

theorem parseValue_ent (hE : EnvEof E) : ∀ (d level : Nat), EntElem E (parseValue E d level) := by
  intro d
  induction d with
  | zero => intro level s v s' _ h; cases h
  | succ d ih =>
    intro level s v s' h0 h he
    unfold parseValue at h
    rw [bind_peek] at h
    generalize hty : (pk E s).ty = ty at h
    split at h
    · have hst : s'.storage = s.storage := by
        refine Calm.out (m := parseStringValue E _ >>= _) (Calm.bind ?_ fun _ => calm_pure _) _ _ _ h
        unfold parseStringValue getString; calm
      obtain ⟨w, s1, h1, h⟩ := bind_inv h
      obtain ⟨h2, rfl⟩ := pure_inv h
      cases h2
      unfold parseStringValue at h1
      rw [bind_next] at h1
      have ha : Adv s.adv s1 := by
        refine Moves.out (m := getString E _ >>= _) ?_ _ _ _ h1
        unfold getString; moves
      obtain ⟨str, s2, -, h1⟩ := bind_inv h1
      obtain ⟨rfl, -⟩ := pure_inv h1
      exact EntRun.scalar hE h0 (by simp [Scal]) ha hst rfl (by rw [hty]; simp)
    · have hst : s'.storage = s.storage := by
        refine Calm.out (m := parseLiteralValue E _ >>= _) (Calm.bind ?_ fun _ => calm_pure _) _ _ _ h
        exact calm_parseLiteralValue _
      obtain ⟨w, s1, h1, h⟩ := bind_inv h
      obtain ⟨h2, rfl⟩ := pure_inv h
      cases h2
      unfold parseLiteralValue at h1
      rw [bind_next] at h1
      obtain ⟨l1, s2, h2, h1⟩ := bind_inv h1
      obtain ⟨⟨l2, sp2⟩, s3, h3, h1⟩ := bind_inv h1
      have e1 := combine_start h3
      have ha : Adv s.adv s1 := ((moves_lift _).out _ _ _ h2).trans (((moves_combine _ _).out _ _ _ h3).trans ((moves_literalValue _ _).out _ _ _ h1))
      dsimp only at h1 e1
      obtain ⟨e2, e3⟩ := literalValue_start h1 he
      exact EntRun.scalar hE h0 e3 ha hst (by rw [e2, e1]; rfl) (by rw [hty]; simp)
    · unfold parseDotValue at h
      rw [bind_next] at h
      refine absurd he (bind_error_dirty h (fun _ => ?_))
      unfold literal extendStrFront tokenFmtStrAndSpan tokenFmtStr tokenSpan
      dirty
      exact (quiet_combine _ _).dirty
    · exact parseArray_ent hE (dirty_parseValue _ _) (ih _) hty h0 h he
    · exact parseTable_ent hE (dirty_parseValue _ _) (ih _) hty h0 h he
    · obtain ⟨f, s1, -, h⟩ := bind_inv h
      obtain ⟨h, -⟩ := pure_inv h
      cases h

end Verif.Toml
