import Verif.Toml.AssocKindRoot
import Verif.Spec.AssocKind

/-! # Comments: those that are above something -/

namespace Verif.Toml
open Verif Verif.Spec.Toml

variable {α β : Type} {E : Env} {s s' s1 s2 : PS} {W W' : Nat → Prop}

/-- A comment on its own line is on each line between. -/
def Covered (st : List AssocComment) (lo hi : Nat) : Prop :=
  ∀ j, lo < j → j < hi → ∃ x ∈ st.map lk, x.2.line = j ∧ x.1 = false

/-- Each comment that is above something is above a line of `W`, with comments only in between. -/
def AboveOk (W : Nat → Prop) (st : List AssocComment) : Prop :=
  ∀ c ∈ st, c.pos = .above → ∃ l, W l ∧ c.comment.span.start.line < l ∧ Covered st c.comment.span.start.line l

theorem AboveOk.mono {st : List AssocComment} (h : AboveOk W st) (hw : ∀ l, W l → W' l) : AboveOk W' st := by
  intro c hc hp
  obtain ⟨l, h1, h2⟩ := h c hc hp
  exact ⟨l, hw l h1, h2⟩

theorem Covered.mono {st st' : List AssocComment} {lo hi : Nat} (h : Covered st lo hi) (hs : ∀ x ∈ st.map lk, x ∈ st'.map lk) :
    Covered st' lo hi := by
  intro j h1 h2
  obtain ⟨x, hx, h3⟩ := h j h1 h2
  exact ⟨x, hs x hx, h3⟩

theorem AboveOk.add {st : List AssocComment} (h : AboveOk W st) {c : AssocComment} (hc : c.pos ≠ .above) : AboveOk W (st ++ [c]) := by
  intro d hd hp
  rcases List.mem_append.1 hd with hd | hd
  · obtain ⟨l, h1, h2, h3⟩ := h d hd hp
    exact ⟨l, h1, h2, h3.mono (fun x hx => by rw [List.map_append]; exact List.mem_append_left _ hx)⟩
  · rw [List.mem_singleton.1 hd] at hp
    exact absurd hp hc

theorem markAboveLoop_above {level : Nat} : ∀ (cs : List AssocComment) (line i : Nat),
    ∀ c ∈ (markAboveLoop level cs line i).1, c.pos = .above → c ∈ cs ∨ (c.comment.span.start.line < line ∧ Covered cs c.comment.span.start.line line) := by
  intro cs
  induction cs with
  | nil => intro line i c hc; cases hc
  | cons d cs ih =>
    intro line i c hc hp
    unfold markAboveLoop at hc
    split at hc
    · rename_i hd
      rcases List.mem_cons.1 hc with rfl | hc
      · right
        dsimp only
        refine ⟨by omega, fun j h1 h2 => ?_⟩
        omega
      · rcases ih (line - 1) (i + 1) c hc hp with h | ⟨h1, h2⟩
        · exact .inl (by simp [h])
        · right
          refine ⟨by omega, fun j h3 h4 => ?_⟩
          by_cases hj : j = line - 1
          · exact ⟨lk d, by simp, by simp [lk]; omega, by simp [lk, hd.2]⟩
          · obtain ⟨x, hx, h5⟩ := h2 j h3 (by omega)
            exact ⟨x, by rw [List.map_cons]; exact List.mem_cons_of_mem _ hx, h5⟩
    · exact .inl hc

theorem AboveOk.markAbove (h : AboveOk W s.storage) {line level : Nat} {a : CommentRange} (hl : W line)
    (hr : markCommentsAbove line level s = .ok a s') : AboveOk W s'.storage := by
  unfold markCommentsAbove at hr
  cases hr
  have hk := lk_markAboveLoop (level := level) s.storage.reverse line 0
  have cov : ∀ {lo hi : Nat}, Covered s.storage lo hi → Covered (markAboveLoop level s.storage.reverse line 0).1.reverse lo hi := by
    intro lo hi hc
    refine hc.mono fun x hx => ?_
    rw [List.map_reverse, hk, List.map_reverse, List.reverse_reverse]
    exact hx
  intro c hc hp
  rcases markAboveLoop_above _ _ _ c (by simpa using hc) hp with h1 | ⟨h1, h2⟩
  · obtain ⟨l, e1, e2, e3⟩ := h c (by simpa using h1) hp
    exact ⟨l, e1, e2, cov e3⟩
  · exact ⟨line, hl, h1, cov (h2.mono (fun x hx => by rw [List.map_reverse, List.mem_reverse] at hx; exact hx))⟩

theorem AboveOk.markContained (h : AboveOk W s.storage) {r : CommentRange} {level : Nat} {a : Unit}
    (hr : markContainedComments r level s = .ok a s') : AboveOk W s'.storage := by
  unfold markContainedComments at hr
  split at hr
  · cases hr
    have hlk : ∀ l : List AssocComment, (l.map (AssocComment.raise level)).map lk = l.map lk := by
      intro l
      rw [List.map_map]
      apply List.map_congr_left
      intro c _
      simp only [Function.comp, AssocComment.raise]
      split <;> rfl
    have he : ∀ c ∈ s.storage.take r.start ++ ((s.storage.drop r.start).take r.len).map (AssocComment.raise level) ++
        s.storage.drop (r.start + r.len), ∃ d ∈ s.storage, c.pos = d.pos ∧ c.comment = d.comment := by
      intro c hc
      rcases List.mem_append.1 hc with hc | hc
      · rcases List.mem_append.1 hc with hc | hc
        · exact ⟨c, List.mem_of_mem_take hc, rfl, rfl⟩
        · obtain ⟨d, hd, rfl⟩ := List.mem_map.1 hc
          refine ⟨d, List.mem_of_mem_drop (List.mem_of_mem_take hd), ?_⟩
          unfold AssocComment.raise
          split <;> exact ⟨rfl, rfl⟩
      · exact ⟨c, List.mem_of_mem_drop hc, rfl, rfl⟩
    intro c hc hp
    obtain ⟨d, hd, e1, e2⟩ := he c hc
    obtain ⟨l, f1, f2, f3⟩ := h d hd (by rw [← e1]; exact hp)
    refine ⟨l, f1, by rw [e2]; exact f2, ?_⟩
    rw [e2]
    refine f3.mono fun x hx => ?_
    simp only [List.map_append, hlk]
    rw [← List.map_append, ← List.map_append, ← List.drop_drop, List.append_assoc, List.take_append_drop, List.take_append_drop]
    exact hx
  · cases hr

theorem AboveOk.lineEnd {r a : CommentRange} (h : AboveOk W s.storage) (hr : lineEndComment E r s = .ok a s') : AboveOk W s'.storage := by
  unfold lineEndComment at hr
  obtain ⟨o, s1, h1, h'⟩ := bind_inv hr
  rcases eatComment_run h1 with ⟨rfl, rfl⟩ | ⟨c, rfl, -, rfl, -⟩
  · obtain ⟨rfl, rfl⟩ := pure_inv h'
    exact h
  · dsimp only at h'
    obtain ⟨rfl, -⟩ := addComment_storage h'
    exact AboveOk.add (by rw [adv_storage]; exact h) (by simp)

theorem AboveOk.contained (hE : EnvEof E) : ∀ n {r a : CommentRange} {s : PS}, AboveOk W s.storage →
    containedComments E n r s = .ok a s' → AboveOk W s'.storage := by
  intro n
  induction n with
  | zero => intro r a s _ h; cases h
  | succ n ih =>
    intro r a s hA h
    unfold containedComments at h
    obtain ⟨o, s1, h1, h⟩ := bind_inv h
    unfold eatCommentAndNewlines at h1
    rw [bind_budget] at h1
    obtain ⟨e1, -⟩ := eatLoop_run hE _ h1
    clear h1
    split at h
    · obtain ⟨r1, s2, h2, h⟩ := bind_inv h
      obtain ⟨rfl, -⟩ := addComment_storage h2
      exact ih (AboveOk.add (by rw [e1]; exact hA) (by simp)) h
    · obtain ⟨rfl, rfl⟩ := pure_inv h
      rw [e1]; exact hA

/-! ## Values -/

/-- Comments that `elem` marks are above entries of the value. -/
def AboveElem (elem : M (Except Error Value)) : Prop :=
  ∀ W s v s', AboveOk W s.storage → elem s = .ok (.ok v) s' → s'.errors = [] → AboveOk (fun l => W l ∨ EntryOn v l) s'.storage

/-- The lines of the entries of an array. -/
def EL (vs : List InlineArrayValue) (l : Nat) : Prop := ∃ x ∈ vs, x.val.start.line = l ∨ EntryOn x.val l

theorem EL.array {vs : List InlineArrayValue} {l : Nat} (h : EL vs l) {c : CommentRange} {p : Pos} {e : End} :
    EntryOn (.inlineArray ⟨c, p, vs, e⟩) l := by
  obtain ⟨x, hx, h | ⟨arr, y, h1, h2, h3⟩⟩ := h
  · exact ⟨_, x, .here, hx, h⟩
  · exact ⟨arr, y, .inArray hx h1, h2, h3⟩

theorem EL.append {vs ws : List InlineArrayValue} {l : Nat} (h : EL vs l) : EL (vs ++ ws) l := by
  obtain ⟨x, hx, h⟩ := h
  exact ⟨x, List.mem_append_left _ hx, h⟩

/-- The lines of the entries of arrays in an inline table. -/
def TL (as : List InlineTableAssignment) (l : Nat) : Prop := ∃ x ∈ as, EntryOn x.assignment.val l

theorem TL.append {vs ws : List InlineTableAssignment} {l : Nat} (h : TL vs l) : TL (vs ++ ws) l := by
  obtain ⟨x, hx, h⟩ := h
  exact ⟨x, List.mem_append_left _ hx, h⟩

/-- The outcome of a round. -/
def ARound {σ : Type} (P : σ → Prop) : Round σ → Prop
  | .return _ => True
  | .continue st => P st
  | .break st => P st

theorem loop_above {σ : Type} {round : σ → M (Round σ)} {P : σ → PS → Prop} (hd : ∀ st, Dirty (round st))
    (hr : ∀ {st s r s'}, P st s → round st s = .ok r s' → s'.errors = [] → ARound (P · s') r) :
    ∀ k {st s r}, P st s → loopM round k st s = .ok (.ok r) s' → s'.errors = [] → P r s' := by
  intro k
  induction k with
  | zero => intro st s r _ h; cases h
  | succ k ih =>
    intro st s r hP h he
    unfold loopM at h
    obtain ⟨rd, s1, h1, h2, he1⟩ := bind_clean h he (by
      dirty
      all_goals exact dirty_loopM hd _ _)
    have := hr hP h1 he1
    clear h1 h
    split at h2
    · exact ih this h2 he
    · obtain ⟨h3, rfl⟩ := pure_inv h2
      cases h3
      exact this
    · obtain ⟨h3, -⟩ := pure_inv h2
      cases h3

theorem arrayAfterValue_above (hE : EnvEof E) {level : Nat} {st : ArrSt} {v : Value} {r : Round ArrSt}
    (hA : AboveOk (fun l => (W l ∨ EL st.values l) ∨ EntryOn v l) s.storage)
    (h : arrayAfterValue E level st v s = .ok r s') (he : s'.errors = []) :
    ARound (fun st => AboveOk (fun l => W l ∨ EL st.values l) s'.storage) r := by
  unfold arrayAfterValue at h
  obtain ⟨vc, s1, h1, h⟩ := bind_inv h
  have k0 : ∀ x : InlineArrayValue, x.val = v → AboveOk (fun l => W l ∨ EL (st.values ++ [x]) l) s.storage := by
    rintro x rfl
    refine hA.mono fun l hl => ?_
    rcases hl with (hl | hl) | hl
    · exact .inl hl
    · exact .inr hl.append
    · exact .inr ⟨x, by simp, .inr hl⟩
  have k1 : ∀ x : InlineArrayValue, x.val = v → AboveOk (fun l => W l ∨ EL (st.values ++ [x]) l) s1.storage := by
    intro x hx
    exact (k0 x hx).markAbove (.inr ⟨x, by simp, .inl (by rw [hx])⟩) h1
  obtain ⟨vc', s2, h2, h⟩ := bind_inv h
  rw [bind_budget] at h
  obtain ⟨cm, s3, h3, h⟩ := bind_inv h
  have k3 := fun x hx => AboveOk.contained hE _ ((k1 x hx).lineEnd h2) h3
  rw [bind_peek] at h
  split at h
  · rename_i hc
    rw [bind_nextId] at h
    obtain ⟨vc3, hvc, h⟩ := bind_lift_inv h
    obtain ⟨_, s4, h4, h⟩ := bind_inv h
    have k4 := fun x hx => (k3 x hx).markContained h4
    rw [bind_next] at h
    obtain ⟨vc5, s5, h5, h⟩ := bind_inv h
    obtain ⟨rfl, rfl⟩ := pure_inv h
    exact AboveOk.lineEnd (s := s4.adv) (by rw [adv_storage]; exact k4 _ rfl) h5
  · split at h
    · obtain ⟨rfl, rfl⟩ := pure_inv h
      exact k3 _ rfl
    · exact absurd he (bind_error_dirty h (fun _ => by dirty))

theorem arrayRound_above (hE : EnvEof E) {level : Nat} {elem : M (Except Error Value)} {st : ArrSt}
    {r : Round ArrSt} (hd : Dirty elem) (hk : AboveElem elem) (hA : AboveOk (fun l => W l ∨ EL st.values l) s.storage)
    (h : arrayRound E elem level st s = .ok r s') (he : s'.errors = []) :
    ARound (fun st => AboveOk (fun l => W l ∨ EL st.values l) s'.storage) r := by
  unfold arrayRound at h
  rw [bind_budget] at h
  obtain ⟨cm, s1, h1, h⟩ := bind_inv h
  have k1 := AboveOk.contained hE _ hA h1
  dsimp only at h
  rw [bind_peek] at h
  split at h
  · obtain ⟨rfl, rfl⟩ := pure_inv h
    exact k1
  · obtain ⟨rv, s2, h2, h, he2⟩ := bind_clean h he (by
      dirty
      all_goals first
        | exact dirty_arrayAfterValue _ _ _ | exact dirty_arrayRecover _)
    split at h
    · exact arrayAfterValue_above (st := { st with comments := cm }) hE (hk _ _ _ _ k1 h2 he2) h he
    · obtain ⟨rfl, -⟩ := pure_inv h
      trivial
    · exact absurd he (bind_error_dirty h (fun _ => dirty_arrayRecover _))

theorem parseArray_above (hE : EnvEof E) {level : Nat} {elem : M (Except Error Value)} (hd : Dirty elem)
    (hk : AboveElem elem) {lp : Pos} {v : Value} (hA : AboveOk W s.storage) (h : parseArray E elem level lp s = .ok (.ok v) s')
    (he : s'.errors = []) : AboveOk (fun l => W l ∨ EntryOn v l) s'.storage := by
  unfold parseArray at h
  rw [bind_next] at h
  split at h
  · obtain ⟨_, s1, -, h⟩ := bind_inv h
    obtain ⟨h, -⟩ := pure_inv h
    cases h
  · rw [bind_nextId] at h
    obtain ⟨cm, s2, h2, h⟩ := bind_inv h
    have k2 := AboveOk.lineEnd (s := s.adv) (by rw [adv_storage]; exact hA) h2
    rw [bind_budget] at h
    obtain ⟨rl, s3, h3, h, he3⟩ := bind_clean h he (by
      dirty
      all_goals exact dirty_arrayClose _)
    split at h
    · obtain ⟨h, -⟩ := pure_inv h; cases h
    · have k3 := loop_above (P := fun (st : ArrSt) s => AboveOk (fun l => W l ∨ EL st.values l) s.storage) (dirty_arrayRound hd _)
        (fun hP hr he => arrayRound_above hE hd hk hP hr he) _ (k2.mono fun _ h => .inl h) h3 he3
      obtain ⟨rp, s4, h4, h, he4⟩ := bind_clean h he (by dirty)
      unfold arrayClose at h4
      rw [bind_peek] at h4
      split at h4
      · rename_i hr
        rw [bind_next] at h4
        obtain ⟨rfl, rfl⟩ := pure_inv h4
        rw [bind_nextId] at h
        obtain ⟨cm2, -, h⟩ := bind_lift_inv h
        obtain ⟨_, s5, h5, h⟩ := bind_inv h
        obtain ⟨h6, rfl⟩ := pure_inv h
        cases h6
        refine (AboveOk.markContained (s := s3.adv) (by rw [adv_storage]; exact k3) h5).mono fun l hl => ?_
        rcases hl with hl | hl
        · exact .inl hl
        · exact .inr hl.array
      · obtain ⟨_, s5, -, h4⟩ := bind_inv h4
        dsimp only at h4
        rw [bind_peekPrev] at h4
        exact absurd he4 (bind_error_dirty h4 (fun _ => by dirty))

theorem tableRound_above {elem : M (Except Error Value)} {st : TabSt}
    {r : Round TabSt} (hd : Dirty elem) (hk : AboveElem elem) (hA : AboveOk (fun l => W l ∨ TL st.assignments l) s.storage)
    (h : tableRound E elem st s = .ok r s') (he : s'.errors = []) :
    ARound (fun st => AboveOk (fun l => W l ∨ TL st.assignments l) s'.storage) r := by
  unfold tableRound at h
  rw [bind_peek] at h
  split at h
  · unfold trailingComma at h
    generalize hc : st.comma = c at h
    split at h
    · exact absurd he (bind_error_dirty h (fun _ => by dirty))
    · obtain ⟨rfl, rfl⟩ := pure_inv h
      exact hA
  · obtain ⟨kr, s1, h1, h, he1⟩ := bind_clean h he (by
      dirty
      all_goals first
        | exact dirty_tableAfterKey hd _ _ | exact dirty_tableRecover _)
    have k1 : AboveOk (fun l => W l ∨ TL st.assignments l) s1.storage := by rw [calm_parseKey.out _ _ _ h1]; exact hA
    split at h
    · rename_i key
      unfold tableAfterKey at h
      rw [bind_peek] at h
      split at h
      · rename_i heq
        rw [bind_next] at h
        obtain ⟨rv, s3, h3, h, he3⟩ := bind_clean h he (by
          dirty
          all_goals first
            | exact dirty_tableAfterValue _ _ | exact dirty_tableRecover _)
        split at h
        · rename_i val
          have k3 := hk _ _ _ _ (by rw [adv_storage]; exact k1) h3 he3
          have k4 : ∀ x : InlineTableAssignment, x.assignment.val = val →
              AboveOk (fun l => W l ∨ TL (st.assignments ++ [x]) l) s3.storage := by
            rintro x rfl
            refine k3.mono fun l hl => ?_
            rcases hl with (hl | hl) | hl
            · exact .inl hl
            · exact .inr hl.append
            · exact .inr ⟨x, by simp, hl⟩
          unfold tableAfterValue at h
          rw [bind_peek] at h
          split at h
          · rename_i hc
            rw [bind_next] at h
            obtain ⟨rfl, rfl⟩ := pure_inv h
            show AboveOk _ s3.adv.storage
            rw [adv_storage]
            exact k4 _ rfl
          · split at h
            · obtain ⟨rfl, rfl⟩ := pure_inv h
              exact k4 _ rfl
            · exact absurd he (bind_error_dirty h (fun _ => by dirty))
        · obtain ⟨rfl, -⟩ := pure_inv h
          trivial
        · exact absurd he (bind_error_dirty h (fun _ => dirty_tableRecover _))
      · obtain ⟨f, s2, -, h⟩ := bind_inv h
        exact absurd he (bind_error_dirty h (fun _ => dirty_tableRecover _))
    · obtain ⟨rfl, rfl⟩ := pure_inv h
      exact k1
    · exact absurd he (bind_error_dirty h (fun _ => dirty_tableRecover _))

theorem parseTable_above {level : Nat} {elem : M (Except Error Value)} (hd : Dirty elem) (hk : AboveElem elem) {lp : Pos}
    {v : Value} (hA : AboveOk W s.storage) (h : parseTable E elem level lp s = .ok (.ok v) s')
    (he : s'.errors = []) : AboveOk (fun l => W l ∨ EntryOn v l) s'.storage := by
  unfold parseTable at h
  rw [bind_next] at h
  split at h
  · obtain ⟨_, s1, -, h⟩ := bind_inv h
    obtain ⟨h, -⟩ := pure_inv h
    cases h
  · rw [bind_budget] at h
    obtain ⟨rl, s3, h3, h, he3⟩ := bind_clean h he (by
      dirty
      all_goals exact dirty_tableClose _)
    split at h
    · obtain ⟨h, -⟩ := pure_inv h; cases h
    · have k3 := loop_above (P := fun (st : TabSt) s => AboveOk (fun l => W l ∨ TL st.assignments l) s.storage) (dirty_tableRound hd)
        (fun hP hr he => tableRound_above hd hk hP hr he) _ (by rw [adv_storage]; exact hA.mono fun _ h => .inl h) h3 he3
      obtain ⟨rp, s4, h4, h, he4⟩ := bind_clean h he (by dirty)
      unfold tableClose at h4
      rw [bind_peek] at h4
      split at h4
      · rename_i hr
        rw [bind_next] at h4
        obtain ⟨rfl, rfl⟩ := pure_inv h4
        obtain ⟨h6, rfl⟩ := pure_inv h
        cases h6
        rw [adv_storage]
        refine k3.mono fun l hl => ?_
        rcases hl with hl | ⟨x, hx, arr, y, e1, e2, e3⟩
        · exact .inl hl
        · exact .inr ⟨arr, y, .inTable hx e1, e2, e3⟩
      · obtain ⟨_, s5, -, h4⟩ := bind_inv h4
        exact absurd he4 (bind_error_dirty h4 (fun _ => by dirty))

theorem parseValue_above (hE : EnvEof E) : ∀ (d level : Nat), AboveElem (parseValue E d level) := by
  intro d
  induction d with
  | zero => intro level W s v s' _ h; cases h
  | succ d ih =>
    intro level W s v s' hA h he
    unfold parseValue at h
    rw [bind_peek] at h
    generalize hty : (pk E s).ty = ty at h
    split at h
    · have : s'.storage = s.storage := by
        refine Calm.out (m := parseStringValue E _ >>= _) (Calm.bind ?_ fun _ => calm_pure _) _ _ _ h
        unfold parseStringValue getString; calm
      rw [this]
      exact hA.mono fun _ h => .inl h
    · have : s'.storage = s.storage := by
        refine Calm.out (m := parseLiteralValue E _ >>= _) (Calm.bind ?_ fun _ => calm_pure _) _ _ _ h
        exact calm_parseLiteralValue _
      rw [this]
      exact hA.mono fun _ h => .inl h
    · unfold parseDotValue at h
      rw [bind_next] at h
      refine absurd he (bind_error_dirty h (fun _ => ?_))
      unfold literal extendStrFront tokenFmtStrAndSpan tokenFmtStr tokenSpan
      dirty
      exact (quiet_combine _ _).dirty
    · exact parseArray_above hE (dirty_parseValue _ _) (ih _) hA h he
    · exact parseTable_above (dirty_parseValue _ _) (ih _) hA h he
    · obtain ⟨f, s1, -, h⟩ := bind_inv h
      obtain ⟨h, -⟩ := pure_inv h
      cases h

end Verif.Toml
