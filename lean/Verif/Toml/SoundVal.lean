import Verif.Toml.SoundLit

/-! # Runs without diagnostics follow the grammar: values -/

namespace Verif.Toml
open Verif Verif.Spec.Toml

variable {α β σ : Type} {E : Env} {s s' s1 s2 : PS} {pre : Str}

/-! ## Computations that do not move the cursor -/

/-- The computation does not move the cursor. -/
structure Still (m : M α) : Prop where
  out : ∀ s a s', m s = .ok a s' → s'.rest = s.rest

theorem Still.bind {m : M α} {f : α → M β} (hm : Still m) (hf : ∀ a, Still (f a)) : Still (m >>= f) := by
  refine ⟨fun s b s' h => ?_⟩
  obtain ⟨a, s1, h1, h2⟩ := bind_inv h
  rw [(hf a).out _ _ _ h2, hm.out _ _ _ h1]

theorem still_pure (a : α) : Still (pure a : M α) :=
  ⟨fun s b s' h => by obtain ⟨-, rfl⟩ := pure_inv h; rfl⟩
theorem still_lift (o : Option α) : Still (M.lift o) :=
  ⟨fun s b s' h => by obtain ⟨-, rfl⟩ := lift_inv h; rfl⟩
theorem still_store (c : AssocComment) : Still (storeComment c) := ⟨fun s b s' h => by cases h; rfl⟩
theorem still_nextId : Still nextCommentId := ⟨fun s b s' h => by cases h; rfl⟩
theorem still_markAbove (a b : Nat) : Still (markCommentsAbove a b) := ⟨fun s b s' h => by cases h; rfl⟩
theorem still_markContained (r : CommentRange) (l : Nat) : Still (markContainedComments r l) := by
  refine ⟨fun s b s' h => ?_⟩
  unfold markContainedComments at h
  split at h
  · cases h; rfl
  · cases h
theorem still_addComment (r : CommentRange) (c : Comment) (p : AssocPos) : Still (addComment r c p) := by
  unfold addComment
  exact (still_store _).bind fun _ => still_lift _
theorem still_addComments (p : AssocPos) : ∀ (cs : List Comment) (r : CommentRange),
    Still (addComments r p cs) := by
  intro cs
  induction cs with
  | nil => intro r; exact still_pure _
  | cons c cs ih => intro r; exact (still_addComment r c p).bind ih
theorem still_storeComments (cs : List Comment) (p : AssocPos) (l : Nat) :
    Still (storeComments cs p l) := by
  unfold storeComments
  exact still_nextId.bind fun _ => still_addComments _ _ _
theorem still_findAssoc (cs : List Comment) (l : Nat) : Still (findAssociatedComments cs l) := by
  unfold findAssociatedComments
  exact still_lift _
theorem still_loose (r : RootSt) (cs : List Comment) : Still (looseComments r cs) := by
  unfold looseComments
  split
  · exact (still_addComments _ _ _).bind fun _ => still_pure _
  · exact (still_addComments _ _ _).bind fun _ => still_pure _
  · exact still_pure _

theorem Cx.of_rest (hC : Cx E s) (h : s'.rest = s.rest) : Cx E s' := by
  obtain ⟨pre, h1, h2⟩ := hC
  exact ⟨pre, ⟨by rw [h]; exact h1, by rw [h]; exact h2⟩⟩

theorem Cx.still {m : M α} {a : α} (hC : Cx E s) (hm : Still m) (h : m s = .ok a s') : Went E s [] s' := by
  have hr := hm.out _ _ _ h
  exact ⟨by simp [V, hr], hC.of_rest hr⟩

/-! ## Line breaks and comments -/

/-- The tokens do not start with a line break or a comment. -/
def NoGap (r : List Tok) : Prop := ∀ v p r', r = (v, p) :: r' → v ≠ .newline ∧ ∀ x, v ≠ .comment x

theorem _root_.Verif.Spec.Toml.Gap.append {a b : List Tok} (ha : Gap a) (hb : Gap b) : Gap (a ++ b) := by
  intro t ht
  rcases List.mem_append.1 ht with h | h
  · exact ha t h
  · exact hb t h

theorem gap_nil : Gap [] := by simp [Gap]

theorem gap_comment (x : Str) (p : Pos) : Gap [(.comment x, p)] := by simp [Gap]
theorem gap_newline (p : Pos) : Gap [(.newline, p)] := by simp [Gap]

theorem getComment_inv {id : Nat} {p : Pos} {c : Comment} (h : getComment E id p s = .ok c s') :
    ∃ w, E.literals[id]? = some w ∧ s' = s := by
  obtain ⟨h1, h2⟩ := lift_inv h
  obtain ⟨w, hw, -⟩ := Option.map_eq_some_iff.1 h1
  exact ⟨w, hw, h2⟩

theorem eatComment_went (hE : EnvEof E) (hC : Cx E s) {o : Option Comment}
    (h : eatComment E s = .ok o s') : ∃ g, Gap g ∧ Went E s g s' := by
  unfold eatComment at h
  rw [bind_peek] at h
  generalize hty : (pk E s).ty = ty at h
  split at h
  · rename_i id
    rw [bind_next] at h
    obtain ⟨c, s1, h1, h2⟩ := bind_inv h
    obtain ⟨w, hw, rfl⟩ := getComment_inv h1
    obtain ⟨-, rfl⟩ := pure_inv h2
    have := hC.step hE (by rw [hty]; simp)
    rw [vw_comment hty hw] at this
    exact ⟨_, gap_comment _ _, this⟩
  · obtain ⟨-, rfl⟩ := pure_inv h
    exact ⟨[], gap_nil, .refl hC⟩

theorem eatLoop_went (hE : EnvEof E) : ∀ (n : Nat) {s : PS} {o : Option Comment}, Cx E s →
    eatCommentAndNewlinesLoop E n s = .ok o s' →
    ∃ g, Gap g ∧ Went E s g s' ∧ (o = none → NoGap (V E s')) := by
  intro n
  induction n with
  | zero => intro s o _ h; cases h
  | succ n ih =>
    intro s o hC h
    unfold eatCommentAndNewlinesLoop at h
    rw [bind_peek] at h
    generalize hty : (pk E s).ty = ty at h
    split at h
    · rename_i id
      rw [bind_next] at h
      obtain ⟨c, s1, h1, h2⟩ := bind_inv h
      obtain ⟨w, hw, rfl⟩ := getComment_inv h1
      obtain ⟨rfl, rfl⟩ := pure_inv h2
      have := hC.step hE (by rw [hty]; simp)
      rw [vw_comment hty hw] at this
      exact ⟨_, gap_comment _ _, this, by simp⟩
    · rw [bind_next] at h
      have hw := hC.step hE (by rw [hty]; simp)
      rw [vw_nl hty] at hw
      obtain ⟨g, g1, g2, g3⟩ := ih hw.cx h
      exact ⟨_, (gap_newline _).append g1, hw.trans g2, g3⟩
    · rename_i n1 n2
      obtain ⟨rfl, rfl⟩ := pure_inv h
      refine ⟨[], gap_nil, .refl hC, fun _ v p r hv => ?_⟩
      obtain ⟨h1, -⟩ := hC.view hv
      rw [hty] at h1
      constructor
      · rintro rfl; exact n2 h1
      · rintro x rfl
        obtain ⟨id, h1, -⟩ := h1
        exact n1 id h1

theorem contained_went (hE : EnvEof E) : ∀ (n : Nat) {s : PS} {r r' : CommentRange}, Cx E s →
    containedComments E n r s = .ok r' s' → ∃ g, Gap g ∧ Went E s g s' ∧ NoGap (V E s') := by
  intro n
  induction n with
  | zero => intro s r r' _ h; cases h
  | succ n ih =>
    intro s r r' hC h
    unfold containedComments at h
    obtain ⟨o, s1, h1, h2⟩ := bind_inv h
    unfold eatCommentAndNewlines at h1
    rw [bind_budget] at h1
    obtain ⟨g, a1, a2, a3⟩ := eatLoop_went hE _ hC h1
    clear h1
    split at h2
    · obtain ⟨r1, s2, h3, h4⟩ := bind_inv h2
      have hs := a2.cx.still (still_addComment _ _ _) h3
      obtain ⟨g', b1, b2, b3⟩ := ih hs.cx h4
      exact ⟨_, a1.append b1, by simpa using a2.trans (hs.trans b2), b3⟩
    · obtain ⟨-, rfl⟩ := pure_inv h2
      exact ⟨g, a1, a2, a3 rfl⟩

theorem lineEnd_went (hE : EnvEof E) (hC : Cx E s) {r r' : CommentRange}
    (h : lineEndComment E r s = .ok r' s') : ∃ g, Gap g ∧ Went E s g s' := by
  unfold lineEndComment at h
  obtain ⟨o, s1, h1, h2⟩ := bind_inv h
  obtain ⟨g, a1, a2⟩ := eatComment_went hE hC h1
  clear h1
  split at h2
  · have hs := a2.cx.still (still_addComment _ _ _) h2
    exact ⟨g, a1, by simpa using a2.trans hs⟩
  · obtain ⟨-, rfl⟩ := pure_inv h2
    exact ⟨g, a1, a2⟩

/-! ## What values say -/

theorem valuesOf_map (vs : List InlineArrayValue) : valuesOf vs = vs.map (fun v => valueOf v.val) := by
  induction vs with
  | nil => rfl
  | cons v vs ih => obtain ⟨c, v, p⟩ := v; simp [valuesOf, ih]

theorem pairsOf_map (as : List InlineTableAssignment) :
    pairsOf as = as.map (fun a => (keyNames a.assignment.key, valueOf a.assignment.val)) := by
  induction as with
  | nil => rfl
  | cons a as ih => obtain ⟨⟨k, p, v⟩, c⟩ := a; simp [pairsOf, ih]

/-- The outcome of parsing a value. -/
def ValSound (E : Env) (n : Nat) (s : PS) (r : Except Error Value) (s' : PS) : Prop :=
  match r with
  | .ok v => ∃ ts, Went E s ts s' ∧ Val n ts (valueOf v)
  | .error _ => True

/-- `elem` parses values with at most `n` brackets around a part. -/
def ElemSound (E : Env) (n : Nat) (elem : M (Except Error Value)) : Prop :=
  Dirty elem ∧ ∀ s r s', Cx E s → elem s = .ok r s' → s'.errors = [] → ValSound E n s r s'

/-! ## Arrays -/

/-- The outcome of a round of the loop over an array. -/
def ArrRound (E : Env) (n : Nat) (st : ArrSt) (s : PS) (r : Round ArrSt) (s' : PS) : Prop :=
  match r with
  | .return _ => True
  | .break st' => (∃ g, Gap g ∧ Went E s g s' ∧ st'.values = st.values) ∨
      ∃ g ts g' v w, Gap g ∧ Gap g' ∧ Went E s (g ++ ts ++ g') s' ∧ Val n ts (valueOf v) ∧
        w.val = v ∧ st'.values = st.values ++ [w]
  | .continue st' => ∃ g ts g' v w p g'', Gap g ∧ Gap g' ∧ Gap g'' ∧
      Went E s (g ++ ts ++ g' ++ (.punct ',', p) :: g'') s' ∧ Val n ts (valueOf v) ∧
        w.val = v ∧ st'.values = st.values ++ [w]

theorem arrayAfterValue_sound (hE : EnvOk E) {n level : Nat} {st : ArrSt} {v : Value} {r : Round ArrSt}
    {s0 : PS} {g ts : List Tok} (hg : Gap g) (hw : Went E s0 (g ++ ts) s) (hv : Val n ts (valueOf v))
    (h : arrayAfterValue E level st v s = .ok r s') (he : s'.errors = []) : ArrRound E n st s0 r s' := by
  unfold arrayAfterValue at h
  obtain ⟨vc, s1, h1, h⟩ := bind_inv h
  have w1 := hw.trans (hw.cx.still (still_markAbove _ _) h1)
  obtain ⟨vc', s2, h2, h⟩ := bind_inv h
  obtain ⟨g1, a1, a2⟩ := lineEnd_went hE w1.cx h2
  rw [bind_budget] at h
  obtain ⟨cm, s3, h3, h⟩ := bind_inv h
  obtain ⟨g2, b1, b2, b3⟩ := contained_went hE _ a2.cx h3
  rw [bind_peek] at h
  have w3 := w1.trans (a2.trans b2)
  split at h
  · rename_i hc
    rw [bind_nextId] at h
    obtain ⟨vc3, hvc, h⟩ := bind_lift_inv h
    obtain ⟨_, s4, h4, h⟩ := bind_inv h
    have hr := (still_markContained _ _).out _ _ _ h4
    have hpk : pk E s4 = pk E s3 := by unfold pk; rw [hr]
    have w4 := w3.trans (w3.cx.still (still_markContained _ _) h4)
    rw [bind_next] at h
    have w5 := w4.trans (w4.cx.step hE (by rw [hpk, hc]; simp))
    rw [vw_comma (by rw [hpk, hc])] at w5
    obtain ⟨vc5, s5, h5, h⟩ := bind_inv h
    obtain ⟨g3, c1, c2⟩ := lineEnd_went hE w5.cx h5
    obtain ⟨rfl, rfl⟩ := pure_inv h
    refine ⟨g, ts, g1 ++ g2, v, _, (pk E s4).start, g3, hg, a1.append b1, c1, ?_, hv, rfl, rfl⟩
    simpa using w5.trans c2
  · split at h
    · obtain ⟨rfl, rfl⟩ := pure_inv h
      right
      exact ⟨g, ts, g1 ++ g2, v, _, hg, a1.append b1, by simpa using w3, hv, rfl, rfl⟩
    · exact absurd he (bind_error_dirty h (fun _ => by dirty))

theorem arrayRound_sound (hE : EnvOk E) {n level : Nat} {elem : M (Except Error Value)} {st : ArrSt}
    {r : Round ArrSt} (hel : ElemSound E n elem) (hC : Cx E s)
    (h : arrayRound E elem level st s = .ok r s') (he : s'.errors = []) : ArrRound E n st s r s' := by
  unfold arrayRound at h
  rw [bind_budget] at h
  obtain ⟨cm, s1, h1, h⟩ := bind_inv h
  obtain ⟨g, a1, a2, a3⟩ := contained_went hE _ hC h1
  dsimp only at h
  rw [bind_peek] at h
  split at h
  · obtain ⟨rfl, rfl⟩ := pure_inv h
    exact .inl ⟨g, a1, a2, rfl⟩
  · obtain ⟨rv, s2, h2, h, he2⟩ := bind_clean h he (by
      dirty
      all_goals first
        | exact dirty_arrayAfterValue _ _ _ | exact dirty_arrayRecover _)
    have hv := hel.2 _ _ _ a2.cx h2 he2
    clear h2
    split at h
    · obtain ⟨ts, w, hv⟩ := hv
      exact arrayAfterValue_sound (st := { st with comments := cm }) hE a1 (a2.trans w) hv h he
    · obtain ⟨rfl, -⟩ := pure_inv h
      trivial
    · exact absurd he (bind_error_dirty h (fun _ => dirty_arrayRecover _))

/-- The outcome of the loop over an array. -/
theorem arrayLoop_sound (hE : EnvOk E) {n level : Nat} {elem : M (Except Error Value)}
    (hel : ElemSound E n elem) : ∀ (k : Nat) {st : ArrSt} {s : PS} {r : Except Error ArrSt}, Cx E s →
    loopM (arrayRound E elem level) k st s = .ok r s' → s'.errors = [] →
    match r with
    | .error _ => True
    | .ok st' => ∃ ts vs, Went E s ts s' ∧ st'.values = st.values ++ vs ∧
        ∀ g0 p, Gap g0 → ∃ es, (∀ e ∈ es, Gap e.before ∧ Gap e.after) ∧ (∀ e ∈ es, Val n e.toks e.val) ∧
          ArrayBody es (g0 ++ ts ++ [(.punct ']', p)]) ∧ es.map (·.val) = vs.map (fun v => valueOf v.val) := by
  intro k
  induction k with
  | zero => intro st s r _ h; cases h
  | succ k ih =>
    intro st s r hC h he
    unfold loopM at h
    obtain ⟨rd, s1, h1, h2, he1⟩ := bind_clean h he (by
      dirty
      all_goals exact dirty_loopM (dirty_arrayRound hel.1 _) _ _)
    have hr := arrayRound_sound hE hel hC h1 he1
    clear h1 h
    split at h2
    · obtain ⟨g, ts, g', v, w, p, g'', a1, a2, a3, a4, a5, a6, a7⟩ := hr
      have := ih a4.cx h2 he
      match r, this with
      | .error _, _ => trivial
      | .ok st', this =>
        obtain ⟨ts', vs, b1, b2, b3⟩ := this
        refine ⟨_, w :: vs, a4.trans b1, by rw [b2, a7]; simp, fun g0 q hg0 => ?_⟩
        obtain ⟨es, c1, c2, c3, c4⟩ := b3 g'' q a3
        refine ⟨⟨g0 ++ g, ts, g', valueOf v⟩ :: es, ?_, ?_, ?_, ?_⟩
        · intro e he
          rcases List.mem_cons.1 he with rfl | he
          · exact ⟨hg0.append a1, a2⟩
          · exact c1 e he
        · intro e he
          rcases List.mem_cons.1 he with rfl | he
          · exact a5
          · exact c2 e he
        · have := ArrayBody.more (e := ⟨g0 ++ g, ts, g', valueOf v⟩) (p := p) c3
          simpa using this
        · simp [c4, a6]
    · obtain ⟨rfl, rfl⟩ := pure_inv h2
      rcases hr with ⟨g, a1, a2, a3⟩ | ⟨g, ts, g', v, w, a1, a2, a3, a4, a5, a6⟩
      · refine ⟨g, [], a2, by simp [a3], fun g0 p hg0 => ⟨[], by simp, by simp, ?_, rfl⟩⟩
        exact .close (hg0.append a1)
      · refine ⟨_, [w], a3, a6, fun g0 p hg0 => ⟨[⟨g0 ++ g, ts, g', valueOf v⟩], ?_, ?_, ?_, ?_⟩⟩
        · simp [hg0.append a1, a2]
        · simp [a4]
        · have := ArrayBody.last (e := ⟨g0 ++ g, ts, g', valueOf v⟩) (p := p)
          simpa using this
        · simp [a5]
    · obtain ⟨rfl, rfl⟩ := pure_inv h2
      trivial

theorem parseArray_sound (hE : EnvOk E) {level : Nat} {elem : M (Except Error Value)}
    (hel : level < 100 → ElemSound E (99 - level) elem) (hC : Cx E s) (hty : (pk E s).ty = .squareLeft)
    {r : Except Error Value} (h : parseArray E elem level (pk E s).start s = .ok r s')
    (he : s'.errors = []) : ValSound E (100 - level) s r s' := by
  unfold parseArray at h
  rw [bind_next] at h
  have w1 := hC.step hE (by rw [hty]; simp)
  rw [vw_sl hty] at w1
  split at h
  · obtain ⟨_, s1, -, h⟩ := bind_inv h
    obtain ⟨rfl, -⟩ := pure_inv h
    trivial
  · rename_i hl
    have hl : level < 100 := by simpa [RECURSION_LIMIT] using hl
    have hel := hel hl
    rw [bind_nextId] at h
    obtain ⟨cm, s2, h2, h⟩ := bind_inv h
    obtain ⟨g, a1, a2⟩ := lineEnd_went hE w1.cx h2
    rw [bind_budget] at h
    obtain ⟨rl, s3, h3, h, he3⟩ := bind_clean h he (by
      dirty
      all_goals exact dirty_arrayClose _)
    have hlp := arrayLoop_sound hE hel _ a2.cx h3 he3
    clear h3
    split at h
    · obtain ⟨rfl, -⟩ := pure_inv h; trivial
    · obtain ⟨ts, vs, b1, b2, b3⟩ := hlp
      obtain ⟨rp, s4, h4, h, he4⟩ := bind_clean h he (by dirty)
      unfold arrayClose at h4
      rw [bind_peek] at h4
      split at h4
      · rename_i hr
        rw [bind_next] at h4
        obtain ⟨rfl, rfl⟩ := pure_inv h4
        have w4 := b1.cx.step hE (by rw [hr]; simp)
        rw [vw_sr hr] at w4
        rw [bind_nextId] at h
        obtain ⟨cm2, -, h⟩ := bind_lift_inv h
        obtain ⟨_, s5, h5, h⟩ := bind_inv h
        have w5 := w4.cx.still (still_markContained _ _) h5
        obtain ⟨rfl, rfl⟩ := pure_inv h
        obtain ⟨es, c1, c2, c3, c4⟩ := b3 g (pk E s3).start a1
        refine ⟨_, w1.trans (a2.trans (b1.trans (w4.trans w5))), ?_⟩
        have := Val.array (p := (pk E s).start) c1 c2 c3
        rw [show 100 - level = 99 - level + 1 by omega]
        rw [c4] at this
        simpa [valueOf, valuesOf_map, b2] using this
      · obtain ⟨_, s5, -, h4⟩ := bind_inv h4
        dsimp only at h4
        rw [bind_peekPrev] at h4
        exact absurd he4 (bind_error_dirty h4 (fun _ => by dirty))

/-! ## Inline tables -/

/-- The outcome of a round of the loop over an inline table. -/
def TabRound (E : Env) (n : Nat) (st : TabSt) (s : PS) (r : Round TabSt) (s' : PS) : Prop :=
  match r with
  | .return _ => True
  | .break st' => (st.comma = none ∧ Went E s [] s' ∧ st' = st) ∨
      ∃ (e : Entry) (w : InlineTableAssignment), KeyToks e.key e.names ∧ Val n e.toks e.val ∧ Went E s e.all s' ∧
        st'.assignments = st.assignments ++ [w] ∧
        (e.names, e.val) = (keyNames w.assignment.key, valueOf w.assignment.val)
  | .continue st' => ∃ (e : Entry) (w : InlineTableAssignment) (p : Pos), KeyToks e.key e.names ∧ Val n e.toks e.val ∧
        Went E s (e.all ++ [(.punct ',', p)]) s' ∧ st'.comma ≠ none ∧
        st'.assignments = st.assignments ++ [w] ∧
        (e.names, e.val) = (keyNames w.assignment.key, valueOf w.assignment.val)

theorem tableRound_sound (hE : EnvOk E) {n : Nat} {elem : M (Except Error Value)} {st : TabSt}
    {r : Round TabSt} (hel : ElemSound E n elem) (hC : Cx E s)
    (h : tableRound E elem st s = .ok r s') (he : s'.errors = []) : TabRound E n st s r s' := by
  unfold tableRound at h
  rw [bind_peek] at h
  split at h
  · unfold trailingComma at h
    generalize hc : st.comma = c at h
    split at h
    · exact absurd he (bind_error_dirty h (fun _ => by dirty))
    · obtain ⟨rfl, rfl⟩ := pure_inv h
      exact .inl ⟨hc, .refl hC, rfl⟩
  · obtain ⟨kr, s1, h1, h, he1⟩ := bind_clean h he (by
      dirty
      all_goals first
        | exact dirty_tableAfterKey hel.1 _ _ | exact dirty_tableRecover _)
    have hk := parseKey_sound hE hC h1 he1
    clear h1
    split at h
    · rename_i key
      obtain ⟨kt, ns, w1, k1, k2⟩ := hk
      unfold tableAfterKey at h
      rw [bind_peek] at h
      split at h
      · rename_i heq
        rw [bind_next] at h
        have w2 := w1.cx.step hE (by rw [heq]; simp)
        rw [vw_eq heq] at w2
        obtain ⟨rv, s3, h3, h, he3⟩ := bind_clean h he (by
          dirty
          all_goals first
            | exact dirty_tableAfterValue _ _ | exact dirty_tableRecover _)
        have hv := hel.2 _ _ _ w2.cx h3 he3
        clear h3
        split at h
        · rename_i val
          obtain ⟨ts, w3, hv⟩ := hv
          unfold tableAfterValue at h
          rw [bind_peek] at h
          have w := w1.trans (w2.trans w3)
          split at h
          · rename_i hc
            rw [bind_next] at h
            obtain ⟨rfl, rfl⟩ := pure_inv h
            have w4 := w3.cx.step hE (by rw [hc]; simp)
            rw [vw_comma hc] at w4
            refine ⟨⟨kt, (pk E s1).start, ts, ns, valueOf val⟩, _, (pk E s3).start, k1, hv, ?_, by simp, rfl, ?_⟩
            · simpa [Entry.all] using w.trans w4
            · simp [k2]
          · split at h
            · obtain ⟨rfl, rfl⟩ := pure_inv h
              right
              refine ⟨⟨kt, (pk E s1).start, ts, ns, valueOf val⟩, _, k1, hv, ?_, rfl, ?_⟩
              · simpa [Entry.all] using w
              · simp [k2]
            · exact absurd he (bind_error_dirty h (fun _ => by dirty))
        · obtain ⟨rfl, -⟩ := pure_inv h
          trivial
        · exact absurd he (bind_error_dirty h (fun _ => dirty_tableRecover _))
      · obtain ⟨f, s2, -, h⟩ := bind_inv h
        exact absurd he (bind_error_dirty h (fun _ => dirty_tableRecover _))
    · exact hk.elim
    · exact absurd he (bind_error_dirty h (fun _ => dirty_tableRecover _))

theorem tableLoop_sound (hE : EnvOk E) {n : Nat} {elem : M (Except Error Value)}
    (hel : ElemSound E n elem) : ∀ (k : Nat) {st : TabSt} {s : PS} {r : Except Error TabSt}, Cx E s →
    loopM (tableRound E elem) k st s = .ok r s' → s'.errors = [] →
    match r with
    | .error _ => True
    | .ok st' => ∃ ts as, Went E s ts s' ∧ st'.assignments = st.assignments ++ as ∧
        ∃ es : List Entry, (st.comma ≠ none → es ≠ []) ∧
          (∀ e ∈ es, KeyToks e.key e.names) ∧ (∀ e ∈ es, Val n e.toks e.val) ∧
          (∀ p, TableBody es (ts ++ [(.punct '}', p)])) ∧ es.map (fun e => (e.names, e.val)) =
            as.map (fun w => (keyNames w.assignment.key, valueOf w.assignment.val)) := by
  intro k
  induction k with
  | zero => intro st s r _ h; cases h
  | succ k ih =>
    intro st s r hC h he
    unfold loopM at h
    obtain ⟨rd, s1, h1, h2, he1⟩ := bind_clean h he (by
      dirty
      all_goals exact dirty_loopM (dirty_tableRound hel.1) _ _)
    have hr := tableRound_sound hE hel hC h1 he1
    clear h1 h
    split at h2
    · obtain ⟨e, w, p, a1, a2, a3, a4, a5, a6⟩ := hr
      have := ih a3.cx h2 he
      match r, this with
      | .error _, _ => trivial
      | .ok st', this =>
        obtain ⟨ts', as, b1, b2, es, b3, b4, b5, b6, b7⟩ := this
        refine ⟨_, w :: as, a3.trans b1, by rw [b2, a5]; simp, e :: es, by simp, ?_, ?_, ?_, ?_⟩
        · intro e' he'
          rcases List.mem_cons.1 he' with rfl | he'
          · exact a1
          · exact b4 e' he'
        · intro e' he'
          rcases List.mem_cons.1 he' with rfl | he'
          · exact a2
          · exact b5 e' he'
        · intro q
          cases es with
          | nil => exact absurd rfl (b3 a4)
          | cons e' es =>
            have := TableBody.more (e := e) (p := p) (b6 q)
            simpa using this
        · simp [b7, ← a6]
    · obtain ⟨rfl, rfl⟩ := pure_inv h2
      rcases hr with ⟨a1, a2, rfl⟩ | ⟨e, w, a1, a2, a3, a4, a5⟩
      · exact ⟨[], [], a2, by simp, [], by simp [a1], by simp, by simp, fun p => .close, rfl⟩
      · refine ⟨_, [w], a3, a4, [e], by simp, by simp [a1], by simp [a2], fun p => .last, ?_⟩
        simp [a5]
    · obtain ⟨rfl, rfl⟩ := pure_inv h2
      trivial

theorem parseTable_sound (hE : EnvOk E) {level : Nat} {elem : M (Except Error Value)}
    (hel : level < 100 → ElemSound E (99 - level) elem) (hC : Cx E s) (hty : (pk E s).ty = .curlyLeft)
    {r : Except Error Value} (h : parseTable E elem level (pk E s).start s = .ok r s')
    (he : s'.errors = []) : ValSound E (100 - level) s r s' := by
  unfold parseTable at h
  rw [bind_next] at h
  have w1 := hC.step hE (by rw [hty]; simp)
  rw [vw_cl hty] at w1
  split at h
  · obtain ⟨_, s1, -, h⟩ := bind_inv h
    obtain ⟨rfl, -⟩ := pure_inv h
    trivial
  · rename_i hl
    have hl : level < 100 := by simpa [RECURSION_LIMIT] using hl
    have hel := hel hl
    rw [bind_budget] at h
    obtain ⟨rl, s3, h3, h, he3⟩ := bind_clean h he (by
      dirty
      all_goals exact dirty_tableClose _)
    have hlp := tableLoop_sound hE hel _ w1.cx h3 he3
    clear h3
    split at h
    · obtain ⟨rfl, -⟩ := pure_inv h; trivial
    · obtain ⟨ts, as, b1, b2, es, b3, b4, b5, b6, b7⟩ := hlp
      obtain ⟨rp, s4, h4, h, he4⟩ := bind_clean h he (by dirty)
      unfold tableClose at h4
      rw [bind_peek] at h4
      split at h4
      · rename_i hr
        rw [bind_next] at h4
        obtain ⟨rfl, rfl⟩ := pure_inv h4
        have w4 := b1.cx.step hE (by rw [hr]; simp)
        rw [vw_cr hr] at w4
        obtain ⟨rfl, rfl⟩ := pure_inv h
        refine ⟨_, w1.trans (b1.trans w4), ?_⟩
        have := Val.table (p := (pk E s).start) b4 b5 (b6 (pk E s3).start)
        rw [show 100 - level = 99 - level + 1 by omega]
        rw [b7] at this
        simpa [valueOf, pairsOf_map, b2] using this
      · obtain ⟨_, s5, -, h4⟩ := bind_inv h4
        exact absurd he4 (bind_error_dirty h4 (fun _ => by dirty))

/-- Values. -/
theorem parseValue_sound (hE : EnvOk E) : ∀ (d level : Nat), ElemSound E (100 - level) (parseValue E d level) := by
  intro d
  induction d with
  | zero => intro level; exact ⟨dirty_parseValue _ _, fun s r s' _ h => by cases h⟩
  | succ d ih =>
    intro level
    refine ⟨dirty_parseValue _ _, fun s r s' hC h he => ?_⟩
    unfold parseValue at h
    rw [bind_peek] at h
    generalize hty : (pk E s).ty = ty at h
    have hin : level < 100 → ElemSound E (99 - level) (parseValue E d (level + 1)) := by
      intro hl
      have := ih (level + 1)
      rwa [show 100 - (level + 1) = 99 - level by omega] at this
    split at h
    · rename_i id
      obtain ⟨v, s1, h1, h2⟩ := bind_inv h
      obtain ⟨rfl, rfl⟩ := pure_inv h2
      unfold parseStringValue at h1
      rw [bind_next] at h1
      obtain ⟨st, hst, h1⟩ := bind_lift_inv h1
      obtain ⟨rfl, rfl⟩ := pure_inv h1
      have w1 := hC.step hE (by rw [hty]; simp)
      rw [vw_string hty hst (hE.closed st (List.mem_of_getElem? hst))] at w1
      exact ⟨_, w1, .string⟩
    · obtain ⟨v, s1, h1, h2⟩ := bind_inv h
      obtain ⟨rfl, rfl⟩ := pure_inv h2
      exact parseLiteralValue_sound hE hC hty _ h1 he
    · unfold parseDotValue at h
      rw [bind_next] at h
      refine absurd he (bind_error_dirty h (fun _ => ?_))
      unfold literal extendStrFront tokenFmtStrAndSpan tokenFmtStr tokenSpan
      dirty
      exact (quiet_combine _ _).dirty
    · exact parseArray_sound hE hin hC hty h he
    · exact parseTable_sound hE hin hC hty h he
    · obtain ⟨f, s1, -, h⟩ := bind_inv h
      obtain ⟨rfl, -⟩ := pure_inv h
      trivial

end Verif.Toml
