import Verif.Toml.AssocArrRoot
import Verif.Toml.AssocTop

/-! # Comments: which are at the end of a line -/

namespace Verif.Toml
open Verif Verif.Spec.Toml

variable {α β : Type} {E : Env} {s s' s1 s2 : PS} {vs : List Tok}

/-- The token in front of the comment at `p` is not a line break. -/
def NotFirst (vs : List Tok) (p : Pos) : Prop := ∃ a t x b, vs = a ++ t :: (.comment x, p) :: b ∧ t.1 ≠ .newline

/-- Is it at the end of a line, and its place. -/
def lk (c : AssocComment) : Bool × Pos := (decide (c.pos = .lineEnd), c.comment.span.start)

/-- The comments that are stored are of the right kind. -/
def KindOk (vs : List Tok) (st : List AssocComment) : Prop := ∀ x ∈ st.map lk, x.1 = true ↔ NotFirst vs x.2

/-- The state: the tokens to come are at the end of all tokens, and the comments are of the right kind. -/
structure KO (E : Env) (vs : List Tok) (s : PS) : Prop where
  cx : Cx E s
  at_ : ∃ a, vs = a ++ V E s
  kind : KindOk vs s.storage

/-- The last token is not a line break. -/
def Busy (E : Env) (vs : List Tok) (s : PS) : Prop := ∃ a t, vs = a ++ t :: V E s ∧ t.1 ≠ .newline

/-- A comment that comes next is the first token of its line. -/
def NC (E : Env) (vs : List Tok) (s : PS) : Prop := ∀ x p r, V E s = (.comment x, p) :: r → ¬ NotFirst vs p

theorem NoGap.nc (h : NoGap (V E s)) : NC E vs s := by
  intro x p r hv
  exact absurd rfl ((h _ _ _ hv).2 x)

/-- The place of a token determines what is in front of it. -/
theorem nodup_split {vs : List Tok} (hn : (vs.map (·.2)).Nodup) {a b a' b' : List Tok} {t t' : Tok} (h : vs = a ++ t :: b)
    (h' : vs = a' ++ t' :: b') (hp : t.2 = t'.2) : a = a' ∧ t = t' ∧ b = b' := by
  induction a generalizing vs a' with
  | nil =>
    cases a' with
    | nil =>
      rw [h] at h'
      simp only [List.nil_append, List.cons.injEq] at h'
      exact ⟨rfl, h'.1, h'.2⟩
    | cons u a' =>
      rw [h] at h' hn
      simp only [List.nil_append, List.cons_append, List.cons.injEq] at h' hn
      rw [h'.2] at hn
      simp only [List.map_cons, List.map_append, List.nodup_cons] at hn
      exact absurd (by simp [hp]) hn.1
  | cons u a ih =>
    cases a' with
    | nil =>
      rw [h'] at h hn
      simp only [List.nil_append, List.cons_append, List.cons.injEq] at h hn
      rw [h.2] at hn
      simp only [List.map_cons, List.map_append, List.nodup_cons] at hn
      exact absurd (by simp [← hp]) hn.1
    | cons u' a' =>
      cases vs with
      | nil => cases h
      | cons w vs =>
        simp only [List.cons_append, List.cons.injEq] at h h'
        simp only [List.map_cons, List.nodup_cons] at hn
        obtain ⟨e1, e2, e3⟩ := ih hn.2 h.2 h'.2
        exact ⟨by rw [← h.1, ← h'.1, e1], e2, e3⟩

theorem snoc_inj {a a' : List Tok} {t t' : Tok} (h : a ++ [t] = a' ++ [t']) : a = a' ∧ t = t' := by
  have := List.append_inj' h rfl
  exact ⟨this.1, by simpa using this.2⟩

/-- Next is a comment: it is not the first token of its line exactly if the last token is not a line break. -/
theorem notFirst_iff (hn : (vs.map (·.2)).Nodup) {x : Str} {p : Pos} {r : List Tok} (hv : V E s = (.comment x, p) :: r) :
    Busy E vs s → NotFirst vs p := by
  rintro ⟨a, t, h, ht⟩
  exact ⟨a, t, x, r, by rw [h, hv], ht⟩

/-- What was in front of the token. -/
theorem notFirst_prev (hn : (vs.map (·.2)).Nodup) {x : Str} {p : Pos} {a b : List Tok} (hv : vs = a ++ (.comment x, p) :: b)
    (h : NotFirst vs p) : ∃ a' t, a = a' ++ [t] ∧ t.1 ≠ .newline := by
  obtain ⟨a', t, x', b', e, ht⟩ := h
  have e' : vs = (a' ++ [t]) ++ (.comment x', p) :: b' := by rw [e]; simp
  obtain ⟨e1, -, -⟩ := nodup_split hn hv e' rfl
  exact ⟨a', t, e1, ht⟩

theorem KO.went (h : KO E vs s) {ts : List Tok} (hw : Went E s ts s') (hs : s'.storage = s.storage) : KO E vs s' := by
  obtain ⟨a, ha⟩ := h.at_
  exact ⟨hw.cx, ⟨a ++ ts, by rw [ha, hw.view, List.append_assoc]⟩, by rw [hs]; exact h.kind⟩

theorem KO.rest (h : KO E vs s) (hr : s'.rest = s.rest) (hk : s'.storage.map lk = s.storage.map lk) : KO E vs s' := by
  refine ⟨h.cx.of_rest hr, ?_, ?_⟩
  · have : V E s' = V E s := by unfold V; rw [hr]
    rw [this]; exact h.at_
  · unfold KindOk
    rw [hk]; exact h.kind

theorem KO.add (h : KO E vs s) {c : AssocComment} (hc : c.pos = .lineEnd ↔ NotFirst vs c.comment.span.start) :
    KO E vs (s.stored [c]) := by
  refine ⟨h.cx.of_rest rfl, h.at_, ?_⟩
  intro x hx
  simp only [PS.stored, List.map_append, List.map_cons, List.map_nil, List.mem_append, List.mem_singleton] at hx
  rcases hx with hx | rfl
  · exact h.kind x hx
  · simpa [lk] using hc

theorem KO.busy (h : KO E vs s) {ts : List Tok} {t : Tok} (hw : Went E s (ts ++ [t]) s') (ht : t.1 ≠ .newline) : Busy E vs s' := by
  obtain ⟨a, ha⟩ := h.at_
  exact ⟨a ++ ts, t, by rw [ha, hw.view]; simp, ht⟩

/-- The tokens end in one that is not a line break. -/
def EndsBusy (ts : List Tok) : Prop := ∃ a t, ts = a ++ [t] ∧ t.1 ≠ .newline

theorem KO.busy' (h : KO E vs s) {ts : List Tok} (hw : Went E s ts s') (ht : EndsBusy ts) : Busy E vs s' := by
  obtain ⟨a, t, rfl, ht⟩ := ht
  exact h.busy hw ht

theorem EndsBusy.append {a b : List Tok} (h : EndsBusy b) : EndsBusy (a ++ b) := by
  obtain ⟨c, t, rfl, ht⟩ := h
  exact ⟨a ++ c, t, by simp, ht⟩

theorem EndsBusy.cons {a : Tok} {b : List Tok} (h : EndsBusy b) : EndsBusy (a :: b) := EndsBusy.append (a := [a]) h

theorem endsBusy_one {v : View} {p : Pos} (h : v ≠ .newline) : EndsBusy [(v, p)] := ⟨[], _, rfl, h⟩

theorem pieces_busy : ∀ {p : Pos} {ts : List Tok} {y : Str}, Pieces p ts y → ts = [] ∨ EndsBusy ts := by
  intro p ts y h
  induction h with
  | nil => exact .inl rfl
  | dot _ ih =>
    rcases ih with rfl | ih
    · exact .inr (endsBusy_one (by simp))
    · exact .inr ih.cons
  | word _ ih =>
    rcases ih with rfl | ih
    · exact .inr (endsBusy_one (by simp))
    · exact .inr ih.cons

theorem bare_busy {p : Pos} {ts : List Tok} {x : Str} (h : Bare p ts x) : EndsBusy ts := by
  obtain ⟨w, ts', y, rfl, -, h⟩ := h
  rcases pieces_busy h with rfl | h
  · exact endsBusy_one (by simp)
  · exact h.cons

theorem val_busy {n : Nat} {ts : List Tok} {v : TVal} (h : Val n ts v) : EndsBusy ts := by
  cases h with
  | string => exact endsBusy_one (by simp)
  | bare h _ => exact bare_busy h
  | spaced _ h _ _ => exact (bare_busy h).append
  | array h1 h2 hb =>
    refine EndsBusy.cons ?_
    clear h1 h2
    induction hb with
    | close => exact (endsBusy_one (by simp)).append
    | last => exact (endsBusy_one (by simp)).append
    | more _ ih => exact (EndsBusy.cons ih).append
  | table h1 h2 hb =>
    refine EndsBusy.cons ?_
    clear h1 h2
    induction hb with
    | close => exact endsBusy_one (by simp)
    | last => exact (endsBusy_one (by simp)).append
    | more _ ih => exact (EndsBusy.cons ih).append

theorem expr_busy {b : Bool} {ts : List Tok} {i : Item} (h : Expr b ts i) : EndsBusy ts := by
  cases h with
  | keyVal _ h => exact (val_busy h).cons.append
  | table _ => exact ((endsBusy_one (by simp)).append).cons
  | @arrayTable p q kt k _ =>
    refine EndsBusy.cons (EndsBusy.cons (EndsBusy.append (EndsBusy.cons (endsBusy_one (by simp)))))

/-! ## Comments -/

theorem lk_markAboveLoop {level : Nat} : ∀ (cs : List AssocComment) (line i : Nat),
    (markAboveLoop level cs line i).1.map lk = cs.map lk := by
  intro cs
  induction cs with
  | nil => intro line i; rfl
  | cons c cs ih =>
    intro line i
    unfold markAboveLoop
    split
    · rename_i h
      have := ih (line - 1) (i + 1)
      simp only [List.map_cons] at this ⊢
      rw [this]
      simp [lk, h.2]
    · rfl

theorem KO.markAbove (h : KO E vs s) {line level : Nat} {a : CommentRange} (hr : markCommentsAbove line level s = .ok a s') :
    KO E vs s' := by
  refine h.rest ((still_markAbove _ _).out _ _ _ hr) ?_
  unfold markCommentsAbove at hr
  cases hr
  have := lk_markAboveLoop (level := level) s.storage.reverse line 0
  simp only [List.map_reverse] at this ⊢
  rw [this, List.reverse_reverse]

theorem KO.markContained (h : KO E vs s) {r : CommentRange} {level : Nat} {a : Unit} (hr : markContainedComments r level s = .ok a s') :
    KO E vs s' := by
  refine h.rest ((still_markContained _ _).out _ _ _ hr) ?_
  unfold markContainedComments at hr
  split at hr
  · cases hr
    have : ∀ l : List AssocComment, (l.map (AssocComment.raise level)).map lk = l.map lk := by
      intro l
      rw [List.map_map]
      apply List.map_congr_left
      intro c _
      simp only [Function.comp, AssocComment.raise]
      split <;> rfl
    simp only [List.map_append, this]
    rw [← List.map_append, ← List.map_append, ← List.drop_drop, List.append_assoc, List.take_append_drop, List.take_append_drop]
  · cases hr

theorem KO.com_next (h : KO E vs s) (hE : EnvEof E) {id : Nat} (hty : (pk E s).ty = .comment id) {w : Str}
    (hw : E.literals[id]? = some w) : V E s = (.comment w, (pk E s).start) :: V E s.adv ∧ KO E vs s.adv ∧ NC E vs s.adv := by
  have w1 := h.cx.step hE (by rw [hty]; simp)
  rw [vw_comment hty hw] at w1
  have hv : V E s = (.comment w, (pk E s).start) :: V E s.adv := w1.view
  refine ⟨hv, h.went w1 adv_storage, ?_⟩
  intro x p r hx
  rcases h.cx.comment hv with e | ⟨q, t, e⟩
  · rw [e] at hx; cases hx
  · rw [e] at hx; cases hx

theorem KO.nl_next (hn : (vs.map (·.2)).Nodup) (h : KO E vs s) (hE : EnvEof E) (hty : (pk E s).ty = .newline) :
    KO E vs s.adv ∧ NC E vs s.adv := by
  have w1 := h.cx.step hE (by rw [hty]; simp)
  rw [vw_nl hty] at w1
  refine ⟨h.went w1 adv_storage, ?_⟩
  intro x p r hx hf
  obtain ⟨a, ha⟩ := h.at_
  have e : vs = (a ++ [(.newline, (pk E s).start)]) ++ (.comment x, p) :: r := by rw [ha, w1.view, hx]; simp
  obtain ⟨a', t, e1, ht⟩ := notFirst_prev hn e hf
  obtain ⟨-, rfl⟩ := snoc_inj e1
  exact ht rfl

theorem not_com (hC : Cx E s) (hn : ∀ id, (pk E s).ty ≠ .comment id) : NC E vs s := by
  intro x p r hx
  obtain ⟨⟨id, h1, -⟩, -⟩ := hC.view hx
  exact absurd h1 (hn id)

theorem lineEnd_kind (hE : EnvEof E) {r a : CommentRange} (h : KO E vs s) (hb : Busy E vs s)
    (hr : lineEndComment E r s = .ok a s') : KO E vs s' ∧ NC E vs s' := by
  unfold lineEndComment at hr
  obtain ⟨o, s1, h1, h2⟩ := bind_inv hr
  unfold eatComment at h1
  rw [bind_peek] at h1
  generalize hty : (pk E s).ty = ty at h1
  split at h1
  · rw [bind_next] at h1
    unfold getComment at h1
    obtain ⟨c, hc, h1⟩ := bind_lift_inv h1
    obtain ⟨rfl, rfl⟩ := pure_inv h1
    obtain ⟨l, hl, rfl⟩ := Option.map_eq_some_iff.1 hc
    obtain ⟨e1, e2, e3⟩ := h.com_next hE hty hl
    dsimp only at h2
    obtain ⟨rfl, -⟩ := addComment_storage h2
    refine ⟨e2.add ?_, e3⟩
    obtain ⟨a, t, ha, ht⟩ := hb
    simp only [true_iff]
    exact ⟨a, t, l, V E s.adv, by rw [ha, e1]; rfl, ht⟩
  · rename_i hc
    obtain ⟨rfl, rfl⟩ := pure_inv h1
    obtain ⟨rfl, rfl⟩ := pure_inv h2
    exact ⟨h, not_com h.cx (by rw [hty]; exact hc)⟩

theorem eatLoop_kind (hn : (vs.map (·.2)).Nodup) (hE : EnvEof E) : ∀ n {o : Option Comment} {s : PS}, KO E vs s → NC E vs s →
    eatCommentAndNewlinesLoop E n s = .ok o s' → KO E vs s' ∧ NC E vs s' ∧ ∀ c, o = some c → ¬ NotFirst vs c.span.start := by
  intro n
  induction n with
  | zero => intro o s _ _ h; cases h
  | succ n ih =>
    intro o s hK hN h
    unfold eatCommentAndNewlinesLoop at h
    rw [bind_peek] at h
    generalize hty : (pk E s).ty = ty at h
    split at h
    · rw [bind_next] at h
      unfold getComment at h
      obtain ⟨c, hc, h⟩ := bind_lift_inv h
      obtain ⟨rfl, rfl⟩ := pure_inv h
      obtain ⟨l, hl, rfl⟩ := Option.map_eq_some_iff.1 hc
      obtain ⟨e1, e2, e3⟩ := hK.com_next hE hty hl
      refine ⟨e2, e3, ?_⟩
      rintro _ ⟨⟩
      exact hN _ _ _ e1
    · rw [bind_next] at h
      obtain ⟨e1, e2⟩ := hK.nl_next hn hE hty
      exact ih e1 e2 h
    · obtain ⟨rfl, rfl⟩ := pure_inv h
      exact ⟨hK, hN, by rintro _ ⟨⟩⟩

theorem contained_kind (hn : (vs.map (·.2)).Nodup) (hE : EnvEof E) : ∀ n {r a : CommentRange} {s : PS}, KO E vs s → NC E vs s →
    containedComments E n r s = .ok a s' → KO E vs s' ∧ NC E vs s' := by
  intro n
  induction n with
  | zero => intro r a s _ _ h; cases h
  | succ n ih =>
    intro r a s hK hN h
    unfold containedComments at h
    obtain ⟨o, s1, h1, h⟩ := bind_inv h
    unfold eatCommentAndNewlines at h1
    rw [bind_budget] at h1
    obtain ⟨e1, e2, e3⟩ := eatLoop_kind hn hE _ hK hN h1
    clear h1
    split at h
    · rename_i c
      obtain ⟨r1, s2, h2, h⟩ := bind_inv h
      obtain ⟨rfl, -⟩ := addComment_storage h2
      refine ih (e1.add ?_) e2 h
      simp [e3 _ rfl]
    · obtain ⟨rfl, rfl⟩ := pure_inv h
      exact ⟨e1, e2⟩

/-! ## Values -/

/-- `elem` keeps the kinds right where it returns a value. -/
def KindElem (E : Env) (vs : List Tok) (elem : M (Except Error Value)) : Prop :=
  ∀ s v s', KO E vs s → elem s = .ok (.ok v) s' → s'.errors = [] → KO E vs s'

/-- The outcome of a round. -/
def KRound {σ : Type} (P : Prop) : Round σ → Prop
  | .return _ => True
  | _ => P

theorem arrayAfterValue_kind (hn : (vs.map (·.2)).Nodup) (hE : EnvEof E) {level : Nat} {st : ArrSt} {v : Value} {r : Round ArrSt}
    (hK : KO E vs s) (hB : Busy E vs s)
    (h : arrayAfterValue E level st v s = .ok r s') (he : s'.errors = []) : KO E vs s' ∧ NC E vs s' := by
  unfold arrayAfterValue at h
  obtain ⟨vc, s1, h1, h⟩ := bind_inv h
  have k1 := hK.markAbove h1
  have b1 : Busy E vs s1 := by
    have : V E s1 = V E s := by unfold V; rw [(still_markAbove _ _).out _ _ _ h1]
    unfold Busy; rw [this]; exact hB
  obtain ⟨vc', s2, h2, h⟩ := bind_inv h
  obtain ⟨k2, n2⟩ := lineEnd_kind hE k1 b1 h2
  rw [bind_budget] at h
  obtain ⟨cm, s3, h3, h⟩ := bind_inv h
  obtain ⟨k3, n3⟩ := contained_kind hn hE _ k2 n2 h3
  rw [bind_peek] at h
  split at h
  · rename_i hc
    rw [bind_nextId] at h
    obtain ⟨vc3, hvc, h⟩ := bind_lift_inv h
    obtain ⟨_, s4, h4, h⟩ := bind_inv h
    have k4 := k3.markContained h4
    have hr := (still_markContained _ _).out _ _ _ h4
    have hpk : pk E s4 = pk E s3 := by unfold pk; rw [hr]
    rw [bind_next] at h
    have w5 := k4.cx.step hE (by rw [hpk, hc]; simp)
    rw [vw_comma (by rw [hpk, hc])] at w5
    obtain ⟨vc5, s5, h5, h⟩ := bind_inv h
    obtain ⟨k6, n6⟩ := lineEnd_kind hE (k4.went w5 adv_storage) (k4.busy' w5 (endsBusy_one (by simp))) h5
    obtain ⟨rfl, rfl⟩ := pure_inv h
    exact ⟨k6, n6⟩
  · split at h
    · obtain ⟨rfl, rfl⟩ := pure_inv h
      exact ⟨k3, n3⟩
    · exact absurd he (bind_error_dirty h (fun _ => by dirty))

theorem arrayRound_kind (hn : (vs.map (·.2)).Nodup) (hE : EnvOk E) {n level : Nat} {elem : M (Except Error Value)} {st : ArrSt}
    {r : Round ArrSt} (hel : ElemSound E n elem) (hk : KindElem E vs elem) (hK : KO E vs s) (hN : NC E vs s)
    (h : arrayRound E elem level st s = .ok r s') (he : s'.errors = []) : KRound (KO E vs s' ∧ NC E vs s') r := by
  unfold arrayRound at h
  rw [bind_budget] at h
  obtain ⟨cm, s1, h1, h⟩ := bind_inv h
  obtain ⟨k1, n1⟩ := contained_kind hn hE _ hK hN h1
  dsimp only at h
  rw [bind_peek] at h
  split at h
  · obtain ⟨rfl, rfl⟩ := pure_inv h
    exact ⟨k1, n1⟩
  · obtain ⟨rv, s2, h2, h, he2⟩ := bind_clean h he (by
      dirty
      all_goals first
        | exact dirty_arrayAfterValue _ _ _ | exact dirty_arrayRecover _)
    have hv := hel.2 _ _ _ k1.cx h2 he2
    split at h
    · obtain ⟨ts, w, hv⟩ := hv
      have := arrayAfterValue_kind hn hE (hk _ _ _ k1 h2 he2) (k1.busy' w (val_busy hv)) h he
      cases r <;> first | trivial | exact this
    · obtain ⟨rfl, -⟩ := pure_inv h
      trivial
    · exact absurd he (bind_error_dirty h (fun _ => dirty_arrayRecover _))

theorem loop_kind {σ : Type} {round : σ → M (Round σ)} {P : PS → Prop} (hd : ∀ st, Dirty (round st))
    (hr : ∀ {st s r s'}, P s → round st s = .ok r s' → s'.errors = [] → KRound (P s') r) :
    ∀ k {st s r}, P s → loopM round k st s = .ok (.ok r) s' → s'.errors = [] → P s' := by
  intro k
  induction k with
  | zero => intro st s r _ h; cases h
  | succ k ih =>
    intro st s r hP h he
    unfold loopM at h
    obtain ⟨rd, s1, h1, h2, he1⟩ := bind_clean h he (by
      dirty
      all_goals exact dirty_loopM hd _ _)
    have := hr hP h1 he1
    clear h1 h
    split at h2
    · exact ih this h2 he
    · obtain ⟨-, rfl⟩ := pure_inv h2
      exact this
    · obtain ⟨h3, -⟩ := pure_inv h2
      cases h3

theorem parseArray_kind (hn : (vs.map (·.2)).Nodup) (hE : EnvOk E) {n level : Nat} {elem : M (Except Error Value)}
    (hel : level < 100 → ElemSound E n elem) (hk : KindElem E vs elem) (hK : KO E vs s) (hty : (pk E s).ty = .squareLeft)
    {v : Value} (h : parseArray E elem level (pk E s).start s = .ok (.ok v) s')
    (he : s'.errors = []) : KO E vs s' := by
  unfold parseArray at h
  rw [bind_next] at h
  have w1 := hK.cx.step hE (by rw [hty]; simp)
  rw [vw_sl hty] at w1
  split at h
  · obtain ⟨_, s1, -, h⟩ := bind_inv h
    obtain ⟨h, -⟩ := pure_inv h
    cases h
  · rename_i hl
    have hl : level < 100 := by simpa [RECURSION_LIMIT] using hl
    have hel := hel hl
    rw [bind_nextId] at h
    obtain ⟨cm, s2, h2, h⟩ := bind_inv h
    obtain ⟨k2, n2⟩ := lineEnd_kind hE (hK.went w1 adv_storage) (hK.busy' w1 (endsBusy_one (by simp))) h2
    rw [bind_budget] at h
    obtain ⟨rl, s3, h3, h, he3⟩ := bind_clean h he (by
      dirty
      all_goals exact dirty_arrayClose _)
    split at h
    · obtain ⟨h, -⟩ := pure_inv h; cases h
    · obtain ⟨k3, n3⟩ := loop_kind (P := fun s => KO E vs s ∧ NC E vs s) (dirty_arrayRound hel.1 _)
        (fun hP hr he => arrayRound_kind hn hE hel hk hP.1 hP.2 hr he) _ ⟨k2, n2⟩ h3 he3
      obtain ⟨rp, s4, h4, h, he4⟩ := bind_clean h he (by dirty)
      unfold arrayClose at h4
      rw [bind_peek] at h4
      split at h4
      · rename_i hr
        rw [bind_next] at h4
        obtain ⟨rfl, rfl⟩ := pure_inv h4
        have w4 := k3.cx.step hE (by rw [hr]; simp)
        rw [bind_nextId] at h
        obtain ⟨cm2, -, h⟩ := bind_lift_inv h
        obtain ⟨_, s5, h5, h⟩ := bind_inv h
        obtain ⟨-, rfl⟩ := pure_inv h
        exact (k3.went w4 adv_storage).markContained h5
      · obtain ⟨_, s5, -, h4⟩ := bind_inv h4
        dsimp only at h4
        rw [bind_peekPrev] at h4
        exact absurd he4 (bind_error_dirty h4 (fun _ => by dirty))

theorem tableRound_kind (hE : EnvOk E) {n : Nat} {elem : M (Except Error Value)} {st : TabSt}
    {r : Round TabSt} (hel : ElemSound E n elem) (hk : KindElem E vs elem) (hK : KO E vs s)
    (h : tableRound E elem st s = .ok r s') (he : s'.errors = []) : KRound (KO E vs s') r := by
  unfold tableRound at h
  rw [bind_peek] at h
  split at h
  · unfold trailingComma at h
    generalize hc : st.comma = c at h
    split at h
    · exact absurd he (bind_error_dirty h (fun _ => by dirty))
    · obtain ⟨rfl, rfl⟩ := pure_inv h
      exact hK
  · obtain ⟨kr, s1, h1, h, he1⟩ := bind_clean h he (by
      dirty
      all_goals first
        | exact dirty_tableAfterKey hel.1 _ _ | exact dirty_tableRecover _)
    have hkey := parseKey_sound hE hK.cx h1 he1
    have hst := calm_parseKey.out _ _ _ h1
    clear h1
    split at h
    · rename_i key
      obtain ⟨kt, ns, w1, -, -⟩ := hkey
      have k1 := hK.went w1 hst
      unfold tableAfterKey at h
      rw [bind_peek] at h
      split at h
      · rename_i heq
        rw [bind_next] at h
        have w2 := w1.cx.step hE (by rw [heq]; simp)
        have k2 := k1.went w2 adv_storage
        obtain ⟨rv, s3, h3, h, he3⟩ := bind_clean h he (by
          dirty
          all_goals first
            | exact dirty_tableAfterValue _ _ | exact dirty_tableRecover _)
        split at h
        · rename_i val
          have k3 := hk _ _ _ k2 h3 he3
          unfold tableAfterValue at h
          rw [bind_peek] at h
          split at h
          · rename_i hc
            rw [bind_next] at h
            obtain ⟨rfl, rfl⟩ := pure_inv h
            have w4 := k3.cx.step hE (by rw [hc]; simp)
            exact k3.went w4 adv_storage
          · split at h
            · obtain ⟨rfl, rfl⟩ := pure_inv h
              exact k3
            · exact absurd he (bind_error_dirty h (fun _ => by dirty))
        · obtain ⟨rfl, -⟩ := pure_inv h
          trivial
        · exact absurd he (bind_error_dirty h (fun _ => dirty_tableRecover _))
      · obtain ⟨f, s2, -, h⟩ := bind_inv h
        exact absurd he (bind_error_dirty h (fun _ => dirty_tableRecover _))
    · exact hkey.elim
    · exact absurd he (bind_error_dirty h (fun _ => dirty_tableRecover _))

theorem parseTable_kind (hE : EnvOk E) {n level : Nat} {elem : M (Except Error Value)}
    (hel : level < 100 → ElemSound E n elem) (hk : KindElem E vs elem) (hK : KO E vs s) (hty : (pk E s).ty = .curlyLeft)
    {v : Value} (h : parseTable E elem level (pk E s).start s = .ok (.ok v) s')
    (he : s'.errors = []) : KO E vs s' := by
  unfold parseTable at h
  rw [bind_next] at h
  have w1 := hK.cx.step hE (by rw [hty]; simp)
  split at h
  · obtain ⟨_, s1, -, h⟩ := bind_inv h
    obtain ⟨h, -⟩ := pure_inv h
    cases h
  · rename_i hl
    have hl : level < 100 := by simpa [RECURSION_LIMIT] using hl
    have hel := hel hl
    rw [bind_budget] at h
    obtain ⟨rl, s3, h3, h, he3⟩ := bind_clean h he (by
      dirty
      all_goals exact dirty_tableClose _)
    split at h
    · obtain ⟨h, -⟩ := pure_inv h; cases h
    · have k3 := loop_kind (P := fun s => KO E vs s) (dirty_tableRound hel.1)
        (fun hP hr he => tableRound_kind hE hel hk hP hr he) _ (hK.went w1 adv_storage) h3 he3
      obtain ⟨rp, s4, h4, h, he4⟩ := bind_clean h he (by dirty)
      unfold tableClose at h4
      rw [bind_peek] at h4
      split at h4
      · rename_i hr
        rw [bind_next] at h4
        obtain ⟨rfl, rfl⟩ := pure_inv h4
        have w4 := k3.cx.step hE (by rw [hr]; simp)
        obtain ⟨-, rfl⟩ := pure_inv h
        exact k3.went w4 adv_storage
      · obtain ⟨_, s5, -, h4⟩ := bind_inv h4
        exact absurd he4 (bind_error_dirty h4 (fun _ => by dirty))

theorem calm_combineLoop : ∀ n lit sp, Calm (combineLoop E n lit sp) := by
  intro n
  induction n with
  | zero => intro lit sp; exact calm_timeout
  | succ n ih =>
    intro lit sp
    unfold combineLoop extendStrBack literal concatStrs
    refine calm_peek.bind fun t => ?_
    split
    · exact calm_pure _
    · split
      · exact (calm_lift _).bind fun _ => calm_next.bind fun _ => ih _ _
      · exact (calm_lift _).bind fun _ => (calm_lift _).bind fun _ => calm_next.bind fun _ => ih _ _
      · exact calm_pure _

theorem calm_combine (lit : Slice) (sp : Span) : Calm (combineAdjacentDotAndLit E lit sp) := by
  unfold combineAdjacentDotAndLit
  exact calm_budget.bind fun n => calm_combineLoop n _ _

theorem calm_panic : Calm (M.panic : M α) := ⟨fun s b s' h => by cases h⟩

theorem calm_timePart (a : Slice) (b : Span) (c : Date) (d : Slice) (e : Span) : Calm (timePart E a b c d e) := by
  unfold timePart concatStrs
  calm
  all_goals exact calm_panic

theorem calm_literalValue (a : Slice) (b : Span) : Calm (literalValue E a b) := by
  unfold literalValue tryToParseTimePart tryCombineTimePart literal concatStrs
  calm
  all_goals first | exact calm_combine _ _ | exact calm_timePart _ _ _ _ _ | exact calm_panic

theorem calm_parseLiteralValue (i : Nat) : Calm (parseLiteralValue E i) := by
  unfold parseLiteralValue literal
  exact calm_next.bind fun t => (calm_lift _).bind fun _ => (calm_combine _ _).bind fun r => calm_literalValue _ _

theorem parseValue_kind (hn : (vs.map (·.2)).Nodup) (hE : EnvOk E) : ∀ (d level : Nat), KindElem E vs (parseValue E d level) := by
  intro d
  induction d with
  | zero => intro level s v s' _ h; cases h
  | succ d ih =>
    intro level s v s' hK h he
    obtain ⟨ts, w, -⟩ := (parseValue_sound hE (d + 1) level).2 _ _ _ hK.cx h he
    unfold parseValue at h
    rw [bind_peek] at h
    generalize hty : (pk E s).ty = ty at h
    split at h
    · refine hK.went w ?_
      refine Calm.out (m := parseStringValue E _ >>= _) (Calm.bind ?_ fun _ => calm_pure _) _ _ _ h
      unfold parseStringValue getString; calm
    · refine hK.went w ?_
      refine Calm.out (m := parseLiteralValue E _ >>= _) (Calm.bind ?_ fun _ => calm_pure _) _ _ _ h
      exact calm_parseLiteralValue _
    · unfold parseDotValue at h
      rw [bind_next] at h
      refine absurd he (bind_error_dirty h (fun _ => ?_))
      unfold literal extendStrFront tokenFmtStrAndSpan tokenFmtStr tokenSpan
      dirty
      exact (quiet_combine _ _).dirty
    · exact parseArray_kind hn hE (fun hl => parseValue_sound hE d (level + 1)) (ih _) hK hty h he
    · exact parseTable_kind hE (fun hl => parseValue_sound hE d (level + 1)) (ih _) hK hty h he
    · obtain ⟨f, s1, -, h⟩ := bind_inv h
      obtain ⟨h, -⟩ := pure_inv h
      cases h

end Verif.Toml
