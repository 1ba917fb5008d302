import Verif.Toml.AssocTop
import Verif.Toml.ParseNest
import Verif.Spec.AssocArr

/-! # Comments: the comments of an array -/

namespace Verif.Toml
open Verif Verif.Spec.Toml

theorem sooner_trans {p q r : Pos} (h1 : Sooner p q) (h2 : Sooner q r) : Sooner p r := by unfold Sooner at *; omega
theorem sooner_irrefl {p : Pos} (h : Sooner p p) : False := by unfold Sooner at h; omega

/-- The places of comments. -/
def cps (st : List AssocComment) : List Pos := st.map (·.comment.span.start)

/-- The places of tokens. -/
def rps (ts : List Token) : List Pos := ts.map (·.start)

/-- Tokens have been consumed, some of them as comments. -/
def Adv (s s' : PS) : Prop := ∃ new, cps s'.storage = cps s.storage ++ new ∧ (new ++ rps s'.rest).Sublist (rps s.rest)

theorem Adv.refl (s : PS) : Adv s s := ⟨[], by simp, by simp⟩

theorem Adv.trans {s s1 s2 : PS} (h1 : Adv s s1) (h2 : Adv s1 s2) : Adv s s2 := by
  obtain ⟨a, a1, a2⟩ := h1
  obtain ⟨b, b1, b2⟩ := h2
  refine ⟨a ++ b, by rw [b1, a1, List.append_assoc], ?_⟩
  rw [List.append_assoc]
  exact (List.Sublist.append_left b2 a).trans a2

/-- The comments and the tokens to come are in the order of the text. -/
def Srt (s : PS) : Prop := (cps s.storage ++ rps s.rest).Pairwise Sooner

theorem Srt.adv {s s' : PS} (h : Srt s) (ha : Adv s s') : Srt s' := by
  obtain ⟨new, h1, h2⟩ := ha
  unfold Srt
  rw [h1, List.append_assoc]
  exact h.sublist (List.Sublist.append_left h2 _)

/-- The computation consumes tokens. -/
structure Moves {α : Type} (m : M α) : Prop where
  out : ∀ s a s', m s = .ok a s' → Adv s s'

variable {α β : Type} {E : Env}

theorem Moves.bind {m : M α} {f : α → M β} (hm : Moves m) (hf : ∀ a, Moves (f a)) : Moves (m >>= f) := by
  refine ⟨fun s b s' h => ?_⟩
  obtain ⟨a, s1, h1, h2⟩ := bind_inv h
  exact (hm.out _ _ _ h1).trans ((hf a).out _ _ _ h2)

theorem moves_pure (a : α) : Moves (pure a : M α) := ⟨fun s b s' h => by obtain ⟨-, rfl⟩ := pure_inv h; exact .refl _⟩
theorem moves_lift (o : Option α) : Moves (M.lift o) := ⟨fun s b s' h => by obtain ⟨-, rfl⟩ := lift_inv h; exact .refl _⟩
theorem moves_peek : Moves (peek E) := ⟨fun s b s' h => by cases h; exact .refl _⟩
theorem moves_next : Moves (next E) := by
  refine ⟨fun s b s' h => ?_⟩
  unfold next at h
  split at h
  · rename_i t ts hr
    cases h
    exact ⟨[], by simp, by rw [hr]; simp [rps]⟩
  · cases h; exact .refl _
theorem moves_budget : Moves budget := ⟨fun s b s' h => by cases h; exact .refl _⟩
theorem moves_nextId : Moves nextCommentId := ⟨fun s b s' h => by cases h; exact .refl _⟩
theorem moves_peekPrev : Moves peekPrev := ⟨fun s b s' h => by cases h; exact .refl _⟩
theorem moves_mark : Moves mark := ⟨fun s b s' h => by cases h; exact .refl _⟩
theorem moves_reset (m : Nat) : Moves (reset m) := ⟨fun s b s' h => by cases h; exact .refl _⟩
theorem moves_error (e : Error) : Moves (error e) := ⟨fun s b s' h => by cases h; exact .refl _⟩
theorem moves_timeout : Moves (M.timeout : M α) := ⟨fun s b s' h => by cases h⟩
theorem moves_panic : Moves (M.panic : M α) := ⟨fun s b s' h => by cases h⟩
theorem moves_jump : Moves jumpToEnd := ⟨fun s b s' h => by cases h; exact ⟨[], by simp, by simp [rps]⟩⟩
theorem moves_skip {stop : TokenType → Bool} : ∀ (ts : List Token) (s s' : PS), (rps ts).Sublist (rps s.rest) →
    skipUntil E stop ts s = .ok () s' → Adv s s' := by
  intro ts
  induction ts with
  | nil =>
    intro s s' _ h
    unfold skipUntil at h
    split at h <;> cases h
    exact ⟨[], by simp, by simp [rps]⟩
  | cons t ts ih =>
    intro s s' hs h
    unfold skipUntil at h
    split at h
    · cases h; exact ⟨[], by simp, by simpa using hs⟩
    · exact ih { s with done := t :: s.done } _ ((List.sublist_cons_self _ _).trans hs) h
theorem moves_recover (stop : TokenType → Bool) : Moves (recoverOn E stop) :=
  ⟨fun s _ s' h => moves_skip _ _ _ (List.Sublist.refl _) h⟩

/-- Proves `Moves` where no comments are stored. -/
syntax "moves" : tactic
macro_rules
  | `(tactic| moves) => `(tactic| repeat' first
    | assumption
    | exact moves_pure _ | exact moves_peek | exact moves_next | exact moves_budget | exact moves_mark | exact moves_error _
    | exact moves_timeout | exact moves_panic | exact moves_lift _ | exact moves_recover _ | exact moves_reset _ | exact moves_peekPrev
    | exact moves_nextId | exact moves_jump
    | with_reducible apply Moves.bind | intro _ | split | dsimp only)

theorem moves_fmt (t : Token) : Moves (tokenFmtStrAndSpan E t) := by
  unfold tokenFmtStrAndSpan tokenFmtStr tokenSpan; moves
theorem moves_parseIdent : Moves (parseIdent E) := by
  unfold parseIdent getString literal tokenFmtStrAndSpan tokenFmtStr tokenSpan; moves
theorem moves_parseKeyLoop : ∀ n ids, Moves (parseKeyLoop E n ids) := by
  intro n
  induction n with
  | zero => intro ids; exact moves_timeout
  | succ n ih =>
    intro ids
    unfold parseKeyLoop
    refine moves_parseIdent.bind fun r => ?_
    moves
    exact ih _
theorem moves_parseKey : Moves (parseKey E) := by
  unfold parseKey
  exact moves_budget.bind fun n => moves_parseKeyLoop n _

theorem moves_combineLoop : ∀ n lit sp, Moves (combineLoop E n lit sp) := by
  intro n
  induction n with
  | zero => intro lit sp; exact moves_timeout
  | succ n ih =>
    intro lit sp
    unfold combineLoop extendStrBack literal concatStrs
    refine moves_peek.bind fun t => ?_
    split
    · exact moves_pure _
    · split
      · exact (moves_lift _).bind fun _ => moves_next.bind fun _ => ih _ _
      · exact (moves_lift _).bind fun _ => (moves_lift _).bind fun _ => moves_next.bind fun _ => ih _ _
      · exact moves_pure _

theorem moves_combine (lit : Slice) (sp : Span) : Moves (combineAdjacentDotAndLit E lit sp) := by
  unfold combineAdjacentDotAndLit
  exact moves_budget.bind fun n => moves_combineLoop n _ _

theorem moves_timePart (a : Slice) (b : Span) (c : Date) (d : Slice) (e : Span) : Moves (timePart E a b c d e) := by
  unfold timePart concatStrs
  moves

theorem moves_literalValue (a : Slice) (b : Span) : Moves (literalValue E a b) := by
  have h1 := fun l sp => moves_combine (E := E) l sp
  have h2 := fun a b c d e => moves_timePart (E := E) a b c d e
  unfold literalValue tryToParseTimePart tryCombineTimePart literal concatStrs
  moves
  all_goals first | exact h1 _ _ | exact h2 _ _ _ _ _

theorem moves_parseStringValue (i : Nat) : Moves (parseStringValue E i) := by
  unfold parseStringValue getString; moves

theorem moves_parseLiteralValue (i : Nat) : Moves (parseLiteralValue E i) := by
  unfold parseLiteralValue literal
  exact moves_next.bind fun t => (moves_lift _).bind fun _ => (moves_combine _ _).bind fun r => moves_literalValue _ _

theorem moves_parseDotValue (t : Token) : Moves (parseDotValue E t) := by
  have h1 := fun l sp => moves_combine (E := E) l sp
  have h2 := moves_fmt (E := E) t
  unfold parseDotValue literal extendStrFront
  moves
  exact h1 _ _

/-! ## Comments -/

theorem addComment_storage {r a : CommentRange} {c : Comment} {p : AssocPos} {s s' : PS} (h : addComment r c p s = .ok a s') :
    s' = s.stored [⟨p, r.level, c⟩] ∧ a.start = r.start := by
  unfold addComment at h
  obtain ⟨id, s1, h1, h2⟩ := bind_inv h
  cases h1
  obtain ⟨h3, rfl⟩ := lift_inv h2
  exact ⟨rfl, append_start h3⟩

theorem eatComment_run {o : Option Comment} {s s' : PS} (h : eatComment E s = .ok o s') :
    (o = none ∧ s' = s) ∨ ∃ c, o = some c ∧ c.span.start = (pk E s).start ∧ s' = s.adv ∧ ∃ id, (pk E s).ty = .comment id := by
  unfold eatComment at h
  rw [bind_peek] at h
  generalize hty : (pk E s).ty = ty at h
  split at h
  · rw [bind_next] at h
    unfold getComment at h
    obtain ⟨c, hc, h⟩ := bind_lift_inv h
    obtain ⟨rfl, rfl⟩ := pure_inv h
    obtain ⟨l, -, rfl⟩ := Option.map_eq_some_iff.1 hc
    exact .inr ⟨_, rfl, rfl, rfl, _, rfl⟩
  · obtain ⟨rfl, rfl⟩ := pure_inv h
    exact .inl ⟨rfl, rfl⟩

theorem adv_rest (hE : EnvEof E) {s : PS} (h : (pk E s).ty ≠ .eof) : s.rest = pk E s :: s.adv.rest := by
  unfold PS.adv pk at *
  cases hr : s.rest with
  | nil => rw [hr] at h; exact absurd hE.eof h
  | cons t ts => rfl

theorem eatLoop_run (hE : EnvEof E) : ∀ n {o : Option Comment} {s s' : PS}, eatCommentAndNewlinesLoop E n s = .ok o s' →
    s'.storage = s.storage ∧
    ((o = none ∧ (rps s'.rest).Sublist (rps s.rest)) ∨
      ∃ c, o = some c ∧ (c.span.start :: rps s'.rest).Sublist (rps s.rest)) := by
  intro n
  induction n with
  | zero => intro o s s' h; cases h
  | succ n ih =>
    intro o s s' h
    unfold eatCommentAndNewlinesLoop at h
    rw [bind_peek] at h
    generalize hty : (pk E s).ty = ty at h
    split at h
    · rw [bind_next] at h
      unfold getComment at h
      obtain ⟨c, hc, h⟩ := bind_lift_inv h
      obtain ⟨rfl, rfl⟩ := pure_inv h
      obtain ⟨l, -, rfl⟩ := Option.map_eq_some_iff.1 hc
      refine ⟨adv_storage, .inr ⟨_, rfl, ?_⟩⟩
      conv => rhs; rw [adv_rest hE (s := s) (by rw [hty]; simp)]
      exact List.Sublist.refl _
    · rw [bind_next] at h
      have hr := adv_rest hE (s := s) (by rw [hty]; simp)
      obtain ⟨h1, h2⟩ := ih h
      refine ⟨by rw [h1, adv_storage], ?_⟩
      have : (rps s.adv.rest).Sublist (rps s.rest) := by
        rw [hr]; exact List.sublist_cons_self _ _
      rcases h2 with ⟨rfl, h2⟩ | ⟨c, rfl, h2⟩
      · exact .inl ⟨rfl, h2.trans this⟩
      · exact .inr ⟨c, rfl, h2.trans this⟩
    · obtain ⟨rfl, rfl⟩ := pure_inv h
      exact ⟨rfl, .inl ⟨rfl, List.Sublist.refl _⟩⟩

theorem contained_run (hE : EnvEof E) : ∀ n {r a : CommentRange} {s s' : PS}, containedComments E n r s = .ok a s' →
    Adv s s' ∧ a.start = r.start := by
  intro n
  induction n with
  | zero => intro r a s s' h; cases h
  | succ n ih =>
    intro r a s s' h
    unfold containedComments at h
    obtain ⟨o, s1, h1, h⟩ := bind_inv h
    unfold eatCommentAndNewlines at h1
    rw [bind_budget] at h1
    obtain ⟨e1, e2⟩ := eatLoop_run hE _ h1
    rcases e2 with ⟨rfl, e2⟩ | ⟨c, rfl, e2⟩
    · obtain ⟨rfl, rfl⟩ := pure_inv h
      exact ⟨⟨[], by simp [e1], by simpa using e2⟩, rfl⟩
    · dsimp only at h
      obtain ⟨r1, s2, h2, h⟩ := bind_inv h
      obtain ⟨rfl, hr⟩ := addComment_storage h2
      obtain ⟨h3, h4⟩ := ih h
      refine ⟨Adv.trans ⟨[c.span.start], by simp [cps, PS.stored, e1], by simpa [PS.stored] using e2⟩ h3, by rw [h4, hr]⟩

theorem lineEnd_run (hE : EnvEof E) {r a : CommentRange} {s s' : PS} (h : lineEndComment E r s = .ok a s') :
    Adv s s' ∧ a.start = r.start := by
  unfold lineEndComment at h
  obtain ⟨o, s1, h1, h'⟩ := bind_inv h
  rcases eatComment_run h1 with ⟨rfl, rfl⟩ | ⟨c, rfl, e1, rfl, id, hty⟩
  · obtain ⟨rfl, rfl⟩ := pure_inv h'
    exact ⟨.refl _, rfl⟩
  · dsimp only at h'
    obtain ⟨rfl, hr⟩ := addComment_storage h'
    refine ⟨⟨[c.span.start], by simp [cps, PS.stored, adv_storage], ?_⟩, hr⟩
    conv => rhs; rw [adv_rest hE (s := s) (by rw [hty]; simp)]
    rw [e1]
    exact List.Sublist.refl _

theorem cps_markAboveLoop {level : Nat} : ∀ (cs : List AssocComment) (line i : Nat), cps (markAboveLoop level cs line i).1 = cps cs := by
  intro cs
  induction cs with
  | nil => intro line i; rfl
  | cons c cs ih =>
    intro line i
    unfold markAboveLoop
    split
    · have := ih (line - 1) (i + 1)
      simp only [cps, List.map_cons] at this ⊢
      rw [this]
    · rfl

theorem moves_markAbove (line level : Nat) : Moves (markCommentsAbove line level) := by
  refine ⟨fun s a s' h => ?_⟩
  unfold markCommentsAbove at h
  cases h
  refine ⟨[], ?_, by simp⟩
  have := cps_markAboveLoop (level := level) s.storage.reverse line 0
  simp only [cps, List.map_reverse, List.append_nil] at this ⊢
  rw [this, List.reverse_reverse]

theorem moves_markContained (r : CommentRange) (level : Nat) : Moves (markContainedComments r level) := by
  refine ⟨fun s a s' h => ?_⟩
  unfold markContainedComments at h
  split at h
  · cases h
    refine ⟨[], ?_, by simp⟩
    have : ∀ l : List AssocComment, (l.map (AssocComment.raise level)).map (·.comment.span.start) = l.map (·.comment.span.start) := by
      intro l
      rw [List.map_map]
      apply List.map_congr_left
      intro c _
      simp only [Function.comp, AssocComment.raise]
      split <;> rfl
    simp only [cps, List.map_append, this, List.append_nil]
    rw [← List.map_append, ← List.map_append, ← List.drop_drop, List.append_assoc, List.take_append_drop, List.take_append_drop]
  · cases h

/-! ## Arrays -/

/-- The comments of the array are those between `p` and `q`. -/
def RangeOk (st : List Pos) (r : CommentRange) (p q : Pos) : Prop :=
  r.start + r.len ≤ st.length ∧
  ∀ i c, st[i]? = some c → (Sooner p c ∧ Sooner c q ↔ r.start ≤ i ∧ i < r.start + r.len)

/-- Every closed array of the value has the comments between its brackets; `R` are places behind all of them. -/
def ArrGood (st R : List Pos) (v : Value) : Prop :=
  ∀ arr q, ArrayIn arr v → arr.stop = .par q → RangeOk st arr.comments arr.lPar q ∧ ∀ p ∈ R, Sooner q p

theorem ArrGood.mono {st R new R' : List Pos} {v : Value} (h : ArrGood st R v) (hs : (new ++ R').Sublist R) :
    ArrGood (st ++ new) R' v := by
  intro arr q h1 h2
  obtain ⟨⟨h3, h4⟩, h5⟩ := h arr q h1 h2
  refine ⟨⟨by simp; omega, ?_⟩, fun p hp => h5 p (hs.subset (by simp [hp]))⟩
  intro i c hi
  by_cases hl : i < st.length
  · rw [List.getElem?_append_left hl] at hi
    exact h4 i c hi
  · rw [List.getElem?_append_right (by omega)] at hi
    have hc : c ∈ new := List.mem_of_getElem? hi
    have := h5 c (hs.subset (by simp [hc]))
    constructor
    · intro h6; exact (sooner_irrefl (sooner_trans this h6.2)).elim
    · intro h6; omega

theorem ArrGood.adv {s s' : PS} {v : Value} (h : ArrGood (cps s.storage) (rps s.rest) v) (ha : Adv s s') :
    ArrGood (cps s'.storage) (rps s'.rest) v := by
  obtain ⟨new, h1, h2⟩ := ha
  rw [h1]
  exact h.mono h2

/-- The arrays of the value start at tokens. -/
def StartsIn (R : List Pos) (v : Value) : Prop := ∀ arr, ArrayIn arr v → arr.lPar ∈ R

theorem StartsIn.mono {R R' : List Pos} {v : Value} (h : StartsIn R' v) (hs : R'.Sublist R) : StartsIn R v :=
  fun arr ha => hs.subset (h arr ha)

theorem Adv.rest {s s' : PS} (h : Adv s s') : (rps s'.rest).Sublist (rps s.rest) := by
  obtain ⟨new, -, h2⟩ := h
  exact (List.sublist_append_right _ _).trans h2

/-- What is known of a value that has been read. -/
structure ValRun (s s' : PS) (v : Value) : Prop where
  arrs : ArrGood (cps s'.storage) (rps s'.rest) v
  starts : StartsIn (rps s.rest) v

theorem ValRun.after {s s' s'' : PS} {v : Value} (h : ValRun s s' v) (ha : Adv s' s'') : ValRun s s'' v := ⟨h.arrs.adv ha, h.starts⟩

theorem ValRun.before {s s' s0 : PS} {v : Value} (h : ValRun s s' v) (ha : Adv s0 s) : ValRun s0 s' v := ⟨h.arrs, h.starts.mono ha.rest⟩

/-- The computation reads a value. -/
structure ReadsVal (elem : M (Except Error Value)) : Prop where
  out : ∀ s r s', Srt s → elem s = .ok r s' → Adv s s' ∧ ∀ v, r = .ok v → ValRun s s' v

/-- The values of the state of an array loop. -/
def ArrStOk (s0 s : PS) (n : Nat) (st : ArrSt) : Prop := st.comments.start = n ∧ ∀ v ∈ st.values, ValRun s0 s v.val

theorem ArrStOk.adv {s0 s s' : PS} {n : Nat} {st : ArrSt} (h : ArrStOk s0 s n st) (ha : Adv s s') : ArrStOk s0 s' n st :=
  ⟨h.1, fun v hv => (h.2 v hv).after ha⟩

/-- What is known behind a round. -/
def RoundOk {σ : Type} (I : σ → Prop) : Round σ → Prop
  | .continue st => I st
  | .break st => I st
  | .return _ => True

theorem arrayAfterValue_arr (hE : EnvEof E) {level n : Nat} {st : ArrSt} {v : Value} {s0 s s' : PS} {r : Round ArrSt}
    (hs : ArrStOk s0 s n st) (hv : ValRun s0 s v) (h : arrayAfterValue E level st v s = .ok r s') :
    Adv s s' ∧ RoundOk (ArrStOk s0 s' n) r := by
  unfold arrayAfterValue at h
  obtain ⟨r1, s1, h1, h⟩ := bind_inv h
  have a1 := (moves_markAbove _ _).out _ _ _ h1
  obtain ⟨r2, s2, h2, h⟩ := bind_inv h
  have a2 := a1.trans (lineEnd_run hE h2).1
  rw [bind_budget] at h
  obtain ⟨cm, s3, h3, h⟩ := bind_inv h
  obtain ⟨a3, e3⟩ := contained_run hE _ h3
  have a3 := a2.trans a3
  rw [bind_peek] at h
  have fin : ∀ {s4 : PS} (x : InlineArrayValue), x.val = v → Adv s s4 → ArrStOk s0 s4 n ⟨cm, st.values ++ [x]⟩ := by
    intro s4 x hx ha
    refine ⟨by rw [e3]; exact hs.1, fun y hy => ?_⟩
    rcases List.mem_append.1 hy with hy | hy
    · exact (hs.2 y hy).after ha
    · rw [List.mem_singleton.1 hy, hx]; exact hv.after ha
  split at h
  · rw [bind_nextId] at h
    obtain ⟨r4, -, h⟩ := bind_lift_inv h
    obtain ⟨_, s5, h5, h⟩ := bind_inv h
    have a5 := a3.trans ((moves_markContained _ _).out _ _ _ h5)
    obtain ⟨c, s6, h6, h⟩ := bind_inv h
    have a6 := a5.trans (moves_next.out _ _ _ h6)
    obtain ⟨r7, s7, h7, h⟩ := bind_inv h
    have a7 := a6.trans (lineEnd_run hE h7).1
    obtain ⟨rfl, rfl⟩ := pure_inv h
    exact ⟨a7, fin _ rfl a7⟩
  · split at h
    · obtain ⟨rfl, rfl⟩ := pure_inv h
      exact ⟨a3, fin _ rfl a3⟩
    · obtain ⟨_, s4, h4, h⟩ := bind_inv h
      have a4 := a3.trans ((moves_error _).out _ _ _ h4)
      obtain ⟨rfl, rfl⟩ := pure_inv h
      exact ⟨a4, fin _ rfl a4⟩

theorem arrayRecover_arr {n : Nat} {st : ArrSt} {s0 s s' : PS} {r : Round ArrSt}
    (hs : ArrStOk s0 s n st) (h : arrayRecover E st s = .ok r s') : Adv s s' ∧ RoundOk (ArrStOk s0 s' n) r := by
  unfold arrayRecover at h
  obtain ⟨_, s1, h1, h⟩ := bind_inv h
  have a1 := (moves_recover _).out _ _ _ h1
  rw [bind_peek] at h
  generalize (pk E s1).ty = ty at h
  split at h
  · obtain ⟨rfl, rfl⟩ := pure_inv h; exact ⟨a1, hs.adv a1⟩
  · obtain ⟨rfl, rfl⟩ := pure_inv h; exact ⟨a1, hs.adv a1⟩
  · obtain ⟨_, s2, h2, h⟩ := bind_inv h
    have a2 := a1.trans (moves_next.out _ _ _ h2)
    obtain ⟨rfl, rfl⟩ := pure_inv h; exact ⟨a2, hs.adv a2⟩

theorem arrayRound_arr (hE : EnvEof E) {elem : M (Except Error Value)} (hel : ReadsVal elem) {level n : Nat} {st : ArrSt}
    {s0 s s' : PS} {r : Round ArrSt} (h0 : Srt s) (h00 : Adv s0 s) (hs : ArrStOk s0 s n st) (h : arrayRound E elem level st s = .ok r s') :
    Adv s s' ∧ RoundOk (ArrStOk s0 s' n) r := by
  unfold arrayRound at h
  rw [bind_budget] at h
  obtain ⟨cm, s1, h1, h⟩ := bind_inv h
  obtain ⟨a1, e1⟩ := contained_run hE _ h1
  dsimp only at h
  rw [bind_peek] at h
  have hs1 : ArrStOk s0 s1 n { st with comments := cm } := ⟨by rw [← hs.1]; exact e1, (hs.adv a1).2⟩
  split at h
  · obtain ⟨rfl, rfl⟩ := pure_inv h
    exact ⟨a1, hs1⟩
  · obtain ⟨rv, s2, h2, h⟩ := bind_inv h
    obtain ⟨a2, e2⟩ := hel.out _ _ _ (h0.adv a1) h2
    split at h
    · obtain ⟨a3, e3⟩ := arrayAfterValue_arr hE (hs1.adv a2) ((e2 _ rfl).before (h00.trans a1)) h
      exact ⟨(a1.trans a2).trans a3, e3⟩
    · obtain ⟨rfl, rfl⟩ := pure_inv h
      exact ⟨a1.trans a2, trivial⟩
    · obtain ⟨_, s3, h3, h⟩ := bind_inv h
      have a3 := (moves_error _).out _ _ _ h3
      obtain ⟨a4, e4⟩ := arrayRecover_arr (hs1.adv (a2.trans a3)) h
      exact ⟨((a1.trans a2).trans a3).trans a4, e4⟩

theorem arrayLoop_arr (hE : EnvEof E) {elem : M (Except Error Value)} (hel : ReadsVal elem) {level n : Nat} {s0 : PS} :
    ∀ k {st : ArrSt} {s s' : PS} {r : Except Error ArrSt}, Srt s → Adv s0 s → ArrStOk s0 s n st →
    loopM (arrayRound E elem level) k st s = .ok r s' → Adv s s' ∧ ∀ st', r = .ok st' → ArrStOk s0 s' n st' := by
  intro k
  induction k with
  | zero => intro st s s' r _ _ _ h; cases h
  | succ k ih =>
    intro st s s' r h0 h00 hs h
    unfold loopM at h
    obtain ⟨rd, s1, h1, h⟩ := bind_inv h
    obtain ⟨a1, e1⟩ := arrayRound_arr hE hel h0 h00 hs h1
    split at h
    · obtain ⟨a2, e2⟩ := ih (h0.adv a1) (h00.trans a1) e1 h
      exact ⟨a1.trans a2, e2⟩
    · obtain ⟨rfl, rfl⟩ := pure_inv h
      exact ⟨a1, by rintro st' ⟨⟩; exact e1⟩
    · obtain ⟨rfl, rfl⟩ := pure_inv h
      exact ⟨a1, by rintro st' ⟨⟩⟩

theorem arrayClose_run {lPar : Pos} {o : Option Pos} {s s' : PS} (h : arrayClose E lPar s = .ok o s') :
    Adv s s' ∧ ∀ q, o = some q → (pk E s).ty = .squareRight ∧ q = (pk E s).start ∧ s' = s.adv := by
  unfold arrayClose at h
  rw [bind_peek] at h
  split at h
  · rename_i hty
    have h' := h
    rw [bind_next] at h
    obtain ⟨rfl, rfl⟩ := pure_inv h
    obtain ⟨t, s1, h1, h'⟩ := bind_inv h'
    have := moves_next.out _ _ _ h1
    obtain ⟨-, rfl⟩ := pure_inv h'
    exact ⟨this, by rintro q ⟨⟩; exact ⟨hty, rfl, rfl⟩⟩
  · obtain ⟨⟨f, sp⟩, s1, h1, h⟩ := bind_inv h
    have a1 := (moves_fmt _).out _ _ _ h1
    dsimp only at h
    obtain ⟨p, s2, h2, h⟩ := bind_inv h
    have a2 := a1.trans (moves_peekPrev.out _ _ _ h2)
    obtain ⟨_, s3, h3, h⟩ := bind_inv h
    have a3 := a2.trans ((moves_error _).out _ _ _ h3)
    obtain ⟨rfl, rfl⟩ := pure_inv h
    exact ⟨a3, by rintro q ⟨⟩⟩

theorem parseArray_arr (hE : EnvEof E) {elem : M (Except Error Value)} (hel : ReadsVal elem) {level : Nat} {s s' : PS}
    {r : Except Error Value} (h0 : Srt s) (hty : (pk E s).ty = .squareLeft) (h : parseArray E elem level (pk E s).start s = .ok r s') :
    Adv s s' ∧ ∀ v, r = .ok v → ValRun s s' v := by
  unfold parseArray at h
  rw [bind_next] at h
  have hr := adv_rest hE (s := s) (by rw [hty]; simp)
  have a0 : Adv s s.adv := ⟨[], by simp [adv_storage], by
    conv => rhs; rw [hr]
    exact List.sublist_cons_self _ _⟩
  split at h
  · obtain ⟨_, s1, h1, h⟩ := bind_inv h
    have a1 := a0.trans (moves_jump.out _ _ _ h1)
    obtain ⟨rfl, rfl⟩ := pure_inv h
    exact ⟨a1, by rintro v ⟨⟩⟩
  · rw [bind_nextId] at h
    obtain ⟨cm, s1, h1, h⟩ := bind_inv h
    obtain ⟨a1, e1⟩ := lineEnd_run hE h1
    rw [bind_budget] at h
    obtain ⟨rl, s2, h2, h⟩ := bind_inv h
    obtain ⟨a2, e2⟩ := arrayLoop_arr hE hel _ (n := s.adv.storage.length) ((h0.adv a0).adv a1) (a0.trans a1) ⟨e1, by simp⟩ h2
    split at h
    · obtain ⟨rfl, rfl⟩ := pure_inv h
      exact ⟨(a0.trans a1).trans a2, by rintro v ⟨⟩⟩
    · rename_i st'
      have e2 := e2 _ rfl
      obtain ⟨o, s3, h3, h⟩ := bind_inv h
      obtain ⟨a3, e3⟩ := arrayClose_run h3
      rw [bind_nextId] at h
      obtain ⟨cm2, hcm, h⟩ := bind_lift_inv h
      obtain ⟨_, s4, h4, h⟩ := bind_inv h
      have a4 := (moves_markContained _ _).out _ _ _ h4
      obtain ⟨rfl, rfl⟩ := pure_inv h
      have a13 := (a1.trans a2)
      refine ⟨(((a0.trans a1).trans a2).trans a3).trans a4, ?_⟩
      rintro v ⟨⟩
      have hin : ∀ x ∈ st'.values, ValRun s s4 x.val := fun x hx => (e2.2 x hx).after (a3.trans a4)
      refine ⟨?_, ?_⟩
      · intro arr q harr hstop
        cases harr with
        | inArray hx ha => exact (hin _ hx).arrs arr q ha hstop
        | here =>
          dsimp only at hstop ⊢
          unfold endOf at hstop
          split at hstop
          · rename_i p
            cases hstop
            obtain ⟨hty3, hq, hs3⟩ := e3 _ rfl
            subst hs3
            have hr2 := adv_rest hE (s := s2) (by rw [hty3]; simp)
            have hstart := extendTo_start hcm
            have hlen : cm2.start + cm2.len = s2.storage.length := by
              unfold CommentRange.extendTo at hcm
              obtain ⟨d, hd, hcm⟩ := Option.bind_eq_some_iff.1 hcm
              cases hcm
              unfold subU at hd
              split at hd
              · cases hd
                rw [adv_storage] at *
                dsimp only
                omega
              · cases hd
            obtain ⟨new4, n1, n2⟩ := a4
            have hnil : new4 = [] ∧ cps s4.storage = cps s2.storage := by
              unfold markContainedComments at h4
              split at h4
              · have hl : s4.storage.length = s2.storage.length := by
                  cases h4
                  rw [adv_storage] at *
                  simp
                  omega
                have := congrArg List.length n1
                simp [cps, adv_storage, hl] at this
                refine ⟨this, by rw [n1, this, adv_storage]; simp⟩
              · cases h4
            obtain ⟨rfl, hst4⟩ := hnil
            have hrest4 : (rps s4.rest).Sublist (rps s2.adv.rest) := by simpa using n2
            obtain ⟨new, m1, m2⟩ := a13
            have hsrt := h0
            unfold Srt at hsrt
            rw [hr] at hsrt
            have hS : (cps s.storage ++ ((pk E s).start :: rps s.adv.rest)).Pairwise Sooner := hsrt
            have hS2 := (hS.sublist (List.Sublist.append_left (List.Sublist.cons_cons _ m2) _))
            rw [hr2] at hS2
            change (cps s.storage ++ ((pk E s).start :: (new ++ ((pk E s2).start :: rps s2.adv.rest)))).Pairwise Sooner at hS2
            rw [adv_storage] at m1
            have hn0 : cm2.start = s.storage.length := by rw [hstart, e2.1, adv_storage]
            obtain ⟨-, p2, p3⟩ := List.pairwise_append.1 hS2
            obtain ⟨p4, p5⟩ := List.pairwise_cons.1 p2
            obtain ⟨-, p6, p7⟩ := List.pairwise_append.1 p5
            obtain ⟨p8, -⟩ := List.pairwise_cons.1 p6
            rw [hst4]
            refine ⟨⟨by simp [cps, hlen], ?_⟩, fun p hp => ?_⟩
            · intro i c hi
              rw [m1] at hi
              have hlm := congrArg List.length m1
              simp [cps] at hlm
              by_cases hil : i < s.storage.length
              · rw [List.getElem?_append_left (by simpa [cps] using hil)] at hi
                have : Sooner c (pk E s).start := p3 c (List.mem_of_getElem? hi) _ (by simp)
                constructor
                · intro hb; exact (sooner_irrefl (sooner_trans this hb.1)).elim
                · intro hb; omega
              · rw [List.getElem?_append_right (by simpa [cps] using hil)] at hi
                have hc : c ∈ new := List.mem_of_getElem? hi
                have hi' := (List.getElem?_eq_some_iff.1 hi).1
                simp only [cps, List.length_map] at hi'
                constructor
                · intro _; omega
                · intro _
                  rw [hq]
                  exact ⟨p4 c (by simp [hc]), p7 c hc _ (by simp)⟩
            · rw [hq]
              exact p8 p (hrest4.subset hp)
          · cases hstop
      · intro arr harr
        cases harr with
        | inArray hx ha => exact (hin _ hx).starts arr ha
        | here =>
          dsimp only
          show (pk E s).start ∈ rps s.rest
          have : rps s.rest = (pk E s).start :: rps s.adv.rest := by
            conv => lhs; rw [hr]
            rfl
          rw [this]; simp

/-! ## Inline tables -/

/-- The values of the state of the loop over an inline table. -/
def TabStOk (s0 s : PS) (st : TabSt) : Prop := ∀ v ∈ st.assignments, ValRun s0 s v.assignment.val

theorem TabStOk.adv {s0 s s' : PS} {st : TabSt} (h : TabStOk s0 s st) (ha : Adv s s') : TabStOk s0 s' st :=
  fun v hv => (h v hv).after ha

theorem tableRecover_arr {st : TabSt} {s0 s s' : PS} {r : Round TabSt}
    (hs : TabStOk s0 s st) (h : tableRecover E st s = .ok r s') : Adv s s' ∧ RoundOk (TabStOk s0 s') r := by
  unfold tableRecover at h
  obtain ⟨_, s1, h1, h⟩ := bind_inv h
  have a1 := (moves_recover _).out _ _ _ h1
  rw [bind_peek] at h
  split at h
  · obtain ⟨_, s2, h2, h⟩ := bind_inv h
    have a2 := a1.trans (moves_next.out _ _ _ h2)
    obtain ⟨rfl, rfl⟩ := pure_inv h; exact ⟨a2, hs.adv a2⟩
  · obtain ⟨rfl, rfl⟩ := pure_inv h; exact ⟨a1, hs.adv a1⟩

theorem tableAfterValue_arr {st : TabSt} {a : Assignment} {s0 s s' : PS} {r : Round TabSt}
    (hs : TabStOk s0 s st) (hv : ValRun s0 s a.val) (h : tableAfterValue E st a s = .ok r s') :
    Adv s s' ∧ RoundOk (TabStOk s0 s') r := by
  have fin : ∀ {s4 : PS} (x : InlineTableAssignment) (c : Option Pos), x.assignment.val = a.val → Adv s s4 →
      TabStOk s0 s4 ⟨st.assignments ++ [x], c⟩ := by
    intro s4 x c hx ha y hy
    rcases List.mem_append.1 hy with hy | hy
    · exact (hs y hy).after ha
    · rw [List.mem_singleton.1 hy, hx]; exact hv.after ha
  unfold tableAfterValue at h
  rw [bind_peek] at h
  split at h
  · obtain ⟨c, s2, h2, h⟩ := bind_inv h
    have a2 := moves_next.out _ _ _ h2
    obtain ⟨rfl, rfl⟩ := pure_inv h; exact ⟨a2, fin _ _ rfl a2⟩
  · split at h
    · obtain ⟨rfl, rfl⟩ := pure_inv h; exact ⟨.refl _, fin _ _ rfl (.refl _)⟩
    · obtain ⟨_, s4, h4, h⟩ := bind_inv h
      have a4 := (moves_error _).out _ _ _ h4
      obtain ⟨rfl, rfl⟩ := pure_inv h
      exact ⟨a4, fin _ _ rfl a4⟩

theorem tableRound_arr {elem : M (Except Error Value)} (hel : ReadsVal elem) {st : TabSt}
    {s0 s s' : PS} {r : Round TabSt} (h0 : Srt s) (h00 : Adv s0 s) (hs : TabStOk s0 s st) (h : tableRound E elem st s = .ok r s') :
    Adv s s' ∧ RoundOk (TabStOk s0 s') r := by
  unfold tableRound at h
  rw [bind_peek] at h
  split at h
  · obtain ⟨_, s1, h1, h⟩ := bind_inv h
    have a1 : Adv s s1 := (show Moves (trailingComma st.comma) by unfold trailingComma; moves).out _ _ _ h1
    obtain ⟨rfl, rfl⟩ := pure_inv h; exact ⟨a1, hs.adv a1⟩
  · obtain ⟨k, s1, h1, h⟩ := bind_inv h
    have a1 := moves_parseKey.out _ _ _ h1
    split at h
    · unfold tableAfterKey at h
      rw [bind_peek] at h
      split at h
      · obtain ⟨e, s2, h2, h⟩ := bind_inv h
        have a2 := a1.trans (moves_next.out _ _ _ h2)
        obtain ⟨rv, s3, h3, h⟩ := bind_inv h
        obtain ⟨a3, e3⟩ := hel.out _ _ _ (h0.adv a2) h3
        split at h
        · obtain ⟨a4, e4⟩ := tableAfterValue_arr (hs.adv (a2.trans a3)) ((e3 _ rfl).before (h00.trans a2)) h
          exact ⟨(a2.trans a3).trans a4, e4⟩
        · obtain ⟨rfl, rfl⟩ := pure_inv h
          exact ⟨a2.trans a3, trivial⟩
        · obtain ⟨_, s4, h4, h⟩ := bind_inv h
          have a4 := (a2.trans a3).trans ((moves_error _).out _ _ _ h4)
          obtain ⟨a5, e5⟩ := tableRecover_arr (hs.adv a4) h
          exact ⟨a4.trans a5, e5⟩
      · obtain ⟨⟨f, sp⟩, s2, h2, h⟩ := bind_inv h
        have a2 := a1.trans ((moves_fmt _).out _ _ _ h2)
        dsimp only at h
        obtain ⟨_, s4, h4, h⟩ := bind_inv h
        have a4 := a2.trans ((moves_error _).out _ _ _ h4)
        obtain ⟨a5, e5⟩ := tableRecover_arr (hs.adv a4) h
        exact ⟨a4.trans a5, e5⟩
    · obtain ⟨rfl, rfl⟩ := pure_inv h; exact ⟨a1, hs.adv a1⟩
    · obtain ⟨_, s4, h4, h⟩ := bind_inv h
      have a4 := a1.trans ((moves_error _).out _ _ _ h4)
      obtain ⟨a5, e5⟩ := tableRecover_arr (hs.adv a4) h
      exact ⟨a4.trans a5, e5⟩

theorem tableLoop_arr {elem : M (Except Error Value)} (hel : ReadsVal elem) {s0 : PS} :
    ∀ k {st : TabSt} {s s' : PS} {r : Except Error TabSt}, Srt s → Adv s0 s → TabStOk s0 s st →
    loopM (tableRound E elem) k st s = .ok r s' → Adv s s' ∧ ∀ st', r = .ok st' → TabStOk s0 s' st' := by
  intro k
  induction k with
  | zero => intro st s s' r _ _ _ h; cases h
  | succ k ih =>
    intro st s s' r h0 h00 hs h
    unfold loopM at h
    obtain ⟨rd, s1, h1, h⟩ := bind_inv h
    obtain ⟨a1, e1⟩ := tableRound_arr hel h0 h00 hs h1
    split at h
    · obtain ⟨a2, e2⟩ := ih (h0.adv a1) (h00.trans a1) e1 h
      exact ⟨a1.trans a2, e2⟩
    · obtain ⟨rfl, rfl⟩ := pure_inv h
      exact ⟨a1, by rintro st' ⟨⟩; exact e1⟩
    · obtain ⟨rfl, rfl⟩ := pure_inv h
      exact ⟨a1, by rintro st' ⟨⟩⟩

theorem parseTable_arr {elem : M (Except Error Value)} (hel : ReadsVal elem) {level : Nat} {s s' : PS} {lp : Pos}
    {r : Except Error Value} (h0 : Srt s) (h : parseTable E elem level lp s = .ok r s') :
    Adv s s' ∧ ∀ v, r = .ok v → ValRun s s' v := by
  unfold parseTable at h
  obtain ⟨_, s0, h1, h⟩ := bind_inv h
  have a0 := moves_next.out _ _ _ h1
  split at h
  · obtain ⟨_, s1, h1, h⟩ := bind_inv h
    have a1 := a0.trans (moves_jump.out _ _ _ h1)
    obtain ⟨rfl, rfl⟩ := pure_inv h
    exact ⟨a1, by rintro v ⟨⟩⟩
  · rw [bind_budget] at h
    obtain ⟨rl, s2, h2, h⟩ := bind_inv h
    obtain ⟨a2, e2⟩ := tableLoop_arr hel _ (h0.adv a0) a0 (by intro v hv; cases hv) h2
    split at h
    · obtain ⟨rfl, rfl⟩ := pure_inv h
      exact ⟨a0.trans a2, by rintro v ⟨⟩⟩
    · obtain ⟨o, s3, h3, h⟩ := bind_inv h
      have a3 : Adv s2 s3 := (show Moves (tableClose E lp) by
        unfold tableClose tokenFmtStrAndSpan tokenFmtStr tokenSpan; moves).out _ _ _ h3
      obtain ⟨rfl, rfl⟩ := pure_inv h
      refine ⟨(a0.trans a2).trans a3, ?_⟩
      rintro v ⟨⟩
      refine ⟨?_, ?_⟩
      · intro arr q harr hstop
        cases harr with
        | inTable hx ha => exact ((e2 _ rfl _ hx).after a3).arrs arr q ha hstop
      · intro arr harr
        cases harr with
        | inTable hx ha => exact (e2 _ rfl _ hx).starts arr ha

/-- A value without arrays. -/
theorem ValRun.scal {s s' : PS} {v : Value} (h : Scal v) : ValRun s s' v := by
  refine ⟨fun arr q ha _ => ?_, fun arr ha => ?_⟩ <;>
  · cases ha with
    | here => exact absurd rfl (h.2 _)
    | inArray _ _ => exact absurd rfl (h.2 _)
    | inTable _ _ => exact absurd rfl (h.1 _)

theorem parseDot_scal {t : Token} : Ens (parseDotValue E t) (fun r => ∀ v, r = .ok v → Scal v) := by
  unfold parseDotValue
  refine Ens.bind' fun _ => Ens.bind' fun _ => Ens.bind' fun u => ?_
  split
  · split
    · refine Ens.bind' fun _ => Ens.bind' fun _ => Ens.bind' fun _ => Ens.bind' fun p => Ens.pure ?_
      rintro v ⟨⟩; simp [Scal]
    · exact Ens.bind' fun _ => Ens.pure (by rintro v ⟨⟩)
  · exact Ens.bind' fun _ => Ens.pure (by rintro v ⟨⟩)

theorem parseValue_arr (hE : EnvEof E) : ∀ d level, ReadsVal (parseValue E d level) := by
  intro d
  induction d with
  | zero => intro level; exact ⟨fun s r s' _ h => by cases h⟩
  | succ d ih =>
    intro level
    refine ⟨fun s r s' h0 h => ?_⟩
    unfold parseValue at h
    rw [bind_peek] at h
    generalize hty : (pk E s).ty = ty at h
    split at h
    · obtain ⟨v, s1, h1, h⟩ := bind_inv h
      obtain ⟨rfl, rfl⟩ := pure_inv h
      refine ⟨(moves_parseStringValue _).out _ _ _ h1, ?_⟩
      rintro w ⟨⟩
      refine .scal ?_
      unfold parseStringValue getString at h1
      rw [bind_next] at h1
      obtain ⟨st, -, h1⟩ := bind_lift_inv h1
      obtain ⟨rfl, rfl⟩ := pure_inv h1
      simp [Scal]
    · obtain ⟨v, s1, h1, h⟩ := bind_inv h
      obtain ⟨rfl, rfl⟩ := pure_inv h
      refine ⟨(moves_parseLiteralValue _).out _ _ _ h1, ?_⟩
      rintro w ⟨⟩
      refine .scal ?_
      have : ∀ i, Ens (parseLiteralValue E i) Scal := by
        intro i
        unfold parseLiteralValue
        exact Ens.bind' fun _ => Ens.bind' fun _ => Ens.bind' fun _ => literalValue_scal _ _
      exact this _ _ _ _ h1
    · refine ⟨(moves_parseDotValue _).out _ _ _ h, fun v hv => .scal (parseDot_scal _ _ _ h v hv)⟩
    · exact parseArray_arr hE (ih _) h0 hty h
    · exact parseTable_arr (ih _) h0 h
    · obtain ⟨⟨f, sp⟩, s2, h2, h⟩ := bind_inv h
      have a2 := (moves_fmt _).out _ _ _ h2
      obtain ⟨rfl, rfl⟩ := pure_inv h
      exact ⟨a2, by rintro v ⟨⟩⟩

end Verif.Toml
