import Verif.Toml.AssocInv
import Verif.Toml.SoundVal

/-! # Comments: a value adds comments only -/

namespace Verif.Toml
open Verif Verif.Spec.Toml

/-- The tokens to come and the new comments are not in front of the line `ℓ`; `old` are the comments before. -/
structure Fr (ℓ : Nat) (old : List AssocComment) (s : PS) : Prop where
  later : ∀ t ∈ s.rest, ℓ ≤ t.start.line
  stor : ∃ new, s.storage = old ++ new ∧ ∀ c ∈ new, ℓ ≤ c.comment.span.start.line

/-- The computation keeps this. -/
structure Keeps {α : Type} (ℓ : Nat) (old : List AssocComment) (m : M α) (Q : α → Prop) : Prop where
  out : ∀ s a s', Fr ℓ old s → m s = .ok a s' → Fr ℓ old s' ∧ Q a

/-- The computation keeps this whatever it returns. -/
abbrev Keep {α : Type} (ℓ : Nat) (old : List AssocComment) (m : M α) : Prop := Keeps ℓ old m fun _ => True

variable {α β : Type} {E : Env} {ℓ : Nat} {old : List AssocComment}

theorem Keeps.bind {m : M α} {f : α → M β} {Q : α → Prop} {R : β → Prop} (hm : Keeps ℓ old m Q)
    (hf : ∀ a, Q a → Keeps ℓ old (f a) R) : Keeps ℓ old (m >>= f) R := by
  refine ⟨fun s b s' h h1 => ?_⟩
  obtain ⟨a, s1, h2, h3⟩ := bind_inv h1
  obtain ⟨g1, g2⟩ := hm.out _ _ _ h h2
  exact (hf a g2).out _ _ _ g1 h3

theorem Keeps.bind' {m : M α} {f : α → M β} {R : β → Prop} (hm : Keep ℓ old m)
    (hf : ∀ a, Keeps ℓ old (f a) R) : Keeps ℓ old (m >>= f) R := hm.bind fun a _ => hf a

theorem Keeps.mono {m : M α} {Q R : α → Prop} (hm : Keeps ℓ old m Q) (h : ∀ a, Q a → R a) : Keeps ℓ old m R :=
  ⟨fun s a s' h1 h2 => ⟨(hm.out s a s' h1 h2).1, h a (hm.out s a s' h1 h2).2⟩⟩

theorem Keeps.keep {m : M α} {Q : α → Prop} (hm : Keeps ℓ old m Q) : Keep ℓ old m := hm.mono fun _ _ => trivial

theorem keeps_pure {Q : α → Prop} {a : α} (h : Q a) : Keeps ℓ old (pure a : M α) Q := by
  refine ⟨fun s b s' h1 h2 => ?_⟩
  obtain ⟨rfl, rfl⟩ := pure_inv h2
  exact ⟨h1, h⟩

theorem keeps_lift {Q : α → Prop} {o : Option α} (h : ∀ a, o = some a → Q a) : Keeps ℓ old (M.lift o) Q := by
  refine ⟨fun s b s' h1 h2 => ?_⟩
  obtain ⟨h3, rfl⟩ := lift_inv h2
  exact ⟨h1, h _ h3⟩

theorem keep_pure (a : α) : Keep ℓ old (pure a : M α) := keeps_pure trivial
theorem keep_lift (o : Option α) : Keep ℓ old (M.lift o) := keeps_lift fun _ _ => trivial
theorem keep_panic : Keep ℓ old (M.panic : M α) := by refine ⟨fun s a s' _ h => ?_⟩; cases h
theorem keeps_panic {Q : α → Prop} : Keeps ℓ old (M.panic : M α) Q := by refine ⟨fun s a s' _ h => ?_⟩; cases h
theorem keeps_timeout {Q : α → Prop} : Keeps ℓ old (M.timeout : M α) Q := by refine ⟨fun s a s' _ h => ?_⟩; cases h
theorem keep_timeout : Keep ℓ old (M.timeout : M α) := keeps_timeout
theorem keep_error (e : Error) : Keep ℓ old (error e) := by
  refine ⟨fun s a s' h1 h => ?_⟩; cases h; exact ⟨⟨h1.later, h1.stor⟩, trivial⟩
theorem keep_budget : Keep ℓ old budget := by refine ⟨fun s a s' h1 h => ?_⟩; cases h; exact ⟨h1, trivial⟩
theorem keep_peekPrev : Keep ℓ old peekPrev := by refine ⟨fun s a s' h1 h => ?_⟩; cases h; exact ⟨h1, trivial⟩
theorem keep_jump : Keep ℓ old jumpToEnd := by
  refine ⟨fun s a s' h1 h => ?_⟩; cases h; exact ⟨⟨by simp, h1.stor⟩, trivial⟩

/-- The line of a token. -/
def OnOrBehind (ℓ : Nat) (t : Token) : Prop := ℓ ≤ t.start.line

theorem keeps_peek (hE : ℓ ≤ E.eof.start.line) : Keeps ℓ old (peek E) (OnOrBehind ℓ) := by
  refine ⟨fun s a s' h1 h => ?_⟩
  cases h
  refine ⟨h1, ?_⟩
  cases hr : s.rest with
  | nil => exact hE
  | cons t ts => exact h1.later t (by rw [hr]; simp)

theorem keeps_next (hE : ℓ ≤ E.eof.start.line) : Keeps ℓ old (next E) (OnOrBehind ℓ) := by
  refine ⟨fun s a s' h1 h => ?_⟩
  unfold next at h
  split at h
  · rename_i t ts hr
    cases h
    exact ⟨⟨fun u hu => h1.later u (by rw [hr]; simp [hu]), h1.stor⟩, h1.later _ (by rw [hr]; simp)⟩
  · cases h
    exact ⟨h1, hE⟩

theorem keep_skip {stop : TokenType → Bool} : ∀ (ts : List Token) (s s' : PS), (∀ t ∈ ts, ℓ ≤ t.start.line) →
    Fr ℓ old s → skipUntil E stop ts s = .ok () s' → Fr ℓ old s' := by
  intro ts
  induction ts with
  | nil =>
    intro s s' _ h1 h
    unfold skipUntil at h
    split at h
    · cases h; exact ⟨by simp, h1.stor⟩
    · cases h
  | cons t ts ih =>
    intro s s' ht h1 h
    unfold skipUntil at h
    split at h
    · cases h; exact ⟨ht, h1.stor⟩
    · exact ih { s with done := t :: s.done } _ (fun u hu => ht u (by simp [hu])) ⟨h1.later, h1.stor⟩ h

theorem keep_recover (stop : TokenType → Bool) : Keep ℓ old (recoverOn E stop) := by
  refine ⟨fun s a s' h1 h => ?_⟩
  exact ⟨keep_skip _ _ _ h1.later h1 h, trivial⟩

theorem keeps_nextId : Keeps ℓ old nextCommentId fun n => old.length ≤ n := by
  refine ⟨fun s a s' h1 h => ?_⟩
  cases h
  refine ⟨h1, ?_⟩
  obtain ⟨new, h, -⟩ := h1.stor
  simp [h]

/-- Proves `Keep` where no comments are stored. -/
syntax "keeps" term : tactic
macro_rules
  | `(tactic| keeps $h) => `(tactic| repeat' first
    | assumption
    | exact keep_pure _ | exact (keeps_peek $h).keep | exact (keeps_next $h).keep | exact keep_peekPrev
    | exact keep_budget | exact keeps_nextId.keep | exact keep_error _
    | exact keep_jump | exact keep_panic | exact keep_timeout | exact keep_lift _ | exact keep_recover _
    | with_reducible apply Keeps.bind' | intro _ | split | dsimp only)

variable (hE : ℓ ≤ E.eof.start.line)
include hE

theorem keep_fmt (t : Token) : Keep ℓ old (tokenFmtStrAndSpan E t) := by
  unfold tokenFmtStrAndSpan tokenFmtStr tokenSpan; keeps hE
theorem keep_parseIdent : Keep ℓ old (parseIdent E) := by
  unfold parseIdent getString literal tokenFmtStrAndSpan tokenFmtStr tokenSpan
  keeps hE
theorem keep_parseKeyLoop : ∀ n ids, Keep ℓ old (parseKeyLoop E n ids) := by
  intro n
  induction n with
  | zero => intro ids; exact keep_timeout
  | succ n ih =>
    intro ids
    unfold parseKeyLoop
    refine Keeps.bind' (keep_parseIdent hE) fun r => ?_
    keeps hE
    exact ih _
theorem keep_parseKey : Keep ℓ old (parseKey E) := by
  unfold parseKey
  exact Keeps.bind' keep_budget fun n => keep_parseKeyLoop hE n _

/-- The span is not in front of the line. -/
def SpBehind (ℓ : Nat) (sp : Span) : Prop := ℓ ≤ sp.start.line ∧ ℓ ≤ sp.stop.line

theorem keeps_combineLoop : ∀ n lit sp, SpBehind ℓ sp → Keeps ℓ old (combineLoop E n lit sp) fun r => SpBehind ℓ r.2 := by
  intro n
  induction n with
  | zero => intro lit sp _; exact keeps_timeout
  | succ n ih =>
    intro lit sp hs
    unfold combineLoop
    refine (keeps_peek hE).keep.bind' fun t => ?_
    split
    · exact keeps_pure hs
    · split
      · unfold extendStrBack
        refine Keeps.bind' (keep_lift _) fun l => Keeps.bind' (keeps_next hE).keep fun _ => ih _ _ ⟨hs.1, hs.2⟩
      · unfold literal concatStrs
        refine Keeps.bind' (keep_lift _) fun l => Keeps.bind' (keep_lift _) fun _ =>
          Keeps.bind' (keeps_next hE).keep fun _ => ih _ _ ⟨hs.1, hs.2⟩
      · exact keeps_pure hs

theorem keeps_combine (lit : Slice) (sp : Span) (h : SpBehind ℓ sp) :
    Keeps ℓ old (combineAdjacentDotAndLit E lit sp) fun r => SpBehind ℓ r.2 := by
  unfold combineAdjacentDotAndLit
  exact Keeps.bind' keep_budget fun n => keeps_combineLoop hE n _ _ h

/-- The value does not start in front of the line. -/
def ValBehind (ℓ : Nat) (v : Value) : Prop := ℓ ≤ v.start.line

theorem keeps_timePart (a : Slice) (b : Span) (c : Date) (d : Slice) (e : Span) (hb : SpBehind ℓ b) (he : SpBehind ℓ e) :
    Keeps ℓ old (timePart E a b c d e) (ValBehind ℓ) := by
  unfold timePart concatStrs
  dsimp only
  by_cases hc : e.start.char > b.stop.char + 1
  · rw [if_pos hc]
    refine Keeps.bind' (keep_error _) fun _ => Keeps.bind' (keep_lift _) fun lit => ?_
    split
    · exact keeps_pure hb.1
    · exact Keeps.bind' (keep_error _) fun _ => keeps_pure he.2
    · exact keeps_panic
  · rw [if_neg hc]
    refine Keeps.bind' (keep_lift _) fun lit => ?_
    split
    · exact keeps_pure hb.1
    · exact Keeps.bind' (keep_error _) fun _ => keeps_pure he.2
    · exact keeps_panic

theorem keeps_tryTime (a : Slice) (b : Span) (c : Date) (hb : SpBehind ℓ b) :
    Keeps ℓ old (tryToParseTimePart E a b c) (ValBehind ℓ) := by
  unfold tryToParseTimePart literal
  refine (keeps_peek hE).keep.bind' fun t => ?_
  split
  · refine (keeps_next hE).bind fun t ht => Keeps.bind' (keep_lift _) fun lit => ?_
    refine (keeps_combine hE _ _ (by exact ⟨ht, ht⟩)).bind fun r hr => keeps_timePart hE _ _ _ _ _ hb hr
  · exact keeps_pure hb.1

theorem keeps_tryCombine (a : Slice) (b : Span) (hb : SpBehind ℓ b) :
    Keeps ℓ old (tryCombineTimePart E a b) (ValBehind ℓ) := by
  unfold tryCombineTimePart literal concatStrs
  refine (keeps_peek hE).bind fun t ht => ?_
  split
  · refine Keeps.bind' (keep_lift _) fun lit => ?_
    dsimp only
    split
    · exact keeps_pure hb.2
    · refine (keeps_next hE).keep.bind' fun _ => Keeps.bind' (keep_lift _) fun lit => ?_
      refine (keeps_combine hE _ _ (by exact ⟨hb.1, ht⟩)).bind fun r hr => keeps_pure hr.2
  · exact keeps_pure hb.2

theorem keeps_literalValue (a : Slice) (b : Span) (hb : SpBehind ℓ b) :
    Keeps ℓ old (literalValue E a b) (ValBehind ℓ) := by
  unfold literalValue
  split
  · exact keeps_pure hb.1
  · exact keeps_pure hb.1
  · exact keeps_pure hb.1
  · exact keeps_pure hb.1
  · exact keeps_tryTime hE _ _ _ hb
  · refine Keeps.bind' (keep_error _) fun _ => ?_
    split
    · exact keeps_pure hb.2
    · exact keeps_tryCombine hE _ _ hb
  · exact Keeps.bind' (keep_error _) fun _ => keeps_pure hb.2
  · exact keeps_panic

theorem keeps_parseStringValue (i : Nat) : Keeps ℓ old (parseStringValue E i) (ValBehind ℓ) := by
  unfold parseStringValue getString
  exact (keeps_next hE).bind fun t ht => Keeps.bind' (keep_lift _) fun _ => keeps_pure ht

theorem keeps_parseLiteralValue (i : Nat) : Keeps ℓ old (parseLiteralValue E i) (ValBehind ℓ) := by
  unfold parseLiteralValue literal
  exact (keeps_next hE).bind fun t ht => Keeps.bind' (keep_lift _) fun _ =>
    (keeps_combine hE _ _ (by exact ⟨ht, ht⟩)).bind fun r hr => keeps_literalValue hE _ _ hr

/-- The result of a value. -/
def ResBehind (ℓ : Nat) : Except Error Value → Prop
  | .ok v => ValBehind ℓ v
  | .error _ => True

theorem keeps_parseDotValue (t : Token) (ht : OnOrBehind ℓ t) : Keeps ℓ old (parseDotValue E t) (ResBehind ℓ) := by
  unfold parseDotValue
  refine (keeps_next hE).keep.bind' fun _ => Keeps.bind' (keep_error _) fun _ => (keeps_peek hE).keep.bind' fun u => ?_
  split
  · split
    · unfold literal extendStrFront
      refine (keeps_next hE).keep.bind' fun _ => Keeps.bind' (keep_lift _) fun _ => Keeps.bind' (keep_lift _) fun _ => ?_
      exact (keeps_combine hE _ _ (by exact ⟨ht, ht⟩)).bind fun r hr => keeps_pure hr.2
    · exact (keep_fmt hE t).bind' fun _ => keeps_pure trivial
  · exact (keep_fmt hE t).bind' fun _ => keeps_pure trivial

/-! ## Comments -/

omit hE in
theorem keeps_store (c : AssocComment) (hc : ℓ ≤ c.comment.span.start.line) :
    Keeps ℓ old (storeComment c) fun n => old.length ≤ n := by
  refine ⟨fun s a s' h1 h => ?_⟩
  cases h
  obtain ⟨new, h2, h3⟩ := h1.stor
  refine ⟨⟨h1.later, new ++ [c], by simp [h2], ?_⟩, by simp [h2]⟩
  intro d hd
  rcases List.mem_append.1 hd with hd | hd
  · exact h3 d hd
  · rw [List.mem_singleton.1 hd]; exact hc

/-- A range of new comments. -/
def NewRange (old : List AssocComment) (r : CommentRange) : Prop := old.length ≤ r.start

omit hE in
theorem append_start {r r' : CommentRange} {n : Nat} (h : r.append n = some r') : r'.start = r.start := by
  unfold CommentRange.append at h
  obtain ⟨d, -, h⟩ := Option.bind_eq_some_iff.1 h
  cases h; rfl

omit hE in
theorem extendTo_start {r r' : CommentRange} {n : Nat} (h : r.extendTo n = some r') : r'.start = r.start := by
  unfold CommentRange.extendTo at h
  obtain ⟨d, -, h⟩ := Option.bind_eq_some_iff.1 h
  cases h; rfl

omit hE in
theorem keeps_addComment (r : CommentRange) (c : Comment) (p : AssocPos) (hr : NewRange old r) (hc : ℓ ≤ c.span.start.line) :
    Keeps ℓ old (addComment r c p) (NewRange old) := by
  unfold addComment
  refine (keeps_store _ hc).keep.bind' fun n => keeps_lift fun a ha => ?_
  unfold NewRange
  rw [append_start ha]
  exact hr

/-- The line of a comment. -/
def ComBehind (ℓ : Nat) (o : Option Comment) : Prop := ∀ c, o = some c → ℓ ≤ c.span.start.line

omit hE in
theorem keeps_getComment (i : Nat) (p : Pos) (hp : ℓ ≤ p.line) :
    Keeps ℓ old (getComment E i p) fun c => ℓ ≤ c.span.start.line := by
  unfold getComment
  refine keeps_lift fun c hc => ?_
  obtain ⟨l, -, rfl⟩ := Option.map_eq_some_iff.1 hc
  exact hp

theorem keeps_eatComment : Keeps ℓ old (eatComment E) (ComBehind ℓ) := by
  unfold eatComment
  refine (keeps_peek hE).bind fun t ht => ?_
  split
  · refine (keeps_next hE).keep.bind' fun _ => (keeps_getComment _ _ ht).bind fun c hc => keeps_pure ?_
    rintro _ ⟨⟩; exact hc
  · exact keeps_pure (fun _ h => by cases h)

theorem keeps_eatLoop : ∀ n, Keeps ℓ old (eatCommentAndNewlinesLoop E n) (ComBehind ℓ) := by
  intro n
  induction n with
  | zero => exact keeps_timeout
  | succ n ih =>
    unfold eatCommentAndNewlinesLoop
    refine (keeps_peek hE).bind fun t ht => ?_
    split
    · refine (keeps_next hE).keep.bind' fun _ => (keeps_getComment _ _ ht).bind fun c hc => keeps_pure ?_
      rintro _ ⟨⟩; exact hc
    · exact (keeps_next hE).keep.bind' fun _ => ih
    · exact keeps_pure (fun _ h => by cases h)

theorem keeps_contained : ∀ n r, NewRange old r → Keeps ℓ old (containedComments E n r) (NewRange old) := by
  intro n
  induction n with
  | zero => intro r _; exact keeps_timeout
  | succ n ih =>
    intro r hr
    unfold containedComments eatCommentAndNewlines
    refine (Keeps.bind' keep_budget fun n => keeps_eatLoop hE n).bind fun o ho => ?_
    split
    · exact (keeps_addComment _ _ _ hr (ho _ rfl)).bind fun r hr => ih r hr
    · exact keeps_pure hr

theorem keeps_lineEnd (r : CommentRange) (hr : NewRange old r) : Keeps ℓ old (lineEndComment E r) (NewRange old) := by
  unfold lineEndComment
  refine (keeps_eatComment hE).bind fun o ho => ?_
  split
  · exact keeps_addComment _ _ _ hr (ho _ rfl)
  · exact keeps_pure hr

omit hE in
/-- The comments that are marked are new. -/
theorem markAboveLoop_new {level : Nat} {old : List AssocComment}
    (ho : ∀ c, old.getLast? = some c → c.pos = .contained → c.comment.span.start.line + 1 < ℓ) :
    ∀ (new : List AssocComment) (line i : Nat), ℓ ≤ line → (∀ c ∈ new, ℓ ≤ c.comment.span.start.line) →
    ∃ new' o, markAboveLoop level (new ++ old.reverse) line i = (new' ++ old.reverse, o) ∧ new'.length = new.length ∧
      new'.map (·.comment) = new.map (·.comment) ∧ o.getD 0 ≤ i + new.length := by
  intro new
  induction new with
  | nil =>
    intro line i hl _
    refine ⟨[], ?_⟩
    rcases List.eq_nil_or_concat old with h | ⟨o, c, h⟩
    · subst h
      exact ⟨none, rfl, rfl, rfl, by simp⟩
    · subst h
      refine ⟨some i, ?_, rfl, rfl, by simp⟩
      simp only [List.concat_eq_append, List.reverse_append, List.reverse_cons, List.reverse_nil, List.nil_append, List.cons_append]
      unfold markAboveLoop
      rw [if_neg]
      rintro ⟨h1, h2⟩
      have := ho c (by simp) h2
      omega
  | cons c new ih =>
    intro line i hl hn
    rw [List.cons_append]
    unfold markAboveLoop
    split
    · rename_i h
      have hc := hn c (by simp)
      obtain ⟨new', o, h1, h2, h3, h4⟩ := ih (line - 1) (i + 1) (by omega) (fun d hd => hn d (by simp [hd]))
      rw [h1]
      refine ⟨_ :: new', o, rfl, by simp [h2], by simp [h3], by simp; omega⟩
    · exact ⟨c :: new, some i, rfl, rfl, rfl, by simp⟩

omit hE in
theorem keeps_markAbove (ho : ∀ c, old.getLast? = some c → c.pos = .contained → c.comment.span.start.line + 1 < ℓ)
    (line level : Nat) (hl : ℓ ≤ line) : Keeps ℓ old (markCommentsAbove line level) (NewRange old) := by
  refine ⟨fun s a s' h1 h => ?_⟩
  obtain ⟨new, h2, h3⟩ := h1.stor
  obtain ⟨new', o, g1, g2, g3, g4⟩ := markAboveLoop_new (level := level) ho new.reverse line 0 hl (by simpa using h3)
  unfold markCommentsAbove at h
  rw [h2, List.reverse_append, g1] at h
  cases h
  refine ⟨⟨h1.later, new'.reverse, by simp, ?_⟩, ?_⟩
  · intro c hc
    have hc' : c ∈ new' := by simpa using hc
    have : c.comment ∈ new'.map (·.comment) := List.mem_map_of_mem hc'
    rw [g3] at this
    obtain ⟨d, hd, he⟩ := List.mem_map.1 this
    rw [← he]
    exact h3 d (by simpa using hd)
  · simp only [NewRange, List.length_append]
    simp at g4
    omega

omit hE in
theorem keeps_markContained (r : CommentRange) (level : Nat) (hr : NewRange old r) :
    Keep ℓ old (markContainedComments r level) := by
  refine ⟨fun s a s' h1 h => ?_⟩
  obtain ⟨new, h2, h3⟩ := h1.stor
  unfold markContainedComments at h
  split at h
  · cases h
    refine ⟨⟨h1.later, new.take (r.start - old.length) ++
      ((new.drop (r.start - old.length)).take r.len).map (AssocComment.raise level) ++
      new.drop (r.start - old.length + r.len), ?_, ?_⟩, trivial⟩
    · unfold NewRange at hr
      have e1 : r.start + r.len - old.length = r.start - old.length + r.len := by omega
      simp only [h2, List.take_append, List.drop_append, List.take_of_length_le hr, List.drop_of_length_le hr,
        List.drop_of_length_le (show old.length ≤ r.start + r.len by omega), e1]
      simp
    · intro c hc
      rcases List.mem_append.1 hc with hc | hc
      · rcases List.mem_append.1 hc with hc | hc
        · exact h3 c (List.mem_of_mem_take hc)
        · obtain ⟨d, hd, rfl⟩ := List.mem_map.1 hc
          have := h3 d (List.mem_of_mem_drop (List.mem_of_mem_take hd))
          unfold AssocComment.raise
          split <;> exact this
      · exact h3 c (List.mem_of_mem_drop hc)
  · cases h

/-! ## Arrays -/

/-- The ranges of the array. -/
def RoundNew (old : List AssocComment) : Round ArrSt → Prop
  | .continue st => NewRange old st.comments
  | .break st => NewRange old st.comments
  | .return _ => True

theorem keeps_arrayAfterValue (ho : ∀ c, old.getLast? = some c → c.pos = .contained → c.comment.span.start.line + 1 < ℓ)
    (level : Nat) (st : ArrSt) (v : Value) (hv : ValBehind ℓ v) (hs : NewRange old st.comments) :
    Keeps ℓ old (arrayAfterValue E level st v) (RoundNew old) := by
  unfold arrayAfterValue
  refine (keeps_markAbove ho _ _ hv).bind fun r1 h1 => (keeps_lineEnd hE _ h1).bind fun r2 h2 =>
    Keeps.bind' keep_budget fun n => (keeps_contained hE _ _ hs).bind fun cm hcm => (keeps_peek hE).keep.bind' fun t => ?_
  split
  · refine keeps_nextId.keep.bind' fun id =>
      (keeps_lift (Q := NewRange old) fun a ha => by unfold NewRange; rw [extendTo_start ha]; exact h2).bind fun r3 h3 =>
      (keeps_markContained _ _ h3).bind' fun _ => (keeps_next hE).keep.bind' fun c =>
      (keeps_lineEnd hE _ h3).keep.bind' fun _ => keeps_pure hcm
  · split
    · exact keeps_pure hcm
    · exact Keeps.bind' (keep_error _) fun _ => keeps_pure hcm

theorem keeps_arrayRecover (st : ArrSt) (hs : NewRange old st.comments) : Keeps ℓ old (arrayRecover E st) (RoundNew old) := by
  unfold arrayRecover
  refine Keeps.bind' (keep_recover _) fun _ => (keeps_peek hE).keep.bind' fun t => ?_
  split
  · exact keeps_pure hs
  · exact keeps_pure hs
  · exact (keeps_next hE).keep.bind' fun _ => keeps_pure hs

theorem keeps_arrayRound (ho : ∀ c, old.getLast? = some c → c.pos = .contained → c.comment.span.start.line + 1 < ℓ)
    {elem : M (Except Error Value)} (hel : Keeps ℓ old elem (ResBehind ℓ)) (level : Nat) (st : ArrSt) (hs : NewRange old st.comments) :
    Keeps ℓ old (arrayRound E elem level st) (RoundNew old) := by
  unfold arrayRound
  refine Keeps.bind' keep_budget fun n => (keeps_contained hE _ _ hs).bind fun cm hcm => ?_
  dsimp only
  refine (keeps_peek hE).keep.bind' fun t => ?_
  split
  · exact keeps_pure hcm
  · refine hel.bind fun r hr => ?_
    split
    · exact keeps_arrayAfterValue hE ho _ _ _ hr hcm
    · exact keeps_pure trivial
    · exact Keeps.bind' (keep_error _) fun _ => keeps_arrayRecover hE _ hcm

omit hE in
theorem keeps_loop {σ : Type} {round : σ → M (Round σ)} {I : σ → Prop}
    (h : ∀ st, I st → Keeps ℓ old (round st) fun r => match r with
      | .continue st => I st
      | .break st => I st
      | .return _ => True) :
    ∀ n st, I st → Keeps ℓ old (loopM round n st) fun r => match r with
      | .ok st => I st
      | .error _ => True := by
  intro n
  induction n with
  | zero => intro st _; exact keeps_timeout
  | succ n ih =>
    intro st hst
    unfold loopM
    refine (h st hst).bind fun r hr => ?_
    split
    · exact ih _ hr
    · exact keeps_pure hr
    · exact keeps_pure trivial

theorem keep_arrayClose (p : Pos) : Keep ℓ old (arrayClose E p) := by
  unfold arrayClose tokenFmtStrAndSpan tokenFmtStr tokenSpan
  keeps hE

theorem keeps_parseArray (ho : ∀ c, old.getLast? = some c → c.pos = .contained → c.comment.span.start.line + 1 < ℓ)
    {elem : M (Except Error Value)} (hel : Keeps ℓ old elem (ResBehind ℓ)) (level : Nat) (p : Pos) (hp : ℓ ≤ p.line) :
    Keeps ℓ old (parseArray E elem level p) (ResBehind ℓ) := by
  unfold parseArray
  refine (keeps_next hE).keep.bind' fun _ => ?_
  split
  · exact Keeps.bind' keep_jump fun _ => keeps_pure trivial
  · refine keeps_nextId.bind fun id hid => (keeps_lineEnd hE ⟨id, 0, level⟩ hid).bind fun r hr => Keeps.bind' keep_budget fun n => ?_
    refine (keeps_loop (I := fun st : ArrSt => NewRange old st.comments)
      (fun st hst => (keeps_arrayRound hE ho hel level st hst).mono fun r h => ?_) n ⟨r, []⟩ hr).bind fun r hr => ?_
    · cases r <;> exact h
    · split
      · exact keeps_pure trivial
      · refine (keep_arrayClose hE _).bind' fun _ => keeps_nextId.keep.bind' fun _ =>
          (keeps_lift (Q := NewRange old) fun a ha => by unfold NewRange; rw [extendTo_start ha]; exact hr).bind fun r3 h3 =>
          (keeps_markContained _ _ h3).bind' fun _ => keeps_pure hp

/-! ## Inline tables -/

theorem keep_tableRound {elem : M (Except Error Value)} (hel : Keeps ℓ old elem (ResBehind ℓ)) (st : TabSt) :
    Keep ℓ old (tableRound E elem st) := by
  have hel' := hel.keep
  unfold tableRound trailingComma
  refine (keeps_peek hE).keep.bind' fun t => ?_
  split
  · keeps hE
  · refine (keep_parseKey hE).bind' fun k => ?_
    split
    · unfold tableAfterKey tableAfterValue tableRecover tokenFmtStrAndSpan tokenFmtStr tokenSpan
      keeps hE
    · keeps hE
    · unfold tableRecover
      keeps hE

theorem keeps_parseTable {elem : M (Except Error Value)} (hel : Keeps ℓ old elem (ResBehind ℓ)) (level : Nat) (p : Pos)
    (hp : ℓ ≤ p.line) : Keeps ℓ old (parseTable E elem level p) (ResBehind ℓ) := by
  unfold parseTable
  refine (keeps_next hE).keep.bind' fun _ => ?_
  split
  · exact Keeps.bind' keep_jump fun _ => keeps_pure trivial
  · refine Keeps.bind' keep_budget fun n => ?_
    refine (keeps_loop (I := fun _ : TabSt => True)
      (fun st hst => (keep_tableRound hE hel st).mono fun r h => ?_) n _ trivial).bind fun r hr => ?_
    · cases r <;> trivial
    · split
      · exact keeps_pure trivial
      · have : Keep ℓ old (tableClose E p) := by
          unfold tableClose tokenFmtStrAndSpan tokenFmtStr tokenSpan
          keeps hE
        exact this.bind' fun _ => keeps_pure hp

/-- A value leaves the comments in front of it alone. -/
theorem keeps_parseValue (ho : ∀ c, old.getLast? = some c → c.pos = .contained → c.comment.span.start.line + 1 < ℓ) :
    ∀ d level, Keeps ℓ old (parseValue E d level) (ResBehind ℓ) := by
  intro d
  induction d with
  | zero => intro level; exact keeps_timeout
  | succ d ih =>
    intro level
    unfold parseValue
    refine (keeps_peek hE).bind fun t ht => ?_
    split
    · exact (keeps_parseStringValue hE _).bind fun v hv => keeps_pure hv
    · exact (keeps_parseLiteralValue hE _).bind fun v hv => keeps_pure hv
    · exact keeps_parseDotValue hE _ ht
    · exact keeps_parseArray hE ho (ih _) _ _ ht
    · exact keeps_parseTable hE (ih _) _ _ ht
    · exact (keep_fmt hE _).bind' fun _ => keeps_pure trivial

end Verif.Toml
