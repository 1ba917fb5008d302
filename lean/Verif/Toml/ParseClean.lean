import Verif.Toml.ParseTop
import Verif.Spec.Grammar

/-! # Runs of the parser without diagnostics: diagnostics are never lost -/

namespace Verif.Toml
open Verif Verif.Spec.Toml

variable {α β : Type} {E : Env}

/-- A diagnostic in front of the computation is not lost altogether. -/
structure Dirty (m : M α) : Prop where
  out : ∀ s a s', m s = .ok a s' → s'.errors = [] → s.errors = []

theorem bind_inv {m : M α} {f : α → M β} {s s' : PS} {b : β} (h : (m >>= f) s = .ok b s') :
    ∃ a s1, m s = .ok a s1 ∧ f a s1 = .ok b s' := by
  have h' : M.bind m f s = .ok b s' := h
  unfold M.bind at h'
  cases hm : m s with
  | ok a s1 => rw [hm] at h'; exact ⟨a, s1, rfl, h'⟩
  | panic => rw [hm] at h'; cases h'
  | timeout => rw [hm] at h'; cases h'

theorem Dirty.bind {m : M α} {f : α → M β} (hm : Dirty m) (hf : ∀ a, Dirty (f a)) : Dirty (m >>= f) := by
  refine ⟨fun s b s' h he => ?_⟩
  obtain ⟨a, s1, h1, h2⟩ := bind_inv h
  exact hm.out _ _ _ h1 ((hf a).out _ _ _ h2 he)

/-- The computation does not touch the diagnostics. -/
structure Quiet (m : M α) : Prop where
  out : ∀ s a s', m s = .ok a s' → s'.errors = s.errors

theorem Quiet.dirty {m : M α} (h : Quiet m) : Dirty m := ⟨fun s a s' h1 h2 => by rw [← h.out s a s' h1, h2]⟩

theorem Quiet.bind {m : M α} {f : α → M β} (hm : Quiet m) (hf : ∀ a, Quiet (f a)) : Quiet (m >>= f) := by
  refine ⟨fun s b s' h => ?_⟩
  obtain ⟨a, s1, h1, h2⟩ := bind_inv h
  rw [(hf a).out _ _ _ h2, hm.out _ _ _ h1]

theorem quiet_pure (a : α) : Quiet (pure a : M α) := by
  refine ⟨?_⟩
  intro s b s' h
  have h' : Run.ok a s = .ok b s' := h
  cases h'; rfl

theorem quiet_peek : Quiet (peek E) := by constructor; intro s b s' h; cases h; rfl
theorem quiet_next : Quiet (next E) := by
  refine ⟨?_⟩
  intro s b s' h
  rw [next_eq] at h
  cases h
  unfold PS.adv
  split <;> rfl
theorem quiet_peekPrev : Quiet peekPrev := by constructor; intro s b s' h; cases h; rfl
theorem quiet_budget : Quiet budget := by constructor; intro s b s' h; cases h; rfl
theorem quiet_mark : Quiet mark := by constructor; intro s b s' h; cases h; rfl
theorem quiet_nextId : Quiet nextCommentId := by constructor; intro s b s' h; cases h; rfl
theorem quiet_store (c : AssocComment) : Quiet (storeComment c) := by constructor; intro s b s' h; cases h; rfl
theorem quiet_jump : Quiet jumpToEnd := by constructor; intro s b s' h; cases h; rfl
theorem quiet_panic : Quiet (M.panic : M α) := by constructor; intro s b s' h; cases h
theorem quiet_timeout : Quiet (M.timeout : M α) := by constructor; intro s b s' h; cases h
theorem quiet_lift (o : Option α) : Quiet (M.lift o) := by
  refine ⟨?_⟩
  intro s b s' h
  unfold M.lift at h
  split at h
  · cases h; rfl
  · cases h
theorem quiet_markAbove (a b : Nat) : Quiet (markCommentsAbove a b) := by
  constructor; intro s b s' h; cases h; rfl
theorem quiet_markContained (r : CommentRange) (l : Nat) : Quiet (markContainedComments r l) := by
  refine ⟨?_⟩
  intro s b s' h
  unfold markContainedComments at h
  split at h
  · cases h; rfl
  · cases h
theorem quiet_skip {stop : TokenType → Bool} : ∀ (ts : List Token) (s s' : PS),
    skipUntil E stop ts s = .ok () s' → s'.errors = s.errors := by
  intro ts
  induction ts with
  | nil =>
    intro s s' h
    unfold skipUntil at h
    split at h
    · cases h; rfl
    · cases h
  | cons t ts ih =>
    intro s s' h
    unfold skipUntil at h
    split at h
    · cases h; rfl
    · have := ih _ _ h
      simpa using this
theorem quiet_recover (stop : TokenType → Bool) : Quiet (recoverOn E stop) := by
  refine ⟨?_⟩
  intro s b s' h
  exact quiet_skip _ _ _ h

/-- Proves that a computation without `error` does not touch the diagnostics. -/
syntax "quiet" : tactic
macro_rules
  | `(tactic| quiet) => `(tactic| repeat' first
    | assumption
    | exact quiet_pure _ | exact quiet_peek | exact quiet_next | exact quiet_peekPrev
    | exact quiet_budget | exact quiet_mark | exact quiet_nextId | exact quiet_store _
    | exact quiet_jump | exact quiet_panic | exact quiet_timeout | exact quiet_lift _
    | exact quiet_markAbove _ _ | exact quiet_markContained _ _ | exact quiet_recover _
    | with_reducible apply Quiet.bind | intro _ | split | dsimp only)

theorem dirty_error (e : Error) : Dirty (error e) := by
  refine ⟨?_⟩
  intro s b s' h he
  cases h
  simp at he

theorem error_clean {e : Error} {u : Unit} {s s' : PS} (h : error e s = .ok u s') : s'.errors ≠ [] := by
  cases h
  simp

/-- A computation that ends with a diagnostic. -/
theorem bind_error_dirty {e : Error} {f : Unit → M β} {s s' : PS} {b : β}
    (h : (error e >>= f) s = .ok b s') (hf : ∀ u, Dirty (f u)) : s'.errors ≠ [] := by
  obtain ⟨a, s1, h1, h2⟩ := bind_inv h
  exact fun he => error_clean h1 ((hf a).out _ _ _ h2 he)

/-- Proves `Dirty`. -/
syntax "dirty" : tactic
macro_rules
  | `(tactic| dirty) => `(tactic| repeat' first
    | assumption
    | exact dirty_error _
    | exact (quiet_pure _).dirty | exact quiet_peek.dirty | exact quiet_next.dirty
    | exact quiet_peekPrev.dirty
    | exact quiet_budget.dirty | exact quiet_mark.dirty | exact quiet_nextId.dirty
    | exact (quiet_store _).dirty
    | exact quiet_jump.dirty | exact quiet_panic.dirty | exact quiet_timeout.dirty
    | exact (quiet_lift _).dirty
    | exact (quiet_markAbove _ _).dirty | exact (quiet_markContained _ _).dirty
    | exact (quiet_recover _).dirty
    | with_reducible apply Dirty.bind | intro _ | split | dsimp only)

theorem quiet_fmt (t : Token) : Quiet (tokenFmtStrAndSpan E t) := by
  unfold tokenFmtStrAndSpan tokenFmtStr tokenSpan; quiet
theorem quiet_getString (i : Nat) : Quiet (getString E i) := by unfold getString; quiet
theorem quiet_literal (i : Nat) (p : Pos) : Quiet (literal E i p) := by unfold literal; quiet
theorem quiet_concat (a b : Slice) : Quiet (concatStrs E a b) := by unfold concatStrs; quiet
theorem quiet_back (a : Slice) (n : Nat) : Quiet (extendStrBack E a n) := by unfold extendStrBack; quiet
theorem quiet_front (a : Slice) (n : Nat) : Quiet (extendStrFront E a n) := by unfold extendStrFront; quiet
theorem quiet_getComment (i : Nat) (p : Pos) : Quiet (getComment E i p) := by unfold getComment; quiet
theorem quiet_eatComment : Quiet (eatComment E) := by
  unfold eatComment getComment
  quiet
theorem quiet_eatLoop : ∀ n, Quiet (eatCommentAndNewlinesLoop E n) := by
  intro n
  induction n with
  | zero => exact quiet_timeout
  | succ n ih => unfold eatCommentAndNewlinesLoop getComment; quiet
theorem quiet_eatAll : Quiet (eatCommentAndNewlines E) := by
  unfold eatCommentAndNewlines
  exact quiet_budget.bind quiet_eatLoop
theorem quiet_addComment (r : CommentRange) (c : Comment) (p : AssocPos) : Quiet (addComment r c p) := by
  unfold addComment; quiet
theorem quiet_addComments (p : AssocPos) : ∀ (cs : List Comment) (r : CommentRange),
    Quiet (addComments r p cs) := by
  intro cs
  induction cs with
  | nil => intro r; exact quiet_pure _
  | cons c cs ih => intro r; exact (quiet_addComment r c p).bind ih
theorem quiet_storeComments (cs : List Comment) (p : AssocPos) (l : Nat) :
    Quiet (storeComments cs p l) := by
  unfold storeComments
  exact quiet_nextId.bind fun _ => quiet_addComments _ _ _
theorem quiet_contained : ∀ n r, Quiet (containedComments E n r) := by
  intro n
  induction n with
  | zero => intro r; exact quiet_timeout
  | succ n ih =>
    intro r
    unfold containedComments
    refine quiet_eatAll.bind fun o => ?_
    split
    · exact (quiet_addComment _ _ _).bind fun r => ih r
    · exact quiet_pure _
theorem quiet_lineEnd (r : CommentRange) : Quiet (lineEndComment E r) := by
  unfold lineEndComment
  refine quiet_eatComment.bind fun o => ?_
  split
  · exact quiet_addComment _ _ _
  · exact quiet_pure _
theorem quiet_combineLoop : ∀ n l sp, Quiet (combineLoop E n l sp) := by
  intro n
  induction n with
  | zero => intro l sp; exact quiet_timeout
  | succ n ih =>
    intro l sp
    unfold combineLoop
    refine quiet_peek.bind fun t => ?_
    split
    · exact quiet_pure _
    · split
      · exact (quiet_back _ _).bind fun _ => quiet_next.bind fun _ => ih _ _
      · exact (quiet_literal _ _).bind fun _ => (quiet_concat _ _).bind fun _ =>
          quiet_next.bind fun _ => ih _ _
      · exact quiet_pure _
theorem quiet_combine (l : Slice) (sp : Span) : Quiet (combineAdjacentDotAndLit E l sp) := by
  unfold combineAdjacentDotAndLit
  exact quiet_budget.bind fun n => quiet_combineLoop n l sp

theorem dirty_parseIdent : Dirty (parseIdent E) := by
  unfold parseIdent tokenFmtStrAndSpan tokenFmtStr tokenSpan getString literal
  dirty

theorem dirty_parseKeyLoop : ∀ n ids, Dirty (parseKeyLoop E n ids) := by
  intro n
  induction n with
  | zero => intro ids; exact quiet_timeout.dirty
  | succ n ih =>
    intro ids
    unfold parseKeyLoop
    have := @dirty_parseIdent E
    dirty
    exact ih _

theorem dirty_parseKey : Dirty (parseKey E) := by
  unfold parseKey
  exact quiet_budget.dirty.bind fun n => dirty_parseKeyLoop n []

theorem dirty_timePart (a : Slice) (b : Span) (c : Date) (d : Slice) (e : Span) :
    Dirty (timePart E a b c d e) := by
  unfold timePart concatStrs
  dirty

theorem dirty_tryTime (a : Slice) (b : Span) (c : Date) : Dirty (tryToParseTimePart E a b c) := by
  unfold tryToParseTimePart literal
  refine quiet_peek.dirty.bind fun t => ?_
  split
  · refine quiet_next.dirty.bind fun _ => (quiet_lift _).dirty.bind fun _ =>
      (quiet_combine _ _).dirty.bind fun _ => ?_
    exact dirty_timePart _ _ _ _ _
  · exact (quiet_pure _).dirty

theorem quiet_tryCombine (a : Slice) (b : Span) : Quiet (tryCombineTimePart E a b) := by
  unfold tryCombineTimePart literal concatStrs
  have := @quiet_combine E
  quiet
  exact quiet_combine _ _

theorem dirty_literalValue (a : Slice) (b : Span) : Dirty (literalValue E a b) := by
  unfold literalValue
  have := @dirty_tryTime E
  dirty
  · exact dirty_tryTime _ _ _
  · exact (quiet_tryCombine _ _).dirty

theorem dirty_parseStringValue (i : Nat) : Dirty (parseStringValue E i) := by
  unfold parseStringValue getString; dirty

theorem dirty_parseLiteralValue (i : Nat) : Dirty (parseLiteralValue E i) := by
  unfold parseLiteralValue literal
  refine quiet_next.dirty.bind fun _ => (quiet_lift _).dirty.bind fun _ =>
    (quiet_combine _ _).dirty.bind fun _ => dirty_literalValue _ _

theorem dirty_parseDotValue (t : Token) : Dirty (parseDotValue E t) := by
  unfold parseDotValue literal extendStrFront tokenFmtStrAndSpan tokenFmtStr tokenSpan
  dirty
  exact (quiet_combine _ _).dirty

theorem dirty_arrayRecover (st : ArrSt) : Dirty (arrayRecover E st) := by unfold arrayRecover; dirty

theorem dirty_arrayAfterValue (l : Nat) (st : ArrSt) (v : Value) : Dirty (arrayAfterValue E l st v) := by
  unfold arrayAfterValue
  dirty
  all_goals first
    | exact (quiet_lineEnd _).dirty | exact (quiet_contained _ _).dirty

variable {elem : M (Except Error Value)}

theorem dirty_arrayRound (he : Dirty elem) (l : Nat) (st : ArrSt) : Dirty (arrayRound E elem l st) := by
  unfold arrayRound
  dirty
  all_goals first
    | exact (quiet_contained _ _).dirty | exact dirty_arrayAfterValue _ _ _ | exact dirty_arrayRecover _

theorem dirty_loopM {σ : Type} {round : σ → M (Round σ)} (h : ∀ st, Dirty (round st)) :
    ∀ n st, Dirty (loopM round n st) := by
  intro n
  induction n with
  | zero => intro st; exact quiet_timeout.dirty
  | succ n ih =>
    intro st
    unfold loopM
    refine (h st).bind fun r => ?_
    split
    · exact ih _
    · exact (quiet_pure _).dirty
    · exact (quiet_pure _).dirty

theorem dirty_arrayClose (p : Pos) : Dirty (arrayClose E p) := by
  unfold arrayClose tokenFmtStrAndSpan tokenFmtStr tokenSpan
  dirty

theorem dirty_parseArray (he : Dirty elem) (l : Nat) (p : Pos) : Dirty (parseArray E elem l p) := by
  unfold parseArray
  dirty
  all_goals first
    | exact (quiet_lineEnd _).dirty | exact dirty_loopM (dirty_arrayRound he _) _ _
    | exact dirty_arrayClose _

theorem dirty_tableRecover (st : TabSt) : Dirty (tableRecover E st) := by unfold tableRecover; dirty

theorem dirty_tableAfterValue (st : TabSt) (a : Assignment) : Dirty (tableAfterValue E st a) := by
  unfold tableAfterValue; dirty

theorem dirty_tableAfterKey (he : Dirty elem) (st : TabSt) (k : Key) :
    Dirty (tableAfterKey E elem st k) := by
  unfold tableAfterKey tokenFmtStrAndSpan tokenFmtStr tokenSpan
  dirty
  all_goals first
    | exact dirty_tableAfterValue _ _ | exact dirty_tableRecover _

theorem dirty_trailing (c : Option Pos) : Dirty (trailingComma c) := by unfold trailingComma; dirty

theorem dirty_tableRound (he : Dirty elem) (st : TabSt) : Dirty (tableRound E elem st) := by
  unfold tableRound
  have := @dirty_parseKey E
  dirty
  all_goals first
    | exact dirty_trailing _ | exact dirty_tableAfterKey he _ _ | exact dirty_tableRecover _

theorem dirty_tableClose (p : Pos) : Dirty (tableClose E p) := by
  unfold tableClose tokenFmtStrAndSpan tokenFmtStr tokenSpan
  dirty

theorem dirty_parseTable (he : Dirty elem) (l : Nat) (p : Pos) : Dirty (parseTable E elem l p) := by
  unfold parseTable
  dirty
  all_goals first
    | exact dirty_loopM (dirty_tableRound he) _ _ | exact dirty_tableClose _

theorem dirty_parseValue : ∀ d l, Dirty (parseValue E d l) := by
  intro d
  induction d with
  | zero => intro l; exact quiet_timeout.dirty
  | succ d ih =>
    intro l
    unfold parseValue
    refine quiet_peek.dirty.bind fun t => ?_
    split
    · exact (dirty_parseStringValue _).bind fun _ => (quiet_pure _).dirty
    · exact (dirty_parseLiteralValue _).bind fun _ => (quiet_pure _).dirty
    · exact dirty_parseDotValue _
    · exact dirty_parseArray (ih _) _ _
    · exact dirty_parseTable (ih _) _ _
    · exact (quiet_fmt _).dirty.bind fun _ => (quiet_pure _).dirty

/-! ## Documents -/

theorem expectedNewline_clean {m : Nat} {t : Token} {u : Unit} {s s' : PS}
    (h : expectedNewline E m t s = .ok u s') : s'.errors ≠ [] := by
  unfold expectedNewline at h
  obtain ⟨_, s1, -, h⟩ := bind_inv h
  obtain ⟨_, s2, -, h⟩ := bind_inv h
  obtain ⟨_, s3, -, h⟩ := bind_inv h
  exact error_clean h

theorem dirty_expectedNewline (m : Nat) (t : Token) : Dirty (expectedNewline E m t) :=
  ⟨fun _ _ _ h he => absurd he (expectedNewline_clean h)⟩

theorem dirty_openArray (p : Pos) : Dirty (openArray E p) := by unfold openArray; dirty

theorem dirty_headerKey : Dirty (headerKey E) := by
  unfold headerKey
  have := @dirty_parseKey E
  dirty

theorem dirty_closeArray (p : Option Pos) : Dirty (closeArray E p) := by
  unfold closeArray tokenFmtStrAndSpan tokenFmtStr tokenSpan; dirty

theorem dirty_checkSpace (p : Option Pos) (t : Token) : Dirty (checkSpace p t) := by
  unfold checkSpace; dirty

theorem dirty_closeTable (p : Pos) (q : Option Pos) : Dirty (closeTable E p q) := by
  unfold closeTable tokenFmtStrAndSpan tokenFmtStr tokenSpan
  dirty
  all_goals exact dirty_checkSpace _ _

theorem dirty_closeHeader (p : Pos) (q : Option Pos) (b : Bool) : Dirty (closeHeader E p q b) := by
  unfold closeHeader
  dirty
  all_goals first
    | exact dirty_closeArray _ | exact dirty_closeTable _ _

theorem dirty_checkNewline (b : Bool) (m : Nat) (t : Token) : Dirty (checkNewline E b m t) := by
  unfold checkNewline
  dirty
  all_goals exact dirty_expectedNewline _ _

theorem quiet_finishHeader (ovf : Bool) (r : RootSt) (p : Pos) (l : Option Pos) (k : Option Key)
    (q : Option Pos × Option Pos) : Quiet (finishHeader ovf r p l k q) := by
  unfold finishHeader findAssociatedComments
  quiet
  all_goals exact quiet_storeComments _ _ _

theorem dirty_rootHeader (t : Token) (r : RootSt) : Dirty (rootHeader E t r) := by
  unfold rootHeader
  have := @dirty_headerKey E
  dirty
  all_goals first
    | exact dirty_openArray _ | exact dirty_closeHeader _ _ _ | exact dirty_checkNewline _ _ _
    | exact (quiet_finishHeader _ _ _ _ _ _).dirty

theorem quiet_rootComment (t : Token) (i : Nat) (r : RootSt) : Quiet (rootComment E t i r) := by
  unfold rootComment getComment
  quiet

theorem quiet_loose (r : RootSt) (cs : List Comment) : Quiet (looseComments r cs) := by
  unfold looseComments
  quiet
  all_goals exact quiet_addComments _ _ _

theorem dirty_rootValue (r : RootSt) (k : Key) (p : Pos) : Dirty (rootValue E r k p) := by
  unfold rootValue findAssociatedComments
  have := @dirty_parseValue E
  dirty
  all_goals first
    | exact (quiet_loose _ _).dirty | exact (quiet_storeComments _ _ _).dirty
    | exact dirty_parseValue _ _

theorem dirty_rootEq (t : Token) (m : Nat) (r : RootSt) (k : Key) : Dirty (rootEq E t m r k) := by
  unfold rootEq tokenFmtStrAndSpan tokenFmtStr tokenSpan
  dirty
  all_goals first
    | exact dirty_checkNewline _ _ _ | exact dirty_rootValue _ _ _ | exact dirty_expectedNewline _ _

theorem dirty_rootAssignment (t : Token) (r : RootSt) : Dirty (rootAssignment E t r) := by
  unfold rootAssignment
  have := @dirty_parseKey E
  dirty
  all_goals first
    | exact dirty_rootEq _ _ _ _ | exact dirty_expectedNewline _ _

theorem dirty_rootLoop : ∀ n r, Dirty (rootLoop E n r) := by
  intro n
  induction n with
  | zero => intro r; exact quiet_timeout.dirty
  | succ n ih =>
    intro r
    unfold rootLoop
    refine quiet_peek.dirty.bind fun t => ?_
    split
    · exact (dirty_rootHeader _ _).bind fun _ => ih _
    · exact (quiet_rootComment _ _ _).dirty.bind fun _ => ih _
    · exact quiet_next.dirty.bind fun _ => ih _
    · exact (quiet_pure _).dirty
    · exact (dirty_rootAssignment _ _).bind fun _ => ih _

end Verif.Toml
