import Verif.Semver.ValidLemmas

/-!
# The start position only shifts positions
-/

namespace Verif.Semver
open Verif Verif.Spec Verif.Spec.Semver

/-- Move the position stored in an error. -/
def Error.move (f : Pos → Pos) : Error → Error
  | .trailingCharacters s i p => .trailingCharacters s i (f p)
  | .missingField i p => .missingField i (f p)
  | .leadingZeroNum i p => .leadingZeroNum i (f p)
  | .invalidIntChar c i p => .invalidIntChar c i (f p)
  | .intOverflow i p l => .intOverflow i (f p) l
  | .expectedDot c i p => .expectedDot c i (f p)
  | .missingDot i p => .missingDot i (f p)
  | .emptyIdentifier i p => .emptyIdentifier i (f p)
  | .emptyIdentifierSegment i p => .emptyIdentifierSegment i (f p)
  | .leadingZeroSegment i p => .leadingZeroSegment i (f p)
  | .invalidOp c p => .invalidOp c (f p)
  | .missingComma p => .missingComma (f p)
  | .trailingComma p => .trailingComma (f p)
  | .wildcardNotTheSoleComparator w p => .wildcardNotTheSoleComparator w (f p)
  | .excessiveComparators p l => .excessiveComparators (f p) l
  | .emptyVersionReq p => .emptyVersionReq (f p)
  | .unexpectedAfterWildcard c i p => .unexpectedAfterWildcard c i (f p)

/-- The position of `q`, relative to `p`, taken relative to `p'`. -/
def rebase (p p' q : Pos) : Pos := ⟨p'.line, p'.char + (q.char - p.char)⟩

theorem rebase_plus (p p' : Pos) (n : Nat) : rebase p p' (p.plus n) = p'.plus n := by
  simp [rebase, Pos.plus]

theorem rebase_self (p p' : Pos) : rebase p p' p = p' := by
  simp [rebase]

variable {p p' : Pos} {α β : Type}

/-- Same outcome up to positions. -/
def Sim (p p' : Pos) (R : α → α → Prop) : Res Error α → Res Error α → Prop
  | .ok a, .ok a' => R a a'
  | .err e, .err e' => e' = e.move (rebase p p')
  | .panic, .panic => True
  | _, _ => False

theorem Sim.bind {R : α → α → Prop} {S : β → β → Prop} {r r' : Res Error α}
    {f f' : α → Res Error β} (h : Sim p p' R r r') (hf : ∀ a a', R a a' → Sim p p' S (f a) (f' a')) :
    Sim p p' S (r >>= f) (r' >>= f') := by
  cases r <;> cases r' <;> simp only [Sim] at h
  · exact hf _ _ h
  · exact h
  · trivial

/-- Same cursor up to the start position. -/
def CSim (p p' : Pos) (c c' : Cur) : Prop := c.start = p ∧ c' = ⟨p', c.idx, c.rest⟩

theorem CSim.pos {c c' : Cur} (h : CSim p p' c c') : c'.pos = rebase p p' c.pos := by
  obtain ⟨h1, rfl⟩ := h
  simp [Cur.pos, h1, rebase_plus]

theorem eatWsAux_start (st : Pos) (n : Nat) (s : Str) :
    (eatWsAux st n s).start = st := by
  induction s generalizing n with
  | nil => rfl
  | cons c cs ih => simp only [eatWsAux]; split <;> simp [ih]

theorem eatWsAux_sim (n : Nat) (s : Str) : CSim p p' (eatWsAux p n s) (eatWsAux p' n s) := by
  induction s generalizing n with
  | nil => exact ⟨rfl, rfl⟩
  | cons c cs ih =>
    simp only [eatWsAux]; split
    · exact ih _
    · exact ⟨rfl, rfl⟩

theorem CSim.eatWs {c c' : Cur} (h : CSim p p' c c') : CSim p p' (eatWs c) (eatWs c') := by
  obtain ⟨h1, rfl⟩ := h
  simp only [Semver.eatWs, h1]
  exact eatWsAux_sim _ _

theorem CSim.step {c c' : Cur} (h : CSim p p' c c') (cs : Str) : CSim p p' (c.step cs) (c'.step cs) := by
  obtain ⟨h1, rfl⟩ := h
  exact ⟨h1, rfl⟩

theorem CSim.rest {c c' : Cur} (h : CSim p p' c c') : c'.rest = c.rest := by rw [h.2]
theorem CSim.idx {c c' : Cur} (h : CSim p p' c c') : c'.idx = c.idx := by rw [h.2]

theorem eatChar_sim {c c' : Cur} (h : CSim p p' c c') (ch : Char) :
    (eatChar ch c').1 = (eatChar ch c).1 ∧ CSim p p' (eatChar ch c).2 (eatChar ch c').2 := by
  unfold eatChar
  rw [h.rest]
  split
  · split
    · exact ⟨rfl, h.step _⟩
    · exact ⟨rfl, h⟩
  · exact ⟨rfl, h⟩

theorem eatWildcard_sim {c c' : Cur} (h : CSim p p' c c') :
    (eatWildcard c = none ∧ eatWildcard c' = none) ∨
    ∃ w d d', eatWildcard c = some (w, d) ∧ eatWildcard c' = some (w, d') ∧ CSim p p' d d' := by
  unfold eatWildcard
  rw [h.rest]
  split
  · split
    · exact .inr ⟨_, _, _, rfl, rfl, h.step _⟩
    · split
      · exact .inr ⟨_, _, _, rfl, rfl, h.step _⟩
      · split
        · exact .inr ⟨_, _, _, rfl, rfl, h.step _⟩
        · exact .inl ⟨rfl, rfl⟩
  · exact .inl ⟨rfl, rfl⟩

theorem expectDot_sim {c c' : Cur} (h : CSim p p' c c') (f : NumField) :
    Sim p p' (CSim p p') (expectDot c f) (expectDot c' f) := by
  unfold expectDot
  rw [h.rest, h.pos]
  split
  · split
    · exact h.step _
    · rfl
  · rfl

theorem expectCommaOrEnd_sim {c c' : Cur} (h : CSim p p' c c') :
    Sim p p' (fun a b => a.1 = b.1 ∧ CSim p p' a.2 b.2) (expectCommaOrEnd c) (expectCommaOrEnd c') := by
  unfold expectCommaOrEnd
  rw [h.rest, h.pos, h.idx]
  split
  · split
    · exact ⟨rfl, h.step _⟩
    · rfl
  · exact ⟨rfl, h⟩

theorem intLoop_sim (ovf : Bool) (acc : Option Nat) (idx : Nat) (s : Str) :
    Sim p p' (fun a b => a.1 = b.1 ∧ CSim p p' a.2 b.2) (intLoop ovf p acc idx s)
      (intLoop ovf p' acc idx s) := by
  induction s generalizing acc idx with
  | nil => exact ⟨rfl, rfl, rfl⟩
  | cons c cs ih =>
    simp only [intLoop]
    split
    · cases acc with
      | none => exact ih _ _
      | some a =>
        simp only
        split
        · split
          · exact ih _ _
          · split
            · trivial
            · exact ih _ _
        · exact ih _ _
    · exact ⟨rfl, rfl, rfl⟩

theorem parseInt_sim (ovf : Bool) {c c' : Cur} (h : CSim p p' c c') (f : NumField) :
    Sim p p' (fun a b => a.1 = b.1 ∧ CSim p p' a.2 b.2) (parseInt ovf c f) (parseInt ovf c' f) := by
  unfold parseInt
  rw [h.rest]
  split
  · rw [h.pos]; rfl
  · rename_i x cs hr
    have hs := h.step cs
    split
    · simp only
      split
      · split
        · obtain ⟨h1, rfl⟩ := h
          simp [Sim, Error.move, rebase, Cur.pos, Cur.step, Pos.minus, Pos.plus, h1]
        · exact ⟨rfl, hs⟩
      · exact ⟨rfl, hs⟩
    · split
      · obtain ⟨h1, rfl⟩ := h
        subst h1
        have := intLoop_sim (p := c.start) (p' := p') ovf (some (digitVal x)) (c.idx + 1) cs
        generalize intLoop ovf c.start (some (digitVal x)) (c.idx + 1) cs = r at *
        generalize intLoop ovf p' (some (digitVal x)) (c.idx + 1) cs = r' at *
        cases r with
        | ok a =>
          cases r' with
          | ok b =>
            obtain ⟨a1, a2⟩ := a; obtain ⟨b1, b2⟩ := b
            simp only [Sim] at this
            obtain ⟨rfl, h2⟩ := this
            cases a1 with
            | none => simp [Sim, Error.move, rebase_plus, h2.idx]
            | some v => exact ⟨rfl, h2⟩
          | _ => simp [Sim] at this
        | err e => cases r' <;> simp [Sim] at this ⊢; exact this
        | panic => cases r' <;> simp [Sim] at this ⊢
      · rw [h.pos]; rfl

theorem boundary_sim (field : IdentField) (taken seg : Str) (nd : Bool) (idx : Nat) (rest : Str) :
    Sim p p' (fun a b => a.1 = b.1 ∧ CSim p p' a.2 b.2)
      (identLoop.boundary field p taken seg nd idx rest)
      (identLoop.boundary field p' taken seg nd idx rest) := by
  unfold identLoop.boundary
  split
  · split <;> simp [Sim, Error.move, rebase_plus]
  · split
    · simp [Sim, Error.move, rebase_plus]
    · exact ⟨rfl, rfl, rfl⟩

theorem identLoop_sim (field : IdentField) (taken seg : Str) (nd : Bool) (idx : Nat) (rest : Str) :
    Sim p p' (fun a b => a.1 = b.1 ∧ CSim p p' a.2 b.2)
      (identLoop field p taken seg nd idx rest) (identLoop field p' taken seg nd idx rest) := by
  induction rest generalizing taken seg nd idx with
  | nil => exact boundary_sim ..
  | cons c cs ih =>
    simp only [identLoop]
    split
    · exact ih ..
    · split
      · exact ih ..
      · split
        · split
          · simp [Sim, Error.move, rebase_plus]
          · split
            · simp [Sim, Error.move, rebase_plus]
            · exact ih ..
        · exact boundary_sim ..

theorem parseIdent_sim {c c' : Cur} (h : CSim p p' c c') (f : IdentField) :
    Sim p p' (fun a b => a.1 = b.1 ∧ CSim p p' a.2 b.2) (parseIdent c f) (parseIdent c' f) := by
  obtain ⟨rfl, rfl⟩ := h
  exact identLoop_sim ..

theorem optIdent_sim {c c' : Cur} (h : CSim p p' c c') (ch : Char) (f : IdentField) :
    Sim p p' (fun a b => a.1 = b.1 ∧ CSim p p' a.2 b.2) (optIdent ch f c) (optIdent ch f c') := by
  unfold optIdent
  obtain ⟨h1, h2⟩ := eatChar_sim h ch
  generalize eatChar ch c = x at *
  generalize eatChar ch c' = y at *
  obtain ⟨x1, x2⟩ := x; obtain ⟨y1, y2⟩ := y
  simp only at h1 h2; subst h1
  cases y1 with
  | false => exact ⟨rfl, h2⟩
  | true =>
    refine (parseIdent_sim h2 f).bind ?_
    rintro ⟨a, b⟩ ⟨a', b'⟩ ⟨e1, e2⟩
    exact ⟨congrArg some e1, e2⟩

theorem parseVersion_sim (ovf : Bool) (input : Str) :
    Sim p p' Eq (parseVersion ovf input p) (parseVersion ovf input p') := by
  unfold parseVersion
  have h0 : CSim p p' (eatWs (Cur.new p input)) (eatWs (Cur.new p' input)) :=
    CSim.eatWs ⟨rfl, rfl⟩
  refine (parseInt_sim ovf h0 _).bind ?_
  rintro ⟨M, c1⟩ ⟨M', c1'⟩ ⟨rfl, h1⟩
  refine (expectDot_sim h1 _).bind fun c2 c2' h2 => ?_
  refine (parseInt_sim ovf h2 _).bind ?_
  rintro ⟨m, c3⟩ ⟨m', c3'⟩ ⟨rfl, h3⟩
  refine (expectDot_sim h3 _).bind fun c4 c4' h4 => ?_
  refine (parseInt_sim ovf h4 _).bind ?_
  rintro ⟨q, c5⟩ ⟨q', c5'⟩ ⟨rfl, h5⟩
  refine (optIdent_sim h5 _ _).bind ?_
  rintro ⟨pre, c6⟩ ⟨pre', c6'⟩ ⟨rfl, h6⟩
  refine (optIdent_sim h6 _ _).bind ?_
  rintro ⟨b, c7⟩ ⟨b', c7'⟩ ⟨rfl, h7⟩
  have h8 := h7.eatWs
  simp only [h8.rest]
  split
  · rfl
  · simp [Sim, Error.move, h8.pos]

/-- Equal comparator versions and operators, cursors equal up to the start. -/
def TSim (p p' : Pos) (a b : CompVersion × Op × Cur) : Prop :=
  a.1 = b.1 ∧ a.2.1 = b.2.1 ∧ CSim p p' a.2.2 b.2.2

theorem compVersion_sim (ovf : Bool) {c c' : Cur} (h : CSim p p' c c') (op : Op) :
    Sim p p' (TSim p p') (compVersion ovf c op) (compVersion ovf c' op) := by
  unfold compVersion
  refine (parseInt_sim ovf h _).bind ?_
  rintro ⟨M, c1⟩ ⟨M', c1'⟩ ⟨rfl, h1⟩
  simp only at h1 ⊢
  obtain ⟨e1, e2⟩ := eatChar_sim h1 '.'
  generalize eatChar '.' c1 = x at *
  generalize eatChar '.' c1' = y at *
  obtain ⟨x1, c2⟩ := x; obtain ⟨y1, c2'⟩ := y
  simp only at e1 e2; subst e1
  cases y1 with
  | false => exact ⟨rfl, rfl, e2⟩
  | true =>
  simp only
  rcases eatWildcard_sim e2 with ⟨w1, w2⟩ | ⟨w, d, d', w1, w2, hd⟩
  · rw [w1, w2]
    simp only
    refine (parseInt_sim ovf e2 _).bind ?_
    rintro ⟨m, c3⟩ ⟨m', c3'⟩ ⟨rfl, h3⟩
    simp only at h3 ⊢
    obtain ⟨e3, e4⟩ := eatChar_sim h3 '.'
    generalize eatChar '.' c3 = x at *
    generalize eatChar '.' c3' = y at *
    obtain ⟨x1, c4⟩ := x; obtain ⟨y1, c4'⟩ := y
    simp only at e3 e4; subst e3
    cases y1 with
    | false => exact ⟨rfl, rfl, e4⟩
    | true =>
    simp only
    rcases eatWildcard_sim e4 with ⟨w1, w2⟩ | ⟨w, d, d', w1, w2, hd⟩
    · rw [w1, w2]
      simp only
      refine (parseInt_sim ovf e4 _).bind ?_
      rintro ⟨q, c5⟩ ⟨q', c5'⟩ ⟨rfl, h5⟩
      refine (optIdent_sim h5 _ _).bind ?_
      rintro ⟨pre, c6⟩ ⟨pre', c6'⟩ ⟨rfl, h6⟩
      refine (optIdent_sim h6 _ _).bind ?_
      rintro ⟨b, c7⟩ ⟨b', c7'⟩ ⟨rfl, h7⟩
      simp only at h7 ⊢
      cases pre <;> exact ⟨rfl, rfl, h7⟩
    · rw [w1, w2]
      exact ⟨rfl, rfl, hd⟩
  · rw [w1, w2]
    simp only
    obtain ⟨e3, e4⟩ := eatChar_sim hd '.'
    generalize eatChar '.' d = x at *
    generalize eatChar '.' d' = y at *
    obtain ⟨x1, c4⟩ := x; obtain ⟨y1, c4'⟩ := y
    simp only at e3 e4; subst e3
    cases y1 with
    | false => exact ⟨rfl, rfl, e4⟩
    | true =>
    simp only
    rcases eatWildcard_sim e4 with ⟨w1, w2⟩ | ⟨w, d, d', w1, w2, hd⟩
    · rw [w1, w2]
      simp only [e4.rest]
      split <;> simp [Sim, Error.move, e4.pos]
    · rw [w1, w2]
      exact ⟨rfl, rfl, hd⟩

theorem parseOp_sim {c c' : Cur} (h : CSim p p' c c') (b : Char) (cs : Str) :
    (parseOp b cs c = none ∧ parseOp b cs c' = none) ∨
    ∃ o d d', parseOp b cs c = some (o, d) ∧ parseOp b cs c' = some (o, d') ∧ CSim p p' d d' := by
  unfold parseOp
  have hs := h.step cs
  obtain ⟨e1, e2⟩ := eatChar_sim hs '='
  generalize eatChar '=' (c.step cs) = x at *
  generalize eatChar '=' (c'.step cs) = y at *
  obtain ⟨x1, c4⟩ := x; obtain ⟨y1, c4'⟩ := y
  simp only at e1 e2; subst e1
  split
  · exact .inr ⟨_, _, _, rfl, rfl, h⟩
  · split
    · exact .inr ⟨_, _, _, rfl, rfl, hs⟩
    · split
      · cases y1 <;> exact .inr ⟨_, _, _, rfl, rfl, e2⟩
      · split
        · cases y1 <;> exact .inr ⟨_, _, _, rfl, rfl, e2⟩
        · split
          · exact .inr ⟨_, _, _, rfl, rfl, hs⟩
          · split
            · exact .inr ⟨_, _, _, rfl, rfl, hs⟩
            · exact .inl ⟨rfl, rfl⟩

theorem wildcardArm_sim {c c' : Cur} (h : CSim p p' c c') (w : WlChar) (first : Bool) (cs : Str) :
    Sim p p' (fun a b => a.1 = b.1 ∧ CSim p p' a.2 b.2) (wildcardArm p w first c cs)
      (wildcardArm p' w first c' cs) := by
  unfold wildcardArm
  have hs := h.step cs
  rw [h.idx]
  split
  · simp [Sim, Error.move, rebase_plus]
  · have hm : ∀ (m m' : Option Error) (k k' : Res Error (Comparator × Cur)),
        (m = none → m' = none ∧ Sim p p' (fun a b => a.1 = b.1 ∧ CSim p p' a.2 b.2) k k') →
        (∀ e, m = some e → m' = some (e.move (rebase p p'))) →
        Sim p p' (fun a b => a.1 = b.1 ∧ CSim p p' a.2 b.2)
          (match m with | some e => .err e | none => k) (match m' with | some e => .err e | none => k') := by
      intro m m' k k' h1 h2
      cases m with
      | none => obtain ⟨rfl, h⟩ := h1 rfl; exact h
      | some e => rw [h2 e rfl]; rfl
    have hw := hs.eatWs
    refine hm _ _ _ _ ?_ ?_
    · intro hn
      refine ⟨?_, ?_⟩
      · cases cs with
        | nil => rfl
        | cons x xs =>
          simp only at hn ⊢
          split at hn
          · rename_i hx; rw [if_pos hx]
          · cases hn
      · simp only [hw.rest]
        split
        · split
          · rename_i x xs hr _
            have he := (hw.step xs).eatWs
            simp only [he.rest]
            split
            · simp [Sim, Error.move, hw.pos]
            · simp [Sim, Error.move, rebase_plus]
          · simp [Sim, Error.move, rebase_plus]
        · refine (expectCommaOrEnd_sim hw).bind ?_
          rintro ⟨a, b⟩ ⟨a', b'⟩ ⟨rfl, h2⟩
          exact ⟨rfl, h2⟩
    · intro e he
      cases cs with
      | nil => cases he
      | cons x xs =>
        simp only at he ⊢
        split at he
        · cases he
        · rename_i hx
          cases he
          rw [if_neg hx, hs.pos]; rfl

theorem comparatorStep_sim (ovf : Bool) {c c' : Cur} (h : CSim p p' c c') (n : Nat) (b : Char)
    (cs : Str) :
    Sim p p' (fun a b => a.1 = b.1 ∧ CSim p p' a.2 b.2) (comparatorStep ovf p n c b cs)
      (comparatorStep ovf p' n c' b cs) := by
  unfold comparatorStep
  split
  · simp [Sim, Error.move, h.pos]
  · simp only
    split
    · exact wildcardArm_sim h ..
    · rcases parseOp_sim h b cs with ⟨w1, w2⟩ | ⟨o, d, d', w1, w2, hd⟩
      · rw [w1, w2]; simp [Sim, Error.move, h.pos]
      · rw [w1, w2]
        simp only
        refine (compVersion_sim ovf hd.eatWs o).bind ?_
        rintro ⟨cv, o1, c1⟩ ⟨cv', o1', c1'⟩ ⟨e1, e2, h1⟩
        simp only at e1 e2 h1; subst e1 e2
        refine (expectCommaOrEnd_sim h1.eatWs).bind ?_
        rintro ⟨a, b⟩ ⟨a', b'⟩ ⟨rfl, h2⟩
        refine ⟨?_, h2⟩
        simp only [h.idx, hd.eatWs.idx]

theorem reqLoop_sim (ovf : Bool) (fuel : Nat) {c c' : Cur} (h : CSim p p' c c')
    (comps : List Comparator) (lc : Option Nat) :
    Sim p p' Eq (reqLoop ovf p fuel c comps lc) (reqLoop ovf p' fuel c' comps lc) := by
  induction fuel generalizing c c' comps lc with
  | zero => trivial
  | succ fuel ih =>
    simp only [reqLoop, h.eatWs.rest]
    split
    · rfl
    · refine (comparatorStep_sim ovf h.eatWs _ _ _).bind ?_
      rintro ⟨a, b⟩ ⟨a', b'⟩ ⟨e, h2⟩
      simp only at e; subst e
      exact ih h2 _ _

theorem parseRequirement_sim (ovf : Bool) (input : Str) :
    Sim p p' (fun a b => b = { a with pos := p' }) (parseRequirement ovf input p)
      (parseRequirement ovf input p') := by
  unfold parseRequirement
  refine (reqLoop_sim ovf _ (c := Cur.new p input) (c' := Cur.new p' input) ⟨rfl, rfl⟩ _ _).bind ?_
  rintro ⟨comps, lc⟩ _ rfl
  cases lc with
  | some o => simp [Sim, Error.move, Cur.new, rebase_plus]
  | none =>
    simp only
    split
    · simp [Sim, Error.move, Cur.new, rebase_self]
    · rfl

end Verif.Semver
