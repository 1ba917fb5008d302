import Verif.Toml.ParseTop

/-! # The nesting of parsed values -/

namespace Verif.Toml
open Verif Verif.Spec.Toml

variable {α β : Type} {E : Env}

/-- Every result satisfies `Q`. -/
def Ens (m : M α) (Q : α → Prop) : Prop := ∀ s a s', m s = .ok a s' → Q a

theorem Ens.bind {x : M α} {f : α → M β} {R : α → Prop} {Q : β → Prop} (h : Ens x R)
    (hf : ∀ a, R a → Ens (f a) Q) : Ens (x >>= f) Q := by
  intro s b s' hb
  change M.bind x f s = _ at hb
  unfold M.bind at hb
  cases hx : x s with
  | ok a s1 => rw [hx] at hb; exact hf a (h _ _ _ hx) _ _ _ hb
  | panic => rw [hx] at hb; cases hb
  | timeout => rw [hx] at hb; cases hb

theorem Ens.any (m : M α) : Ens m (fun _ => True) := fun _ _ _ _ => trivial

theorem Ens.bind' {x : M α} {f : α → M β} {Q : β → Prop} (hf : ∀ a, Ens (f a) Q) : Ens (x >>= f) Q :=
  Ens.bind (Ens.any x) fun a _ => hf a

theorem Ens.pure {a : α} {Q : α → Prop} (h : Q a) : Ens (Pure.pure a : M α) Q := by
  intro s b s' hb
  change Run.ok a s = _ at hb
  cases hb; exact h

theorem Ens.panic {Q : α → Prop} : Ens (M.panic : M α) Q := by intro s b s' hb; cases hb
theorem Ens.timeout {Q : α → Prop} : Ens (M.timeout : M α) Q := by intro s b s' hb; cases hb

/-- The result is a scalar. -/
def Scal (v : Value) : Prop := (∀ t, v ≠ .inlineTable t) ∧ (∀ a, v ≠ .inlineArray a)

theorem timePart_scal (a b c d e) : Ens (timePart E a b c d e) Scal := by
  unfold timePart
  dsimp only
  have key : ∀ lit : Slice, Ens (match parseTimeAndOffset ⟨0, d.text⟩ e with
        | .ok ((time, offset), _) => Pure.pure
            (Value.dateTime lit.text (Span.across b e) (DateTime.fromOptionalOffset c time offset))
        | .err err => do
          error err
          Pure.pure (Value.invalid lit.text (Span.across b e))
        | .panic => (M.panic : M Value)) Scal := by
    intro lit
    split
    · exact Ens.pure (by simp [Scal])
    · exact Ens.bind' fun _ => Ens.pure (by simp [Scal])
    · exact Ens.panic
  split
  · exact Ens.bind' fun _ => Ens.bind' key
  · exact Ens.bind' key

theorem tryToParse_scal (a b c) : Ens (tryToParseTimePart E a b c) Scal := by
  unfold tryToParseTimePart
  refine Ens.bind' fun t => ?_
  split
  · refine Ens.bind' fun _ => Ens.bind' fun _ => Ens.bind' fun p => ?_
    obtain ⟨x, y⟩ := p
    exact timePart_scal _ _ _ _ _
  · exact Ens.pure (by simp [Scal])

theorem tryCombine_scal (a b) : Ens (tryCombineTimePart E a b) Scal := by
  unfold tryCombineTimePart
  refine Ens.bind' fun t => ?_
  split
  · refine Ens.bind' fun _ => ?_
    dsimp only
    split
    · exact Ens.pure (by simp [Scal])
    · refine Ens.bind' fun _ => Ens.bind' fun _ => Ens.bind' fun p => ?_
      obtain ⟨x, y⟩ := p
      exact Ens.pure (by simp [Scal])
  · exact Ens.pure (by simp [Scal])

theorem literalValue_scal (a b) : Ens (literalValue E a b) Scal := by
  unfold literalValue
  split
  · exact Ens.pure (by simp [Scal])
  · exact Ens.pure (by simp [Scal])
  · exact Ens.pure (by simp [Scal])
  · exact Ens.pure (by simp [Scal])
  · exact tryToParse_scal _ _ _
  · refine Ens.bind' fun _ => ?_
    split
    · exact Ens.pure (by simp [Scal])
    · exact tryCombine_scal _ _
  · exact Ens.bind' fun _ => Ens.pure (by simp [Scal])
  · exact Ens.panic

/-- The nesting of a result. -/
def NestR (n : Nat) (r : Except Error Value) : Prop := ∀ v, r = .ok v → NestedAtMost n v

theorem NestR.error {n : Nat} {e : Error} : NestR n (.error e) := by intro v hv; cases hv
theorem NestR.scal {n : Nat} {v : Value} (h : Scal v) : NestR n (.ok v) := by
  intro v hv; cases hv; exact .scalar h.1 h.2

/-- The state at the end of a round. -/
def RoundI {σ : Type} (I : σ → Prop) : Round σ → Prop
  | .continue st => I st
  | .break st => I st
  | .return _ => True

/-- The values of an array so far. -/
def ArrI (n : Nat) (st : ArrSt) : Prop := ∀ v ∈ st.values, NestedAtMost n v.val

/-- The values of an inline table so far. -/
def TabI (n : Nat) (st : TabSt) : Prop := ∀ v ∈ st.assignments, NestedAtMost n v.assignment.val

theorem loopM_ens {σ : Type} {round : σ → M (Round σ)} {I : σ → Prop}
    (h : ∀ st, I st → Ens (round st) (RoundI I)) : ∀ (n : Nat) (st : σ), I st →
      Ens (loopM round n st) (fun r => ∀ st, r = .ok st → I st) := by
  intro n
  induction n with
  | zero => intro st _; exact Ens.timeout
  | succ n ih =>
    intro st hst
    unfold loopM
    refine Ens.bind (h st hst) ?_
    intro r hr
    split
    · exact ih _ hr
    · exact Ens.pure (by intro st e; cases e; exact hr)
    · exact Ens.pure (by intro st e; cases e)

theorem arrayRecover_ens {I : ArrSt → Prop} {st : ArrSt} (h : I st) :
    Ens (arrayRecover E st) (RoundI I) := by
  unfold arrayRecover
  refine Ens.bind' fun _ => Ens.bind' fun t => ?_
  split
  · exact Ens.pure h
  · exact Ens.pure h
  · exact Ens.bind' fun _ => Ens.pure h

theorem arrayAfterValue_ens {n level : Nat} {st : ArrSt} {val : Value}
    (h : ArrI n st) (hv : NestedAtMost n val) :
    Ens (arrayAfterValue E level st val) (RoundI (ArrI n)) := by
  have key : ∀ c o, ∀ v ∈ st.values ++ [(⟨c, val, o⟩ : InlineArrayValue)], NestedAtMost n v.val := by
    intro c o v hv'
    rcases List.mem_append.1 hv' with hv' | hv'
    · exact h v hv'
    · rw [List.mem_singleton.1 hv']; exact hv
  unfold arrayAfterValue
  refine Ens.bind' fun _ => Ens.bind' fun _ => Ens.bind' fun _ => Ens.bind' fun _ => Ens.bind' fun t => ?_
  split
  · refine Ens.bind' fun _ => Ens.bind' fun _ => Ens.bind' fun _ => Ens.bind' fun _ => Ens.bind' fun _ => ?_
    exact Ens.pure (key _ _)
  split
  · exact Ens.pure (key _ _)
  · exact Ens.bind' fun _ => Ens.pure (key _ _)

theorem arrayRound_ens {n level : Nat} {elem : M (Except Error Value)} (he : Ens elem (NestR n))
    {st : ArrSt} (h : ArrI n st) :
    Ens (arrayRound E elem level st) (RoundI (ArrI n)) := by
  unfold arrayRound
  refine Ens.bind' fun _ => Ens.bind' fun c => ?_
  dsimp only
  refine Ens.bind' fun t => ?_
  split
  · exact Ens.pure h
  refine Ens.bind he ?_
  intro r hr
  split
  · exact arrayAfterValue_ens h (hr _ rfl)
  · exact Ens.pure trivial
  · exact Ens.bind' fun _ => arrayRecover_ens (I := ArrI n) h

theorem parseArray_ens {n level : Nat} {elem : M (Except Error Value)} {lPar : Pos}
    (he : Ens elem (NestR n)) : Ens (parseArray E elem level lPar) (NestR (n + 1)) := by
  unfold parseArray
  refine Ens.bind' fun _ => ?_
  split
  · exact Ens.bind' fun _ => Ens.pure .error
  refine Ens.bind' fun _ => Ens.bind' fun _ => Ens.bind' fun _ => ?_
  refine Ens.bind (loopM_ens (I := ArrI n)
    (fun st => arrayRound_ens he) _ _ (by simp [ArrI])) ?_
  intro r hr
  split
  · exact Ens.pure .error
  · refine Ens.bind' fun _ => Ens.bind' fun _ => Ens.bind' fun _ => Ens.bind' fun _ => ?_
    refine Ens.pure ?_
    intro v hv; cases hv
    exact .inlineArray (hr _ rfl)

theorem tableRecover_ens {I : TabSt → Prop} {st : TabSt} (h : I st) :
    Ens (tableRecover E st) (RoundI I) := by
  unfold tableRecover
  refine Ens.bind' fun _ => Ens.bind' fun t => ?_
  split
  · exact Ens.bind' fun _ => Ens.pure h
  · exact Ens.pure h

theorem tableRound_ens {n : Nat} {elem : M (Except Error Value)} (he : Ens elem (NestR n))
    {st : TabSt} (h : TabI n st) :
    Ens (tableRound E elem st) (RoundI (TabI n)) := by
  have hrec := tableRecover_ens (E := E)
    (I := TabI n) h
  unfold tableRound
  refine Ens.bind' fun t => ?_
  split
  · exact Ens.bind' fun _ => Ens.pure h
  refine Ens.bind' fun k => ?_
  split
  · unfold tableAfterKey
    refine Ens.bind' fun t => ?_
    split
    · refine Ens.bind' fun eq => Ens.bind he ?_
      intro r hr
      split
      · rename_i val
        have hv := hr _ rfl
        have key : ∀ a o, a.val = val → ∀ v ∈ st.assignments ++ [(⟨a, o⟩ : InlineTableAssignment)],
            NestedAtMost n v.assignment.val := by
          intro a o ha v hv'
          rcases List.mem_append.1 hv' with hv' | hv'
          · exact h v hv'
          · rw [List.mem_singleton.1 hv']; simp only [ha]; exact hv
        unfold tableAfterValue
        refine Ens.bind' fun t => ?_
        split
        · exact Ens.bind' fun _ => Ens.pure (key _ _ rfl)
        split
        · exact Ens.pure (key _ _ rfl)
        · exact Ens.bind' fun _ => Ens.pure (key _ _ rfl)
      · exact Ens.pure trivial
      · exact Ens.bind' fun _ => hrec
    · refine Ens.bind' fun p => ?_
      obtain ⟨f, s⟩ := p
      exact Ens.bind' fun _ => hrec
  · exact Ens.pure h
  · exact Ens.bind' fun _ => hrec

theorem parseTable_ens {n level : Nat} {elem : M (Except Error Value)} {lPar : Pos}
    (he : Ens elem (NestR n)) : Ens (parseTable E elem level lPar) (NestR (n + 1)) := by
  unfold parseTable
  refine Ens.bind' fun _ => ?_
  split
  · exact Ens.bind' fun _ => Ens.pure .error
  refine Ens.bind' fun _ => ?_
  refine Ens.bind (loopM_ens
    (I := TabI n)
    (fun st => tableRound_ens he) _ _ (by simp [TabI])) ?_
  intro r hr
  split
  · exact Ens.pure .error
  · refine Ens.bind' fun _ => Ens.pure ?_
    intro v hv; cases hv
    exact .inlineTable (hr _ rfl)

theorem parseDot_ens {n : Nat} {t : Token} : Ens (parseDotValue E t) (NestR n) := by
  unfold parseDotValue
  refine Ens.bind' fun _ => Ens.bind' fun _ => Ens.bind' fun t => ?_
  split
  · split
    · refine Ens.bind' fun _ => Ens.bind' fun _ => Ens.bind' fun _ => Ens.bind' fun p => ?_
      obtain ⟨a, b⟩ := p
      exact Ens.pure (.scal (by simp [Scal]))
    · exact Ens.bind' fun p => by obtain ⟨a, b⟩ := p; exact Ens.pure .error
  · exact Ens.bind' fun p => by obtain ⟨a, b⟩ := p; exact Ens.pure .error

/-- At the limit there are no nested values. -/
theorem parseArray_limit {n level : Nat} {elem : M (Except Error Value)} {lPar : Pos}
    (hl : RECURSION_LIMIT ≤ level) : Ens (parseArray E elem level lPar) (NestR n) := by
  unfold parseArray
  refine Ens.bind' fun _ => ?_
  rw [if_pos hl]
  exact Ens.bind' fun _ => Ens.pure .error

theorem parseTable_limit {n level : Nat} {elem : M (Except Error Value)} {lPar : Pos}
    (hl : RECURSION_LIMIT ≤ level) : Ens (parseTable E elem level lPar) (NestR n) := by
  unfold parseTable
  refine Ens.bind' fun _ => ?_
  rw [if_pos hl]
  exact Ens.bind' fun _ => Ens.pure .error

theorem parseValue_ens : ∀ (d level n : Nat), level + n = RECURSION_LIMIT →
    Ens (parseValue E d level) (NestR n) := by
  intro d
  induction d with
  | zero => intro level n _; exact Ens.timeout
  | succ d ih =>
    intro level n hn
    unfold parseValue
    refine Ens.bind' fun t => ?_
    split
    · refine Ens.bind (R := Scal) ?_ (fun v hv => Ens.pure (.scal hv))
      unfold parseStringValue
      exact Ens.bind' fun _ => Ens.bind' fun _ => Ens.pure (by simp [Scal])
    · refine Ens.bind (R := Scal) ?_ (fun v hv => Ens.pure (.scal hv))
      unfold parseLiteralValue
      refine Ens.bind' fun _ => Ens.bind' fun _ => Ens.bind' fun p => ?_
      obtain ⟨a, b⟩ := p
      exact literalValue_scal _ _
    · exact parseDot_ens
    · cases n with
      | zero => exact parseArray_limit (by omega)
      | succ n => exact parseArray_ens (ih _ _ (by omega))
    · cases n with
      | zero => exact parseTable_limit (by omega)
      | succ n => exact parseTable_ens (ih _ _ (by omega))
    · exact Ens.bind' fun p => by obtain ⟨a, b⟩ := p; exact Ens.pure .error

/-! ## Documents -/

/-- All values in items. -/
def AllNest (as : List Ast) : Prop := ∀ a ∈ as, ∀ v ∈ astValues a, NestedAtMost RECURSION_LIMIT v

theorem _root_.Verif.Spec.Toml.NestedAtMost.mono {n m : Nat} {v : Value} (h : NestedAtMost n v) (hm : n ≤ m) :
    NestedAtMost m v := by
  induction h generalizing m with
  | scalar h1 h2 => exact .scalar h1 h2
  | inlineTable _ ih =>
    obtain ⟨k, rfl⟩ : ∃ k, m = k + 1 := ⟨m - 1, by omega⟩
    exact .inlineTable fun a ha => ih a ha (by omega)
  | inlineArray _ ih =>
    obtain ⟨k, rfl⟩ : ∃ k, m = k + 1 := ⟨m - 1, by omega⟩
    exact .inlineArray fun a ha => ih a ha (by omega)

theorem AllNest.append {a b : List Ast} (ha : AllNest a) (hb : AllNest b) : AllNest (a ++ b) := by
  intro x hx
  rcases List.mem_append.1 hx with hx | hx
  · exact ha x hx
  · exact hb x hx

theorem AllNest.comments {cs : List Comment} : AllNest (cs.map Ast.comment) := by
  intro x hx
  obtain ⟨c, -, rfl⟩ := List.mem_map.1 hx
  simp [astValues]

theorem AllNest.one {a : Ast} (h : ∀ v ∈ astValues a, NestedAtMost RECURSION_LIMIT v) : AllNest [a] := by
  intro x hx
  rw [List.mem_singleton.1 hx]
  exact h

theorem AllNest.dropLast {as : List Ast} (h : AllNest as) : AllNest as.dropLast :=
  fun a ha => h a (mem_of_dropLast ha)

theorem AllNest.last {as : List Ast} {a : Ast} (h : AllNest as) (ha : as.getLast? = some a) :
    ∀ v ∈ astValues a, NestedAtMost RECURSION_LIMIT v := h a (List.mem_of_getLast? ha)

theorem lift_ens {o : Option α} : Ens (M.lift o) (fun a => o = some a) := by
  intro s a s' h
  unfold M.lift at h
  split at h
  · cases h; rfl
  · cases h

theorem finishHeader_ens {ovf : Bool} {r : RootSt} {a b c d} (h : AllNest r.asts) :
    Ens (finishHeader ovf r a b c d) (fun r => AllNest r.asts) := by
  unfold finishHeader
  refine Ens.bind' fun pos => ?_
  dsimp only
  refine Ens.bind' fun _ => ?_
  split
  · exact Ens.bind' fun _ => Ens.pure ((h.append .comments).append (.one (by simp [astValues])))
  · exact Ens.bind' fun _ => Ens.pure ((h.append .comments).append (.one (by simp [astValues])))

theorem appendLast_vals : ∀ (as : List ToplevelAssignment) (id : Nat) (bs : List ToplevelAssignment),
    appendLast as id = some bs → bs.map (·.assignment.val) = as.map (·.assignment.val)
  | [], _, _, h => by cases h
  | [a], id, bs, h => by
    simp only [appendLast, Option.bind_eq_bind, Option.pure_def, Option.bind_eq_some_iff,
      Option.some.injEq] at h
    obtain ⟨c, -, rfl⟩ := h
    rfl
  | a :: b :: l, id, bs, h => by
    simp only [appendLast, Option.bind_eq_bind, Option.pure_def, Option.bind_eq_some_iff,
      Option.some.injEq] at h
    obtain ⟨c, hc, rfl⟩ := h
    have := appendLast_vals _ _ _ hc
    simp only [List.map_cons] at this ⊢
    rw [this]

theorem appendComment_vals {a b : Ast} {id : Nat} (h : a.appendComment id = some b) :
    astValues b = astValues a := by
  cases a with
  | assignment a =>
    simp only [Ast.appendComment, Option.map_eq_some_iff] at h
    obtain ⟨c, -, rfl⟩ := h
    rfl
  | table t =>
    simp only [Ast.appendComment, Option.map_eq_some_iff, Table.appendComment] at h
    obtain ⟨c, hc, rfl⟩ := h
    split at hc
    · simp only [Option.bind_eq_bind, Option.pure_def, Option.bind_eq_some_iff, Option.some.injEq] at hc
      obtain ⟨x, -, rfl⟩ := hc
      rfl
    · simp only [Option.bind_eq_bind, Option.pure_def, Option.bind_eq_some_iff, Option.some.injEq] at hc
      obtain ⟨x, hx, rfl⟩ := hc
      exact appendLast_vals _ _ _ hx
  | array t =>
    simp only [Ast.appendComment, Option.map_eq_some_iff, ArrayEntry.appendComment] at h
    obtain ⟨c, hc, rfl⟩ := h
    split at hc
    · simp only [Option.bind_eq_bind, Option.pure_def, Option.bind_eq_some_iff, Option.some.injEq] at hc
      obtain ⟨x, -, rfl⟩ := hc
      rfl
    · simp only [Option.bind_eq_bind, Option.pure_def, Option.bind_eq_some_iff, Option.some.injEq] at hc
      obtain ⟨x, hx, rfl⟩ := hc
      exact appendLast_vals _ _ _ hx
  | comment c => cases h

theorem rootComment_ens {t : Token} {id : Nat} {r : RootSt} (h : AllNest r.asts) :
    Ens (rootComment E t id r) (fun r => AllNest r.asts) := by
  unfold rootComment
  refine Ens.bind' fun _ => Ens.bind' fun _ => ?_
  split
  · refine Ens.bind' fun _ => ?_
    split
    · exact Ens.panic
    · rename_i a ha
      refine Ens.bind lift_ens fun b hb => Ens.pure ?_
      refine h.dropLast.append (.one ?_)
      rw [appendComment_vals hb]
      exact h.last ha
  · exact Ens.pure h

theorem looseComments_ens {r : RootSt} {cs : List Comment} (h : AllNest r.asts) :
    Ens (looseComments r cs) (fun p => AllNest p.1 ∧ p.2 ≤ 1) := by
  unfold looseComments
  split
  · rename_i t ht
    have hl := h.last ht
    exact Ens.bind' fun _ => Ens.pure ⟨h.dropLast.append (.one (fun v hv => hl v hv)), Nat.le_refl _⟩
  · rename_i t ht
    have hl := h.last ht
    exact Ens.bind' fun _ => Ens.pure ⟨h.dropLast.append (.one (fun v hv => hl v hv)), Nat.le_refl _⟩
  · exact Ens.pure ⟨h.append .comments, Nat.zero_le _⟩

theorem pushAssignment_nest {as : List Ast} {a : ToplevelAssignment} (h : AllNest as)
    (ha : NestedAtMost RECURSION_LIMIT a.assignment.val) : AllNest (pushAssignment as a) := by
  unfold pushAssignment
  split
  · rename_i t ht
    refine h.dropLast.append (.one ?_)
    intro v hv
    simp only [astValues, List.map_append, List.mem_append, List.map_cons, List.map_nil,
      List.mem_singleton] at hv
    rcases hv with hv | rfl
    · exact h.last ht v hv
    · exact ha
  · rename_i t ht
    refine h.dropLast.append (.one ?_)
    intro v hv
    simp only [astValues, List.map_append, List.mem_append, List.map_cons, List.map_nil,
      List.mem_singleton] at hv
    rcases hv with hv | rfl
    · exact h.last ht v hv
    · exact ha
  · refine h.append (.one ?_)
    intro v hv
    rw [List.mem_singleton.1 hv]
    exact ha

theorem rootValue_ens {r : RootSt} {k : Key} {p : Pos} (h : AllNest r.asts) :
    Ens (rootValue E r k p) (fun r => AllNest r.asts) := by
  unfold rootValue
  refine Ens.bind' fun pos => Ens.bind (looseComments_ens h) ?_
  rintro ⟨asts, level⟩ ⟨h1, h2⟩
  dsimp only at h1 h2 ⊢
  refine Ens.bind' fun _ => Ens.bind (parseValue_ens _ level (RECURSION_LIMIT - level) (by
    unfold RECURSION_LIMIT; omega)) ?_
  intro res hr
  split
  · refine Ens.bind' fun _ => Ens.bind' fun _ => Ens.pure ?_
    exact pushAssignment_nest h1 ((hr _ rfl).mono (by omega))
  · exact Ens.bind' fun _ => Ens.bind' fun _ => Ens.pure h1

theorem rootLoop_ens : ∀ (n : Nat) (r : RootSt), AllNest r.asts →
    Ens (rootLoop E n r) (fun r => AllNest r.asts) := by
  intro n
  induction n with
  | zero => intro r _; exact Ens.timeout
  | succ n ih =>
    intro r h
    unfold rootLoop
    refine Ens.bind' fun t => ?_
    split
    · refine Ens.bind (R := fun r => AllNest r.asts) ?_ (fun r hr => ih r hr)
      unfold rootHeader
      refine Ens.bind' fun _ => Ens.bind' fun _ => ?_
      dsimp only
      refine Ens.bind' fun _ => Ens.bind' fun p => ?_
      obtain ⟨k, b⟩ := p
      refine Ens.bind' fun _ => Ens.bind' fun _ => ?_
      split
      · exact finishHeader_ens h
      · exact Ens.pure h
    · exact Ens.bind (rootComment_ens h) (fun r hr => ih r hr)
    · exact Ens.bind' fun _ => ih _ h
    · exact Ens.pure h
    · refine Ens.bind (R := fun r => AllNest r.asts) ?_ (fun r hr => ih r hr)
      unfold rootAssignment
      refine Ens.bind' fun _ => Ens.bind' fun k => ?_
      split
      · unfold rootEq
        refine Ens.bind' fun _ => ?_
        split
        · refine Ens.bind' fun _ => Ens.bind' fun _ => ?_
          split
          · exact rootValue_ens h
          · exact Ens.pure h
        · refine Ens.bind' fun _ => ?_
          dsimp only
          split
          · exact Ens.bind' fun _ => Ens.pure h
          · refine Ens.bind' fun p => ?_
            obtain ⟨a, b⟩ := p
            exact Ens.bind' fun _ => Ens.pure h
      · dsimp only
        split
        · exact Ens.bind' fun _ => Ens.pure h
        · exact Ens.pure h
      · refine Ens.bind' fun _ => ?_
        dsimp only
        split
        · exact Ens.bind' fun _ => Ens.pure h
        · exact Ens.bind' fun _ => Ens.pure h

theorem parseDocument_nest {ovf : Bool} {input : Str} {a : Asts} {s : PS}
    (h : parseDocument ovf input = .ok a s) : AllNest a.asts := by
  unfold parseDocument at h
  split at h
  · cases h
  · unfold parse at h
    dsimp only at h
    refine Ens.bind' (Q := fun a : Asts => AllNest a.asts) (fun n => ?_) _ _ _ h
    refine Ens.bind (rootLoop_ens _ _ (by simp [AllNest])) fun r hr => ?_
    exact Ens.bind' fun cs => Ens.pure (hr.append .comments)

end Verif.Toml
