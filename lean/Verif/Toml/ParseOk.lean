import Verif.Toml.CompTop
import Verif.Spec.MapRepr

/-! # The parser only makes keys with a name, also of texts with mistakes -/

namespace Verif.Toml.Tree
open Verif Verif.Toml Verif.Spec.Toml

/-- Every result satisfies `Q`. -/
def Ens {α : Type} (x : M α) (Q : α → Prop) : Prop := ∀ s a s', x s = .ok a s' → Q a

section
variable {α β σ : Type} {Q : α → Prop} {R : β → Prop}

theorem Ens.bind {x : M α} {f : α → M β} (h : Ens x Q) (hf : ∀ a, Q a → Ens (f a) R) : Ens (x >>= f) R := by
  intro s b s' hb
  change M.bind x f s = _ at hb
  unfold M.bind at hb
  cases hx : x s with
  | ok a s1 => rw [hx] at hb; exact hf a (h s a s1 hx) s1 b s' hb
  | panic => rw [hx] at hb; cases hb
  | timeout => rw [hx] at hb; cases hb

theorem Ens.seq {x : M α} {f : α → M β} (hf : ∀ a, Ens (f a) R) : Ens (x >>= f) R :=
  Ens.bind (Q := fun _ => True) (fun _ _ _ _ => trivial) fun a _ => hf a

theorem Ens.pure {a : α} (h : Q a) : Ens (Pure.pure a : M α) Q := by
  intro s b s' hb
  cases hb
  exact h

theorem Ens.panic : Ens (M.panic : M α) Q := fun _ _ _ h => by cases h
theorem Ens.timeout : Ens (M.timeout : M α) Q := fun _ _ _ h => by cases h

theorem Ens.lift {o : Option α} (h : ∀ a, o = some a → Q a) : Ens (M.lift o) Q := by
  intro s a s' ha
  unfold M.lift at ha
  cases o with
  | none => cases ha
  | some x => cases ha; exact h _ rfl

theorem Ens.loop {round : σ → M (Round σ)} {I : σ → Prop}
    (h : ∀ st, I st → Ens (round st) (fun r => ∀ st', (r = .continue st' ∨ r = .break st') → I st')) :
    ∀ n st, I st → Ens (loopM round n st) (fun r => ∀ st', r = .ok st' → I st') := by
  intro n
  induction n with
  | zero => exact fun st _ => Ens.timeout
  | succ n ih =>
    intro st hst
    unfold loopM
    refine Ens.bind (h st hst) fun r hr => ?_
    cases r with
    | «continue» st' => exact ih st' (hr st' (Or.inl rfl))
    | «break» st' => exact Ens.pure fun st'' he => by cases he; exact hr st' (Or.inr rfl)
    | «return» e => exact Ens.pure fun st'' he => by cases he

end

variable {E : Env}

/-- A key in a result has a name. -/
def KeyResOk : KeyResult → Prop
  | .ok k => Spec.Toml.KeyOk k
  | .unterminatedStr k => Spec.Toml.KeyOk k
  | .err _ => True

theorem parseIdent_ok : Ens (parseIdent E) (fun r => ∀ k, r = .inr k → KeyResOk k) := by
  unfold parseIdent
  refine Ens.seq fun token => ?_
  split
  · refine Ens.seq fun str => ?_
    simp only
    split
    · exact Ens.pure fun k hk => by cases hk; trivial
    · exact Ens.pure fun k hk => by cases hk; trivial
    · refine Ens.seq fun _ => ?_
      split
      · exact Ens.pure fun k hk => by cases hk; simp [KeyResOk, Spec.Toml.KeyOk, Key.idents]
      · exact Ens.pure fun k hk => by cases hk
  · refine Ens.seq fun lit => ?_
    simp only
    split
    · exact Ens.seq fun _ => Ens.pure fun k hk => by cases hk
    · split
      · exact Ens.pure fun k hk => by cases hk; trivial
      · exact Ens.seq fun _ => Ens.seq fun _ => Ens.pure fun k hk => by cases hk
  · exact Ens.seq fun _ => Ens.pure fun k hk => by cases hk; trivial

theorem parseKeyLoop_ok (n : Nat) : ∀ idents, Ens (parseKeyLoop E n idents) KeyResOk := by
  induction n with
  | zero => exact fun _ => Ens.timeout
  | succ n ih =>
    intro idents
    unfold parseKeyLoop
    refine Ens.bind parseIdent_ok fun r hr => ?_
    cases r with
    | inr k => exact Ens.pure (hr k rfl)
    | inl ident =>
      refine Ens.seq fun t => ?_
      split
      · exact Ens.seq fun _ => ih _
      · split
        · exact Ens.pure (by simp [KeyResOk, Spec.Toml.KeyOk, Key.idents])
        · exact Ens.pure (by simp [KeyResOk, Spec.Toml.KeyOk, Key.idents])

theorem parseKey_ok : Ens (parseKey E) KeyResOk := Ens.seq fun n => parseKeyLoop_ok n []

/-! ## Values -/

/-- A value in a result is fine. -/
def ResOk (r : Except Error Value) : Prop := ∀ v, r = .ok v → ValOk v

theorem timePart_ok {dl : Slice} {ds : Span} {d : Date} {tl : Slice} {tsp : Span} :
    Ens (timePart E dl ds d tl tsp) ValOk := by
  unfold timePart
  extract_lets sp jp
  have hjp : ∀ x, Ens (jp x) ValOk := by
    intro x
    refine Ens.seq fun lit => ?_
    split
    · exact Ens.pure (by simp [ValOk])
    · exact Ens.seq fun _ => Ens.pure (by simp [ValOk])
    · exact Ens.panic
  split
  · exact Ens.seq fun u => hjp u
  · exact hjp ()

theorem tryToParseTimePart_ok {dl : Slice} {ds : Span} {d : Date} : Ens (tryToParseTimePart E dl ds d) ValOk := by
  unfold tryToParseTimePart
  refine Ens.seq fun t => ?_
  split
  · exact Ens.seq fun _ => Ens.seq fun _ => Ens.seq fun _ => timePart_ok
  · exact Ens.pure (by simp [ValOk])

theorem tryCombineTimePart_ok {dl : Slice} {ds : Span} : Ens (tryCombineTimePart E dl ds) ValOk := by
  unfold tryCombineTimePart
  refine Ens.seq fun t => ?_
  split
  · refine Ens.seq fun _ => ?_
    simp only
    split
    · exact Ens.pure (by simp [ValOk])
    · exact Ens.seq fun _ => Ens.seq fun _ => Ens.seq fun _ => Ens.pure (by simp [ValOk])
  · exact Ens.pure (by simp [ValOk])

theorem literalValue_ok {l : Slice} {sp : Span} : Ens (literalValue E l sp) ValOk := by
  unfold literalValue
  split
  · exact Ens.pure (by simp [ValOk])
  · exact Ens.pure (by simp [ValOk])
  · exact Ens.pure (by simp [ValOk])
  · exact Ens.pure (by simp [ValOk])
  · exact tryToParseTimePart_ok
  · refine Ens.seq fun _ => ?_
    split
    · exact Ens.pure (by simp [ValOk])
    · exact tryCombineTimePart_ok
  · exact Ens.seq fun _ => Ens.pure (by simp [ValOk])
  · exact Ens.panic

theorem parseDotValue_ok {t : Token} : Ens (parseDotValue E t) ResOk := by
  unfold parseDotValue
  refine Ens.seq fun _ => Ens.seq fun _ => Ens.seq fun t' => ?_
  split
  · split
    · exact Ens.seq fun _ => Ens.seq fun _ => Ens.seq fun _ => Ens.seq fun _ =>
        Ens.pure fun v hv => by cases hv; simp [ValOk]
    · exact Ens.seq fun _ => Ens.pure fun v hv => by cases hv
  · exact Ens.seq fun _ => Ens.pure fun v hv => by cases hv

theorem valsOk_append {a b : List InlineArrayValue} (h1 : ValsOk a) (h2 : ValsOk b) : ValsOk (a ++ b) := by
  induction a with
  | nil => exact h2
  | cons x a ih =>
    obtain ⟨c, v, m⟩ := x
    simp only [ValsOk, List.cons_append] at h1 ⊢
    exact ⟨h1.1, ih h1.2⟩

theorem pairsOk_append {a b : List InlineTableAssignment} (h1 : PairsOk a) (h2 : PairsOk b) :
    PairsOk (a ++ b) := by
  induction a with
  | nil => exact h2
  | cons x a ih =>
    obtain ⟨⟨k, q, v⟩, m⟩ := x
    simp only [PairsOk, List.cons_append] at h1 ⊢
    exact ⟨h1.1, h1.2.1, ih h1.2.2⟩

/-- The next state of the loop over an array is fine. -/
def ArrRoundOk (r : Round ArrSt) : Prop :=
  ∀ st', (r = .continue st' ∨ r = .break st') → ValsOk st'.values

def TabRoundOk (r : Round TabSt) : Prop :=
  ∀ st', (r = .continue st' ∨ r = .break st') → PairsOk st'.assignments

theorem ArrRoundOk.cont {st : ArrSt} (h : ValsOk st.values) : ArrRoundOk (.continue st) := by
  rintro st' (h' | h') <;> cases h'; exact h
theorem ArrRoundOk.brk {st : ArrSt} (h : ValsOk st.values) : ArrRoundOk (.break st) := by
  rintro st' (h' | h') <;> cases h'; exact h
theorem ArrRoundOk.ret {e : Error} : ArrRoundOk (.return e) := by
  rintro st' (h' | h') <;> cases h'
theorem TabRoundOk.cont {st : TabSt} (h : PairsOk st.assignments) : TabRoundOk (.continue st) := by
  rintro st' (h' | h') <;> cases h'; exact h
theorem TabRoundOk.brk {st : TabSt} (h : PairsOk st.assignments) : TabRoundOk (.break st) := by
  rintro st' (h' | h') <;> cases h'; exact h
theorem TabRoundOk.ret {e : Error} : TabRoundOk (.return e) := by
  rintro st' (h' | h') <;> cases h'

theorem arrayRecover_ok {st : ArrSt} (h : ValsOk st.values) : Ens (arrayRecover E st) ArrRoundOk := by
  unfold arrayRecover
  refine Ens.seq fun _ => Ens.seq fun t => ?_
  split
  · exact Ens.pure (.brk h)
  · exact Ens.pure (.brk h)
  · exact Ens.seq fun _ => Ens.pure (.cont h)

theorem arrayAfterValue_ok {level : Nat} {st : ArrSt} {v : Value} (h : ValsOk st.values) (hv : ValOk v) :
    Ens (arrayAfterValue E level st v) ArrRoundOk := by
  have key : ∀ c m, ValsOk (st.values ++ [⟨c, v, m⟩]) := fun c m =>
    valsOk_append h (by simp [ValsOk, hv])
  unfold arrayAfterValue
  refine Ens.seq fun _ => Ens.seq fun _ => Ens.seq fun _ => Ens.seq fun _ => Ens.seq fun t => ?_
  split
  · exact Ens.seq fun _ => Ens.seq fun _ => Ens.seq fun _ => Ens.seq fun _ => Ens.seq fun _ =>
      Ens.pure (.cont (key _ _))
  · split
    · exact Ens.pure (.brk (key _ _))
    · exact Ens.seq fun _ => Ens.pure (.cont (key _ _))

theorem arrayRound_ok {elem : M (Except Error Value)} (he : Ens elem ResOk) {level : Nat} {st : ArrSt}
    (h : ValsOk st.values) : Ens (arrayRound E elem level st) ArrRoundOk := by
  unfold arrayRound
  refine Ens.seq fun _ => Ens.seq fun _ => Ens.seq fun t => ?_
  split
  · exact Ens.pure (.brk h)
  · refine Ens.bind he fun r hr => ?_
    split
    · exact arrayAfterValue_ok (st := ⟨_, st.values⟩) h (hr _ rfl)
    · exact Ens.pure .ret
    · exact Ens.seq fun _ => arrayRecover_ok h

theorem parseArray_ok {elem : M (Except Error Value)} (he : Ens elem ResOk) {level : Nat} {p : Pos} :
    Ens (parseArray E elem level p) ResOk := by
  unfold parseArray
  refine Ens.seq fun _ => ?_
  split
  · exact Ens.seq fun _ => Ens.pure fun v hv => by cases hv
  · refine Ens.seq fun _ => Ens.seq fun _ => Ens.seq fun n => ?_
    refine Ens.bind (Ens.loop (I := fun st => ValsOk st.values) (fun st hst => arrayRound_ok he hst) n _
      (by simp [ValsOk])) fun r hr => ?_
    cases r with
    | error e => exact Ens.pure fun v hv => by cases hv
    | ok st =>
      exact Ens.seq fun _ => Ens.seq fun _ => Ens.seq fun _ => Ens.seq fun _ =>
        Ens.pure fun v hv => by cases hv; simpa [ValOk] using hr st rfl

theorem tableRecover_ok {st : TabSt} (h : PairsOk st.assignments) : Ens (tableRecover E st) TabRoundOk := by
  unfold tableRecover
  refine Ens.seq fun _ => Ens.seq fun t => ?_
  split
  · exact Ens.seq fun _ => Ens.pure (.cont h)
  · exact Ens.pure (.brk h)

theorem tableAfterKey_ok {elem : M (Except Error Value)} (he : Ens elem ResOk) {st : TabSt} {k : Key}
    (h : PairsOk st.assignments) (hk : Spec.Toml.KeyOk k) : Ens (tableAfterKey E elem st k) TabRoundOk := by
  unfold tableAfterKey
  refine Ens.seq fun t => ?_
  split
  · refine Ens.seq fun eq => Ens.bind he fun r hr => ?_
    split
    · rename_i v
      have key : ∀ m, PairsOk (st.assignments ++ [⟨⟨k, eq.start, v⟩, m⟩]) := fun m =>
        pairsOk_append h (by simp [PairsOk, hk, hr v rfl])
      unfold tableAfterValue
      refine Ens.seq fun t => ?_
      split
      · exact Ens.seq fun _ => Ens.pure (.cont (key _))
      · split
        · exact Ens.pure (.brk (key _))
        · exact Ens.seq fun _ => Ens.pure (.cont (key _))
    · exact Ens.pure .ret
    · exact Ens.seq fun _ => tableRecover_ok h
  · exact Ens.seq fun _ => Ens.seq fun _ => tableRecover_ok h

theorem tableRound_ok {elem : M (Except Error Value)} (he : Ens elem ResOk) {st : TabSt}
    (h : PairsOk st.assignments) : Ens (tableRound E elem st) TabRoundOk := by
  unfold tableRound
  refine Ens.seq fun t => ?_
  split
  · exact Ens.seq fun _ => Ens.pure (.brk h)
  · refine Ens.bind parseKey_ok fun r hr => ?_
    cases r with
    | ok k => exact tableAfterKey_ok he h hr
    | unterminatedStr k => exact Ens.pure (.brk h)
    | err e => exact Ens.seq fun _ => tableRecover_ok h

theorem parseTable_ok {elem : M (Except Error Value)} (he : Ens elem ResOk) {level : Nat} {p : Pos} :
    Ens (parseTable E elem level p) ResOk := by
  unfold parseTable
  refine Ens.seq fun _ => ?_
  split
  · exact Ens.seq fun _ => Ens.pure fun v hv => by cases hv
  · refine Ens.seq fun n => ?_
    refine Ens.bind (Ens.loop (I := fun st => PairsOk st.assignments) (fun st hst => tableRound_ok he hst) n _
      (by simp [PairsOk])) fun r hr => ?_
    cases r with
    | error e => exact Ens.pure fun v hv => by cases hv
    | ok st =>
      exact Ens.seq fun _ => Ens.pure fun v hv => by cases hv; simpa [ValOk] using hr st rfl

theorem parseValue_ok (d : Nat) : ∀ level, Ens (parseValue E d level) ResOk := by
  induction d with
  | zero => exact fun _ => Ens.timeout
  | succ d ih =>
    intro level
    unfold parseValue
    refine Ens.seq fun token => ?_
    split
    · refine Ens.bind (Q := ValOk) ?_ fun v hv => Ens.pure fun v' hv' => by cases hv'; exact hv
      exact Ens.seq fun _ => Ens.seq fun _ => Ens.pure (by simp [ValOk])
    · refine Ens.bind (Q := ValOk) ?_ fun v hv => Ens.pure fun v' hv' => by cases hv'; exact hv
      exact Ens.seq fun _ => Ens.seq fun _ => Ens.seq fun _ => literalValue_ok
    · exact parseDotValue_ok
    · exact parseArray_ok (ih _)
    · exact parseTable_ok (ih _)
    · exact Ens.seq fun _ => Ens.pure fun v hv => by cases hv

/-! ## Documents -/

/-- The keys of the tree have a name, and assignments outside of tables are in front of the headers. -/
def TreeOk (asts : List Ast) : Prop := (∃ b, RI b asts) ∧ ∀ x ∈ asts, AstOk x

theorem headerKey_ok : Ens (headerKey E) (fun r => ∀ k, r.1 = some k → Spec.Toml.KeyOk k) := by
  unfold headerKey
  refine Ens.bind parseKey_ok fun r hr => ?_
  cases r with
  | ok k => exact Ens.pure fun k' hk => by cases hk; exact hr
  | unterminatedStr k => exact Ens.pure fun k' hk => by cases hk; exact hr
  | err e => exact Ens.seq fun _ => Ens.seq fun _ => Ens.pure fun k' hk => by cases hk

theorem TreeOk.header {asts : List Ast} (h : TreeOk asts) (cs : List Comment) {x : Ast}
    (hx : isTab x = true) (hok : AstOk x) : TreeOk (asts ++ cs.map Ast.comment ++ [x]) := by
  obtain ⟨⟨b, hb⟩, h2⟩ := h
  refine ⟨⟨true, hb.header cs hx⟩, fun y hy => ?_⟩
  simp only [List.mem_append, List.mem_map, List.mem_singleton] at hy
  rcases hy with (hy | ⟨c, -, rfl⟩) | rfl
  · exact h2 y hy
  · trivial
  · exact hok

theorem finishHeader_tree {ovf : Bool} {r : RootSt} (h : TreeOk r.asts) {l : Pos} {la : Option Pos} {k : Option Key}
    (hk : ∀ x, k = some x → Spec.Toml.KeyOk x) {rp : Option Pos × Option Pos} :
    Ens (finishHeader ovf r l la k rp) (fun r => TreeOk r.asts) := by
  unfold finishHeader
  refine Ens.seq fun pos => Ens.seq fun c => ?_
  cases la with
  | some la =>
    refine Ens.bind (Ens.lift (Q := fun h : ArrayHeader => h.key = k) fun a ha => ?_) fun hd hh => ?_
    · unfold ArrayHeader.new at ha
      simp only [Option.bind_eq_bind, Option.bind_eq_some_iff, Option.pure_def, Option.some.injEq] at ha
      obtain ⟨_, _, _, _, rfl⟩ := ha
      rfl
    · refine Ens.pure (h.header _ rfl ⟨fun x hx => hk x ?_, by simp⟩)
      rw [← hh]; exact hx
  | none =>
    refine Ens.bind (Ens.lift (Q := fun h : TableHeader => h.key = k) fun a ha => ?_) fun hd hh => ?_
    · unfold TableHeader.new at ha
      simp only [Option.bind_eq_bind, Option.bind_eq_some_iff, Option.pure_def, Option.some.injEq] at ha
      obtain ⟨_, _, rfl⟩ := ha
      rfl
    · refine Ens.pure (h.header _ rfl ⟨fun x hx => hk x ?_, by simp⟩)
      rw [← hh]; exact hx

theorem rootHeader_ok {t : Token} {r : RootSt} (h : TreeOk r.asts) :
    Ens (rootHeader E t r) (fun r => TreeOk r.asts) := by
  unfold rootHeader
  refine Ens.seq fun _ => Ens.seq fun _ => Ens.seq fun _ => Ens.bind headerKey_ok fun k hk => ?_
  refine Ens.seq fun _ => Ens.seq fun b => ?_
  split
  · exact finishHeader_tree h hk
  · exact Ens.pure h

theorem TreeOk.replace {asts : List Ast} {x y : Ast} (h : TreeOk asts) (hl : asts.getLast? = some x)
    (h1 : isTab y = isTab x) (h2 : isAsg y = isAsg x) (hy : AstOk x → AstOk y) :
    TreeOk (asts.dropLast ++ [y]) := by
  obtain ⟨l, rfl⟩ := List.getLast?_eq_some_iff.1 hl
  rw [List.dropLast_concat]
  obtain ⟨⟨b, hb⟩, hok⟩ := h
  refine ⟨⟨b, hb.change h1 h2⟩, fun z hz => ?_⟩
  rcases List.mem_append.1 hz with hz | hz
  · exact hok z (List.mem_append_left _ hz)
  · rw [List.mem_singleton.1 hz]
    exact hy (hok x (by simp))

theorem appendLast_ok {as as' : List ToplevelAssignment} {id : Nat} (h : appendLast as id = some as')
    (hok : ∀ a ∈ as, AssignOk a) : ∀ a ∈ as', AssignOk a := by
  induction as generalizing as' with
  | nil => cases h
  | cons a as ih =>
    cases as with
    | nil =>
      unfold appendLast at h
      simp only [Option.bind_eq_bind, Option.bind_eq_some_iff, Option.pure_def, Option.some.injEq] at h
      obtain ⟨c, -, rfl⟩ := h
      intro x hx
      rw [List.mem_singleton.1 hx]
      exact hok a (by simp)
    | cons b as =>
      unfold appendLast at h
      simp only [Option.bind_eq_bind, Option.bind_eq_some_iff, Option.pure_def, Option.some.injEq] at h
      obtain ⟨c, hc, rfl⟩ := h
      intro x hx
      rcases List.mem_cons.1 hx with rfl | hx
      · exact hok x (by simp)
      · exact ih hc (fun y hy => hok y (List.mem_cons_of_mem _ hy)) x hx

theorem appendComment_ok {a b : Ast} {id : Nat} (h : a.appendComment id = some b) :
    isTab b = isTab a ∧ isAsg b = isAsg a ∧ (AstOk a → AstOk b) := by
  cases a with
  | table t =>
    simp only [Ast.appendComment, Option.map_eq_some_iff] at h
    obtain ⟨t', ht, rfl⟩ := h
    refine ⟨rfl, rfl, fun hok => ?_⟩
    unfold Table.appendComment at ht
    split at ht <;> simp only [Option.bind_eq_bind, Option.bind_eq_some_iff, Option.pure_def, Option.some.injEq] at ht
    · obtain ⟨c, -, rfl⟩ := ht
      exact hok
    · obtain ⟨as, has, rfl⟩ := ht
      exact ⟨hok.1, appendLast_ok has hok.2⟩
  | array t =>
    simp only [Ast.appendComment, Option.map_eq_some_iff] at h
    obtain ⟨t', ht, rfl⟩ := h
    refine ⟨rfl, rfl, fun hok => ?_⟩
    unfold ArrayEntry.appendComment at ht
    split at ht <;> simp only [Option.bind_eq_bind, Option.bind_eq_some_iff, Option.pure_def, Option.some.injEq] at ht
    · obtain ⟨c, -, rfl⟩ := ht
      exact hok
    · obtain ⟨as, has, rfl⟩ := ht
      exact ⟨hok.1, appendLast_ok has hok.2⟩
  | assignment a =>
    simp only [Ast.appendComment, Option.map_eq_some_iff] at h
    obtain ⟨c, -, rfl⟩ := h
    exact ⟨rfl, rfl, fun hok => hok⟩
  | comment c => cases h

theorem rootComment_ok {t : Token} {id : Nat} {r : RootSt} (h : TreeOk r.asts) :
    Ens (rootComment E t id r) (fun r => TreeOk r.asts) := by
  unfold rootComment
  refine Ens.seq fun _ => Ens.seq fun _ => ?_
  split
  · refine Ens.seq fun cid => ?_
    cases hl : r.asts.getLast? with
    | none => exact Ens.panic
    | some a =>
      refine Ens.bind (Ens.lift (Q := fun b => a.appendComment cid = some b) fun b hb => hb) fun b hb => ?_
      obtain ⟨h1, h2, h3⟩ := appendComment_ok hb
      exact Ens.pure (h.replace hl h1 h2 h3)
  · exact Ens.pure h

theorem looseComments_ok {r : RootSt} (h : TreeOk r.asts) (cs : List Comment) :
    Ens (looseComments r cs) (fun x => TreeOk x.1) := by
  unfold looseComments
  split
  · rename_i t hl
    exact Ens.seq fun c => Ens.pure (h.replace hl rfl rfl fun hok => hok)
  · rename_i t hl
    exact Ens.seq fun c => Ens.pure (h.replace hl rfl rfl fun hok => hok)
  · rename_i hn1 hn2
    obtain ⟨⟨b, hb⟩, hok⟩ := h
    refine Ens.pure ⟨⟨false, ?_⟩, fun x hx => ?_⟩
    · have : b = false := by
        rcases hb.last with ⟨rfl, a, x, he, hx⟩ | ⟨rfl, -⟩
        · exfalso
          have hl : r.asts.getLast? = some x := by rw [he]; simp
          cases x with
          | table t => exact hn1 t hl
          | array t => exact hn2 t hl
          | assignment a => cases hx
          | comment c => cases hx
        · rfl
      subst this
      exact hb.comments cs
    · rcases List.mem_append.1 hx with hx | hx
      · exact hok x hx
      · obtain ⟨c, -, rfl⟩ := List.mem_map.1 hx
        trivial

theorem pushAssignment_ok {asts : List Ast} (h : TreeOk asts) {a : ToplevelAssignment} (ha : AssignOk a) :
    TreeOk (pushAssignment asts a) := by
  have key : ∀ as : List ToplevelAssignment, (∀ x ∈ as, AssignOk x) → ∀ x ∈ as ++ [a], AssignOk x := by
    intro as has x hx
    rcases List.mem_append.1 hx with hx | hx
    · exact has x hx
    · rw [List.mem_singleton.1 hx]; exact ha
  unfold pushAssignment
  split
  · rename_i t hl
    exact h.replace hl rfl rfl fun hok => ⟨hok.1, key _ hok.2⟩
  · rename_i t hl
    exact h.replace hl rfl rfl fun hok => ⟨hok.1, key _ hok.2⟩
  · rename_i hn1 hn2
    obtain ⟨⟨b, hb⟩, hok⟩ := h
    refine ⟨⟨false, ?_⟩, fun x hx => ?_⟩
    · have : b = false := by
        rcases hb.last with ⟨rfl, a, x, he, hx⟩ | ⟨rfl, -⟩
        · exfalso
          have hl : asts.getLast? = some x := by rw [he]; simp
          cases x with
          | table t => exact hn1 t hl
          | array t => exact hn2 t hl
          | assignment a => cases hx
          | comment c => cases hx
        · rfl
      subst this
      exact hb.assign a
    · rcases List.mem_append.1 hx with hx | hx
      · exact hok x hx
      · rw [List.mem_singleton.1 hx]; exact ha

theorem rootValue_ok {r : RootSt} (h : TreeOk r.asts) {k : Key} (hk : Spec.Toml.KeyOk k) {p : Pos} :
    Ens (rootValue E r k p) (fun r => TreeOk r.asts) := by
  unfold rootValue
  refine Ens.seq fun pos => Ens.bind (looseComments_ok h _) fun x hx => ?_
  obtain ⟨asts, level⟩ := x
  refine Ens.seq fun c => Ens.bind (parseValue_ok _ _) fun v hv => ?_
  cases v with
  | ok v =>
    exact Ens.seq fun _ => Ens.seq fun _ => Ens.pure (pushAssignment_ok hx ⟨hk, hv v rfl⟩)
  | error e => exact Ens.seq fun _ => Ens.seq fun _ => Ens.pure hx

theorem rootAssignment_ok {t : Token} {r : RootSt} (h : TreeOk r.asts) :
    Ens (rootAssignment E t r) (fun r => TreeOk r.asts) := by
  unfold rootAssignment
  refine Ens.seq fun m => Ens.bind parseKey_ok fun k hk => ?_
  cases k with
  | ok k =>
    simp only
    unfold rootEq
    refine Ens.seq fun t => ?_
    split
    · refine Ens.seq fun _ => Ens.seq fun b => ?_
      split
      · exact rootValue_ok h hk
      · exact Ens.pure h
    · refine Ens.seq fun _ => ?_
      split
      · exact Ens.seq fun _ => Ens.pure h
      · exact Ens.seq fun _ => Ens.seq fun _ => Ens.pure h
  | unterminatedStr k =>
    simp only
    split
    · exact Ens.seq fun _ => Ens.pure h
    · exact Ens.pure h
  | err e =>
    refine Ens.seq fun _ => ?_
    split
    · exact Ens.seq fun _ => Ens.pure h
    · exact Ens.seq fun _ => Ens.pure h

theorem rootLoop_ok (n : Nat) : ∀ r, TreeOk r.asts → Ens (rootLoop E n r) (fun r => TreeOk r.asts) := by
  induction n with
  | zero => exact fun _ _ => Ens.timeout
  | succ n ih =>
    intro r h
    unfold rootLoop
    refine Ens.seq fun t => ?_
    split
    · exact Ens.bind (rootHeader_ok h) fun r hr => ih r hr
    · exact Ens.bind (rootComment_ok h) fun r hr => ih r hr
    · exact Ens.seq fun _ => ih _ h
    · exact Ens.pure h
    · exact Ens.bind (rootAssignment_ok h) fun r hr => ih r hr

/-- The tree of every text, also of one with mistakes. -/
theorem parse_tree {ovf : Bool} {input : Str} {a : Asts} {s : PS} (h : parseDocument ovf input = .ok a s) :
    RootFirst a.asts ∧ ∀ x ∈ a.asts, AstOk x := by
  unfold parseDocument at h
  cases hl : lex input with
  | none => rw [hl] at h; cases h
  | some y =>
    obtain ⟨T, es⟩ := y
    rw [hl] at h
    simp only [parse] at h
    refine Ens.bind (Q := fun _ : Nat => True) (R := fun a : Asts => RootFirst a.asts ∧ ∀ x ∈ a.asts, AstOk x)
      (fun _ _ _ _ => trivial) (fun n _ => ?_) _ _ _ h
    refine Ens.bind (rootLoop_ok n _ ⟨⟨false, RI.nil⟩, by simp⟩) fun r hr => Ens.seq fun cs => Ens.pure ?_
    obtain ⟨⟨b, hb⟩, hok⟩ := hr
    refine ⟨hb.end _, fun x hx => ?_⟩
    rcases List.mem_append.1 hx with hx | hx
    · exact hok x hx
    · obtain ⟨c, -, rfl⟩ := List.mem_map.1 hx
      trivial

end Verif.Toml.Tree
