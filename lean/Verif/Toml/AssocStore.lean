import Verif.Toml.AssocVal
import Verif.Toml.CompRoot

/-! # Comments: what the items of a document store -/

namespace Verif.Toml
open Verif Verif.Spec.Toml

variable {α β : Type} {E : Env} {s s' s1 s2 : PS} {pre : Str} {toks : List Token} {es0 : List Error}

/-- The comments are stored. -/
def PS.stored (s : PS) (new : List AssocComment) : PS := { s with storage := s.storage ++ new }

theorem subU_le {a b : Nat} (h : b ≤ a) : subU a b = some (a - b) := by
  unfold subU; rw [if_pos h]

theorem addComment_run {r a : CommentRange} {c : Comment} {p : AssocPos} (hr : r.start ≤ s.storage.length)
    (h : addComment r c p s = .ok a s') :
    s' = s.stored [⟨p, r.level, c⟩] ∧ a = ⟨r.start, s.storage.length + 1 - r.start, r.level⟩ := by
  unfold addComment at h
  obtain ⟨id, s1, h1, h2⟩ := bind_inv h
  cases h1
  obtain ⟨h3, rfl⟩ := lift_inv h2
  unfold CommentRange.append at h3
  rw [subU_le hr] at h3
  simp only [Option.bind_eq_bind, Option.bind_some] at h3
  cases h3
  refine ⟨rfl, ?_⟩
  have : s.storage.length - r.start + 1 = s.storage.length + 1 - r.start := by omega
  rw [this]

theorem addComments_run {p : AssocPos} : ∀ (cs : List Comment) {s s' : PS} {r a : CommentRange}, r.start ≤ s.storage.length →
    addComments r p cs s = .ok a s' →
    s' = s.stored (cs.map (⟨p, r.level, ·⟩)) ∧
      a = if cs = [] then r else ⟨r.start, s.storage.length + cs.length - r.start, r.level⟩ := by
  intro cs
  induction cs with
  | nil =>
    intro s s' r a _ h
    obtain ⟨rfl, rfl⟩ := pure_inv h
    exact ⟨by simp [PS.stored], by simp⟩
  | cons c cs ih =>
    intro s s' r a hr h
    unfold addComments at h
    obtain ⟨r1, s1, h1, h2⟩ := bind_inv h
    obtain ⟨rfl, rfl⟩ := addComment_run hr h1
    obtain ⟨rfl, rfl⟩ := ih (by simp [PS.stored]; omega) h2
    refine ⟨by simp [PS.stored], ?_⟩
    simp only [PS.stored, List.length_append, List.length_singleton, List.length_cons, reduceCtorEq, if_false]
    split
    · rename_i hc; simp [hc]
    · simp only [List.length_nil, Nat.zero_add]
      rw [show s.storage.length + 1 + cs.length = s.storage.length + (cs.length + 1) by omega]

theorem storeComments_run {cs : List Comment} {p : AssocPos} {level : Nat} {a : CommentRange}
    (h : storeComments cs p level s = .ok a s') :
    s' = s.stored (cs.map (⟨p, level, ·⟩)) ∧ a = ⟨s.storage.length, cs.length, level⟩ := by
  unfold storeComments at h
  rw [bind_nextId] at h
  obtain ⟨h1, h2⟩ := addComments_run cs (r := ⟨s.storage.length, 0, level⟩) (Nat.le_refl _) h
  refine ⟨h1, ?_⟩
  rw [h2]
  split
  · rename_i hc; simp [hc]
  · simp

/-! ## Which comments are directly above -/

/-- Comments on consecutive lines, from the line in front of `ℓ` upwards. -/
def Consec : List Comment → Nat → Prop
  | [], _ => True
  | c :: cs, ℓ => c.span.start.line + 1 = ℓ ∧ Consec cs (ℓ - 1)

theorem assocPosition_run : ∀ (a b : List Comment) (ℓ i : Nat) (o : Option Nat), Consec a ℓ →
    (∀ c ∈ b, c.span.start.line + 1 + a.length < ℓ) → assocPosition (a ++ b) ℓ i = some o →
    (o = none ∧ b = []) ∨ o = some (i + a.length) := by
  intro a
  induction a with
  | nil =>
    intro b ℓ i o _ hb h
    cases b with
    | nil => cases h; exact .inl ⟨rfl, rfl⟩
    | cons c b =>
      have := hb c (by simp)
      simp only [List.nil_append] at h
      unfold assocPosition at h
      obtain ⟨l', -, h⟩ := Option.bind_eq_some_iff.1 h
      rw [if_neg (by simp at this; omega)] at h
      cases h
      exact .inr rfl
  | cons c a ih =>
    intro b ℓ i o hc hb h
    simp only [List.cons_append] at h
    unfold assocPosition at h
    obtain ⟨l', hl, h⟩ := Option.bind_eq_some_iff.1 h
    rw [if_pos hc.1] at h
    have hl' : l' = ℓ - 1 := by
      unfold subU at hl
      split at hl
      · cases hl; rfl
      · cases hl
    subst hl'
    rcases ih b _ _ _ hc.2 (fun d hd => by have := hb d hd; simp at this; omega) h with h | h
    · exact .inl h
    · exact .inr (by rw [h]; simp; omega)

theorem findAssoc_run {loose run : List Comment} {ℓ pos : Nat} (hc : Consec run.reverse ℓ)
    (hl : ∀ c ∈ loose, c.span.start.line + 1 + run.length < ℓ)
    (h : findAssociatedComments (loose ++ run) ℓ s = .ok pos s') : s' = s ∧ pos = loose.length := by
  unfold findAssociatedComments at h
  obtain ⟨h1, rfl⟩ := lift_inv h
  refine ⟨rfl, ?_⟩
  obtain ⟨o, ho, h1⟩ := Option.bind_eq_some_iff.1 h1
  rw [List.reverse_append] at ho
  rcases assocPosition_run _ _ _ _ _ hc (by simpa using hl) ho with ⟨rfl, h2⟩ | rfl
  · simp only [Option.some.injEq] at h1
    rw [← h1]
    have : loose = [] := by simpa using h2
    rw [this]; rfl
  · simp only [Nat.zero_add, List.length_reverse, List.length_append] at h1
    rw [subU_le (by omega)] at h1
    cases h1
    omega

/-- The comments that wait for an item on the line `ℓ`. -/
def Pend (xs : List Ln) (ℓ : Nat) (prev : List Comment) : Prop :=
  ∃ loose run, prev = loose ++ run ∧ run.map Spec.Toml.comOf = runAbove xs ∧ Consec run.reverse ℓ ∧
    ∀ c ∈ loose, c.span.start.line + 1 + run.length < ℓ

theorem Consec.lt {cs : List Comment} {ℓ : Nat} (h : Consec cs ℓ) : ∀ c ∈ cs, c.span.start.line < ℓ := by
  induction cs generalizing ℓ with
  | nil => simp
  | cons d cs ih =>
    intro c hc
    rcases List.mem_cons.1 hc with rfl | hc
    · have := h.1; omega
    · have := ih h.2 c hc
      omega

theorem Pend.expr (xs : List Ln) (ℓ : Nat) {l : Ln} (h : l.isComment = false) : Pend (xs ++ [l]) ℓ [] :=
  ⟨[], [], rfl, by rw [runAbove_snoc, h]; rfl, trivial, by simp⟩

theorem Pend.nil (ℓ : Nat) : Pend [] ℓ [] := ⟨[], [], rfl, rfl, trivial, by simp⟩

theorem Pend.blank {xs : List Ln} {ℓ : Nat} {prev : List Comment} (h : Pend xs ℓ prev) : Pend (xs ++ [.blank]) (ℓ + 1) prev := by
  obtain ⟨loose, run, h1, h2, h3, h4⟩ := h
  refine ⟨prev, [], by simp, by rw [runAbove_snoc]; rfl, trivial, fun c hc => ?_⟩
  rw [h1] at hc
  rcases List.mem_append.1 hc with hc | hc
  · have := h4 c hc; simp; omega
  · have := h3.lt c (by simpa using hc); simp; omega

theorem Pend.comment {xs : List Ln} {ℓ : Nat} {prev : List Comment} {d : Comment} (h : Pend xs ℓ prev) (hd : d.span.start.line = ℓ) :
    Pend (xs ++ [.comment (Spec.Toml.comOf d)]) (ℓ + 1) (prev ++ [d]) := by
  obtain ⟨loose, run, h1, h2, h3, h4⟩ := h
  refine ⟨loose, run ++ [d], by rw [h1]; simp, by rw [runAbove_snoc]; simp [Ln.isComment, Ln.coms, h2], ?_, fun c hc => ?_⟩
  · rw [List.reverse_append]
    exact ⟨by rw [hd], h3⟩
  · have := h4 c hc; simp; omega

/-! ## Computations that do not touch the comments -/

/-- The computation does not touch the stored comments. -/
structure Calm (m : M α) : Prop where
  out : ∀ s a s', m s = .ok a s' → s'.storage = s.storage

theorem Calm.bind {m : M α} {f : α → M β} (hm : Calm m) (hf : ∀ a, Calm (f a)) : Calm (m >>= f) := by
  refine ⟨fun s b s' h => ?_⟩
  obtain ⟨a, s1, h1, h2⟩ := bind_inv h
  rw [(hf a).out _ _ _ h2, hm.out _ _ _ h1]

theorem calm_pure (a : α) : Calm (pure a : M α) := ⟨fun s b s' h => by obtain ⟨-, rfl⟩ := pure_inv h; rfl⟩
theorem calm_lift (o : Option α) : Calm (M.lift o) := ⟨fun s b s' h => by obtain ⟨-, rfl⟩ := lift_inv h; rfl⟩
theorem calm_peek : Calm (peek E) := ⟨fun s b s' h => by cases h; rfl⟩
theorem calm_next : Calm (next E) := by
  refine ⟨fun s b s' h => ?_⟩
  unfold next at h
  split at h <;> cases h <;> rfl
theorem calm_budget : Calm budget := ⟨fun s b s' h => by cases h; rfl⟩
theorem calm_mark : Calm mark := ⟨fun s b s' h => by cases h; rfl⟩
theorem calm_error (e : Error) : Calm (error e) := ⟨fun s b s' h => by cases h; rfl⟩
theorem calm_timeout : Calm (M.timeout : M α) := ⟨fun s b s' h => by cases h⟩
theorem calm_skip {stop : TokenType → Bool} : ∀ (ts : List Token) (s s' : PS), skipUntil E stop ts s = .ok () s' →
    s'.storage = s.storage := by
  intro ts
  induction ts with
  | nil =>
    intro s s' h
    unfold skipUntil at h
    split at h <;> cases h
    rfl
  | cons t ts ih =>
    intro s s' h
    unfold skipUntil at h
    split at h
    · cases h; rfl
    · exact ih { s with done := t :: s.done } _ h
theorem calm_recover (stop : TokenType → Bool) : Calm (recoverOn E stop) := ⟨fun s _ s' h => calm_skip _ _ _ h⟩

/-- Proves `Calm`. -/
syntax "calm" : tactic
macro_rules
  | `(tactic| calm) => `(tactic| repeat' first
    | assumption
    | exact calm_pure _ | exact calm_peek | exact calm_next | exact calm_budget | exact calm_mark | exact calm_error _
    | exact calm_timeout | exact calm_lift _ | exact calm_recover _
    | with_reducible apply Calm.bind | intro _ | split | dsimp only)

theorem calm_parseIdent : Calm (parseIdent E) := by
  unfold parseIdent getString literal tokenFmtStrAndSpan tokenFmtStr tokenSpan; calm
theorem calm_parseKeyLoop : ∀ n ids, Calm (parseKeyLoop E n ids) := by
  intro n
  induction n with
  | zero => intro ids; exact calm_timeout
  | succ n ih =>
    intro ids
    unfold parseKeyLoop
    refine calm_parseIdent.bind fun r => ?_
    calm
    exact ih _
theorem calm_parseKey : Calm (parseKey E) := by
  unfold parseKey
  exact calm_budget.bind fun n => calm_parseKeyLoop n _
theorem calm_openArray (p : Pos) : Calm (openArray E p) := by unfold openArray; calm
theorem calm_headerKey : Calm (headerKey E) := by
  unfold headerKey
  refine calm_parseKey.bind fun k => ?_
  calm
theorem calm_closeHeader (p : Pos) (q : Option Pos) (b : Bool) : Calm (closeHeader E p q b) := by
  unfold closeHeader closeArray closeTable checkSpace tokenFmtStrAndSpan tokenFmtStr tokenSpan
  calm

/-! ## Headers -/

theorem finishHeader_run {ovf : Bool} {r r' : RootSt} {l : Pos} {la : Option Pos} {k : Option Key} {q : Option Pos × Option Pos}
    {loose run : List Comment} (hp : r.prevComments = loose ++ run) (hc : Consec run.reverse l.line)
    (hl : ∀ c ∈ loose, c.span.start.line + 1 + run.length < l.line) (h : finishHeader ovf r l la k q s = .ok r' s') :
    ∃ x, r'.asts = r.asts ++ loose.map .comment ++ [x] ∧
      tablePart x = some (l, ⟨s.storage.length, run.length, 0⟩, []) ∧ s' = s.stored (abv 0 run) ∧
      r'.prevComments = [] ∧ r'.newlineRequired = true := by
  unfold finishHeader at h
  obtain ⟨pos, s1, h1, h⟩ := bind_inv h
  rw [hp] at h1
  obtain ⟨rfl, rfl⟩ := findAssoc_run hc hl h1
  dsimp only at h
  obtain ⟨cm, s2, h2, h⟩ := bind_inv h
  obtain ⟨rfl, rfl⟩ := storeComments_run h2
  rw [hp, List.take_left, List.drop_left] at h
  split at h
  · obtain ⟨hd, h3, h⟩ := bind_lift_inv h
    obtain ⟨rfl, rfl⟩ := pure_inv h
    refine ⟨_, rfl, ?_, rfl, rfl, rfl⟩
    unfold ArrayHeader.new at h3
    obtain ⟨a, -, h3⟩ := Option.bind_eq_some_iff.1 h3
    obtain ⟨b, -, h3⟩ := Option.bind_eq_some_iff.1 h3
    cases h3
    rfl
  · obtain ⟨hd, h3, h⟩ := bind_lift_inv h
    obtain ⟨rfl, rfl⟩ := pure_inv h
    refine ⟨_, rfl, ?_, rfl, rfl, rfl⟩
    unfold TableHeader.new at h3
    obtain ⟨a, -, h3⟩ := Option.bind_eq_some_iff.1 h3
    cases h3
    rfl

theorem rootHeader_run {r r' : RootSt} (hr : r.newlineRequired = false) (h : rootHeader E (pk E s) r s = .ok r' s') :
    ∃ la key q s1, s1.storage = s.storage ∧ finishHeader E.ovf r (pk E s).start la key q s1 = .ok r' s' := by
  unfold rootHeader at h
  rw [bind_mark, bind_next] at h
  dsimp only at h
  obtain ⟨la, s2, h2, h⟩ := bind_inv h
  obtain ⟨⟨key, skip⟩, s3, h3, h⟩ := bind_inv h
  dsimp only at h
  obtain ⟨q, s4, h4, h⟩ := bind_inv h
  rw [hr, bind_ok checkNewline_false, if_pos rfl] at h
  refine ⟨la, key, q, s4, ?_, h⟩
  rw [(calm_closeHeader _ _ _).out _ _ _ h4, calm_headerKey.out _ _ _ h3, (calm_openArray _).out _ _ _ h2]
  unfold PS.adv
  split <;> rfl

/-! ## Assignments -/

theorem isTab_part {x : Ast} : isTab x = true ↔ ∃ t, tablePart x = some t := by
  cases x <;> simp [isTab, tablePart]

theorem looseComments_root {r : RootSt} {cs : List Comment} {o : List Ast × Nat}
    (hx : ∀ x, r.asts.getLast? = some x → tablePart x = none) (h : looseComments r cs s = .ok o s') :
    s' = s ∧ o = (r.asts ++ cs.map Ast.comment, 0) := by
  unfold looseComments at h
  generalize r.asts.getLast? = la at h hx
  split at h
  · have := hx _ rfl; cases this
  · have := hx _ rfl; cases this
  · obtain ⟨rfl, rfl⟩ := pure_inv h; exact ⟨rfl, rfl⟩

/-- The comments of a table. -/
def grown (r : CommentRange) (n : Nat) (cs : List Comment) : CommentRange :=
  if cs = [] then r else ⟨r.start, n + cs.length - r.start, r.level⟩

theorem looseComments_table {r : RootSt} {cs : List Comment} {o : List Ast × Nat} {asts : List Ast} {x : Ast} {q : Pos}
    {rg : CommentRange} {as : List ToplevelAssignment} (hx : r.asts = asts ++ [x]) (hp : tablePart x = some (q, rg, as))
    (hr : rg.start ≤ s.storage.length) (h : looseComments r cs s = .ok o s') :
    s' = s.stored (ctd rg.level cs) ∧ ∃ x', o = (asts ++ [x'], 1) ∧ tablePart x' = some (q, grown rg s.storage.length cs, as) := by
  unfold looseComments at h
  have hl : r.asts.getLast? = some x := by rw [hx]; simp
  rw [hl] at h
  cases x with
  | assignment => cases hp
  | comment => cases hp
  | table t =>
    simp only [tablePart, Option.some.injEq, Prod.mk.injEq] at hp
    obtain ⟨rfl, rfl, rfl⟩ := hp
    dsimp only at h
    obtain ⟨c, s1, h1, h⟩ := bind_inv h
    obtain ⟨rfl, rfl⟩ := addComments_run _ hr h1
    obtain ⟨rfl, rfl⟩ := pure_inv h
    exact ⟨rfl, _, by rw [hx, List.dropLast_concat], rfl⟩
  | array t =>
    simp only [tablePart, Option.some.injEq, Prod.mk.injEq] at hp
    obtain ⟨rfl, rfl, rfl⟩ := hp
    dsimp only at h
    obtain ⟨c, s1, h1, h⟩ := bind_inv h
    obtain ⟨rfl, rfl⟩ := addComments_run _ hr h1
    obtain ⟨rfl, rfl⟩ := pure_inv h
    exact ⟨rfl, _, by rw [hx, List.dropLast_concat], rfl⟩

theorem push_root {asts : List Ast} {a : ToplevelAssignment} (hx : ∀ x, asts.getLast? = some x → tablePart x = none) :
    pushAssignment asts a = asts ++ [.assignment a] := by
  unfold pushAssignment
  generalize hl : asts.getLast? = la at hx
  cases la with
  | none => rfl
  | some x =>
    have := hx x rfl
    cases x <;> first | rfl | cases this

theorem push_table {asts : List Ast} {x : Ast} {a : ToplevelAssignment} {q : Pos} {rg : CommentRange}
    {as : List ToplevelAssignment} (hp : tablePart x = some (q, rg, as)) :
    ∃ x', pushAssignment (asts ++ [x]) a = asts ++ [x'] ∧ tablePart x' = some (q, rg, as ++ [a]) := by
  unfold pushAssignment
  have hl : (asts ++ [x]).getLast? = some x := by simp
  rw [hl]
  cases x with
  | assignment => cases hp
  | comment => cases hp
  | table t =>
    simp only [tablePart, Option.some.injEq, Prod.mk.injEq] at hp
    obtain ⟨rfl, rfl, rfl⟩ := hp
    exact ⟨_, by dsimp only; rw [List.dropLast_concat], rfl⟩
  | array t =>
    simp only [tablePart, Option.some.injEq, Prod.mk.injEq] at hp
    obtain ⟨rfl, rfl, rfl⟩ := hp
    exact ⟨_, by dsimp only; rw [List.dropLast_concat], rfl⟩

/-! ## A comment behind an item -/

theorem appendLast_snoc (as : List ToplevelAssignment) (a : ToplevelAssignment) {id : Nat} {c : CommentRange}
    (h : a.comments.append id = some c) : appendLast (as ++ [a]) id = some (as ++ [{ a with comments := c }]) := by
  induction as with
  | nil => simp [appendLast, h]
  | cons b as ih =>
    cases as with
    | nil => simp only [List.nil_append, List.cons_append] at ih ⊢; simp [appendLast, h]
    | cons d as =>
      simp only [List.cons_append] at ih ⊢
      unfold appendLast
      rw [ih]
      rfl

theorem append_le {r : CommentRange} {id : Nat} (h : r.start ≤ id) : r.append id = some ⟨r.start, id - r.start + 1, r.level⟩ := by
  unfold CommentRange.append
  rw [subU_le h]
  rfl

theorem appendComment_header {x : Ast} {q : Pos} {rg : CommentRange} {id : Nat} (hp : tablePart x = some (q, rg, []))
    (h : rg.start ≤ id) : ∃ x', x.appendComment id = some x' ∧ tablePart x' = some (q, ⟨rg.start, id - rg.start + 1, rg.level⟩, []) := by
  cases x with
  | assignment => cases hp
  | comment => cases hp
  | table t =>
    simp only [tablePart, Option.some.injEq, Prod.mk.injEq] at hp
    obtain ⟨rfl, rfl, h3⟩ := hp
    refine ⟨.table { t with comments := ⟨t.comments.start, id - t.comments.start + 1, t.comments.level⟩ }, ?_, by simp [tablePart, h3]⟩
    simp [Ast.appendComment, Table.appendComment, h3, append_le h]
  | array t =>
    simp only [tablePart, Option.some.injEq, Prod.mk.injEq] at hp
    obtain ⟨rfl, rfl, h3⟩ := hp
    refine ⟨.array { t with comments := ⟨t.comments.start, id - t.comments.start + 1, t.comments.level⟩ }, ?_, by simp [tablePart, h3]⟩
    simp [Ast.appendComment, ArrayEntry.appendComment, h3, append_le h]

theorem appendComment_inTable {x : Ast} {q : Pos} {rg : CommentRange} {as : List ToplevelAssignment} {a : ToplevelAssignment}
    {id : Nat} (hp : tablePart x = some (q, rg, as ++ [a])) (h : a.comments.start ≤ id) :
    ∃ x', x.appendComment id = some x' ∧ tablePart x' = some (q, rg, as ++
      [{ a with comments := ⟨a.comments.start, id - a.comments.start + 1, a.comments.level⟩ }]) := by
  have h4 := appendLast_snoc as a (append_le h)
  cases x with
  | assignment => cases hp
  | comment => cases hp
  | table t =>
    simp only [tablePart, Option.some.injEq, Prod.mk.injEq] at hp
    obtain ⟨rfl, rfl, h3⟩ := hp
    refine ⟨.table { t with assignments := as ++
      [{ a with comments := ⟨a.comments.start, id - a.comments.start + 1, a.comments.level⟩ }] }, ?_, rfl⟩
    simp [Ast.appendComment, Table.appendComment, h3, h4]
  | array t =>
    simp only [tablePart, Option.some.injEq, Prod.mk.injEq] at hp
    obtain ⟨rfl, rfl, h3⟩ := hp
    refine ⟨.array { t with assignments := as ++
      [{ a with comments := ⟨a.comments.start, id - a.comments.start + 1, a.comments.level⟩ }] }, ?_, rfl⟩
    simp [Ast.appendComment, ArrayEntry.appendComment, h3, h4]

end Verif.Toml
