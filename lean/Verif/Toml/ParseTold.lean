import Verif.Spec.ParseTruth
import Verif.Toml.ParseBase
import Verif.Toml.LitTruthTop

/-! # The tokens of the parser as the tokens of the document -/

namespace Verif.Toml
open Verif Verif.Spec.Toml

variable {E : Env} {t : Token} {x y : Str}

/-- What the tokens say, with their places. -/
def views (E : Env) (toks : List Token) : List Tok := toks.filterMap (resolve E.strings E.literals)

theorem views_append (E : Env) (u v : List Token) : views E (u ++ v) = views E u ++ views E v := by
  simp [views]

/-- What a token says. -/
theorem TokAt.view (h : TokAt E t x y) : ∃ v, resolve E.strings E.literals t = some (v, posOf x) ∧
    Covers v y := by
  have ht := h.text
  have hs := h.start
  unfold resolve
  split at ht
  · rename_i id he
    obtain ⟨q, txt, o, h1, o1, t1, d1, hy, -, hq, -⟩ := ht
    rw [he]
    refine ⟨.string q y txt, by simp [h1, hs], .string ?_⟩
    rw [hy]
    cases hq <;> rfl
  · rename_i id he
    obtain ⟨h1, h2, h3⟩ := ht
    rw [he]
    refine ⟨.word y, by simp [h1, hs], .word h.ne fun c hc => ?_⟩
    obtain ⟨a1, a2, a3, a4, a5, a6⟩ := h3 c hc
    exact ⟨a1, a2, fun e => h2 (e ▸ hc), a3, a4, a5, a6⟩
  · rename_i id he
    obtain ⟨l, h1, rfl, h3⟩ := ht
    rw [he]
    exact ⟨.comment l, by simp [h1, hs], .comment h3⟩
  all_goals
    rename_i he
    rw [he]
  all_goals try
    subst ht
    exact ⟨_, by simp [hs], .punct (by decide)⟩
  · exact ⟨.newline, by simp [hs], .newline ht⟩
  · exact ht.elim

/-- How the type of a token and what it says are related. -/
theorem resolve_ty {v : View} {p : Pos} (h : resolve E.strings E.literals t = some (v, p)) :
    (KeyLike v ↔ (∃ id, t.ty = .string id) ∨ ∃ id, t.ty = .literalOrIdent id) ∧
    (LineEnd (some v) ↔ endsLine t.ty = true) ∧
    (v = .punct '[' ↔ t.ty = .squareLeft) ∧ (v = .punct ']' ↔ t.ty = .squareRight) ∧
    (v = .punct '{' ↔ t.ty = .curlyLeft) ∧ (v = .punct '}' ↔ t.ty = .curlyRight) ∧
    (v = .punct '=' ↔ t.ty = .equal) ∧ (v = .punct ',' ↔ t.ty = .comma) ∧
    (v = .punct '.' ↔ t.ty = .dot) ∧ (v = .newline ↔ t.ty = .newline) := by
  have key : ∀ v, KeyLike v ↔ (match v with | .word _ => True | .string .. => True | _ => False) := by
    intro v
    constructor
    · intro h; cases h <;> trivial
    · intro h; cases v <;> first | exact .word | exact .string | exact h.elim
  have le : ∀ v, LineEnd (some v) ↔ (match v with | .newline => True | .comment _ => True | _ => False) := by
    intro v
    constructor
    · intro h; cases h <;> trivial
    · intro h; cases v <;> first | exact .newline | exact .comment | exact h.elim
  unfold resolve at h
  split at h
  all_goals rename_i he
  all_goals try
    obtain ⟨w, -, hw⟩ := Option.map_eq_some_iff.1 h
    simp only [Prod.mk.injEq] at hw
    obtain ⟨rfl, -⟩ := hw
    simp [he, key, le, endsLine]
    done
  all_goals try
    simp only [Option.some.injEq, Prod.mk.injEq] at h
    obtain ⟨rfl, -⟩ := h
    simp [he, key, le, endsLine]
    done
  cases h

/-- The name of a token in messages. -/
theorem resolve_called {v : View} {p : Pos} (h : resolve E.strings E.literals t = some (v, p))
    {f : Str} {s : PS} (hf : tokenFmtStr E t s = .ok f s) : Called (some v) f := by
  unfold resolve at h
  unfold tokenFmtStr M.lift at hf
  split at h
  all_goals rename_i he
  all_goals try
    obtain ⟨w, h1, hw⟩ := Option.map_eq_some_iff.1 h
    simp only [Prod.mk.injEq] at hw
    obtain ⟨rfl, -⟩ := hw
    simp only [he, h1, Option.map_some, Run.ok.injEq, and_true] at hf
    subst hf
    first | exact .string | exact .word | exact .comment
    done
  all_goals try
    simp only [Option.some.injEq, Prod.mk.injEq] at h
    obtain ⟨rfl, -⟩ := h
    simp only [he, Run.ok.injEq, and_true] at hf
    subst hf
    first | exact .newline | exact .curly | exact .punct (by decide)
    done
  cases h

/-- Opening brackets among tokens. -/
def openToks (u : List Token) : Nat :=
  (u.filter fun t => t.ty = .squareLeft || t.ty = .curlyLeft).length

theorem openToks_append (u v : List Token) : openToks (u ++ v) = openToks u + openToks v := by
  simp [openToks]

theorem opens_append (a b : List Tok) : opens (a ++ b) = opens a + opens b := by
  simp [opens]

theorem opens_views (E : Env) (u : List Token) : opens (views E u) = openToks u := by
  induction u with
  | nil => rfl
  | cons t u ih =>
    have e : ∀ (l : List Token), t :: l = [t] ++ l := fun _ => rfl
    rw [e, views_append, opens_append, openToks_append, ih]
    congr 1
    unfold views openToks
    cases h : resolve E.strings E.literals t with
    | none =>
      have h1 : t.ty ≠ .squareLeft := by intro he; unfold resolve at h; rw [he] at h; cases h
      have h2 : t.ty ≠ .curlyLeft := by intro he; unfold resolve at h; rw [he] at h; cases h
      simp [opens, h, h1, h2]
    | some vp =>
      obtain ⟨v, p⟩ := vp
      obtain ⟨-, -, h1, -, h2, -⟩ := resolve_ty h
      simp only [List.filterMap_cons, h, List.filterMap_nil, opens, List.filter_cons, List.filter_nil]
      simp only [h1, h2]
      split <;> rfl

/-- What the type of the next token and what it says have to do with each other. -/
structure Kin (ty : TokenType) (o : Option View) : Prop where
  key : ∀ v, o = some v → (KeyLike v ↔ (∃ id, ty = .string id) ∨ ∃ id, ty = .literalOrIdent id)
  line : LineEnd o ↔ endsLine ty = true
  sl : o = some (.punct '[') ↔ ty = .squareLeft
  sr : o = some (.punct ']') ↔ ty = .squareRight
  cl : o = some (.punct '{') ↔ ty = .curlyLeft
  cr : o = some (.punct '}') ↔ ty = .curlyRight
  eq : o = some (.punct '=') ↔ ty = .equal
  comma : o = some (.punct ',') ↔ ty = .comma
  dot : o = some (.punct '.') ↔ ty = .dot
  nl : o = some .newline ↔ ty = .newline
  eof : o = none ↔ ty = .eof

theorem Kin.end : Kin .eof none := by
  refine ⟨by simp, ?_, ?_, ?_, ?_, ?_, ?_, ?_, ?_, ?_, ?_⟩
  · exact ⟨fun _ => rfl, fun _ => .stop⟩
  all_goals simp

theorem Kin.some {v : View} {p : Pos} (h : resolve E.strings E.literals t = some (v, p)) :
    Kin t.ty (some v) := by
  obtain ⟨h1, h2, h3, h4, h5, h6, h7, h8, h9, h10⟩ := resolve_ty h
  refine ⟨?_, h2, ?_, ?_, ?_, ?_, ?_, ?_, ?_, ?_, ?_⟩
  · rintro w hw; cases hw; exact h1
  all_goals first
    | (simp only [Option.some.injEq]; assumption)
    | skip
  simp only [reduceCtorEq, false_iff]
  intro he
  unfold resolve at h
  rw [he] at h
  cases h

/-- The last consumed token is part of a key. -/
def PS.LastKey (s : PS) : Prop :=
  ∃ t d, s.done = t :: d ∧ ((∃ id, t.ty = .string id) ∨ ∃ id, t.ty = .literalOrIdent id)

/-- The last consumed token is no line break. -/
def PS.LastNot (s : PS) : Prop := ∃ t d, s.done = t :: d ∧ t.ty ≠ .newline

end Verif.Toml
