import Verif.Toml.ParseClean

/-! # The parser on views of tokens -/

namespace Verif.Toml
open Verif Verif.Spec.Toml

variable {α β : Type} {E : Env} {s s1 s2 : PS} {pre : Str}

/-- Is the token a string that is not closed? -/
def unclosed (E : Env) (t : Token) : Bool :=
  match t.ty with
  | .string id =>
    match E.strings[id]? with
    | some st => st.textOffset.endChar == 0
    | none => false
  | _ => false

/-- What a token says; a string that is not closed is shown as a question mark. -/
def vw (E : Env) (t : Token) : Tok :=
  if unclosed E t then (.punct '?', t.start) else (resolve E.strings E.literals t).getD (.newline, t.start)

/-- What the tokens in front of the cursor say. -/
def V (E : Env) (s : PS) : List Tok := s.rest.map (vw E)

/-- The tokens in front of the cursor lie behind `pre`. -/
structure Ch (E : Env) (pre : Str) (s : PS) : Prop where
  chain : Chain E pre s.rest
  com : ComToks s.rest

/-- The tokens in front of the cursor lie in the document. -/
def Cx (E : Env) (s : PS) : Prop := ∃ pre, Ch E pre s

/-- The last token. -/
structure EnvEof (E : Env) : Prop where
  eof : E.eof.ty = .eof

/-- Facts on the environment. -/
structure EnvOk (E : Env) : Prop extends EnvEof E where
  closed : ∀ st ∈ E.strings, st.textOffset.endChar ≠ 0

instance : CoeOut (EnvOk E) (EnvEof E) := ⟨EnvOk.toEnvEof⟩

/-- From `s` to `s'`, the tokens `ts` have been consumed. -/
structure Went (E : Env) (s : PS) (ts : List Tok) (s' : PS) : Prop where
  view : V E s = ts ++ V E s'
  cx : Cx E s'

theorem Went.refl (h : Cx E s) : Went E s [] s := ⟨by simp, h⟩

theorem Went.trans {a b : List Tok} (h1 : Went E s a s1) (h2 : Went E s1 b s2) : Went E s (a ++ b) s2 :=
  ⟨by rw [h1.view, h2.view, List.append_assoc], h2.cx⟩

theorem ComToks.tail {t : Token} {ts : List Token} (h : ComToks (t :: ts)) : ComToks ts := by
  intro a b id t' he hh ht
  exact h (t :: a) b id t' (by rw [he]; rfl) hh ht

/-- The next token. -/
structure NextTok (E : Env) (pre : Str) (s : PS) (g y : Str) : Prop where
  blank : Blank g
  tok : TokAt E (pk E s) (pre ++ g) y
  rest : s.rest = pk E s :: s.adv.rest
  ch : Ch E (pre ++ g ++ y) s.adv
  view : V E s = vw E (pk E s) :: V E s.adv
  inp : pre ++ g ++ y <+: E.input

theorem Ch.next (hC : Ch E pre s) (hE : EnvEof E) (hne : (pk E s).ty ≠ .eof) : ∃ g y, NextTok E pre s g y := by
  cases hr : s.rest with
  | nil =>
    exfalso; apply hne
    unfold pk; rw [hr]; exact hE.eof
  | cons t ts =>
    have hpk : pk E s = t := by unfold pk; rw [hr]; rfl
    have hadv : s.adv.rest = ts := by unfold PS.adv; rw [hr]
    have hc := hC.chain
    rw [hr] at hc
    obtain ⟨g, y, h1, h2, h3⟩ := hc.cons_inv
    refine ⟨g, y, h1, by rw [hpk]; exact h2, by rw [hpk, hadv, hr], ⟨by rw [hadv]; exact h3, ?_⟩, ?_, h3.prefix⟩
    · rw [hadv]
      have := hC.com
      rw [hr] at this
      exact this.tail
    · unfold V; rw [hr, hpk, hadv]; rfl

theorem Ch.cx (h : Ch E pre s) : Cx E s := ⟨pre, h⟩

theorem Cx.step (hC : Cx E s) (hE : EnvEof E) (hne : (pk E s).ty ≠ .eof) :
    Went E s [vw E (pk E s)] s.adv := by
  obtain ⟨pre, hC⟩ := hC
  obtain ⟨g, y, h⟩ := hC.next hE hne
  exact ⟨h.view, h.ch.cx⟩

theorem pk_nil (hE : EnvEof E) (h : V E s = []) : (pk E s).ty = .eof := by
  unfold V at h
  unfold pk
  rw [List.map_eq_nil_iff.1 h]
  exact hE.eof

theorem Cx.eof (hC : Cx E s) (h : (pk E s).ty = .eof) : V E s = [] := by
  obtain ⟨pre, hC⟩ := hC
  cases hr : s.rest with
  | nil => unfold V; rw [hr]; rfl
  | cons t ts =>
    have hc := hC.chain
    rw [hr] at hc
    obtain ⟨g, y, h1, h2, h3⟩ := hc.cons_inv
    have hpk : pk E s = t := by unfold pk; rw [hr]; rfl
    have := h2.text
    rw [← hpk, h] at this
    exact this.elim

theorem adv_errors : s.adv.errors = s.errors := by
  unfold PS.adv
  split <;> rfl

theorem adv_storage : s.adv.storage = s.storage := by
  unfold PS.adv
  split <;> rfl

/-! ## From tokens to views -/

theorem vw_string {t : Token} {id : Nat} {st : StringToken} (h : t.ty = .string id)
    (hs : E.strings[id]? = some st) (hc : st.textOffset.endChar ≠ 0) :
    vw E t = (.string st.quote st.lit st.text, t.start) := by
  simp [vw, unclosed, resolve, h, hs, hc]
theorem vw_unclosed {t : Token} {id : Nat} {st : StringToken} (h : t.ty = .string id)
    (hs : E.strings[id]? = some st) (hc : st.textOffset.endChar = 0) : vw E t = (.punct '?', t.start) := by
  simp [vw, unclosed, h, hs, hc]
theorem vw_word {t : Token} {id : Nat} {w : Str} (h : t.ty = .literalOrIdent id)
    (hs : E.literals[id]? = some w) : vw E t = (.word w, t.start) := by
  simp [vw, unclosed, resolve, h, hs]
theorem vw_comment {t : Token} {id : Nat} {w : Str} (h : t.ty = .comment id)
    (hs : E.literals[id]? = some w) : vw E t = (.comment w, t.start) := by
  simp [vw, unclosed, resolve, h, hs]
theorem vw_sl {t : Token} (h : t.ty = .squareLeft) : vw E t = (.punct '[', t.start) := by
  simp [vw, unclosed, resolve, h]
theorem vw_sr {t : Token} (h : t.ty = .squareRight) : vw E t = (.punct ']', t.start) := by
  simp [vw, unclosed, resolve, h]
theorem vw_cl {t : Token} (h : t.ty = .curlyLeft) : vw E t = (.punct '{', t.start) := by
  simp [vw, unclosed, resolve, h]
theorem vw_cr {t : Token} (h : t.ty = .curlyRight) : vw E t = (.punct '}', t.start) := by
  simp [vw, unclosed, resolve, h]
theorem vw_eq {t : Token} (h : t.ty = .equal) : vw E t = (.punct '=', t.start) := by
  simp [vw, unclosed, resolve, h]
theorem vw_comma {t : Token} (h : t.ty = .comma) : vw E t = (.punct ',', t.start) := by
  simp [vw, unclosed, resolve, h]
theorem vw_dot {t : Token} (h : t.ty = .dot) : vw E t = (.punct '.', t.start) := by
  simp [vw, unclosed, resolve, h]
theorem vw_nl {t : Token} (h : t.ty = .newline) : vw E t = (.newline, t.start) := by
  simp [vw, unclosed, resolve, h]

/-- A token that says `v`. -/
def TyOf (E : Env) : View → TokenType → Prop
  | .string q lit txt, ty => ∃ id o e, ty = .string id ∧ E.strings[id]? = some ⟨q, lit, e, txt, o⟩ ∧
      o.endChar ≠ 0
  | .word w, ty => ∃ id, ty = .literalOrIdent id ∧ E.literals[id]? = some w
  | .comment w, ty => ∃ id, ty = .comment id ∧ E.literals[id]? = some w
  | .newline, ty => ty = .newline
  | .punct c, ty => (c = '[' ∧ ty = .squareLeft) ∨ (c = ']' ∧ ty = .squareRight) ∨
      (c = '{' ∧ ty = .curlyLeft) ∨ (c = '}' ∧ ty = .curlyRight) ∨ (c = '=' ∧ ty = .equal) ∨
      (c = ',' ∧ ty = .comma) ∨ (c = '.' ∧ ty = .dot) ∨ (c = '?' ∧ ∃ id, ty = .string id)

theorem TokAt.tyOf {t : Token} {x y : Str} (h : TokAt E t x y) : TyOf E (vw E t).1 t.ty ∧
    (vw E t).2 = t.start := by
  have ht := h.text
  split at ht
  · rename_i id he
    obtain ⟨q, txt, o, hs, -⟩ := ht
    by_cases hc : o.endChar = 0
    · rw [vw_unclosed he hs hc]
      exact ⟨by simp [TyOf, he], rfl⟩
    · rw [vw_string he hs hc]
      exact ⟨⟨id, _, _, he, hs, hc⟩, rfl⟩
  · rename_i id he
    rw [vw_word he ht.1]
    exact ⟨⟨id, he, ht.1⟩, rfl⟩
  · rename_i id he
    obtain ⟨txt, hs, -⟩ := ht
    rw [vw_comment he hs]
    exact ⟨⟨id, he, hs⟩, rfl⟩
  · rename_i he; rw [vw_sl he]; exact ⟨by simp [TyOf, he], rfl⟩
  · rename_i he; rw [vw_sr he]; exact ⟨by simp [TyOf, he], rfl⟩
  · rename_i he; rw [vw_cl he]; exact ⟨by simp [TyOf, he], rfl⟩
  · rename_i he; rw [vw_cr he]; exact ⟨by simp [TyOf, he], rfl⟩
  · rename_i he; rw [vw_eq he]; exact ⟨by simp [TyOf, he], rfl⟩
  · rename_i he; rw [vw_comma he]; exact ⟨by simp [TyOf, he], rfl⟩
  · rename_i he; rw [vw_dot he]; exact ⟨by simp [TyOf, he], rfl⟩
  · rename_i he; rw [vw_nl he]; exact ⟨by simp [TyOf, he], rfl⟩
  · exact ht.elim

/-- The next token says `v`. -/
theorem Cx.view (hC : Cx E s) {v : View} {p : Pos} {r : List Tok} (h : V E s = (v, p) :: r) :
    TyOf E v (pk E s).ty ∧ (pk E s).start = p ∧ V E s.adv = r ∧ Cx E s.adv := by
  obtain ⟨pre, hC⟩ := hC
  cases hr : s.rest with
  | nil => unfold V at h; rw [hr] at h; cases h
  | cons t ts =>
    have hpk : pk E s = t := by unfold pk; rw [hr]; rfl
    have hadv : s.adv.rest = ts := by unfold PS.adv; rw [hr]
    have hc := hC.chain
    rw [hr] at hc
    obtain ⟨g, y, h1, h2, h3⟩ := hc.cons_inv
    unfold V at h ⊢
    rw [hr, List.map_cons] at h
    injection h with ha hb
    obtain ⟨g1, g2⟩ := h2.tyOf
    rw [ha] at g1 g2
    refine ⟨by rw [hpk]; exact g1, by rw [hpk]; exact g2.symm, by rw [hadv]; exact hb, _, ⟨by rw [hadv]; exact h3, ?_⟩⟩
    rw [hadv]
    have := hC.com
    rw [hr] at this
    exact this.tail

/-- Behind a comment there is a line break or nothing. -/
theorem Cx.comment (hC : Cx E s) {x : Str} {p : Pos} {r : List Tok} (h : V E s = (.comment x, p) :: r) :
    r = [] ∨ ∃ q r', r = (.newline, q) :: r' := by
  obtain ⟨⟨id, h1, -⟩, -, h3, h4⟩ := hC.view h
  cases r with
  | nil => exact .inl rfl
  | cons v r =>
    right
    obtain ⟨v, q⟩ := v
    obtain ⟨g1, g2, g3, g4⟩ := h4.view h3
    obtain ⟨pre, hC⟩ := hC
    cases hr : s.rest with
    | nil => unfold V at h; rw [hr] at h; cases h
    | cons t ts =>
      have hpk : pk E s = t := by unfold pk; rw [hr]; rfl
      have hadv : s.adv.rest = ts := by unfold PS.adv; rw [hr]
      cases ts with
      | nil => unfold V at h3; rw [hadv] at h3; cases h3
      | cons t' ts =>
        have hty := hC.com [] s.rest id t' rfl (by rw [hr, ← hpk, ← h1]; rfl) (by rw [hr]; rfl)
        have hpk' : pk E s.adv = t' := by unfold pk; rw [hadv]; rfl
        rw [hpk', hty] at g1
        refine ⟨q, r, ?_⟩
        cases v with
        | newline => rfl
        | string => obtain ⟨_, _, _, h, -⟩ := g1; cases h
        | word => obtain ⟨_, h, -⟩ := g1; cases h
        | comment => obtain ⟨_, h, -⟩ := g1; cases h
        | punct => simp [TyOf] at g1

end Verif.Toml
