import Verif.Toml.ParseView
import Verif.Toml.IntLemmas
import Verif.Toml.FloatLemmas
import Verif.Toml.BoolLemmas
import Verif.Toml.DateTop

/-! # Runs without diagnostics follow the grammar: keys and scalars -/

namespace Verif.Toml
open Verif Verif.Spec.Toml

variable {α β : Type} {E : Env} {s s' s1 s2 : PS} {pre : Str}

theorem isBareKeyChar_bare {c : Char} : isBareKeyChar c = true ↔ BareChar c := by
  unfold isBareKeyChar isAlpha isDigit BareChar
  simp only [Bool.or_eq_true, Bool.and_eq_true, decide_eq_true_eq]
  grind

theorem findInvalidChar_none {w : Str} : ∀ {i}, findInvalidChar i w = none ↔ ∀ c ∈ w, BareChar c := by
  induction w with
  | nil => simp [findInvalidChar]
  | cons c w ih =>
    intro i
    unfold findInvalidChar
    split
    · rename_i h
      rw [ih]
      simp [isBareKeyChar_bare.1 h]
    · rename_i h
      simp only [reduceCtorEq, false_iff]
      intro hh
      exact h (isBareKeyChar_bare.2 (hh c (by simp)))

/-- What a key says, for the outcome of `parseKey`. -/
def KeySound (E : Env) (ids : List Str) (s : PS) (r : KeyResult) (s' : PS) : Prop :=
  match r with
  | .ok k => ∃ ts ns, Went E s ts s' ∧ KeyToks ts ns ∧ keyNames k = ids ++ ns
  | .unterminatedStr _ => False
  | .err _ => True

theorem lift_inv {o : Option α} {a : α} (h : M.lift o s = .ok a s') : o = some a ∧ s' = s := by
  unfold M.lift at h
  split at h
  · cases h; exact ⟨rfl, rfl⟩
  · cases h

theorem bind_lift_inv {o : Option α} {f : α → M β} {b : β} (h : (M.lift o >>= f) s = .ok b s') :
    ∃ a, o = some a ∧ f a s = .ok b s' := by
  obtain ⟨a, s1, h1, h2⟩ := bind_inv h
  obtain ⟨h3, rfl⟩ := lift_inv h1
  exact ⟨a, h3, h2⟩

theorem pure_inv {a b : α} (h : (pure a : M α) s = .ok b s') : a = b ∧ s = s' := by
  have h' : Run.ok a s = .ok b s' := h
  cases h'; exact ⟨rfl, rfl⟩

theorem bind_clean {m : M α} {f : α → M β} {b : β} (h : (m >>= f) s = .ok b s') (he : s'.errors = [])
    (hf : ∀ a, Dirty (f a)) : ∃ a s1, m s = .ok a s1 ∧ f a s1 = .ok b s' ∧ s1.errors = [] := by
  obtain ⟨a, s1, h1, h2⟩ := bind_inv h
  exact ⟨a, s1, h1, h2, (hf a).out _ _ _ h2 he⟩

/-- The outcome of `parseIdent`. -/
def IdentSound (E : Env) (s : PS) (r : Ident ⊕ KeyResult) (s' : PS) : Prop :=
    match r with
    | .inl i => ∃ v p, Went E s [(v, p)] s' ∧ KeyPart v i.text
    | .inr (.ok _) => False
    | .inr (.unterminatedStr _) => False
    | .inr (.err _) => True

/-- One part of a key. -/
theorem parseIdent_sound (hE : EnvOk E) (hC : Cx E s) {r : Ident ⊕ KeyResult}
    (h : parseIdent E s = .ok r s') (he : s'.errors = []) : IdentSound E s r s' := by
  unfold parseIdent at h
  rw [bind_peek] at h
  generalize hty : (pk E s).ty = ty at h
  split at h
  · rename_i id
    obtain ⟨st, hst, h⟩ := bind_lift_inv h
    have hw := hC.step hE (by rw [hty]; simp)
    have hcl := hE.closed st (List.mem_of_getElem? hst)
    rw [vw_string hty hst hcl] at hw
    generalize hq : st.quote = q at h hw
    split at h
    · obtain ⟨rfl, -⟩ := pure_inv h; trivial
    · obtain ⟨rfl, -⟩ := pure_inv h; trivial
    · rw [bind_next] at h
      rw [if_neg (by simp [hcl])] at h
      obtain ⟨rfl, rfl⟩ := pure_inv h
      refine ⟨_, _, hw, .quoted ?_⟩
      cases q <;> simp_all [isMulti]
  · rename_i id
    obtain ⟨l, hl, h⟩ := bind_lift_inv h
    obtain ⟨w, hw, rfl⟩ := Option.map_eq_some_iff.1 hl
    have hstep := hC.step hE (by rw [hty]; simp)
    rw [vw_word hty hw] at hstep
    dsimp only at h
    generalize hf : findInvalidChar 0 w = ff at h
    split at h
    · rw [bind_next] at h
      obtain ⟨rfl, rfl⟩ := pure_inv h
      exact ⟨_, _, hstep, .bare (findInvalidChar_none.1 hf)⟩
    · split at h
      · obtain ⟨rfl, -⟩ := pure_inv h; trivial
      · exact absurd he (bind_error_dirty h (fun _ => by dirty))
  · obtain ⟨f, s1, -, h⟩ := bind_inv h
    obtain ⟨rfl, -⟩ := pure_inv h; trivial

theorem parseKeyLoop_sound (hE : EnvOk E) : ∀ (n : Nat) {ids : List DottedIdent} {s : PS} {r : KeyResult},
    Cx E s → parseKeyLoop E n ids s = .ok r s' → s'.errors = [] →
    KeySound E (ids.map (·.ident.text)) s r s' := by
  intro n
  induction n with
  | zero => intro ids s r _ h; cases h
  | succ n ih =>
    intro ids s r hC h he
    unfold parseKeyLoop at h
    obtain ⟨r1, s1, h1, h2, hd⟩ := bind_clean h he (by
      dirty
      all_goals exact dirty_parseKeyLoop _ _)
    have hi := parseIdent_sound hE hC h1 hd
    clear h1
    match r1, h2, hi with
    | .inr rr, h2, hi =>
      obtain ⟨rfl, rfl⟩ := pure_inv h2
      match rr, hi with
      | .err e, _ => trivial
    | .inl i, h2, hi =>
      obtain ⟨v, p, hw, hk⟩ := hi
      simp only [] at h2
      rw [bind_peek] at h2
      split at h2
      · rename_i hdot
        rw [bind_next] at h2
        have hw2 := hw.cx.step hE (by rw [hdot]; simp)
        rw [vw_dot hdot] at hw2
        have := ih hw2.cx h2 he
        unfold KeySound at this ⊢
        match r, this with
        | .ok k, this =>
          obtain ⟨ts, ns, g1, g2, g3⟩ := this
          refine ⟨_, _, hw.trans (hw2.trans g1), .dot hk g2, ?_⟩
          rw [g3]; simp
        | .unterminatedStr _, this => exact this
        | .err _, _ => trivial
      · split at h2
        · rename_i hemp
          obtain ⟨rfl, rfl⟩ := pure_inv h2
          have : ids = [] := by simpa using hemp
          subst this
          exact ⟨_, _, hw, .one hk, by simp [keyNames, Key.idents]⟩
        · obtain ⟨rfl, rfl⟩ := pure_inv h2
          exact ⟨_, _, hw, .one hk, by simp [keyNames, Key.idents]⟩

theorem parseKey_sound (hE : EnvOk E) (hC : Cx E s) {r : KeyResult} (h : parseKey E s = .ok r s')
    (he : s'.errors = []) : KeySound E [] s r s' := by
  unfold parseKey at h
  rw [bind_budget] at h
  exact parseKeyLoop_sound hE _ (ids := []) hC h he

/-! ## Scalars -/

/-- The meaning of the outcome of `parseLiteral`. -/
def litMeaning : PartialValue → Option TVal
  | .float f => some (.float f)
  | .int i => some (.int i)
  | .bool b => some (.bool b)
  | .dateTime d => some (.dateTime d)
  | .partialDate d => some (.dateTime (.localDate d))
  | .invalidDateTime _ => none

theorem wrapI64_range (m : Int) : InRange (wrapI64 m) ∧ (18446744073709551616 : Int) ∣ m - wrapI64 m := by
  unfold wrapI64 InRange
  constructor
  · omega
  · omega

theorem clean_filter (x : Str) : clean x = x.filter (· ≠ '_') := by
  unfold clean
  congr 1
  funext c
  by_cases h : c = '_' <;> simp [h]

theorem parseLiteral_scalar {ovf : Bool} {x : Str} {span : Span} {v : TVal} :
    Scalar x v ↔ ∃ pv, parseLiteral ovf x span = .ok pv ∧ litMeaning pv = some v := by
  constructor
  · intro h
    cases h with
    | int h1 h2 => exact ⟨_, parseLiteral_int.2 (.inl ⟨h1, h2⟩), rfl⟩
    | @prefixed _ m n h1 h2 h3 =>
      refine ⟨_, parseLiteral_int.2 (.inr ⟨_, h1, rfl⟩), ?_⟩
      have := wrapI64_range m
      generalize wrapI64 (m : Int) = k at this ⊢
      have : k = n := by
        unfold InRange at *
        omega
      rw [this]; rfl
    | float h => exact ⟨_, parseLiteral_float.2 (.inl ⟨h, rfl⟩), by rw [clean_filter]; rfl⟩
    | inf h => exact ⟨_, parseLiteral_float.2 (.inr (.inl ⟨_, h, rfl⟩)), rfl⟩
    | nan h => exact ⟨_, parseLiteral_float.2 (.inr (.inr (.inl ⟨_, h, rfl⟩))), rfl⟩
    | plusInf => exact ⟨_, parseLiteral_float.2 (.inr (.inr (.inr (.inl ⟨rfl, rfl⟩)))), rfl⟩
    | minusInf => exact ⟨_, parseLiteral_float.2 (.inr (.inr (.inr (.inr (.inl ⟨rfl, rfl⟩))))), rfl⟩
    | plusNan => exact ⟨_, parseLiteral_float.2 (.inr (.inr (.inr (.inr (.inr (.inl ⟨rfl, rfl⟩)))))), rfl⟩
    | minusNan => exact ⟨_, parseLiteral_float.2 (.inr (.inr (.inr (.inr (.inr (.inr ⟨rfl, rfl⟩)))))), rfl⟩
    | yes => exact ⟨_, parseLiteral_bool.2 rfl, rfl⟩
    | no => exact ⟨_, parseLiteral_bool.2 rfl, rfl⟩
    | @dateTime _ d h =>
      by_cases hd : ∃ d', d = .localDate d'
      · obtain ⟨d', rfl⟩ := hd
        exact ⟨_, parseLiteral_date.2 h, rfl⟩
      · exact ⟨_, parseLiteral_dateTime.2 ⟨h, fun d' e => hd ⟨d', e⟩⟩, rfl⟩
  · rintro ⟨pv, h1, h2⟩
    cases pv with
    | float f =>
      cases h2
      rcases parseLiteral_float.1 h1 with ⟨a, rfl⟩ | ⟨f, a, rfl⟩ | ⟨f, a, rfl⟩ | ⟨rfl, rfl⟩ | ⟨rfl, rfl⟩ |
        ⟨rfl, rfl⟩ | ⟨rfl, rfl⟩
      · rw [clean_filter]; exact .float a
      · exact .inf a
      · exact .nan a
      · exact .plusInf
      · exact .minusInf
      · exact .plusNan
      · exact .minusNan
    | int n =>
      cases h2
      rcases parseLiteral_int.1 h1 with ⟨a, b⟩ | ⟨m, a, hb⟩
      · exact .int a b
      · have := wrapI64_range m
        rw [← hb] at this
        exact .prefixed a this.1 this.2
    | bool b =>
      cases h2
      have := parseLiteral_bool.1 h1
      cases b
      · rw [this]; exact .no
      · rw [this]; exact .yes
    | dateTime d => cases h2; exact .dateTime (parseLiteral_dateTime.1 h1).1
    | partialDate d => cases h2; exact .dateTime (parseLiteral_date.1 h1)
    | invalidDateTime e => cases h2

theorem spaced_iff {x y : Str} {d : Date} {t : Time} {o : Option Offset} {sp : Span}
    (hx : LooseDate d x) :
    (∃ cur, parseTimeAndOffset ⟨0, y⟩ sp = .ok ((t, o), cur)) →
      Spaced x y (DateTime.fromOptionalOffset d t o) := by
  intro h
  obtain ⟨ts, tail, rfl, h1, h2⟩ := parseTimeAndOffset_ok.1 h
  cases o with
  | none =>
    cases h2
    rw [List.append_nil]
    exact .loc hx h1
  | some o =>
    obtain ⟨os, junk, rfl, h3⟩ := h2
    rw [← List.append_assoc]
    exact .offset hx h1 h3

theorem spaced_run {x y : Str} {dt : DateTime} (sp : Span) (h : Spaced x y dt) :
    ∃ d t o cur, LooseDate d x ∧ parseTimeAndOffset ⟨0, y⟩ sp = .ok ((t, o), cur) ∧
      dt = DateTime.fromOptionalOffset d t o := by
  cases h with
  | @loc _ d t h1 h2 =>
    obtain ⟨cur, hc⟩ := parseTimeAndOffset_ok (span := sp) (i := 0) (s := y) (t := t) (o := none).2
      ⟨y, [], by simp, h2, rfl⟩
    exact ⟨d, t, none, cur, h1, hc, rfl⟩
  | @offset ts os junk d t o h1 h2 h3 =>
    obtain ⟨cur, hc⟩ := parseTimeAndOffset_ok (span := sp) (i := 0) (s := ts ++ os ++ junk) (t := t)
      (o := some o).2 ⟨ts, os ++ junk, by simp, h2, os, junk, rfl, h3⟩
    exact ⟨d, t, some o, cur, h1, hc, rfl⟩

end Verif.Toml
