import Verif.Toml.LineLogic

/-!
# C104: how far a defective date reaches

After a literal that looks like a date and is none, the parser may take the next literal of the line
with it, so that one mistake gives one diagnostic.
-/

namespace Verif.Props
open Verif Verif.Toml

/-- The literal `lit` was read as a date with the mistake `e`, and it has no time part. -/
def DefectiveDate (E : Env) (lit : Slice) (span : Span) (e : Error) : Prop :=
  parseLiteral E.ovf lit.text span = .ok (.invalidDateTime e) ∧
    ∀ c ∈ lit.text, c ≠ 'T' ∧ c ≠ 't' ∧ c ≠ ':'

theorem literalValue_defective {E : Env} {lit : Slice} {span : Span} {e : Error}
    (h : DefectiveDate E lit span e) (s : PS) :
    literalValue E lit span s = tryCombineTimePart E lit span (s.err e) := by
  have hn : lit.text.any (fun c => c = 'T' || c = 't' || c = ':') = false := by
    rw [List.any_eq_false]
    intro c hc
    have := h.2 c hc
    simp [this.1, this.2.1, this.2.2]
  unfold literalValue
  rw [h.1]
  simp only [bind_error, hn]
  rfl

theorem pk_err (E : Env) (s : PS) (e : Error) : pk E (s.err e) = pk E s := rfl

/-- C104: what does not stand within five columns behind a defective date, or is no literal, is not
taken: the value is the date alone, there is one diagnostic, and the parser goes on with the next
token. -/
theorem C104_not_beyond {E : Env} {lit : Slice} {span : Span} {e : Error}
    (h : DefectiveDate E lit span e) (s : PS)
    (hn : ∀ id, (pk E s).ty = .literalOrIdent id →
      E.literals[id]?.isSome ∧ span.stop.char + 5 < (pk E s).start.char) :
    literalValue E lit span s =
      .ok (.invalid lit.text span) { s with errors := s.errors ++ [e] } := by
  rw [literalValue_defective h]
  unfold tryCombineTimePart
  rw [bind_peek, pk_err]
  generalize hty : (pk E s).ty = ty
  split
  · rename_i id
    obtain ⟨h1, h2⟩ := hn id hty
    obtain ⟨l, hl⟩ := Option.isSome_iff_exists.1 h1
    unfold literal
    rw [bind_lift (a := ⟨byteOff E.input (pk E s).start.line (pk E s).start.char, l⟩) _ _ (by simp [hl])]
    dsimp only
    split
    · rfl
    · rename_i hc
      exact absurd h2 hc
  · rfl

theorem combineLoop_reach {E : Env} : ∀ (n : Nat) {lit l : Slice} {span sp : Span} {s s' : PS},
    combineLoop E n lit span s = .ok (l, sp) s' →
    sp.start = span.start ∧ sp.stop.line = span.stop.line ∧ span.stop.char ≤ sp.stop.char ∧
      s'.errors = s.errors ∧ ∃ us, s.rest = us ++ s'.rest := by
  intro n
  induction n with
  | zero => intro _ _ _ _ _ _ h; cases h
  | succ n ih =>
    intro lit l span sp s s' h
    unfold combineLoop at h
    rw [bind_peek] at h
    have done : ∀ {s s' : PS}, (pure (lit, span) : M (Slice × Span)) s = .ok (l, sp) s' →
        sp.start = span.start ∧ sp.stop.line = span.stop.line ∧ span.stop.char ≤ sp.stop.char ∧
        s'.errors = s.errors ∧ ∃ us, s.rest = us ++ s'.rest := by
      intro s s' h
      obtain ⟨e, rfl⟩ := pure_inv h
      cases e
      exact ⟨rfl, rfl, Nat.le_refl _, rfl, [], rfl⟩
    have adv : ∀ s : PS, s.adv.errors = s.errors ∧ ∃ us, s.rest = us ++ s.adv.rest := by
      intro s
      unfold PS.adv
      split
      · rename_i t ts e; exact ⟨rfl, [t], by simp [e]⟩
      · exact ⟨rfl, [], rfl⟩
    have step : ∀ {lit' : Slice} {k : Nat}, combineLoop E n lit' ⟨span.start, span.stop.plus k⟩ s.adv
        = .ok (l, sp) s' →
        sp.start = span.start ∧ sp.stop.line = span.stop.line ∧ span.stop.char ≤ sp.stop.char ∧
        s'.errors = s.errors ∧ ∃ us, s.rest = us ++ s'.rest := by
      intro lit' k h
      obtain ⟨a, b, c, d, us, f⟩ := ih h
      obtain ⟨g, vs, i⟩ := adv s
      refine ⟨a, b, ?_, d.trans g, vs ++ us, by rw [i, f, List.append_assoc]⟩
      simp only [Pos.plus] at c; omega
    split at h
    · exact done h
    · generalize hty : (pk E s).ty = ty at h
      split at h
      · obtain ⟨lit', -, h⟩ := bind_lift_inv h
        rw [bind_next] at h
        exact step h
      · obtain ⟨lit', -, h⟩ := bind_lift_inv h
        obtain ⟨lit'', -, h⟩ := bind_lift_inv h
        rw [bind_next] at h
        exact step h
      · exact done h

/-- C104: a literal that does stand within five columns is taken: the value goes from the start of the
date to at least the end of that literal, there is one diagnostic, and the parser goes on behind the
literal. -/
theorem C104_within {E : Env} {lit : Slice} {span : Span} {e : Error} {id : Nat} {l : Str}
    (h : DefectiveDate E lit span e) {s s' : PS} {v : Value} {t : Token} {ts : List Token}
    (hs : s.rest = t :: ts) (ht : t.ty = .literalOrIdent id) (hl : E.literals[id]? = some l)
    (hn : t.start.char ≤ span.stop.char + 5) (hr : literalValue E lit span s = .ok v s') :
    ∃ text sp us, v = .invalid text sp ∧ sp.start = span.start ∧ sp.stop.line = t.start.line ∧
      t.start.char + blen l ≤ sp.stop.char ∧ s'.errors = s.errors ++ [e] ∧ ts = us ++ s'.rest := by
  rw [literalValue_defective h] at hr
  unfold tryCombineTimePart at hr
  have hp : pk E s = t := by simp [pk, hs]
  rw [bind_peek, pk_err, hp, ht] at hr
  simp only at hr
  obtain ⟨l', hl', hr⟩ := bind_lift_inv hr
  rw [hl] at hl'
  simp only [Option.map_some, Option.some.injEq] at hl'
  subst hl'
  dsimp only at hr
  split at hr
  · rename_i hc
    have hc : t.start.char > span.stop.char + 5 := hc
    omega
  rw [bind_next] at hr
  obtain ⟨lit2, -, hr⟩ := bind_lift_inv hr
  obtain ⟨⟨l2, sp⟩, s2, h2, hr⟩ := bind_inv hr
  obtain ⟨rfl, rfl⟩ := pure_inv hr
  unfold combineAdjacentDotAndLit at h2
  rw [bind_budget] at h2
  obtain ⟨a, b, c, d, us, f⟩ := combineLoop_reach _ h2
  have e1 : (s.err e).adv.errors = s.errors ++ [e] := by simp [PS.adv, PS.err, hs]
  have e2 : (s.err e).adv.rest = ts := by simp [PS.adv, PS.err, hs]
  exact ⟨_, sp, us, rfl, a, b, c, d.trans e1, by rw [← e2, f]⟩

/-- The number of the diagnostics of the parser. -/
def diagnostics {α : Type} : Run α → Option Nat
  | .ok _ s => some s.errors.length
  | _ => none

/-- Whole documents: with five spaces between them the two literals are one defective value with one
diagnostic, with six the second one is a mistake of its own. -/
theorem C104_witness :
    diagnostics (parseDocument true "a = 2000-99-99     b".toList) = some 1 ∧
    diagnostics (parseDocument true "a = 2000-99-99      b".toList) = some 2 := by
  decide +kernel

/-- The premises of both theorems are met. -/
example : DefectiveDate ⟨"2000-99-99 b".toList, [], ["2000-99-99".toList, "b".toList],
    ⟨.eof, ⟨0, 12⟩⟩, true⟩ ⟨0, "2000-99-99".toList⟩ ⟨⟨0, 0⟩, ⟨0, 10⟩⟩
    (.dateTimeOutOfBounds .month 99 1 12 ⟨⟨0, 5⟩, ⟨0, 7⟩⟩) := by
  exact ⟨by decide +kernel, by decide⟩

end Verif.Props
