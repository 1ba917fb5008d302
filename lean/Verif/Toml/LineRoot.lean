import Verif.Toml.LineLogic

/-! # The items on one line, whatever is on it -/

namespace Verif.Toml
open Verif Verif.Spec.Toml

variable {α β : Type} {E : Env} {s s' s1 s2 : PS} {ℓ : Nat} {b : List Token} {es0 : List Error} {v : Bool} {k : Nat}

theorem LS.reset (h : LS E ℓ b es0 v k s) :
    LS E ℓ b es0 v k { s with errors := s.errors.take es0.length } := by
  obtain ⟨new, h1, -⟩ := h.errs
  refine ⟨h.eofTy, h.fin, ?_, h.line, [], ?_, by simp⟩
  · obtain ⟨pre, hc⟩ := h.cx
    exact ⟨pre, hc.chain, hc.com⟩
  · simp [h1]

theorem bind_reset (m : Nat) (f : Unit → M β) (s : PS) :
    (reset m >>= f) s = f () { s with errors := s.errors.take m } := rfl

theorem expectedNewline_line {t : Token} {u : Unit} (h : LS E ℓ b es0 v k s) (ht : t.start.line = ℓ)
    (hr : expectedNewline E es0.length t s = .ok u s') : LS E ℓ b es0 v k s' := by
  unfold expectedNewline at hr
  rw [bind_reset] at hr
  obtain ⟨f, -, hr⟩ := bind_lift_inv hr
  rw [bind_peek] at hr
  cases hr
  exact h.reset.err (e := .expectedNewlineFound f ⟨t.start, _⟩) ht

theorem checkNewline_line {t : Token} {req c : Bool} (h : LS E ℓ b es0 v k s) (ht : t.start.line = ℓ)
    (hr : checkNewline E req es0.length t s = .ok c s') : LS E ℓ b es0 v k s' := by
  unfold checkNewline at hr
  split at hr
  · rw [bind_mark] at hr
    split at hr
    · rw [bind_error] at hr
      obtain ⟨rfl, rfl⟩ := pure_inv hr
      exact h.err (e := .missingNewline t.start) ht
    · obtain ⟨u, s1, h1, hr⟩ := bind_inv hr
      obtain ⟨g1, -⟩ := recover_line rfl rfl h h1
      obtain ⟨u, s2, h2, hr⟩ := bind_inv hr
      obtain ⟨rfl, rfl⟩ := pure_inv hr
      exact expectedNewline_line g1 ht h2
  · obtain ⟨rfl, rfl⟩ := pure_inv hr
    exact h

theorem openArray_line {p : Pos} {r : Option Pos} (h : LS E ℓ b es0 v k s) (hp : p.line = ℓ)
    (hr : openArray E p s = .ok r s') : LS E ℓ b es0 v k s' ∧ ∀ q, r = some q → q.line = ℓ := by
  have hl := h.pkLine
  unfold openArray at hr
  rw [bind_peek] at hr
  split at hr
  · rename_i hty
    rw [bind_next] at hr
    have ha := h.adv (by rw [hty]; simp) (by rw [hty]; simp)
    split at hr
    · rw [bind_error] at hr
      obtain ⟨rfl, rfl⟩ := pure_inv hr
      exact ⟨ha.err (e := .spaceBetweenArrayPars ⟨p.plus 1, _⟩) hp, by rintro q h; cases h; exact hl⟩
    · dsimp only at hr
      obtain ⟨rfl, rfl⟩ := pure_inv hr
      exact ⟨ha, by rintro q h; cases h; exact hl⟩
  · obtain ⟨rfl, rfl⟩ := pure_inv hr
    exact ⟨h, by simp⟩

theorem headerKey_line {r : Option Key × Bool} (h : LS E ℓ b es0 v k s) (hr : headerKey E s = .ok r s') :
    LS E ℓ b es0 v k s' := by
  unfold headerKey at hr
  obtain ⟨kr, s1, h1, hr⟩ := bind_inv hr
  obtain ⟨g1, g2⟩ := parseKey_line h h1
  clear h1
  split at hr
  · obtain ⟨rfl, rfl⟩ := pure_inv hr; exact g1
  · obtain ⟨rfl, rfl⟩ := pure_inv hr; exact g1
  · rw [bind_error] at hr
    obtain ⟨u, s2, h2, hr⟩ := bind_inv hr
    obtain ⟨rfl, rfl⟩ := pure_inv hr
    exact (recover_line rfl rfl (g1.err g2) h2).1

theorem closeArray_line {la r : Option Pos} (h : LS E ℓ b es0 v k s) (hr : closeArray E la s = .ok r s') :
    LS E ℓ b es0 v k s' ∧ ∀ q, r = some q → q.line = ℓ := by
  have hl := h.pkLine
  unfold closeArray at hr
  split at hr
  · obtain ⟨rfl, rfl⟩ := pure_inv hr
    exact ⟨h, by simp⟩
  · rw [bind_peek] at hr
    split at hr
    · rename_i hty
      rw [bind_next] at hr
      obtain ⟨rfl, rfl⟩ := pure_inv hr
      exact ⟨h.adv (by rw [hty]; simp) (by rw [hty]; simp), by rintro q h; cases h; exact hl⟩
    · obtain ⟨f, sp, hsp, hr⟩ := bind_fmt_inv hr
      dsimp only at hr
      rw [bind_error] at hr
      obtain ⟨rfl, rfl⟩ := pure_inv hr
      exact ⟨h.err (by show sp.start.line = ℓ; rw [hsp]; exact hl), by simp⟩

theorem closeTable_line {p : Pos} {ra r : Option Pos} (h : LS E ℓ b es0 v k s)
    (ha : ∀ q, ra = some q → q.line = ℓ) (hr : closeTable E p ra s = .ok r s') : LS E ℓ b es0 v k s' := by
  have hl := h.pkLine
  unfold closeTable at hr
  rw [bind_peek] at hr
  split at hr
  · rename_i hty
    rw [bind_next] at hr
    have h1 := h.adv (by rw [hty]; simp) (by rw [hty]; simp)
    unfold checkSpace at hr
    obtain ⟨u, s1, h2, hr⟩ := bind_inv hr
    obtain ⟨rfl, rfl⟩ := pure_inv hr
    split at h2
    · rename_i a
      split at h2
      · cases h2
        exact h1.err (e := .spaceBetweenArrayPars ⟨a.plus 1, _⟩) (ha a rfl)
      · obtain ⟨-, rfl⟩ := pure_inv h2; exact h1
    · obtain ⟨-, rfl⟩ := pure_inv h2; exact h1
  · obtain ⟨f, sp, hsp, hr⟩ := bind_fmt_inv hr
    dsimp only at hr
    split at hr <;> rw [bind_error] at hr <;> obtain ⟨rfl, rfl⟩ := pure_inv hr <;>
      exact h.err (by show sp.start.line = ℓ; rw [hsp]; exact hl)

theorem closeHeader_line {p : Pos} {la : Option Pos} {skip : Bool} {r : Option Pos × Option Pos}
    (h : LS E ℓ b es0 v k s) (hr : closeHeader E p la skip s = .ok r s') : LS E ℓ b es0 v k s' := by
  unfold closeHeader at hr
  split at hr
  · obtain ⟨rfl, rfl⟩ := pure_inv hr; exact h
  · obtain ⟨a, s1, h1, hr⟩ := bind_inv hr
    obtain ⟨g1, g2⟩ := closeArray_line h h1
    obtain ⟨c, s2, h2, hr⟩ := bind_inv hr
    obtain ⟨rfl, rfl⟩ := pure_inv hr
    exact closeTable_line g1 g2 h2

/-- What a round of the loop does on the line. -/
structure RoundOn (E : Env) (ℓ : Nat) (b : List Token) (es0 : List Error) (k : Nat) (r r' : RootSt) (s' : PS) :
    Prop where
  ls : LS E ℓ b es0 false k s'
  its : ∃ new, Toml.its r'.asts = Toml.its r.asts ++ new
  ri : ∃ c, RI c r'.asts

theorem RoundOn.same {r : RootSt} (h : LS E ℓ b es0 v k s) {c : Bool} (hR : RI c r.asts) :
    RoundOn E ℓ b es0 k r r s := ⟨h.weaken (by simp) (Nat.le_refl _), ⟨[], by simp⟩, c, hR⟩

theorem rootHeader_line {r r' : RootSt} {c : Bool} (h : LS E ℓ b s.errors false k s) (hR : RI c r.asts)
    (hty : (pk E s).ty = .squareLeft) (hr : rootHeader E (pk E s) r s = .ok r' s') :
    RoundOn E ℓ b s.errors k r r' s' := by
  have hl := h.pkLine
  unfold rootHeader at hr
  rw [bind_mark, bind_next] at hr
  have h1 := h.adv (by rw [hty]; simp) (by rw [hty]; simp)
  dsimp only at hr
  obtain ⟨la, s1, e1, hr⟩ := bind_inv hr
  obtain ⟨h2, -⟩ := openArray_line h1 hl e1
  obtain ⟨⟨key, skip⟩, s2, e2, hr⟩ := bind_inv hr
  have h3 := headerKey_line h2 e2
  dsimp only at hr
  obtain ⟨rp, s3, e3, hr⟩ := bind_inv hr
  have h4 := closeHeader_line h3 e3
  obtain ⟨go, s4, e4, hr⟩ := bind_inv hr
  have h5 := checkNewline_line h4 hl e4
  split at hr
  · obtain ⟨f1, f2, f3, f4⟩ := finishHeader_items hR hr
    exact ⟨h5.same f1 ((quiet_finishHeader _ _ _ _ _ _).out _ _ _ hr), ⟨_, f4⟩, _, f3⟩
  · obtain ⟨rfl, rfl⟩ := pure_inv hr
    exact .same h5 hR

theorem rootComment_line {r r' : RootSt} {c : Bool} {id : Nat} (h : LS E ℓ b es0 false k s) (hR : RI c r.asts)
    (hty : (pk E s).ty = .comment id) (hr : rootComment E (pk E s) id r s = .ok r' s') :
    RoundOn E ℓ b es0 k r r' s' := by
  obtain ⟨-, g1, g2, -⟩ := rootComment_went h.eofTy h.cx hty hR hr
  refine ⟨?_, ⟨[], by simp [g2]⟩, c, g1⟩
  have ha := h.adv (by rw [hty]; simp) (by rw [hty]; simp)
  have hq := (quiet_rootComment _ _ _).out _ _ _ hr
  refine ha.same ?_ (by rw [hq, adv_errors])
  unfold rootComment at hr
  rw [bind_next] at hr
  obtain ⟨cm, -, hr⟩ := bind_lift_inv hr
  split at hr
  · obtain ⟨cid, s1, h1, hr⟩ := bind_inv hr
    have := (still_store _).out _ _ _ h1
    generalize r.asts.getLast? = o at hr
    split at hr
    · cases hr
    · obtain ⟨a, -, hr⟩ := bind_lift_inv hr
      obtain ⟨rfl, rfl⟩ := pure_inv hr
      exact this
  · obtain ⟨rfl, rfl⟩ := pure_inv hr
    rfl

theorem rootValue_line {r r' : RootSt} {c : Bool} {key : Key} {eq : Pos} (h : LS E ℓ b es0 true k s)
    (hk : k ≤ 99) (hR : RI c r.asts) (hr : rootValue E r key eq s = .ok r' s') :
    RoundOn E ℓ b es0 k r r' s' := by
  unfold rootValue at hr
  obtain ⟨pos, s1, e1, hr⟩ := bind_inv hr
  have h1 := h.still (still_findAssoc _ _) (quiet_findAssoc _ _) e1
  obtain ⟨o, s2, e2, hr⟩ := bind_inv hr
  have h2 := h1.still (still_loose _ _) (quiet_loose _ _) e2
  obtain ⟨-, o1, o2, o3⟩ := looseComments_items hR e2
  clear e2
  obtain ⟨asts, level⟩ := o
  dsimp only at hr o1 o2 o3
  obtain ⟨cm, s3, e3, hr⟩ := bind_inv hr
  have h3 := h2.still (still_storeComments _ _ _) (quiet_storeComments _ _ _) e3
  obtain ⟨rv, s4, e4, hr⟩ := bind_inv hr
  have hlv : level + k ≤ 100 := by
    rw [o3]; split <;> omega
  obtain ⟨h4, hv⟩ := parseValue_line _ _ hlv h3 e4
  clear e4
  split at hr
  · rename_i val
    rw [bind_nextId] at hr
    obtain ⟨cm2, -, hr⟩ := bind_lift_inv hr
    obtain ⟨rfl, rfl⟩ := pure_inv hr
    obtain ⟨p1, p2⟩ := pushAssignment_items o1 ⟨cm2, key, eq, val⟩
    exact ⟨h4.weaken (by simp) (Nat.le_refl _), ⟨_, by rw [p2, o2]⟩, _, p1⟩
  · rw [bind_error] at hr
    obtain ⟨u, s5, e5, hr⟩ := bind_inv hr
    obtain ⟨rfl, rfl⟩ := pure_inv hr
    exact ⟨(recover_line rfl rfl (h4.err hv.1) e5).1.weaken (by simp) (Nat.le_refl _), ⟨[], by simp [o2]⟩, _, o1⟩

theorem rootAssignment_line {r r' : RootSt} {c : Bool} (h : LS E ℓ b s.errors false k s) (hk : k ≤ 99)
    (hR : RI c r.asts) (hr : rootAssignment E (pk E s) r s = .ok r' s') : RoundOn E ℓ b s.errors k r r' s' := by
  have hl := h.pkLine
  unfold rootAssignment at hr
  rw [bind_mark] at hr
  obtain ⟨kr, s1, e1, hr⟩ := bind_inv hr
  obtain ⟨h1, hkl⟩ := parseKey_line h e1
  have hl1 := h1.pkLine
  clear e1
  split at hr
  · rename_i key
    unfold rootEq at hr
    rw [bind_peek] at hr
    split at hr
    · rename_i heq
      rw [bind_next] at hr
      have h2 := (h1.adv' (by rw [heq]; simp) (by rw [heq]; simp)).1
      rw [heq] at h2
      obtain ⟨go, s2, e2, hr⟩ := bind_inv hr
      have h3 := checkNewline_line h2 hl e2
      split at hr
      · exact rootValue_line (by simpa using h3) hk hR hr
      · obtain ⟨rfl, rfl⟩ := pure_inv hr
        exact .same (k := k) (by simpa using h3) hR
    · obtain ⟨u, s2, e2, hr⟩ := bind_inv hr
      have h2 := (recover_line rfl rfl h1 e2).1
      split at hr
      · obtain ⟨u, s3, e3, hr⟩ := bind_inv hr
        obtain ⟨rfl, rfl⟩ := pure_inv hr
        exact .same (expectedNewline_line h2 hl e3) hR
      · obtain ⟨f, sp, hsp, hr⟩ := bind_fmt_inv hr
        dsimp only at hr
        rw [bind_error] at hr
        obtain ⟨rfl, rfl⟩ := pure_inv hr
        exact .same (h2.err (by show sp.start.line = ℓ; rw [hsp]; exact hl1)) hR
  · split at hr
    · obtain ⟨u, s3, e3, hr⟩ := bind_inv hr
      obtain ⟨rfl, rfl⟩ := pure_inv hr
      exact .same (expectedNewline_line h1 hl e3) hR
    · dsimp only at hr
      obtain ⟨rfl, rfl⟩ := pure_inv hr
      exact .same h1 hR
  · obtain ⟨u, s2, e2, hr⟩ := bind_inv hr
    have h2 := (recover_line rfl rfl h1 e2).1
    split at hr
    · obtain ⟨u, s3, e3, hr⟩ := bind_inv hr
      obtain ⟨rfl, rfl⟩ := pure_inv hr
      exact .same (expectedNewline_line h2 hl e3) hR
    · rw [bind_error] at hr
      obtain ⟨rfl, rfl⟩ := pure_inv hr
      exact .same (h2.err hkl) hR

end Verif.Toml
