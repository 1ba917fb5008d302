import Verif.Semver.MoreLemmas

/-!
# Facts about accepted inputs that hold with and without overflow checks, and shift invariance
-/

namespace Verif.Semver
open Verif Verif.Spec Verif.Spec.Semver

theorem intLoop_bound (ovf : Bool) (st : Pos) (acc : Option Nat) (idx : Nat) (s : Str) (v : Nat)
    (c' : Cur) (ha : ∀ a, acc = some a → a < 2 ^ 32)
    (h : intLoop ovf st acc idx s = .ok (some v, c')) : v < 2 ^ 32 := by
  induction s generalizing acc idx with
  | nil =>
    simp only [intLoop, Res.ok.injEq, Prod.mk.injEq] at h
    exact ha v h.1
  | cons c cs ih =>
    by_cases hc : isDigit c = true
    · simp only [intLoop, hc, if_true] at h
      cases acc with
      | none => exact ih none _ (by simp) h
      | some a =>
        simp only at h
        split at h
        · split at h
          · exact ih _ _ (by intro b hb; cases hb; assumption) h
          · split at h
            · cases h
            · exact ih _ _ (by intro b hb; cases hb; omega) h
        · exact ih none _ (by simp) h
    · simp only [intLoop, if_neg hc, Res.ok.injEq, Prod.mk.injEq] at h
      exact ha v h.1

theorem parseInt_bound (ovf : Bool) (c c' : Cur) (f : NumField) (v : Nat)
    (h : parseInt ovf c f = .ok (v, c')) : v < 2 ^ 32 := by
  unfold parseInt at h
  split at h
  · cases h
  · rename_i x cs hr
    split at h
    · simp only at h
      split at h
      · split at h
        · cases h
        · cases h; decide
      · cases h; decide
    · split at h
      · rename_i hd
        split at h
        · rename_i v' c'' hl
          cases h
          exact intLoop_bound _ _ _ _ _ _ _ (by
            intro a ha; cases ha; have := digitVal_lt hd; omega) hl
        all_goals cases h
      · cases h

theorem optIdent_pre {c c' : Cur} {o : Option Str}
    (h : optIdent '-' .prerelease c = .ok (o, c')) : o.getD [] = [] ∨ PreTag (o.getD []) := by
  cases o with
  | none => exact .inl rfl
  | some s =>
    exact .inr ((preTag_iff s).2 (OptRead.segs ((optIdent_iff _ _ _ _ _).1 h)))

theorem optIdent_build {c c' : Cur} {o : Option Str}
    (h : optIdent '+' .buildMetadata c = .ok (o, c')) : o.getD [] = [] ∨ BuildTag (o.getD []) := by
  cases o with
  | none => exact .inl rfl
  | some s =>
    exact .inr ((buildTag_iff s).2 (OptRead.segs ((optIdent_iff _ _ _ _ _).1 h)))

/-- Whatever the build, an accepted version has fields that fit and valid tags. -/
theorem parseVersion_valid (ovf : Bool) (input : Str) (pos : Pos) (v : Version)
    (h : parseVersion ovf input pos = .ok v) : ValidVersion v := by
  unfold parseVersion at h
  simp only [Res.bind_eq_ok] at h
  obtain ⟨⟨M, c1⟩, h1, c2, h2, ⟨m, c3⟩, h3, c4, h4, ⟨p, c5⟩, h5, ⟨opre, c6⟩, h6, ⟨obuild, c7⟩, h7, h8⟩ := h
  simp only at h8
  split at h8
  · cases h8
    exact ⟨parseInt_bound _ _ _ _ _ h1, parseInt_bound _ _ _ _ _ h3, parseInt_bound _ _ _ _ _ h5,
      optIdent_pre h6, optIdent_build h7⟩
  · cases h8

end Verif.Semver
