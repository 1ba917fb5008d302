import Verif.Props.OrderReq

/-!
# C107: compatibility of versions is a preorder
-/

namespace Verif.Props
open Verif Verif.Spec Verif.Semver Verif.Spec.Semver Verif.Spec.Matching

/-- C107: every version, prerelease or not, with build metadata or not, matches the requirements `=`,
`~`, `^`, `>=` and `<=` with itself. -/
theorem C107_self (ovf : Bool) (pos : Pos) (u : Version) (hu : ValidVersion u) :
    ReqV ovf pos .eq u u ∧ ReqV ovf pos .tl u u ∧ ReqV ovf pos .cr u u ∧ ReqV ovf pos .ge u u ∧
      ReqV ovf pos .le u u ∧ ¬ ReqV ovf pos .gt u u ∧ ¬ ReqV ovf pos .lt u u := by
  have hv : TagOk u := hu.pre
  have hc : Comparable u u := by
    by_cases h : u.pre = []
    · exact .inl h
    · exact .inr ⟨h, rfl⟩
  obtain ⟨h1, h2, h3, h4, h5⟩ := C106_agree ovf pos u u hu hv hc
  have e : versionCmp (noBuild u) (noBuild u) = .eq := (C04_version_total_order.1.eq_iff _ _).2 rfl
  rw [e] at h1 h2 h3 h4 h5
  have he : ReqV ovf pos .eq u u := h5.2 rfl
  have hi := (C103_inclusions ovf pos (cvOf u) (cvOf_valid hu) (cvOf_bare u) u hv).1
  simp only [Req, cvOf_text] at hi
  obtain ⟨g1, g2⟩ := hi he
  exact ⟨he, g1, g2, h2.2 (by decide), h4.2 (by decide), fun h => by simpa using h1.1 h,
    fun h => by simpa using h3.1 h⟩

theorem reqV_release (ovf : Bool) (pos : Pos) {op : Op} {u v : Version} (ho : Written op)
    (hu : ValidVersion u) (hv : v.pre = []) :
    ReqV ovf pos op u v ↔ AdmitsRelease TagTextLt op (cvOf u) v := by
  rw [reqV_iff ovf pos ho hu (.inl hv)]
  simp [Admits, hv, Comparable]

theorem caret_release (ovf : Bool) (pos : Pos) {u v : Version} (hu : ValidVersion u)
    (hup : u.pre = []) (hv : v.pre = []) :
    (ReqV ovf pos .cr u v ↔ TLe (triple u) (triple v) ∧
      TLt (triple v) (caretCeil (.patch u.major u.minor u.patch none))) ∧
    (ReqV ovf pos .tl u v ↔ TLe (triple u) (triple v) ∧
      TLt (triple v) (u.major, u.minor + 1, 0)) := by
  rw [reqV_release ovf pos (by simp [Written]) hu hv, reqV_release ovf pos (by simp [Written]) hu hv]
  have hn := nil_tagLt_nil
  simp [AdmitsRelease, cvOf, hup, PrecLe, PrecLt, bound, point, floor, tag, triple, hv, hn, TLe,
    caretCeil, tildeCeil]

/-- C107: for releases, "matches the caret requirement of" is transitive, and so is the tilde: what
is compatible with a compatible version is compatible. -/
theorem C107_transitive (ovf : Bool) (pos : Pos) (u v w : Version) (hu : ValidVersion u)
    (hv : ValidVersion v) (hup : u.pre = []) (hvp : v.pre = []) (hwp : w.pre = []) :
    (ReqV ovf pos .cr u v → ReqV ovf pos .cr v w → ReqV ovf pos .cr u w) ∧
    (ReqV ovf pos .tl u v → ReqV ovf pos .tl v w → ReqV ovf pos .tl u w) := by
  rw [(caret_release ovf pos hu hup hvp).1, (caret_release ovf pos hu hup hvp).2,
    (caret_release ovf pos hv hvp hwp).1, (caret_release ovf pos hv hvp hwp).2,
    (caret_release ovf pos hu hup hwp).1, (caret_release ovf pos hu hup hwp).2]
  simp only [triple, caretCeil, TLe, TLt]
  constructor
  · repeat' split
    all_goals (dsimp only; omega)
  · omega

/-- C107: two releases that are compatible with each other have the same numbers. -/
theorem C107_antisymmetric (ovf : Bool) (pos : Pos) (u v : Version) (hu : ValidVersion u)
    (hv : ValidVersion v) (hup : u.pre = []) (hvp : v.pre = [])
    (h : ReqV ovf pos .cr u v) (h' : ReqV ovf pos .cr v u) : noBuild u = noBuild v := by
  have h1 := ((caret_release ovf pos hu hup hvp).1.1 h).1
  have h2 := ((caret_release ovf pos hv hvp hup).1.1 h').1
  simp only [triple, TLe, TLt] at h1 h2
  simp only [noBuild, Version.mk.injEq, hup, hvp, true_and, and_true]
  omega

/-- C107: the releases that are compatible with `u` are the ones from `u` on that have the same
numbers up to the first number that is not zero. -/
theorem C107_same_leading (ovf : Bool) (pos : Pos) (u v : Version) (hu : ValidVersion u)
    (hup : u.pre = []) (hvp : v.pre = []) :
    ReqV ovf pos .cr u v ↔ TLe (triple u) (triple v) ∧ u.major = v.major ∧
      (u.major = 0 → u.minor = v.minor ∧ (u.minor = 0 → u.patch = v.patch)) := by
  rw [(caret_release ovf pos hu hup hvp).1]
  simp only [triple, caretCeil, TLe, TLt]
  repeat' split
  all_goals (dsimp only; omega)

example : ReqV true .ZERO .cr ⟨1, 2, 3, [], []⟩ ⟨1, 4, 0, [], []⟩ ∧
    ReqV true .ZERO .cr ⟨1, 4, 0, [], []⟩ ⟨1, 9, 9, [], []⟩ :=
  ⟨⟨_, by rfl, by decide⟩, ⟨_, by rfl, by decide⟩⟩

end Verif.Props
