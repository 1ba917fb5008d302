import Verif.Props.ReqAlgebra
import Verif.Props.SemverOrder

/-!
# C106: comparing versions and matching requirements agree
-/

namespace Verif.Props
open Verif Verif.Spec Verif.Semver Verif.Spec.Semver Verif.Spec.Matching

/-- A version without its build metadata. -/
def noBuild (v : Version) : Version := { v with build := [] }

/-- The version as the version of a comparator. -/
def cvOf (u : Version) : CompVersion :=
  if u.pre = [] then .patch u.major u.minor u.patch (if u.build = [] then none else some u.build)
  else .pre u.major u.minor u.patch u.pre (if u.build = [] then none else some u.build)

theorem cvOf_text (u : Version) : cvText (cvOf u) = versionText u := by
  unfold cvOf versionText
  by_cases h : u.pre = [] <;> by_cases g : u.build = [] <;> simp [h, g, cvText]

theorem cvOf_valid {u : Version} (h : ValidVersion u) : ValidCv (cvOf u) := by
  obtain ⟨h1, h2, h3, h4, h5⟩ := h
  unfold cvOf
  by_cases h : u.pre = [] <;> by_cases g : u.build = []
  · simp [h, g, ValidCv, h1, h2, h3]
  · have := h5.resolve_left g
    simp [h, g, ValidCv, h1, h2, h3, this]
  · have := h4.resolve_left h
    simp [h, g, ValidCv, h1, h2, h3, this]
  · have h' := h4.resolve_left h
    have := h5.resolve_left g
    simp [h, g, ValidCv, h1, h2, h3, this, h']

theorem cvOf_bare (u : Version) : ∀ w, cvOf u ≠ .wl w := by
  intro w; unfold cvOf; split <;> simp

theorem cvOf_full (u : Version) : Full (cvOf u) := by
  unfold cvOf; split <;> trivial

theorem cvOf_bound (u : Version) : bound (cvOf u) = point u := by
  unfold cvOf
  split
  · rename_i h; simp [bound, point, floor, tag, triple, h]
  · simp [bound, point, floor, tag, triple]

theorem cvOf_optIn (u v : Version) : OptIn (cvOf u) v ↔ u.pre ≠ [] ∧ triple v = triple u := by
  unfold cvOf OptIn
  split
  · rename_i h; simp [h]
  · rename_i h
    constructor
    · rintro ⟨a, b, c, p, m, e, hp, ht⟩
      cases e
      exact ⟨hp, ht⟩
    · rintro ⟨h1, h2⟩
      exact ⟨_, _, _, _, _, rfl, h1, h2⟩

/-- The code compares points in the order of SemVer precedence. -/
theorem cmp_noBuild {u v : Version} (hu : TagOk u) (hv : TagOk v) :
    versionCmp (noBuild u) (noBuild v) = .lt ↔ PrecLt TagTextLt (point u) (point v) := by
  rw [(C04_version_total_order.2.1 (noBuild u) (noBuild v))]
  have : metaCmp (noBuild u).build (noBuild v).build ≠ .lt := by
    show metaCmp [] [] ≠ .lt
    decide
  simp only [PrecLt, point, this, and_false, or_false]
  rw [tagTextLt_iff hu hv]
  rfl

/-- The requirement `<op><version>` matches. -/
def ReqV (ovf : Bool) (pos : Pos) (op : Op) (u v : Version) : Prop :=
  Matches ovf (opWritten op ++ versionText u) pos v

/-- May `v` be matched by a requirement with the version `u`: it is a release, or a prerelease of the
same numbers as the prerelease `u`? -/
def Comparable (u v : Version) : Prop := v.pre = [] ∨ (u.pre ≠ [] ∧ triple v = triple u)

theorem reqV_iff (ovf : Bool) (pos : Pos) {op : Op} {u v : Version} (ho : Written op)
    (hu : ValidVersion u) (hv : TagOk v) :
    ReqV ovf pos op u v ↔ Admits TagTextLt op (cvOf u) v ∧ Comparable u v := by
  unfold ReqV
  rw [← cvOf_text]
  rw [show Matches ovf (opWritten op ++ cvText (cvOf u)) pos v ↔ Req ovf pos op (cvOf u) v from Iff.rfl,
    req_iff ovf pos ho (cvOf_valid hu) (cvOf_bare u) hv, cvOf_optIn]
  rfl

/-- C106: for two versions that may be compared, the requirements `>u`, `>=u`, `<u`, `<=u` and `=u`
match `v` exactly if `Version::cmp` says so, but for build metadata. -/
theorem C106_agree (ovf : Bool) (pos : Pos) (u v : Version) (hu : ValidVersion u) (hv : TagOk v)
    (hc : Comparable u v) :
    (ReqV ovf pos .gt u v ↔ versionCmp (noBuild v) (noBuild u) = .gt) ∧
    (ReqV ovf pos .ge u v ↔ versionCmp (noBuild v) (noBuild u) ≠ .lt) ∧
    (ReqV ovf pos .lt u v ↔ versionCmp (noBuild v) (noBuild u) = .lt) ∧
    (ReqV ovf pos .le u v ↔ versionCmp (noBuild v) (noBuild u) ≠ .gt) ∧
    (ReqV ovf pos .eq u v ↔ versionCmp (noBuild v) (noBuild u) = .eq) := by
  have R : ∀ op, Written op → (ReqV ovf pos op u v ↔ Admits TagTextLt op (cvOf u) v) :=
    fun op ho => by rw [reqV_iff ovf pos ho hu hv]; exact and_iff_left hc
  rw [R .gt (by simp [Written]), R .ge (by simp [Written]), R .lt (by simp [Written]),
    R .le (by simp [Written]), R .eq (by simp [Written])]
  have hlt := cmp_noBuild hv (show TagOk u from hu.pre)
  have hgt := cmp_noBuild (show TagOk u from hu.pre) hv
  rw [C04_version_total_order.1.swap (noBuild v) (noBuild u)] at hgt
  have heq := C04_version_total_order.1.eq_iff (noBuild v) (noBuild u)
  have hf := cvOf_full u
  have hag : (Agrees (cvOf u) (triple v) ∧ tag (cvOf u) = v.pre) ↔ noBuild v = noBuild u := by
    have hb := cvOf_bound u
    simp only [bound, point, Prod.mk.injEq] at hb
    rw [hb.2]
    constructor
    · rintro ⟨h1, h2⟩
      have h3 := full_ceil hf h1
      rw [hb.1] at h3
      simp only [triple, Prod.mk.injEq] at h3
      simp only [noBuild, Version.mk.injEq]
      exact ⟨h3.1.symm, h3.2.1.symm, h3.2.2.symm, h2.symm, trivial⟩
    · intro h
      simp only [noBuild, Version.mk.injEq] at h
      refine ⟨full_agrees hf ?_, h.2.2.2.1.symm⟩
      rw [hb.1]
      simp [triple, h.1, h.2.1, h.2.2.1]
  rw [← hag] at heq
  have e1 : ∀ o : Ordering, o.swap = .lt ↔ o = .gt := by intro o; cases o <;> simp
  rw [e1] at hgt
  rw [hlt, hgt, heq, Ne, hlt, Ne, hgt]
  simp only [Admits, AdmitsRelease, AdmitsPre, hf, cvOf_bound, true_and, not_true, false_and,
    or_false, PrecLe]
  by_cases hp : v.pre = []
  · simp [hp]
  · simp [hp]

/-- C106: a prerelease that may not be compared satisfies none of them, whatever the order says. -/
theorem C106_not_comparable (ovf : Bool) (pos : Pos) (u v : Version) (hu : ValidVersion u)
    (hv : TagOk v) (hc : ¬ Comparable u v) (op : Op) (ho : Written op) :
    ¬ ReqV ovf pos op u v := by
  rw [reqV_iff ovf pos ho hu hv]
  exact fun h => hc h.2

/-- Both cases occur. -/
example : Comparable ⟨1, 0, 0, "rc".toList, []⟩ ⟨1, 0, 0, "a".toList, []⟩ ∧
    Comparable ⟨1, 0, 0, [], []⟩ ⟨0, 9, 0, [], []⟩ ∧
    ¬ Comparable ⟨1, 0, 0, [], []⟩ ⟨1, 0, 1, "a".toList, []⟩ ∧
    ReqV true .ZERO .gt ⟨1, 0, 0, "a".toList, "b".toList⟩ ⟨1, 0, 0, "b".toList, []⟩ :=
  ⟨.inr ⟨by decide, rfl⟩, .inl rfl, by simp [Comparable], ⟨_, by rfl, by decide⟩⟩

end Verif.Props
