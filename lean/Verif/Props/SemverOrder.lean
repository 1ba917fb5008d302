import Verif.Semver.MoreLemmas

/-! # Properties C01-C04: orderings of versions -/

namespace Verif.Props
open Verif Verif.Spec Verif.Semver Verif.Spec.Semver Verif.Spec.Matching

/-- C01: `Prerelease::cmp` is a total order consistent with equality, on all strings. -/
theorem C01_prerelease_total_order : TotalOrder preCmp := preCmp_total

example : preCmp "alpha.1".toList "alpha.beta".toList = .lt ∧
    preCmp "alpha.beta".toList "".toList = .lt := by decide

/-- C02: on valid tags, "less" is SemVer 2.0.0 section 11 precedence; `[]` is the release. -/
theorem C02_prerelease_precedence (a b : List Ident) (ha : ∀ i ∈ a, i.Valid)
    (hb : ∀ i ∈ b, i.Valid) :
    (preCmp (tagText a) (tagText b) = .lt ↔ TagLt a b) ∧
    (preCmp (tagText a) (tagText b) = .gt ↔ TagLt b a) ∧
    (preCmp (tagText a) (tagText b) = .eq ↔ tagText a = tagText b) := by
  refine ⟨preCmp_tagText_lt a b ha hb, ?_, preCmp_total.eq_iff _ _⟩
  rw [preCmp_total.gt_iff]
  exact preCmp_tagText_lt b a hb ha

/-- Hypotheses are met and both sides are non-trivial: `rc.2 < rc.11`. -/
example : (∀ i ∈ [Ident.alnum "rc".toList, .num 2], i.Valid) ∧
    TagLt [.alnum "rc".toList, .num 2] [.alnum "rc".toList, .num 11] := by
  refine ⟨?_, ?_⟩
  · intro i hi
    simp only [List.mem_cons, List.mem_nil_iff, or_false] at hi
    rcases hi with rfl | rfl
    · exact ⟨by decide, 'r', by decide, by decide⟩
    · trivial
  · exact TagLt.diff (p := [.alnum "rc".toList]) (xs := []) (ys := []) (.num (by decide))

/-- C03: `BuildMetadata::cmp` is a total order consistent with equality, and "less" is the
documented order (digit identifiers by value, then by number of leading zeros). -/
theorem C03_build_total_order : TotalOrder metaCmp ∧ ∀ s t, metaCmp s t = .lt ↔ BuildTextLt s t :=
  ⟨metaCmp_total, buildTextLt_iff⟩

example : metaCmp "001".toList "2".toList = .lt ∧ metaCmp "1".toList "01".toList = .lt ∧
    metaCmp "2.a".toList "10".toList = .lt := by decide

/-- C04: `Version::cmp` is a total order consistent with equality, lexicographic in
(major, minor, patch), then prerelease, then build metadata. -/
theorem C04_version_total_order : TotalOrder versionCmp ∧
    (∀ a b : Version, versionCmp a b = .lt ↔
      TLt (triple a) (triple b) ∨ (triple a = triple b ∧
        (preCmp a.pre b.pre = .lt ∨ (a.pre = b.pre ∧ metaCmp a.build b.build = .lt)))) ∧
    (∀ a b : Version, ValidVersion a → ValidVersion b → (versionCmp a b = .lt ↔
      TLt (triple a) (triple b) ∨ (triple a = triple b ∧
        (TagTextLt a.pre b.pre ∨ (a.pre = b.pre ∧ BuildTextLt a.build b.build))))) := by
  refine ⟨versionCmp_total, versionCmp_lt, fun a b ha hb => ?_⟩
  rw [versionCmp_lt, tagTextLt_iff ha.pre hb.pre, buildTextLt_iff]

example : versionCmp ⟨1, 2, 3, "rc.1".toList, []⟩ ⟨1, 2, 3, [], []⟩ = .lt := by decide

end Verif.Props
