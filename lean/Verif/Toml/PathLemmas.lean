import Verif.Spec.Paths
import Verif.Toml.MapShape
import Verif.Common.Sort

/-! # The path and the context lines of a diagnostic are the specified ones -/

namespace Verif.TomlMap
open Verif Verif.Toml Verif.Spec.Toml

/-! ## Paths -/

theorem bare_iff (c : Char) : (isAlpha c || isDigit c || c == '_' || c == '-') = true ↔ BareChar c := by
  simp [BareChar, isAlpha, isDigit, or_assoc]

theorem fmtSegment_eq (k : Str) : fmtSegment k = showName k := by
  unfold fmtSegment showName
  by_cases h : k = []
  · subst h
    rw [if_pos rfl, if_neg (by simp [PlainName])]
    rfl
  · rw [if_neg h]
    by_cases hp : PlainName k
    · rw [if_pos hp, if_neg]
      simp only [List.any_eq_true, not_exists, not_and]
      intro c hc
      rw [(bare_iff c).2 (hp.2 c hc)]
      simp
    · rw [if_neg hp, if_pos]
      · simp [Diag.fmtStr, List.flatMap]
      · rw [List.any_eq_true]
        by_cases hh : ∃ c ∈ k, ¬ BareChar c
        · obtain ⟨c, hc, hb⟩ := hh
          refine ⟨c, hc, ?_⟩
          rw [Bool.eq_false_iff.2 (fun hx => hb ((bare_iff c).1 hx))]
          rfl
        · exact absurd ⟨h, fun c hc => Classical.byContradiction fun hb => hh ⟨c, hc, hb⟩⟩ hp

/-- The segments of the path are for the steps of the location. -/
inductive Names : List Seg → Loc → Prop
  | nil : Names [] []
  | table {rs path loc k} : firstText rs = some k → Names path loc →
      Names (.table rs :: path) (loc ++ [.key k])
  | array {i path loc} : path ≠ [] → Names path loc → Names (.array i :: path) (loc ++ [.idx i])

theorem Names.loc_ne {path : List Seg} {loc : Loc} (h : Names path loc) (hp : path ≠ []) : loc ≠ [] := by
  cases h with
  | nil => exact absurd rfl hp
  | table => simp
  | array => simp

theorem showLoc_snoc {loc : Loc} (h : loc ≠ []) (s : PStep) : showLoc (loc ++ [s]) = showLoc loc ++ showStep s := by
  cases loc with
  | nil => exact absurd rfl h
  | cons a p =>
    cases a <;> simp [showLoc, List.flatMap_append]

theorem fmtPath_names {path : List Seg} {loc : Loc} (h : Names path loc) (hp : path ≠ []) :
    fmtPath path = some (showLoc loc) := by
  induction h with
  | nil => exact absurd rfl hp
  | @table rs path loc k hk hn ih =>
    cases path with
    | nil =>
      cases hn
      simp only [fmtPath, hk, fmtSegment_eq]
      simp [showLoc]
    | cons s p =>
      rw [showLoc_snoc (hn.loc_ne (by simp))]
      simp only [fmtPath, hk, ih (by simp), fmtSegment_eq]
      rfl
  | @array i path loc hne hn ih =>
    cases path with
    | nil => exact absurd rfl hne
    | cons s p =>
      rw [showLoc_snoc (hn.loc_ne (by simp))]
      simp only [fmtPath, ih (by simp)]
      simp [showStep]

theorem joinedPath_names {path : List Seg} {loc : Loc} (h : Names path loc) (i : Ident) :
    joinedPath path i = some (showLoc (loc ++ [.key i.text])) := by
  cases path with
  | nil =>
    cases h
    simp [joinedPath, fmtSegment_eq, showLoc]
  | cons s p =>
    rw [showLoc_snoc (h.loc_ne (by simp))]
    simp only [joinedPath, fmtPath_names h (by simp), fmtSegment_eq]
    rfl

/-! ## Lines -/

theorem dedup_mem (l : List Nat) (x : Nat) : x ∈ dedup l ↔ x ∈ l := by
  induction l using dedup.induct with
  | case1 => simp [dedup]
  | case2 a => simp [dedup]
  | case3 a l ih => rw [dedup, if_pos rfl, ih]; simp
  | case4 a b l hab ih => rw [dedup, if_neg hab, List.mem_cons, ih]; simp

theorem dedup_sorted {l : List Nat} (h : l.Pairwise (· ≤ ·)) : (dedup l).Pairwise (· < ·) := by
  induction l using dedup.induct with
  | case1 => simp [dedup]
  | case2 a => simp [dedup]
  | case3 a l ih => rw [dedup, if_pos rfl]; exact ih (List.pairwise_cons.1 h).2
  | case4 a b l hab ih =>
    rw [dedup, if_neg hab]
    have h1 := List.pairwise_cons.1 h
    refine List.pairwise_cons.2 ⟨fun x hx => ?_, ih h1.2⟩
    rw [dedup_mem] at hx
    have h2 := List.pairwise_cons.1 h1.2
    have hab' := h1.1 b List.mem_cons_self
    rcases List.mem_cons.1 hx with rfl | hx
    · omega
    · have := h2.1 x hx
      omega

theorem natPreorder : Spec.Preorder (compare : Nat → Nat → Ordering) where
  swap a b := by rw [Nat.compare_swap]
  trans a b c h1 h2 := by
    rw [Nat.compare_ne_gt] at *
    omega

theorem collectLines_mem {path : List Seg} {n : Nat} {ls : List Nat} (h : collectLines path n = some ls)
    (l : Nat) : l ∈ ls ↔ ∃ q, Encloses path n q ∧ OnLine q l := by
  induction path generalizing n ls with
  | nil =>
    simp only [collectLines, Option.some.injEq] at h
    subst h
    simp only [List.not_mem_nil, false_iff]
    rintro ⟨q, hq, -⟩
    cases hq
  | cons s p ih =>
    cases s with
    | table rs =>
      simp only [collectLines, Option.bind_eq_bind, Option.bind_eq_some_iff, Option.pure_def,
        Option.some.injEq] at h
      obtain ⟨r, hr, i, hi, ls', hls, rfl⟩ := h
      rw [List.mem_cons, ih hls]
      constructor
      · rintro (rfl | ⟨q, hq, hl⟩)
        · exact ⟨r, .here hr, i, hi, rfl⟩
        · exact ⟨q, .up hr hq, hl⟩
      · rintro ⟨q, hq, hl⟩
        cases hq with
        | here hq =>
          rw [hr] at hq
          cases hq
          obtain ⟨j, hj, rfl⟩ := hl
          rw [hi] at hj
          cases hj
          exact Or.inl rfl
        | up hq hq' =>
          rw [hr] at hq
          cases hq
          exact Or.inr ⟨q, hq', hl⟩
    | array i =>
      rw [ih h]
      constructor
      · rintro ⟨q, hq, hl⟩
        exact ⟨q, .skip hq, hl⟩
      · rintro ⟨q, hq, hl⟩
        cases hq with
        | skip hq => exact ⟨q, hq, hl⟩

theorem mapM_mem {path : List Seg} {ns : List Nat} {lss : List (List Nat)}
    (h : ns.mapM (collectLines path) = some lss) (l : Nat) :
    l ∈ lss.flatten ↔ ∃ n ∈ ns, ∃ q, Encloses path n q ∧ OnLine q l := by
  induction ns generalizing lss with
  | nil =>
    simp only [List.mapM_nil, Option.pure_def, Option.some.injEq] at h
    subst h
    simp
  | cons n ns ih =>
    simp only [List.mapM_cons, Option.bind_eq_bind, Option.bind_eq_some_iff, Option.pure_def,
      Option.some.injEq] at h
    obtain ⟨ls, hls, lss', hlss, rfl⟩ := h
    rw [List.flatten_cons, List.mem_append, ih hlss, collectLines_mem hls]
    simp

theorem contextLines_spec {path : List Seg} {ns ls : List Nat} (h : contextLines path ns = some ls) :
    ContextLines path ns ls := by
  unfold contextLines at h
  cases path with
  | nil =>
    simp only [Option.some.injEq] at h
    subst h
    refine ⟨.nil, fun l => ?_⟩
    simp only [List.not_mem_nil, false_iff]
    rintro ⟨n, -, q, hq, -⟩
    cases hq
  | cons s p =>
    simp only [Option.bind_eq_bind, Option.bind_eq_some_iff, Option.pure_def, Option.some.injEq] at h
    obtain ⟨lss, hlss, rfl⟩ := h
    have hs := sortBy_stableSorted natPreorder lss.flatten
    refine ⟨dedup_sorted ?_, fun l => ?_⟩
    · refine hs.sorted.imp ?_
      intro a b hab
      exact Nat.compare_ne_gt.1 hab
    · rw [dedup_mem, hs.perm.mem_iff, mapM_mem hlss]

/-- The lines are determined. -/
theorem contextLines_unique {path : List Seg} {ns ls ls' : List Nat} (h : ContextLines path ns ls)
    (h' : ContextLines path ns ls') : ls = ls' := by
  have hm : ∀ l, l ∈ ls ↔ l ∈ ls' := fun l => (h.2 l).trans (h'.2 l).symm
  have n1 : ls.Nodup := h.1.imp (fun h => Nat.ne_of_lt h)
  have n2 : ls'.Nodup := h'.1.imp (fun h => Nat.ne_of_lt h)
  exact ((List.perm_ext_iff_of_nodup n1 n2).2 hm).eq_of_pairwise
    (fun a b _ _ h1 h2 => absurd h1 (Nat.not_lt.2 (Nat.le_of_lt h2))) h.1 h'.1

end Verif.TomlMap
