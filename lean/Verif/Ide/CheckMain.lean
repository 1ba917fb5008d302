import Verif.Ide.CheckTop

/-! # The check of a manifest -/

namespace Verif.Ide
open Verif Verif.Toml Verif.TomlMap
open Verif.Spec.Toml hiding Entry KeyOk
open Verif.Spec.Check hiding Section SectionKey

variable {asts : List Ast} {root : MapTable} {ovf : Bool}

/-- The location of `target`. -/
abbrev targetLoc : Loc := [.key "target".toList]

/-- The diagnostics of one key of the manifest. -/
def RootP (ovf : Bool) (root : MapTable) (k : Str) (e : Entry) : Pred := fun rs m =>
  OwnP ovf [] [] root k e rs m ∨
  (k = "target".toList ∧ (TypeP [] e targetLoc .table rs m ∨ ∃ tt, e.node = .table tt ∧ ∃ x e',
    TomlMap.get tt x = some e' ∧ TargetEntryP ovf [.table e.reprs] targetLoc x e' rs m)) ∨
  (k ∉ manifestKeys.map String.toList ∧ Warnings [] e [.key k] [.key k] .unknown .ignoredUnknownKey rs m)

/-- The dependencies of one key of the manifest. -/
def RootD (ovf : Bool) (root : MapTable) (k : Str) (e : Entry) (l : Loc) (d : Dependency) : Prop :=
  OwnD ovf [] root none k e l d ∨
  (k = "target".toList ∧ ∃ tt, e.node = .table tt ∧ ∃ x e', TomlMap.get tt x = some e' ∧
    TargetEntryD ovf targetLoc x e' l d)

theorem rootP_loc {k : Str} {e : Entry} {rs : Reason} {m : Msg} (h : RootP ovf root k e rs m) :
    ∃ rest, rs.loc = [] ++ [.key k] ++ rest := by
  rcases h with h | ⟨rfl, ⟨_, _, _, -, -, rfl, -⟩ | ⟨_, -, x, e', -, hm⟩⟩ | ⟨-, _, _, -, rfl, -⟩
  · exact ownP_loc h
  · exact ⟨[], rfl⟩
  · obtain ⟨rest, hr⟩ := targetEntryP_loc hm
    exact ⟨_, by rw [hr, List.append_assoc]; rfl⟩
  · exact ⟨[], rfl⟩

theorem rootD_loc {k : Str} {e : Entry} {l : Loc} {d : Dependency} (h : RootD ovf root k e l d) :
    ∃ rest, l = [] ++ [.key k] ++ rest := by
  rcases h with h | ⟨rfl, _, -, x, e', -, hm⟩
  · exact ownD_loc h
  · obtain ⟨rest, hr⟩ := targetEntryD_loc hm
    exact ⟨_, by rw [hr, List.append_assoc]; rfl⟩

/-- All versions of the manifest. -/
structure Versions (ovf : Bool) (root : MapTable) : Prop where
  own : OwnVersions ovf root
  target : ∀ e tt x e' t, TomlMap.get root "target".toList = some e → e.node = .table tt →
    TomlMap.get tt x = some e' → e'.node = .table t → OwnVersions ovf t

theorem skipped_names : skippedKeys = ["package", "lib", "bin", "example", "test", "bench", "badges", "features", "lints",
    "patch", "replace", "profile", "workspace"].map String.toList := rfl

theorem skipped_not {k : Str} (h : k ∈ skippedKeys) : k ∉ sectionNames.map String.toList ∧ k ≠ "target".toList ∧
    k ∈ manifestKeys.map String.toList := by
  have : ∀ k ∈ skippedKeys, k ∉ sectionNames.map String.toList ∧ k ≠ "target".toList ∧
    k ∈ manifestKeys.map String.toList := by decide
  exact this k h

theorem manifest_cases {k : Str} (h : k ∈ manifestKeys.map String.toList) :
    k ∈ skippedKeys ∨ k = "target".toList ∨ k ∈ sectionNames.map String.toList := by
  have : ∀ k ∈ manifestKeys.map String.toList, k ∈ skippedKeys ∨ k = "target".toList ∨
      k ∈ sectionNames.map String.toList := by decide
  exact this k h

theorem section_manifest {k : Str} (h : k ∈ sectionNames.map String.toList) :
    k ∈ manifestKeys.map String.toList ∧ k ≠ "target".toList := by
  have : ∀ k ∈ sectionNames.map String.toList, k ∈ manifestKeys.map String.toList ∧ k ≠ "target".toList := by decide
  exact this k h

theorem here_root (h : MapOk asts root) {k : Str} {e : Entry} (hg : TomlMap.get root k = some e) :
    Here asts [] [] k e := ⟨trivial, .nil, NodeOk.entry h hg⟩

theorem runs_check (h : MapOk asts root) (hv : Versions ovf root) :
    Runs (check ovf root)
      (fun ds => ExactlyOnce ds fun l d => ∃ k e, TomlMap.get root k = some e ∧ RootD ovf root k e l d)
      (fun rs m => ∃ k e, TomlMap.get root k = some e ∧ RootP ovf root k e rs m) := by
  have hn : (root.map (·.1)).Nodup := by
    cases h with
    | table h1 => exact h1
  have hh : ∀ k e, TomlMap.get root k = some e → Here asts [] [] k e := fun k e hg => here_root h hg
  unfold check
  refine (Runs.collect (D := fun k e => RootD ovf root k e) (P := fun k e => RootP ovf root k e) hn []
    (fun s k e hg => ?_) ?_ ?_).mono ?_
  · dsimp only
    split
    · next hk =>
      obtain ⟨h1, h2, h3⟩ := skipped_not hk
      refine (Runs.pure (appends_nil ?_)).congr fun rs m => ⟨False.elim, ?_⟩
      · rintro l d (hd | ⟨hd, -⟩)
        · exact h1 (ownD_name hd)
        · exact h2 hd
      · rintro (hm | ⟨hm, -⟩ | ⟨hm, -⟩)
        · exact h1 (ownP_name hm)
        · exact h2 hm
        · exact hm h3
    · next hk =>
      cases hl : sectionKeys.lookup k with
      | some key =>
        have hs := List.mem_map_of_mem (f := Prod.fst) (lookup_some hl)
        rw [section_names] at hs
        obtain ⟨h1, h2⟩ := section_manifest hs
        refine Runs.mono (Runs.congr (runs_sectionStep hl hg hh hv.own s none) fun rs m => ⟨Or.inl, ?_⟩) ?_
        · rintro (hm | ⟨hm, -⟩ | ⟨hm, -⟩)
          · exact hm
          · exact absurd hm h2
          · exact absurd h1 hm
        · rintro s' ⟨as, rfl, has⟩
          refine ⟨as, rfl, has.congr fun l d => ⟨Or.inl, ?_⟩⟩
          rintro (hd | ⟨hd, -⟩)
          · exact hd
          · exact absurd hd h2
      | none =>
        have hs := lookup_none hl
        rw [section_names] at hs
        dsimp only
        split
        · next ht =>
          subst ht
          have he := hh _ _ hg
          refine Runs.mono (Runs.congr (runs_withTable he
            (D := fun tt l d => ∃ x e', TomlMap.get tt x = some e' ∧ TargetEntryD ovf targetLoc x e' l d)
            (P := fun tt rs m => ∃ x e', TomlMap.get tt x = some e' ∧
              TargetEntryP ovf [.table e.reprs] targetLoc x e' rs m)
            (fun tt htt => runs_parseTarget (he.nodup htt) (fun x e' hg' => he.child htt hg')
              (fun x e' t hg' ht' => hv.target e tt x e' t hg htt hg' ht') s) ?_) fun rs m => ?_) ?_
          · rintro tt rs m ⟨x, e', -, hm⟩
            obtain ⟨rest, hr⟩ := targetEntryP_loc hm
            exact ⟨x, rest, hr⟩
          · constructor
            · intro hm
              exact Or.inr (Or.inl ⟨rfl, hm⟩)
            · rintro (hm | ⟨-, hm⟩ | ⟨hm, -⟩)
              · exact absurd (ownP_name hm) hs
              · exact hm
              · exact absurd (List.mem_map_of_mem (by simp [manifestKeys])) hm
          · rintro s' ⟨as, rfl, has⟩
            refine ⟨as, rfl, has.congr fun l d => ?_⟩
            constructor
            · intro hd
              exact Or.inr ⟨rfl, hd⟩
            · rintro (hd | ⟨-, hd⟩)
              · exact absurd (ownD_name hd) hs
              · exact hd
        · next ht =>
          have hno : k ∉ manifestKeys.map String.toList := fun h => by
            rcases manifest_cases h with h | h | h
            · exact hk h
            · exact ht h
            · exact hs h
          refine ((runs_warnUnused (hh k e hg)).bindR fun _ _ => Runs.pure (appends_nil ?_)).congr fun rs m => ?_
          · rintro l d (hd | ⟨hd, -⟩)
            · exact hs (ownD_name hd)
            · exact ht hd
          · refine ⟨fun hm => Or.inr (Or.inr ⟨hno, hm⟩), ?_⟩
            rintro (hm | ⟨hm, -⟩ | ⟨-, hm⟩)
            · exact absurd (ownP_name hm) hs
            · exact absurd hm ht
            · exact hm
  · intro k k' e e' l d d' h1 h2
    obtain ⟨r1, h1⟩ := rootD_loc h1
    obtain ⟨r2, h2⟩ := rootD_loc h2
    rw [h1] at h2
    exact key_step h2
  · intro k k' e e' r m m' h1 h2
    obtain ⟨r1, h1⟩ := rootP_loc h1
    obtain ⟨r2, h2⟩ := rootP_loc h2
    rw [h1] at h2
    exact key_step h2
  · rintro ds ⟨as, rfl, has⟩
    simpa using has

/-! ## The specification -/

theorem own_dep {loc : Loc} {path : List Seg} {target : Option Str} {t : MapTable}
    (ho : Owner root loc path target t) {l : Loc} {d : Dependency} {k : Str} {e : Entry}
    (hg : TomlMap.get t k = some e) (h : OwnD ovf loc t target k e l d) : IsDependency ovf root l d := by
  obtain ⟨key, kind, rfl, hk, s, name, e', hs, hg', rfl, h1, h2, h3, h4, h5⟩ := h
  subst h1 h2 h3 h4
  exact ⟨⟨_, .mk (.mk ho hk hg) hs hg'⟩, h5⟩

theorem isDependency_iff (l : Loc) (d : Dependency) :
    (∃ k e, TomlMap.get root k = some e ∧ RootD ovf root k e l d) ↔ IsDependency ovf root l d := by
  constructor
  · rintro ⟨k, e, hg, h | ⟨rfl, tt, htt, x, e', hg', t, k, e2, ht, hg2, h⟩⟩
    · exact own_dep .root hg h
    · exact own_dep (.target hg htt hg' ht) hg2 h
  · rintro ⟨⟨path, hd⟩, hdes⟩
    obtain ⟨n0, p0, k0, t0, s0, f0, o0, e0⟩ := d
    dsimp only at hd hdes
    cases hd with
    | mk hsec hnode hget =>
      cases hsec with
      | mk ho hk hg =>
        cases ho with
        | root =>
          exact ⟨_, _, hg, Or.inl ⟨_, _, rfl, hk, _, _, _, hnode, hget, rfl, rfl, rfl, by simp_all, rfl, hdes⟩⟩
        | target h1 h2 h3 h4 =>
          exact ⟨_, _, h1, Or.inr ⟨rfl, _, h2, _, _, h3, _, _, _, h4, hg, _, _, rfl, hk, _, _, _, hnode, hget, rfl, rfl,
            rfl, by simp_all, rfl, hdes⟩⟩

theorem own_message {loc : Loc} {path : List Seg} {target : Option Str} {t : MapTable}
    (ho : Owner root loc path target t) {rs : Reason} {m : Msg} {k : Str} {e : Entry}
    (hg : TomlMap.get t k = some e) (h : OwnP ovf path loc t k e rs m) : Message ovf root rs m := by
  rcases h with ⟨on, hon, rfl, kind, i, r, hu, hr, rfl, hm⟩ | ⟨key, kind, rfl, hk, h⟩
  · exact .deprecated ho hon hg hu hr hm
  · rcases h with ⟨found, i, r, hw, hr, rfl, hm⟩ | ⟨s, name, e', hs, hg', hm⟩
    · exact .sectionType (.mk ho hk hg) hw hr hm
    · exact .entry (.mk (.mk ho hk hg) hs hg') hm

theorem owner_rootP {loc : Loc} {path : List Seg} {target : Option Str} {t : MapTable}
    (ho : Owner root loc path target t) {rs : Reason} {m : Msg} {k : Str} {e : Entry}
    (hg : TomlMap.get t k = some e) (h : OwnP ovf path loc t k e rs m) :
    ∃ k e, TomlMap.get root k = some e ∧ RootP ovf root k e rs m := by
  cases ho with
  | root => exact ⟨k, e, hg, Or.inl h⟩
  | target h1 h2 h3 h4 =>
    exact ⟨_, _, h1, Or.inr (Or.inl ⟨rfl, Or.inr ⟨_, h2, _, _, h3, Or.inr ⟨_, _, _, h4, hg, Or.inl h⟩⟩⟩)⟩

theorem message_iff (rs : Reason) (m : Msg) :
    (∃ k e, TomlMap.get root k = some e ∧ RootP ovf root k e rs m) ↔ Message ovf root rs m := by
  constructor
  · rintro ⟨k, e, hg, h | ⟨rfl, ⟨found, i, r, hw, hr, rfl, hm⟩ | ⟨tt, htt, x, e', hg', hte⟩⟩ |
      ⟨hk, i, r, hr, rfl, hm⟩⟩
    · exact own_message .root hg h
    · exact .targetType hg hw hr hm
    · rcases hte with ⟨found, i, r, hw, hr, rfl, hm⟩ | ⟨t, k, e2, ht, hg2, htp⟩
      · exact .targetEntryType hg htt hg' hw hr hm
      · rcases htp with h | ⟨hk, i, r, hr, rfl, hm⟩
        · exact own_message (.target hg htt hg' ht) hg2 h
        · exact .unknownTarget (.target hg htt hg' ht) hg2 hk hr hm
    · exact .unknown hg hk hr hm
  · intro h
    cases h with
    | unknown hg hk hr hm => exact ⟨_, _, hg, Or.inr (Or.inr ⟨hk, _, _, hr, rfl, hm⟩)⟩
    | unknownTarget ho hg hk hr hm =>
      cases ho with
      | target h1 h2 h3 h4 =>
        exact ⟨_, _, h1, Or.inr (Or.inl ⟨rfl, Or.inr ⟨_, h2, _, _, h3, Or.inr ⟨_, _, _, h4, hg,
          Or.inr ⟨hk, _, _, hr, rfl, hm⟩⟩⟩⟩)⟩
    | targetType hg hw hr hm => exact ⟨_, _, hg, Or.inr (Or.inl ⟨rfl, Or.inl ⟨_, _, _, hw, hr, rfl, hm⟩⟩)⟩
    | targetEntryType hg htt hg' hw hr hm =>
      exact ⟨_, _, hg, Or.inr (Or.inl ⟨rfl, Or.inr ⟨_, htt, _, _, hg', Or.inl ⟨_, _, _, hw, hr, rfl, hm⟩⟩⟩)⟩
    | deprecated ho hon hg hu hr hm => exact owner_rootP ho hg (Or.inl ⟨_, hon, rfl, _, _, _, hu, hr, rfl, hm⟩)
    | sectionType hs hw hr hm =>
      cases hs with
      | mk ho hk hg => exact owner_rootP ho hg (Or.inr ⟨_, _, rfl, hk, Or.inl ⟨_, _, _, hw, hr, rfl, hm⟩⟩)
    | entry hd hm =>
      cases hd with
      | mk hs hn hg' =>
        cases hs with
        | mk ho hk hg => exact owner_rootP ho hg (Or.inr ⟨_, _, rfl, hk, Or.inr ⟨_, _, _, hn, hg', hm⟩⟩)

/-- The check finds each dependency once, and makes each diagnostic once. -/
theorem check_spec (h : MapOk asts root) (hv : Versions ovf root) :
    ∃ ds ms, check ovf root = some (ds, ms) ∧ ExactlyOnce ds (IsDependency ovf root) ∧
      ExactlyOnce ms (Message ovf root) := by
  obtain ⟨ds, ms, h1, h2, h3⟩ := runs_check h hv
  exact ⟨ds, ms, h1, h2.congr isDependency_iff, h3.congr message_iff⟩

end Verif.Ide
