import Verif.Ide.CheckBuild

/-! # The source of a dependency, from its keys -/

namespace Verif.Ide
open Verif Verif.Toml Verif.TomlMap
open Verif.Spec.Toml hiding Entry KeyOk
open Verif.Spec.Check hiding Section SectionKey

variable {asts : List Ast} {path prev : List Seg} {loc : Loc} {t : MapTable} {ovf : Bool}

/-- One ignored key of a workspace dependency. -/
theorem runs_ignored (h : DepHere asts path loc t) {k : String} {a : StringAssignment} (ha : IsStr t k a)
    (kind : WarningKind) (rs : Reason) :
    Runs (emit do
        let lines ← contextLines path [a.repr.parent]
        let i ← a.repr.key.reprIdent
        let p ← joinedPath path i
        let s ← a.repr.span
        pure (.warning lines p s kind)) (fun _ => True)
      (fun rs' m => rs' = rs ∧ WarningAt path a.repr (loc ++ [.key k.toList]) kind m) := by
  obtain ⟨h1, ⟨s, hs⟩, i, hi, hk⟩ := h.str ha
  obtain ⟨ls, hls⟩ := contextLines_some h.ok (ns := [a.repr.parent]) (by simpa using h1)
  have hj : joinedPath path i = some (showLoc (loc ++ [.key k.toList])) := by
    rw [← hk]
    exact joinedPath_names h.names _
  have hm : WarningAt path a.repr (loc ++ [.key k.toList]) kind
      (.warning ls (showLoc (loc ++ [.key k.toList])) s kind) := ⟨ls, s, contextLines_spec hls, hs, rfl⟩
  refine (Runs.emit (m := .warning ls (showLoc (loc ++ [.key k.toList])) s kind)
    (by simp [hls, hi, hj, hs]) rs).congr fun rs' m => and_congr_right fun _ => ?_
  exact ⟨fun h => h ▸ hm, fun h => warningAt_unique h hm⟩

/-- Which revision of the repository. -/
theorem gitSpec_conflicting {b : DependencyBuilder} (hb : BuilderOk t b) :
    GitSpec t .conflicting ↔ b.branch.isSome.toNat + b.tag.isSome.toNat + b.rev.isSome.toNat > 1 := by
  have h1 := hasStr_iff hb.branch
  have h2 := hasStr_iff hb.tag
  have h3 := hasStr_iff hb.rev
  constructor
  · intro h
    cases h with
    | branchTag ha hb =>
      rw [h1] at ha; rw [h2] at hb
      rw [Option.isSome_iff_ne_none.2 ha, Option.isSome_iff_ne_none.2 hb]
      simp <;> omega
    | branchRev ha hb =>
      rw [h1] at ha; rw [h3] at hb
      rw [Option.isSome_iff_ne_none.2 ha, Option.isSome_iff_ne_none.2 hb]
      simp <;> omega
    | tagRev ha hb =>
      rw [h2] at ha; rw [h3] at hb
      rw [Option.isSome_iff_ne_none.2 ha, Option.isSome_iff_ne_none.2 hb]
      simp <;> omega
  · intro h
    cases hx : b.branch <;> cases hy : b.tag <;> cases hz : b.rev <;> simp [hx, hy, hz] at h
    · exact .tagRev (h2.2 (by simp [hy])) (h3.2 (by simp [hz]))
    · exact .branchRev (h1.2 (by simp [hx])) (h3.2 (by simp [hz]))
    · exact .branchTag (h1.2 (by simp [hx])) (h2.2 (by simp [hy]))
    · exact .branchTag (h1.2 (by simp [hx])) (h2.2 (by simp [hy]))

/-- The revision, with the errors about it. -/
theorem runs_gitSpec (h : DepHere asts path loc t) {b : DependencyBuilder} (hb : BuilderOk t b) :
    Runs (do
        if b.branch.isSome.toNat + b.tag.isSome.toNat + b.rev.isSome.toNat > 1 then do
          each ([b.branch, b.tag, b.rev].filterMap id) fun a => keyError path a.repr .ambigousGitSpec
          pure .conflicting
        else
          match b.branch, b.tag, b.rev with
          | some branch, _, _ => pure (.branch branch)
          | none, some tag, _ => pure (.tag tag)
          | none, none, some rev => pure (.rev rev)
          | none, none, none => pure .none : CheckM DependencyGitSpec) (GitSpec t)
      (fun r m => GitSpec t .conflicting ∧ ∃ k a, k ∈ ["branch", "tag", "rev"] ∧ IsStr t k a ∧
        KeyErrP path loc k a.repr .ambigousGitSpec r m) := by
  have h1 := hasStr_iff hb.branch
  have h2 := hasStr_iff hb.tag
  have h3 := hasStr_iff hb.rev
  have hc := gitSpec_conflicting hb
  split
  · next hn =>
    have hc := hc.2 hn
    refine (Runs.bindR (runs_keyErrors h (L := [("branch", b.branch), ("tag", b.tag), ("rev", b.rev)]) (by simp) ?_
      .ambigousGitSpec) fun _ _ => Runs.pure hc).congr fun r m => ?_
    · intro x hx
      simp only [List.mem_cons, List.not_mem_nil, or_false] at hx
      rcases hx with rfl | rfl | rfl
      · exact hb.branch
      · exact hb.tag
      · exact hb.rev
    · simp [hc]
  · next hn =>
    have hn' : ¬ GitSpec t .conflicting := fun h => hn (hc.1 h)
    have hpure : ∀ {g : DependencyGitSpec}, GitSpec t g → Runs (Pure.pure g : CheckM DependencyGitSpec) (GitSpec t)
        (fun r m => GitSpec t .conflicting ∧ ∃ k a, k ∈ ["branch", "tag", "rev"] ∧ IsStr t k a ∧
          KeyErrP path loc k a.repr .ambigousGitSpec r m) := fun hg =>
      (Runs.pure hg).congr fun r m => by simp [Never, hn']
    cases hx : b.branch <;> cases hy : b.tag <;> cases hz : b.rev <;> simp [hx, hy, hz] at hn
    · exact hpure (.none (by rw [h1, hx]; simp) (by rw [h2, hy]; simp) (by rw [h3, hz]; simp))
    · exact hpure (.rev ((hb.rev _).1 hz) (by rw [h1, hx]; simp) (by rw [h2, hy]; simp))
    · exact hpure (.tag ((hb.tag _).1 hy) (by rw [h1, hx]; simp) (by rw [h3, hz]; simp))
    · exact hpure (.branch ((hb.branch _).1 hx) (by rw [h2, hy]; simp) (by rw [h3, hz]; simp))

/-- Two errors for two keys. -/
theorem runs_two (h : DepHere asts path loc t) {k k' : String} (hkk : k ≠ k') {a a' : StringAssignment}
    (ha : IsStr t k a) (ha' : IsStr t k' a') (kind : ErrorKind) {α : Type} {x : α} {Q : α → Prop} (hx : Q x) :
    Runs (do
        keyError path a.repr kind
        keyError path a'.repr kind
        pure x) Q (fun r m => ∃ k0 b, k0 ∈ [k, k'] ∧ IsStr t k0 b ∧ KeyErrP path loc k0 b.repr kind r m) := by
  refine ((runs_keyError h ha kind).bind (fun _ _ => (runs_keyError h ha' kind).bindR fun _ _ => Runs.pure hx)
    ?_).congr fun r m => ?_
  · intro r m m' h h'
    exact hkk (keyErr_disjoint h h')
  · simp only [List.mem_cons, List.not_mem_nil, or_false]
    constructor
    · rintro (h | h)
      · exact ⟨_, _, Or.inl rfl, ha, h⟩
      · exact ⟨_, _, Or.inr rfl, ha', h⟩
    · rintro ⟨k0, b, rfl | rfl, hb, hh⟩
      · exact Or.inl (isStr_unique hb ha ▸ hh)
      · exact Or.inr (isStr_unique hb ha' ▸ hh)

theorem runs_buildSpec {e : Entry} {loc0 : Loc} {name : Str} (hh : Here asts prev loc0 name e)
    (ht : e.node = .table t) {b : DependencyBuilder} (hb : BuilderOk t b)
    (hv : ∀ v, ReadVersion e v → VersionOk ovf v) :
    Runs (buildSpec ovf b prev e) (Source ovf t) (SourceMessage ovf (loc0 ++ [.key name]) prev e t) := by
  have h : DepHere asts (.table e.reprs :: prev) (loc0 ++ [.key name]) t :=
    ⟨hh.pathIn, hh.namesIn, by simp, fun k e hg => hh.child ht hg⟩
  have hgit := hasStr_iff hb.git
  have hpath := hasStr_iff hb.path
  have hreg := hasStr_iff hb.registry
  have hver := hasStr_iff hb.version
  have hws := hasWorkspace_iff hb.workspace
  unfold buildSpec
  dsimp only
  cases hw : b.workspace with
  | some w =>
    have hf := (hb.workspace w).1 hw
    have hhas : HasWorkspace t := ⟨w, hf⟩
    dsimp only
    split
    · next hval =>
      refine ((runs_keyErrorFlag h hf .depWorkspaceIsFalse).bindR fun _ _ => Runs.pure (.invalid hf hval)).congr
        fun r m => ?_
      constructor
      · rintro ⟨rfl, hm⟩
        exact .workspaceFalse hf hval hm
      · intro hm
        cases hm with
        | workspaceFalse hf' _ hm => exact ⟨rfl, flag_unique hf' hf ▸ hm⟩
        | workspaceIgnored hf' hval' => rw [flag_unique hf' hf, hval] at hval'; cases hval'
        | _ => exact absurd hhas ‹_›
    · next hval =>
      have hval : w.val = true := by simpa using hval
      obtain ⟨-, ⟨s, hs⟩, -⟩ := h.flag hf
      rw [hs]
      refine (Runs.lift (Q := (· = s)) rfl rfl).bindL fun s' hs' => ?_
      subst hs'
      have hL : ∀ x ∈ [("version", b.version), ("registry", b.registry), ("path", b.path), ("git", b.git),
          ("branch", b.branch), ("tag", b.tag), ("rev", b.rev)], OptStr t x.1 x.2 := by
        intro x hx
        simp only [List.mem_cons, List.not_mem_nil, or_false] at hx
        rcases hx with rfl | rfl | rfl | rfl | rfl | rfl | rfl
        · exact hb.version
        · exact hb.registry
        · exact hb.path
        · exact hb.git
        · exact hb.branch
        · exact hb.tag
        · exact hb.rev
      refine (Runs.bindR (runs_keys (L := [("version", b.version), ("registry", b.registry), ("path", b.path),
        ("git", b.git), ("branch", b.branch), ("tag", b.tag), ("rev", b.rev)])
        (P := fun k a r m => r = ⟨loc0 ++ [.key name] ++ [.key k.toList], .source, 0⟩ ∧
          WarningAt (.table e.reprs :: prev) a.repr (loc0 ++ [.key name] ++ [.key k.toList])
            (.workspaceDepIgnoredKey s') m) (by simp) (fun k a hm => ?_) ?_)
        fun _ _ => Runs.pure (.workspace hf hval)).congr fun r m => ?_
      · exact runs_ignored h ((hL _ hm a).1 rfl) _ _
      · rintro k k' a a' r m m' ⟨rfl, -⟩ ⟨h', -⟩
        simp only [Reason.mk.injEq, List.append_cancel_left_eq, List.cons.injEq, PStep.key.injEq, and_true] at h'
        exact toList_inj h'
      · constructor
        · rintro ⟨k, a, hm, rfl, hwm⟩
          exact .workspaceIgnored hf hval (List.mem_map_of_mem (f := Prod.fst) hm) ((hL _ hm a).1 rfl) hs hwm
        · intro hm
          cases hm with
          | workspaceFalse hf' hval' _ => rw [flag_unique hf' hf, hval] at hval'; cases hval'
          | workspaceIgnored hf' _ hk hstr hs2 hm =>
            rw [flag_unique hf' hf, hs] at hs2
            cases hs2
            obtain ⟨⟨k', o⟩, hmem, rfl⟩ := List.mem_map.1 (show _ ∈ List.map Prod.fst [("version", b.version),
              ("registry", b.registry), ("path", b.path), ("git", b.git), ("branch", b.branch), ("tag", b.tag),
              ("rev", b.rev)] from hk)
            have := (hL _ hmem _).2 hstr
            dsimp only at this
            subst this
            exact ⟨k', _, hmem, rfl, hm⟩
          | _ => exact absurd hhas ‹_›
  | none =>
    have hno : ¬ HasWorkspace t := by rw [hws, hw]; simp
    dsimp only
    cases hg : b.git with
    | none =>
      have hnogit : ¬ HasStr t "git" := by rw [hgit, hg]; simp
      simp only [Option.isNone_none, if_true]
      refine Runs.congr (Runs.bind (Q := fun _ => True) (S := Source ovf t) (P' := fun r m =>
        (∃ a er, IsStr t "version" a ∧ r = ⟨loc0 ++ [.key name] ++ [.key "version".toList], .version, 0⟩ ∧
          VersionError ovf a.val er ∧ m = .semver er) ∨
        (¬ HasStr t "path" ∧ ¬ HasStr t "version" ∧
          Warnings prev e (loc0 ++ [.key name]) (loc0 ++ [.key name]) .missing .missingDepSpec r m))
        (runs_ignoredGit h hb) (fun _ _ => ?_) ?_) fun r m => ?_
      · cases hp : b.path with
        | some p =>
          refine ((runs_versionOpt hb.version (fun a ha => hv _ (.table ht hno (fun h => hnogit h.1) ha))
            ⟨loc0 ++ [.key name] ++ [.key "version".toList], .version, 0⟩).bindR fun v hv => Runs.pure
            (.path hno hnogit ((hb.path p).1 hp) hv hb.registry)).congr fun r m => ?_
          have : HasStr t "path" := ⟨p, (hb.path p).1 hp⟩
          simp [this]
        | none =>
          have hnopath : ¬ HasStr t "path" := by rw [hpath, hp]; simp
          dsimp only
          cases hver' : b.version with
          | some v =>
            have hsv := (hb.version v).1 hver'
            refine ((runs_version (hv _ (.table ht hno (fun h => hnogit h.1) hsv))
              ⟨loc0 ++ [.key name] ++ [.key "version".toList], .version, 0⟩).bindR fun w hw => Runs.pure
              (.registry hno hnogit hnopath (hw.1 ▸ hsv) hw.2 hb.registry)).congr fun r m => ?_
            have : HasStr t "version" := ⟨v, hsv⟩
            constructor
            · rintro ⟨er, h1, h2⟩
              exact Or.inl ⟨v, er, hsv, h1, h2⟩
            · rintro (⟨a, er, ha, h1, h2⟩ | ⟨-, h1, -⟩)
              · cases isStr_unique ha hsv
                exact ⟨er, h1, h2⟩
              · exact absurd this h1
          | none =>
            have hnover : ¬ HasStr t "version" := by rw [hver, hver']; simp
            refine ((runs_warnings hh (loc0 ++ [.key name]) .missing .missingDepSpec).bindR fun _ _ => Runs.pure
              (.missing hno hnogit hnopath hnover hb.registry)).congr fun r m => ?_
            constructor
            · exact fun h => Or.inr ⟨hnopath, hnover, h⟩
            · rintro (⟨a, er, ha, -⟩ | ⟨-, -, h⟩)
              · exact absurd ⟨a, ha⟩ hnover
              · exact h
      · rintro r m m' ⟨k, a, -, -, rfl, -⟩ (⟨_, _, -, h', -⟩ | ⟨-, -, _, _, -, h', -⟩) <;> simp at h'
      · constructor
        · rintro (⟨k, a, hk, ha, rfl, hm⟩ | ⟨a, er, ha, rfl, hm, rfl⟩ | ⟨h1, h2, i, r, hr, rfl, hm⟩)
          · exact .withoutGit hno hnogit hk ha hm
          · exact .version hno (fun h => hnogit h.1) ha hm
          · exact .missing hno hnogit h1 h2 hr hm
        · intro hm
          cases hm with
          | workspaceFalse h1 => exact absurd ⟨_, h1⟩ hno
          | workspaceIgnored h1 => exact absurd ⟨_, h1⟩ hno
          | withoutGit _ _ hk ha hm => exact Or.inl ⟨_, _, hk, ha, rfl, hm⟩
          | version _ _ ha hm => exact Or.inr (Or.inl ⟨_, _, ha, rfl, hm, rfl⟩)
          | missing _ _ h1 h2 hr hm => exact Or.inr (Or.inr ⟨h1, h2, _, _, hr, rfl, hm⟩)
          | _ => exact absurd ‹HasStr t "git"› hnogit
    | some g =>
      have hsg := (hb.git g).1 hg
      have hasgit : HasStr t "git" := ⟨g, hsg⟩
      simp only [Option.isNone_some, Bool.false_eq_true, if_false]
      cases hr : b.registry with
      | some r =>
        have hsr := (hb.registry r).1 hr
        have hasreg : HasStr t "registry" := ⟨r, hsr⟩
        refine (runs_two h (by decide) hsg hsr .ambigousDepSpecGitRegistry (.gitRegistry hno hasgit hasreg)).congr
          fun rs m => ?_
        constructor
        · rintro ⟨k, a, hk, ha, rfl, hm⟩
          exact .gitRegistry hno hasgit hasreg hk ha hm
        · intro hm
          cases hm with
          | workspaceFalse h1 => exact absurd ⟨_, h1⟩ hno
          | workspaceIgnored h1 => exact absurd ⟨_, h1⟩ hno
          | gitRegistry _ _ _ hk ha hm => exact ⟨_, _, hk, ha, rfl, hm⟩
          | version _ hn => exact absurd ⟨hasgit, Or.inr hasreg⟩ hn
          | _ => contradiction
      | none =>
        have noreg : ¬ HasStr t "registry" := by rw [hreg, hr]; simp
        cases hp : b.path with
        | some p =>
          have hsp := (hb.path p).1 hp
          have haspath : HasStr t "path" := ⟨p, hsp⟩
          refine (runs_two h (by decide) hsg hsp .ambigousDepSpecGitRegistry (.gitPath hno hasgit haspath)).congr
            fun rs m => ?_
          constructor
          · rintro ⟨k, a, hk, ha, rfl, hm⟩
            exact .gitPath hno hasgit haspath noreg hk ha hm
          · intro hm
            cases hm with
            | workspaceFalse h1 => exact absurd ⟨_, h1⟩ hno
            | workspaceIgnored h1 => exact absurd ⟨_, h1⟩ hno
            | gitPath _ _ _ _ hk ha hm => exact ⟨_, _, hk, ha, rfl, hm⟩
            | version _ hn => exact absurd ⟨hasgit, Or.inl haspath⟩ hn
            | _ => contradiction
        | none =>
          have nopath : ¬ HasStr t "path" := by rw [hpath, hp]; simp
          refine (Runs.bind (runs_gitSpec h hb) (fun spec hspec => (runs_versionOpt hb.version
            (fun a ha => hv _ (.table ht hno (by rintro ⟨-, h | h⟩ <;> contradiction) ha))
            ⟨loc0 ++ [.key name] ++ [.key "version".toList], .version, 0⟩).bindR fun v hv =>
            Runs.pure (.git hno hsg nopath noreg hspec hv)) ?_).congr fun rs m => ?_
          · rintro r m m' ⟨-, _, _, -, -, rfl, -⟩ ⟨_, _, -, h', -⟩
            simp at h'
          · constructor
            · rintro (⟨hc, k, a, hk, ha, rfl, hm⟩ | ⟨a, er, ha, rfl, hm, rfl⟩)
              · exact .gitSpec hno hasgit nopath noreg hc hk ha hm
              · exact .version hno (by rintro ⟨-, h | h⟩ <;> contradiction) ha hm
            · intro hm
              cases hm with
              | workspaceFalse h1 => exact absurd ⟨_, h1⟩ hno
              | workspaceIgnored h1 => exact absurd ⟨_, h1⟩ hno
              | gitSpec _ _ _ _ hc hk ha hm => exact Or.inl ⟨hc, _, _, hk, ha, rfl, hm⟩
              | version _ _ ha hm => exact Or.inr ⟨_, _, ha, rfl, hm, rfl⟩
              | _ => contradiction

end Verif.Ide
