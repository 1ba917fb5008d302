import Verif.Ide.CheckTotal

/-! # A version requirement that panics makes the check panic -/

namespace Verif.Ide
open Verif Verif.Toml Verif.TomlMap
open Verif.Spec.Toml hiding Entry KeyOk
open Verif.Spec.Check hiding Section SectionKey

variable {asts : List Ast} {root t : MapTable} {ovf : Bool} {α β : Type}

/-- The computation panics. -/
abbrev Fails (x : CheckM α) : Prop := x = (none : Option (α × List Msg))

theorem Fails.bind {x : CheckM α} {f : α → CheckM β} (h : ∀ a ms, x = some (a, ms) → Fails (f a)) : Fails (x >>= f) := by
  show CheckM.bind x f = none
  cases x with
  | none => rfl
  | some p =>
    obtain ⟨a, es⟩ := p
    have := h a es rfl
    simp only [CheckM.bind, this]
    rfl

theorem Fails.left {x : CheckM α} (f : α → CheckM β) (h : Fails x) : Fails (x >>= f) := by
  cases h; rfl

theorem Fails.loop {f : β → α → CheckM β} {a : α} (hf : ∀ b, Fails (f b a)) :
    ∀ {l : List α} (b : β), a ∈ l → Fails (Verif.Ide.loop l b f)
  | x :: l, b, h => by
    rcases List.mem_cons.1 h with rfl | h
    · exact Fails.left _ (hf b)
    · exact Fails.bind fun b' _ _ => Fails.loop hf b' h

theorem fails_version {a : StringAssignment} (h : ∀ pos, Semver.parseRequirement ovf a.val.text pos = .panic) :
    Fails (parseVersionReq ovf a) := by
  refine Fails.bind fun s _ _ => ?_
  rw [h]

theorem fails_buildSpec {b : DependencyBuilder} {prev : List Seg} {e : Entry} (hb : BuilderOk t b)
    {a : StringAssignment} (hw : ¬ HasWorkspace t)
    (hg : ¬ (HasStr t "git" ∧ (HasStr t "path" ∨ HasStr t "registry"))) (ha : IsStr t "version" a)
    (h : ∀ pos, Semver.parseRequirement ovf a.val.text pos = .panic) : Fails (buildSpec ovf b prev e) := by
  have hv : b.version = some a := (hb.version a).2 ha
  have hf := fails_version h
  have hopt : Fails (parseVersionOpt ovf (some a)) := Fails.left _ hf
  rw [hasWorkspace_iff hb.workspace] at hw
  rw [hasStr_iff hb.git, hasStr_iff hb.path, hasStr_iff hb.registry] at hg
  have hw : b.workspace = none := Classical.byContradiction hw
  unfold buildSpec
  dsimp only
  rw [hw, hv]
  have hbody : ∀ {x : CheckM DependencySpec} {c : Prop} [Decidable c] {z : CheckM Unit}, Fails x →
      Fails (if c then (do z; x) else x) := by
    intro x c _ z h
    split
    · exact .bind fun _ _ _ => h
    · exact h
  refine hbody ?_
  cases h1 : b.git with
  | some g =>
    have hp : b.path = none := Classical.byContradiction fun h => hg ⟨by simp [h1], Or.inl h⟩
    have hr : b.registry = none := Classical.byContradiction fun h => hg ⟨by simp [h1], Or.inr h⟩
    rw [hp, hr]
    exact .bind fun _ _ _ => .left _ hopt
  | none =>
    cases b.path with
    | some p => exact .left _ hopt
    | none => exact .left _ hf

theorem mem_of_get {k : Str} {e : Entry} (h : TomlMap.get t k = some e) : (k, e) ∈ t := by
  induction t with
  | nil => simp [TomlMap.get] at h
  | cons x t ih =>
    obtain ⟨k', e'⟩ := x
    unfold TomlMap.get at h
    split at h
    · next hk => cases h; subst hk; exact List.mem_cons_self
    · exact List.mem_cons_of_mem _ (ih h)

theorem fails_dependenciesStep {path : List Seg} {loc : Loc} {k : Str} {e : Entry} (h : Here asts path loc k e)
    {v : StringVal} (hv : ReadVersion e v) (hp : ∀ pos, Semver.parseRequirement ovf v.text pos = .panic)
    (s : List Dependency) (kind : DependencyKind) (target : Option Str) :
    Fails (dependenciesStep ovf s path kind target k e) := by
  cases hv with
  | string hn =>
    simp only [dependenciesStep, hn]
    exact .bind fun r _ _ => .left _ (fails_version (a := ⟨r, v⟩) hp)
  | table hn h1 h2 ha =>
    simp only [dependenciesStep, hn]
    have hkeys : ∀ k' e', TomlMap.get _ k' = some e' → Here asts (.table e.reprs :: path) (loc ++ [.key k]) k' e' :=
      fun k' e' hg => h.child hn hg
    have hb := builder_ok (h.nodup hn) fun k' e' hg => (hkeys k' e' hg).entry.1
    obtain ⟨b, ms, hx, rfl, -⟩ := runs_parseDependency (h.nodup hn) hkeys {}
    refine .bind fun b' ms' hx' => ?_
    rw [hx] at hx'
    cases hx'
    exact .left _ (.left _ (fails_buildSpec hb h1 h2 ha hp))

theorem fails_section {path : List Seg} {e e' : Entry} {k : Str} (hn : e.node = .table t)
    (hg : TomlMap.get t k = some e') (kind : DependencyKind) (target : Option Str)
    (h : ∀ s, Fails (dependenciesStep ovf s (.table e.reprs :: path) kind target k e')) (s : List Dependency) :
    Fails (section_ ovf s path e kind target) := by
  unfold section_ expectTable
  rw [hn]
  refine .bind fun o ms ho => ?_
  cases ho
  exact Fails.loop (f := fun state ke => dependenciesStep ovf state _ kind target ke.1 ke.2) (a := (k, e')) h _ (mem_of_get hg)

theorem fails_old {path : List Seg} {old new : String} {e : Entry} {kind : DependencyKind}
    {target : Option Str} (hk : ¬ HasKey t new) (h : ∀ s, Fails (section_ ovf s path e kind target)) (s : List Dependency) :
    Fails (oldSection ovf s path t old.toList new.toList e kind target) := by
  unfold oldSection
  refine .bind fun o ms ho => ?_
  have hnone : TomlMap.get t new.toList = none := by
    cases hx : TomlMap.get t new.toList with
    | none => rfl
    | some x => exact absurd ⟨x, hx⟩ hk
  have : o = false := by
    unfold deprecatedUnderscore at ho
    rw [hnone] at ho
    change CheckM.bind (some ((false, _), [])) _ = _ at ho
    simp only [CheckM.bind] at ho
    split at ho
    · cases ho
    · next hx =>
      cases ho
      change CheckM.bind _ _ = _ at hx
      unfold CheckM.bind at hx
      split at hx
      · cases hx
      · cases hx; rfl
  subst this
  exact h s

theorem fails_sectionStep {path : List Seg} {key : String} {kind : DependencyKind} {e : Entry} {target : Option Str}
    (hk : Spec.Check.SectionKey t key kind) (h : ∀ s, Fails (section_ ovf s path e kind target)) {sk : SectionKey}
    (hs : sectionKeys.lookup key.toList = some sk) : ∀ s, Fails (sectionStep ovf s path t target sk e) := by
  have h2 := hs
  cases hk with
  | normal => 
    obtain rfl : .normal = sk := Option.some.inj h2
    exact h
  | dev => 
    obtain rfl : .dev = sk := Option.some.inj h2
    exact h
  | devOld hk => 
    obtain rfl : .devOld = sk := Option.some.inj h2
    exact fails_old hk h
  | build => 
    obtain rfl : .build = sk := Option.some.inj h2
    exact h
  | buildOld hk => 
    obtain rfl : .buildOld = sk := Option.some.inj h2
    exact fails_old hk h

theorem section_lookup {key : String} {kind : DependencyKind} (hk : Spec.Check.SectionKey t key kind) :
    ∃ sk, sectionKeys.lookup key.toList = some sk := by cases hk <;> exact ⟨_, rfl⟩

/-- The check panics if a version requirement that is read does. -/
theorem check_fails (hm : MapOk asts root) {loc : Loc} {path : List Seg} {kind : DependencyKind} {target : Option Str}
    {name : Str} {e : Entry} (hd : DepEntry root loc path kind target name e) {v : StringVal} (hv : ReadVersion e v)
    (hp : ∀ pos, Semver.parseRequirement ovf v.text pos = .panic) : Fails (check ovf root) := by
  obtain ⟨loc', -, hh⟩ := here_dep hm hd
  have h0 := fails_dependenciesStep hh hv hp
  obtain ⟨⟨ho, hk, hg0⟩, hn, hg⟩ := hd
  have h2 := fun tg sk => fails_sectionStep (sk := sk) hk (fails_section hn hg _ tg fun s => h0 s _ _)
  obtain ⟨sk, hsk⟩ := section_lookup hk
  have hs := List.mem_map_of_mem (f := Prod.fst) (lookup_some hsk)
  rw [section_names] at hs
  cases ho with
  | root =>
    unfold check
    refine Fails.loop (a := (_, _)) (fun s => ?_) _ (mem_of_get hg0)
    dsimp only
    rw [if_neg fun h => (skipped_not h).1 hs, hsk]
    exact h2 _ sk hsk s
  | target g1 g2 g3 g4 =>
    unfold check
    refine Fails.loop (a := (_, _)) (fun s => ?_) _ (mem_of_get g1)
    dsimp only
    rw [if_neg (by decide)]
    have : sectionKeys.lookup "target".toList = none := by decide
    rw [this]
    dsimp only
    rw [if_pos rfl]
    unfold expectTable
    rw [g2]
    refine .bind fun o ms ho => ?_
    cases ho
    unfold parseTarget
    refine Fails.loop (a := (_, _)) (fun s => ?_) _ (mem_of_get g3)
    dsimp only
    unfold expectTable
    rw [g4]
    refine .bind fun o ms ho => ?_
    cases ho
    unfold parseTargetDependencies
    refine Fails.loop (a := (_, _)) (fun s => ?_) _ (mem_of_get hg0)
    dsimp only
    rw [hsk]
    exact h2 _ sk hsk s

end Verif.Ide
