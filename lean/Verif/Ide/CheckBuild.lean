import Verif.Ide.CheckKeys

/-! # The source of a dependency -/

namespace Verif.Ide
open Verif Verif.Toml Verif.TomlMap
open Verif.Spec.Toml hiding Entry KeyOk
open Verif.Spec.Check hiding Section SectionKey

variable {asts : List Ast} {path prev : List Seg} {loc : Loc} {t : MapTable}

/-! ## Versions -/

/-- The version requirement can be parsed without a panic. -/
def VersionOk (ovf : Bool) (v : StringVal) : Prop :=
  ∃ s, textSpan v = some s ∧ Semver.parseRequirement ovf v.text s.start ≠ .panic

theorem runs_version {ovf : Bool} {a : StringAssignment} (h : VersionOk ovf a.val) (rs0 : Reason) :
    Runs (parseVersionReq ovf a) (fun v => v.str = a ∧ Version ovf v)
      (fun rs m => ∃ er, rs = rs0 ∧ VersionError ovf a.val er ∧ m = .semver er) := by
  obtain ⟨s, hs, hp⟩ := h
  unfold parseVersionReq
  rw [hs]
  refine (Runs.lift (Q := (· = s)) rfl rfl).bindL fun s' hs' => ?_
  subst hs'
  cases hr : Semver.parseRequirement ovf a.val.text s'.start with
  | ok v =>
    refine (Runs.pure ⟨rfl, s', hs, by simp only [hr]⟩).congr fun rs m => ⟨False.elim, ?_⟩
    rintro ⟨er, -, ⟨s2, h2, h3⟩, -⟩
    rw [hs] at h2
    cases h2
    rw [hr] at h3
    cases h3
  | err er =>
    refine ((Runs.emit rfl rs0).bindR fun _ _ => Runs.pure ⟨rfl, s', hs, by simp only [hr]⟩).congr
      fun rs m => ?_
    constructor
    · rintro ⟨rfl, rfl⟩
      exact ⟨er, rfl, ⟨s', hs, hr⟩, rfl⟩
    · rintro ⟨er', rfl, ⟨s2, h2, h3⟩, rfl⟩
      rw [hs] at h2
      cases h2
      rw [hr] at h3
      cases h3
      exact ⟨rfl, rfl⟩
  | panic => exact absurd hr hp

theorem version_unique {ovf : Bool} {v w : DependencyVersion} (h : Version ovf v) (h' : Version ovf w)
    (hs : v.str = w.str) : v = w := by
  obtain ⟨a, r⟩ := v
  obtain ⟨b, r'⟩ := w
  dsimp only at hs
  subst hs
  obtain ⟨s, h1, h2⟩ := h
  obtain ⟨s', h1', h2'⟩ := h'
  dsimp only at h1 h1' h2 h2'
  rw [h1] at h1'
  cases h1'
  cases hr : Semver.parseRequirement ovf a.val.text s.start with
  | ok v => simp only [hr] at h2 h2'; rw [h2, h2']
  | err v => simp only [hr] at h2 h2'; rw [h2, h2']
  | panic => simp only [hr] at h2

theorem runs_versionOpt {ovf : Bool} {o : Option StringAssignment} (ho : OptStr t "version" o)
    (h : ∀ a, IsStr t "version" a → VersionOk ovf a.val) (rs0 : Reason) :
    Runs (parseVersionOpt ovf o) (OptVersion ovf t)
      (fun rs m => ∃ a er, IsStr t "version" a ∧ rs = rs0 ∧ VersionError ovf a.val er ∧ m = .semver er) := by
  cases o with
  | none =>
    refine (Runs.pure ⟨by simp, fun _ => ?_⟩).congr fun rs m => ⟨False.elim, ?_⟩
    · rintro ⟨a, er, ha, -⟩
      cases (ho a).2 ha
    · rintro ⟨a, ha⟩
      cases (ho a).2 ha
  | some a =>
    have ha := (ho a).1 rfl
    refine ((runs_version (h a ha) rs0).bindR fun v hv => Runs.pure ?_).congr fun rs m => ?_
    · refine ⟨?_, by simp⟩
      rintro w hw
      cases hw
      exact ⟨hv.1 ▸ ha, hv.2⟩
    · constructor
      · rintro ⟨er, h1, h2⟩
        exact ⟨a, er, ha, h1, h2⟩
      · rintro ⟨b, er, hb, h1, h2⟩
        cases (ho b).2 hb
        exact ⟨er, h1, h2⟩

/-! ## Loops over keys -/

theorem runs_keys {A : Type} {L : List (String × Option A)} {f : A → CheckM Unit} {P : String → A → Pred}
    (hn : (L.map (·.1)).Nodup)
    (hf : ∀ k a, (k, some a) ∈ L → Runs (f a) (fun _ => True) (P k a))
    (hd : ∀ k k' a a' r m m', P k a r m → P k' a' r m' → k = k') :
    Runs (each ((L.map (·.2)).filterMap id) f) (fun _ => True)
      (fun r m => ∃ k a, (k, some a) ∈ L ∧ P k a r m) := by
  induction L with
  | nil => exact (Runs.pure (Q := fun _ => True) trivial).congr fun r m => by simp [Never]
  | cons x L ih =>
    obtain ⟨k, o⟩ := x
    rw [List.map_cons, List.nodup_cons] at hn
    have ih := ih hn.2 fun k a h => hf k a (List.mem_cons_of_mem _ h)
    cases o with
    | none =>
      simp only [List.map_cons, id, List.filterMap_cons_none]
      exact ih.congr fun r m => by simp
    | some a =>
      have h1 := hf k a List.mem_cons_self
      refine (h1.bind (fun _ _ => ih) ?_).congr fun r m => ?_
      · rintro r m m' h ⟨k', a', hm, h'⟩
        have := hd _ _ _ _ _ _ _ h h'
        subst this
        exact hn.1 (List.mem_map.2 ⟨_, hm, rfl⟩)
      · constructor
        · rintro (h | ⟨k', a', hm, h⟩)
          · exact ⟨k, a, List.mem_cons_self, h⟩
          · exact ⟨k', a', List.mem_cons_of_mem _ hm, h⟩
        · rintro ⟨k', a', hm, h⟩
          rcases List.mem_cons.1 hm with hm | hm
          · cases hm
            exact Or.inl h
          · exact Or.inr ⟨k', a', hm, h⟩

theorem runs_keys' {A : Type} {L : List (Str × Option A)} {f : Str × Option A → CheckM Unit}
    {P : Str → A → Pred} (hn : (L.map (·.1)).Nodup)
    (h0 : ∀ k, (k, none) ∈ L → Runs (f (k, none)) (fun _ => True) Never)
    (hf : ∀ k a, (k, some a) ∈ L → Runs (f (k, some a)) (fun _ => True) (P k a))
    (hd : ∀ k k' a a' r m m', P k a r m → P k' a' r m' → k = k') :
    Runs (each L f) (fun _ => True) (fun r m => ∃ k a, (k, some a) ∈ L ∧ P k a r m) := by
  induction L with
  | nil => exact (Runs.pure (Q := fun _ => True) trivial).congr fun r m => by simp [Never]
  | cons x L ih =>
    obtain ⟨k, o⟩ := x
    rw [List.map_cons, List.nodup_cons] at hn
    have ih := ih hn.2 (fun k h => h0 k (List.mem_cons_of_mem _ h)) fun k a h => hf k a (List.mem_cons_of_mem _ h)
    cases o with
    | none =>
      refine ((h0 k List.mem_cons_self).bindL fun _ _ => ih).congr fun r m => by simp
    | some a =>
      have h1 := hf k a List.mem_cons_self
      refine (h1.bind (fun _ _ => ih) ?_).congr fun r m => ?_
      · rintro r m m' h ⟨k', a', hm, h'⟩
        have := hd _ _ _ _ _ _ _ h h'
        subst this
        exact hn.1 (List.mem_map.2 ⟨_, hm, rfl⟩)
      · constructor
        · rintro (h | ⟨k', a', hm, h⟩)
          · exact ⟨k, a, List.mem_cons_self, h⟩
          · exact ⟨k', a', List.mem_cons_of_mem _ hm, h⟩
        · rintro ⟨k', a', hm, h⟩
          rcases List.mem_cons.1 hm with hm | hm
          · cases hm
            exact Or.inl h
          · exact Or.inr ⟨k', a', hm, h⟩

/-! ## Strings -/

theorem isStr_unique {k : String} {a b : StringAssignment} (h : IsStr t k a) (h' : IsStr t k b) : a = b := by
  obtain ⟨e, h1, h2, h3⟩ := h
  obtain ⟨e', h1', h2', h3'⟩ := h'
  rw [h1] at h1'
  cases h1'
  rw [h2] at h2'
  rw [h3] at h3'
  obtain ⟨r, v⟩ := a
  obtain ⟨r', v'⟩ := b
  dsimp only at *
  cases h2'
  cases h3'
  rfl

theorem flag_unique {k : String} {a b : BoolAssignment} (h : Flag t k a) (h' : Flag t k b) : a = b := by
  obtain ⟨e, h1, h2, h3⟩ := h
  obtain ⟨e', h1', h2', h3'⟩ := h'
  rw [h1] at h1'
  cases h1'
  rw [h2] at h2'
  rw [h3] at h3'
  obtain ⟨r, s, v⟩ := a
  obtain ⟨r', s', v'⟩ := b
  dsimp only at *
  cases h2'
  cases h3'
  rfl

theorem optStr_unique {k : String} {a b : Option StringAssignment} (h : OptStr t k a) (h' : OptStr t k b) :
    a = b := Option.ext fun x => (h x).trans (h' x).symm

theorem optFlag_unique {k : String} {a b : Option BoolAssignment} (h : OptFlag t k a) (h' : OptFlag t k b) :
    a = b := Option.ext fun x => (h x).trans (h' x).symm

theorem hasStr_iff {k : String} {o : Option StringAssignment} (h : OptStr t k o) : HasStr t k ↔ o ≠ none := by
  cases o with
  | none => simp [HasStr, ← h _]
  | some a => simp [HasStr, ← h _]

theorem hasWorkspace_iff {o : Option BoolAssignment} (h : OptFlag t "workspace" o) :
    HasWorkspace t ↔ o ≠ none := by
  cases o with
  | none => simp [HasWorkspace, ← h _]
  | some a => simp [HasWorkspace, ← h _]

/-! ## Errors at keys -/

/-- A table of a dependency. -/
structure DepHere (asts : List Ast) (path : List Seg) (loc : Loc) (t : MapTable) : Prop where
  ok : PathOk path
  names : Names path loc
  ne : path ≠ []
  keys : ∀ k e, TomlMap.get t k = some e → Here asts path loc k e

theorem DepHere.str (h : DepHere asts path loc t) {k : String} {a : StringAssignment} (ha : IsStr t k a) :
    InRange path a.repr.parent ∧ (∃ s, a.repr.span = some s) ∧
      ∃ i, a.repr.key.reprIdent = some i ∧ i.text = k.toList := by
  obtain ⟨e, h1, -, h3⟩ := ha
  obtain ⟨h4, h5, -, h6⟩ := (h.keys _ _ h1).repr (List.mem_of_head? h3)
  exact ⟨h4, h5, h6⟩

theorem DepHere.flag (h : DepHere asts path loc t) {k : String} {a : BoolAssignment} (ha : Flag t k a) :
    InRange path a.repr.parent ∧ (∃ s, a.repr.span = some s) ∧
      ∃ i, a.repr.key.reprIdent = some i ∧ i.text = k.toList := by
  obtain ⟨e, h1, -, h3⟩ := ha
  obtain ⟨h4, h5, -, h6⟩ := (h.keys _ _ h1).repr (List.mem_of_head? h3)
  exact ⟨h4, h5, h6⟩

/-- An error at a key. -/
def KeyErrP (path : List Seg) (loc : Loc) (k : String) (r : Repr) (kind : ErrorKind) : Pred := fun rs m =>
  rs = ⟨loc ++ [.key k.toList], .source, 0⟩ ∧ ErrorAt path r loc kind m

theorem runs_keyError (h : DepHere asts path loc t) {k : String} {a : StringAssignment} (ha : IsStr t k a)
    (kind : ErrorKind) : Runs (keyError path a.repr kind) (fun _ => True) (KeyErrP path loc k a.repr kind) :=
  have := h.str ha
  runs_error h.ok this.1 this.2.1 h.names h.ne _ _

theorem runs_keyErrorFlag (h : DepHere asts path loc t) {k : String} {a : BoolAssignment} (ha : Flag t k a)
    (kind : ErrorKind) : Runs (keyError path a.repr kind) (fun _ => True) (KeyErrP path loc k a.repr kind) :=
  have := h.flag ha
  runs_error h.ok this.1 this.2.1 h.names h.ne _ _

theorem keyErr_disjoint {k k' : String} {r r' : Repr} {kind kind' : ErrorKind} {rs : Reason} {m m' : Msg}
    (h : KeyErrP path loc k r kind rs m) (h' : KeyErrP path loc k' r' kind' rs m') : k = k' := by
  obtain ⟨rfl, -⟩ := h
  obtain ⟨h', -⟩ := h'
  simp only [Reason.mk.injEq, List.append_cancel_left_eq, List.cons.injEq, PStep.key.injEq, and_true] at h'
  exact toList_inj h'

/-- Errors at some keys. -/
theorem runs_keyErrors (h : DepHere asts path loc t) {L : List (String × Option StringAssignment)}
    (hn : (L.map (·.1)).Nodup) (hL : ∀ x ∈ L, OptStr t x.1 x.2) (kind : ErrorKind) :
    Runs (each ((L.map (·.2)).filterMap id) fun a => keyError path a.repr kind) (fun _ => True)
      (fun r m => ∃ k a, k ∈ L.map (·.1) ∧ IsStr t k a ∧ KeyErrP path loc k a.repr kind r m) := by
  refine (runs_keys (P := fun k a => KeyErrP path loc k a.repr kind) hn (fun k a hm => ?_) ?_).congr fun r m => ?_
  · exact runs_keyError h ((hL _ hm a).1 rfl) kind
  · intro k k' a a' r m m' h h'
    exact keyErr_disjoint h h'
  · constructor
    · rintro ⟨k, a, hm, hp⟩
      exact ⟨k, a, List.mem_map.2 ⟨_, hm, rfl⟩, (hL _ hm a).1 rfl, hp⟩
    · rintro ⟨k, a, hk, ha, hp⟩
      obtain ⟨⟨k', o⟩, hm, rfl⟩ := List.mem_map.1 hk
      have := (hL _ hm a).2 ha
      dsimp only at this
      subst this
      exact ⟨k', a, hm, hp⟩

/-- The errors about `branch`, `tag` and `rev` without `git`. -/
theorem runs_ignoredGit (h : DepHere asts path loc t) {b : DependencyBuilder} (hb : BuilderOk t b) :
    Runs (each [("branch".toList, b.branch), ("tag".toList, b.tag), ("rev".toList, b.rev)] fun ka =>
          match ka.2 with
          | none => pure ()
          | some a => keyError path a.repr (.depIgnoredGitKey ka.1)) (fun _ => True)
      (fun r m => ∃ k a, k ∈ ["branch", "tag", "rev"] ∧ IsStr t k a ∧
        KeyErrP path loc k a.repr (.depIgnoredGitKey k.toList) r m) := by
  have hL : ∀ k a, (k, some a) ∈ [("branch".toList, b.branch), ("tag".toList, b.tag), ("rev".toList, b.rev)] ↔
      ∃ k', k = k'.toList ∧ k' ∈ ["branch", "tag", "rev"] ∧ IsStr t k' a := by
    intro k a
    simp only [List.mem_cons, Prod.mk.injEq, List.not_mem_nil, or_false]
    constructor
    · rintro (⟨rfl, hm⟩ | ⟨rfl, hm⟩ | ⟨rfl, hm⟩)
      · exact ⟨_, rfl, Or.inl rfl, (hb.branch a).1 hm.symm⟩
      · exact ⟨_, rfl, Or.inr (Or.inl rfl), (hb.tag a).1 hm.symm⟩
      · exact ⟨_, rfl, Or.inr (Or.inr rfl), (hb.rev a).1 hm.symm⟩
    · rintro ⟨k', rfl, rfl | rfl | rfl, ha⟩
      · exact Or.inl ⟨rfl, ((hb.branch a).2 ha).symm⟩
      · exact Or.inr (Or.inl ⟨rfl, ((hb.tag a).2 ha).symm⟩)
      · exact Or.inr (Or.inr ⟨rfl, ((hb.rev a).2 ha).symm⟩)
  refine (runs_keys' (P := fun k a rs m => rs = ⟨loc ++ [.key k], .source, 0⟩ ∧
    ErrorAt path a.repr loc (.depIgnoredGitKey k) m) (by simp) (fun k _ => Runs.pure trivial) ?_ ?_).congr fun r m => ?_
  · intro k a hm
    obtain ⟨k', rfl, -, ha⟩ := (hL k a).1 hm
    exact runs_keyError h ha _
  · rintro k k' a a' r m m' ⟨rfl, -⟩ ⟨h', -⟩
    simpa using h'
  · constructor
    · rintro ⟨k, a, hm, hp⟩
      obtain ⟨k', rfl, hk, ha⟩ := (hL k a).1 hm
      exact ⟨k', a, hk, ha, hp⟩
    · rintro ⟨k, a, hk, ha, hp⟩
      exact ⟨k.toList, a, (hL _ a).2 ⟨k, rfl, hk, ha⟩, hp⟩

end Verif.Ide
