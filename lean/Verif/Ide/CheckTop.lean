import Verif.Ide.CheckSpec

/-! # The whole check -/

namespace Verif.Ide
open Verif Verif.Toml Verif.TomlMap
open Verif.Spec.Toml hiding Entry KeyOk
open Verif.Spec.Check hiding Section SectionKey

variable {asts : List Ast} {path prev : List Seg} {loc : Loc} {t : MapTable} {ovf : Bool}

/-! ## The dependency is determined -/

theorem gitSpec_unique {a b : DependencyGitSpec} (h : GitSpec t a) (h' : GitSpec t b) : a = b := by
  have c : ∀ {k a}, IsStr t k a → HasStr t k := fun h => ⟨_, h⟩
  cases h <;> cases h' <;>
    first
    | rfl
    | (rw [isStr_unique ‹_› ‹_›]; done)
    | (exfalso; simp_all [HasStr]; done)
    | (exfalso; exact absurd (c ‹_›) ‹_›)
    | (exfalso; exact absurd ‹HasStr t _› ‹_›)
    | (congr 1; exact isStr_unique ‹_› ‹_›)

theorem optVersion_unique {a b : Option DependencyVersion} (h : OptVersion ovf t a) (h' : OptVersion ovf t b) :
    a = b := by
  cases a with
  | none =>
    cases b with
    | none => rfl
    | some w => exact absurd ⟨_, (h'.1 w rfl).1⟩ (h.2 rfl)
  | some v =>
    cases b with
    | none => exact absurd ⟨_, (h.1 v rfl).1⟩ (h'.2 rfl)
    | some w =>
      obtain ⟨h1, h2⟩ := h.1 v rfl
      obtain ⟨h1', h2'⟩ := h'.1 w rfl
      rw [version_unique h2 h2' (isStr_unique h1 h1')]

theorem source_unique {a b : DependencySpec} (h : Source ovf t a) (h' : Source ovf t b) : a = b := by
  have c : ∀ {k a}, IsStr t k a → HasStr t k := fun h => ⟨_, h⟩
  have w : ∀ {a}, Flag t "workspace" a → HasWorkspace t := fun h => ⟨_, h⟩
  cases h with
  | invalid h1 h2 =>
    cases h' with
    | invalid => rfl
    | workspace h1' h2' => rw [flag_unique h1 h1', h2'] at h2; cases h2
    | _ => exact absurd (w h1) ‹_›
  | workspace h1 h2 =>
    cases h' with
    | workspace h1' h2' => rw [flag_unique h1 h1']
    | invalid h1' h2' => rw [flag_unique h1 h1', h2'] at h2; cases h2
    | _ => exact absurd (w h1) ‹_›
  | gitRegistry n g r =>
    cases h' with
    | invalid h1 => exact absurd (w h1) n
    | workspace h1 => exact absurd (w h1) n
    | gitRegistry => rfl
    | gitPath => rfl
    | _ => contradiction
  | gitPath n g r =>
    cases h' with
    | invalid h1 => exact absurd (w h1) n
    | workspace h1 => exact absurd (w h1) n
    | gitRegistry => rfl
    | gitPath => rfl
    | _ => contradiction
  | git n g p r s v =>
    have g' := c g
    cases h' with
    | invalid h1 => exact absurd (w h1) n
    | workspace h1 => exact absurd (w h1) n
    | git n' g' p' r' s' v' => rw [isStr_unique g g', gitSpec_unique s s', optVersion_unique v v']
    | _ => contradiction
  | path n g p v r =>
    have p1 := c p
    cases h' with
    | invalid h1 => exact absurd (w h1) n
    | workspace h1 => exact absurd (w h1) n
    | path n' g' p' v' r' => rw [isStr_unique p p', optStr_unique r r', optVersion_unique v v']
    | git _ g' => exact absurd (c g') g
    | _ => contradiction
  | registry n g p i v r =>
    have v1 := c i
    cases h' with
    | invalid h1 => exact absurd (w h1) n
    | workspace h1 => exact absurd (w h1) n
    | registry n' g' p' i' v' r' => rw [version_unique v v' (isStr_unique i i'), optStr_unique r r']
    | git _ g' => exact absurd (c g') g
    | path _ _ p' => exact absurd (c p') p
    | _ => contradiction
  | missing n g p i r =>
    cases h' with
    | invalid h1 => exact absurd (w h1) n
    | workspace h1 => exact absurd (w h1) n
    | git _ g' => exact absurd (c g') g
    | path _ _ p' => exact absurd (c p') p
    | registry _ _ _ i' => exact absurd (c i') i
    | missing n' g' p' i' r' => rw [optStr_unique r r']
    | _ => contradiction

theorem features_unique {a b : DependencyFeatures} (h : Features t a) (h' : Features t b) : a = b := by
  obtain ⟨d, l⟩ := a
  obtain ⟨d', l'⟩ := b
  have hd : d = d' := by
    by_cases hk : HasKey t "default-features"
    · exact optFlag_unique (h.default hk) (h'.default hk)
    · exact optFlag_unique (h.defaultOld hk) (h'.defaultOld hk)
  have hl : l = l' := by
    by_cases hx : ∃ e n a es, TomlMap.get t "features".toList = some e ∧ e.node = .inline n a es
    · obtain ⟨e, n, a, es, h1, h2⟩ := hx
      exact (h.list e n a es h1 h2).trans (h'.list e n a es h1 h2).symm
    · have hx : ∀ e n a es, TomlMap.get t "features".toList = some e → e.node ≠ .inline n a es :=
        fun e n a es h1 h2 => hx ⟨e, n, a, es, h1, h2⟩
      exact (h.noList hx).trans (h'.noList hx).symm
  rw [hd, hl]

theorem describes_unique {e : Entry} {d d' : Dependency} (h : Describes ovf e d) (h' : Describes ovf e d') :
    d.spec = d'.spec ∧ d.package = d'.package ∧ d.optional = d'.optional ∧ d.features = d'.features := by
  cases h with
  | version h1 h2 h3 h4 h5 h6 h7 =>
    cases h' with
    | @version w h1' h2' h3' h4' h5' h6' h7' =>
      rw [h1] at h1'
      rw [h2] at h2'
      have hs : ∀ a b : StringAssignment, a.val = b.val → a.repr = b.repr → a = b := by
        rintro ⟨⟩ ⟨⟩ rfl rfl
        rfl
      have := version_unique h3 h3' (hs _ _ (by simpa using h1') (Option.some.inj h2'))
      rw [h4, h4', h5, h5', h6, h6', h7, h7', this]
      exact ⟨rfl, rfl, rfl, rfl⟩
    | table h1' => rw [h1] at h1'; cases h1'
  | table h1 h2 h3 h4 h5 =>
    cases h' with
    | version h1' => rw [h1] at h1'; cases h1'
    | table h1' h2' h3' h4' h5' =>
      rw [h1] at h1'
      cases h1'
      exact ⟨source_unique h2 h2', optStr_unique h3 h3', optFlag_unique h4 h4', features_unique h5 h5'⟩

/-! ## One dependency -/

/-- The dependency of an entry of a section. -/
def DepOf (ovf : Bool) (loc : Loc) (kind : DependencyKind) (target : Option Str) (k : Str) (e : Entry)
    (l : Loc) (d : Dependency) : Prop :=
  l = loc ++ [.key k] ∧ d.name = k ∧ d.kind = kind ∧ d.target = target ∧ d.entry = e ∧ Describes ovf e d

theorem depOf_once {kind : DependencyKind} {target : Option Str} {k : Str} {e : Entry} {d : Dependency}
    (h1 : d.name = k) (h2 : d.kind = kind) (h3 : d.target = target) (h4 : d.entry = e) (h5 : Describes ovf e d) :
    ExactlyOnce [d] (DepOf ovf loc kind target k e) := by
  refine (once_one (loc ++ [.key k]) d).congr fun l d' => ?_
  constructor
  · rintro ⟨rfl, rfl⟩
    exact ⟨rfl, h1, h2, h3, h4, h5⟩
  · rintro ⟨rfl, h1', h2', h3', h4', h5'⟩
    refine ⟨rfl, ?_⟩
    obtain ⟨a, b, c, f⟩ := describes_unique h5' h5
    obtain ⟨n, p, kd, tg, sp, fe, op, en⟩ := d
    obtain ⟨n', p', kd', tg', sp', fe', op', en'⟩ := d'
    dsimp only at *
    subst h1 h2 h3 h4 a b c f h1' h2' h3' h4'
    rfl

/-- The version requirement that is read from an entry can be parsed without a panic. -/
def EntryVersions (ovf : Bool) (e : Entry) : Prop := ∀ v, ReadVersion e v → VersionOk ovf v

theorem keyMessage_what {rs : Reason} {m : Msg} (h : KeyMessage loc path t rs m) :
    rs.what = .unknown ∨ rs.what = .type ∨ rs.what = .deprecated := by
  cases h <;> simp

theorem sourceMessage_what {e : Entry} {rs : Reason} {m : Msg} (h : SourceMessage ovf loc prev e t rs m) :
    rs.what = .source ∨ rs.what = .version ∨ rs.what = .missing := by
  cases h <;> simp

theorem entryMessage_loc {e : Entry} {rs : Reason} {m : Msg} (h : EntryMessage ovf loc prev e rs m) :
    ∃ rest, rs.loc = loc ++ rest := by
  cases h with
  | version => exact ⟨[], by simp⟩
  | type => exact ⟨[], by simp⟩
  | key _ h => cases h <;> exact ⟨_, rfl⟩
  | source _ h => cases h <;> first | exact ⟨_, rfl⟩ | exact ⟨[], by simp⟩

/-- What a step appends. -/
abbrev Appends {A R : Type} (s : List A) (D : R → A → Prop) (s' : List A) : Prop :=
  ∃ as, s' = s ++ as ∧ ExactlyOnce as D

theorem appends_nil {A R : Type} {s : List A} {D : R → A → Prop} (h : ∀ r a, ¬ D r a) : Appends s D s :=
  ⟨[], by simp, once_nil.congr fun r a => by simpa using h r a⟩

theorem runs_dependenciesStep {k : Str} {e : Entry} (h : Here asts path loc k e) (hv : EntryVersions ovf e)
    (s : List Dependency) (kind : DependencyKind) (target : Option Str) :
    Runs (dependenciesStep ovf s path kind target k e) (Appends s (DepOf ovf loc kind target k e))
      (EntryMessage ovf (loc ++ [.key k]) path e) := by
  have kindOk := h.entry.2.2.2
  obtain ⟨r, hr, hmem⟩ := h.head
  have nodep : (∀ v, e.node ≠ .scalar (.string v)) → (∀ t, e.node ≠ .table t) →
      Appends s (DepOf ovf loc kind target k e) s := by
    intro h1 h2
    refine appends_nil ?_
    rintro l d ⟨-, -, -, -, -, hd⟩
    cases hd with
    | version hn => exact h1 _ hn
    | table hn => exact h2 _ hn
  have scalar : ∀ sc, e.node = .scalar sc → scalarType sc ≠ .string → scalarType sc ≠ .invalid →
      Runs (do
        let r ← liftC e.reprs.head?
        emit (mkError path r.parent (.table e.reprs :: path) r.span (.depWrongDatatype (scalarType sc)))
        Pure.pure s) (Appends s (DepOf ovf loc kind target k e)) (EntryMessage ovf (loc ++ [.key k]) path e) := by
    intro sc hn h1 h2
    rw [hr]
    refine (Runs.lift (Q := (· = r)) rfl rfl).bindL fun r' hr' => ?_
    subst hr'
    obtain ⟨hin, hsp, -⟩ := h.repr hmem
    refine ((runs_error h.path hin hsp h.namesIn (by simp) (.depWrongDatatype (scalarType sc))
      ⟨loc ++ [.key k], .type, 0⟩).bindR fun _ _ => Runs.pure (nodep ?_ ?_)).congr fun rs m => ?_
    · intro v hv'
      rw [hn] at hv'
      cases hv'
      exact h1 rfl
    · intro v hv'
      rw [hn] at hv'
      cases hv'
    · rw [hn] at kindOk
      obtain ⟨r0, hr0, -⟩ := kindOk
      rw [hr0] at hr
      cases hr
      have htype : HasType e.node (scalarType sc) := by
        have := hasType e.node
        rwa [hn] at this ⊢
      constructor
      · rintro ⟨rfl, hm⟩
        exact .type ⟨htype, h2, by
          have : scalarType sc ≠ .table := by cases sc <;> simp [scalarType]
          simp [h1, this]⟩ (by rw [hr0]; rfl) hm
      · intro hm
        cases hm with
        | version hn' => rw [hn] at hn'; cases hn'; exact absurd rfl h1
        | type hw hri hm =>
          rw [hr0] at hri
          obtain ⟨hi, -⟩ := List.getElem?_eq_some_iff.1 hri
          simp only [List.length_singleton, Nat.lt_one_iff] at hi
          subst hi
          cases hri
          rw [hasType_eq hw.1, hn] at hm
          exact ⟨rfl, hm⟩
        | key hn' => rw [hn] at hn'; cases hn'
        | source hn' => rw [hn] at hn'; cases hn'
  have arrays : ∀ n, e.node = n → nodeType n = .array →
      Runs (do
        each e.reprs fun r => emit (mkError path r.parent (.table e.reprs :: path) r.span
          (.depWrongDatatype (nodeType n)))
        Pure.pure s) (Appends s (DepOf ovf loc kind target k e)) (EntryMessage ovf (loc ++ [.key k]) path e) := by
    intro n hn ha
    rw [ha]
    refine ((runs_errors h (loc ++ [.key k]) .type (.depWrongDatatype .array)).bindR fun _ _ => Runs.pure
      (nodep ?_ ?_)).congr fun rs m => ?_
    · intro v hv'
      rw [← hn, hv'] at ha
      cases ha
    · intro v hv'
      rw [← hn, hv'] at ha
      cases ha
    · have htype : HasType e.node .array := by
        have := hasType e.node
        rw [hn, ha] at this
        rw [hn]
        exact this
      constructor
      · rintro ⟨i, r, hr, rfl, hm⟩
        exact .type ⟨htype, by simp, by simp⟩ hr hm
      · intro hm
        cases hm with
        | version hn' => rw [← hn, hn'] at ha; cases ha
        | type hw hri hm =>
          rw [hasType_eq hw.1, hn, ha] at hm
          exact ⟨_, _, hri, rfl, hm⟩
        | key hn' => rw [← hn, hn'] at ha; cases ha
        | source hn' => rw [← hn, hn'] at ha; cases ha
  cases hn : e.node with
  | table t =>
    simp only [dependenciesStep, hn]
    have hkeys : ∀ k' e', TomlMap.get t k' = some e' → Here asts (.table e.reprs :: path) (loc ++ [.key k]) k' e' :=
      fun k' e' hg => h.child hn hg
    have hb := builder_ok (t := t) (h.nodup hn) fun k' e' hg => (hkeys k' e' hg).entry.1
    refine Runs.congr (Runs.bind (runs_parseDependency (h.nodup hn) hkeys {}) (S := Appends s (DepOf ovf loc kind target k e))
      (P' := SourceMessage ovf (loc ++ [.key k]) path e t) ?_ ?_) fun rs m => ?_
    · rintro b rfl
      refine Runs.bindR (Q := fun d => d.name = k ∧ d.kind = kind ∧ d.target = target ∧ d.entry = e ∧
        Describes ovf e d) (Runs.bindR (runs_buildSpec h hn hb hv) fun spec hspec => Runs.pure
        ⟨rfl, rfl, rfl, rfl, .table hn hspec hb.package hb.optional hb.features⟩) ?_
      rintro d ⟨h1, h2, h3, h4, h5⟩
      exact Runs.pure ⟨[d], rfl, depOf_once h1 h2 h3 h4 h5⟩
    · intro r m m' h1 h2
      have h1 := keyMessage_what h1
      have h2 := sourceMessage_what h2
      grind
    · constructor
      · rintro (hm | hm)
        · exact .key hn hm
        · exact .source hn hm
      · intro hm
        cases hm with
        | version hn' => rw [hn] at hn'; cases hn'
        | type hw =>
          have := hw.2.2
          rw [hasType_eq hw.1, hn] at this
          simp [nodeType] at this
        | key hn' hm => rw [hn] at hn'; cases hn'; exact Or.inl hm
        | source hn' hm => rw [hn] at hn'; cases hn'; exact Or.inr hm
  | toplevel es =>
    simp only [dependenciesStep, hn]
    exact arrays _ hn rfl
  | inline a b c =>
    simp only [dependenciesStep, hn]
    exact arrays _ hn rfl
  | scalar sc =>
    cases sc with
    | string v =>
      simp only [dependenciesStep, hn]
      rw [hr]
      refine (Runs.lift (Q := (· = r)) rfl rfl).bindL fun r' hr' => ?_
      subst hr'
      refine ((runs_version (a := ⟨r', v⟩) (hv _ (.string hn)) ⟨loc ++ [.key k], .version, 0⟩).bindR fun w hw =>
        Runs.pure ⟨[_], rfl, depOf_once rfl rfl rfl rfl
          (.version (by rw [hw.1]; exact hn) (by rw [hw.1]; exact hr) hw.2 rfl rfl rfl rfl)⟩).congr fun rs m => ?_
      · constructor
        · rintro ⟨er, rfl, hm, rfl⟩
          exact .version hn hm
        · intro hm
          cases hm with
          | version hn' hm =>
            rw [hn] at hn'
            cases hn'
            exact ⟨_, rfl, hm, rfl⟩
          | type hw =>
            have := hw.2.2
            rw [hasType_eq hw.1, hn] at this
            simp [nodeType, scalarType] at this
          | key hn' hm => rw [hn] at hn'; cases hn'
          | source hn' hm => rw [hn] at hn'; cases hn'
    | invalid l sp =>
      simp only [dependenciesStep, hn]
      refine (Runs.pure (nodep (by simp [hn]) (by simp [hn]))).congr fun rs m => ⟨False.elim, ?_⟩
      intro hm
      cases hm with
      | version hn' => rw [hn] at hn'; cases hn'
      | type hw =>
        have := hw.2.1
        rw [hasType_eq hw.1, hn] at this
        exact absurd rfl this
      | key hn' hm => rw [hn] at hn'; cases hn'
      | source hn' hm => rw [hn] at hn'; cases hn'
    | int => simp only [dependenciesStep, hn]; exact scalar _ hn (by simp [scalarType]) (by simp [scalarType])
    | float => simp only [dependenciesStep, hn]; exact scalar _ hn (by simp [scalarType]) (by simp [scalarType])
    | bool => simp only [dependenciesStep, hn]; exact scalar _ hn (by simp [scalarType]) (by simp [scalarType])
    | dateTime => simp only [dependenciesStep, hn]; exact scalar _ hn (by simp [scalarType]) (by simp [scalarType])

theorem key_step {k k' : Str} {rest rest' : Loc} (h : loc ++ [.key k] ++ rest = loc ++ [.key k'] ++ rest') :
    k = k' := by
  rw [List.append_assoc, List.append_assoc] at h
  exact (key_cancel h).1

theorem runs_parseDependencies (hn : (t.map (·.1)).Nodup)
    (h : ∀ k e, TomlMap.get t k = some e → Here asts path loc k e)
    (hv : ∀ k e, TomlMap.get t k = some e → EntryVersions ovf e) (s : List Dependency) (kind : DependencyKind)
    (target : Option Str) :
    Runs (parseDependencies ovf s path t kind target)
      (Appends s fun l d => ∃ k e, TomlMap.get t k = some e ∧ DepOf ovf loc kind target k e l d)
      (fun rs m => ∃ k e, TomlMap.get t k = some e ∧ EntryMessage ovf (loc ++ [.key k]) path e rs m) := by
  refine Runs.collect (f := fun state ke => dependenciesStep ovf state path kind target ke.1 ke.2)
    (P := fun k e => EntryMessage ovf (loc ++ [.key k]) path e) hn s
    (fun s k e hg => runs_dependenciesStep (h k e hg) (hv k e hg) s kind target) ?_ ?_
  · rintro k k' e e' l d d' ⟨rfl, -⟩ ⟨h', -⟩
    simpa using h'
  · intro k k' e e' r m m' h1 h2
    obtain ⟨r1, h1⟩ := entryMessage_loc h1
    obtain ⟨r2, h2⟩ := entryMessage_loc h2
    rw [h1] at h2
    exact key_step h2

/-! ## Sections -/

/-- The diagnostics of a section. -/
def SectionP (ovf : Bool) (prev : List Seg) (e : Entry) (loc : Loc) : Pred := fun rs m =>
  TypeP prev e loc .table rs m ∨
  ∃ t k e', e.node = .table t ∧ TomlMap.get t k = some e' ∧
    EntryMessage ovf (loc ++ [.key k]) (.table e.reprs :: prev) e' rs m

/-- The dependencies of a section. -/
def SectionD (ovf : Bool) (e : Entry) (loc : Loc) (kind : DependencyKind) (target : Option Str) (l : Loc)
    (d : Dependency) : Prop :=
  ∃ t k e', e.node = .table t ∧ TomlMap.get t k = some e' ∧ DepOf ovf loc kind target k e' l d

/-- All versions of a section. -/
def SectionVersions (ovf : Bool) (e : Entry) : Prop :=
  ∀ t k e', e.node = .table t → TomlMap.get t k = some e' → EntryVersions ovf e'

theorem runs_section {k : Str} {e : Entry} (h : Here asts prev loc k e) (hv : SectionVersions ovf e)
    (s : List Dependency) (kind : DependencyKind) (target : Option Str) :
    Runs (section_ ovf s prev e kind target) (Appends s (SectionD ovf e (loc ++ [.key k]) kind target))
      (SectionP ovf prev e (loc ++ [.key k])) := by
  unfold section_
  refine Runs.congr (Runs.bind (runs_expectTable h) (S := Appends s (SectionD ovf e (loc ++ [.key k]) kind target))
    (P' := fun rs m => ∃ t k' e', e.node = .table t ∧ TomlMap.get t k' = some e' ∧
      EntryMessage ovf (loc ++ [.key k] ++ [.key k']) (.table e.reprs :: prev) e' rs m) ?_ ?_) fun rs m => Iff.rfl
  · rintro o rfl
    by_cases hx : ∃ t, e.node = .table t
    · obtain ⟨t, hn⟩ := hx
      simp only [tableOf, hn]
      refine ((runs_parseDependencies (h.nodup hn) (fun k e hg => h.child hn hg)
        (fun k e hg => hv t k e hn hg) s kind target).congr fun rs m => ?_).mono ?_
      · constructor
        · rintro ⟨k, e', h1, h2⟩
          exact ⟨t, k, e', rfl, h1, h2⟩
        · rintro ⟨_, k, e', h0, h1, h2⟩
          cases h0
          exact ⟨k, e', h1, h2⟩
      · rintro s' ⟨as, rfl, has⟩
        refine ⟨as, rfl, has.congr fun l d => ?_⟩
        constructor
        · rintro ⟨k, e', h1, h2⟩
          exact ⟨t, k, e', hn, h1, h2⟩
        · rintro ⟨_, k, e', h0, h1, h2⟩
          rw [hn] at h0
          cases h0
          exact ⟨k, e', h1, h2⟩
    · have hto : tableOf e = none := by
        unfold tableOf
        split
        · next t ht => exact absurd ⟨t, ht⟩ hx
        · rfl
      rw [hto]
      refine (Runs.pure (appends_nil ?_)).congr fun rs m => ⟨False.elim, ?_⟩
      · rintro l d ⟨t, _, _, ht, -⟩
        exact hx ⟨t, ht⟩
      · rintro ⟨t, _, _, ht, -⟩
        exact hx ⟨t, ht⟩
  · rintro r m m' ⟨_, _, _, -, -, rfl, -⟩ ⟨t, k', e', -, -, hm⟩
    obtain ⟨rest, hr⟩ := entryMessage_loc hm
    simp at hr

theorem sectionP_loc {e : Entry} {rs : Reason} {m : Msg} (h : SectionP ovf prev e loc rs m) :
    (∃ rest, rs.loc = loc ++ rest) ∧ (rs.loc = loc → rs.what = .type) := by
  rcases h with ⟨_, _, _, -, -, rfl, -⟩ | ⟨t, k, e', -, -, hm⟩
  · exact ⟨⟨[], by simp⟩, fun _ => rfl⟩
  · obtain ⟨rest, hr⟩ := entryMessage_loc hm
    refine ⟨⟨_, by rw [hr, List.append_assoc]⟩, fun h => ?_⟩
    rw [h] at hr
    simp at hr

/-- The keys with an underscore, and the ones without. -/
def oldKeys : List (String × String) :=
  [("dev_dependencies", "dev-dependencies"), ("build_dependencies", "build-dependencies")]

/-- The diagnostics of one key of a table with sections. -/
def OwnP (ovf : Bool) (path : List Seg) (loc : Loc) (t : MapTable) (k : Str) (e : Entry) : Pred := fun rs m =>
  (∃ on ∈ oldKeys, k = on.1.toList ∧ OldP path t e loc on.1 on.2 rs m) ∨
  (∃ key kind, k = key.toList ∧ Spec.Check.SectionKey t key kind ∧ SectionP ovf path e (loc ++ [.key k]) rs m)

/-- The dependencies of one key of a table with sections. -/
def OwnD (ovf : Bool) (loc : Loc) (t : MapTable) (target : Option Str) (k : Str) (e : Entry) (l : Loc)
    (d : Dependency) : Prop :=
  ∃ key kind, k = key.toList ∧ Spec.Check.SectionKey t key kind ∧ SectionD ovf e (loc ++ [.key k]) kind target l d

/-- All versions of a table with sections. -/
def OwnVersions (ovf : Bool) (t : MapTable) : Prop :=
  ∀ k e key kind, TomlMap.get t k = some e → k = key.toList → Spec.Check.SectionKey t key kind → SectionVersions ovf e

theorem sectionKey_inv {k : String} {kind : DependencyKind} (h : Spec.Check.SectionKey t k kind) :
    (k = "dependencies" ∧ kind = .normal) ∨ (k = "dev-dependencies" ∧ kind = .dev) ∨
    (k = "dev_dependencies" ∧ ¬ HasKey t "dev-dependencies" ∧ kind = .dev) ∨
    (k = "build-dependencies" ∧ kind = .build) ∨
    (k = "build_dependencies" ∧ ¬ HasKey t "build-dependencies" ∧ kind = .build) := by
  cases h with
  | normal => simp
  | dev => simp
  | devOld h => simp [h]
  | build => simp
  | buildOld h => simp [h]

theorem sectionKey_unique {k : String} {a b : DependencyKind} (h : Spec.Check.SectionKey t k a)
    (h' : Spec.Check.SectionKey t k b) : a = b := by
  rcases sectionKey_inv h with ⟨p, rfl⟩ | ⟨p, rfl⟩ | ⟨p, -, rfl⟩ | ⟨p, rfl⟩ | ⟨p, -, rfl⟩ <;>
    rcases sectionKey_inv h' with ⟨q, rfl⟩ | ⟨q, rfl⟩ | ⟨q, -, rfl⟩ | ⟨q, rfl⟩ | ⟨q, -, rfl⟩ <;>
    first
    | rfl
    | (exfalso; rw [p] at q; revert q; decide)

theorem runs_plain {key : String} {kind : DependencyKind} {e : Entry} (hk : Spec.Check.SectionKey t key kind)
    (hold : ∀ on ∈ oldKeys, key ≠ on.1) (h : Here asts path loc key.toList e) (hv : SectionVersions ovf e)
    (s : List Dependency) (target : Option Str) :
    Runs (section_ ovf s path e kind target) (Appends s (OwnD ovf loc t target key.toList e))
      (OwnP ovf path loc t key.toList e) := by
  refine ((runs_section h hv s kind target).congr fun rs m => ?_).mono ?_
  · constructor
    · intro hm
      exact Or.inr ⟨key, kind, rfl, hk, hm⟩
    · rintro (⟨on, hon, hh, -⟩ | ⟨key', kind', hh, hk', hm⟩)
      · exact absurd (toList_inj hh) (hold on hon)
      · exact hm
  · rintro s' ⟨as, rfl, has⟩
    refine ⟨as, rfl, has.congr fun l d => ?_⟩
    constructor
    · intro hd
      exact ⟨key, kind, rfl, hk, hd⟩
    · rintro ⟨key', kind', hh, hk', hd⟩
      have := toList_inj hh
      subst this
      rw [sectionKey_unique hk hk']
      exact hd

theorem runs_old {old new : String} {kind : DependencyKind} {e : Entry} (hon : (old, new) ∈ oldKeys)
    (hk : ∀ kind', Spec.Check.SectionKey t old kind' ↔ ¬ HasKey t new ∧ kind' = kind)
    (h : Here asts path loc old.toList e) (ht : ∀ k e, TomlMap.get t k = some e → Here asts path loc k e)
    (hv : ¬ HasKey t new → SectionVersions ovf e) (s : List Dependency) (target : Option Str) :
    Runs (oldSection ovf s path t old.toList new.toList e kind target)
      (Appends s (OwnD ovf loc t target old.toList e)) (OwnP ovf path loc t old.toList e) := by
  unfold oldSection
  have hfun : ∀ on ∈ oldKeys, on.1 = old → on = (old, new) := by
    have hall : ∀ a ∈ oldKeys, ∀ b ∈ oldKeys, a.1 = b.1 → a = b := by decide
    exact fun on h1 h2 => hall on h1 _ hon h2
  have hD : ∀ l d, OwnD ovf loc t target old.toList e l d ↔
      ¬ HasKey t new ∧ SectionD ovf e (loc ++ [.key old.toList]) kind target l d := by
    intro l d
    constructor
    · rintro ⟨key, kind', hh, hk', hd⟩
      have := toList_inj hh
      subst this
      obtain ⟨h1, rfl⟩ := (hk kind').1 hk'
      exact ⟨h1, hd⟩
    · rintro ⟨h1, hd⟩
      exact ⟨old, kind, rfl, (hk kind).2 ⟨h1, rfl⟩, hd⟩
  refine Runs.congr (Runs.bind (runs_deprecated h ht) (S := Appends s (OwnD ovf loc t target old.toList e))
    (P' := fun rs m => ¬ HasKey t new ∧ SectionP ovf path e (loc ++ [.key old.toList]) rs m) ?_ ?_) fun rs m => ?_
  · rintro a rfl
    by_cases hkey : HasKey t new
    · have : (TomlMap.get t new.toList).isSome = true := by
        obtain ⟨e', he'⟩ := hkey
        rw [he']; rfl
      rw [this, if_pos rfl]
      refine (Runs.pure (appends_nil ?_)).congr fun rs m => ⟨False.elim, fun h => h.1 hkey⟩
      intro l d hd
      exact ((hD l d).1 hd).1 hkey
    · have : (TomlMap.get t new.toList).isSome = false := by
        cases hx : TomlMap.get t new.toList with
        | none => rfl
        | some e' => exact absurd ⟨e', hx⟩ hkey
      rw [this, if_neg (by simp)]
      refine ((runs_section h (hv hkey) s kind target).congr fun rs m => by simp [hkey]).mono ?_
      rintro s' ⟨as, rfl, has⟩
      exact ⟨as, rfl, has.congr fun l d => by rw [hD]; simp [hkey]⟩
  · rintro r m m' ⟨_, _, _, -, -, rfl, -⟩ ⟨-, hm⟩
    have := (sectionP_loc hm).2 rfl
    simp at this
  · constructor
    · rintro (hm | ⟨h1, hm⟩)
      · exact Or.inl ⟨(old, new), hon, rfl, hm⟩
      · exact Or.inr ⟨old, kind, rfl, (hk kind).2 ⟨h1, rfl⟩, hm⟩
    · rintro (⟨on, hon', hh, hm⟩ | ⟨key, kind', hh, hk', hm⟩)
      · have := hfun on hon' (toList_inj hh).symm
        subst this
        exact Or.inl hm
      · have := toList_inj hh
        subst this
        exact Or.inr ⟨((hk _).1 hk').1, hm⟩

theorem runs_sectionStep {k : Str} {key : SectionKey} {e : Entry} (hl : sectionKeys.lookup k = some key)
    (hg : TomlMap.get t k = some e) (ht : ∀ k e, TomlMap.get t k = some e → Here asts path loc k e)
    (hv : OwnVersions ovf t) (s : List Dependency) (target : Option Str) :
    Runs (sectionStep ovf s path t target key e) (Appends s (OwnD ovf loc t target k e)) (OwnP ovf path loc t k e) := by
  have hm := lookup_some hl
  have h := ht k e hg
  simp only [sectionKeys, List.mem_cons, Prod.mk.injEq, List.not_mem_nil, or_false] at hm
  rcases hm with ⟨rfl, rfl⟩ | ⟨rfl, rfl⟩ | ⟨rfl, rfl⟩ | ⟨rfl, rfl⟩ | ⟨rfl, rfl⟩
  · exact runs_plain (.normal) (by decide) h (hv _ _ _ _ hg rfl .normal) s target
  · exact runs_plain (.dev) (by decide) h (hv _ _ _ _ hg rfl .dev) s target
  · refine runs_old (by simp [oldKeys]) (fun kind' => ?_) h ht (fun hk => hv _ _ _ _ hg rfl (.devOld hk)) s target
    constructor
    · intro h
      rcases sectionKey_inv h with ⟨p, -⟩ | ⟨p, -⟩ | ⟨-, h1, h2⟩ | ⟨p, -⟩ | ⟨p, -⟩
      · exact absurd p (by decide)
      · exact absurd p (by decide)
      · exact ⟨h1, h2⟩
      · exact absurd p (by decide)
      · exact absurd p (by decide)
    · rintro ⟨h1, rfl⟩
      exact .devOld h1
  · exact runs_plain (.build) (by decide) h (hv _ _ _ _ hg rfl .build) s target
  · refine runs_old (by simp [oldKeys]) (fun kind' => ?_) h ht (fun hk => hv _ _ _ _ hg rfl (.buildOld hk)) s target
    constructor
    · intro h
      rcases sectionKey_inv h with ⟨p, -⟩ | ⟨p, -⟩ | ⟨p, -⟩ | ⟨p, -⟩ | ⟨-, h1, h2⟩
      · exact absurd p (by decide)
      · exact absurd p (by decide)
      · exact absurd p (by decide)
      · exact absurd p (by decide)
      · exact ⟨h1, h2⟩
    · rintro ⟨h1, rfl⟩
      exact .buildOld h1

theorem ownP_loc {k : Str} {e : Entry} {rs : Reason} {m : Msg} (h : OwnP ovf path loc t k e rs m) :
    ∃ rest, rs.loc = loc ++ [.key k] ++ rest := by
  rcases h with ⟨on, -, rfl, _, _, _, -, -, rfl, -⟩ | ⟨_, _, -, -, hm⟩
  · exact ⟨[], by simp⟩
  · exact (sectionP_loc hm).1

theorem ownD_loc {k : Str} {e : Entry} {target : Option Str} {l : Loc} {d : Dependency}
    (h : OwnD ovf loc t target k e l d) : ∃ rest, l = loc ++ [.key k] ++ rest := by
  obtain ⟨_, _, -, -, _, k', _, -, -, rfl, -⟩ := h
  exact ⟨_, rfl⟩

theorem section_names : sectionKeys.map (·.1) = sectionNames.map String.toList := rfl

/-- No section at a key that is not a name of a section. -/
theorem ownP_name {k : Str} {e : Entry} {rs : Reason} {m : Msg} (h : OwnP ovf path loc t k e rs m) :
    k ∈ sectionNames.map String.toList := by
  rcases h with ⟨on, hon, rfl, -⟩ | ⟨key, kind, rfl, hk, -⟩
  · simp only [oldKeys, List.mem_cons, List.not_mem_nil, or_false] at hon
    rcases hon with rfl | rfl <;> exact List.mem_map_of_mem (by simp [sectionNames])
  · rcases sectionKey_inv hk with ⟨p, -⟩ | ⟨p, -⟩ | ⟨p, -⟩ | ⟨p, -⟩ | ⟨p, -⟩ <;> subst p <;>
      exact List.mem_map_of_mem (by simp [sectionNames])

theorem ownD_name {k : Str} {e : Entry} {target : Option Str} {l : Loc} {d : Dependency}
    (h : OwnD ovf loc t target k e l d) : k ∈ sectionNames.map String.toList := by
  obtain ⟨key, kind, rfl, hk, -⟩ := h
  rcases sectionKey_inv hk with ⟨p, -⟩ | ⟨p, -⟩ | ⟨p, -⟩ | ⟨p, -⟩ | ⟨p, -⟩ <;> subst p <;>
    exact List.mem_map_of_mem (by simp [sectionNames])

/-! ## Targets -/

/-- The diagnostics of the table of a target. -/
def TargetP (ovf : Bool) (path : List Seg) (loc : Loc) (t : MapTable) (k : Str) (e : Entry) : Pred := fun rs m =>
  OwnP ovf path loc t k e rs m ∨
  (k ∉ sectionNames.map String.toList ∧
    Warnings path e (loc ++ [.key k]) (loc ++ [.key k]) .unknown .ignoredUnknownKey rs m)

theorem targetP_loc {k : Str} {e : Entry} {rs : Reason} {m : Msg} (h : TargetP ovf path loc t k e rs m) :
    ∃ rest, rs.loc = loc ++ [.key k] ++ rest := by
  rcases h with h | ⟨-, _, _, -, rfl, -⟩
  · exact ownP_loc h
  · exact ⟨[], by simp⟩

theorem runs_parseTargetDependencies (hn : (t.map (·.1)).Nodup)
    (h : ∀ k e, TomlMap.get t k = some e → Here asts path loc k e) (hv : OwnVersions ovf t)
    (s : List Dependency) (x : Str) :
    Runs (parseTargetDependencies ovf s path t x)
      (Appends s fun l d => ∃ k e, TomlMap.get t k = some e ∧ OwnD ovf loc t (some x) k e l d)
      (fun rs m => ∃ k e, TomlMap.get t k = some e ∧ TargetP ovf path loc t k e rs m) := by
  unfold parseTargetDependencies
  refine Runs.collect (D := fun k e => OwnD ovf loc t (some x) k e) (P := fun k e => TargetP ovf path loc t k e)
    hn s (fun s k e hg => ?_) ?_ ?_
  · dsimp only
    cases hl : sectionKeys.lookup k with
    | some key =>
      refine (runs_sectionStep hl hg h hv s (some x)).congr fun rs m => ⟨Or.inl, ?_⟩
      rintro (hm | ⟨hk, -⟩)
      · exact hm
      · rw [← section_names] at hk
        exact absurd (List.mem_map_of_mem (f := Prod.fst) (lookup_some hl)) hk
    | none =>
      have hk := lookup_none hl
      rw [section_names] at hk
      refine ((runs_warnUnused (h k e hg)).bindR fun _ _ => Runs.pure (appends_nil ?_)).congr fun rs m => ?_
      · exact fun l d hd => hk (ownD_name hd)
      · refine ⟨fun hm => Or.inr ⟨hk, hm⟩, ?_⟩
        rintro (hm | ⟨-, hm⟩)
        · exact absurd (ownP_name hm) hk
        · exact hm
  · intro k k' e e' l d d' h1 h2
    obtain ⟨r1, h1⟩ := ownD_loc h1
    obtain ⟨r2, h2⟩ := ownD_loc h2
    rw [h1] at h2
    exact key_step h2
  · intro k k' e e' r m m' h1 h2
    obtain ⟨r1, h1⟩ := targetP_loc h1
    obtain ⟨r2, h2⟩ := targetP_loc h2
    rw [h1] at h2
    exact key_step h2

/-- The diagnostics of one entry of `target`. -/
def TargetEntryP (ovf : Bool) (path : List Seg) (loc : Loc) (x : Str) (e : Entry) : Pred := fun rs m =>
  TypeP path e (loc ++ [.key x]) .table rs m ∨
  ∃ t k e', e.node = .table t ∧ TomlMap.get t k = some e' ∧
    TargetP ovf (.table e.reprs :: path) (loc ++ [.key x]) t k e' rs m

/-- The dependencies of one entry of `target`. -/
def TargetEntryD (ovf : Bool) (loc : Loc) (x : Str) (e : Entry) (l : Loc) (d : Dependency) : Prop :=
  ∃ t k e', e.node = .table t ∧ TomlMap.get t k = some e' ∧ OwnD ovf (loc ++ [.key x]) t (some x) k e' l d

theorem targetEntryP_loc {x : Str} {e : Entry} {rs : Reason} {m : Msg} (h : TargetEntryP ovf path loc x e rs m) :
    ∃ rest, rs.loc = loc ++ [.key x] ++ rest := by
  rcases h with ⟨_, _, _, -, -, rfl, -⟩ | ⟨_, _, _, -, -, hm⟩
  · exact ⟨[], by simp⟩
  · obtain ⟨rest, hr⟩ := targetP_loc hm
    exact ⟨_, by rw [hr, List.append_assoc]⟩

theorem targetEntryD_loc {x : Str} {e : Entry} {l : Loc} {d : Dependency} (h : TargetEntryD ovf loc x e l d) :
    ∃ rest, l = loc ++ [.key x] ++ rest := by
  obtain ⟨_, _, _, -, -, hm⟩ := h
  obtain ⟨rest, hr⟩ := ownD_loc hm
  exact ⟨_, by rw [hr, List.append_assoc]⟩

/-- An expected table, and what is done with it. -/
theorem runs_withTable {k : Str} {e : Entry} (h : Here asts prev loc k e) {s : List Dependency}
    {f : MapTable → CheckM (List Dependency)} {D : MapTable → Loc → Dependency → Prop} {P : MapTable → Pred}
    (hf : ∀ t, e.node = .table t → Runs (f t) (Appends s (D t)) (P t))
    (hP : ∀ t rs m, P t rs m → ∃ k' rest, rs.loc = loc ++ [.key k] ++ [.key k'] ++ rest) :
    Runs (do
        match ← expectTable prev e with
        | some t => f t
        | none => pure s)
      (Appends s fun l d => ∃ t, e.node = .table t ∧ D t l d)
      (fun rs m => TypeP prev e (loc ++ [.key k]) .table rs m ∨ ∃ t, e.node = .table t ∧ P t rs m) := by
  refine Runs.bind (runs_expectTable h) ?_ ?_
  · rintro o rfl
    by_cases hx : ∃ t, e.node = .table t
    · obtain ⟨t, hn⟩ := hx
      simp only [tableOf, hn]
      refine ((hf t hn).congr fun rs m => ?_).mono ?_
      · constructor
        · intro h
          exact ⟨t, rfl, h⟩
        · rintro ⟨_, h0, h1⟩
          cases h0
          exact h1
      · rintro s' ⟨as, rfl, has⟩
        refine ⟨as, rfl, has.congr fun l d => ?_⟩
        constructor
        · intro h
          exact ⟨t, rfl, h⟩
        · rintro ⟨_, h0, h1⟩
          cases h0
          exact h1
    · have hto : tableOf e = none := by
        unfold tableOf
        split
        · next t ht => exact absurd ⟨t, ht⟩ hx
        · rfl
      rw [hto]
      refine (Runs.pure (appends_nil ?_)).congr fun rs m => ⟨False.elim, ?_⟩
      · rintro l d ⟨t, ht, -⟩
        exact hx ⟨t, ht⟩
      · rintro ⟨t, ht, -⟩
        exact hx ⟨t, ht⟩
  · rintro r m m' ⟨_, _, _, -, -, rfl, -⟩ ⟨t, -, hm⟩
    obtain ⟨k', rest, hr⟩ := hP _ _ _ hm
    simp at hr

theorem runs_parseTarget (hn : (t.map (·.1)).Nodup)
    (h : ∀ k e, TomlMap.get t k = some e → Here asts path loc k e)
    (hv : ∀ x e t', TomlMap.get t x = some e → e.node = .table t' → OwnVersions ovf t') (s : List Dependency) :
    Runs (parseTarget ovf s path t)
      (Appends s fun l d => ∃ x e, TomlMap.get t x = some e ∧ TargetEntryD ovf loc x e l d)
      (fun rs m => ∃ x e, TomlMap.get t x = some e ∧ TargetEntryP ovf path loc x e rs m) := by
  unfold parseTarget
  refine Runs.collect (D := fun x e => TargetEntryD ovf loc x e) (P := fun x e => TargetEntryP ovf path loc x e)
    hn s (fun s x e hg => ?_) ?_ ?_
  · have hh := h x e hg
    refine Runs.mono (Runs.congr (runs_withTable hh
      (D := fun t' l d => ∃ k e', TomlMap.get t' k = some e' ∧ OwnD ovf (loc ++ [.key x]) t' (some x) k e' l d)
      (P := fun t' rs m => ∃ k e', TomlMap.get t' k = some e' ∧
        TargetP ovf (.table e.reprs :: path) (loc ++ [.key x]) t' k e' rs m)
      (fun t' ht' => runs_parseTargetDependencies (hh.nodup ht') (fun k e' hg' => hh.child ht' hg')
        (hv x e t' hg ht') s x) ?_) fun rs m => ?_) ?_
    · rintro t' rs m ⟨k, e', -, hm⟩
      obtain ⟨rest, hr⟩ := targetP_loc hm
      exact ⟨k, rest, hr⟩
    · unfold TargetEntryP
      constructor
      · rintro (hm | ⟨t', h1, k, e', h2, h3⟩)
        · exact Or.inl hm
        · exact Or.inr ⟨t', k, e', h1, h2, h3⟩
      · rintro (hm | ⟨t', k, e', h1, h2, h3⟩)
        · exact Or.inl hm
        · exact Or.inr ⟨t', h1, k, e', h2, h3⟩
    · rintro s' ⟨as, rfl, has⟩
      refine ⟨as, rfl, has.congr fun l d => ?_⟩
      constructor
      · rintro ⟨t', h1, k, e', h2, h3⟩
        exact ⟨t', k, e', h1, h2, h3⟩
      · rintro ⟨t', k, e', h1, h2, h3⟩
        exact ⟨t', h1, k, e', h2, h3⟩
  · intro k k' e e' l d d' h1 h2
    obtain ⟨r1, h1⟩ := targetEntryD_loc h1
    obtain ⟨r2, h2⟩ := targetEntryD_loc h2
    rw [h1] at h2
    exact key_step h2
  · intro k k' e e' r m m' h1 h2
    obtain ⟨r1, h1⟩ := targetEntryP_loc h1
    obtain ⟨r2, h2⟩ := targetEntryP_loc h2
    rw [h1] at h2
    exact key_step h2

end Verif.Ide
