import Verif.Ide.CheckDoc

/-! # Each entry that is a version or a table stands for a dependency -/

namespace Verif.Ide
open Verif Verif.Toml Verif.TomlMap
open Verif.Spec.Toml hiding Entry KeyOk
open Verif.Spec.Check hiding Section SectionKey

variable {root t : MapTable} {ovf : Bool}

theorem optStr_exists (t : MapTable) (k : String) : ∃ o, OptStr t k o := by
  by_cases h : HasStr t k
  · obtain ⟨a, ha⟩ := h
    exact ⟨some a, fun b => ⟨fun e => by cases e; exact ha, fun hb => by rw [isStr_unique ha hb]⟩⟩
  · exact ⟨none, fun b => ⟨fun e => by (cases e), fun hb => absurd ⟨b, hb⟩ h⟩⟩

theorem optFlag_exists (t : MapTable) (k : String) : ∃ o, OptFlag t k o := by
  by_cases h : ∃ a, Flag t k a
  · obtain ⟨a, ha⟩ := h
    exact ⟨some a, fun b => ⟨fun e => by cases e; exact ha, fun hb => by rw [flag_unique ha hb]⟩⟩
  · exact ⟨none, fun b => ⟨fun e => by (cases e), fun hb => absurd ⟨b, hb⟩ h⟩⟩

theorem version_exists {a : StringAssignment} (h : VersionOk ovf a.val) : ∃ v, v.str = a ∧ Version ovf v := by
  obtain ⟨s, h1, h2⟩ := h
  cases hp : Semver.parseRequirement ovf a.val.text s.start with
  | ok r => exact ⟨⟨a, some r⟩, rfl, s, h1, by simp [hp]⟩
  | err e => exact ⟨⟨a, none⟩, rfl, s, h1, by simp [hp]⟩
  | panic => exact absurd hp h2

theorem optVersion_exists (h : ∀ a, IsStr t "version" a → VersionOk ovf a.val) : ∃ o, OptVersion ovf t o := by
  by_cases hs : HasStr t "version"
  · obtain ⟨a, ha⟩ := hs
    obtain ⟨v, rfl, hv⟩ := version_exists (h a ha)
    exact ⟨some v, fun w e => by cases e; exact ⟨ha, hv⟩, fun e => by cases e⟩
  · exact ⟨none, fun w e => by (cases e), fun _ => hs⟩

theorem gitSpec_exists (t : MapTable) : ∃ s, GitSpec t s := by
  by_cases h1 : HasStr t "branch" <;> by_cases h2 : HasStr t "tag" <;> by_cases h3 : HasStr t "rev"
  · exact ⟨_, .branchTag h1 h2⟩
  · exact ⟨_, .branchTag h1 h2⟩
  · exact ⟨_, .branchRev h1 h3⟩
  · exact ⟨_, .branch h1.choose_spec h2 h3⟩
  · exact ⟨_, .tagRev h2 h3⟩
  · exact ⟨_, .tag h2.choose_spec h1 h3⟩
  · exact ⟨_, .rev h3.choose_spec h1 h2⟩
  · exact ⟨_, .none h1 h2 h3⟩

theorem source_exists (h : ¬ HasWorkspace t → ¬ (HasStr t "git" ∧ (HasStr t "path" ∨ HasStr t "registry")) →
    ∀ a, IsStr t "version" a → VersionOk ovf a.val) : ∃ s, Source ovf t s := by
  by_cases hw : HasWorkspace t
  · obtain ⟨a, ha⟩ := hw
    cases hv : a.val with
    | true => exact ⟨_, .workspace ha hv⟩
    | false => exact ⟨_, .invalid ha hv⟩
  · obtain ⟨r, hr⟩ := optStr_exists t "registry"
    have h := h hw
    by_cases hg : HasStr t "git"
    · by_cases hp : HasStr t "path"
      · exact ⟨_, .gitPath hw hg hp⟩
      · by_cases hr : HasStr t "registry"
        · exact ⟨_, .gitRegistry hw hg hr⟩
        · obtain ⟨s, hs⟩ := gitSpec_exists t
          obtain ⟨v, hv⟩ := optVersion_exists (h (by rintro ⟨-, h | h⟩ <;> contradiction))
          exact ⟨_, .git hw hg.choose_spec hp hr hs hv⟩
    · have h := h (fun h => hg h.1)
      obtain ⟨v, hv⟩ := optVersion_exists h
      by_cases hp : HasStr t "path"
      · exact ⟨_, .path hw hg hp.choose_spec hv hr⟩
      · by_cases hs : HasStr t "version"
        · obtain ⟨a, ha⟩ := hs
          obtain ⟨w, rfl, hw'⟩ := version_exists (h a ha)
          exact ⟨_, .registry hw hg hp ha hw' hr⟩
        · exact ⟨_, .missing hw hg hp hs hr⟩

theorem features_exists (t : MapTable) : ∃ f, Features t f := by
  obtain ⟨o, h1, h2⟩ : ∃ o, (HasKey t "default-features" → OptFlag t "default-features" o) ∧
      (¬ HasKey t "default-features" → OptFlag t "default_features" o) := by
    by_cases h : HasKey t "default-features"
    · obtain ⟨o, ho⟩ := optFlag_exists t "default-features"
      exact ⟨o, fun _ => ho, fun h' => absurd h h'⟩
    · obtain ⟨o, ho⟩ := optFlag_exists t "default_features"
      exact ⟨o, fun h' => absurd h' h, fun _ => ho⟩
  by_cases hl : ∃ e n a es, TomlMap.get t "features".toList = some e ∧ e.node = .inline n a es
  · obtain ⟨e, n, a, es, hg, hn⟩ := hl
    refine ⟨⟨o, Spec.Check.strings es⟩, h1, h2, ?_, fun h => absurd hn (h _ _ _ _ hg)⟩
    intro e' n' a' es' hg' hn'
    rw [hg] at hg'
    cases hg'
    rw [hn] at hn'
    cases hn'
    rfl
  · refine ⟨⟨o, []⟩, h1, h2, ?_, fun _ => rfl⟩
    intro e' n' a' es' hg' hn'
    exact absurd ⟨_, _, _, _, hg', hn'⟩ hl

theorem describes_exists {e : Entry} (h : EntryVersions ovf e) {r : Repr} (hr : e.reprs.head? = some r)
    (he : (∃ t, e.node = .table t) ∨ ∃ s, e.node = .scalar (.string s)) (name : Str) (kind : DependencyKind)
    (target : Option Str) :
    ∃ d : Dependency, (d.name = name ∧ d.kind = kind ∧ d.target = target ∧ d.entry = e) ∧ Describes ovf e d := by
  rcases he with ⟨t, ht⟩ | ⟨s, hs⟩
  · obtain ⟨sp, hsp⟩ := source_exists (fun h1 h2 a ha => h _ (.table ht h1 h2 ha))
    obtain ⟨p, hp⟩ := optStr_exists t "package"
    obtain ⟨o, ho⟩ := optFlag_exists t "optional"
    obtain ⟨f, hf⟩ := features_exists t
    exact ⟨⟨name, p, kind, target, sp, f, o, e⟩, ⟨rfl, rfl, rfl, rfl⟩, .table ht hsp hp ho hf⟩
  · obtain ⟨v, hv, hv'⟩ := version_exists (a := ⟨r, s⟩) (h _ (.string hs))
    exact ⟨⟨name, none, kind, target, .registry v none, ⟨none, []⟩, none, e⟩, ⟨rfl, rfl, rfl, rfl⟩,
      .version (by rw [hv]; exact hs) (by rw [hv]; exact hr) hv' rfl rfl rfl rfl⟩

variable {asts : List Ast}

theorem node_entry {ar : Option (List Repr)} (h : NodeOk asts ar (.table t)) {k : Str} {e : Entry}
    (hg : TomlMap.get t k = some e) : (∃ r, e.reprs.head? = some r) ∧ NodeOk asts (some e.reprs) e.node := by
  obtain ⟨h1, -, h3, -⟩ := NodeOk.entry h hg
  refine ⟨?_, h3⟩
  cases hh : e.reprs with
  | nil => exact absurd hh h1
  | cons a l => exact ⟨a, rfl⟩

/-- The entry has a representation, and its versions can be parsed. -/
theorem depEntry_ok (h : MapOk asts root) (hv : Versions ovf root) {loc : Loc} {path : List Seg}
    {kind : DependencyKind} {target : Option Str} {name : Str} {e : Entry}
    (hd : DepEntry root loc path kind target name e) :
    (∃ r, e.reprs.head? = some r) ∧ EntryVersions ovf e := by
  cases hd with
  | mk hs hn hg =>
    cases hs with
    | mk ho hk hg0 =>
      cases ho with
      | root =>
        refine ⟨?_, hv.own _ _ _ _ hg0 rfl hk _ _ _ hn hg⟩
        obtain ⟨-, h1⟩ := node_entry h hg0
        rw [hn] at h1
        exact (node_entry h1 hg).1
      | target g1 g2 g3 g4 =>
        refine ⟨?_, hv.target _ _ _ _ _ g1 g2 g3 g4 _ _ _ _ hg0 rfl hk _ _ _ hn hg⟩
        obtain ⟨-, h1⟩ := node_entry h g1
        rw [g2] at h1
        obtain ⟨-, h2⟩ := node_entry h1 g3
        rw [g4] at h2
        obtain ⟨-, h3⟩ := node_entry h2 hg0
        rw [hn] at h3
        exact (node_entry h3 hg).1

theorem dependency_exists (h : MapOk asts root) (hv : Versions ovf root) {loc : Loc} {path : List Seg}
    {kind : DependencyKind} {target : Option Str} {name : Str} {e : Entry}
    (hd : DepEntry root loc path kind target name e)
    (he : (∃ t, e.node = .table t) ∨ ∃ s, e.node = .scalar (.string s)) :
    ∃ d, IsDependency ovf root loc d ∧ d.name = name ∧ d.kind = kind ∧ d.target = target ∧ d.entry = e := by
  obtain ⟨⟨r, hr⟩, hev⟩ := depEntry_ok h hv hd
  obtain ⟨d, ⟨e1, e2, e3, e4⟩, hdes⟩ := describes_exists hev hr he name kind target
  refine ⟨d, ⟨⟨path, ?_⟩, by rw [e4]; exact hdes⟩, e1, e2, e3, e4⟩
  rw [e1, e2, e3, e4]
  exact hd

/-! ## Messages -/

theorem here_owner (h : MapOk asts root) {loc : Loc} {path : List Seg} {target : Option Str} {t : MapTable}
    (ho : Owner root loc path target t) {k : Str} {e : Entry} (hg : TomlMap.get t k = some e) :
    Here asts path loc k e := by
  cases ho with
  | root => exact here_root h hg
  | target h1 h2 h3 h4 => exact ((((here_root h h1).child h2 h3)).child h4 hg)

theorem here_dep (h : MapOk asts root) {loc : Loc} {path : List Seg} {kind : DependencyKind}
    {target : Option Str} {name : Str} {e : Entry} (hd : DepEntry root loc path kind target name e) :
    ∃ loc', loc = loc' ++ [.key name] ∧ Here asts path loc' name e := by
  cases hd with
  | mk hs hn hg =>
    cases hs with
    | mk ho hk hg0 => exact ⟨_, rfl, (here_owner h ho hg0).child hn hg⟩

theorem errorAt_exists {path : List Seg} {loc : Loc} {k : Str} {e : Entry} (h : Here asts path loc k e) {r : Repr}
    (hr : r ∈ e.reprs) (shown : Loc) (kind : ErrorKind) : ∃ m, ErrorAt path r shown kind m := by
  obtain ⟨h1, ⟨s, h2⟩, -⟩ := h.repr hr
  obtain ⟨ls, hls⟩ := contextLines_some h.path (ns := [r.parent]) (by simpa using h1)
  exact ⟨_, ls, s, contextLines_spec hls, h2, rfl⟩

theorem warningAt_exists {path : List Seg} {loc : Loc} {k : Str} {e : Entry} (h : Here asts path loc k e) {r : Repr}
    (hr : r ∈ e.reprs) (shown : Loc) (kind : WarningKind) : ∃ m, WarningAt path r shown kind m := by
  obtain ⟨h1, ⟨s, h2⟩, -⟩ := h.repr hr
  obtain ⟨ls, hls⟩ := contextLines_some h.path (ns := [r.parent]) (by simpa using h1)
  exact ⟨_, ls, s, contextLines_spec hls, h2, rfl⟩

theorem once_reindex {R S A : Type} {as : List A} {P : R → A → Prop} (h : ExactlyOnce as P) (f : R → S)
    {Q : S → A → Prop} (hQ : ∀ s a, Q s a ↔ ∃ r, f r = s ∧ P r a)
    (hf : ∀ r r' a a', P r a → P r' a' → f r = f r' → r = r') : ExactlyOnce as Q := by
  obtain ⟨l, rfl, h1, h2⟩ := h
  refine ⟨l.map fun x => (f x.1, x.2), by simp, ?_, ?_⟩
  · rw [List.map_map]
    have hl : ∀ x ∈ l, P x.1 x.2 := fun x hx => (h2 _ _).1 hx
    clear h2
    induction l with
    | nil => exact List.nodup_nil
    | cons x l ih =>
      simp only [List.map_cons, List.nodup_cons] at h1 ⊢
      refine ⟨fun hm => h1.1 ?_, ih h1.2 fun y hy => hl y (List.mem_cons_of_mem _ hy)⟩
      obtain ⟨y, hy, e⟩ := List.mem_map.1 hm
      rw [← hf _ _ _ _ (hl y (List.mem_cons_of_mem _ hy)) (hl x List.mem_cons_self) e]
      exact List.mem_map_of_mem hy
  · intro s a
    rw [hQ]
    simp only [List.mem_map, Prod.mk.injEq, Prod.exists]
    constructor
    · rintro ⟨r, b, hr, rfl, rfl⟩
      exact ⟨r, rfl, (h2 _ _).1 hr⟩
    · rintro ⟨r, rfl, hr⟩
      exact ⟨r, a, (h2 _ _).2 hr, rfl, rfl⟩

/-! ## Contradictions -/

theorem isContradiction_error {path : List Seg} {r : Repr} {shown : Loc} {kind : ErrorKind} {m : Msg}
    (h : ErrorAt path r shown kind m) : isContradiction m = true ↔
      (kind = .depWorkspaceIsFalse ∨ kind = .ambigousDepSpecGitRegistry ∨ kind = .ambigousDepSpecGitPath ∨
        kind = .ambigousGitSpec ∨ ∃ k, kind = .depIgnoredGitKey k) := by
  obtain ⟨_, _, -, -, rfl⟩ := h
  cases kind <;> simp [isContradiction]

theorem isContradiction_warning {path : List Seg} {r : Repr} {shown : Loc} {kind : WarningKind} {m : Msg}
    (h : WarningAt path r shown kind m) : isContradiction m = false := by
  obtain ⟨_, _, -, -, rfl⟩ := h
  rfl

theorem gitSpec_conflict : GitSpec t .conflicting ↔ ∃ a b, a ∈ ["branch", "tag", "rev"] ∧
    b ∈ ["branch", "tag", "rev"] ∧ a ≠ b ∧ HasStr t a ∧ HasStr t b := by
  constructor
  · intro h
    cases h with
    | branchTag h1 h2 => exact ⟨_, _, by simp, by simp, by decide, h1, h2⟩
    | branchRev h1 h2 => exact ⟨_, _, by simp, by simp, by decide, h1, h2⟩
    | tagRev h1 h2 => exact ⟨_, _, by simp, by simp, by decide, h1, h2⟩
  · rintro ⟨a, b, ha, hb, hne, h1, h2⟩
    simp only [List.mem_cons, List.not_mem_nil, or_false] at ha hb
    rcases ha with rfl | rfl | rfl <;> rcases hb with rfl | rfl | rfl
    all_goals
      first
      | exact absurd rfl hne
      | exact .branchTag ‹_› ‹_›
      | exact .branchRev ‹_› ‹_›
      | exact .tagRev ‹_› ‹_›

theorem contradiction_str {k : String} {ek : ErrorKind} (h : Contradiction t k ek) :
    (∃ a, k = "workspace" ∧ ek = .depWorkspaceIsFalse ∧ Flag t k a ∧ a.val = false) ∨
    (HasStr t k ∧ k ≠ "workspace" ∧ ek ≠ .depWorkspaceIsFalse) := by
  cases h with
  | workspaceFalse h1 h2 => exact Or.inl ⟨_, rfl, rfl, h1, h2⟩
  | gitRegistry h1 h2 h3 h4 =>
    simp only [List.mem_cons, List.not_mem_nil, or_false] at h4
    rcases h4 with rfl | rfl
    · exact Or.inr ⟨h2, by decide, by simp⟩
    · exact Or.inr ⟨h3, by decide, by simp⟩
  | gitPath h1 h2 h3 _ h4 =>
    simp only [List.mem_cons, List.not_mem_nil, or_false] at h4
    rcases h4 with rfl | rfl
    · exact Or.inr ⟨h2, by decide, by simp⟩
    · exact Or.inr ⟨h3, by decide, by simp⟩
  | gitSpec _ _ _ _ _ _ _ _ _ h1 h2 => exact Or.inr ⟨h2, by rintro rfl; simp at h1, by simp⟩
  | withoutGit _ _ h1 h2 => exact Or.inr ⟨h2, by rintro rfl; simp at h1, by simp⟩

/-- The error about a contradiction, as one about the source. -/
theorem contradiction_source {loc : Loc} {prev : List Seg} {e e' : Entry} {k : String} {ek : ErrorKind} {r : Repr}
    {m : Msg} (h : Contradiction t k ek) (hg : TomlMap.get t k.toList = some e') (hr : e'.reprs.head? = some r)
    (hm : ErrorAt (.table e.reprs :: prev) r loc ek m) :
    SourceMessage ovf loc prev e t ⟨loc ++ [.key k.toList], .source, 0⟩ m := by
  have str : ∀ a, IsStr t k a → a.repr = r := by
    rintro a ⟨e2, h1, -, h3⟩
    rw [hg] at h1
    cases h1
    rw [hr] at h3
    exact (Option.some.inj h3).symm
  rcases contradiction_str h with ⟨a, rfl, rfl, ⟨e2, h1, h2, h3⟩, hv⟩ | ⟨⟨a, ha⟩, hne, hne'⟩
  · refine .workspaceFalse (a := a) ⟨e2, h1, h2, h3⟩ hv ?_
    rw [hg] at h1
    cases h1
    rw [hr] at h3
    rw [← Option.some.inj h3]
    exact hm
  · have hm' : ErrorAt (.table e.reprs :: prev) a.repr loc ek m := by rw [str a ha]; exact hm
    cases h with
    | workspaceFalse => exact absurd rfl hne
    | gitRegistry h1 h2 h3 h4 => exact .gitRegistry h1 h2 h3 h4 ha hm'
    | gitPath h1 h2 h3 h4 h5 => exact .gitPath h1 h2 h3 h4 h5 ha hm'
    | gitSpec h1 h2 h3 h4 h5 h6 h7 h8 h9 h10 =>
      exact .gitSpec h1 h2 h3 h4 (gitSpec_conflict.2 ⟨_, _, h5, h6, h7, h8, h9⟩) h10 ha hm'
    | withoutGit h1 h2 h3 => exact .withoutGit h1 h2 h3 ha hm'

theorem contradiction_iff (x : Loc × Str) (m : Msg) :
    ContradictionAt root x m ↔ ∃ loc k, x = (loc, k) ∧ Message ovf root ⟨loc ++ [.key k], .source, 0⟩ m ∧
      isContradiction m = true := by
  constructor
  · intro h
    cases h with
    | mk hd ht hc hg hr hm =>
      refine ⟨_, _, rfl, .entry hd (.source ht (contradiction_source hc hg hr hm)), (isContradiction_error hm).2 ?_⟩
      cases hc <;> simp
  · rintro ⟨loc, k, rfl, h, hm⟩
    have key : ∀ {loc' : Loc} {path : List Seg} {kind : DependencyKind} {target : Option Str} {name : Str} {e : Entry}
        {t : MapTable} {ck : String} {ek : ErrorKind} {a : Repr},
        DepEntry root loc' path kind target name e → e.node = .table t → Contradiction t ck ek →
        (∃ e', TomlMap.get t ck.toList = some e' ∧ e'.reprs.head? = some a) →
        ErrorAt (.table e.reprs :: path) a loc' ek m → loc' ++ [PStep.key ck.toList] = loc ++ [PStep.key k] →
        ContradictionAt root (loc, k) m := by
      intro loc' path kind target name e t ck ek a h1 h2 h3 ⟨e', h4, h5⟩ h6 h7
      obtain ⟨rfl, h8⟩ := List.append_inj' h7 rfl
      simp only [List.cons.injEq, PStep.key.injEq, and_true] at h8
      subst h8
      exact .mk h1 h2 h3 h4 h5 h6
    have str : ∀ {t : MapTable} {ck : String} {b : StringAssignment}, IsStr t ck b →
        ∃ e', TomlMap.get t ck.toList = some e' ∧ e'.reprs.head? = some b.repr := by
      rintro t ck b ⟨e', h1, -, h2⟩
      exact ⟨e', h1, h2⟩
    generalize hrs : (⟨loc ++ [.key k], .source, 0⟩ : Reason) = rs at h
    cases h with
    | unknown => simp at hrs
    | unknownTarget => simp at hrs
    | targetType => simp at hrs
    | targetEntryType => simp at hrs
    | deprecated => simp at hrs
    | sectionType => simp at hrs
    | entry hd h =>
      cases h with
      | version => simp at hrs
      | type => simp at hrs
      | key ht h => cases h <;> simp at hrs
      | source ht h =>
        cases h with
        | workspaceFalse h1 h2 h3 =>
          obtain ⟨e', g1, -, g2⟩ := id h1
          simp only [Reason.mk.injEq, and_true] at hrs
          exact key hd ht (.workspaceFalse h1 h2) ⟨e', g1, g2⟩ h3 hrs.symm
        | workspaceIgnored _ _ _ _ _ h => rw [isContradiction_warning h] at hm; cases hm
        | withoutGit h1 h2 h3 h4 h5 =>
          simp only [Reason.mk.injEq, and_true] at hrs
          exact key hd ht (.withoutGit h1 h2 h3 ⟨_, h4⟩) (str h4) h5 hrs.symm
        | gitRegistry h1 h2 h3 h4 h5 h6 =>
          simp only [Reason.mk.injEq, and_true] at hrs
          exact key hd ht (.gitRegistry h1 h2 h3 h4) (str h5) h6 hrs.symm
        | gitPath h1 h2 h3 h4 h5 h6 h7 =>
          simp only [Reason.mk.injEq, and_true] at hrs
          exact key hd ht (.gitPath h1 h2 h3 h4 h5) (str h6) h7 hrs.symm
        | gitSpec h1 h2 h3 h4 h5 h6 h7 h8 =>
          simp only [Reason.mk.injEq, and_true] at hrs
          obtain ⟨a, b, g1, g2, g3, g4, g5⟩ := gitSpec_conflict.1 h5
          exact key hd ht (.gitSpec h1 h2 h3 h4 g1 g2 g3 g4 g5 h6 ⟨_, h7⟩) (str h7) h8 hrs.symm
        | version => simp at hrs
        | missing => simp at hrs

theorem contradiction_reason {rs : Reason} {m : Msg} (h : Message ovf root rs m) (hm : isContradiction m = true) :
    ∃ loc k, rs = ⟨loc ++ [.key k], .source, 0⟩ := by
  have ne : ∀ {path : List Seg} {r : Repr} {shown : Loc} {kind : ErrorKind},
      ErrorAt path r shown kind m → (kind = .depWorkspaceIsFalse ∨ kind = .ambigousDepSpecGitRegistry ∨
        kind = .ambigousDepSpecGitPath ∨ kind = .ambigousGitSpec ∨ ∃ k, kind = .depIgnoredGitKey k) :=
    fun h => (isContradiction_error h).1 hm
  have nw : ∀ {path : List Seg} {r : Repr} {shown : Loc} {kind : WarningKind},
      ¬ WarningAt path r shown kind m := fun h => by rw [isContradiction_warning h] at hm; cases hm
  cases h with
  | unknown _ _ _ h => exact absurd h nw
  | unknownTarget _ _ _ _ h => exact absurd h nw
  | targetType _ _ _ h => simpa using ne h
  | targetEntryType _ _ _ _ _ h => simpa using ne h
  | deprecated _ _ _ _ _ h => exact absurd h nw
  | sectionType _ _ _ h => simpa using ne h
  | entry hd h =>
    cases h with
    | version => cases hm
    | type _ _ h => simpa using ne h
    | key ht h =>
      cases h with
      | unknown _ _ _ h => exact absurd h nw
      | type _ _ _ _ h => simpa using ne h
      | deprecated _ _ _ h => exact absurd h nw
      | features _ _ _ h => simpa using ne h
      | feature => cases hm
    | source ht h =>
      cases h with
      | workspaceIgnored _ _ _ _ _ h => exact absurd h nw
      | missing _ _ _ _ _ h => exact absurd h nw
      | version => cases hm
      | _ => exact ⟨_, _, rfl⟩

theorem contradictions_once {ms : List Msg} (h : ExactlyOnce ms (Message ovf root)) :
    ExactlyOnce (ms.filter isContradiction) (ContradictionAt root) := by
  refine once_reindex (once_filter h isContradiction) (fun r => (r.loc.dropLast,
    match r.loc.getLast? with
    | some (.key k) => k
    | _ => [])) ?_ ?_
  · intro x m
    rw [contradiction_iff (ovf := ovf)]
    constructor
    · rintro ⟨loc, k, rfl, h1, h2⟩
      exact ⟨_, by simp, h1, h2⟩
    · rintro ⟨rs, rfl, h1, h2⟩
      obtain ⟨loc, k, rfl⟩ := contradiction_reason h1 h2
      exact ⟨loc, k, by simp, h1, h2⟩
  · rintro r r' a a' ⟨h1, h2⟩ ⟨h1', h2'⟩ e
    obtain ⟨loc, k, rfl⟩ := contradiction_reason h1 h2
    obtain ⟨loc', k', rfl⟩ := contradiction_reason h1' h2'
    simp at e
    rw [e.1, e.2]

end Verif.Ide
