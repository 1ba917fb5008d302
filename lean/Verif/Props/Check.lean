import Verif.Ide.CheckOrder
import Verif.Ide.CheckTotal
import Verif.Ide.CheckRefine
import Verif.Ide.CheckTrap
import Verif.Semver.Trap
import Verif.Props.Map
import Verif.Props.Parse

/-! # Properties C49 to C51, C74 and C75: the check of a manifest

What the check finds is in `Spec/Check.lean` (`IsDependency`, `Source`, `Message`), keys and orders are in
`Spec/CheckDoc.lean` (`UnknownKey`, `Reordered`). -/

namespace Verif.Props
open Verif Verif.Toml Verif.TomlMap Verif.Ide
open Verif.Spec.Toml hiding Entry KeyOk
open Verif.Spec.Check hiding Section SectionKey

/-- The map of a text, with the entries of its tables in any order. -/
def MapOfText (ovf : Bool) (input : Str) (root : MapTable) : Prop :=
  ∃ a s t es, parseDocument ovf input = .ok a s ∧ map a.asts = some (t, es) ∧
    Reordered (.table t) (.table root)

variable {input : Str} {ovf : Bool} {root root' : MapTable} {ds : List Dependency} {ms : List Msg}

theorem map_of_text_ok {a : Asts} {s : PS} {t : MapTable} {es : List Error}
    (h : parseDocument ovf input = .ok a s) (hm : map a.asts = some (t, es)) : MapOk a.asts t := by
  obtain ⟨t', es', h1, h2⟩ := C47_map h
  rw [hm] at h1
  cases h1
  exact h2

theorem mapOfText_ok (h : MapOfText ovf input root) :
    ∃ T le a s, lex input = some (T, le) ∧ parseDocument ovf input = .ok a s ∧ MapOk a.asts root ∧
      NodeAt (¬ SplitPair T.tokens) input a.comments.length (.table root) := by
  obtain ⟨a, s, t, es, h1, h2, h3⟩ := h
  obtain ⟨t', es', h4, h5⟩ := C47_map h1
  rw [h2] at h4
  cases h4
  obtain ⟨T, le, -, hl, -⟩ := parse_post ovf input
  have h6 := nodeOk_reordered h5 h3
  exact ⟨T, le, a, s, hl, h1, h6, mapAt_of (C68_tree_in_text hl h1) h6⟩

/-! ## C74, C75 -/

/-- C75: all parts of the map of a text stand in the text: the names of the keys, the headers and
assignments they are in, the elements of arrays, and the values; as in C68, the place of a closing
bracket of a header is right if no header is split by a multi-line string. -/
theorem C75_map_in_text {T : Tokens} {le : List Error} (hl : lex input = some (T, le))
    (h : MapOfText ovf input root) : ∃ n, NodeAt (¬ SplitPair T.tokens) input n (.table root) := by
  obtain ⟨T', le', a, s, hl', -, -, h⟩ := mapOfText_ok h
  rw [hl] at hl'
  cases hl'
  exact ⟨_, h⟩

/-- C74: the check of the map of a text does not panic.  The parser of versions panics with overflow checks
for some numbers (C20), so those are excluded there. -/
theorem C74_no_panic_partial (h : MapOfText ovf input root) {ovf' : Bool} (ho : ovf' = false ∨ NoTrap root) :
    ∃ ds ms, check ovf' root = some (ds, ms) := by
  obtain ⟨T, le, a, s, -, -, h1, h2⟩ := mapOfText_ok h
  obtain ⟨ds, ms, h, -⟩ := check_spec h1 (versions_of h2 ho)
  exact ⟨ds, ms, h⟩

/-- C74: without overflow checks it never panics. -/
theorem C74_no_panic_release (h : MapOfText ovf input root) : ∃ ds ms, check false root = some (ds, ms) :=
  C74_no_panic_partial h (Or.inl rfl)

theorem requirement_panics (ovf : Bool) (text : Str) (pos : Pos) :
    Semver.parseRequirement ovf text pos = .panic ↔ ovf = true ∧ Spec.Semver.RequirementTraps text := by
  cases ovf with
  | false =>
    refine ⟨fun h => ?_, fun h => absurd h.1 (by simp)⟩
    exact absurd ((Semver.parseRequirement_good false text pos).panic h).1 (by simp)
  | true => simpa [Spec.Semver.RequirementTraps] using Semver.parseRequirement_trap text pos

/-- C74, exactly: for each text and each order of its tables, the check panics exactly if the build has overflow checks
and one of the version requirements that are read has a number where the parser of versions overflows. -/
theorem C74_panics_iff (h : MapOfText ovf input root) (ovf' : Bool) :
    check ovf' root = (none : Option (List Dependency × List Msg)) ↔ ovf' = true ∧ ReadsTrap root := by
  obtain ⟨T, le, a, s, -, -, h1, h2⟩ := mapOfText_ok h
  constructor
  · intro hc
    refine Classical.byContradiction fun hno => ?_
    obtain ⟨ds, ms, h, -⟩ := check_spec h1 (versions_reads (ovf := ovf') h2 fun loc path kind target name e v hd hv pos hp =>
      hno (((requirement_panics ovf' v.text pos).1 hp).imp id fun ht => ⟨_, _, _, _, _, e, v, hd, hv, ht⟩))
    rw [hc] at h
    cases h
  · rintro ⟨rfl, loc, path, kind, target, name, e, v, hd, hv, ht⟩
    exact check_fails h1 hd hv fun pos => (requirement_panics true v.text pos).2 ⟨rfl, ht⟩

theorem C74_no_panic_reads (h : MapOfText ovf input root) {ovf' : Bool} (ho : ovf' = false ∨ ¬ ReadsTrap root) :
    ∃ ds ms, check ovf' root = some (ds, ms) := by
  cases hc : check ovf' root with
  | some x => exact ⟨x.1, x.2, rfl⟩
  | none =>
    obtain ⟨e, ht⟩ := (C74_panics_iff h ovf').1 hc
    rcases ho with ho | ho
    · rw [e] at ho; cases ho
    · exact absurd ht ho

/-- The condition of `C74_no_panic_partial` implies the one of `C74_panics_iff`. -/
theorem reads_noTrap (h : NoTrap root) : ¬ ReadsTrap root := by
  rintro ⟨loc, path, kind, target, name, e, v, hd, hv, ht⟩
  exact reads_of (.inr h) _ _ _ _ _ _ _ hd hv .ZERO ((requirement_panics true v.text .ZERO).2 ⟨rfl, ht⟩)

/-! ## C49

A result of the check with overflow checks is the same as without, so versions are those that the parser
of versions gives without overflow checks. -/

/-- C49: the check finds each dependency of the manifest exactly once, and makes each diagnostic exactly
once. -/
theorem C49_check (h : MapOfText ovf input root) {ovf' : Bool} (hc : check ovf' root = some (ds, ms)) :
    ExactlyOnce ds (IsDependency false root) ∧ ExactlyOnce ms (Message false root) := by
  obtain ⟨T, le, a, s, -, -, h1, h2⟩ := mapOfText_ok h
  obtain ⟨ds', ms', h, h3, h4⟩ := check_spec h1 (versions_of (ovf := false) h2 (Or.inl rfl))
  rw [check_false hc] at h
  cases h
  exact ⟨h3, h4⟩


/-- C49: for each entry of a section of dependencies that is a table there is a dependency, whose source
is the one of the decision table `Source`, and this table has only one answer. -/
theorem C49_source (h : MapOfText ovf input root) {ovf' : Bool} (hc : check ovf' root = some (ds, ms)) {loc : Loc} {path : List Seg} {kind : DependencyKind}
    {target : Option Str} {name : Str} {e : TomlMap.Entry} {t : MapTable}
    (hd : DepEntry root loc path kind target name e) (ht : e.node = .table t) :
    ∃ d ∈ ds, d.name = name ∧ d.kind = kind ∧ d.target = target ∧ d.entry = e ∧ Source false t d.spec ∧
      ∀ spec, Source false t spec → spec = d.spec := by
  obtain ⟨T, le, a, s, -, -, h1, h2⟩ := mapOfText_ok h
  obtain ⟨hds, -⟩ := C49_check h hc
  obtain ⟨d, hd1, hd2⟩ : ∃ d, IsDependency false root loc d ∧
      (d.name = name ∧ d.kind = kind ∧ d.target = target ∧ d.entry = e) := by
    obtain ⟨d, hd', e1, e2, e3, e4⟩ := dependency_exists (ovf := false) h1 (versions_of h2 (Or.inl rfl)) hd (Or.inl ⟨t, ht⟩)
    exact ⟨d, hd', e1, e2, e3, e4⟩
  obtain ⟨e1, e2, e3, e4⟩ := hd2
  have hsrc : Source false t d.spec := by
    cases hd1.2 with
    | version h1 => rw [e4, ht] at h1; cases h1
    | table h1 h2 =>
      rw [e4, ht] at h1
      cases h1
      exact h2
  exact ⟨d, (hds.mem d).2 ⟨loc, hd1⟩, e1, e2, e3, e4, hsrc, fun spec hs => source_unique hs hsrc⟩

/-- C49: the name of the package of a dependency is the string of the key `package` if there is one, and otherwise the name of the dependency. -/
theorem C49_package (h : MapOfText ovf input root) {ovf' : Bool} (hc : check ovf' root = some (ds, ms)) {d : Dependency} (hd : d ∈ ds) :
    (∃ t a, d.entry.node = .table t ∧ IsStr t "package" a ∧ d.packageName = a.val.text) ∨
    (∀ t, d.entry.node = .table t → ¬ HasStr t "package") ∧ d.packageName = d.name := by
  obtain ⟨loc, hd⟩ := ((C49_check h hc).1.mem d).1 hd
  cases hd.2 with
  | version h1 _ _ _ h2 =>
    refine .inr ⟨fun t ht => ?_, ?_⟩
    · rw [h1] at ht; cases ht
    · unfold Dependency.packageName; rw [h2]; rfl
  | @table t h1 _ h2 =>
    cases hp : d.package with
    | some a => exact .inl ⟨t, a, h1, (h2 a).1 hp, by unfold Dependency.packageName; rw [hp]; rfl⟩
    | none =>
      refine .inr ⟨fun t' ht ⟨a, ha⟩ => ?_, by unfold Dependency.packageName; rw [hp]; rfl⟩
      rw [h1] at ht
      cases ht
      have := (h2 a).2 ha
      rw [hp] at this
      cases this

/-- C49: an entry that is a string is a dependency of the default registry with this version. -/
theorem C49_version (h : MapOfText ovf input root) {ovf' : Bool} (hc : check ovf' root = some (ds, ms)) {loc : Loc} {path : List Seg} {kind : DependencyKind}
    {target : Option Str} {name : Str} {e : TomlMap.Entry} {s : StringVal}
    (hd : DepEntry root loc path kind target name e) (hs : e.node = .scalar (.string s)) :
    ∃ d ∈ ds, d.name = name ∧ d.kind = kind ∧ d.target = target ∧ d.entry = e ∧
      ∃ v, d.spec = .registry v none ∧ v.str.val = s ∧ Version false v := by
  obtain ⟨T, le, a, s', -, -, h1, h2⟩ := mapOfText_ok h
  obtain ⟨hds, -⟩ := C49_check h hc
  obtain ⟨d, hd1, e1, e2, e3, e4⟩ := dependency_exists (ovf := false) h1 (versions_of h2 (Or.inl rfl)) hd (Or.inr ⟨s, hs⟩)
  refine ⟨d, (hds.mem d).2 ⟨loc, hd1⟩, e1, e2, e3, e4, ?_⟩
  cases hd1.2 with
  | version h1 h2 h3 h4 =>
    rw [e4, hs] at h1
    cases h1
    exact ⟨_, h4, rfl, h3⟩
  | table h1 h2 =>
    rw [e4, hs] at h1
    cases h1

/-- C49: an entry that is neither a string nor a table is no dependency. -/
theorem C49_other (h : MapOfText ovf input root) {ovf' : Bool} (hc : check ovf' root = some (ds, ms)) {d : Dependency} (hd : d ∈ ds) :
    (∃ loc path, DepEntry root loc path d.kind d.target d.name d.entry) ∧
      ((∃ t, d.entry.node = .table t) ∨ ∃ s, d.entry.node = .scalar (.string s)) := by
  obtain ⟨hds, -⟩ := C49_check h hc
  obtain ⟨loc, ⟨path, h1⟩, h2⟩ := (hds.mem d).1 hd
  refine ⟨⟨loc, path, h1⟩, ?_⟩
  cases h2 with
  | version h => exact Or.inr ⟨_, h⟩
  | table h => exact Or.inl ⟨_, h⟩

/-- C49: the errors about contradictory keys are exactly those of the list `Contradiction`, one for each
key of a dependency that takes part in one. -/
theorem C49_contradictions (h : MapOfText ovf input root) {ovf' : Bool} (hc : check ovf' root = some (ds, ms)) :
    ExactlyOnce (ms.filter isContradiction) (ContradictionAt root) :=
  contradictions_once (C49_check h hc).2

/-- C49: and each contradiction is reported. -/
theorem C49_reported (h : MapOfText ovf input root) {ovf' : Bool} (hc : check ovf' root = some (ds, ms)) {loc : Loc} {path : List Seg} {kind : DependencyKind}
    {target : Option Str} {name : Str} {e : TomlMap.Entry} {t : MapTable} {k : String} {ek : ErrorKind}
    (hd : DepEntry root loc path kind target name e) (ht : e.node = .table t)
    (hk : Contradiction t k ek) :
    ∃ e' r m, TomlMap.get t k.toList = some e' ∧ e'.reprs.head? = some r ∧
      ErrorAt (.table e.reprs :: path) r loc ek m ∧ m ∈ ms := by
  obtain ⟨T, le, a, s', -, -, h1, h2⟩ := mapOfText_ok h
  obtain ⟨e', he'⟩ : ∃ e', TomlMap.get t k.toList = some e' := by
    rcases contradiction_str hk with ⟨_, -, -, ⟨e', he, -⟩, -⟩ | ⟨⟨_, e', he, -⟩, -⟩ <;> exact ⟨e', he⟩
  obtain ⟨loc', rfl, hh⟩ := here_dep h1 hd
  have hc' := hh.child ht he'
  obtain ⟨r, hr, hr'⟩ := hc'.head
  obtain ⟨m, hm⟩ := errorAt_exists hc' hr' (loc' ++ [.key name]) ek
  refine ⟨e', r, m, he', hr, hm, ?_⟩
  have := ((C49_contradictions h hc).mem m).2 ⟨_, .mk hd ht hk he' hr hm⟩
  exact (List.mem_filter.1 this).1

/-! ## C50 -/

/-- C50: with the entries of the tables in any other order than the one in which they were made, the check
finds the same dependencies and makes the same diagnostics. -/
theorem C50_order {a : Asts} {s : PS} {t : MapTable} {es : List Error} (h : parseDocument ovf input = .ok a s)
    (hm : map a.asts = some (t, es)) (hr : Reordered (.table t) (.table root)) {ovf' : Bool}
    {ds' : List Dependency} {ms' : List Msg} (hc : check ovf' t = some (ds, ms))
    (hc' : check ovf' root = some (ds', ms')) : SameDependencies ds ds' ∧ ms.Perm ms' := by
  have hok := map_of_text_ok h hm
  obtain ⟨h1, h2⟩ := C49_check ⟨a, s, t, es, h, hm, reordered_refl hok⟩ hc
  obtain ⟨h3, h4⟩ := C49_check ⟨a, s, t, es, h, hm, hr⟩ hc'
  exact ⟨dependencies_reordered hok hr h1 h3,
    h2.perm (h4.congr fun rs m => (message_reordered hok hr rs m).symm)⟩

/-- C50: without overflow checks there are results in each order. -/
theorem C50_order_release {a : Asts} {s : PS} {t : MapTable} {es : List Error}
    (h : parseDocument ovf input = .ok a s) (hm : map a.asts = some (t, es))
    (hr : Reordered (.table t) (.table root)) :
    ∃ ds ms ds' ms', check false t = some (ds, ms) ∧ check false root = some (ds', ms') ∧
      SameDependencies ds ds' ∧ ms.Perm ms' := by
  obtain ⟨ds, ms, h1⟩ := C74_no_panic_release ⟨a, s, t, es, h, hm, reordered_refl (map_of_text_ok h hm)⟩
  obtain ⟨ds', ms', h2⟩ := C74_no_panic_release ⟨a, s, t, es, h, hm, hr⟩
  exact ⟨ds, ms, ds', ms', h1, h2, C50_order h hm hr h1 h2⟩

/-- C50: whether the check panics does not depend on the order. -/
theorem C50_panics (h : MapOfText ovf input root) (h' : MapOfText ovf input root') (ovf' : Bool) :
    check ovf' root = (none : Option (List Dependency × List Msg)) ↔
      check ovf' root' = (none : Option (List Dependency × List Msg)) := by
  rw [C74_panics_iff h, C74_panics_iff h']
  obtain ⟨a, s, t, es, p, hm, hr⟩ := h
  obtain ⟨a', s', t', es', p', hm', hr'⟩ := h'
  rw [p] at p'
  cases p'
  rw [hm] at hm'
  cases hm'
  have hok := map_of_text_ok p hm
  rw [← readsTrap_reordered hok hr, ← readsTrap_reordered hok hr']

/-- C50: the diagnostics are the same for any two orders. -/
theorem C50_messages {ovf' : Bool} {ds' : List Dependency} {ms' : List Msg} (h : MapOfText ovf input root)
    (h' : MapOfText ovf input root') (hc : check ovf' root = some (ds, ms))
    (hc' : check ovf' root' = some (ds', ms')) : ms.Perm ms' := by
  have c1 := (C49_check h hc).2
  have c2 := (C49_check h' hc').2
  obtain ⟨a, s, t, es, p, hm, hr⟩ := h
  obtain ⟨a', s', t', es', p', hm', hr'⟩ := h'
  rw [p] at p'
  cases p'
  rw [hm] at hm'
  cases hm'
  have hok := map_of_text_ok p hm
  exact c1.perm (c2.congr fun rs m =>
    ((message_reordered hok hr' rs m).symm).trans (message_reordered hok hr rs m))

/-! ## C51 -/

/-- C51: the warnings about unknown keys are exactly these: one for each representation of each key that
is not known, in the document, in a target and in a dependency. -/
theorem C51_unknown (h : MapOfText ovf input root) {ovf' : Bool} (hc : check ovf' root = some (ds, ms)) : ExactlyOnce (ms.filter isUnknown) (UnknownKey root) :=
  (once_filter (C49_check h hc).2 isUnknown).congr fun rs m => unknown_iff rs m

/-- C51: and each representation of such a key has one. -/
theorem C51_reported (h : MapOfText ovf input root) {ovf' : Bool} (hc : check ovf' root = some (ds, ms)) {loc : Loc} {path : List Seg} {t : MapTable} {keys : List String}
    {k : Str} {e : TomlMap.Entry} {r : Repr} (hk : KnownKeys root loc path t keys)
    (hg : TomlMap.get t k = some e) (hn : k ∉ keys.map String.toList) (hr : r ∈ e.reprs) :
    ∃ m ∈ ms, WarningAt path r (loc ++ [.key k]) .ignoredUnknownKey m := by
  obtain ⟨T, le, a, s', -, -, h1, h2⟩ := mapOfText_ok h
  obtain ⟨i, hi⟩ := List.mem_iff_getElem?.1 hr
  have hh : ∃ loc', Here a.asts path loc' k e := by
    cases hk with
    | root => exact ⟨_, here_root h1 hg⟩
    | target ho => exact ⟨_, here_owner h1 ho hg⟩
    | dependency hd ht =>
      obtain ⟨loc', -, hh⟩ := here_dep h1 hd
      exact ⟨_, hh.child ht hg⟩
  obtain ⟨loc', hh⟩ := hh
  obtain ⟨m, hm⟩ := warningAt_exists hh hr (loc ++ [.key k]) .ignoredUnknownKey
  refine ⟨m, ?_, hm⟩
  have := ((C51_unknown h hc).mem m).2 ⟨_, .mk hk hg hn hi hm⟩
  exact (List.mem_filter.1 this).1

/-! ## Examples -/

/-- The messages of the check of a text, if it is read without diagnostics. -/
def checkText (ovf : Bool) (x : String) : Option (List Dependency × List Msg) :=
  match mapText x.toList with
  | some (t, []) => check ovf t
  | _ => none

/-- The kinds of the errors of a text. -/
def errorKinds (x : String) : Option (List ErrorKind) :=
  (checkText true x).map fun r => r.2.filterMap fun m =>
    match m with
    | .error _ _ _ k => some k
    | _ => none

/-- Any permutation of the entries of the document is one of the orders of C50. -/
theorem reordered_perm {asts : List Ast} {t t' : MapTable} (h : MapOk asts t) (hp : t.Perm t') :
    Reordered (.table t) (.table t') := by
  refine .table hp rfl ?_ ?_ <;> intro i x y hx hy <;> rw [hx] at hy <;> cases hy
  · exact ⟨rfl, rfl⟩
  · cases h with
    | table _ _ _ _ h5 => exact reordered_refl (h5 x.1 x.2 (hp.mem_iff.2 (List.mem_of_getElem? hx)))

/-- The number of dependencies and messages. -/
def checkCounts (ovf : Bool) (x : String) : Option (Nat × Nat) :=
  (checkText ovf x).map fun r => (r.1.length, r.2.length)

theorem mapOfText_of {x : Str} {t : MapTable} {es : List Error} (h : mapText x = some (t, es)) :
    MapOfText true x t := by
  unfold mapText at h
  cases hp : parseDocument true x with
  | ok a s =>
    rw [hp] at h
    dsimp only at h
    cases hs : s.errors with
    | nil =>
      rw [hs] at h
      exact ⟨a, s, t, es, hp, h, reordered_refl (map_of_text_ok hp h)⟩
    | cons => rw [hs] at h; cases h
  | timeout => rw [hp] at h; cases h
  | panic => rw [hp] at h; cases h

/-- There is such a map of this text, and two dependencies, one of them with an unknown key and a
contradiction. -/
example : ∃ root ds ms, MapOfText true "dependencies = { a = \"1\", b = { git = \"x\", registry = \"y\", z = 1 } }".toList root ∧
    check true root = some (ds, ms) ∧ ds.length = 2 ∧ ms.length = 3 := by
  have h : (checkCounts true "dependencies = { a = \"1\", b = { git = \"x\", registry = \"y\", z = 1 } }") =
      some (2, 3) := by decide +kernel
  unfold checkCounts checkText at h
  cases hm : mapText "dependencies = { a = \"1\", b = { git = \"x\", registry = \"y\", z = 1 } }".toList with
  | none => rw [hm] at h; cases h
  | some p =>
    obtain ⟨t, es⟩ := p
    rw [hm] at h
    cases es with
    | cons => cases h
    | nil =>
      dsimp only at h
      obtain ⟨⟨ds, ms⟩, hc, he⟩ := Option.map_eq_some_iff.1 h
      simp only [Prod.mk.injEq] at he
      exact ⟨t, ds, ms, mapOfText_of hm, hc, he.1, he.2⟩

example : errorKinds "dependencies = { a = \"1\", b = { git = \"x\", registry = \"y\", z = 1 } }" =
    some [.ambigousDepSpecGitRegistry, .ambigousDepSpecGitRegistry] := by decide +kernel

example : errorKinds "dependencies = { b = { path = \"x\", tag = \"y\" }, c = { workspace = false }, d = 1 }" =
    some [.depIgnoredGitKey "tag".toList, .depWorkspaceIsFalse, .depWrongDatatype .int] := by decide +kernel

example : checkCounts true "[target.x.dependencies]\na = \"1\"\n[target.y]\nq = 1\n" = some (1, 1) := by
  decide +kernel

/-- C74: with overflow checks the check panics for this manifest. -/
theorem C74_counterexample : ∃ root, MapOfText true "dependencies.a = \"4294967299\"".toList root ∧
    check true root = none := by
  have h : ((mapText "dependencies.a = \"4294967299\"".toList).map fun r => (check true r.1 : Option _).isNone) =
      some true := by decide +kernel
  obtain ⟨⟨t, es⟩, hm, h⟩ := Option.map_eq_some_iff.1 h
  exact ⟨t, mapOfText_of hm, Option.isNone_iff_eq_none.1 h⟩

/-- Such a manifest reads one of these numbers. -/
example : ∃ root, MapOfText true "dependencies.a = \"4294967299\"".toList root ∧ ReadsTrap root := by
  obtain ⟨root, h, hc⟩ := C74_counterexample
  exact ⟨root, h, ((C74_panics_iff h true).1 hc).2⟩

/-- In this one the same version is not read, because `git` and `registry` contradict each other. -/
example : checkCounts true "dependencies.a = { version = \"4294967299\", git = \"x\", registry = \"y\" }" = some (1, 2) := by
  decide +kernel

end Verif.Props
