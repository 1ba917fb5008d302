import Verif.Ide.CheckDoc

/-! # The check does not depend on the order of the entries -/

namespace Verif.Ide
open Verif Verif.Toml Verif.TomlMap
open Verif.Spec.Toml hiding Entry KeyOk
open Verif.Spec.Check hiding Section SectionKey

variable {N : MapNode → MapNode → Prop} {t t' root root' : MapTable} {ovf : Bool}

/-- Related entries. -/
def ERel (N : MapNode → MapNode → Prop) (e e' : Entry) : Prop := e.reprs = e'.reprs ∧ N e.node e'.node

/-- The keys of the tables have related entries. -/
def Keys (N : MapNode → MapNode → Prop) (t t' : MapTable) : Prop :=
  (∀ k e, TomlMap.get t k = some e → ∃ e', TomlMap.get t' k = some e' ∧ ERel N e e') ∧
  ∀ k, TomlMap.get t k = none → TomlMap.get t' k = none

/-- Related nodes have the same parts, from the left to the right. -/
structure Sim (N : MapNode → MapNode → Prop) : Prop where
  table : ∀ {t n'}, N (.table t) n' → ∃ t', n' = .table t' ∧ Keys N t t'
  toplevel : ∀ {es n'}, N (.toplevel es) n' → ∃ es', n' = .toplevel es'
  inline : ∀ {p a es n'}, N (.inline p a es) n' → ∃ es', n' = .inline p a es' ∧ es.length = es'.length ∧
    ∀ (i : Nat) x, es[i]? = some x → ∃ x', es'[i]? = some x' ∧ x.repr = x'.repr ∧ N x.node x'.node
  scalar : ∀ {s n'}, N (.scalar s) n' → n' = .scalar s

section
variable (hN : Sim N)
include hN

theorem Keys.isStr (h : Keys N t t') {k : String} {a : StringAssignment} (ha : IsStr t k a) : IsStr t' k a := by
  obtain ⟨e, h1, h2, h3⟩ := ha
  obtain ⟨e', g1, g2, g3⟩ := h.1 _ _ h1
  rw [h2] at g3
  exact ⟨e', g1, hN.scalar g3, by rw [← g2]; exact h3⟩

theorem Keys.flag (h : Keys N t t') {k : String} {a : BoolAssignment} (ha : Flag t k a) : Flag t' k a := by
  obtain ⟨e, h1, h2, h3⟩ := ha
  obtain ⟨e', g1, g2, g3⟩ := h.1 _ _ h1
  rw [h2] at g3
  exact ⟨e', g1, hN.scalar g3, by rw [← g2]; exact h3⟩

theorem Keys.hasStr (h : Keys N t t') {k : String} (ha : HasStr t k) : HasStr t' k := by
  obtain ⟨a, ha⟩ := ha
  exact ⟨a, h.isStr hN ha⟩

theorem Keys.hasWorkspace (h : Keys N t t') (ha : HasWorkspace t) : HasWorkspace t' := by
  obtain ⟨a, ha⟩ := ha
  exact ⟨a, h.flag hN ha⟩

omit hN in
theorem Keys.hasKey (h : Keys N t t') {k : String} (ha : HasKey t k) : HasKey t' k := by
  obtain ⟨e, h1⟩ := ha
  obtain ⟨e', g1, -⟩ := h.1 _ _ h1
  exact ⟨e', g1⟩

theorem Sim.hasType {n n' : MapNode} (h : N n n') {d : Datatype} (hd : HasType n d) : HasType n' d := by
  cases hd with
  | table => obtain ⟨_, rfl, -⟩ := hN.table h; exact .table
  | arrayOfTables => obtain ⟨_, rfl⟩ := hN.toplevel h; exact .arrayOfTables
  | array => obtain ⟨_, rfl, -⟩ := hN.inline h; exact .array
  | string => rw [hN.scalar h]; exact .string
  | int => rw [hN.scalar h]; exact .int
  | float => rw [hN.scalar h]; exact .float
  | bool => rw [hN.scalar h]; exact .bool
  | dateTime => rw [hN.scalar h]; exact .dateTime
  | invalid => rw [hN.scalar h]; exact .invalid

theorem Sim.wrongType {n n' : MapNode} (h : N n n') {ds : List Datatype} {d : Datatype} (hd : WrongType n ds d) :
    WrongType n' ds d := ⟨hN.hasType h hd.1, hd.2⟩

theorem Sim.strings {n n' : MapNode} {p : Nat} {a : InlineArray} {es : List InlineEntry}
    (h : N (.inline p a es) n') : ∃ es', n' = .inline p a es' ∧ Spec.Check.strings es' = Spec.Check.strings es := by
  obtain ⟨es', rfl, h1, h2⟩ := hN.inline h
  refine ⟨es', rfl, ?_⟩
  clear h
  induction es generalizing es' with
  | nil => cases es' with
    | nil => rfl
    | cons => cases h1
  | cons x es ih =>
    cases es' with
    | nil => cases h1
    | cons x' es' =>
      have e1 := ih es' (by simpa using h1) fun i y hy => by simpa using h2 (i + 1) y (by simpa using hy)
      obtain ⟨y, hy, -, hxy⟩ := h2 0 x rfl
      cases hy
      unfold Spec.Check.strings
      cases hx : x.node with
      | table => rw [hx] at hxy; obtain ⟨_, h, -⟩ := hN.table hxy; rw [h]; exact e1
      | toplevel => rw [hx] at hxy; obtain ⟨_, h⟩ := hN.toplevel hxy; rw [h]; exact e1
      | inline => rw [hx] at hxy; obtain ⟨_, h, -⟩ := hN.inline hxy; rw [h]; exact e1
      | scalar s =>
        rw [hx] at hxy
        rw [hN.scalar hxy]
        cases s <;> simp [e1]

/-! ## Places -/

theorem sim_node {e e' : Entry} (h : ERel N e e') {t : MapTable} (ht : e.node = .table t) :
    ∃ t', e'.node = .table t' ∧ Keys N t t' := by
  have := h.2
  rw [ht] at this
  exact hN.table this

theorem sim_owner (h : Keys N root root') {loc : Loc} {path : List Seg} {target : Option Str} {t : MapTable}
    (ho : Owner root loc path target t) : ∃ t', Owner root' loc path target t' ∧ Keys N t t' := by
  cases ho with
  | root => exact ⟨root', .root, h⟩
  | target h1 h2 h3 h4 =>
    obtain ⟨e', g1, g2⟩ := h.1 _ _ h1
    obtain ⟨tt', g3, g4⟩ := sim_node hN g2 h2
    obtain ⟨e2, g5, g6⟩ := g4.1 _ _ h3
    obtain ⟨t', g7, g8⟩ := sim_node hN g6 h4
    refine ⟨t', ?_, g8⟩
    rw [g2.1, g6.1]
    exact .target g1 g3 g5 g7

end

section
variable (hN : Sim N) (hF : Sim fun a b => N b a)
include hN hF

omit hN in
omit hF in
/-- Related tables, in both directions. -/
theorem Keys.flip (h : Keys N t t') : Keys (fun a b => N b a) t' t := by
  have hnone : ∀ k, TomlMap.get t' k = none → TomlMap.get t k = none := by
    intro k hk
    cases hg : TomlMap.get t k with
    | none => rfl
    | some e =>
      obtain ⟨e', h1, -⟩ := h.1 _ _ hg
      rw [hk] at h1
      cases h1
  refine ⟨fun k e' he' => ?_, hnone⟩
  cases hg : TomlMap.get t k with
  | none => rw [h.2 k hg] at he'; cases he'
  | some e =>
    obtain ⟨e2, h1, h2⟩ := h.1 _ _ hg
    rw [he'] at h1
    cases h1
    exact ⟨e, rfl, h2.1.symm, h2.2⟩

omit hN in
theorem Keys.noStr (h : Keys N t t') {k : String} (ha : ¬ HasStr t k) : ¬ HasStr t' k :=
  fun h' => ha (h.flip.hasStr hF h')

omit hN in
theorem Keys.noWorkspace (h : Keys N t t') (ha : ¬ HasWorkspace t) : ¬ HasWorkspace t' :=
  fun h' => ha (h.flip.hasWorkspace hF h')

omit hN hF in
theorem Keys.noKey (h : Keys N t t') {k : String} (ha : ¬ HasKey t k) : ¬ HasKey t' k :=
  fun h' => ha (h.flip.hasKey h')

theorem Keys.optStr (h : Keys N t t') {k : String} {o : Option StringAssignment} (ha : OptStr t k o) :
    OptStr t' k o := fun a => (ha a).trans ⟨h.isStr hN, h.flip.isStr hF⟩

theorem Keys.optFlag (h : Keys N t t') {k : String} {o : Option BoolAssignment} (ha : OptFlag t k o) :
    OptFlag t' k o := fun a => (ha a).trans ⟨h.flag hN, h.flip.flag hF⟩

theorem Keys.optVersion (h : Keys N t t') {o : Option DependencyVersion} (ha : OptVersion ovf t o) :
    OptVersion ovf t' o :=
  ⟨fun v hv => ⟨h.isStr hN (ha.1 v hv).1, (ha.1 v hv).2⟩, fun ho => h.noStr hF (ha.2 ho)⟩

theorem Keys.gitSpec (h : Keys N t t') {s : DependencyGitSpec} (ha : GitSpec t s) : GitSpec t' s := by
  cases ha with
  | branch h1 h2 h3 => exact .branch (h.isStr hN h1) (h.noStr hF h2) (h.noStr hF h3)
  | tag h1 h2 h3 => exact .tag (h.isStr hN h1) (h.noStr hF h2) (h.noStr hF h3)
  | rev h1 h2 h3 => exact .rev (h.isStr hN h1) (h.noStr hF h2) (h.noStr hF h3)
  | none h1 h2 h3 => exact .none (h.noStr hF h1) (h.noStr hF h2) (h.noStr hF h3)
  | branchTag h1 h2 => exact .branchTag (h.hasStr hN h1) (h.hasStr hN h2)
  | branchRev h1 h2 => exact .branchRev (h.hasStr hN h1) (h.hasStr hN h2)
  | tagRev h1 h2 => exact .tagRev (h.hasStr hN h1) (h.hasStr hN h2)

theorem Keys.source (h : Keys N t t') {s : DependencySpec} (ha : Source ovf t s) : Source ovf t' s := by
  cases ha with
  | invalid h1 h2 => exact .invalid (h.flag hN h1) h2
  | workspace h1 h2 => exact .workspace (h.flag hN h1) h2
  | gitRegistry h1 h2 h3 => exact .gitRegistry (h.noWorkspace hF h1) (h.hasStr hN h2) (h.hasStr hN h3)
  | gitPath h1 h2 h3 => exact .gitPath (h.noWorkspace hF h1) (h.hasStr hN h2) (h.hasStr hN h3)
  | git h1 h2 h3 h4 h5 h6 =>
    exact .git (h.noWorkspace hF h1) (h.isStr hN h2) (h.noStr hF h3) (h.noStr hF h4) (h.gitSpec hN hF h5)
      (h.optVersion hN hF h6)
  | path h1 h2 h3 h4 h5 =>
    exact .path (h.noWorkspace hF h1) (h.noStr hF h2) (h.isStr hN h3) (h.optVersion hN hF h4)
      (h.optStr hN hF h5)
  | registry h1 h2 h3 h4 h5 h6 =>
    exact .registry (h.noWorkspace hF h1) (h.noStr hF h2) (h.noStr hF h3) (h.isStr hN h4) h5 (h.optStr hN hF h6)
  | missing h1 h2 h3 h4 h5 =>
    exact .missing (h.noWorkspace hF h1) (h.noStr hF h2) (h.noStr hF h3) (h.noStr hF h4) (h.optStr hN hF h5)

theorem Keys.features (h : Keys N t t') {f : DependencyFeatures} (ha : Features t f) : Features t' f := by
  refine ⟨fun hk => h.optFlag hN hF (ha.default (h.flip.hasKey hk)),
    fun hk => h.optFlag hN hF (ha.defaultOld fun h' => hk (h.hasKey h')), ?_, ?_⟩
  · intro e n a es hg hn
    obtain ⟨e0, g1, g2, g3⟩ := h.flip.1 _ _ hg
    rw [hn] at g3
    obtain ⟨es0, g4, g5⟩ := hF.strings g3 (n := e0.node)
    rw [ha.list e0 n a es0 g1 g4, g5]
  · intro hno
    refine ha.noList fun e n a es hg hn => ?_
    obtain ⟨e', g1, g2, g3⟩ := h.1 _ _ hg
    rw [hn] at g3
    obtain ⟨es', g4, -⟩ := hN.inline g3
    exact hno _ _ _ _ g1 g4

theorem Keys.underscore (h : Keys N t t') {a b : String} {k : WarningKind} (ha : Underscore t a b k) :
    Underscore t' a b k := by
  cases ha with
  | deprecated h1 => exact .deprecated (h.noKey h1)
  | redundant h1 h2 h3 =>
    obtain ⟨e', g1, g2, -⟩ := h.1 _ _ h1
    exact .redundant g1 (by rw [← g2]; exact h2) h3

/-! ## Messages -/

theorem Keys.sectionKey (h : Keys N t t') {k : String} {kind : DependencyKind}
    (hs : Spec.Check.SectionKey t k kind) : Spec.Check.SectionKey t' k kind := by
  cases hs with
  | normal => exact .normal
  | dev => exact .dev
  | devOld h1 => exact .devOld (h.noKey h1)
  | build => exact .build
  | buildOld h1 => exact .buildOld (h.noKey h1)

theorem sim_section (h : Keys N root root') {loc : Loc} {path : List Seg} {kind : DependencyKind}
    {target : Option Str} {e : Entry} (hs : Spec.Check.Section root loc path kind target e) :
    ∃ e', Spec.Check.Section root' loc path kind target e' ∧ ERel N e e' := by
  cases hs with
  | mk ho hk hg =>
    obtain ⟨t', h1, h2⟩ := sim_owner hN h ho
    obtain ⟨e', g1, g2⟩ := h2.1 _ _ hg
    exact ⟨e', .mk h1 (h2.sectionKey hN hF hk) g1, g2⟩

theorem sim_dep (h : Keys N root root') {loc : Loc} {path : List Seg} {kind : DependencyKind}
    {target : Option Str} {name : Str} {e : Entry} (hs : DepEntry root loc path kind target name e) :
    ∃ e', DepEntry root' loc path kind target name e' ∧ ERel N e e' := by
  cases hs with
  | mk hs hn hg =>
    obtain ⟨s', h1, h2⟩ := sim_section hN hF h hs
    obtain ⟨t', h3, h4⟩ := sim_node hN h2 hn
    obtain ⟨e', g1, g2⟩ := h4.1 _ _ hg
    rw [h2.1]
    exact ⟨e', .mk h1 h3 g1, g2⟩

theorem Keys.keyMessage (h : Keys N t t') {loc : Loc} {path : List Seg} {rs : Reason} {m : Msg}
    (hm : KeyMessage loc path t rs m) : KeyMessage loc path t' rs m := by
  cases hm with
  | unknown h1 h2 h3 h4 =>
    obtain ⟨e', g1, g2, -⟩ := h.1 _ _ h1
    exact .unknown g1 h2 (by rw [← g2]; exact h3) h4
  | type h1 h2 h3 h4 h5 =>
    obtain ⟨e', g1, g2, g3⟩ := h.1 _ _ h2
    refine .type ?_ g1 (hN.wrongType g3 h3) (by rw [← g2]; exact h4) h5
    cases h1 with
    | string h => exact .string h
    | bool h => exact .bool h
    | boolOld h' => exact .boolOld (h.noKey h')
    | array => exact .array
  | deprecated h1 h2 h3 h4 =>
    obtain ⟨e', g1, g2, -⟩ := h.1 _ _ h1
    exact .deprecated g1 (h.underscore hN hF h2) (by rw [← g2]; exact h3) h4
  | features h1 h2 h3 h4 =>
    obtain ⟨e', g1, g2, g3⟩ := h.1 _ _ h1
    rw [h2] at g3
    obtain ⟨es', g4⟩ := hN.toplevel g3
    exact .features g1 g4 (by rw [← g2]; exact h3) h4
  | feature h1 h2 h3 h4 h5 =>
    obtain ⟨e', g1, g2, g3⟩ := h.1 _ _ h1
    rw [h2] at g3
    obtain ⟨es', g4, -, g5⟩ := hN.inline g3
    obtain ⟨x', g6, g7, g8⟩ := g5 _ _ h3
    rw [g7]
    exact .feature g1 g4 g6 (hN.wrongType g8 h4) (by rw [← g2]; exact h5)

theorem sim_sourceMessage {e e' : Entry} (he : ERel N e e') (h : Keys N t t') {loc : Loc} {prev : List Seg}
    {rs : Reason} {m : Msg} (hm : SourceMessage ovf loc prev e t rs m) :
    SourceMessage ovf loc prev e' t' rs m := by
  cases hm with
  | workspaceFalse h1 h2 h3 => exact .workspaceFalse (h.flag hN h1) h2 (by rw [← he.1]; exact h3)
  | workspaceIgnored h1 h2 h3 h4 h5 h6 =>
    exact .workspaceIgnored (h.flag hN h1) h2 h3 (h.isStr hN h4) h5 (by rw [← he.1]; exact h6)
  | withoutGit h1 h2 h3 h4 h5 =>
    exact .withoutGit (h.noWorkspace hF h1) (h.noStr hF h2) h3 (h.isStr hN h4) (by rw [← he.1]; exact h5)
  | gitRegistry h1 h2 h3 h4 h5 h6 =>
    exact .gitRegistry (h.noWorkspace hF h1) (h.hasStr hN h2) (h.hasStr hN h3) h4 (h.isStr hN h5)
      (by rw [← he.1]; exact h6)
  | gitPath h1 h2 h3 h4 h5 h6 h7 =>
    exact .gitPath (h.noWorkspace hF h1) (h.hasStr hN h2) (h.hasStr hN h3) (h.noStr hF h4) h5 (h.isStr hN h6)
      (by rw [← he.1]; exact h7)
  | gitSpec h1 h2 h3 h4 h5 h6 h7 h8 =>
    exact .gitSpec (h.noWorkspace hF h1) (h.hasStr hN h2) (h.noStr hF h3) (h.noStr hF h4) (h.gitSpec hN hF h5) h6
      (h.isStr hN h7) (by rw [← he.1]; exact h8)
  | version h1 h2 h3 h4 =>
    refine .version (h.noWorkspace hF h1) ?_ (h.isStr hN h3) h4
    rintro ⟨g1, g2⟩
    exact h2 ⟨h.flip.hasStr hF g1, g2.imp (h.flip.hasStr hF) (h.flip.hasStr hF)⟩
  | missing h1 h2 h3 h4 h5 h6 =>
    exact .missing (h.noWorkspace hF h1) (h.noStr hF h2) (h.noStr hF h3) (h.noStr hF h4)
      (by rw [← he.1]; exact h5) h6

theorem sim_entryMessage {e e' : Entry} (he : ERel N e e') {loc : Loc} {prev : List Seg} {rs : Reason} {m : Msg}
    (hm : EntryMessage ovf loc prev e rs m) : EntryMessage ovf loc prev e' rs m := by
  cases hm with
  | version h1 h2 =>
    have := he.2
    rw [h1] at this
    exact .version (hN.scalar this) h2
  | type h1 h2 h3 => exact .type (hN.wrongType he.2 h1) (by rw [← he.1]; exact h2) h3
  | key h1 h2 =>
    obtain ⟨t', g1, g2⟩ := sim_node hN he h1
    rw [he.1] at h2
    exact .key g1 (g2.keyMessage hN hF h2)
  | source h1 h2 =>
    obtain ⟨t', g1, g2⟩ := sim_node hN he h1
    exact .source g1 (sim_sourceMessage hN hF he g2 h2)

theorem sim_message (h : Keys N root root') {rs : Reason} {m : Msg} (hm : Message ovf root rs m) :
    Message ovf root' rs m := by
  cases hm with
  | unknown h1 h2 h3 h4 =>
    obtain ⟨e', g1, g2, -⟩ := h.1 _ _ h1
    exact .unknown g1 h2 (by rw [← g2]; exact h3) h4
  | unknownTarget h1 h2 h3 h4 h5 =>
    obtain ⟨t', g1, g2⟩ := sim_owner hN h h1
    obtain ⟨e', g3, g4, -⟩ := g2.1 _ _ h2
    exact .unknownTarget g1 g3 h3 (by rw [← g4]; exact h4) h5
  | targetType h1 h2 h3 h4 =>
    obtain ⟨e', g1, g2, g3⟩ := h.1 _ _ h1
    exact .targetType g1 (hN.wrongType g3 h2) (by rw [← g2]; exact h3) h4
  | targetEntryType h1 h2 h3 h4 h5 h6 =>
    obtain ⟨e', g1, g2⟩ := h.1 _ _ h1
    obtain ⟨tt', g3, g4⟩ := sim_node hN g2 h2
    obtain ⟨e2, g5, g6, g7⟩ := g4.1 _ _ h3
    exact .targetEntryType g1 g3 g5 (hN.wrongType g7 h4) (by rw [← g6]; exact h5) (by rw [← g2.1]; exact h6)
  | deprecated h1 h2 h3 h4 h5 h6 =>
    obtain ⟨t', g1, g2⟩ := sim_owner hN h h1
    obtain ⟨e', g3, g4, -⟩ := g2.1 _ _ h3
    exact .deprecated g1 h2 g3 (g2.underscore hN hF h4) (by rw [← g4]; exact h5) h6
  | sectionType h1 h2 h3 h4 =>
    obtain ⟨e', g1, g2, g3⟩ := sim_section hN hF h h1
    exact .sectionType g1 (hN.wrongType g3 h2) (by rw [← g2]; exact h3) h4
  | entry h1 h2 =>
    obtain ⟨e', g1, g2⟩ := sim_dep hN hF h h1
    exact .entry g1 (sim_entryMessage hN hF g2 h2)

/-! ## Dependencies -/

theorem sim_describes {e e' : Entry} (he : ERel N e e') {d : Dependency} (hd : Describes ovf e d) :
    Describes ovf e' { d with entry := e' } := by
  cases hd with
  | version h1 h2 h3 h4 h5 h6 h7 =>
    have := he.2
    rw [h1] at this
    exact .version (hN.scalar this) (by rw [← he.1]; exact h2) h3 h4 h5 h6 h7
  | table h1 h2 h3 h4 h5 =>
    obtain ⟨t', g1, g2⟩ := sim_node hN he h1
    exact .table g1 (g2.source hN hF h2) (g2.optStr hN hF h3) (g2.optFlag hN hF h4) (g2.features hN hF h5)

theorem sim_isDependency (h : Keys N root root') {loc : Loc} {d : Dependency} (hd : IsDependency ovf root loc d) :
    ∃ e', ERel N d.entry e' ∧ IsDependency ovf root' loc { d with entry := e' } := by
  obtain ⟨⟨path, h1⟩, h2⟩ := hd
  obtain ⟨e', g1, g2⟩ := sim_dep hN hF h h1
  exact ⟨e', g2, ⟨path, g1⟩, sim_describes hN hF g2 h2⟩

theorem sim_readVersion {e e' : Entry} (he : ERel N e e') {v : StringVal} (hv : ReadVersion e v) :
    ReadVersion e' v := by
  cases hv with
  | string h =>
    have := he.2
    rw [h] at this
    exact .string (hN.scalar this)
  | table h1 h2 h3 h4 =>
    obtain ⟨t', g1, g2⟩ := sim_node hN he h1
    exact .table g1 (g2.noWorkspace hF h2) (fun h => h3 ⟨g2.flip.hasStr hF h.1, h.2.imp (g2.flip.hasStr hF) (g2.flip.hasStr hF)⟩)
      (g2.isStr hN h4)

theorem sim_readsTrap (h : Keys N root root') (hr : ReadsTrap root) : ReadsTrap root' := by
  obtain ⟨loc, path, kind, target, name, e, v, hd, hv, ht⟩ := hr
  obtain ⟨e', g1, g2⟩ := sim_dep hN hF h hd
  exact ⟨_, _, _, _, _, e', v, g1, sim_readVersion hN hF g2 hv, ht⟩

theorem sim_noTrap (h : Keys N root root') (hr : NoTrap root) : NoTrap root' := by
  intro loc path kind target name e hd
  obtain ⟨e0, g1, g2⟩ := sim_dep hF hN h.flip hd
  obtain ⟨k1, k2⟩ := hr _ _ _ _ _ _ g1
  refine ⟨fun s hs => ?_, fun t a ht ha => ?_⟩
  · have := g2.2
    rw [hs] at this
    exact k1 s (hF.scalar this)
  · obtain ⟨t0, g3, g4⟩ := sim_node hF g2 ht
    exact k2 t0 a g3 (g4.isStr hF ha)

end

/-! ## Reordering -/

variable {asts : List Ast}

/-- Reordered nodes with right references. -/
def NRel (asts : List Ast) (n n' : MapNode) : Prop := Reordered n n' ∧ ∃ ar, NodeOk asts ar n

theorem fromValue_reordered {v : Value} {n n' : MapNode} (h : FromValue v n) (hr : Reordered n n') :
    FromValue v n' := by
  induction h generalizing n' with
  | table => cases hr; exact .table
  | @inline p a es h1 h2 ih =>
    cases hr with
    | inline g1 g2 g3 =>
      rename_i es'
      have hm : es'.map (·.repr) = es.map (·.repr) := by
        refine List.ext_getElem? fun i => ?_
        rw [List.getElem?_map, List.getElem?_map]
        cases hx : es[i]? with
        | none =>
          rw [List.getElem?_eq_none_iff] at hx
          rw [List.getElem?_eq_none (by omega)]
        | some x =>
          have hlt : i < es'.length := by
            obtain ⟨_, -⟩ := List.getElem?_eq_some_iff.1 hx
            omega
          rw [List.getElem?_eq_getElem hlt]
          simp only [Option.map_some, Option.some.injEq]
          exact (g2 i x _ hx (List.getElem?_eq_getElem hlt)).symm
      refine .inline (hm.trans h1) fun e he => ?_
      obtain ⟨i, hi⟩ := List.mem_iff_getElem?.1 he
      have hlt : i < es.length := by
        obtain ⟨_, -⟩ := List.getElem?_eq_some_iff.1 hi
        omega
      have hx := List.getElem?_eq_getElem hlt
      rw [← g2 i _ _ hx hi]
      exact ih _ (List.getElem_mem hlt) (g3 i _ _ hx hi)
  | scalar h => cases hr; exact .scalar h

theorem keys_eq {u t' : MapTable} (h1 : u.length = t'.length)
    (h2 : ∀ (i : Nat) (x y : Str × TomlMap.Entry), u[i]? = some x → t'[i]? = some y →
        x.1 = y.1 ∧ x.2.reprs = y.2.reprs) : u.map (·.1) = t'.map (·.1) := by
  refine List.ext_getElem? fun i => ?_
  rw [List.getElem?_map, List.getElem?_map]
  cases hx : u[i]? with
  | none =>
    rw [List.getElem?_eq_none_iff] at hx
    rw [List.getElem?_eq_none (by omega)]
  | some x =>
    have hlt : i < t'.length := by
      obtain ⟨_, -⟩ := List.getElem?_eq_some_iff.1 hx
      omega
    rw [List.getElem?_eq_getElem hlt]
    simp only [Option.map_some, Option.some.injEq]
    exact (h2 i x _ hx (List.getElem?_eq_getElem hlt)).1

theorem other_side {α β : Type} {l : List α} {l' : List β} (h : l.length = l'.length) {y : β} (hy : y ∈ l') :
    ∃ (i : Nat) (x : α), x ∈ l ∧ l[i]? = some x ∧ l'[i]? = some y := by
  obtain ⟨i, hi⟩ := List.mem_iff_getElem?.1 hy
  have hlt : i < l.length := by
    obtain ⟨_, -⟩ := List.getElem?_eq_some_iff.1 hi
    omega
  exact ⟨i, l[i], List.getElem_mem hlt, List.getElem?_eq_getElem hlt, hi⟩

theorem kindOk_reordered {n n' : MapNode} {rs : List Repr} (h : KindOk n rs) (hr : Reordered n n') : KindOk n' rs := by
  cases hr with
  | table h1 h2 h3 h4 =>
    intro r hr hv
    obtain ⟨v, hv, hf⟩ := h r hr hv
    cases hf
    exact ⟨_, hv, .table⟩
  | toplevel => exact h
  | inline h1 h2 h3 =>
    obtain ⟨r, hr, hv, v, g1, g2⟩ := h
    exact ⟨r, hr, hv, v, g1, fromValue_reordered g2 (.inline h1 h2 h3)⟩
  | scalar => exact h

theorem nodeOk_reordered {n n' : MapNode} {ar : Option (List Repr)} (h : NodeOk asts ar n) (hr : Reordered n n') :
    NodeOk asts ar n' := by
  induction h generalizing n' with
  | @table ar t h1 h2 h3 h4 h5 ih =>
    cases hr with
    | @table _ u t' g1 g2 g3 g4 =>
      have hn : (t'.map (·.1)).Nodup := by
        rw [← keys_eq g2 g3]
        exact (g1.map _).nodup_iff.1 h1
      have key : ∀ k e', (k, e') ∈ t' → ∃ e, (k, e) ∈ t ∧ e.reprs = e'.reprs ∧ Reordered e.node e'.node := by
        intro k e' he'
        obtain ⟨i, x, hx, hi, hi'⟩ := other_side g2 he'
        obtain ⟨e1, e2⟩ := g3 i _ _ hi hi'
        obtain ⟨k0, e⟩ := x
        dsimp only at e1
        subst e1
        exact ⟨e, g1.mem_iff.2 hx, e2, g4 i _ _ hi hi'⟩
      refine .table hn ?_ ?_ ?_ ?_ <;> intro k e' he' <;> obtain ⟨e, he, hre, hno⟩ := key k e' he'
      · rw [← hre]; exact h2 k e he
      · rw [← hre]; exact h3 k e he
      · rw [← hre]; exact kindOk_reordered (h4 k e he) hno
      · rw [← hre]; exact ih k e he hno
  | @toplevel rs es h1 h2 h3 ih =>
    cases hr with
    | @toplevel _ es' g1 g2 g3 =>
      refine .toplevel ?_ ?_ ?_
      · rintro rfl
        exact h1 (List.length_eq_zero_iff.1 g1)
      · intro e' he'
        obtain ⟨i, x, hx, hi, hi'⟩ := other_side g1 he'
        obtain ⟨e1, e2⟩ := g2 i _ _ hi hi'
        rw [← e1, ← e2]
        exact h2 x hx
      · intro e' he'
        obtain ⟨i, x, hx, hi, hi'⟩ := other_side g1 he'
        exact ih x hx (g3 i _ _ hi hi')
  | @inline rs p a es h1 h2 h3 h4 ih =>
    cases hr with
    | @inline _ _ _ es' g1 g2 g3 =>
      have hf := fromValue_reordered (.inline h2 h3 : FromValue (.inlineArray a) (.inline p a es)) (.inline g1 g2 g3)
      cases hf with
      | inline k1 k2 =>
        refine .inline h1 k1 k2 fun e' he' => ?_
        obtain ⟨i, x, hx, hi, hi'⟩ := other_side g1 he'
        exact ih x hx (g3 i _ _ hi hi')
  | scalar => cases hr; exact .scalar

theorem keys_reordered {ar : Option (List Repr)} (h : NodeOk asts ar (.table t))
    (hr : Reordered (.table t) (.table t')) : Keys (NRel asts) t t' := by
  have h' := nodeOk_reordered h hr
  cases h with
  | table h1 h2 h3 h4 h5 =>
    cases h' with
    | table h1' h2' h3' h4' h5' =>
      cases hr with
      | @table _ u _ g1 g2 g3 g4 =>
        have hk := keys_eq g2 g3
        constructor
        · intro k e he
          have hm := (get_iff h1 k e).1 he
          obtain ⟨i, hi⟩ := List.mem_iff_getElem?.1 (g1.mem_iff.1 hm)
          have hlt : i < t'.length := by
            obtain ⟨_, -⟩ := List.getElem?_eq_some_iff.1 hi
            omega
          have hi' := List.getElem?_eq_getElem hlt
          obtain ⟨e1, e2⟩ := g3 i _ _ hi hi'
          refine ⟨t'[i].2, (get_iff h1' _ _).2 ?_, e2, g4 i _ _ hi hi', _, h5 k e hm⟩
          dsimp only at e1
          rw [e1]
          exact List.getElem_mem hlt
        · intro k hk0
          have := not_mem_of_get hk0
          cases hg : TomlMap.get t' k with
          | none => rfl
          | some e' =>
            have := List.mem_map_of_mem (f := (·.1)) (mem_of_get hg)
            rw [← hk] at this
            exact absurd ((g1.map _).mem_iff.2 this) ‹_›

theorem sim_reordered : Sim (NRel asts) := by
  constructor
  · rintro t n' ⟨hr, ar, hn⟩
    cases id hr with
    | table => exact ⟨_, rfl, keys_reordered hn hr⟩
  · rintro es n' ⟨hr, ar, hn⟩
    cases hr with
    | toplevel => exact ⟨_, rfl⟩
  · rintro p a es n' ⟨hr, ar, hn⟩
    cases hr with
    | @inline _ _ _ es' g1 g2 g3 =>
      refine ⟨es', rfl, g1, fun i x hx => ?_⟩
      have hlt : i < es'.length := by
        obtain ⟨_, -⟩ := List.getElem?_eq_some_iff.1 hx
        omega
      have hi' := List.getElem?_eq_getElem hlt
      refine ⟨_, hi', g2 i _ _ hx hi', g3 i _ _ hx hi', ?_⟩
      cases hn with
      | inline _ _ _ h4 => exact ⟨_, h4 x (List.mem_of_getElem? hx)⟩
  · rintro s n' ⟨hr, ar, hn⟩
    cases hr
    rfl

theorem sim_reordered' : Sim (fun a b => NRel asts b a) := by
  constructor
  · rintro t n' ⟨hr, ar, hn⟩
    cases id hr with
    | table => exact ⟨_, rfl, (keys_reordered hn hr).flip⟩
  · rintro es n' ⟨hr, ar, hn⟩
    cases hr with
    | toplevel => exact ⟨_, rfl⟩
  · rintro p a es n' ⟨hr, ar, hn⟩
    cases hr with
    | @inline _ _ es0 _ g1 g2 g3 =>
      refine ⟨es0, rfl, g1.symm, fun i x hx => ?_⟩
      have hlt : i < es0.length := by
        obtain ⟨_, -⟩ := List.getElem?_eq_some_iff.1 hx
        omega
      have hi' := List.getElem?_eq_getElem hlt
      refine ⟨_, hi', (g2 i _ _ hi' hx).symm, g3 i _ _ hi' hx, ?_⟩
      cases hn with
      | inline _ _ _ h4 => exact ⟨_, h4 _ (List.getElem_mem hlt)⟩
  · rintro s n' ⟨hr, ar, hn⟩
    cases hr
    rfl

theorem message_reordered (h : MapOk asts root) (hr : Reordered (.table root) (.table root')) (rs : Reason) (m : Msg) :
    Message ovf root rs m ↔ Message ovf root' rs m :=
  ⟨sim_message sim_reordered sim_reordered' (keys_reordered h hr),
    sim_message (N := fun a b => NRel asts b a) sim_reordered' sim_reordered (keys_reordered h hr).flip⟩

theorem once_choose {R A B : Type} {P : R → A → Prop} {S : A → B → Prop} (lb : List (R × B))
    (h : ∀ x ∈ lb, ∃ a, P x.1 a ∧ S a x.2) :
    ∃ l : List (R × A), l.map (·.1) = lb.map (·.1) ∧ (∀ y ∈ l, P y.1 y.2) ∧
      ∀ (i : Nat) a b, (l.map (·.2))[i]? = some a → (lb.map (·.2))[i]? = some b → S a b := by
  induction lb with
  | nil => exact ⟨[], rfl, by simp, by simp⟩
  | cons x lb ih =>
    obtain ⟨l, h1, h2, h3⟩ := ih fun y hy => h y (List.mem_cons_of_mem _ hy)
    obtain ⟨a, ha1, ha2⟩ := h x List.mem_cons_self
    refine ⟨(x.1, a) :: l, by simp [h1], ?_, ?_⟩
    · intro y hy
      rcases List.mem_cons.1 hy with rfl | hy
      · exact ha1
      · exact h2 y hy
    · intro i b c hb hc
      cases i with
      | zero =>
        simp only [List.map_cons, List.getElem?_cons_zero, Option.some.injEq] at hb hc
        subst hb hc
        exact ha2
      | succ i => exact h3 i b c (by simpa using hb) (by simpa using hc)

/-- Lists for the same reasons with related elements. -/
theorem once_rel {R A B : Type} {as : List A} {bs : List B} {P : R → A → Prop} {Q : R → B → Prop}
    {S : A → B → Prop} (ha : ExactlyOnce as P) (hb : ExactlyOnce bs Q)
    (h1 : ∀ r a, P r a → ∃ b, Q r b) (h2 : ∀ r b, Q r b → ∃ a, P r a ∧ S a b) :
    ∃ l, as.Perm l ∧ l.length = bs.length ∧
      ∀ (i : Nat) a b, l[i]? = some a → bs[i]? = some b → S a b := by
  obtain ⟨lb, rfl, hb1, hb2⟩ := hb
  obtain ⟨l, g1, g2, g3⟩ := once_choose (P := P) (S := S) lb fun x hx => h2 _ _ ((hb2 _ _).1 hx)
  refine ⟨l.map (·.2), ?_, ?_, g3⟩
  · refine ha.perm ⟨l, rfl, g1 ▸ hb1, fun r a => ⟨fun h => g2 _ h, fun h => ?_⟩⟩
    obtain ⟨b, hq⟩ := h1 r a h
    have hm := List.mem_map_of_mem (f := (·.1)) ((hb2 _ _).2 hq)
    rw [← g1] at hm
    obtain ⟨⟨r', a'⟩, hm', e⟩ := List.mem_map.1 hm
    dsimp only at e
    subst e
    rw [ha.unique h (g2 (r', a') hm')]
    exact hm'
  · have := congrArg List.length g1
    simpa using this

theorem dependencies_reordered (h : MapOk asts root) (hr : Reordered (.table root) (.table root'))
    {ds ds' : List Dependency} (h1 : ExactlyOnce ds (IsDependency ovf root))
    (h2 : ExactlyOnce ds' (IsDependency ovf root')) : SameDependencies ds ds' := by
  refine once_rel h1 h2 (fun r d hd => ?_) fun r d' hd' => ?_
  · obtain ⟨e', -, h⟩ := sim_isDependency sim_reordered sim_reordered' (keys_reordered h hr) hd
    exact ⟨_, h⟩
  · obtain ⟨e, he, h⟩ := sim_isDependency (N := fun a b => NRel asts b a) sim_reordered' sim_reordered
      (keys_reordered h hr).flip hd'
    exact ⟨_, h, rfl, rfl, rfl, rfl, rfl, rfl, rfl, he.1.symm, he.2.1⟩

theorem noTrap_reordered (h : MapOk asts root) (hr : Reordered (.table root) (.table root')) (hn : NoTrap root) :
    NoTrap root' := sim_noTrap sim_reordered sim_reordered' (keys_reordered h hr) hn

theorem readsTrap_reordered (h : MapOk asts root) (hr : Reordered (.table root) (.table root')) :
    ReadsTrap root ↔ ReadsTrap root' :=
  ⟨sim_readsTrap sim_reordered sim_reordered' (keys_reordered h hr),
    sim_readsTrap (N := fun a b => NRel asts b a) sim_reordered' sim_reordered (keys_reordered h hr).flip⟩

/-- The order may stay as it is. -/
theorem reordered_refl {n : MapNode} {ar : Option (List Repr)} (h : NodeOk asts ar n) : Reordered n n := by
  induction h with
  | @table ar t h1 h2 h3 h4 h5 ih =>
    refine .table (List.Perm.refl _) rfl ?_ ?_ <;> intro i x y hx hy <;> rw [hx] at hy <;> cases hy
    · exact ⟨rfl, rfl⟩
    · exact ih x.1 x.2 (List.mem_of_getElem? hx)
  | @toplevel rs es h1 h2 h3 ih =>
    refine .toplevel rfl ?_ ?_ <;> intro i x y hx hy <;> rw [hx] at hy <;> cases hy
    · exact ⟨rfl, rfl⟩
    · exact ih x (List.mem_of_getElem? hx)
  | @inline rs p a es h1 h2 h3 h4 ih =>
    refine .inline rfl ?_ ?_ <;> intro i x y hx hy <;> rw [hx] at hy <;> cases hy
    · rfl
    · exact ih x (List.mem_of_getElem? hx)
  | scalar => exact .scalar

end Verif.Ide
