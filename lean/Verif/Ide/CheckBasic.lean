import Verif.Ide.CheckLogic
import Verif.Toml.PathLemmas

/-! # The single parts of the check -/

namespace Verif.Ide
open Verif Verif.Toml Verif.TomlMap
open Verif.Spec.Toml hiding Entry KeyOk
open Verif.Spec.Check hiding Section SectionKey

variable {asts : List Ast} {prev : List Seg} {loc : Loc} {k : Str} {e : Entry}

/-- An entry at a location, where `prev` is the path around it. -/
structure Here (asts : List Ast) (prev : List Seg) (loc : Loc) (k : Str) (e : Entry) : Prop where
  path : PathOk prev
  names : Names prev loc
  entry : EntryOk asts (around prev) k e

namespace Here

theorem repr (h : Here asts prev loc k e) {r : Repr} (hr : r ∈ e.reprs) :
    InRange prev r.parent ∧ (∃ s, r.span = some s) ∧ (∃ s, r.kind.span = some s) ∧
      ∃ i, r.key.reprIdent = some i ∧ i.text = k := by
  have := h.entry.2.1 r hr
  obtain ⟨i, hi, ht⟩ := nameOk_ident this.1
  obtain ⟨s, hs⟩ := nameOk_span this.1
  exact ⟨this.inRange, ⟨⟨i.litStart, s.stop⟩, by simp [Repr.span, hi, hs]⟩, ⟨s, hs⟩, i, hi, ht⟩

theorem firstText (h : Here asts prev loc k e) : firstText e.reprs = some k := by
  cases hr : e.reprs with
  | nil => exact absurd hr h.entry.1
  | cons r rs =>
    obtain ⟨-, -, -, i, hi, ht⟩ := h.repr (r := r) (by rw [hr]; exact List.mem_cons_self)
    simp [TomlMap.firstText, hi, ht]

theorem head (h : Here asts prev loc k e) : ∃ r, e.reprs.head? = some r ∧ r ∈ e.reprs := by
  cases hr : e.reprs with
  | nil => exact absurd hr h.entry.1
  | cons r rs => exact ⟨r, rfl, List.mem_cons_self⟩

theorem pathIn (h : Here asts prev loc k e) : PathOk (.table e.reprs :: prev) :=
  h.path.table h.entry.1 h.entry.2.1

theorem namesIn (h : Here asts prev loc k e) : Names (.table e.reprs :: prev) (loc ++ [.key k]) :=
  .table h.firstText h.names

theorem nodup (h : Here asts prev loc k e) {t : MapTable} (ht : e.node = .table t) :
    (t.map (·.1)).Nodup := by
  have := h.entry.2.2.1
  rw [ht] at this
  cases this
  assumption

theorem child (h : Here asts prev loc k e) {t : MapTable} (ht : e.node = .table t) {k' : Str} {e' : Entry}
    (hg : TomlMap.get t k' = some e') : Here asts (.table e.reprs :: prev) (loc ++ [.key k]) k' e' := by
  refine ⟨h.pathIn, h.namesIn, ?_⟩
  have := h.entry.2.2.1
  rw [ht] at this
  exact this.entry hg

end Here

/-! ## Messages -/

theorem mkError_ok {lp fp : List Seg} {n : Nat} {shown : Loc} {s : Span} (hl : PathOk lp)
    (hn : InRange lp n) (hf : Names fp shown) (hne : fp ≠ []) (kind : ErrorKind) :
    ∃ ls, ContextLines lp [n] ls ∧ mkError lp n fp (some s) kind = some (.error ls (showLoc shown) s kind) := by
  obtain ⟨ls, hls⟩ := contextLines_some hl (ns := [n]) (by simpa using hn)
  exact ⟨ls, contextLines_spec hls, by simp [mkError, hls, fmtPath_names hf hne]⟩

theorem mkWarning_ok {lp fp : List Seg} {n : Nat} {shown : Loc} {s : Span} (hl : PathOk lp)
    (hn : InRange lp n) (hf : Names fp shown) (hne : fp ≠ []) (kind : WarningKind) :
    ∃ ls, ContextLines lp [n] ls ∧
      mkWarning lp n fp (some s) kind = some (.warning ls (showLoc shown) s kind) := by
  obtain ⟨ls, hls⟩ := contextLines_some hl (ns := [n]) (by simpa using hn)
  exact ⟨ls, contextLines_spec hls, by simp [mkWarning, hls, fmtPath_names hf hne]⟩

theorem errorAt_unique {path : List Seg} {r : Repr} {shown : Loc} {kind : ErrorKind} {m m' : Msg}
    (h : ErrorAt path r shown kind m) (h' : ErrorAt path r shown kind m') : m = m' := by
  obtain ⟨ls, s, h1, h2, rfl⟩ := h
  obtain ⟨ls', s', h1', h2', rfl⟩ := h'
  rw [contextLines_unique h1 h1']
  rw [h2] at h2'
  cases h2'
  rfl

theorem warningAt_unique {path : List Seg} {r : Repr} {shown : Loc} {kind : WarningKind} {m m' : Msg}
    (h : WarningAt path r shown kind m) (h' : WarningAt path r shown kind m') : m = m' := by
  obtain ⟨ls, s, h1, h2, rfl⟩ := h
  obtain ⟨ls', s', h1', h2', rfl⟩ := h'
  rw [contextLines_unique h1 h1']
  rw [h2] at h2'
  cases h2'
  rfl

/-- One error. -/
theorem runs_error {lp fp : List Seg} {r : Repr} {shown : Loc} (hl : PathOk lp)
    (hn : InRange lp r.parent) (hs : ∃ s, r.span = some s) (hf : Names fp shown) (hne : fp ≠ [])
    (kind : ErrorKind) (rs : Reason) :
    Runs (emit (mkError lp r.parent fp r.span kind)) (fun _ => True)
      (fun rs' m => rs' = rs ∧ ErrorAt lp r shown kind m) := by
  obtain ⟨s, hs⟩ := hs
  obtain ⟨ls, h1, h2⟩ := mkError_ok (s := s) hl hn hf hne kind
  rw [← hs] at h2
  refine (Runs.emit h2 rs).congr fun rs' m => and_congr_right fun _ => ?_
  have hm : ErrorAt lp r shown kind (.error ls (showLoc shown) s kind) := ⟨ls, s, h1, hs, rfl⟩
  exact ⟨fun h => h ▸ hm, fun h => errorAt_unique h hm⟩

/-- One warning. -/
theorem runs_warning {lp fp : List Seg} {r : Repr} {shown : Loc} (hl : PathOk lp)
    (hn : InRange lp r.parent) (hs : ∃ s, r.span = some s) (hf : Names fp shown) (hne : fp ≠ [])
    (kind : WarningKind) (rs : Reason) :
    Runs (emit (mkWarning lp r.parent fp r.span kind)) (fun _ => True)
      (fun rs' m => rs' = rs ∧ WarningAt lp r shown kind m) := by
  obtain ⟨s, hs⟩ := hs
  obtain ⟨ls, h1, h2⟩ := mkWarning_ok (s := s) hl hn hf hne kind
  rw [← hs] at h2
  refine (Runs.emit h2 rs).congr fun rs' m => and_congr_right fun _ => ?_
  have hm : WarningAt lp r shown kind (.warning ls (showLoc shown) s kind) := ⟨ls, s, h1, hs, rfl⟩
  exact ⟨fun h => h ▸ hm, fun h => warningAt_unique h hm⟩

/-- One error for each representation. -/
def Errors (prev : List Seg) (e : Entry) (at_ shown : Loc) (what : Problem) (kind : ErrorKind) : Pred :=
  fun rs m => ∃ i r, e.reprs[i]? = some r ∧ rs = ⟨at_, what, i⟩ ∧ ErrorAt prev r shown kind m

/-- One warning for each representation. -/
def Warnings (prev : List Seg) (e : Entry) (at_ shown : Loc) (what : Problem) (kind : WarningKind) : Pred :=
  fun rs m => ∃ i r, e.reprs[i]? = some r ∧ rs = ⟨at_, what, i⟩ ∧ WarningAt prev r shown kind m

theorem runs_errors (h : Here asts prev loc k e) (at_ : Loc) (what : Problem) (kind : ErrorKind) :
    Runs (each e.reprs fun r => emit (mkError prev r.parent (.table e.reprs :: prev) r.span kind))
      (fun _ => True) (Errors prev e at_ (loc ++ [.key k]) what kind) := by
  refine (Runs.each (P := fun i r rs m => rs = ⟨at_, what, i⟩ ∧ ErrorAt prev r (loc ++ [.key k]) kind m)
    0 (fun i r hr => ?_) ?_).congr fun rs m => ?_
  · have := h.repr (List.mem_of_getElem? hr)
    exact runs_error h.path this.1 this.2.1 h.namesIn (by simp) kind _
  · rintro i j a b r m m' ⟨rfl, -⟩ ⟨h', -⟩
    simpa using h'
  · simp only [Nat.zero_add, Errors]

theorem runs_warnings (h : Here asts prev loc k e) (at_ : Loc) (what : Problem) (kind : WarningKind) :
    Runs (each e.reprs fun r => emit (mkWarning prev r.parent (.table e.reprs :: prev) r.span kind))
      (fun _ => True) (Warnings prev e at_ (loc ++ [.key k]) what kind) := by
  refine (Runs.each (P := fun i r rs m => rs = ⟨at_, what, i⟩ ∧ WarningAt prev r (loc ++ [.key k]) kind m)
    0 (fun i r hr => ?_) ?_).congr fun rs m => ?_
  · have := h.repr (List.mem_of_getElem? hr)
    exact runs_warning h.path this.1 this.2.1 h.namesIn (by simp) kind _
  · rintro i j a b r m m' ⟨rfl, -⟩ ⟨h', -⟩
    simpa using h'
  · simp only [Nat.zero_add, Warnings]

/-! ## Types -/

theorem hasType (n : MapNode) : HasType n (nodeType n) := by
  cases n with
  | scalar s => cases s <;> constructor
  | _ => constructor

theorem hasType_eq {n : MapNode} {d : Datatype} (h : HasType n d) : d = nodeType n := by
  cases h <;> rfl

/-- The reasons of a type error. -/
def TypeP (prev : List Seg) (e : Entry) (loc : Loc) (ty : Datatype) : Pred := fun rs m =>
  ∃ found i r, WrongType e.node [ty] found ∧ e.reprs[i]? = some r ∧ rs = ⟨loc, .type, i⟩ ∧
    ErrorAt prev r loc (.wrongDatatype ty found) m

theorem typeP_never {ty : Datatype} (h : nodeType e.node = ty ∨ nodeType e.node = .invalid) (loc' : Loc) :
    ∀ rs m, Never rs m ↔ TypeP prev e loc' ty rs m := by
  intro rs m
  refine ⟨False.elim, ?_⟩
  rintro ⟨found, i, r, ⟨h1, h2, h3⟩, -⟩
  rw [hasType_eq h1] at h2 h3
  rcases h with h | h
  · simp [h] at h3
  · exact h2 h

theorem runs_wrongDatatypes (h : Here asts prev loc k e) {ty : Datatype} (h1 : nodeType e.node ≠ ty)
    (h2 : nodeType e.node ≠ .invalid) :
    Runs (wrongDatatypes prev e ty) (fun _ => True) (TypeP prev e (loc ++ [.key k]) ty) := by
  refine (runs_errors h (loc ++ [.key k]) .type (.wrongDatatype ty (nodeType e.node))).congr fun rs m => ?_
  constructor
  · rintro ⟨i, r, hr, rfl, hm⟩
    exact ⟨nodeType e.node, i, r, ⟨hasType _, h2, by simpa using h1⟩, hr, rfl, hm⟩
  · rintro ⟨found, i, r, ⟨ht, -, -⟩, hr, rfl, hm⟩
    rw [hasType_eq ht] at hm
    exact ⟨i, r, hr, rfl, hm⟩

theorem runs_wrong (h : Here asts prev loc k e) {ty : Datatype} (h1 : nodeType e.node ≠ ty)
    (h2 : nodeType e.node ≠ .invalid) {α : Type} {a : α} :
    Runs (do wrongDatatypes prev e ty; pure a) (· = a) (TypeP prev e (loc ++ [.key k]) ty) :=
  (runs_wrongDatatypes h h1 h2).bindR fun _ _ => .ret

/-- The table of an entry. -/
def tableOf (e : Entry) : Option MapTable :=
  match e.node with
  | .table t => some t
  | _ => none

/-- The string of an entry. -/
def strOf (e : Entry) : Option StringAssignment :=
  match e.node with
  | .scalar (.string v) => e.reprs.head?.map fun r => ⟨r, v⟩
  | _ => none

/-- The boolean of an entry. -/
def flagOf (e : Entry) : Option BoolAssignment :=
  match e.node with
  | .scalar (.bool s v) => e.reprs.head?.map fun r => ⟨r, s, v⟩
  | _ => none

theorem runs_none (h : Here asts prev loc k e) {ty : Datatype} {α : Type} {a : α}
    (h1 : nodeType e.node = .invalid) :
    Runs (Pure.pure a) (· = a) (TypeP prev e (loc ++ [.key k]) ty) :=
  Runs.ret.congr (typeP_never (Or.inr h1) _)

theorem runs_expectTable (h : Here asts prev loc k e) :
    Runs (expectTable prev e) (· = tableOf e) (TypeP prev e (loc ++ [.key k]) .table) := by
  cases hn : e.node with
  | table t =>
    simp only [expectTable, tableOf, hn]
    exact Runs.ret.congr (typeP_never (Or.inl (by simp [hn, nodeType])) _)
  | scalar s =>
    cases s <;> simp only [expectTable, tableOf, hn] <;>
      first
      | exact runs_wrong h (by simp [hn, nodeType, scalarType]) (by simp [hn, nodeType, scalarType])
      | exact runs_none h (by rw [hn]; rfl)
  | _ =>
    simp only [expectTable, tableOf, hn]
    exact runs_wrong h (by simp [hn, nodeType]) (by simp [hn, nodeType])

theorem runs_expectString (h : Here asts prev loc k e) :
    Runs (expectString prev e) (· = strOf e) (TypeP prev e (loc ++ [.key k]) .string) := by
  obtain ⟨r, hr, -⟩ := h.head
  cases hn : e.node with
  | scalar s =>
    cases s <;> simp only [expectString, strOf, hn, hr] <;>
      first
      | exact runs_wrong h (by simp [hn, nodeType, scalarType]) (by simp [hn, nodeType, scalarType])
      | exact runs_none h (by rw [hn]; rfl)
      | exact ((Runs.lift (Q := (· = r)) rfl rfl).bindL fun a ha => by subst ha; exact Runs.ret).congr
          (typeP_never (Or.inl (by rw [hn]; rfl)) _)
  | _ =>
    simp only [expectString, strOf, hn]
    exact runs_wrong h (by simp [hn, nodeType]) (by simp [hn, nodeType])

theorem runs_expectBool (h : Here asts prev loc k e) :
    Runs (expectBool prev e) (· = flagOf e) (TypeP prev e (loc ++ [.key k]) .bool) := by
  obtain ⟨r, hr, -⟩ := h.head
  cases hn : e.node with
  | scalar s =>
    cases s <;> simp only [expectBool, flagOf, hn, hr] <;>
      first
      | exact runs_wrong h (by simp [hn, nodeType, scalarType]) (by simp [hn, nodeType, scalarType])
      | exact runs_none h (by rw [hn]; rfl)
      | exact ((Runs.lift (Q := (· = r)) rfl rfl).bindL fun a ha => by subst ha; exact Runs.ret).congr
          (typeP_never (Or.inl (by rw [hn]; rfl)) _)
  | _ =>
    simp only [expectBool, flagOf, hn]
    exact runs_wrong h (by simp [hn, nodeType]) (by simp [hn, nodeType])

/-- The array of an entry. -/
def arrayOf (e : Entry) : Option ArrayNode :=
  match e.node with
  | .toplevel _ => some .toplevel
  | .inline n _ es => some (.inline n es)
  | _ => none

theorem runs_expectArray (h : Here asts prev loc k e) :
    Runs (expectArray prev e) (· = arrayOf e) (TypeP prev e (loc ++ [.key k]) .array) := by
  cases hn : e.node with
  | table t =>
    simp only [expectArray, arrayOf, hn]
    exact runs_wrong h (by simp [hn, nodeType]) (by simp [hn, nodeType])
  | scalar s =>
    cases s <;> simp only [expectArray, arrayOf, hn] <;>
      first
      | exact runs_wrong h (by simp [hn, nodeType, scalarType]) (by simp [hn, nodeType, scalarType])
      | exact runs_none h (by rw [hn]; rfl)
  | _ =>
    simp only [expectArray, arrayOf, hn]
    exact Runs.ret.congr (typeP_never (Or.inl (by simp [hn, nodeType])) _)

/-! ## Unknown keys and underscores -/

theorem runs_warnUnused (h : Here asts prev loc k e) :
    Runs (warnUnused prev e) (fun _ => True)
      (Warnings prev e (loc ++ [.key k]) (loc ++ [.key k]) .unknown .ignoredUnknownKey) :=
  runs_warnings h _ _ _

theorem fmtPathOrEmpty_names (h : Names prev loc) : fmtPathOrEmpty prev = some (showLoc loc) := by
  cases prev with
  | nil =>
    cases h
    rfl
  | cons s p => exact fmtPath_names h (by simp)

/-- The reasons of a warning about an underscore. -/
def OldP (prev : List Seg) (t : MapTable) (e : Entry) (loc : Loc) (old new : String) : Pred := fun rs m =>
  ∃ kind i r, Underscore t old new kind ∧ e.reprs[i]? = some r ∧
    rs = ⟨loc ++ [.key old.toList], .deprecated, i⟩ ∧ WarningAt prev r loc kind m

theorem underscore_unique {t : MapTable} {old new : String} {a b : WarningKind} (h : Underscore t old new a)
    (h' : Underscore t old new b) : a = b := by
  cases h with
  | deprecated h =>
    cases h' with
    | deprecated => rfl
    | redundant h1 => exact absurd ⟨_, h1⟩ h
  | redundant h1 h2 h3 =>
    cases h' with
    | deprecated h => exact absurd ⟨_, h1⟩ h
    | redundant h1' h2' h3' =>
      rw [h1] at h1'; cases h1'
      rw [h2] at h2'; cases h2'
      rw [h3] at h3'; cases h3'
      rfl

theorem runs_deprecated {t : MapTable} {old new : String} (h : Here asts prev loc old.toList e)
    (ht : ∀ k e, TomlMap.get t k = some e → Here asts prev loc k e) :
    Runs (deprecatedUnderscore prev t old.toList new.toList e) (· = (TomlMap.get t new.toList).isSome)
      (OldP prev t e loc old new) := by
  unfold deprecatedUnderscore
  have hk : ∃ kind, Underscore t old new kind ∧ Runs (liftC (match TomlMap.get t new.toList with
    | some newEntry => do
      let r ← newEntry.reprs.head?
      let s ← r.kind.span
      pure (true, WarningKind.redundantDeprecatedUnderscore old.toList new.toList s)
    | none => some (false, .deprecatedUnderscore old.toList new.toList)))
      (· = ((TomlMap.get t new.toList).isSome, kind)) Never := by
    cases hg : TomlMap.get t new.toList with
    | none =>
      refine ⟨_, .deprecated ?_, Runs.lift rfl rfl⟩
      rintro ⟨e', he'⟩
      rw [hg] at he'
      cases he'
    | some e' =>
      have h' := ht _ _ hg
      obtain ⟨r, hr, hm⟩ := h'.head
      obtain ⟨-, -, ⟨s, hs⟩, -⟩ := h'.repr hm
      exact ⟨_, .redundant hg hr hs, Runs.lift (by simp [hr, hs]) rfl⟩
  obtain ⟨kind, hu, hrun⟩ := hk
  refine hrun.bindL fun a ha => ?_
  subst ha
  refine Runs.bindR (Q := fun _ => True) ?_ fun _ _ => Runs.ret
  refine (Runs.each (P := fun i r rs m => rs = ⟨loc ++ [.key old.toList], .deprecated, i⟩ ∧
    WarningAt prev r loc kind m) 0 (fun i r hr => ?_) ?_).congr fun rs m => ?_
  · obtain ⟨h1, ⟨s, hs⟩, -⟩ := h.repr (List.mem_of_getElem? hr)
    obtain ⟨ls, hls⟩ := contextLines_some h.path (ns := [r.parent]) (by simpa using h1)
    have hm : WarningAt prev r loc kind (.warning ls (showLoc loc) s kind) :=
      ⟨ls, s, contextLines_spec hls, hs, rfl⟩
    refine (Runs.emit (m := .warning ls (showLoc loc) s kind)
      (by simp [hls, fmtPathOrEmpty_names h.names, hs]) ⟨loc ++ [.key old.toList], .deprecated, 0 + i⟩).congr
      fun rs' m => and_congr_right fun _ => ?_
    exact ⟨fun h => h ▸ hm, fun h => warningAt_unique h hm⟩
  · rintro i j a b r m m' ⟨rfl, -⟩ ⟨h', -⟩
    simpa using h'
  · simp only [Nat.zero_add]
    constructor
    · rintro ⟨i, r, hr, rfl, hm⟩
      exact ⟨kind, i, r, hu, hr, rfl, hm⟩
    · rintro ⟨kind', i, r, hu', hr, rfl, hm⟩
      rw [underscore_unique hu' hu] at hm
      exact ⟨i, r, hr, rfl, hm⟩

/-! ## Features -/

/-- The reasons of an element that is not a string. -/
def ElementP (path : List Seg) (n : Nat) (loc : Loc) (j : Nat) (x : InlineEntry) : Pred := fun rs m =>
  ∃ found ls, WrongType x.node [.string] found ∧ ContextLines path [n] ls ∧
    rs = ⟨loc ++ [.idx j], .type, 0⟩ ∧
    m = .error ls (showLoc (loc ++ [.idx j])) ⟨x.repr.val.start, x.repr.end⟩ (.wrongDatatype .string found)

theorem runs_element {path : List Seg} {n : Nat} (hp : PathOk path) (hn : InRange path n)
    (hl : Names path loc) (hne : path ≠ []) (j : Nat) (x : InlineEntry) :
    Runs (expectStringInArray path j n x)
      (· = match x.node with | .scalar (.string s) => some s | _ => none) (ElementP path n loc j x) := by
  have never : (nodeType x.node = .string ∨ nodeType x.node = .invalid) →
      ∀ rs m, Never rs m ↔ ElementP path n loc j x rs m := by
    intro h rs m
    refine ⟨False.elim, ?_⟩
    rintro ⟨found, ls, ⟨h1, h2, h3⟩, -⟩
    rw [hasType_eq h1] at h2 h3
    rcases h with h | h
    · simp [h] at h3
    · exact h2 h
  have wrong : nodeType x.node ≠ .string → nodeType x.node ≠ .invalid →
      Runs (do
        emit (mkError path n (.array j :: path) (some ⟨x.repr.val.start, x.repr.end⟩)
          (.wrongDatatype .string (nodeType x.node)))
        Pure.pure (none : Option StringVal)) (· = none) (ElementP path n loc j x) := by
    intro h1 h2
    obtain ⟨ls, hls, he⟩ := mkError_ok (s := ⟨x.repr.val.start, x.repr.end⟩) hp hn (.array (i := j) hne hl) (by simp)
      (.wrongDatatype .string (nodeType x.node))
    refine ((Runs.emit he ⟨loc ++ [.idx j], .type, 0⟩).bindR fun _ _ => Runs.ret).congr fun rs m => ?_
    constructor
    · rintro ⟨rfl, rfl⟩
      exact ⟨_, ls, ⟨hasType _, h2, by simpa using h1⟩, hls, rfl, rfl⟩
    · rintro ⟨found, ls', ⟨ht, -, -⟩, hls', rfl, rfl⟩
      rw [hasType_eq ht, contextLines_unique hls hls']
      exact ⟨rfl, rfl⟩
  cases hx : x.node with
  | scalar s =>
    rw [hx] at never wrong
    cases s <;> simp only [expectStringInArray, hx] <;>
      first
      | exact wrong (by simp [nodeType, scalarType]) (by simp [nodeType, scalarType])
      | exact Runs.ret.congr (never (Or.inl rfl))
      | exact Runs.ret.congr (never (Or.inr rfl))
  | _ =>
    rw [hx] at wrong
    simp only [expectStringInArray, hx]
    exact wrong (by simp [nodeType]) (by simp [nodeType])

theorem runs_elements {path : List Seg} {n : Nat} (hp : PathOk path) (hn : InRange path n)
    (hl : Names path loc) (hne : path ≠ []) (es : List InlineEntry) (i : Nat) (fs : List StringVal) :
    Runs (parseFeatureElements path n es i fs) (· = fs ++ strings es)
      (fun rs m => ∃ j x, es[j]? = some x ∧ ElementP path n loc (i + j) x rs m) := by
  induction es generalizing i fs with
  | nil => exact (Runs.pure (by simp [strings])).congr fun rs m => by simp [Never]
  | cons x es ih =>
    unfold parseFeatureElements
    refine ((runs_element hp hn hl hne i x).bind (S := (· = fs ++ strings (x :: es)))
      (P' := fun rs m => ∃ j x, es[j]? = some x ∧ ElementP path n loc (i + 1 + j) x rs m) ?_ ?_).congr fun rs m => ?_
    · rintro a rfl
      have h1 : ∀ v, Runs (parseFeatureElements path n es (i + 1) (fs ++ [v])) (· = fs ++ v :: strings es)
          (fun rs m => ∃ j x, es[j]? = some x ∧ ElementP path n loc (i + 1 + j) x rs m) := fun v => by
        have := ih (i + 1) (fs ++ [v])
        simpa using this
      have h2 := ih (i + 1) fs
      unfold strings
      split <;> rename_i hx <;> split at hx <;> simp_all
    · rintro r m m' ⟨_, _, -, -, rfl, -⟩ ⟨j, y, -, _, _, -, -, hh, -⟩
      simp at hh
      omega
    · constructor
      · rintro (h | ⟨j, y, hy, h⟩)
        · exact ⟨0, x, rfl, h⟩
        · exact ⟨j + 1, y, hy, by rwa [show i + (j + 1) = i + 1 + j from by omega]⟩
      · rintro ⟨j, y, hy, h⟩
        cases j with
        | zero =>
          simp only [List.getElem?_cons_zero, Option.some.injEq] at hy
          subst hy
          exact Or.inl h
        | succ j => exact Or.inr ⟨j, y, hy, by rwa [show i + 1 + j = i + (j + 1) from by omega]⟩

/-- The reasons of the features of a dependency. -/
def FeaturesP (prev : List Seg) (e : Entry) (loc : Loc) : Pred := fun rs m =>
  TypeP prev e loc .array rs m ∨
  (∃ es i r, e.node = .toplevel es ∧ e.reprs[i]? = some r ∧ rs = ⟨loc ++ [.idx i], .type, 0⟩ ∧
    ErrorAt prev r (loc ++ [.idx i]) (.wrongDatatype .string .table) m) ∨
  (∃ n a es i x, e.node = .inline n a es ∧ es[i]? = some x ∧
    ElementP (.table e.reprs :: prev) n loc i x rs m)

/-- The features of an entry. -/
def featuresOf (e : Entry) (fs : List StringVal) : List StringVal :=
  match e.node with
  | .inline _ _ es => fs ++ strings es
  | _ => fs

theorem runs_features (h : Here asts prev loc k e) (fs : List StringVal) :
    Runs (parseDependencyFeatures fs prev e) (· = featuresOf e fs) (FeaturesP prev e (loc ++ [.key k])) := by
  unfold parseDependencyFeatures
  have key : ∀ P' : Pred, (∀ r m, P' r m ↔ (∃ es i r', e.node = .toplevel es ∧ e.reprs[i]? = some r' ∧
      r = ⟨loc ++ [.key k] ++ [.idx i], .type, 0⟩ ∧
      ErrorAt prev r' (loc ++ [.key k] ++ [.idx i]) (.wrongDatatype .string .table) m) ∨
      (∃ n a es i x, e.node = .inline n a es ∧ es[i]? = some x ∧
        ElementP (.table e.reprs :: prev) n (loc ++ [.key k]) i x r m)) →
      ∀ r m, (TypeP prev e (loc ++ [.key k]) .array r m ∨ P' r m) ↔ FeaturesP prev e (loc ++ [.key k]) r m := by
    intro P' hP r m
    unfold FeaturesP
    rw [hP]
  have hd : ∀ P' : Pred, (∀ r m, P' r m → ∃ i, r.loc = loc ++ [.key k] ++ [.idx i]) →
      ∀ r m m', TypeP prev e (loc ++ [.key k]) .array r m → P' r m' → False := by
    rintro P' hP r m m' ⟨_, _, _, -, -, rfl, -⟩ h'
    obtain ⟨i, hi⟩ := hP _ _ h'
    simp at hi
  cases hn : e.node with
  | toplevel es =>
    refine ((runs_expectArray h).bind (S := (· = featuresOf e fs)) (P' := fun rs m => ∃ i r,
      e.reprs[i]? = some r ∧ rs = ⟨loc ++ [.key k] ++ [.idx i], .type, 0⟩ ∧
      ErrorAt prev r (loc ++ [.key k] ++ [.idx i]) (.wrongDatatype .string .table) m) ?_ ?_).congr (key _ ?_)
    · rintro a rfl
      simp only [arrayOf, hn]
      refine Runs.bindR (Q := fun _ => True) ?_ fun _ _ => Runs.pure (by simp [featuresOf, hn])
      refine (Runs.each (P := fun i ri rs m => rs = ⟨loc ++ [.key k] ++ [.idx i], .type, 0⟩ ∧
        ErrorAt prev ri.1 (loc ++ [.key k] ++ [.idx i]) (.wrongDatatype .string .table) m) 0
        (fun i r hr => ?_) ?_).congr fun rs m => ?_
      · obtain ⟨r, j⟩ := r
        rw [List.getElem?_zipIdx] at hr
        simp only [Option.map_eq_some_iff, Prod.mk.injEq, Nat.zero_add] at hr
        obtain ⟨_, hr, rfl, rfl⟩ := hr
        have := h.repr (List.mem_of_getElem? hr)
        simp only [Nat.zero_add]
        exact runs_error h.path this.1 this.2.1 (.array (by simp) h.namesIn) (by simp) _ _
      · rintro i j a b r m m' ⟨rfl, -⟩ ⟨h', -⟩
        simpa using h'
      · simp only [Nat.zero_add]
        constructor
        · rintro ⟨i, ⟨r, j⟩, hr, rfl, hm⟩
          rw [List.getElem?_zipIdx] at hr
          simp only [Option.map_eq_some_iff, Prod.mk.injEq, Nat.zero_add] at hr
          obtain ⟨_, hr, rfl, rfl⟩ := hr
          exact ⟨_, _, hr, rfl, hm⟩
        · rintro ⟨i, r, hr, rfl, hm⟩
          exact ⟨i, (r, i), by simp [List.getElem?_zipIdx, hr], rfl, hm⟩
    · exact hd _ (by rintro r m ⟨i, _, -, rfl, -⟩; exact ⟨i, rfl⟩)
    · intro r m
      simp [hn]
  | inline n a es =>
    have hin : InRange (.table e.reprs :: prev) n := by
      have := h.entry.2.2.1
      rw [hn] at this
      cases this with
      | inline h1 =>
        obtain ⟨p, hp, -⟩ := h1
        show n < e.reprs.length
        exact (List.getElem?_eq_some_iff.1 hp).1
    refine ((runs_expectArray h).bind (S := (· = featuresOf e fs)) (P' := fun rs m => ∃ j x,
      es[j]? = some x ∧ ElementP (.table e.reprs :: prev) n (loc ++ [.key k]) j x rs m) ?_ ?_).congr (key _ ?_)
    · rintro a rfl
      simp only [arrayOf, hn, featuresOf]
      exact (runs_elements h.pathIn hin h.namesIn (by simp) es 0 fs).congr fun rs m => by simp
    · exact hd _ (by rintro r m ⟨i, _, -, _, _, -, -, rfl, -⟩; exact ⟨i, rfl⟩)
    · intro r m
      simp only [hn, reduceCtorEq, false_and, exists_false, false_or]
      constructor
      · rintro ⟨j, x, h1, h2⟩
        exact ⟨n, a, es, j, x, rfl, h1, h2⟩
      · rintro ⟨_, _, _, j, x, hh, h1, h2⟩
        cases hh
        exact ⟨j, x, h1, h2⟩
  | table t =>
    refine ((runs_expectArray h).bind (S := (· = featuresOf e fs)) (P' := Never) ?_ (hd _ ?_)).congr (key _ ?_)
    · rintro a rfl
      simp only [arrayOf, hn, featuresOf]
      exact Runs.ret
    · exact fun _ _ h => h.elim
    · intro r m; simp [hn, Never]
  | scalar s =>
    refine ((runs_expectArray h).bind (S := (· = featuresOf e fs)) (P' := Never) ?_ (hd _ ?_)).congr (key _ ?_)
    · rintro a rfl
      simp only [arrayOf, hn, featuresOf]
      exact Runs.ret
    · exact fun _ _ h => h.elim
    · intro r m; simp [hn, Never]

end Verif.Ide
