import Verif.Spec.CheckDoc
import Verif.Ide.CheckMain
import Verif.Toml.MapText
import Verif.Semver.SpanLemmas
import Verif.Semver.MoreLemmas
import Verif.Semver.ReqParse
import Verif.Semver.ValidLemmas
import Verif.Semver.ShiftLemmas

/-! # The check of a document -/

namespace Verif.Ide
open Verif Verif.Toml Verif.TomlMap
open Verif.Spec.Toml hiding Entry KeyOk
open Verif.Spec.Check hiding Section SectionKey

variable {asts : List Ast} {root : MapTable} {ovf : Bool} {one : Prop} {input : Str} {n : Nat}

/-! ## Versions -/

/-- No version requirement that is read panics. -/
def ReadsOk (ovf : Bool) (root : MapTable) : Prop :=
  ∀ loc path kind target name e v, DepEntry root loc path kind target name e → ReadVersion e v →
    ∀ pos, Semver.parseRequirement ovf v.text pos ≠ .panic

theorem versionOk_of {s : StringVal} (h : StringIn input s)
    (ho : ∀ pos, Semver.parseRequirement ovf s.text pos ≠ .panic) : VersionOk ovf s := by
  obtain ⟨x, o, t, d, z, -, -, -, -, -, -, -, ts, h, -⟩ := h
  exact ⟨ts, h, ho _⟩

theorem reads_of (ho : ovf = false ∨ NoTrap root) : ReadsOk ovf root := by
  intro loc path kind target name e v hd hv pos hp
  obtain ⟨h1, h2⟩ := (Semver.parseRequirement_good ovf v.text pos).panic hp
  rcases ho with h | h
  · rw [h1] at h; cases h
  · cases hv with
    | string hn => exact (h _ _ _ _ _ _ hd).1 _ hn h2
    | table hn _ _ ha => exact (h _ _ _ _ _ _ hd).2 _ _ hn ha h2

/-- The string that is read stands in the text. -/
theorem readVersion_in {e : Entry} {v : StringVal} (h : NodeAt one input n e.node) (hv : ReadVersion e v) :
    StringIn input v := by
  cases hv with
  | string hn => rw [hn] at h; exact h.string
  | table hn _ _ ha =>
    rw [hn] at h
    obtain ⟨e3, hg3, hn3, -⟩ := id ha
    have h3 := (h.get hg3).2
    rw [hn3] at h3
    exact h3.string

theorem owner_at (hat : NodeAt one input n (.table root)) {loc : Loc} {path : List Seg} {target : Option Str}
    {t : MapTable} (hown : Owner root loc path target t) : NodeAt one input n (.table t) := by
  cases hown with
  | root => exact hat
  | target h1 h2 h3 h4 =>
    have g1 := (hat.get h1).2
    rw [h2] at g1
    have g2 := (g1.get h3).2
    rw [h4] at g2
    exact g2

theorem depEntry_at (hat : NodeAt one input n (.table root)) {loc : Loc} {path : List Seg} {kind : DependencyKind}
    {target : Option Str} {name : Str} {e : Entry} (hd : DepEntry root loc path kind target name e) :
    NodeAt one input n e.node := by
  obtain ⟨⟨ho, hk, hg0⟩, hn, hg⟩ := hd
  have h1 := ((owner_at hat ho).get hg0).2
  rw [hn] at h1
  exact (h1.get hg).2

theorem versions_dep (hat : NodeAt one input n (.table root)) (ho : ReadsOk ovf root)
    {loc : Loc} {path : List Seg} {target : Option Str} {t : MapTable}
    (hown : Owner root loc path target t) : OwnVersions ovf t := by
  intro k e key kd hg hk hs t1 k1 e1 he hg1 v hv
  subst hk
  have hdep : DepEntry root _ _ _ _ _ _ := .mk (.mk hown hs hg) he hg1
  exact versionOk_of (readVersion_in (depEntry_at hat hdep) hv) (ho _ _ _ _ _ _ _ hdep hv)

theorem versions_reads (hat : NodeAt one input n (.table root)) (ho : ReadsOk ovf root) : Versions ovf root :=
  ⟨versions_dep hat ho .root, fun _ _ _ _ _ h1 h2 h3 h4 => versions_dep hat ho (.target h1 h2 h3 h4)⟩

theorem versions_of (hat : NodeAt one input n (.table root)) (ho : ovf = false ∨ NoTrap root) :
    Versions ovf root := versions_reads hat (reads_of ho)

/-! ## Unknown keys -/

theorem once_filter {R A : Type} {as : List A} {P : R → A → Prop} (h : ExactlyOnce as P) (f : A → Bool) :
    ExactlyOnce (as.filter f) (fun r a => P r a ∧ f a = true) := by
  obtain ⟨l, rfl, h1, h2⟩ := h
  refine ⟨l.filter (fun x => f x.2), ?_, ?_, ?_⟩
  · rw [List.filter_map]; rfl
  · exact h1.sublist (List.Sublist.map _ List.filter_sublist)
  · intro r a
    rw [List.mem_filter, h2]

theorem isUnknown_error {path : List Seg} {r : Repr} {shown : Loc} {kind : ErrorKind} {m : Msg}
    (h : ErrorAt path r shown kind m) : isUnknown m = false := by
  obtain ⟨_, _, -, -, rfl⟩ := h; rfl

theorem isUnknown_warning {path : List Seg} {r : Repr} {shown : Loc} {kind : WarningKind} {m : Msg}
    (h : WarningAt path r shown kind m) : isUnknown m = true ↔ kind = .ignoredUnknownKey := by
  obtain ⟨_, _, -, -, rfl⟩ := h
  cases kind <;> simp [isUnknown]

theorem underscore_known {t : MapTable} {a b : String} {k : WarningKind} (h : Underscore t a b k) :
    k ≠ .ignoredUnknownKey := by cases h <;> simp

theorem unknown_iff (rs : Reason) (m : Msg) :
    (Message ovf root rs m ∧ isUnknown m = true) ↔ UnknownKey root rs m := by
  constructor
  · rintro ⟨h, hu⟩
    have ne : ∀ {x : Bool}, x = false → x = true → False := by intro x h h'; rw [h] at h'; cases h'
    cases h with
    | unknown h1 h2 h3 h4 => exact .mk (loc := []) .root h1 h2 h3 h4
    | unknownTarget h0 h1 h2 h3 h4 => exact .mk (.target h0) h1 h2 h3 h4
    | targetType _ _ _ h => exact (ne (isUnknown_error h) hu).elim
    | targetEntryType _ _ _ _ _ h => exact (ne (isUnknown_error h) hu).elim
    | deprecated _ _ _ h2 _ h => exact absurd ((isUnknown_warning h).1 hu) (underscore_known h2)
    | sectionType _ _ _ h => exact (ne (isUnknown_error h) hu).elim
    | entry hd h =>
      cases h with
      | version => cases hu
      | type _ _ h => exact (ne (isUnknown_error h) hu).elim
      | key ht h =>
        cases h with
        | unknown h1 h2 h3 h4 => exact .mk (.dependency hd ht) h1 h2 h3 h4
        | type _ _ _ _ h => exact (ne (isUnknown_error h) hu).elim
        | deprecated _ h2 _ h => exact absurd ((isUnknown_warning h).1 hu) (underscore_known h2)
        | features _ _ _ h => exact (ne (isUnknown_error h) hu).elim
        | feature => cases hu
      | source ht h =>
        cases h with
        | workspaceFalse _ _ h => exact (ne (isUnknown_error h) hu).elim
        | workspaceIgnored _ _ _ _ _ h => exact absurd ((isUnknown_warning h).1 hu) (by simp)
        | withoutGit _ _ _ _ h => exact (ne (isUnknown_error h) hu).elim
        | gitRegistry _ _ _ _ _ h => exact (ne (isUnknown_error h) hu).elim
        | gitPath _ _ _ _ _ _ h => exact (ne (isUnknown_error h) hu).elim
        | gitSpec _ _ _ _ _ _ _ h => exact (ne (isUnknown_error h) hu).elim
        | version => cases hu
        | missing _ _ _ _ _ h => exact absurd ((isUnknown_warning h).1 hu) (by simp)
  · intro h
    cases h with
    | mk hk h1 h2 h3 h4 =>
      refine ⟨?_, (isUnknown_warning h4).2 rfl⟩
      cases hk with
      | root => exact .unknown h1 h2 h3 h4
      | target h0 => exact .unknownTarget h0 h1 h2 h3 h4
      | dependency hd ht => exact .entry hd (.key ht (.unknown h1 h2 h3 h4))

end Verif.Ide
