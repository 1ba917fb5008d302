import Verif.Semver.ReqParse
import Verif.Ide.Check

/-! # With overflow checks the check does the same, or panics -/

namespace Verif.Ide
open Verif Verif.Toml Verif.TomlMap

/-- The first computation is the second one, or panics. -/
def Refines {α : Type} (x y : CheckM α) : Prop := x = (none : Option _) ∨ x = y

variable {α β γ : Type}

theorem Refines.refl (x : CheckM α) : Refines x x := Or.inr rfl

theorem Refines.bind {x y : CheckM α} {f g : α → CheckM β} (h : Refines x y) (hf : ∀ a, Refines (f a) (g a)) :
    Refines (x >>= f) (y >>= g) := by
  rcases h with rfl | rfl
  · exact Or.inl rfl
  · show CheckM.bind x f = _ ∨ CheckM.bind x f = CheckM.bind x g
    cases x with
    | none => exact Or.inl rfl
    | some p =>
      obtain ⟨a, es⟩ := p
      rcases hf a with h | h
      · exact Or.inl (by simp only [CheckM.bind, h]; rfl)
      · exact Or.inr (by simp only [CheckM.bind, h])

theorem Refines.loop {f g : β → α → CheckM β} (hf : ∀ b a, Refines (f b a) (g b a)) :
    ∀ (l : List α) (b : β), Refines (Verif.Ide.loop l b f) (Verif.Ide.loop l b g)
  | [], _ => .refl _
  | a :: l, b => .bind (hf b a) fun b => Refines.loop hf l b

theorem parseVersionReq_refines (str : StringAssignment) :
    Refines (parseVersionReq true str) (parseVersionReq false str) := by
  refine .bind (.refl _) fun s => ?_
  rcases Semver.parseRequirement_refines str.val.text s.start with h | h
  · rw [h]; exact Or.inl rfl
  · rw [h]; exact .refl _

theorem parseVersionOpt_refines (o : Option StringAssignment) :
    Refines (parseVersionOpt true o) (parseVersionOpt false o) := by
  cases o with
  | none => exact .refl _
  | some v => exact .bind (parseVersionReq_refines v) fun _ => .refl _

theorem buildSpec_refines (b : DependencyBuilder) (prev : List Seg) (e : Entry) :
    Refines (buildSpec true b prev e) (buildSpec false b prev e) := by
  unfold buildSpec
  dsimp only
  split
  · exact .refl _
  · have hbody : ∀ {x y : CheckM DependencySpec} {c : Prop} [Decidable c] {z : CheckM Unit}, Refines x y →
        Refines (if c then (do z; x) else x) (if c then (do z; y) else y) := by
      intro x y c _ z h
      split
      · exact .bind (.refl _) fun _ => h
      · exact h
    refine hbody ?_
    split
    · exact .refl _
    · exact .refl _
    · exact .bind (.refl _) fun _ => .bind (parseVersionOpt_refines _) fun _ => .refl _
    · exact .bind (parseVersionOpt_refines _) fun _ => .refl _
    · split
      · exact .bind (parseVersionReq_refines _) fun _ => .refl _
      · exact .refl _

theorem dependenciesStep_refines (state : List Dependency) (prev : List Seg) (kind : DependencyKind)
    (target : Option Str) (name : Str) (e : Entry) :
    Refines (dependenciesStep true state prev kind target name e)
      (dependenciesStep false state prev kind target name e) := by
  unfold dependenciesStep
  split
  · exact .bind (.refl _) fun _ => .bind (parseVersionReq_refines _) fun _ => .refl _
  · exact .refl _
  · exact .refl _
  · exact .bind (.refl _) fun _ => .bind (.bind (buildSpec_refines _ _ _) fun _ => .refl _) fun _ => .refl _
  · exact .refl _

theorem section_refines (state : List Dependency) (prev : List Seg) (e : Entry) (kind : DependencyKind)
    (target : Option Str) : Refines (section_ true state prev e kind target) (section_ false state prev e kind target) := by
  refine .bind (.refl _) fun o => ?_
  cases o with
  | none => exact .refl _
  | some t => exact .loop (fun _ _ => dependenciesStep_refines _ _ _ _ _ _) _ _

theorem oldSection_refines (state : List Dependency) (prev : List Seg) (t : MapTable) (old new : Str) (e : Entry)
    (kind : DependencyKind) (target : Option Str) : Refines (oldSection true state prev t old new e kind target)
      (oldSection false state prev t old new e kind target) := by
  refine .bind (.refl _) fun o => ?_
  split
  · exact .refl _
  · exact section_refines _ _ _ _ _

theorem sectionStep_refines (state : List Dependency) (prev : List Seg) (t : MapTable) (target : Option Str)
    (key : SectionKey) (e : Entry) :
    Refines (sectionStep true state prev t target key e) (sectionStep false state prev t target key e) := by
  cases key <;> first | exact section_refines _ _ _ _ _ | exact oldSection_refines _ _ _ _ _ _ _ _

theorem check_refines (root : MapTable) : Refines (check true root) (check false root) := by
  refine .loop (fun state ke => ?_) _ _
  split
  · exact .refl _
  · split
    · exact sectionStep_refines _ _ _ _ _ _
    · split
      · refine .bind (.refl _) fun o => ?_
        cases o with
        | none => exact .refl _
        | some t =>
          refine .loop (fun state ke => ?_) _ _
          refine .bind (.refl _) fun o => ?_
          cases o with
          | none => exact .refl _
          | some t =>
            refine .loop (fun state ke => ?_) _ _
            split
            · exact sectionStep_refines _ _ _ _ _ _
            · exact .refl _
      · exact .refl _

/-- If the check does not panic, it is the same without overflow checks. -/
theorem check_false {ovf : Bool} {root : MapTable} {x : List Dependency × List Msg}
    (h : check ovf root = some x) : check false root = some x := by
  cases ovf with
  | false => exact h
  | true =>
    rcases check_refines root with h' | h'
    · rw [h'] at h; cases h
    · rw [← h']; exact h

end Verif.Ide
