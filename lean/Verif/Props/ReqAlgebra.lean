import Verif.Props.SemverMatch

/-!
# C103: the laws that relate requirements to each other

`Req op cv v` abbreviates "the requirement that is written as the operator and the version matches
`v`"; every other word of the statements is from C05-C14.
-/

namespace Verif.Props
open Verif Verif.Spec Verif.Semver Verif.Spec.Semver Verif.Spec.Matching

/-- The requirement written `<op><cv>` is accepted by `parse_requirement` and matches `v`. -/
def Req (ovf : Bool) (pos : Pos) (op : Op) (cv : CompVersion) (v : Version) : Prop :=
  Matches ovf (opWritten op ++ cvText cv) pos v

/-- The written major number. -/
def majorOf : CompVersion → Nat
  | .wl _ => 0
  | .major a _ => a
  | .minor a _ _ => a
  | .patch a _ _ _ => a
  | .pre a _ _ _ _ => a

/-- The operators that are written. -/
def Written (op : Op) : Prop := op ≠ .wl ∧ op ≠ .bl

theorem req_iff (ovf : Bool) (pos : Pos) {op : Op} {cv : CompVersion} {v : Version}
    (ho : Written op) (hcv : ValidCv cv) (hb : ∀ w, cv ≠ .wl w) (hv : TagOk v) :
    Req ovf pos op cv v ↔ Admits TagTextLt op cv v ∧ (v.pre = [] ∨ OptIn cv v) :=
  matches_one ovf op cv pos v
    ⟨hcv, fun e => absurd e ho.1, fun e => absurd e ho.2, fun w e => absurd e (hb w)⟩ hv

theorem tagOk_tag {cv : CompVersion} (h : ValidCv cv) : tag cv = [] ∨ PreTag (tag cv) := by
  cases cv <;> simp only [tag, true_or]
  exact .inr h.2.2.2.1

theorem tagLt_total {p q : Str} (hp : p = [] ∨ PreTag p) (hq : q = [] ∨ PreTag q) :
    TagTextLt p q ∨ p = q ∨ TagTextLt q p := by
  rw [tagTextLt_iff hp hq, tagTextLt_iff hq hp, preCmp_total.swap p q]
  cases h : preCmp p q
  · simp
  · exact .inr (.inl ((preCmp_total.eq_iff p q).1 h))
  · simp

theorem tagLt_asymm {p q : Str} (hp : p = [] ∨ PreTag p) (hq : q = [] ∨ PreTag q)
    (h : TagTextLt p q) : ¬ TagTextLt q p := by
  rw [tagTextLt_iff hp hq] at h
  rw [tagTextLt_iff hq hp, preCmp_total.swap p q, h]; simp

/-- A prerelease version can only be opted into by a full version with a tag. -/
theorem optIn_pre {cv : CompVersion} {v : Version} (h : OptIn cv v) :
    Full cv ∧ triple v = floor cv ∧ tag cv ≠ [] := by
  obtain ⟨a, b, c, p, m, rfl, hp, ht⟩ := h
  exact ⟨trivial, ht, hp⟩

/-- What a single comparator matches, in one formula per operator: for releases, and for the
prereleases of the written triple. -/
theorem eq_core {cv : CompVersion} {v : Version} (hb : ∀ w, cv ≠ .wl w) :
    (Admits TagTextLt .eq cv v ∧ (v.pre = [] ∨ OptIn cv v)) ↔
      (Agrees cv (triple v) ∧ tag cv = v.pre) ∧ (v.pre = [] ∨ OptIn cv v) := by
  unfold Admits
  split
  · rename_i h; simp [AdmitsRelease, h]
  · rename_i h; simp [AdmitsPre, h]

theorem agrees_bounds {cv : CompVersion} {t : Triple} (hb : ∀ w, cv ≠ .wl w) :
    Agrees cv t ↔ TLe (floor cv) t ∧ TLt t (ceil cv) := by
  obtain ⟨x, y, z⟩ := t
  cases cv with
  | wl w => exact absurd rfl (hb w)
  | major a _ => simp only [Agrees, floor, ceil, TLe, TLt]; omega
  | minor a b _ => simp only [Agrees, floor, ceil, TLe, TLt]; omega
  | patch a b c _ => simp only [Agrees, floor, ceil, TLe, TLt, Prod.mk.injEq]; omega
  | pre a b c _ _ => simp only [Agrees, floor, ceil, TLe, TLt, Prod.mk.injEq]; omega

theorem ceil_le_tilde {cv : CompVersion} {t : Triple} (h : TLt t (ceil cv)) :
    TLt t (tildeCeil cv) := by
  obtain ⟨x, y, z⟩ := t
  cases cv <;> simp only [ceil, tildeCeil, TLt] at * <;> omega

theorem ceil_le_caret {cv : CompVersion} {t : Triple} (h : TLt t (ceil cv)) :
    TLt t (caretCeil cv) := by
  obtain ⟨x, y, z⟩ := t
  cases cv <;> simp only [ceil, caretCeil, TLt] at * <;> grind

theorem tilde_le_caret {cv : CompVersion} {t : Triple} (hm : 0 < majorOf cv)
    (h : TLt t (tildeCeil cv)) : TLt t (caretCeil cv) := by
  obtain ⟨x, y, z⟩ := t
  cases cv <;> simp only [tildeCeil, caretCeil, TLt, majorOf] at * <;> grind

theorem caret_le_tilde {cv : CompVersion} {t : Triple} (hm : majorOf cv = 0)
    (h : TLt t (caretCeil cv)) : TLt t (tildeCeil cv) := by
  obtain ⟨x, y, z⟩ := t
  cases cv <;> simp only [tildeCeil, caretCeil, TLt, majorOf] at * <;> grind

theorem tlt_irrefl (t : Triple) : ¬ TLt t t := by
  obtain ⟨x, y, z⟩ := t; simp only [TLt]; omega

theorem tlt_asymm {s t : Triple} (h : TLt s t) : ¬ TLt t s := by
  obtain ⟨x, y, z⟩ := t; obtain ⟨x', y', z'⟩ := s; simp only [TLt] at *; omega

theorem tlt_total (s t : Triple) : TLt s t ∨ s = t ∨ TLt t s := by
  obtain ⟨x, y, z⟩ := t; obtain ⟨x', y', z'⟩ := s
  simp only [TLt, Prod.mk.injEq]; omega

theorem prec_total {cv : CompVersion} {v : Version} (hcv : ValidCv cv) (hv : TagOk v) :
    PrecLt TagTextLt (bound cv) (point v) ∨ bound cv = point v ∨
      PrecLt TagTextLt (point v) (bound cv) := by
  have h1 := tlt_total (floor cv) (triple v)
  have h2 := tagLt_total (tagOk_tag hcv) hv
  simp only [PrecLt, bound, point, Prod.mk.injEq]
  grind

theorem prec_asymm {cv : CompVersion} {v : Version} (hcv : ValidCv cv) (hv : TagOk v)
    (h : PrecLt TagTextLt (bound cv) (point v)) : ¬ PrecLt TagTextLt (point v) (bound cv) := by
  have h2 : TagTextLt (tag cv) v.pre → ¬ TagTextLt v.pre (tag cv) :=
    tagLt_asymm (tagOk_tag hcv) hv
  have h3 : ∀ {s t : Triple}, TLt s t → ¬ TLt t s := tlt_asymm
  have h4 := tlt_irrefl (triple v)
  simp only [PrecLt, bound, point] at *
  rcases h with h | ⟨h, h'⟩
  · rintro (g | ⟨g, _⟩)
    · exact h3 h g
    · rw [g] at h4; exact h4 (by rw [g] at h; exact h)
  · rintro (g | ⟨_, g⟩)
    · rw [h] at g; exact h4 g
    · exact h2 h' g

theorem prec_refl {cv : CompVersion} {v : Version} (hv : TagOk v)
    (h : bound cv = point v) : ¬ PrecLt TagTextLt (point v) (bound cv) := by
  rw [h]
  simp only [PrecLt, point, not_or, not_and]
  exact ⟨tlt_irrefl _, fun _ => tagTextLt_irrefl _ hv⟩

theorem not_full_tag {cv : CompVersion} (h : ¬ Full cv) : tag cv = [] := by
  cases cv <;> simp_all [Full, tag]

theorem full_ceil {cv : CompVersion} {t : Triple} (h : Full cv) (hb : Agrees cv t) :
    floor cv = t := by
  cases cv <;> simp_all [Full, Agrees, floor]

theorem full_agrees {cv : CompVersion} {t : Triple} (h : Full cv) (hb : floor cv = t) :
    Agrees cv t := by
  cases cv <;> simp_all [Full, Agrees, floor]

/-- Releases below and above a version that is not full. -/
theorem prec_partial {cv : CompVersion} {v : Version} (hf : ¬ Full cv) (hv : v.pre = []) :
    (PrecLt TagTextLt (point v) (bound cv) ↔ TLt (triple v) (floor cv)) ∧
    (PrecLt TagTextLt (bound cv) (point v) ↔ TLt (floor cv) (triple v)) := by
  have h := nil_tagLt_nil
  simp [PrecLt, point, bound, not_full_tag hf, hv, h]

/-- C103, inclusions: `=v` admits less than `~v` and than `^v`, both admit less than `>=v`; the
tilde is narrower than the caret from major version 1 on, and wider before.  For every version text
(full, partial, with wildcards behind the written numbers, with a tag) and every version, prerelease
or not. -/
theorem C103_inclusions (ovf : Bool) (pos : Pos) (cv : CompVersion) (hcv : ValidCv cv)
    (hb : ∀ w, cv ≠ .wl w) (v : Version) (hv : TagOk v) :
    (Req ovf pos .eq cv v → Req ovf pos .tl cv v ∧ Req ovf pos .cr cv v) ∧
    (Req ovf pos .tl cv v ∨ Req ovf pos .cr cv v → Req ovf pos .ge cv v) ∧
    (0 < majorOf cv → Req ovf pos .tl cv v → Req ovf pos .cr cv v) ∧
    (majorOf cv = 0 → Req ovf pos .cr cv v → Req ovf pos .tl cv v) := by
  have R : ∀ op, Written op → (Req ovf pos op cv v ↔
      Admits TagTextLt op cv v ∧ (v.pre = [] ∨ OptIn cv v)) :=
    fun op ho => req_iff ovf pos ho hcv hb hv
  rw [R .eq (by simp [Written]), R .tl (by simp [Written]), R .cr (by simp [Written]),
    R .ge (by simp [Written]), eq_core hb]
  have hag := agrees_bounds (t := triple v) hb
  have h1 := @ceil_le_tilde cv (triple v)
  have h2 := @ceil_le_caret cv (triple v)
  have h3 := @tilde_le_caret cv (triple v)
  have h4 := @caret_le_tilde cv (triple v)
  have h5 : bound cv = point v → PrecLe TagTextLt (bound cv) (point v) := fun e => prec_refl hv e
  have hff := @full_ceil cv (triple v)
  by_cases hp : v.pre = []
  · have hpp : ¬ Full cv → (PrecLe TagTextLt (bound cv) (point v) ↔ TLe (floor cv) (triple v)) :=
      fun hf => by simp only [PrecLe, TLe, (prec_partial hf hp).1]
    simp only [Admits, hp, if_true, AdmitsRelease, true_or, and_true]
    simp only [bound, point, Prod.mk.injEq] at *
    clear R hb hcv hv
    refine ⟨?_, ?_, ?_, ?_⟩ <;> grind
  · simp only [Admits, hp, if_false, AdmitsPre, false_or]
    have hoi : OptIn cv v → Full cv := fun h => (optIn_pre h).1
    simp only [bound, point, Prod.mk.injEq] at *
    clear R hb hcv hv
    refine ⟨?_, ?_, ?_, ?_⟩ <;> grind

/-- C103, order: `>=v` is `>v` or `=v`, `<=v` is `<v` or `=v`; nothing satisfies both `<v` and
`>=v`, or both `>v` and `<=v`; and every release satisfies one of the two. -/
theorem C103_order (ovf : Bool) (pos : Pos) (cv : CompVersion) (hcv : ValidCv cv)
    (hb : ∀ w, cv ≠ .wl w) (v : Version) (hv : TagOk v) :
    (Req ovf pos .ge cv v ↔ Req ovf pos .gt cv v ∨ Req ovf pos .eq cv v) ∧
    (Req ovf pos .le cv v ↔ Req ovf pos .lt cv v ∨ Req ovf pos .eq cv v) ∧
    ¬ (Req ovf pos .lt cv v ∧ Req ovf pos .ge cv v) ∧
    ¬ (Req ovf pos .gt cv v ∧ Req ovf pos .le cv v) ∧
    (v.pre = [] → (Req ovf pos .lt cv v ∨ Req ovf pos .ge cv v) ∧
      (Req ovf pos .gt cv v ∨ Req ovf pos .le cv v)) := by
  have R : ∀ op, Written op → (Req ovf pos op cv v ↔
      Admits TagTextLt op cv v ∧ (v.pre = [] ∨ OptIn cv v)) :=
    fun op ho => req_iff ovf pos ho hcv hb hv
  rw [R .eq (by simp [Written]), R .lt (by simp [Written]), R .le (by simp [Written]),
    R .gt (by simp [Written]), R .ge (by simp [Written]), eq_core hb]
  have hag := agrees_bounds (t := triple v) hb
  have ht := prec_total hcv hv
  have ha := prec_asymm hcv hv
  have hr : bound cv = point v → ¬ PrecLt TagTextLt (point v) (bound cv) := fun e => prec_refl hv e
  have hr' : bound cv = point v → ¬ PrecLt TagTextLt (bound cv) (point v) := fun e => by
    have := prec_refl hv e; rw [e] at this ⊢; exact this
  have hff := @full_ceil cv (triple v)
  have hfa := @full_agrees cv (triple v)
  by_cases hp : v.pre = []
  · by_cases hf : Full cv
    · simp only [Admits, hp, if_true, AdmitsRelease, true_or, and_true, PrecLe, hf, true_and,
        not_true, false_and, or_false]
      have e1 : (Agrees cv (triple v) ∧ tag cv = []) ↔ bound cv = point v := by
        simp only [bound, point, Prod.mk.injEq, hp]
        exact and_congr_left fun _ => ⟨hff hf, hfa hf⟩
      rw [e1]
      grind
    · have hpp := prec_partial hf hp
      have ht := tlt_total (floor cv) (triple v)
      have e := not_full_tag hf
      have hc : ∀ t : Triple, TLt t (floor cv) → TLt t (ceil cv) := by
        intro t; obtain ⟨x, y, z⟩ := t
        cases cv <;> simp only [floor, ceil, TLt] at * <;> grind
      simp only [Admits, hp, if_true, AdmitsRelease, true_or, and_true, PrecLe, hf, false_and,
        not_false_iff, true_and, false_or, hpp, e, hag, TLe]
      have := hc (triple v)
      grind
  · have hoi : OptIn cv v → Full cv := fun h => (optIn_pre h).1
    by_cases hf : Full cv
    · simp only [Admits, hp, if_false, AdmitsPre, PrecLe, hf, true_and,
        not_true, false_and, or_false, false_or]
      have e1 : (Agrees cv (triple v) ∧ tag cv = v.pre) ↔ bound cv = point v := by
        simp only [bound, point, Prod.mk.injEq]
        exact and_congr_left fun _ => ⟨hff hf, hfa hf⟩
      rw [e1]
      grind
    · have : ¬ OptIn cv v := fun h => hf (hoi h)
      simp [hp, this]

/-- C103, monotony: with a release all later releases satisfy `>=v` and `>v`, and all earlier ones
`<=v` and `<v`. -/
theorem C103_monotone (ovf : Bool) (pos : Pos) (cv : CompVersion) (hcv : ValidCv cv)
    (hb : ∀ w, cv ≠ .wl w) (u v : Version) (hu : u.pre = []) (hv : v.pre = [])
    (huv : TLe (triple u) (triple v)) :
    (Req ovf pos .ge cv u → Req ovf pos .ge cv v) ∧ (Req ovf pos .gt cv u → Req ovf pos .gt cv v) ∧
    (Req ovf pos .le cv v → Req ovf pos .le cv u) ∧
    (Req ovf pos .lt cv v → Req ovf pos .lt cv u) := by
  have R : ∀ op (v : Version), v.pre = [] → Written op → (Req ovf pos op cv v ↔
      AdmitsRelease TagTextLt op cv v) := fun op v hv ho => by
    rw [req_iff ovf pos ho hcv hb (.inl hv)]; simp [Admits, hv]
  rw [R .ge u hu (by simp [Written]), R .ge v hv (by simp [Written]),
    R .gt u hu (by simp [Written]), R .gt v hv (by simp [Written]),
    R .le u hu (by simp [Written]), R .le v hv (by simp [Written]),
    R .lt u hu (by simp [Written]), R .lt v hv (by simp [Written])]
  have tr : ∀ {a b c : Triple}, TLt a b → TLe b c → TLt a c := by
    intro a b c h h'
    obtain ⟨a1, a2, a3⟩ := a; obtain ⟨b1, b2, b3⟩ := b; obtain ⟨c1, c2, c3⟩ := c
    simp only [TLe, TLt] at *; omega
  have up : PrecLt TagTextLt (bound cv) (point u) → PrecLt TagTextLt (bound cv) (point v) := by
    rintro (h | ⟨h, h'⟩)
    · exact .inl (tr h huv)
    · rcases tlt_total (triple u) (triple v) with g | g | g
      · exact .inl (by simp only [bound, point] at h ⊢; rw [h]; exact g)
      · exact .inr ⟨by simp only [bound, point] at h ⊢; rw [h, g], by simpa [point, hu, hv] using h'⟩
      · exact absurd g huv
  have dn : PrecLt TagTextLt (point v) (bound cv) → PrecLt TagTextLt (point u) (bound cv) := by
    rintro (h | ⟨h, h'⟩)
    · exact .inl (tle_tlt_trans huv h)
    · rcases tlt_total (triple u) (triple v) with g | g | g
      · exact .inl (by simp only [bound, point] at h ⊢; rw [← h]; exact g)
      · exact .inr ⟨by simp only [bound, point] at h ⊢; rw [← h, g], by simpa [point, hu, hv] using h'⟩
      · exact absurd g huv
  have c1 := @tle_trans (ceil cv) (triple u) (triple v)
  have c2 := @tle_tlt_trans (triple u) (triple v) (ceil cv)
  simp only [AdmitsRelease, PrecLe]
  clear R tr
  refine ⟨?_, ?_, ?_, ?_⟩ <;> grind

/-- C103, conjunction: what matters of a requirement is the set of its comparators, not their
order, repetitions or the spaces between them. -/
theorem C103_same_comparators (ovf : Bool) (its its' : List Item) (h : ValidItems its)
    (h' : ValidItems its') (hs : ∀ x, x ∈ its.map (fun i => (i.op, i.cv)) ↔
      x ∈ its'.map (fun i => (i.op, i.cv))) (pos pos' : Pos) (v : Version) (hv : TagOk v) :
    Matches ovf (itemsText its) pos v ↔ Matches ovf (itemsText its') pos' v := by
  have key : ∀ {its its' : List Item}, (∀ x, x ∈ its.map (fun i => (i.op, i.cv)) ↔
      x ∈ its'.map (fun i => (i.op, i.cv))) →
      ((∀ it ∈ its, Admits TagTextLt it.op it.cv v) ∧
        (v.pre = [] ∨ ∃ it ∈ its, OptIn it.cv v)) →
      ((∀ it ∈ its', Admits TagTextLt it.op it.cv v) ∧
        (v.pre = [] ∨ ∃ it ∈ its', OptIn it.cv v)) := by
    intro its its' hs ⟨h1, h2⟩
    refine ⟨fun it hit => ?_, h2.imp id ?_⟩
    · obtain ⟨i, hi, e⟩ := List.mem_map.1 ((hs (it.op, it.cv)).2 (List.mem_map.2 ⟨it, hit, rfl⟩))
      have := h1 i hi
      simp only [Prod.mk.injEq] at e
      rwa [e.1, e.2] at this
    · rintro ⟨it, hit, ho⟩
      obtain ⟨i, hi, e⟩ := List.mem_map.1 ((hs (it.op, it.cv)).1 (List.mem_map.2 ⟨it, hit, rfl⟩))
      simp only [Prod.mk.injEq] at e
      exact ⟨i, hi, by rw [e.2]; exact ho⟩
  rw [C11_requirement_is_conjunction ovf its h pos v hv,
    C11_requirement_is_conjunction ovf its' h' pos' v hv]
  exact ⟨key hs, key fun x => (hs x).symm⟩

/-- C103, narrowing: a requirement with more comparators matches no more releases. -/
theorem C103_narrowing (ovf : Bool) (its its' : List Item) (h : ValidItems its)
    (h' : ValidItems its') (hs : ∀ it ∈ its, ∃ it' ∈ its', it'.op = it.op ∧ it'.cv = it.cv)
    (pos pos' : Pos) (v : Version) (hv : v.pre = [])
    (m : Matches ovf (itemsText its') pos' v) : Matches ovf (itemsText its) pos v := by
  rw [C11_requirement_is_conjunction ovf _ h' pos' v (.inl hv)] at m
  rw [C11_requirement_is_conjunction ovf _ h pos v (.inl hv)]
  refine ⟨fun it hit => ?_, .inl hv⟩
  obtain ⟨i, hi, e1, e2⟩ := hs it hit
  have := m.1 i hi
  rwa [e1, e2] at this

/-- For prereleases it is not so: the comparator that is added opts into them. -/
theorem C103_narrowing_not_for_prereleases :
    ¬ Matches true ">=1.0.0".toList .ZERO ⟨1, 0, 1, "a".toList, []⟩ ∧
    Matches true ">=1.0.0, <1.0.1-b".toList .ZERO ⟨1, 0, 1, "a".toList, []⟩ := by
  refine ⟨?_, ⟨_, by rfl, by decide⟩⟩
  rintro ⟨req, h, g⟩
  have : req = ⟨.ZERO, 7, [⟨0, .ge, 2, .patch 1 0 0 none, none⟩]⟩ := by
    have e : parseRequirement true ">=1.0.0".toList .ZERO =
      .ok ⟨.ZERO, 7, [⟨0, .ge, 2, .patch 1 0 0 none, none⟩]⟩ := by rfl
    rw [e] at h; cases h; rfl
  subst this
  revert g; decide

example : ValidCv (.pre 1 2 3 "a".toList none) ∧ Req true .ZERO .eq (.pre 1 2 3 "a".toList none)
    ⟨1, 2, 3, "a".toList, []⟩ ∧ Req true .ZERO .lt (.minor 1 2 none) ⟨1, 1, 9, [], []⟩ :=
  ⟨⟨by decide, by decide, by decide, by
    exact ⟨[.alnum "a".toList], by simp, by simp [Ident.Valid]; decide, by decide⟩, by simp⟩,
    ⟨_, by rfl, by decide⟩, ⟨_, by rfl, by decide⟩⟩

end Verif.Props
