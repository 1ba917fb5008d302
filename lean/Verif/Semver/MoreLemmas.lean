import Verif.Semver.DisplayLemmas
import Verif.Semver.EvalLemmas

/-! # Helper lemmas behind the semver properties -/

namespace Verif.Semver
open Verif Verif.Spec Verif.Spec.Semver Verif.Spec.Matching

/-! ## orders -/

theorem tagTextLt_iff {p q : Str} (hp : p = [] ∨ PreTag p) (hq : q = [] ∨ PreTag q) :
    TagTextLt p q ↔ preCmp p q = .lt := by
  constructor
  · rintro ⟨a, b, ha, hb, rfl, rfl, h⟩
    exact (preCmp_tagText_lt a b ha hb).2 h
  · intro h
    have key : ∀ s : Str, s = [] ∨ PreTag s →
        ∃ a : List Ident, (∀ i ∈ a, i.Valid) ∧ s = tagText a := by
      rintro s (rfl | ⟨ids, -, h, rfl⟩)
      · exact ⟨[], by simp, rfl⟩
      · exact ⟨ids, h, rfl⟩
    obtain ⟨a, ha, rfl⟩ := key p hp
    obtain ⟨b, hb, rfl⟩ := key q hq
    exact ⟨a, b, ha, hb, rfl, rfl, (preCmp_tagText_lt a b ha hb).1 h⟩

theorem splitDot_no_dot (s : Str) : ∀ x ∈ splitDot s, '.' ∉ x := by
  induction s with
  | nil => simp [splitDot]
  | cons c cs ih =>
    simp only [splitDot]
    split
    · intro x hx
      rcases List.mem_cons.1 hx with rfl | hx
      · simp
      · exact ih x hx
    · rename_i hc
      split
      · rename_i s ss hs
        rw [hs] at ih
        intro x hx
        rcases List.mem_cons.1 hx with rfl | hx
        · have := ih s (by simp)
          simp only [List.mem_cons, not_or]
          exact ⟨fun h => hc h.symm, this⟩
        · exact ih x (by simp [hx])
      · intro x hx
        simp only [List.mem_singleton] at hx
        subst hx
        simpa using fun h => hc h.symm

theorem buildTextLt_iff (s t : Str) :
    metaCmp s t = .lt ↔ BuildTextLt s t := by
  unfold metaCmp
  rw [segLoop_meta_lt]
  constructor
  · intro h
    exact ⟨splitDot s, splitDot t, splitDot_ne_nil s, splitDot_ne_nil t, splitDot_no_dot s,
      splitDot_no_dot t, (dotted_splitDot s).symm, (dotted_splitDot t).symm, h⟩
  · rintro ⟨xs, ys, hx, hy, dx, dy, rfl, rfl, h⟩
    rwa [splitDot_dotted xs hx dx, splitDot_dotted ys hy dy]

theorem then_eq_lt {a b : Ordering} : a.then b = .lt ↔ a = .lt ∨ (a = .eq ∧ b = .lt) := by
  cases a <;> simp [Ordering.then]

theorem versionCmp_lt (a b : Version) :
    versionCmp a b = .lt ↔
      TLt (triple a) (triple b) ∨ (triple a = triple b ∧
        (preCmp a.pre b.pre = .lt ∨ (a.pre = b.pre ∧ metaCmp a.build b.build = .lt))) := by
  unfold versionCmp
  simp only [then_eq_lt, Nat.compare_eq_lt, Nat.compare_eq_eq, TLt, triple, Prod.mk.injEq,
    preCmp_total.eq_iff]
  constructor
  · rintro (h | ⟨h, h' | ⟨h', h'' | ⟨h'', h3⟩⟩⟩)
    · exact .inl (.inl h)
    · exact .inl (.inr ⟨h, .inl h'⟩)
    · exact .inl (.inr ⟨h, .inr ⟨h', h''⟩⟩)
    · exact .inr ⟨⟨h, h', h''⟩, h3⟩
  · rintro ((h | ⟨h, h' | ⟨h', h''⟩⟩) | ⟨⟨h, h', h''⟩, h3⟩)
    · exact .inl h
    · exact .inr ⟨h, .inl h'⟩
    · exact .inr ⟨h, .inr ⟨h', .inl h''⟩⟩
    · exact .inr ⟨h, .inr ⟨h', .inr ⟨h'', h3⟩⟩⟩

/-! ## matching -/

theorem precLt_congr {lt lt' : TagOrder} {a b : Triple × Str} (h : lt a.2 b.2 ↔ lt' a.2 b.2) :
    PrecLt lt a b ↔ PrecLt lt' a b := by unfold PrecLt; rw [h]

theorem precLe_congr {lt lt' : TagOrder} {a b : Triple × Str} (h : lt b.2 a.2 ↔ lt' b.2 a.2) :
    PrecLe lt a b ↔ PrecLe lt' a b := by unfold PrecLe; rw [precLt_congr h]

theorem admits_congr {lt lt' : TagOrder} (op : Op) (cv : CompVersion) (v : Version)
    (h1 : lt v.pre (tag cv) ↔ lt' v.pre (tag cv)) (h2 : lt (tag cv) v.pre ↔ lt' (tag cv) v.pre) :
    Admits lt op cv v ↔ Admits lt' op cv v := by
  have e1 : PrecLt lt (point v) (bound cv) ↔ PrecLt lt' (point v) (bound cv) := precLt_congr h1
  have e2 : PrecLt lt (bound cv) (point v) ↔ PrecLt lt' (bound cv) (point v) := precLt_congr h2
  have e3 : PrecLe lt (point v) (bound cv) ↔ PrecLe lt' (point v) (bound cv) := precLe_congr h2
  have e4 : PrecLe lt (bound cv) (point v) ↔ PrecLe lt' (bound cv) (point v) := precLe_congr h1
  unfold Admits AdmitsRelease AdmitsPre
  cases op <;> simp only [e1, e2, e3, e4]

theorem tag_valid {cv : CompVersion} (h : ValidCv cv) : tag cv = [] ∨ PreTag (tag cv) := by
  cases cv with
  | pre a b c p m => exact .inr h.2.2.2.1
  | _ => exact .inl rfl

theorem admits_codeLt {op : Op} {cv : CompVersion} {v : Version} (h : ValidCv cv)
    (hv : v.pre = [] ∨ PreTag v.pre) :
    Admits codeLt op cv v ↔ Admits TagTextLt op cv v :=
  admits_congr op cv v (tagTextLt_iff hv (tag_valid h)).symm (tagTextLt_iff (tag_valid h) hv).symm

theorem comparatorsAt_map (off : Nat) (its : List Item) :
    (comparatorsAt off its).map (fun c => (c.op, c.version)) = its.map (fun it => (it.op, it.cv)) := by
  induction its generalizing off with
  | nil => rfl
  | cons it its ih =>
    cases its with
    | nil => rfl
    | cons it' its =>
      simp only [comparatorsAt, List.map_cons, List.cons.injEq, true_and]
      exact ih _

theorem comparatorsAt_all {off : Nat} {its : List Item} (P : Op → CompVersion → Prop) :
    (∀ c ∈ comparatorsAt off its, P c.op c.version) ↔ ∀ it ∈ its, P it.op it.cv := by
  have h := comparatorsAt_map off its
  have h1 : (∀ c ∈ comparatorsAt off its, P c.op c.version) ↔
      ∀ x ∈ (comparatorsAt off its).map (fun c => (c.op, c.version)), P x.1 x.2 := by simp
  have h2 : (∀ it ∈ its, P it.op it.cv) ↔
      ∀ x ∈ its.map (fun it => (it.op, it.cv)), P x.1 x.2 := by simp
  rw [h1, h2, h]

theorem comparatorsAt_any {off : Nat} {its : List Item} (P : Op → CompVersion → Prop) :
    (∃ c ∈ comparatorsAt off its, P c.op c.version) ↔ ∃ it ∈ its, P it.op it.cv := by
  have h := comparatorsAt_map off its
  have h1 : (∃ c ∈ comparatorsAt off its, P c.op c.version) ↔
      ∃ x ∈ (comparatorsAt off its).map (fun c => (c.op, c.version)), P x.1 x.2 :=
    ⟨fun ⟨c, hc, hp⟩ => ⟨_, List.mem_map_of_mem hc, hp⟩, fun ⟨x, hx, hp⟩ => by
      obtain ⟨c, hc, rfl⟩ := List.mem_map.1 hx; exact ⟨c, hc, hp⟩⟩
  have h2 : (∃ it ∈ its, P it.op it.cv) ↔
      ∃ x ∈ its.map (fun it => (it.op, it.cv)), P x.1 x.2 :=
    ⟨fun ⟨c, hc, hp⟩ => ⟨_, List.mem_map_of_mem hc, hp⟩, fun ⟨x, hx, hp⟩ => by
      obtain ⟨c, hc, rfl⟩ := List.mem_map.1 hx; exact ⟨c, hc, hp⟩⟩
  rw [h1, h2, h]

theorem comparatorsAt_length (off : Nat) (its : List Item) :
    (comparatorsAt off its).length = its.length := by
  have := congrArg List.length (comparatorsAt_map off its)
  simpa using this

theorem items_wellFormed {off : Nat} {its : List Item} (h : ∀ it ∈ its, it.Valid) :
    ∀ c ∈ comparatorsAt off its, WellFormed c := by
  have := (comparatorsAt_all (off := off) (its := its)
    (fun op cv => ∀ w, cv = .wl w → op = .wl)).2 (fun it hi => (h it hi).bare)
  exact this

theorem matches_items (its : List Item) (h : ∀ it ∈ its, it.Valid) (pos : Pos) (len off : Nat)
    (v : Version) (hv : v.pre = [] ∨ PreTag v.pre) :
    matchesRequirement ⟨pos, len, comparatorsAt off its⟩ v = some true ↔
      (∀ it ∈ its, Admits TagTextLt it.op it.cv v) ∧
      (v.pre = [] ∨ ∃ it ∈ its, OptIn it.cv v) := by
  rw [matchesRequirement_iff _ _ (items_wellFormed h)]
  simp only
  rw [comparatorsAt_all (fun op cv => Admits codeLt op cv v),
    comparatorsAt_any (fun _ cv => OptIn cv v)]
  have : (∀ it ∈ its, Admits codeLt it.op it.cv v) ↔ ∀ it ∈ its, Admits TagTextLt it.op it.cv v :=
    ⟨fun g it hi => (admits_codeLt (h it hi).cv hv).1 (g it hi),
     fun g it hi => (admits_codeLt (h it hi).cv hv).2 (g it hi)⟩
  rw [this]

/-! ## structure of accepted requirements, in every build -/

theorem compVersion_not_bare (ovf : Bool) (c c' : Cur) (op op' : Op) (cv : CompVersion)
    (h : compVersion ovf c op = .ok (cv, op', c')) : (∀ w, cv ≠ .wl w) ∧
      (∀ a b d p m, cv = .pre a b d p m → PreTag p ∧ ∀ x, m = some x → BuildTag x) ∧
      (∀ a b d m, cv = .patch a b d m → ∀ x, m = some x → BuildTag x) := by
  unfold compVersion at h
  rw [Res.bind_eq_ok] at h
  obtain ⟨⟨M, c1⟩, h1, h⟩ := h
  simp only at h
  split at h
  · cases h; simp
  · split at h
    · split at h
      · cases h; simp
      · split at h
        · cases h; simp
        · split at h <;> cases h
    · rw [Res.bind_eq_ok] at h
      obtain ⟨⟨m, c3⟩, h3, h⟩ := h
      simp only at h
      split at h
      · cases h; simp
      · split at h
        · cases h; simp
        · simp only [Res.bind_eq_ok] at h
          obtain ⟨⟨p, c5⟩, h5, ⟨opre, c6⟩, h6, ⟨obuild, c7⟩, h7, h8⟩ := h
          have e6 := (optIdent_iff _ _ _ _ _).1 h6
          have e7 := (optIdent_iff _ _ _ _ _).1 h7
          have hbt : ∀ x, obuild = some x → BuildTag x := by
            rintro x rfl; exact (buildTag_iff _).2 e7.segs
          cases opre with
          | none =>
            cases h8
            refine ⟨by simp, by simp, ?_⟩
            rintro a b d mm hh x rfl
            cases hh; exact hbt _ rfl
          | some s =>
            cases h8
            refine ⟨by simp, ?_, by simp⟩
            rintro a b d p' mm hh
            cases hh
            exact ⟨(preTag_iff _).2 e6.segs, hbt⟩

/-- What the parser guarantees about each comparator, whatever the numbers. -/
structure CompOk (c : Comparator) : Prop where
  bare : ∀ w, c.version = .wl w → c.op = .wl
  pre : ∀ a b d p m, c.version = .pre a b d p m → PreTag p ∧ ∀ x, m = some x → BuildTag x
  patch : ∀ a b d m, c.version = .patch a b d m → ∀ x, m = some x → BuildTag x

theorem comparatorStep_ok (ovf : Bool) (pos : Pos) (n : Nat) (c c' : Cur) (b : Char) (cs : Str)
    (comp : Comparator) (h : comparatorStep ovf pos n c b cs = .ok (comp, c')) :
    CompOk comp ∧ n < 32 ∧ (∀ w, comp.version = .wl w → n = 0 ∧ c'.rest = []) := by
  unfold comparatorStep at h
  split at h
  · cases h
  rename_i hn
  have hn' : n < 32 := by simpa [MAX_COMPARATORS] using hn
  simp only at h
  split at h
  · rename_i w hw
    unfold wildcardArm at h
    simp only at h
    split at h
    · cases h
    rename_i hf
    split at h
    · cases h
    split at h
    · split at h
      · split at h <;> cases h
      · cases h
    · rename_i hr
      simp only [expectCommaOrEnd, hr, Res.bind_ok, Res.pure_eq, Res.ok.injEq, Prod.mk.injEq] at h
      obtain ⟨rfl, rfl⟩ := h
      exact ⟨⟨by simp, by simp, by simp⟩, hn', fun _ _ => ⟨by simpa using hf, hr⟩⟩
  · split at h
    · cases h
    · simp only [Res.bind_eq_ok] at h
      obtain ⟨⟨v, op', c2⟩, h2, ⟨comma, c3⟩, h3, h4⟩ := h
      have := compVersion_not_bare _ _ _ _ _ _ h2
      cases h4
      exact ⟨⟨fun w hw => absurd hw (this.1 w), this.2.1, this.2.2⟩, hn',
        fun w hw => absurd hw (this.1 w)⟩

theorem reqLoop_ok (ovf : Bool) (pos : Pos) (fuel : Nat) (c : Cur) (comps comps' : List Comparator)
    (lc lc' : Option Nat) (h : reqLoop ovf pos fuel c comps lc = .ok (comps', lc'))
    (h1 : ∀ x ∈ comps, CompOk x) (h2 : comps.length ≤ 32)
    (h3 : ∀ x ∈ comps, ∀ w, x.version = .wl w → comps.length = 1 ∧ c.rest = []) :
    (∀ x ∈ comps', CompOk x) ∧ comps'.length ≤ 32 ∧
    (∀ x ∈ comps', ∀ w, x.version = .wl w → comps'.length = 1) := by
  induction fuel generalizing c comps lc with
  | zero => cases h
  | succ fuel ih =>
    simp only [reqLoop] at h
    split at h
    · cases h; exact ⟨h1, h2, fun x hx w hw => (h3 x hx w hw).1⟩
    · rename_i b cs hr
      rw [Res.bind_eq_ok] at h
      obtain ⟨⟨comp, c1⟩, hs, h⟩ := h
      obtain ⟨s1, s2, s3⟩ := comparatorStep_ok _ _ _ _ _ _ _ _ hs
      refine ih c1 _ _ h ?_ (by simp; omega) ?_
      · intro x hx
        rcases List.mem_append.1 hx with hx | hx
        · exact h1 x hx
        · simp only [List.mem_singleton] at hx; subst hx; exact s1
      · intro x hx w hw
        rcases List.mem_append.1 hx with hx | hx
        · have := (h3 x hx w hw).2
          obtain ⟨n, r, hr', -, he⟩ := eatWs_spec c
          rw [he] at hr
          simp only at hr
          rw [this, hr] at hr'
          simp at hr'
        · simp only [List.mem_singleton] at hx; subst hx
          have := s3 w hw
          simp at this
          exact ⟨by simp [this.1], this.2⟩

theorem parseRequirement_ok (ovf : Bool) (input : Str) (pos : Pos) (req : VersionReq)
    (h : parseRequirement ovf input pos = .ok req) :
    (∀ x ∈ req.comparators, CompOk x) ∧ 1 ≤ req.comparators.length ∧ req.comparators.length ≤ 32 ∧
    (∀ x ∈ req.comparators, ∀ w, x.version = .wl w → req.comparators.length = 1) := by
  unfold parseRequirement at h
  rw [Res.bind_eq_ok] at h
  obtain ⟨⟨comps, lc⟩, h1, h⟩ := h
  have := reqLoop_ok _ _ _ _ _ _ _ _ h1 (by simp) (by simp) (by simp)
  simp only at h
  split at h
  · cases h
  · split at h
    · cases h
    · rename_i hne
      cases h
      refine ⟨this.1, ?_, this.2.1, this.2.2⟩
      exact List.length_pos_iff.2 hne

/-! ## overflow trap -/

/-- A build and an input for which the unchecked addition does not matter. -/
def Safe (ovf : Bool) (input : Str) : Prop := ovf = true ∨ ¬ OverflowTrap input

theorem parseVersion_safe {ovf : Bool} {input : Str} {pos : Pos} {v : Version}
    (hs : Safe ovf input) (h : parseVersion ovf input pos = .ok v) :
    parseVersion true input pos = .ok v := by
  cases ovf with
  | true => exact h
  | false =>
    rcases parseVersion_refines input pos with hp | hp
    · exact absurd ((parseVersion_good true input pos).panic hp).2 (hs.resolve_left (by simp))
    · rw [hp, h]

theorem parseRequirement_safe {ovf : Bool} {input : Str} {pos : Pos} {v : VersionReq}
    (hs : Safe ovf input) (h : parseRequirement ovf input pos = .ok v) :
    parseRequirement true input pos = .ok v := by
  cases ovf with
  | true => exact h
  | false =>
    rcases parseRequirement_refines input pos with hp | hp
    · exact absurd ((parseRequirement_good true input pos).panic hp).2 (hs.resolve_left (by simp))
    · rw [hp, h]

theorem parseInt_overflow (ovf : Bool) (st : Pos) (ix n : Nat) (r : Str) (f : NumField)
    (hn : 2 ^ 32 ≤ n) (hr : startsWith isDigit r = false) (ht : ¬ OverflowTrap (decimal n ++ r)) :
    parseInt ovf ⟨st, ix, decimal n ++ r⟩ f =
      .err (.intOverflow f (st.plus ix) (decimal n).length) := by
  have hg := parseInt_good (input := decimal n ++ r) (pos := ⟨st.line, st.char + ix⟩) (ovf := true)
    (c := ⟨⟨st.line, st.char + ix⟩, 0, decimal n ++ r⟩) ⟨rfl, [], rfl, rfl⟩ f
  obtain ⟨d, ds, hd, hne⟩ := decimal_head n (by omega)
  have hall := decimal_all n
  have hv := decVal_decimal n
  rw [hd] at hall hv ht ⊢
  have hall' := hall
  simp only [List.all_cons, Bool.and_eq_true] at hall'
  have htw := takeWhile_append_of_stop hall'.2 hr
  have hrun : runVal (digitVal d) (ds ++ r) = n := by
    rw [runVal_eq, htw.1, ← decVal_cons, hv]
  have hd10 := digitVal_lt hall'.1
  have hdv : decimal (digitVal d) = [d] := by
    have := decimal_decVal (c := d) (cs := []) (by simpa using hall'.1) hne
    simpa [decVal] using this
  have hdpos : 0 < digitVal d := by
    rcases Nat.eq_zero_or_pos (digitVal d) with h0 | h0
    · rw [h0, decimal_zero] at hdv
      simp at hdv; exact absurd hdv.symm hne
    · exact h0
  have hbig := intLoop_big st (digitVal d) (ix + 1) (ds ++ r) (by omega) (by omega)
  have hnp : intLoop true st (some (digitVal d)) (ix + 1) (ds ++ r) ≠ .panic := by
    intro hp
    have := intLoop_panic st _ _ _ hdpos hp
    rw [hdv] at this
    exact ht (by simpa using this)
  have hl : intLoop ovf st (some (digitVal d)) (ix + 1) (ds ++ r) =
      .ok (none, afterDigits st (ix + 1) (ds ++ r)) := by
    have h1 := hbig.resolve_left hnp
    cases ovf with
    | true => exact h1
    | false =>
      rcases intLoop_refines st (some (digitVal d)) (ix + 1) (ds ++ r) with h | h
      · exact absurd h hnp
      · rw [← h]; exact h1
  simp only [parseInt, List.cons_append, if_neg hne, hall'.1, if_true, hl, afterDigits, htw.1]
  simp only [List.length_cons]
  congr 2; omega

end Verif.Semver
