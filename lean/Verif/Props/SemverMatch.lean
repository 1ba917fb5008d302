import Verif.Semver.MoreLemmas

/-! # Properties C05-C14: what requirements match -/

namespace Verif.Props
open Verif Verif.Spec Verif.Semver Verif.Spec.Semver Verif.Spec.Matching

/-- `parse_requirement(text)` succeeds and the result matches `v` (without panicking). -/
def Matches (ovf : Bool) (text : Str) (pos : Pos) (v : Version) : Prop :=
  ∃ req, parseRequirement ovf text pos = .ok req ∧ matchesRequirement req v = some true

/-- A version whose prerelease tag is a SemVer tag (as for every parsed version). -/
def TagOk (v : Version) : Prop := v.pre = [] ∨ PreTag v.pre

/-- C05: a requirement accepted by the parser can be matched against anything without panicking,
in builds with and without overflow checks. -/
theorem C05_matching_never_panics (ovf : Bool) (text : Str) (pos : Pos) (req : VersionReq)
    (h : parseRequirement ovf text pos = .ok req) (v : Version) :
    matchesRequirement req v ≠ none ∧ ∀ c ∈ req.comparators, matchesComparator c v ≠ none := by
  have hok := (parseRequirement_ok ovf text pos req h).1
  have hwf : ∀ c ∈ req.comparators, WellFormed c := fun c hc => (hok c hc).bare
  refine ⟨?_, fun c hc => ?_⟩
  · unfold matchesRequirement
    have := allMatch_no_panic v req.comparators hwf
    cases ha : allMatch v req.comparators with
    | none => exact absurd ha this
    | some b => cases b <;> simp; split <;> simp
  · unfold matchesComparator
    have := matchesImpl_no_panic c v (hwf c hc)
    cases ha : matchesImpl c v with
    | none => exact absurd ha this
    | some b => simp

/-- The hypothesis matters: the comparator `>*`, which the parser never produces, panics. -/
example : matchesRequirement ⟨.ZERO, 2, [⟨0, .gt, 1, .wl .star, none⟩]⟩ ⟨1, 0, 0, [], []⟩ = none := by
  decide

example : ∃ req, parseRequirement true ">=1.2, <2.*".toList .ZERO = .ok req := ⟨_, by rfl⟩

/-- C11: a requirement, given by its written items, matches exactly the versions that every item
admits and, for a prerelease version, that some item opts into. -/
theorem C11_requirement_is_conjunction (ovf : Bool) (its : List Item) (h : ValidItems its)
    (pos : Pos) (v : Version) (hv : TagOk v) :
    Matches ovf (itemsText its) pos v ↔
      (∀ it ∈ its, Admits TagTextLt it.op it.cv v) ∧
      (v.pre = [] ∨ ∃ it ∈ its, OptIn it.cv v) := by
  have hp := parseRequirement_complete ovf _ pos _ ⟨its, h, rfl, rfl⟩
  unfold Matches
  rw [hp]
  simp only [Res.ok.injEq, exists_eq_left']
  exact matches_items its h.valid _ _ _ v hv

/-- C11, stated about any accepted text: matching is the conjunction over the comparators of the
requirement plus the opt-in rule. -/
theorem C11_conjunction_of_comparators (ovf : Bool) (text : Str) (pos : Pos) (req : VersionReq)
    (h : parseRequirement ovf text pos = .ok req) (v : Version) :
    matchesRequirement req v = some true ↔
      (∀ c ∈ req.comparators, matchesImpl c v = some true) ∧
      (v.pre = [] ∨ ∃ c ∈ req.comparators, OptIn c.version v) := by
  have hok := (parseRequirement_ok ovf text pos req h).1
  rw [matchesRequirement_iff req v (fun c hc => (hok c hc).bare)]
  refine and_congr_left fun _ => ?_
  exact ⟨fun g c hc => (matchesImpl_admits c v (hok c hc).bare).2 (g c hc),
    fun g c hc => (matchesImpl_admits c v (hok c hc).bare).1 (g c hc)⟩

/-- C11 for a single comparator (`Comparator::matches`): it admits the version and, for a prerelease
version, opts into it. -/
theorem C11_comparator_matches (ovf : Bool) (text : Str) (pos : Pos) (req : VersionReq)
    (hs : Safe ovf text) (h : parseRequirement ovf text pos = .ok req) (c : Comparator)
    (hc : c ∈ req.comparators) (v : Version) (hv : TagOk v) :
    matchesComparator c v = some true ↔
      Admits TagTextLt c.op c.version v ∧ (v.pre = [] ∨ OptIn c.version v) := by
  obtain ⟨its, hi, rfl, rfl⟩ := parseRequirement_sound text pos req (parseRequirement_safe hs h)
  have hcv : ValidCv c.version :=
    (comparatorsAt_all (off := 0) (its := its) (fun _ cv => ValidCv cv)).2
      (fun it hit => (hi.valid it hit).cv) c hc
  rw [matchesComparator_iff c v (items_wellFormed hi.valid c hc), admits_codeLt hcv hv]

/-- A requirement with one comparator, written without spaces. -/
theorem matches_one (ovf : Bool) (op : Op) (cv : CompVersion) (pos : Pos) (v : Version)
    (h : (⟨0, op, 0, cv, 0⟩ : Item).Valid) (hv : TagOk v) :
    Matches ovf (opWritten op ++ cvText cv) pos v ↔
      Admits TagTextLt op cv v ∧ (v.pre = [] ∨ OptIn cv v) := by
  have := C11_requirement_is_conjunction ovf [⟨0, op, 0, cv, 0⟩]
    ⟨by simp, by simp, by simpa using h, by simp⟩ pos v hv
  simpa [itemsText, Item.text, spaces] using this

theorem matches_one_release (ovf : Bool) (op : Op) (cv : CompVersion) (pos : Pos) (v : Version)
    (h : (⟨0, op, 0, cv, 0⟩ : Item).Valid) (hv : v.pre = []) :
    Matches ovf (opWritten op ++ cvText cv) pos v ↔ AdmitsRelease TagTextLt op cv v := by
  rw [matches_one ovf op cv pos v h (.inl hv)]
  simp [Admits, hv]

/-! ## texts of full and partial versions -/

/-- `A`, `A.B` and `A.B.C`. -/
def n1 (a : Nat) : Str := decimal a
def n2 (a b : Nat) : Str := decimal a ++ ['.'] ++ decimal b
def n3 (a b c : Nat) : Str := decimal a ++ ['.'] ++ decimal b ++ ['.'] ++ decimal c

/-- `A.B.C-pre` -/
def n3pre (a b c : Nat) (p : Str) : Str := n3 a b c ++ ['-'] ++ p

/-- All numbers fit `u32`. -/
def Fits (l : List Nat) : Prop := ∀ n ∈ l, n < 2 ^ 32

theorem valid1 {op : Op} {a : Nat} (ho : op ≠ .wl) (h : Fits [a]) :
    (⟨0, op, 0, .major a none, 0⟩ : Item).Valid :=
  ⟨h a (by simp), fun e => absurd e ho, fun _ => ⟨by simp [HasWildcard], rfl⟩, by simp⟩

theorem valid2 {op : Op} {a b : Nat} (ho : op ≠ .wl) (h : Fits [a, b]) :
    (⟨0, op, 0, .minor a b none, 0⟩ : Item).Valid :=
  ⟨⟨h a (by simp), h b (by simp)⟩, fun e => absurd e ho, fun _ => ⟨by simp [HasWildcard], rfl⟩,
    by simp⟩

theorem valid3 {op : Op} {a b c : Nat} (ho : op ≠ .wl) (h : Fits [a, b, c]) :
    (⟨0, op, 0, .patch a b c none, 0⟩ : Item).Valid :=
  ⟨⟨h a (by simp), h b (by simp), h c (by simp), by simp⟩, fun e => absurd e ho,
    fun _ => ⟨by simp [HasWildcard], rfl⟩, by simp⟩

theorem valid3pre {op : Op} {a b c : Nat} {p : Str} (ho : op ≠ .wl) (h : Fits [a, b, c])
    (hp : PreTag p) : (⟨0, op, 0, .pre a b c p none, 0⟩ : Item).Valid :=
  ⟨⟨h a (by simp), h b (by simp), h c (by simp), hp, by simp⟩, fun e => absurd e ho,
    fun _ => ⟨by simp [HasWildcard], rfl⟩, by simp⟩

theorem text3 (op : Op) (a b c : Nat) :
    opWritten op ++ n3 a b c = opWritten op ++ cvText (.patch a b c none) := by simp [n3, cvText]

theorem text3pre (op : Op) (a b c : Nat) (p : Str) :
    opWritten op ++ n3pre a b c p = opWritten op ++ cvText (.pre a b c p none) := by
  simp [n3pre, n3, cvText]

theorem tagTextLt_irrefl (p : Str) (hp : p = [] ∨ PreTag p) : ¬ TagTextLt p p := by
  rw [tagTextLt_iff hp hp, (preCmp_total.eq_iff p p).2 rfl]; simp

theorem nil_tagLt_nil : ¬ TagTextLt [] [] := tagTextLt_irrefl [] (.inl rfl)

theorem preTag_ne_nil {p : Str} (h : PreTag p) : p ≠ [] := segs_ne_nil ((preTag_iff p).1 h)

theorem triple_eq (v : Version) (a b c : Nat) :
    triple v = (a, b, c) ↔ v.major = a ∧ v.minor = b ∧ v.patch = c := by
  simp [triple]

/-- C06: exact requirements. -/
theorem C06_exact (ovf : Bool) (pos : Pos) (v : Version) (hv : TagOk v) (a b c : Nat) :
    (Fits [a] → (Matches ovf ('=' :: n1 a) pos v ↔ v.pre = [] ∧ v.major = a)) ∧
    (Fits [a, b] → (Matches ovf ('=' :: n2 a b) pos v ↔
      v.pre = [] ∧ v.major = a ∧ v.minor = b)) ∧
    (Fits [a, b, c] → (Matches ovf ('=' :: n3 a b c) pos v ↔
      v.pre = [] ∧ v.major = a ∧ v.minor = b ∧ v.patch = c)) ∧
    (∀ p, Fits [a, b, c] → PreTag p → (Matches ovf ('=' :: n3pre a b c p) pos v ↔
      v.pre = p ∧ v.major = a ∧ v.minor = b ∧ v.patch = c)) := by
  have key : ∀ cv, Admits TagTextLt .eq cv v ↔ Agrees cv (triple v) ∧ tag cv = v.pre := by
    intro cv
    unfold Admits
    split
    · rename_i h; simp [AdmitsRelease, h]
    · simp [AdmitsPre]
  refine ⟨fun h => ?_, fun h => ?_, fun h => ?_, fun p h hp => ?_⟩
  · rw [show '=' :: n1 a = opWritten .eq ++ cvText (.major a none) from rfl,
      matches_one ovf _ _ pos v (valid1 (by simp) h) hv, key]
    simp only [Agrees, tag, triple, OptIn, reduceCtorEq, false_and, exists_const, or_false]
    exact ⟨fun h => ⟨h.2, h.1.1⟩, fun h => ⟨⟨h.2, h.1.symm⟩, h.1⟩⟩
  · rw [show '=' :: n2 a b = opWritten .eq ++ cvText (.minor a b none) from rfl,
      matches_one ovf _ _ pos v (valid2 (by simp) h) hv, key]
    simp only [Agrees, tag, triple, OptIn, reduceCtorEq, false_and, exists_const, or_false]
    exact ⟨fun h => ⟨h.2, h.1.1⟩, fun h => ⟨⟨h.2, h.1.symm⟩, h.1⟩⟩
  · rw [show '=' :: n3 a b c = opWritten .eq ++ n3 a b c from rfl, text3,
      matches_one ovf _ _ pos v (valid3 (by simp) h) hv, key]
    simp only [Agrees, tag, triple_eq, OptIn, reduceCtorEq, false_and, exists_const, or_false]
    exact ⟨fun h => ⟨h.2, h.1.1⟩, fun h => ⟨⟨h.2, h.1.symm⟩, h.1⟩⟩
  · rw [show '=' :: n3pre a b c p = opWritten .eq ++ n3pre a b c p from rfl, text3pre,
      matches_one ovf _ _ pos v (valid3pre (by simp) h hp) hv, key]
    simp only [Agrees, tag, triple_eq]
    constructor
    · rintro ⟨⟨h1, h2⟩, -⟩; exact ⟨h2.symm, h1⟩
    · rintro ⟨h1, h2⟩
      refine ⟨⟨h2, h1.symm⟩, .inr ⟨a, b, c, p, none, rfl, preTag_ne_nil hp, ?_⟩⟩
      rw [triple_eq]; exact h2

example : Fits [1, 2, 3] ∧ TagOk ⟨1, 2, 3, [], []⟩ ∧
    Matches true ('=' :: n3 1 2 3) .ZERO ⟨1, 2, 3, [], "b".toList⟩ := by
  refine ⟨by intro n; simp; omega, .inl rfl, ?_⟩
  exact ((C06_exact true .ZERO ⟨1, 2, 3, [], "b".toList⟩ (.inl rfl) 1 2 3).2.2.1
    (by intro n; simp; omega)).2 ⟨rfl, rfl, rfl, rfl⟩

/-- C07: caret requirements and release versions.  `TLt`/`TLe` is the lexicographic order of
`(major, minor, patch)`. -/
theorem C07_caret (ovf : Bool) (pos : Pos) (v : Version) (hv : v.pre = []) (a b c : Nat) :
    (Fits [a] → (Matches ovf ('^' :: n1 a) pos v ↔
      TLe (a, 0, 0) (triple v) ∧ TLt (triple v) (a + 1, 0, 0))) ∧
    (Fits [a, b] → (Matches ovf ('^' :: n2 a b) pos v ↔
      TLe (a, b, 0) (triple v) ∧
      TLt (triple v) (if a > 0 then (a + 1, 0, 0) else (0, b + 1, 0)))) ∧
    (Fits [a, b, c] → (Matches ovf ('^' :: n3 a b c) pos v ↔
      TLe (a, b, c) (triple v) ∧
      TLt (triple v) (if a > 0 then (a + 1, 0, 0) else if b > 0 then (0, b + 1, 0)
        else (0, 0, c + 1)))) ∧
    (∀ p, Fits [a, b, c] → PreTag p → (Matches ovf ('^' :: n3pre a b c p) pos v ↔
      TLe (a, b, c) (triple v) ∧
      TLt (triple v) (if a > 0 then (a + 1, 0, 0) else if b > 0 then (0, b + 1, 0)
        else (0, 0, c + 1)))) := by
  have key : ∀ cv, PreTag (tag cv) ∨ tag cv = [] →
      (AdmitsRelease TagTextLt .cr cv v ↔
        TLe (floor cv) (triple v) ∧ TLt (triple v) (caretCeil cv)) := by
    intro cv ht
    have : ¬ TagTextLt [] (tag cv) := by
      rcases ht with ht | ht
      · rw [tagTextLt_iff (.inl rfl) (.inr ht), preCmp_nil_left, if_neg (preTag_ne_nil ht)]; simp
      · rw [ht]; exact nil_tagLt_nil
    simp [AdmitsRelease, PrecLe, PrecLt, point, bound, hv, this, TLe]
  have e1 : ∀ x : Nat, (if x > 0 then (x + 1, 0, 0) else (0, b + 1, 0) : Triple) =
      if x = 0 then (0, b + 1, 0) else (x + 1, 0, 0) := by
    intro x; by_cases h : x = 0 <;> simp [h, Nat.pos_iff_ne_zero]
  have e2 : (if a > 0 then (a + 1, 0, 0) else if b > 0 then (0, b + 1, 0) else (0, 0, c + 1) : Triple)
      = if a = 0 then (if b = 0 then (0, 0, c + 1) else (0, b + 1, 0)) else (a + 1, 0, 0) := by
    by_cases h : a = 0 <;> by_cases h' : b = 0 <;> simp [h, h', Nat.pos_iff_ne_zero]
  refine ⟨fun h => ?_, fun h => ?_, fun h => ?_, fun p h hp => ?_⟩
  · rw [show '^' :: n1 a = opWritten .cr ++ cvText (.major a none) from rfl,
      matches_one_release ovf _ _ pos v (valid1 (by simp) h) hv, key _ (.inr rfl)]
    rfl
  · rw [show '^' :: n2 a b = opWritten .cr ++ cvText (.minor a b none) from rfl,
      matches_one_release ovf _ _ pos v (valid2 (by simp) h) hv, key _ (.inr rfl), e1]
    rfl
  · rw [show '^' :: n3 a b c = opWritten .cr ++ n3 a b c from rfl, text3,
      matches_one_release ovf _ _ pos v (valid3 (by simp) h) hv, key _ (.inr rfl), e2]
    rfl
  · rw [show '^' :: n3pre a b c p = opWritten .cr ++ n3pre a b c p from rfl, text3pre,
      matches_one_release ovf _ _ pos v (valid3pre (by simp) h hp) hv, key (.pre a b c p none) (.inl hp), e2]
    rfl

example : Matches false ('^' :: n3 0 2 3) .ZERO ⟨0, 2, 9, [], []⟩ ∧
    ¬ Matches false ('^' :: n3 0 2 3) .ZERO ⟨0, 3, 0, [], []⟩ := by
  refine ⟨((C07_caret false .ZERO ⟨0, 2, 9, [], []⟩ rfl 0 2 3).2.2.1 (by intro n; simp; omega)).2
    ⟨by simp [TLe, TLt, triple], by simp [TLt, triple]⟩, ?_⟩
  rw [(C07_caret false .ZERO ⟨0, 3, 0, [], []⟩ rfl 0 2 3).2.2.1 (by intro n; simp; omega)]
  simp [TLt, triple]

/-- C08: tilde requirements and release versions. -/
theorem C08_tilde (ovf : Bool) (pos : Pos) (v : Version) (hv : v.pre = []) (a b c : Nat) :
    (Fits [a] → (Matches ovf ('~' :: n1 a) pos v ↔
      TLe (a, 0, 0) (triple v) ∧ TLt (triple v) (a + 1, 0, 0))) ∧
    (Fits [a, b] → (Matches ovf ('~' :: n2 a b) pos v ↔
      TLe (a, b, 0) (triple v) ∧ TLt (triple v) (a, b + 1, 0))) ∧
    (Fits [a, b, c] → (Matches ovf ('~' :: n3 a b c) pos v ↔
      TLe (a, b, c) (triple v) ∧ TLt (triple v) (a, b + 1, 0))) ∧
    (∀ p, Fits [a, b, c] → PreTag p → (Matches ovf ('~' :: n3pre a b c p) pos v ↔
      TLe (a, b, c) (triple v) ∧ TLt (triple v) (a, b + 1, 0))) := by
  have key : ∀ cv, PreTag (tag cv) ∨ tag cv = [] →
      (AdmitsRelease TagTextLt .tl cv v ↔
        TLe (floor cv) (triple v) ∧ TLt (triple v) (tildeCeil cv)) := by
    intro cv ht
    have : ¬ TagTextLt [] (tag cv) := by
      rcases ht with ht | ht
      · rw [tagTextLt_iff (.inl rfl) (.inr ht), preCmp_nil_left, if_neg (preTag_ne_nil ht)]; simp
      · rw [ht]; exact nil_tagLt_nil
    simp [AdmitsRelease, PrecLe, PrecLt, point, bound, hv, this, TLe]
  refine ⟨fun h => ?_, fun h => ?_, fun h => ?_, fun p h hp => ?_⟩
  · rw [show '~' :: n1 a = opWritten .tl ++ cvText (.major a none) from rfl,
      matches_one_release ovf _ _ pos v (valid1 (by simp) h) hv, key _ (.inr rfl)]
    rfl
  · rw [show '~' :: n2 a b = opWritten .tl ++ cvText (.minor a b none) from rfl,
      matches_one_release ovf _ _ pos v (valid2 (by simp) h) hv, key _ (.inr rfl)]
    rfl
  · rw [show '~' :: n3 a b c = opWritten .tl ++ n3 a b c from rfl, text3,
      matches_one_release ovf _ _ pos v (valid3 (by simp) h) hv, key _ (.inr rfl)]
    rfl
  · rw [show '~' :: n3pre a b c p = opWritten .tl ++ n3pre a b c p from rfl, text3pre,
      matches_one_release ovf _ _ pos v (valid3pre (by simp) h hp) hv, key (.pre a b c p none) (.inl hp)]
    rfl

example : Matches true ('~' :: n2 1 2) .ZERO ⟨1, 2, 9, [], []⟩ ∧
    ¬ Matches true ('~' :: n2 1 2) .ZERO ⟨1, 3, 0, [], []⟩ := by
  refine ⟨((C08_tilde true .ZERO ⟨1, 2, 9, [], []⟩ rfl 1 2 0).2.1 (by intro n; simp; omega)).2
    ⟨by simp [TLe, TLt, triple], by simp [TLt, triple]⟩, ?_⟩
  rw [(C08_tilde true .ZERO ⟨1, 3, 0, [], []⟩ rfl 1 2 0).2.1 (by intro n; simp; omega)]
  simp [TLt, triple]

/-- C09: inequalities and release versions, for full versions without a tag, full versions with a
prerelease tag (which lies just below its release), and partial versions. -/
theorem C09_inequalities (ovf : Bool) (pos : Pos) (v : Version) (hv : v.pre = []) (a b c : Nat) :
    (Fits [a, b, c] →
      (Matches ovf ('>' :: n3 a b c) pos v ↔ TLt (a, b, c) (triple v)) ∧
      (Matches ovf ('>' :: '=' :: n3 a b c) pos v ↔ TLe (a, b, c) (triple v)) ∧
      (Matches ovf ('<' :: n3 a b c) pos v ↔ TLt (triple v) (a, b, c)) ∧
      (Matches ovf ('<' :: '=' :: n3 a b c) pos v ↔ TLe (triple v) (a, b, c))) ∧
    (∀ p, Fits [a, b, c] → PreTag p →
      (Matches ovf ('>' :: n3pre a b c p) pos v ↔ TLe (a, b, c) (triple v)) ∧
      (Matches ovf ('>' :: '=' :: n3pre a b c p) pos v ↔ TLe (a, b, c) (triple v)) ∧
      (Matches ovf ('<' :: n3pre a b c p) pos v ↔ TLt (triple v) (a, b, c)) ∧
      (Matches ovf ('<' :: '=' :: n3pre a b c p) pos v ↔ TLt (triple v) (a, b, c))) ∧
    (Fits [a, b] →
      (Matches ovf ('>' :: n2 a b) pos v ↔ TLe (a, b + 1, 0) (triple v)) ∧
      (Matches ovf ('>' :: '=' :: n2 a b) pos v ↔ TLe (a, b, 0) (triple v)) ∧
      (Matches ovf ('<' :: n2 a b) pos v ↔ TLt (triple v) (a, b, 0)) ∧
      (Matches ovf ('<' :: '=' :: n2 a b) pos v ↔ TLt (triple v) (a, b + 1, 0))) ∧
    (Fits [a] →
      (Matches ovf ('>' :: n1 a) pos v ↔ TLe (a + 1, 0, 0) (triple v)) ∧
      (Matches ovf ('>' :: '=' :: n1 a) pos v ↔ TLe (a, 0, 0) (triple v)) ∧
      (Matches ovf ('<' :: n1 a) pos v ↔ TLt (triple v) (a, 0, 0)) ∧
      (Matches ovf ('<' :: '=' :: n1 a) pos v ↔ TLt (triple v) (a + 1, 0, 0))) := by
  have full : ∀ cv, Full cv → tag cv = [] →
      (AdmitsRelease TagTextLt .gt cv v ↔ TLt (floor cv) (triple v)) ∧
      (AdmitsRelease TagTextLt .ge cv v ↔ TLe (floor cv) (triple v)) ∧
      (AdmitsRelease TagTextLt .lt cv v ↔ TLt (triple v) (floor cv)) ∧
      (AdmitsRelease TagTextLt .le cv v ↔ TLe (triple v) (floor cv)) := by
    intro cv hf ht
    simp [AdmitsRelease, PrecLe, PrecLt, point, bound, hv, ht, TLe, hf, nil_tagLt_nil]
  have fullpre : ∀ cv, Full cv → PreTag (tag cv) →
      (AdmitsRelease TagTextLt .gt cv v ↔ TLe (floor cv) (triple v)) ∧
      (AdmitsRelease TagTextLt .ge cv v ↔ TLe (floor cv) (triple v)) ∧
      (AdmitsRelease TagTextLt .lt cv v ↔ TLt (triple v) (floor cv)) ∧
      (AdmitsRelease TagTextLt .le cv v ↔ TLt (triple v) (floor cv)) := by
    intro cv hf ht
    have h1 : ¬ TagTextLt [] (tag cv) := by
      rw [tagTextLt_iff (.inl rfl) (.inr ht), preCmp_nil_left, if_neg (preTag_ne_nil ht)]; simp
    have h2 : TagTextLt (tag cv) [] := by
      rw [tagTextLt_iff (.inr ht) (.inl rfl), preCmp_nil_right, if_neg (preTag_ne_nil ht)]
    simp only [AdmitsRelease, PrecLe, PrecLt, point, bound, hv, TLe, hf, h1, h2]
    generalize floor cv = f
    generalize triple v = t
    obtain ⟨x, y, z⟩ := f
    obtain ⟨x', y', z'⟩ := t
    simp only [TLt, Prod.mk.injEq, not_true_eq_false, and_true, and_false, or_false, true_and,
      false_and]
    omega
  have part : ∀ cv, ¬ Full cv → tag cv = [] →
      (AdmitsRelease TagTextLt .gt cv v ↔ TLe (ceil cv) (triple v)) ∧
      (AdmitsRelease TagTextLt .ge cv v ↔ TLe (floor cv) (triple v)) ∧
      (AdmitsRelease TagTextLt .lt cv v ↔ TLt (triple v) (floor cv)) ∧
      (AdmitsRelease TagTextLt .le cv v ↔ TLt (triple v) (ceil cv)) := by
    intro cv hf ht
    simp [AdmitsRelease, PrecLe, PrecLt, point, bound, hv, ht, TLe, hf, nil_tagLt_nil]
  refine ⟨fun h => ?_, fun p h hp => ?_, fun h => ?_, fun h => ?_⟩
  · have f := full (.patch a b c none) trivial rfl
    have m := fun op ho => matches_one_release ovf op _ pos v (valid3 (op := op) ho h) hv
    refine ⟨?_, ?_, ?_, ?_⟩
    · rw [show '>' :: n3 a b c = opWritten .gt ++ n3 a b c from rfl, text3, m _ (by simp), f.1]; rfl
    · rw [show '>' :: '=' :: n3 a b c = opWritten .ge ++ n3 a b c from rfl, text3, m _ (by simp),
        f.2.1]; rfl
    · rw [show '<' :: n3 a b c = opWritten .lt ++ n3 a b c from rfl, text3, m _ (by simp),
        f.2.2.1]; rfl
    · rw [show '<' :: '=' :: n3 a b c = opWritten .le ++ n3 a b c from rfl, text3, m _ (by simp),
        f.2.2.2]; rfl
  · have f := fullpre (.pre a b c p none) trivial hp
    have m := fun op ho => matches_one_release ovf op _ pos v (valid3pre (op := op) ho h hp) hv
    refine ⟨?_, ?_, ?_, ?_⟩
    · rw [show '>' :: n3pre a b c p = opWritten .gt ++ n3pre a b c p from rfl, text3pre,
        m _ (by simp), f.1]; rfl
    · rw [show '>' :: '=' :: n3pre a b c p = opWritten .ge ++ n3pre a b c p from rfl, text3pre,
        m _ (by simp), f.2.1]; rfl
    · rw [show '<' :: n3pre a b c p = opWritten .lt ++ n3pre a b c p from rfl, text3pre,
        m _ (by simp), f.2.2.1]; rfl
    · rw [show '<' :: '=' :: n3pre a b c p = opWritten .le ++ n3pre a b c p from rfl, text3pre,
        m _ (by simp), f.2.2.2]; rfl
  · have f := part (.minor a b none) (by simp [Full]) rfl
    have m := fun op ho => matches_one_release ovf op _ pos v (valid2 (op := op) ho h) hv
    exact ⟨(m .gt (by simp)).trans f.1, (m .ge (by simp)).trans f.2.1,
      (m .lt (by simp)).trans f.2.2.1, (m .le (by simp)).trans f.2.2.2⟩
  · have f := part (.major a none) (by simp [Full]) rfl
    have m := fun op ho => matches_one_release ovf op _ pos v (valid1 (op := op) ho h) hv
    exact ⟨(m .gt (by simp)).trans f.1, (m .ge (by simp)).trans f.2.1,
      (m .lt (by simp)).trans f.2.2.1, (m .le (by simp)).trans f.2.2.2⟩

example : Matches true ('>' :: n2 1 2) .ZERO ⟨1, 3, 0, [], []⟩ ∧
    ¬ Matches true ('>' :: n2 1 2) .ZERO ⟨1, 2, 9, [], []⟩ := by
  refine ⟨((C09_inequalities true .ZERO ⟨1, 3, 0, [], []⟩ rfl 1 2 0).2.2.1
    (by intro n; simp; omega)).1.2 (by simp [TLe, TLt, triple]), ?_⟩
  rw [((C09_inequalities true .ZERO ⟨1, 2, 9, [], []⟩ rfl 1 2 0).2.2.1
    (by intro n; simp; omega)).1]
  simp [TLe, TLt, triple]

/-- C10: wildcards; `w`, `w'` range over the wildcard characters `*`, `x`, `X`. -/
theorem C10_wildcards (ovf : Bool) (pos : Pos) (v : Version) (hv : TagOk v) (a b : Nat)
    (w w' : WlChar) :
    (Matches ovf [w.char] pos v ↔ v.pre = []) ∧
    (Fits [a] → (Matches ovf (n1 a ++ ['.', w.char]) pos v ↔ v.pre = [] ∧ v.major = a)) ∧
    (Fits [a] → (Matches ovf (n1 a ++ ['.', w.char, '.', w'.char]) pos v ↔
      v.pre = [] ∧ v.major = a)) ∧
    (Fits [a, b] → (Matches ovf (n2 a b ++ ['.', w.char]) pos v ↔
      v.pre = [] ∧ v.major = a ∧ v.minor = b)) := by
  have key : ∀ cv, Admits TagTextLt .wl cv v ↔ Agrees cv (triple v) ∧ tag cv = v.pre := by
    intro cv
    unfold Admits
    split
    · rename_i h; simp [AdmitsRelease, h]
    · simp [AdmitsPre]
  refine ⟨?_, fun h => ?_, fun h => ?_, fun h => ?_⟩
  · have := matches_one ovf .wl (.wl w) pos v ⟨trivial, fun _ => ⟨trivial, rfl⟩, by simp, by simp⟩ hv
    rw [show [w.char] = opWritten .wl ++ cvText (.wl w) from rfl, this, key]
    simp only [Agrees, tag, true_and, OptIn, reduceCtorEq, false_and, exists_const, or_false]
    exact ⟨fun h => h.2, fun h => ⟨h.symm, h⟩⟩
  · have := matches_one ovf .wl (.major a (some (w, none))) pos v
      ⟨h a (by simp), fun _ => ⟨by simp [HasWildcard], rfl⟩, by simp, by simp⟩ hv
    rw [show n1 a ++ ['.', w.char] = opWritten .wl ++ cvText (.major a (some (w, none))) from rfl,
      this, key]
    simp only [Agrees, tag, triple, OptIn, reduceCtorEq, false_and, exists_const, or_false]
    exact ⟨fun h => ⟨h.2, h.1.1⟩, fun h => ⟨⟨h.2, h.1.symm⟩, h.1⟩⟩
  · have := matches_one ovf .wl (.major a (some (w, some w'))) pos v
      ⟨h a (by simp), fun _ => ⟨by simp [HasWildcard], rfl⟩, by simp, by simp⟩ hv
    rw [show n1 a ++ ['.', w.char, '.', w'.char] =
      opWritten .wl ++ cvText (.major a (some (w, some w'))) by simp [n1, opWritten, cvText],
      this, key]
    simp only [Agrees, tag, triple, OptIn, reduceCtorEq, false_and, exists_const, or_false]
    exact ⟨fun h => ⟨h.2, h.1.1⟩, fun h => ⟨⟨h.2, h.1.symm⟩, h.1⟩⟩
  · have := matches_one ovf .wl (.minor a b (some w)) pos v
      ⟨⟨h a (by simp), h b (by simp)⟩, fun _ => ⟨by simp [HasWildcard], rfl⟩, by simp, by simp⟩ hv
    rw [show n2 a b ++ ['.', w.char] =
      opWritten .wl ++ cvText (.minor a b (some w)) from rfl, this, key]
    simp only [Agrees, tag, triple, OptIn, reduceCtorEq, false_and, exists_const, or_false]
    exact ⟨fun h => ⟨h.2, h.1.1⟩, fun h => ⟨⟨h.2, h.1.symm⟩, h.1⟩⟩

example : Matches true "1.x".toList .ZERO ⟨1, 7, 0, [], []⟩ :=
  ((C10_wildcards true .ZERO ⟨1, 7, 0, [], []⟩ (.inl rfl) 1 0 .lowerX .star).2.1
    (by intro n; simp; omega)).2 ⟨rfl, rfl⟩

/-- A comparator version without its build metadata. -/
def eraseBuild : CompVersion → CompVersion
  | .patch a b c _ => .patch a b c none
  | .pre a b c p _ => .pre a b c p none
  | x => x

/-- C12: build metadata of the version and of the comparators never matters (for any requirement
value, parsed or not): the result depends only on the operators and the versions without build
metadata, and on the version without its build metadata. -/
theorem C12_build_metadata_ignored (req req' : VersionReq) (v : Version) (m m' : Str)
    (h : req.comparators.map (fun c => (c.op, eraseBuild c.version)) =
      req'.comparators.map (fun c => (c.op, eraseBuild c.version))) :
    matchesRequirement req { v with build := m } = matchesRequirement req' { v with build := m' } := by
  have same : ∀ c c' : Comparator, c.op = c'.op → eraseBuild c.version = eraseBuild c'.version →
      matchesImpl c { v with build := m } = matchesImpl c' { v with build := m' } ∧
      preIsCompatible c { v with build := m } = preIsCompatible c' { v with build := m' } := by
    rintro ⟨oo, op, vo, cv, cm⟩ ⟨oo', op', vo', cv', cm'⟩ h1 h2
    simp only at h1 h2
    subst h1
    have e : cv.majorNum = cv'.majorNum ∧ cv.minorNum = cv'.minorNum ∧
        cv.patchNum = cv'.patchNum ∧ cv.preStr = cv'.preStr := by
      cases cv <;> cases cv' <;> simp_all [eraseBuild, CompVersion.majorNum, CompVersion.minorNum,
        CompVersion.patchNum, CompVersion.preStr]
    obtain ⟨e1, e2, e3, e4⟩ := e
    constructor
    · cases op <;> simp only [matchesImpl, matchesExact, matchesGreater, matchesLess, matchesTilde,
        matchesCaret, e1, e2, e3, e4]
    · simp only [preIsCompatible, e1, e2, e3, e4]
  obtain ⟨p, l, cs⟩ := req
  obtain ⟨p', l', cs'⟩ := req'
  simp only at h
  have key : allMatch { v with build := m } cs = allMatch { v with build := m' } cs' ∧
      cs.any (fun c => preIsCompatible c { v with build := m }) =
      cs'.any (fun c => preIsCompatible c { v with build := m' }) := by
    induction cs generalizing cs' with
    | nil => cases cs' with
      | nil => exact ⟨rfl, rfl⟩
      | cons => simp at h
    | cons c cs ih => cases cs' with
      | nil => simp at h
      | cons c' cs' =>
        simp only [List.map_cons, List.cons.injEq, Prod.mk.injEq] at h
        have hc := same c c' h.1.1 h.1.2
        have hi := ih cs' h.2
        simp only [allMatch, List.any_cons, hc.1, hc.2, hi.1, hi.2, and_self]
  simp only [matchesRequirement, key.1, key.2]

example : ([⟨0, .eq, 1, .patch 1 2 3 (some "x".toList), none⟩] : List Comparator).map
      (fun c => (c.op, eraseBuild c.version)) =
    ([⟨0, .eq, 1, .patch 1 2 3 none, none⟩] : List Comparator).map
      (fun c => (c.op, eraseBuild c.version)) := by decide

/-- C13: a version without operator (and without wildcards) means caret. -/
theorem C13_blank_is_caret (ovf : Bool) (cv : CompVersion) (hcv : ValidCv cv)
    (hw : ¬ HasWildcard cv) (pos pos' : Pos) (v : Version) (hv : TagOk v) :
    Matches ovf (cvText cv) pos v ↔ Matches ovf ('^' :: cvText cv) pos' v := by
  have hb : ∀ w, cv ≠ .wl w := by rintro w rfl; exact hw trivial
  have h1 : (⟨0, .bl, 0, cv, 0⟩ : Item).Valid :=
    ⟨hcv, by simp, fun _ => ⟨hw, rfl⟩, fun w e => absurd e (hb w)⟩
  have h2 : (⟨0, .cr, 0, cv, 0⟩ : Item).Valid :=
    ⟨hcv, by simp, by simp, fun w e => absurd e (hb w)⟩
  have m1 := matches_one ovf .bl cv pos v h1 hv
  have m2 := matches_one ovf .cr cv pos' v h2 hv
  have e : Admits TagTextLt .bl cv v ↔ Admits TagTextLt .cr cv v := by
    simp [Admits, AdmitsRelease, AdmitsPre]
  rw [show cvText cv = opWritten .bl ++ cvText cv from rfl, m1, e, ← m2]
  rfl

example : ValidCv (.patch 1 2 3 none) ∧ ¬ HasWildcard (.patch 1 2 3 none) :=
  ⟨⟨by decide, by decide, by decide, by simp⟩, by simp [HasWildcard]⟩

theorem tle_trans {a b c : Triple} (h : TLe a b) (h' : TLe b c) : TLe a c := by
  obtain ⟨a1, a2, a3⟩ := a; obtain ⟨b1, b2, b3⟩ := b; obtain ⟨c1, c2, c3⟩ := c
  simp only [TLe, TLt] at *; omega

theorem tle_tlt_trans {a b c : Triple} (h : TLe a b) (h' : TLt b c) : TLt a c := by
  obtain ⟨a1, a2, a3⟩ := a; obtain ⟨b1, b2, b3⟩ := b; obtain ⟨c1, c2, c3⟩ := c
  simp only [TLe, TLt] at *; omega

theorem tlt_tle_trans {a b c : Triple} (h : TLt a b) (h' : TLe b c) : TLt a c := by
  obtain ⟨a1, a2, a3⟩ := a; obtain ⟨b1, b2, b3⟩ := b; obtain ⟨c1, c2, c3⟩ := c
  simp only [TLe, TLt] at *; omega

theorem tle_cases {a b : Triple} (h : TLe a b) : TLt a b ∨ a = b := by
  obtain ⟨a1, a2, a3⟩ := a; obtain ⟨b1, b2, b3⟩ := b
  simp only [TLe, TLt, Prod.mk.injEq] at *; omega

/-- Release points: above `u` stays above a bound below `u`. -/
theorem precLt_up {lt : TagOrder} {f u v : Triple} {t : Str} (h : TLe u v)
    (h' : PrecLt lt (f, t) (u, [])) : PrecLt lt (f, t) (v, []) := by
  rcases h' with h' | ⟨h', ht⟩
  · exact .inl (tlt_tle_trans h' h)
  · simp only at h' ht
    subst h'
    rcases tle_cases h with h | h
    · exact .inl h
    · subst h; exact .inr ⟨rfl, ht⟩

theorem precLt_down {lt : TagOrder} {f u v : Triple} {t : Str} (h : TLe u v)
    (h' : PrecLt lt (v, []) (f, t)) : PrecLt lt (u, []) (f, t) := by
  rcases h' with h' | ⟨h', ht⟩
  · exact .inl (tle_tlt_trans h h')
  · simp only at h' ht
    subst h'
    rcases tle_cases h with h | h
    · exact .inl h
    · subst h; exact .inr ⟨rfl, ht⟩

theorem agrees_between {cv : CompVersion} {u v w : Triple} (huv : TLe u v) (hvw : TLe v w)
    (h1 : Agrees cv u) (h2 : Agrees cv w) : Agrees cv v := by
  obtain ⟨u1, u2, u3⟩ := u; obtain ⟨v1, v2, v3⟩ := v; obtain ⟨w1, w2, w3⟩ := w
  cases cv with
  | wl => trivial
  | major => simp only [Agrees, TLe, TLt] at *; omega
  | minor => simp only [Agrees, TLe, TLt] at *; omega
  | patch => simp only [Agrees, TLe, TLt, Prod.mk.injEq] at *; omega
  | pre => simp only [Agrees, TLe, TLt, Prod.mk.injEq] at *; omega

theorem admitsRelease_between {lt : TagOrder} {op : Op} {cv : CompVersion} {u v w : Version}
    (hu : u.pre = []) (hv : v.pre = []) (hw : w.pre = [])
    (huv : TLe (triple u) (triple v)) (hvw : TLe (triple v) (triple w))
    (h1 : AdmitsRelease lt op cv u) (h2 : AdmitsRelease lt op cv w) :
    AdmitsRelease lt op cv v := by
  have pt : ∀ x : Version, x.pre = [] → point x = (triple x, []) := fun x hx => by
    simp [point, hx]
  have geo : PrecLe lt (bound cv) (point u) → PrecLe lt (bound cv) (point v) := by
    rw [pt u hu, pt v hv]
    exact fun h h' => h (precLt_down huv h')
  cases op <;> simp only [AdmitsRelease] at h1 h2 ⊢
  case eq => exact ⟨agrees_between huv hvw h1.1 h2.1, h1.2⟩
  case wl => exact ⟨agrees_between huv hvw h1.1 h2.1, h1.2⟩
  case gt =>
    rcases h1 with ⟨hf, h⟩ | ⟨hf, h⟩
    · refine .inl ⟨hf, ?_⟩
      rw [pt u hu] at h; rw [pt v hv]
      exact precLt_up huv h
    · exact .inr ⟨hf, tle_trans h huv⟩
  case ge => exact geo h1
  case lt =>
    rw [pt w hw] at h2; rw [pt v hv]
    exact precLt_down hvw h2
  case le =>
    rcases h2 with ⟨hf, h⟩ | ⟨hf, h⟩
    · refine .inl ⟨hf, ?_⟩
      rw [pt w hw] at h; rw [pt v hv]
      exact fun h' => h (precLt_up hvw h')
    · exact .inr ⟨hf, tle_tlt_trans hvw h⟩
  all_goals exact ⟨geo h1.1, tle_tlt_trans hvw h2.2⟩

/-- C14: the release versions matched by an accepted requirement form an interval. -/
theorem C14_interval (ovf : Bool) (text : Str) (pos : Pos) (req : VersionReq)
    (h : parseRequirement ovf text pos = .ok req) (u v w : Version)
    (hu : u.pre = []) (hv : v.pre = []) (hw : w.pre = [])
    (huv : TLe (triple u) (triple v)) (hvw : TLe (triple v) (triple w))
    (mu : matchesRequirement req u = some true) (mw : matchesRequirement req w = some true) :
    matchesRequirement req v = some true := by
  have hok := (parseRequirement_ok ovf text pos req h).1
  have hwf : ∀ c ∈ req.comparators, WellFormed c := fun c hc => (hok c hc).bare
  rw [matchesRequirement_iff req _ hwf] at mu mw ⊢
  refine ⟨fun c hc => ?_, .inl hv⟩
  have h1 := mu.1 c hc
  have h2 := mw.1 c hc
  simp only [Admits, hu, hv, hw, if_true] at h1 h2 ⊢
  exact admitsRelease_between hu hv hw huv hvw h1 h2

example : ∃ req, parseRequirement true ">1, <3".toList .ZERO = .ok req ∧
    matchesRequirement req ⟨2, 0, 0, [], []⟩ = some true ∧
    matchesRequirement req ⟨2, 9, 0, [], []⟩ = some true := ⟨_, by rfl, by decide, by decide⟩

end Verif.Props
