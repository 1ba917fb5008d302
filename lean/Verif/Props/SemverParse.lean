import Verif.Semver.ShiftLemmas

/-! # Properties C15-C26: the semver parsers and their printers -/

namespace Verif.Props
open Verif Verif.Spec Verif.Semver Verif.Spec.Semver

/-- `T` has no space at either end. -/
def Trimmed (T : Str) : Prop := T.head? ≠ some ' ' ∧ T.getLast? ≠ some ' '

/-- `T` is `s` with its leading and trailing spaces removed. -/
def IsTrim (s T : Str) : Prop := Trimmed T ∧ ∃ i j, s = spaces i ++ T ++ spaces j

/-! ## C15, C16: versions -/

/-- C15: displaying a version obtained from the parser (in any build) and parsing the text again
(in any build, at any position) gives an equal version. -/
theorem C15_version_display_parse (ovf ovf' : Bool) (text : Str) (pos pos' : Pos) (v : Version)
    (h : parseVersion ovf text pos = .ok v) :
    parseVersion ovf' (displayVersion v) pos' = .ok v := by
  apply parseVersion_complete
  exact ⟨parseVersion_valid ovf text pos v h, 0, 0, by simp [spaces, displayVersion_eq]⟩

example : parseVersion true " 1.2.3-rc.1+b.01 ".toList .ZERO =
    .ok ⟨1, 2, 3, "rc.1".toList, "b.01".toList⟩ := by decide

theorem versionText_trimmed (v : Version) (h : ValidVersion v) : Trimmed (versionText v) := by
  have hd : ∀ n, ' ' ∉ decimal n := by
    intro n hm
    have := List.all_eq_true.1 (decimal_all n) _ hm
    revert this; decide
  have hseg : ∀ (f : IdentField) (s : Str), (∀ x ∈ splitDot s, SegOk f x) → ' ' ∉ s := by
    intro f s hs hm
    have := List.all_eq_true.1 (segs_identOrDot hs) _ hm
    revert this; decide
  have hp : ' ' ∉ v.pre := by
    rcases h.pre with e | e
    · simp [e]
    · exact hseg _ _ ((preTag_iff _).1 e)
  have hb : ' ' ∉ v.build := by
    rcases h.build with e | e
    · simp [e]
    · exact hseg _ _ ((buildTag_iff _).1 e)
  have hall : ' ' ∉ versionText v := by
    unfold versionText
    simp only [List.mem_append, not_or]
    refine ⟨⟨⟨⟨⟨⟨hd _, by decide⟩, hd _⟩, by decide⟩, hd _⟩, ?_⟩, ?_⟩
    · split
      · simp
      · simpa using hp
    · split
      · simp
      · simpa using hb
  exact ⟨fun e => hall (List.mem_of_head? e), fun e => hall (List.mem_of_getLast? e)⟩

/-- C16, except for the overflow defect (C20): if the text is accepted, displaying the version
gives the text without its leading and trailing spaces.  Holds for every text in builds with
overflow checks and for every text without the digits `429496729[6-9]` in other builds.
Missing: release builds on texts with those digits, where the claim is false, see
`C16_counterexample`. -/
theorem C16_version_parse_display_partial (ovf : Bool) (text : Str) (pos : Pos) (v : Version)
    (hs : Safe ovf text) (h : parseVersion ovf text pos = .ok v) :
    IsTrim text (displayVersion v) := by
  obtain ⟨hv, i, j, ht⟩ := parseVersion_sound text pos v (parseVersion_safe hs h)
  rw [displayVersion_eq]
  exact ⟨versionText_trimmed v hv, i, j, ht⟩

example : Safe true " 1.2.3 ".toList := .inl rfl

theorem C16_counterexample :
    parseVersion false "4294967297.0.0".toList .ZERO = .ok ⟨1, 0, 0, [], []⟩ ∧
    displayVersion ⟨1, 0, 0, [], []⟩ = "1.0.0".toList := by decide

/-! ## C17, C18: requirements -/

/-- C17, except for the overflow defect: `{}` reproduces the accepted text exactly (and printing
does not panic).  Missing: release builds on texts with the digits `429496729[6-9]`, where the
claim is false, see `C17_counterexample`. -/
theorem C17_requirement_display_lossless_partial (ovf : Bool) (text : Str) (pos : Pos)
    (req : VersionReq) (hs : Safe ovf text) (h : parseRequirement ovf text pos = .ok req) :
    displayReq false req = some text := by
  obtain ⟨its, hv, rfl, rfl⟩ := parseRequirement_sound text pos req (parseRequirement_safe hs h)
  exact fmtRequirement_eq false its hv.nonempty hv.valid pos

example : ∃ req, parseRequirement true " >= 1.2 ,<2.x  ".toList .ZERO = .ok req ∧
    displayReq false req = some " >= 1.2 ,<2.x  ".toList := ⟨_, by rfl, by decide⟩

theorem C17_counterexample : ∃ req, parseRequirement false "=4294967298".toList .ZERO = .ok req ∧
    displayReq false req = some "=2         ".toList := ⟨_, by rfl, by decide⟩

/-- C18, except for the overflow defect: `{:#}` gives the accepted text without its leading and
trailing spaces.  Missing: as for C17. -/
theorem C18_requirement_alternate_display_partial (ovf : Bool) (text : Str) (pos : Pos)
    (req : VersionReq) (hs : Safe ovf text) (h : parseRequirement ovf text pos = .ok req) :
    ∃ T, displayReq true req = some T ∧ IsTrim text T := by
  obtain ⟨its, hv, rfl, rfl⟩ := parseRequirement_sound text pos req (parseRequirement_safe hs h)
  refine ⟨_, fmtRequirement_eq true its hv.nonempty hv.valid pos, ?_⟩
  have hl := itemsBody_last hv.nonempty hv.valid
  obtain ⟨hf, hb⟩ := itemsBody_first hv.nonempty hv.valid
  simp only [if_true]
  refine ⟨⟨hf, ?_⟩, (its.head hv.nonempty).sp0, lastSp its, ?_⟩
  · intro e
    apply hl
    rw [hb, List.getLast?_append, e]; rfl
  · rw [itemsText_body]
    conv => lhs; rw [hb]

example : ∃ req, parseRequirement true " >= 1.2 ,<2.x  ".toList .ZERO = .ok req ∧
    displayReq true req = some ">= 1.2 ,<2.x".toList := ⟨_, by rfl, by decide⟩

/-! ## C19, C20: the accepted language and the numbers -/

/-- C19, except for the overflow defect: `parse_version` accepts exactly the texts of the grammar
`VersionText`, with exactly the written value.  Complete for builds with overflow checks; in other
builds missing: texts with the digits `429496729[6-9]`, see `C16_counterexample`. -/
theorem C19_version_grammar_partial (ovf : Bool) (text : Str) (pos : Pos) (v : Version)
    (hs : Safe ovf text) : parseVersion ovf text pos = .ok v ↔ VersionText text v :=
  ⟨fun h => parseVersion_sound text pos v (parseVersion_safe hs h),
    parseVersion_complete ovf text pos v⟩

/-- The full C19 for builds with overflow checks. -/
theorem C19_version_grammar_debug (text : Str) (pos : Pos) (v : Version) :
    parseVersion true text pos = .ok v ↔ VersionText text v :=
  C19_version_grammar_partial true text pos v (.inl rfl)

/-- The analogue for requirements: accepted exactly when it is a list of 1 to 32 valid items, and
then the result is the one written. -/
theorem C19_requirement_grammar_partial (ovf : Bool) (text : Str) (pos : Pos) (req : VersionReq)
    (hs : Safe ovf text) : parseRequirement ovf text pos = .ok req ↔ ReqText text pos req :=
  ⟨fun h => parseRequirement_sound text pos req (parseRequirement_safe hs h),
    parseRequirement_complete ovf text pos req⟩

example : VersionText " 1.0.20-a.1+0".toList ⟨1, 0, 20, "a.1".toList, "0".toList⟩ :=
  (C19_version_grammar_debug _ .ZERO _).1 (by decide)

/-- C20, first half: a field that fits 32 bits is read exactly (every build), and one that does not
is rejected with an overflow error that spans its digits, unless its digits contain
`429496729[6-9]`.  Missing: those, where `C20_counterexample` shows that the claim is false. -/
theorem C20_numbers_exact_or_rejected_partial (ovf : Bool) (pos : Pos) (a b c : Nat)
    (ht : ¬ OverflowTrap (versionText ⟨a, b, c, [], []⟩)) :
    (a < 2 ^ 32 → b < 2 ^ 32 → c < 2 ^ 32 →
      parseVersion ovf (versionText ⟨a, b, c, [], []⟩) pos = .ok ⟨a, b, c, [], []⟩) ∧
    (2 ^ 32 ≤ a → parseVersion ovf (versionText ⟨a, b, c, [], []⟩) pos =
      .err (.intOverflow .major pos (decimal a).length)) ∧
    (a < 2 ^ 32 → 2 ^ 32 ≤ b → parseVersion ovf (versionText ⟨a, b, c, [], []⟩) pos =
      .err (.intOverflow .minor (pos.plus ((decimal a).length + 1)) (decimal b).length)) ∧
    (a < 2 ^ 32 → b < 2 ^ 32 → 2 ^ 32 ≤ c → parseVersion ovf (versionText ⟨a, b, c, [], []⟩) pos =
      .err (.intOverflow .patch (pos.plus ((decimal a).length + 1 + (decimal b).length + 1))
        (decimal c).length)) := by
  have hw : ∀ n (r : Str), eatWs ⟨pos, 0, decimal n ++ r⟩ = ⟨pos, 0, decimal n ++ r⟩ := by
    intro n r
    rcases Nat.eq_zero_or_pos n with rfl | hn
    · simp [decimal_zero, eatWs, eatWsAux]
    · obtain ⟨d, ds, hd, -⟩ := decimal_head n hn
      have hall := decimal_all n
      rw [hd] at hall ⊢
      simp only [List.all_cons, Bool.and_eq_true] at hall
      have : d ≠ ' ' := by rintro rfl; exact absurd hall.1 (by decide)
      simp [eatWs, eatWsAux, this]
  have hdot : ∀ r : Str, startsWith isDigit ('.' :: r) = false := by intro r; rfl
  have ev : versionText ⟨a, b, c, [], []⟩ = decimal a ++ '.' :: (decimal b ++ '.' :: decimal c) := by
    simp [versionText]
  rw [ev] at ht ⊢
  have t2 : ¬ OverflowTrap (decimal b ++ '.' :: decimal c) := fun h => ht (OverflowTrap.mono h
    ⟨decimal a ++ ['.'], [], by simp⟩)
  have t3 : ¬ OverflowTrap (decimal c) := fun h => t2 (OverflowTrap.mono h ⟨decimal b ++ ['.'], [], by simp⟩)
  refine ⟨fun h1 h2 h3 => ?_, fun h1 => ?_, fun h1 h2 => ?_, fun h1 h2 h3 => ?_⟩
  · apply parseVersion_complete
    exact ⟨⟨h1, h2, h3, .inl rfl, .inl rfl⟩, 0, 0, by simp [spaces, ev]⟩
  · unfold parseVersion Cur.new
    simp only [hw]
    rw [parseInt_overflow ovf pos 0 a _ .major h1 (hdot _) ht]
    simp [Pos.plus]
  · unfold parseVersion Cur.new
    simp only [hw]
    rw [parseInt_at ovf pos 0 a _ .major h1 (hdot _)]
    simp only [Res.bind_ok, expectDot, if_true, Cur.step, Nat.zero_add]
    rw [parseInt_overflow ovf pos _ b _ .minor h2 (hdot _) t2]
    simp
  · unfold parseVersion Cur.new
    simp only [hw]
    rw [parseInt_at ovf pos 0 a _ .major h1 (hdot _)]
    simp only [Res.bind_ok, expectDot, if_true, Cur.step, Nat.zero_add]
    rw [parseInt_at ovf pos _ b _ .minor h2 (hdot _)]
    simp only [Res.bind_ok, if_true]
    have := parseInt_overflow ovf pos ((decimal a).length + 1 + (decimal b).length + 1) c [] .patch h3
      rfl (by simpa using t3)
    rw [List.append_nil] at this
    rw [this]
    simp

/-- C20, second half: an accepted version has exactly the numbers that are written (builds with
overflow checks, or no `429496729[6-9]` in the text). -/
theorem C20_accepted_is_written_partial (ovf : Bool) (text : Str) (pos : Pos) (v : Version)
    (hs : Safe ovf text) (h : parseVersion ovf text pos = .ok v) :
    (∃ i j suffix, text = spaces i ++ (decimal v.major ++ '.' :: decimal v.minor ++ '.' ::
      decimal v.patch ++ suffix) ++ spaces j ∧
      (suffix = [] ∨ suffix.head? = some '-' ∨ suffix.head? = some '+')) ∧
      v.major < 2 ^ 32 ∧ v.minor < 2 ^ 32 ∧ v.patch < 2 ^ 32 := by
  obtain ⟨hv, i, j, ht⟩ := (C19_version_grammar_partial ovf text pos v hs).1 h
  refine ⟨⟨i, j, (if v.pre = [] then [] else ['-'] ++ v.pre) ++
    (if v.build = [] then [] else ['+'] ++ v.build), ?_, ?_⟩, hv.major, hv.minor, hv.patch⟩
  · rw [ht, versionText]
    simp only [List.append_assoc, List.cons_append, List.nil_append]
  · by_cases h1 : v.pre = [] <;> by_cases h2 : v.build = [] <;> simp [h1, h2]

example : ¬ OverflowTrap (versionText ⟨1, 2, 99999999999, [], []⟩) := by
  rintro ⟨d, hd, hi⟩
  have hm : '4' ∈ versionText ⟨1, 2, 99999999999, [], []⟩ := hi.subset (by simp)
  revert hm; decide

theorem C20_counterexample :
    parseVersion true "4294967296.0.0".toList .ZERO = .panic ∧
    parseVersion false "4294967296.0.0".toList .ZERO = .ok ⟨0, 0, 0, [], []⟩ ∧
    parseVersion true "4294967295.0.0".toList .ZERO = .ok ⟨4294967295, 0, 0, [], []⟩ ∧
    parseVersion true "4294967300.0.0".toList .ZERO = .err (.intOverflow .major .ZERO 10) := by
  decide

/-! ## C21, C23 -/

/-- C21: an accepted requirement has between 1 and 32 comparators (every build). -/
theorem C21_comparator_count (ovf : Bool) (text : Str) (pos : Pos) (req : VersionReq)
    (h : parseRequirement ovf text pos = .ok req) :
    1 ≤ req.comparators.length ∧ req.comparators.length ≤ 32 :=
  ⟨(parseRequirement_ok ovf text pos req h).2.1, (parseRequirement_ok ovf text pos req h).2.2.1⟩

/-- C23: a comparator that is a bare wildcard is the only comparator (every build). -/
theorem C23_wildcard_is_sole (ovf : Bool) (text : Str) (pos : Pos) (req : VersionReq)
    (h : parseRequirement ovf text pos = .ok req) (c : Comparator) (hc : c ∈ req.comparators)
    (w : WlChar) (hw : c.version = .wl w) : req.comparators = [c] := by
  have := (parseRequirement_ok ovf text pos req h).2.2.2 c hc w hw
  obtain ⟨x, hx⟩ := List.length_eq_one_iff.1 this
  rw [hx] at hc ⊢
  simp only [List.mem_singleton] at hc
  rw [hc]

example : ∃ req, parseRequirement true " * ".toList .ZERO = .ok req ∧
    req.comparators = [⟨1, .wl, 1, .wl .star, none⟩] := ⟨_, by rfl, by rfl⟩

/-! ## C22, C24: error positions and panics -/

/-- C22: every error of `parse_version` covers a piece of the text between two character
boundaries, and that piece is what the error is about (e.g. the overflowing digits, the invalid
character, nothing for a missing field), in every build. -/
theorem C22_version_error_spans (ovf : Bool) (text : Str) (pos : Pos) (e : Error)
    (h : parseVersion ovf text pos = .err e) : ErrorIn pos text e :=
  (parseVersion_good ovf text pos).err e h

/-- C22 for `parse_requirement`. -/
theorem C22_requirement_error_spans (ovf : Bool) (text : Str) (pos : Pos) (e : Error)
    (h : parseRequirement ovf text pos = .err e) : ErrorIn pos text e :=
  (parseRequirement_good ovf text pos).err e h

/-- C22, in coordinates: the span starts at or after the given position, ends at or before the end
of the text and stays on its line. -/
theorem C22_error_spans_bounds (ovf : Bool) (text : Str) (pos : Pos) (e : Error)
    (h : parseVersion ovf text pos = .err e ∨ parseRequirement ovf text pos = .err e) :
    ∃ i n, e.span = ⟨pos.plus i, pos.plus (i + n)⟩ ∧ i + n ≤ blen text := by
  have : ErrorIn pos text e := h.elim (C22_version_error_spans ovf text pos e)
    (C22_requirement_error_spans ovf text pos e)
  obtain ⟨a, b, t, rfl, hs, -⟩ := this
  exact ⟨blen a, blen b, hs, by simp⟩

example : parseVersion true "1.2.ß".toList ⟨3, 7⟩ = .err (.invalidIntChar 'ß' .patch ⟨3, 11⟩) := by
  decide

/-- C24, except for the overflow defect: neither parser panics, unless the build has overflow
checks and the text contains the digits `429496729[6-9]` (`C20_counterexample`). -/
theorem C24_no_panic_partial (ovf : Bool) (text : Str) (pos : Pos)
    (h : ovf = false ∨ ¬ OverflowTrap text) :
    parseVersion ovf text pos ≠ .panic ∧ parseRequirement ovf text pos ≠ .panic := by
  refine ⟨fun hp => ?_, fun hp => ?_⟩
  · obtain ⟨h1, h2⟩ := (parseVersion_good ovf text pos).panic hp
    rcases h with h | h
    · rw [h1] at h; cases h
    · exact h h2
  · obtain ⟨h1, h2⟩ := (parseRequirement_good ovf text pos).panic hp
    rcases h with h | h
    · rw [h1] at h; cases h
    · exact h h2

/-- The full claim of C24 fails: both parsers panic in builds with overflow checks. -/
theorem C24_counterexample : parseVersion true "1.4294967299.0".toList .ZERO = .panic ∧
    parseRequirement true "^4294967296".toList .ZERO = .panic := by decide

/-! ## C25: offsets -/

/-- `s` is written in `text` at byte offset `o`. -/
def WrittenAt (text : Str) (o : Nat) (s : Str) : Prop :=
  ∃ a t, text = a ++ s ++ t ∧ blen a = o

/-- The offsets of one comparator point at what it records. -/
structure OffsetsOk (text : Str) (c : Comparator) : Prop where
  op : WrittenAt text c.opOffset (opWritten c.op)
  version : WrittenAt text c.versionOffset (cvText c.version)
  comma : ∀ o, c.comma = some o → WrittenAt text o [',']
  order : c.opOffset + blen (opWritten c.op) ≤ c.versionOffset
  orderComma : ∀ o, c.comma = some o → c.versionOffset + blen (cvText c.version) ≤ o

theorem comparatorsAt_offsets (pre : Str) (its : List Item)
    (hv : ∀ it ∈ its, blen (cvText it.cv) = (cvText it.cv).length) :
    (∀ c ∈ comparatorsAt (blen pre) its, OffsetsOk (pre ++ itemsText its) c) ∧
    (∀ c ∈ comparatorsAt (blen pre) its, blen pre ≤ c.opOffset) ∧
    (comparatorsAt (blen pre) its).Pairwise (fun c d => ∃ o, c.comma = some o ∧ o < d.opOffset) ∧
    (∀ c, (comparatorsAt (blen pre) its).getLast? = some c → c.comma = none) := by
  have opAscii : ∀ op : Op, blen (opWritten op) = (opWritten op).length := by
    intro op; cases op <;> decide
  induction its generalizing pre with
  | nil => simp [comparatorsAt]
  | cons it its ih =>
    have hcv : blen (cvText it.cv) = (cvText it.cv).length := hv it (by simp)
    have htext : blen it.text = it.text.length := by
      simp [Item.text, blen_spaces, opAscii, hcv, spaces_length]
    have base : ∀ (rest : Str) (cm : Option Nat),
        (∀ o, cm = some o → o = blen pre + it.text.length ∧ ∃ r, rest = ',' :: r) →
        OffsetsOk (pre ++ (it.text ++ rest)) ⟨blen pre + it.sp0, it.op,
          blen pre + it.sp0 + (opWritten it.op).length + it.sp1, it.cv, cm⟩ := by
      intro rest cm hcm
      refine ⟨⟨pre ++ spaces it.sp0, spaces it.sp1 ++ cvText it.cv ++ spaces it.sp2 ++ rest, ?_, ?_⟩,
        ⟨pre ++ spaces it.sp0 ++ opWritten it.op ++ spaces it.sp1, spaces it.sp2 ++ rest, ?_, ?_⟩,
        ?_, ?_, ?_⟩
      · simp [Item.text]
      · simp [blen_spaces]
      · simp [Item.text]
      · simp [blen_spaces, opAscii]; omega
      · intro o ho
        obtain ⟨h1, r, h2⟩ := hcm o ho
        exact ⟨pre ++ it.text, r, by rw [h2]; simp, by rw [h1]; simp [htext]⟩
      · simp only [opAscii]; omega
      · intro o ho
        obtain ⟨h1, r, h2⟩ := hcm o ho
        simp only
        rw [h1, hcv]
        simp [Item.text, spaces_length]
        omega
    cases its with
    | nil =>
      refine ⟨?_, ?_, ?_, ?_⟩
      · intro c hc
        simp only [comparatorsAt, List.mem_singleton] at hc
        subst hc
        have := base [] none (by simp)
        simpa [itemsText] using this
      · intro c hc
        simp only [comparatorsAt, List.mem_singleton] at hc
        subst hc; simp
      · simp [comparatorsAt]
      · intro c hc
        simp only [comparatorsAt, List.getLast?_singleton, Option.some.injEq] at hc
        subst hc; rfl
    | cons it' its =>
      have e : blen pre + it.text.length + 1 = blen (pre ++ it.text ++ [',']) := by
        have : (',' : Char).utf8Size = 1 := by decide
        simp [htext, this, Nat.add_assoc]
      have ih' := ih (pre ++ it.text ++ [',']) (fun i h => hv i (List.mem_cons_of_mem _ h))
      rw [← e] at ih'
      have et : pre ++ it.text ++ [','] ++ itemsText (it' :: its) =
          pre ++ itemsText (it :: it' :: its) := by simp [itemsText]
      rw [et] at ih'
      obtain ⟨i1, i2, i3, i4⟩ := ih'
      have hne : comparatorsAt (blen pre + it.text.length + 1) (it' :: its) ≠ [] := by
        intro h0
        have := comparatorsAt_length (blen pre + it.text.length + 1) (it' :: its)
        rw [h0] at this; simp at this
      simp only [comparatorsAt]
      refine ⟨?_, ?_, ?_, ?_⟩
      · intro c hc
        rcases List.mem_cons.1 hc with rfl | hc
        · have := base ([','] ++ itemsText (it' :: its)) (some (blen pre + it.text.length))
            (by intro o ho; cases ho; exact ⟨rfl, _, rfl⟩)
          simpa [itemsText] using this
        · exact i1 c hc
      · intro c hc
        rcases List.mem_cons.1 hc with rfl | hc
        · simp
        · have := i2 c hc; omega
      · refine List.pairwise_cons.2 ⟨fun d hd => ⟨_, rfl, ?_⟩, i3⟩
        have := i2 d hd; omega
      · intro c hc
        apply i4
        rwa [List.getLast?_cons_of_ne_nil hne] at hc

/-- C25, except for the overflow defect: in an accepted requirement every stored offset lies in the
text and points at the operator, version or comma recorded; offsets are strictly ordered along the
list; only the last comparator has no comma.  Missing: release builds on texts with
`429496729[6-9]` (`C17_counterexample`). -/
theorem C25_offsets_faithful_partial (ovf : Bool) (text : Str) (pos : Pos) (req : VersionReq)
    (hs : Safe ovf text) (h : parseRequirement ovf text pos = .ok req) :
    req.pos = pos ∧ req.len = blen text ∧
    (∀ c ∈ req.comparators, OffsetsOk text c) ∧
    req.comparators.Pairwise (fun c d => ∃ o, c.comma = some o ∧ o < d.opOffset) ∧
    (∀ c, req.comparators.getLast? = some c → c.comma = none) := by
  obtain ⟨its, hv, rfl, rfl⟩ := parseRequirement_sound text pos req (parseRequirement_safe hs h)
  obtain ⟨h1, -, h3, h4⟩ := comparatorsAt_offsets [] its (fun it h => ascii_cvText (hv.valid it h).cv)
  simp only [blen_nil, List.nil_append] at h1 h3 h4
  refine ⟨rfl, ?_, h1, h3, h4⟩
  exact (ascii_items hv.valid).symm

example : ∃ req, parseRequirement true ">= 1.2 ,<2".toList .ZERO = .ok req ∧
    req.comparators = [⟨0, .ge, 3, .minor 1 2 none, some 7⟩, ⟨8, .lt, 9, .major 2 none, none⟩] :=
  ⟨_, by rfl, by rfl⟩

/-- C25: shifting the start position changes nothing but positions, for every text, outcome and
build; `rebase` moves a position on the line of the text by the same amount. -/
theorem C25_shift_invariance (ovf : Bool) (text : Str) (p p' : Pos) :
    (∀ req, parseRequirement ovf text p = .ok req →
      parseRequirement ovf text p' = .ok { req with pos := p' }) ∧
    (∀ e, parseRequirement ovf text p = .err e →
      parseRequirement ovf text p' = .err (e.move (rebase p p'))) ∧
    (parseRequirement ovf text p = .panic → parseRequirement ovf text p' = .panic) ∧
    (∀ v, parseVersion ovf text p = .ok v → parseVersion ovf text p' = .ok v) ∧
    (∀ e, parseVersion ovf text p = .err e →
      parseVersion ovf text p' = .err (e.move (rebase p p'))) ∧
    (parseVersion ovf text p = .panic → parseVersion ovf text p' = .panic) := by
  have h1 := parseRequirement_sim (p := p) (p' := p') ovf text
  have h2 := parseVersion_sim (p := p) (p' := p') ovf text
  generalize parseRequirement ovf text p = r at *
  generalize parseRequirement ovf text p' = r' at *
  generalize parseVersion ovf text p = s at *
  generalize parseVersion ovf text p' = s' at *
  cases r <;> cases r' <;> simp only [Sim] at h1 <;> cases s <;> cases s' <;>
    simp only [Sim] at h2 <;> simp_all

/-! ## C26: tags -/

/-- C26: every prerelease and build tag in an accepted version is empty (absent) or a SemVer tag:
dot separated non-empty identifiers of ASCII letters, digits and hyphens (every build). -/
theorem C26_version_tags (ovf : Bool) (text : Str) (pos : Pos) (v : Version)
    (h : parseVersion ovf text pos = .ok v) :
    (v.pre = [] ∨ PreTag v.pre) ∧ (v.build = [] ∨ BuildTag v.build) :=
  ⟨(parseVersion_valid ovf text pos v h).pre, (parseVersion_valid ovf text pos v h).build⟩

/-- C26 for the comparators of an accepted requirement. -/
theorem C26_requirement_tags (ovf : Bool) (text : Str) (pos : Pos) (req : VersionReq)
    (h : parseRequirement ovf text pos = .ok req) (c : Comparator) (hc : c ∈ req.comparators) :
    (∀ a b d p m, c.version = .pre a b d p m → PreTag p ∧ ∀ x, m = some x → BuildTag x) ∧
    (∀ a b d m, c.version = .patch a b d m → ∀ x, m = some x → BuildTag x) :=
  ⟨((parseRequirement_ok ovf text pos req h).1 c hc).pre,
    ((parseRequirement_ok ovf text pos req h).1 c hc).patch⟩

/-- The characters of a tag: ASCII letters, digits, hyphens and dots; in particular no NUL. -/
theorem C26_tag_characters (s : Str) (h : PreTag s ∨ BuildTag s) :
    s ≠ [] ∧ ∀ c ∈ s, (isDigit c = true ∨ isAlpha c = true ∨ c = '-' ∨ c = '.') ∧
      c.toNat < 128 ∧ c.toNat ≠ 0 := by
  have key : ∃ f, ∀ x ∈ splitDot s, SegOk f x := h.elim (fun h => ⟨_, (preTag_iff s).1 h⟩)
    (fun h => ⟨_, (buildTag_iff s).1 h⟩)
  obtain ⟨f, hf⟩ := key
  refine ⟨segs_ne_nil hf, fun c hc => ?_⟩
  have := List.all_eq_true.1 (segs_identOrDot hf) c hc
  have hcls : isDigit c = true ∨ isAlpha c = true ∨ c = '-' ∨ c = '.' := by
    simp only [identOrDot, identChar, Bool.or_eq_true, beq_iff_eq] at this
    rcases this with ((h | h) | h) | h <;> simp [h]
  refine ⟨hcls, ?_⟩
  have dv : ∀ a b : Char, (a ≤ b) ↔ a.toNat ≤ b.toNat := by
    intro a b; rw [Char.le_def, UInt32.le_iff_toNat_le]; rfl
  rcases hcls with h | h | h | h
  · simp only [isDigit, Bool.and_eq_true, decide_eq_true_eq, dv] at h
    have e1 : ('0' : Char).toNat = 48 := rfl
    have e2 : ('9' : Char).toNat = 57 := rfl
    omega
  · simp only [isAlpha, Bool.and_eq_true, Bool.or_eq_true, decide_eq_true_eq, dv] at h
    have e1 : ('a' : Char).toNat = 97 := rfl
    have e2 : ('z' : Char).toNat = 122 := rfl
    have e3 : ('A' : Char).toNat = 65 := rfl
    have e4 : ('Z' : Char).toNat = 90 := rfl
    omega
  · subst h; decide
  · subst h; decide

example : PreTag "rc.1".toList := by
  have := (C26_version_tags true "1.2.3-rc.1".toList .ZERO ⟨1, 2, 3, "rc.1".toList, []⟩ (by decide)).1
  exact this.resolve_left (by decide)

end Verif.Props
