import Verif.Semver.Padded
import Verif.Props.SemverParse

/-!
# Properties C16-C20, C24, C25: what the parsers do with numbers that do not fit `u32`, exactly

The claims are false because of the wrapping addition (`C16_counterexample`, ...).  The theorems here say exactly which
texts each build accepts, as what it reads them, what is displayed for them, and for which texts it panics.
-/

namespace Verif.Props
open Verif Verif.Spec Verif.Semver Verif.Spec.Semver

/-! ## C19: the accepted texts, in every build -/

/-- C19, exactly, for every text and build: what `parse_version` accepts and what it reads. -/
theorem C19_version_exact (ovf : Bool) (text : Str) (pos : Pos) (v : Version) :
    parseVersion ovf text pos = .ok v ↔ WideText ovf text v :=
  ⟨parseVersion_soundW ovf text pos v, parseVersion_completeW ovf text pos v⟩

/-- C19, exactly, for every text and build: what `parse_requirement` accepts and what it reads. -/
theorem C19_requirement_exact (ovf : Bool) (text : Str) (pos : Pos) (req : VersionReq) :
    parseRequirement ovf text pos = .ok req ↔ WideReq ovf text pos req :=
  ⟨parseRequirement_soundW ovf text pos req, parseRequirement_completeW ovf text pos req⟩

/-- With overflow checks these are exactly the texts of the grammar. -/
theorem C19_checked_is_grammar (text : Str) (pos : Pos) :
    (∀ v, WideText true text v ↔ VersionText text v) ∧ (∀ req, WideReq true text pos req ↔ ReqText text pos req) :=
  ⟨fun v => (C19_version_exact true text .ZERO v).symm.trans (C19_version_grammar_debug text .ZERO v),
    fun req => (C19_requirement_exact true text pos req).symm.trans
      (C19_requirement_grammar_partial true text pos req (.inl rfl))⟩

example : WideText false " 4294967297.0.7 ".toList ⟨1, 0, 7, [], []⟩ :=
  (C19_version_exact false _ .ZERO _).1 (by decide)

example : WideText false "42949672990.1.7".toList ⟨30, 1, 7, [], []⟩ :=
  (C19_version_exact false _ .ZERO _).1 (by decide)

/-! ## C20: the numbers -/

/-- With overflow checks exactly the numbers that fit `u32` are accepted. -/
theorem C20_accepted_numbers (n : Nat) : Accepted true n ↔ n < 2 ^ 32 := by simp [Accepted]

/-- Every number that fits `u32` is accepted, in every build. -/
theorem C20_fitting_accepted (ovf : Bool) (n : Nat) (h : n < 2 ^ 32) : Accepted ovf n := by
  unfold Accepted
  split
  · exact h
  · intro k
    have h1 : n / 10 ^ (k + 1) ≤ n / 10 := by
      rw [Nat.pow_succ, Nat.mul_comm, ← Nat.div_div_eq_div_mul]
      exact Nat.div_le_self _ _
    rw [Nat.mod_eq_of_lt (by omega)]
    omega

/-- A number beyond `u32` that is accepted in a build without overflow checks has a leading part between `2^32` and
`2^32 + 3`. -/
theorem C20_wrapped_traps (n : Nat) (h : Accepted false n) (hn : 2 ^ 32 ≤ n) : Traps n := by
  have h : ∀ k, n / 10 ^ (k + 1) % 2 ^ 32 * 10 < 2 ^ 32 := by simpa [Accepted] using h
  have key : ∀ m : Nat, ∀ N, N = n / 10 ^ m → 2 ^ 32 ≤ N → ∃ k, m ≤ k ∧ 2 ^ 32 ≤ n / 10 ^ k ∧ n / 10 ^ (k + 1) < 2 ^ 32 := by
    intro m N
    induction N using Nat.strongRecOn generalizing m with
    | ind N ih =>
      intro e hN
      by_cases h' : n / 10 ^ (m + 1) < 2 ^ 32
      · exact ⟨m, Nat.le_refl _, e ▸ hN, h'⟩
      · have hd : n / 10 ^ (m + 1) = N / 10 := by
          rw [e, Nat.div_div_eq_div_mul, ← Nat.pow_succ]
        obtain ⟨k, g1, g2, g3⟩ := ih (n / 10 ^ (m + 1)) (by omega) (m + 1) rfl (by omega)
        exact ⟨k, by omega, g2, g3⟩
  obtain ⟨k, -, g2, g3⟩ := key 0 n (by simp) hn
  have hk := h k
  rw [Nat.mod_eq_of_lt g3] at hk
  have hd : n / 10 ^ (k + 1) = n / 10 ^ k / 10 := by
    rw [Nat.div_div_eq_div_mul, ← Nat.pow_succ]
  exact ⟨k, g2, by omega⟩

/-- C20, exactly: an accepted version has the written numbers modulo `2^32`, for every text and build; with overflow
checks these are the written numbers. -/
theorem C20_modulo (ovf : Bool) (text : Str) (pos : Pos) (v : Version) (h : parseVersion ovf text pos = .ok v) :
    ∃ i j a b c suffix, text = spaces i ++ (decimal a ++ '.' :: decimal b ++ '.' :: decimal c ++ suffix) ++ spaces j ∧
      (suffix = [] ∨ suffix.head? = some '-' ∨ suffix.head? = some '+') ∧
      v.major = a % 2 ^ 32 ∧ v.minor = b % 2 ^ 32 ∧ v.patch = c % 2 ^ 32 ∧
      (∀ n, n = a ∨ n = b ∨ n = c → n < 2 ^ 32 ∨ ovf = false ∧ Traps n) := by
  obtain ⟨w, hw, rfl, i, j, ht⟩ := (C19_version_exact ovf text pos v).1 h
  refine ⟨i, j, w.major, w.minor, w.patch, (if w.pre = [] then [] else ['-'] ++ w.pre) ++
    (if w.build = [] then [] else ['+'] ++ w.build), ?_, ?_, rfl, rfl, rfl, ?_⟩
  · rw [ht, versionText]
    simp only [List.append_assoc, List.cons_append, List.nil_append]
  · by_cases h1 : w.pre = [] <;> by_cases h2 : w.build = [] <;> simp [h1, h2]
  · intro n hn
    have ha : Accepted ovf n := by
      rcases hn with rfl | rfl | rfl
      · exact hw.major
      · exact hw.minor
      · exact hw.patch
    by_cases hl : n < 2 ^ 32
    · exact .inl hl
    · cases ovf with
      | true => exact .inl ((C20_accepted_numbers n).1 ha)
      | false => exact .inr ⟨rfl, C20_wrapped_traps n ha (by omega)⟩

example : Traps 4294967297 ∧ Traps 42949672991 ∧ ¬ Traps 4294967300 := by
  refine ⟨⟨0, by decide, by decide⟩, ⟨1, by decide, by decide⟩, ?_⟩
  rintro ⟨k, h1, h2⟩
  rcases k with - | k
  · simp at h2
  · have : 4294967300 / 10 ^ (k + 1) ≤ 4294967300 / 10 := by
      rw [Nat.pow_succ, Nat.mul_comm, ← Nat.div_div_eq_div_mul]
      exact Nat.div_le_self _ _
    omega

/-! ## C16: display after parsing -/

theorem trim_unique {s T T' : Str} (h : IsTrim s T) (h' : IsTrim s T') (hT : T ≠ []) (hT' : T' ≠ []) : T = T' := by
  have front : ∀ (i i' : Nat) (x y : Str), x.head? ≠ some ' ' → y.head? ≠ some ' ' → x ≠ [] → y ≠ [] →
      spaces i ++ x = spaces i' ++ y → x = y := by
    intro i
    induction i with
    | zero =>
      intro i' x y hx hy nx ny e
      cases i' with
      | zero => simpa [spaces] using e
      | succ i' =>
        refine absurd ?_ hx
        have : x = ' ' :: (spaces i' ++ y) := by simpa [spaces, List.replicate_succ] using e
        rw [this]; rfl
    | succ i ih =>
      intro i' x y hx hy nx ny e
      cases i' with
      | zero =>
        refine absurd ?_ hy
        have : y = ' ' :: (spaces i ++ x) := by simpa [spaces, List.replicate_succ] using e.symm
        rw [this]; rfl
      | succ i' => exact ih i' x y hx hy nx ny (by simpa [spaces, List.replicate_succ] using e)
  obtain ⟨⟨h1, h2⟩, i, j, e⟩ := h
  obtain ⟨⟨h1', h2'⟩, i', j', e'⟩ := h'
  have hh : ∀ (x : Str) (n : Nat), x ≠ [] → x.head? ≠ some ' ' → (x ++ spaces n).head? ≠ some ' ' := by
    intro x n hx hn
    cases x with
    | nil => exact absurd rfl hx
    | cons c cs => simpa using hn
  have e1 := front i i' (T ++ spaces j) (T' ++ spaces j') (hh _ _ hT h1) (hh _ _ hT' h1') (by simp [hT]) (by simp [hT'])
    (by rw [← List.append_assoc, ← List.append_assoc, ← e, ← e'])
  have hr : ∀ n, (spaces n).reverse = spaces n := fun n => by simp [spaces]
  have e2 : spaces j ++ T.reverse = spaces j' ++ T'.reverse := by
    have := congrArg List.reverse e1
    simpa only [List.reverse_append, hr] using this
  have e3 := front j j' T.reverse T'.reverse (by simpa [List.head?_reverse] using h2) (by simpa [List.head?_reverse] using h2')
    (by simpa using hT) (by simpa using hT') e2
  simpa using e3

theorem versionText_ne_nil (w : Version) : versionText w ≠ [] := by
  intro h
  have := congrArg List.length h
  simp [versionText] at this

theorem wide_trimmed {ovf : Bool} {w : Version} (h : WideVersion ovf w) : Trimmed (versionText w) := by
  have hd : ∀ n, ' ' ∉ decimal n := by
    intro n hm
    have := List.all_eq_true.1 (decimal_all n) _ hm
    revert this; decide
  have hseg : ∀ (f : IdentField) (s : Str), (∀ x ∈ splitDot s, SegOk f x) → ' ' ∉ s := by
    intro f s hs hm
    have := List.all_eq_true.1 (segs_identOrDot hs) _ hm
    revert this; decide
  have hp : ' ' ∉ w.pre := by
    rcases h.pre with e | e
    · simp [e]
    · exact hseg _ _ ((preTag_iff _).1 e)
  have hb : ' ' ∉ w.build := by
    rcases h.build with e | e
    · simp [e]
    · exact hseg _ _ ((buildTag_iff _).1 e)
  have hall : ' ' ∉ versionText w := by
    unfold versionText
    simp only [List.mem_append, not_or]
    refine ⟨⟨⟨⟨⟨⟨hd _, by decide⟩, hd _⟩, by decide⟩, hd _⟩, ?_⟩, ?_⟩
    · split
      · simp
      · simpa using hp
    · split
      · simp
      · simpa using hb
  exact ⟨fun e => hall (List.mem_of_head? e), fun e => hall (List.mem_of_getLast? e)⟩

/-- C16, exactly, for every text and build: displaying an accepted version gives the text without its spaces if and only
if the text is one of the grammar of C19, that is, if its numbers fit `u32`. -/
theorem C16_exact (ovf : Bool) (text : Str) (pos : Pos) (v : Version) (h : parseVersion ovf text pos = .ok v) :
    IsTrim text (displayVersion v) ↔ VersionText text v := by
  obtain ⟨w, hw, rfl, i, j, ht⟩ := (C19_version_exact ovf text pos v).1 h
  rw [displayVersion_eq]
  constructor
  · intro hd
    have : versionText w = versionText (wrapVersion w) :=
      trim_unique ⟨wide_trimmed hw, i, j, ht⟩ hd (versionText_ne_nil _) (versionText_ne_nil _)
    refine ⟨parseVersion_valid ovf text pos _ h, i, j, ?_⟩
    rw [ht, this]
  · rintro ⟨hv, i, j, ht⟩
    exact ⟨versionText_trimmed _ hv, i, j, ht⟩

/-! ## C17, C18: display of requirements -/

/-- C17, exactly, for every text and build: the text is a list of items, and displaying what was read gives these items
with their numbers modulo `2^32`, where spaces take the place of lost digits. -/
theorem C17_display_exact (ovf : Bool) (text : Str) (pos : Pos) (req : VersionReq)
    (h : parseRequirement ovf text pos = .ok req) :
    ∃ its, WideItems ovf its ∧ text = itemsText its ∧ displayReq false req = some (itemsText (its.map padded)) := by
  obtain ⟨its, hv, rfl, rfl⟩ := (C19_requirement_exact ovf text pos req).1 h
  refine ⟨its, hv, rfl, ?_⟩
  obtain ⟨its', hv', e1, e2⟩ := wideReq_reqText hv pos
  rw [e2, e1]
  exact fmtRequirement_eq false its' hv'.nonempty hv'.valid pos

/-- C17, exactly: displaying gives the text back if and only if the text is one of the grammar of C19. -/
theorem C17_exact (ovf : Bool) (text : Str) (pos : Pos) (req : VersionReq) (h : parseRequirement ovf text pos = .ok req) :
    displayReq false req = some text ↔ ReqText text pos req := by
  constructor
  · intro hd
    obtain ⟨its, hv, rfl, rfl⟩ := (C19_requirement_exact ovf text pos req).1 h
    obtain ⟨its', hv', e1, e2⟩ := wideReq_reqText hv pos
    have := fmtRequirement_eq false its' hv'.nonempty hv'.valid pos
    rw [← e2, hd, ← e1] at this
    have he : itemsText its = itemsText (its.map padded) := by simpa using this
    have hall := padded_itemsText_eq hv.valid he
    have hm : its.map padded = its := by
      rw [List.map_congr_left (fun it hi => padded_self (hall it hi))]
      simp
    have := wideReq_reqText hv pos
    rw [hm] at this
    exact this
  · rintro ⟨its, hv, rfl, rfl⟩
    exact fmtRequirement_eq false its hv.nonempty hv.valid pos

/-- The other direction of C17, for every text and build: a requirement that was read can be displayed, the text has the
same length, and every build, at any place, reads the same requirement from it. -/
theorem C17_display_parse (ovf ovf' : Bool) (text : Str) (pos pos' : Pos) (req : VersionReq)
    (h : parseRequirement ovf text pos = .ok req) :
    ∃ t, displayReq false req = some t ∧ t.length = text.length ∧
      parseRequirement ovf' t pos' = .ok { req with pos := pos' } := by
  obtain ⟨its, hv, rfl, rfl⟩ := (C19_requirement_exact ovf text pos req).1 h
  have hr := wideReq_reqText hv pos
  refine ⟨_, ?_, padded_itemsText_length its, (C25_shift_invariance ovf' _ pos pos').1 _ (parseRequirement_complete ovf' _ _ _ hr)⟩
  obtain ⟨its', hv', e1, e2⟩ := hr
  rw [e2, e1]
  exact fmtRequirement_eq false its' hv'.nonempty hv'.valid pos

/-- C18, exactly, for every text and build: `{:#}` gives what `{}` gives, without its leading and trailing spaces. -/
theorem C18_alternate_is_trim (ovf : Bool) (text : Str) (pos : Pos) (req : VersionReq)
    (h : parseRequirement ovf text pos = .ok req) :
    ∃ t T, displayReq false req = some t ∧ displayReq true req = some T ∧ IsTrim t T := by
  obtain ⟨t, h1, -, h2⟩ := C17_display_parse ovf true text pos pos req h
  obtain ⟨T, h3, h4⟩ := C18_requirement_alternate_display_partial true t pos _ (.inl rfl) h2
  have he : ({ req with pos := pos } : VersionReq) = req := by
    obtain ⟨its, hv, rfl, rfl⟩ := (C19_requirement_exact ovf text pos req).1 h
    rfl
  rw [he] at h3
  exact ⟨t, T, h1, h3, h4⟩

example : ∃ req, parseRequirement false ">=4294967297.2 ,<2".toList .ZERO = .ok req ∧
    displayReq false req = some ">=1.2          ,<2".toList ∧ displayReq true req = some ">=1.2          ,<2".toList :=
  ⟨_, by rfl, by decide, by decide⟩

/-! ## C24: panics -/

/-- C24, exactly: `parse_version` panics if and only if the build has overflow checks and the text has a number with a
leading part of `2^32`, ..., `2^32 + 3` at the place of the major, minor or patch number (whatever follows). -/
theorem C24_version_panics_iff (ovf : Bool) (text : Str) (pos : Pos) :
    parseVersion ovf text pos = .panic ↔ ovf = true ∧
      ∃ i s n rest, NumbersBefore s ∧ Traps n ∧ NoDigit rest ∧ text = spaces i ++ s ++ decimal n ++ rest := by
  cases ovf with
  | false => simpa using (C24_no_panic_partial false text pos (.inl rfl)).1
  | true => simpa using parseVersion_trap text pos

/-- C24, exactly: `parse_requirement` panics if and only if the build has overflow checks and the text has such a number
at the place of a number of one of its first 32 items, where the items in front are complete and valid. -/
theorem C24_requirement_panics_iff (ovf : Bool) (text : Str) (pos : Pos) :
    parseRequirement ovf text pos = .panic ↔ ovf = true ∧
      ∃ b s n rest, ItemsBefore b ∧ NumbersBefore s ∧ Traps n ∧ NoDigit rest ∧ text = b ++ s ++ decimal n ++ rest := by
  cases ovf with
  | false => simpa using (C24_no_panic_partial false text pos (.inl rfl)).2
  | true => simpa using parseRequirement_trap text pos

example : ∃ b s n rest, ItemsBefore b ∧ NumbersBefore s ∧ Traps n ∧ NoDigit rest ∧
    ">1 , <=2.42949672990ß".toList = b ++ s ++ decimal n ++ rest :=
  ((C24_requirement_panics_iff true _ .ZERO).1 (by decide)).2

/-! ## C25: offsets -/

/-- The offsets of one comparator point at what was read, where `W` is the written version. -/
structure OffsetsOf (text : Str) (c : Comparator) (W : CompVersion) : Prop where
  op : WrittenAt text c.opOffset (opWritten c.op)
  version : WrittenAt text c.versionOffset (cvText W)
  comma : ∀ o, c.comma = some o → WrittenAt text o [',']
  order : c.opOffset + blen (opWritten c.op) ≤ c.versionOffset
  orderComma : ∀ o, c.comma = some o → c.versionOffset + blen (cvText W) ≤ o

/-- C25, exactly, for every text and build: every stored offset points at the operator, version or comma in the text that
was read, the recorded version is the written one with its numbers modulo `2^32`, offsets are strictly ordered along the
list, and only the last comparator has no comma. -/
theorem C25_offsets_exact (ovf : Bool) (text : Str) (pos : Pos) (req : VersionReq)
    (h : parseRequirement ovf text pos = .ok req) :
    req.pos = pos ∧ req.len = blen text ∧
    (∀ c ∈ req.comparators, ∃ W, WideCv ovf W ∧ c.version = wrapCv W ∧ OffsetsOf text c W) ∧
    req.comparators.Pairwise (fun c d => ∃ o, c.comma = some o ∧ o < d.opOffset) ∧
    (∀ c, req.comparators.getLast? = some c → c.comma = none) := by
  obtain ⟨its, hv, rfl, rfl⟩ := (C19_requirement_exact ovf text pos req).1 h
  obtain ⟨h1, -, h3, h4⟩ := comparatorsAt_offsets [] its (fun it h => ascii_cvTextW (hv.valid it h).cv)
  simp only [blen_nil, List.nil_append] at h1 h3 h4
  have hcv : ∀ off, ∀ c ∈ comparatorsAt off its, ∃ it ∈ its, c.version = it.cv := by
    have : ∀ (l : List Item) off, ∀ c ∈ comparatorsAt off l, ∃ it ∈ l, c.version = it.cv := by
      intro l
      induction l with
      | nil => intro off c hc; simp [comparatorsAt] at hc
      | cons it l ih =>
        intro off c hc
        cases l with
        | nil =>
          simp only [comparatorsAt, List.mem_singleton] at hc
          exact ⟨it, by simp, by rw [hc]⟩
        | cons it' l =>
          simp only [comparatorsAt] at hc
          rcases List.mem_cons.1 hc with rfl | hc
          · exact ⟨it, by simp, rfl⟩
          · obtain ⟨x, hx, e⟩ := ih _ c hc
            exact ⟨x, List.mem_cons_of_mem _ hx, e⟩
    exact this its
  refine ⟨rfl, (ascii_itemsW hv.valid).symm, ?_, ?_, ?_⟩
  · intro c hc
    obtain ⟨c0, hc0, rfl⟩ := List.mem_map.1 hc
    obtain ⟨it, hi, e⟩ := hcv 0 c0 hc0
    have ho := h1 c0 hc0
    exact ⟨c0.version, e ▸ (hv.valid it hi).cv, rfl, ⟨ho.op, ho.version, ho.comma, ho.order, ho.orderComma⟩⟩
  · exact List.Pairwise.map wrapComparator (fun _ _ h => h) h3
  · intro c hc
    rw [List.getLast?_map] at hc
    obtain ⟨c0, hc0, rfl⟩ := Option.map_eq_some_iff.1 hc
    exact h4 c0 hc0

end Verif.Props
