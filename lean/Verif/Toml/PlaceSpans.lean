import Verif.Toml.Places
import Verif.Spec.PartSpans

/-! # The spans of the parts of a document -/

namespace Verif.Spec.Toml
open Verif Verif.Toml Verif.TomlMap

variable {asts : List Ast} {c : Bool}

/-! ## Parts of parts -/

theorem valPlaces_has {v : Value} {a : InlineTableAssignment} (h : HasAssignment v a) :
    (inlinePlaces a).Sublist (valPlaces v) := by
  have pairs : ∀ (as : List InlineTableAssignment), a ∈ as → (inlinePlaces a).Sublist (pairsPlaces as) := by
    intro as ha
    obtain ⟨l, r, rfl⟩ := List.append_of_mem ha
    rw [pairsPlaces_append]
    obtain ⟨⟨k, p, v⟩, m⟩ := a
    refine List.Sublist.trans ?_ (List.sublist_append_right _ _)
    simp only [pairsPlaces, inlinePlaces]
    exact List.sublist_append_left _ _
  induction h with
  | @here t x hx =>
    obtain ⟨l, as, e⟩ := t
    simp only [valPlaces]
    exact ((pairs as hx).trans (List.sublist_append_left _ [endPlace e])).cons _
  | @elem t y x hy _ ih =>
    obtain ⟨rg, l, vs, e⟩ := t
    simp only at hy
    obtain ⟨l1, l2, rfl⟩ := List.append_of_mem hy
    obtain ⟨r', v, m⟩ := y
    have h1 := ih pairs
    simp only [valPlaces, valsPlaces_append, valsPlaces]
    refine List.Sublist.trans h1 (List.Sublist.cons _ ?_)
    refine List.Sublist.trans ?_ (List.sublist_append_left _ [endPlace e])
    refine List.Sublist.trans ?_ (List.sublist_append_right _ _)
    simp only [List.append_assoc]
    exact (List.sublist_append_left _ _)

theorem flatMap_mem {α β : Type} {l : List α} {a : α} (f : α → List β) (h : a ∈ l) :
    (f a).Sublist (l.flatMap f) := by
  obtain ⟨x, y, rfl⟩ := List.append_of_mem h
  rw [List.flatMap_append, List.flatMap_cons]
  exact (List.sublist_append_left _ _).trans (List.sublist_append_right _ _)

theorem valPlaces_assignment (a : ToplevelAssignment) :
    (valPlaces a.assignment.val).Sublist (assignmentPlaces a) := List.sublist_append_right _ _

theorem valPlaces_inline (a : InlineTableAssignment) :
    (valPlaces a.assignment.val).Sublist (inlinePlaces a) := by
  unfold inlinePlaces
  exact (List.sublist_append_right _ _).trans (List.sublist_append_left _ _)

theorem partPlaces_contains {p k : ReprKind} (h : Contains p k) :
    (partPlaces c k).Sublist (partPlaces c p) := by
  cases p <;> cases k <;> simp only [Contains] at h
  · simp only [partPlaces, astPlaces]
    exact (flatMap_mem _ h).trans (List.sublist_append_right _ _)
  · simp only [partPlaces, astPlaces]
    exact (flatMap_mem _ h).trans (List.sublist_append_right _ _)
  · exact (valPlaces_has h).trans (valPlaces_assignment _)
  · exact (valPlaces_has h).trans (valPlaces_inline _)

theorem partPlaces_part {k : ReprKind} (h : PartOf asts k) :
    (partPlaces c k).Sublist (asts.flatMap (astPlaces c)) := by
  induction h with
  | @top k h =>
    cases k with
    | table t => exact flatMap_mem (astPlaces c) h
    | arrayEntry t => exact flatMap_mem (astPlaces c) h
    | toplevelAssignment a => exact flatMap_mem (astPlaces c) h
    | inlineTableAssignment a => exact h.elim
  | inside _ hc ih => exact (partPlaces_contains hc).trans ih

/-! ## First and last places -/

theorem keyPlaces_head {k : Key} {p : Pos} (h : keyStart k = some p) :
    ∃ s, (keyPlaces k).head? = some s ∧ s.start = p := by
  cases k with
  | one i => cases h; exact ⟨_, rfl, rfl⟩
  | dotted is =>
    cases is with
    | nil => cases h
    | cons d is => cases h; exact ⟨_, rfl, rfl⟩

theorem keyPlaces_last {k : Key} {p : Pos} (h : keyEnd k = some p) :
    ∃ s, (keyPlaces k).getLast? = some s ∧ s.stop = p := by
  cases k with
  | one i => cases h; exact ⟨_, rfl, rfl⟩
  | dotted is =>
    simp only [keyEnd, Option.map_eq_some_iff] at h
    obtain ⟨d, hd, h⟩ := h
    obtain ⟨l, rfl⟩ := List.getLast?_eq_some_iff.1 hd
    simp only [keyPlaces, List.flatMap_append, List.flatMap_cons, List.flatMap_nil, List.append_nil]
    obtain ⟨i, m⟩ := d
    cases m with
    | none => cases h; exact ⟨_, List.getLast?_concat, rfl⟩
    | some q =>
      cases h
      refine ⟨Span.asciiChar q, ?_, rfl⟩
      rw [show l.flatMap (fun d => d.ident.litSpan :: optPlace d.dot) ++ i.litSpan :: optPlace (some q) =
        l.flatMap (fun d => d.ident.litSpan :: optPlace d.dot) ++ [i.litSpan] ++ [Span.asciiChar q] by
        simp [optPlace]]
      exact List.getLast?_concat

theorem valPlaces_last (v : Value) : ∃ s, (valPlaces v).getLast? = some s ∧ s.stop = v.stop := by
  cases v with
  | inlineTable t =>
    obtain ⟨l, as, e⟩ := t
    refine ⟨endPlace e, by simp only [valPlaces]; exact List.getLast?_concat, ?_⟩
    cases e <;> rfl
  | inlineArray t =>
    obtain ⟨rg, l, as, e⟩ := t
    refine ⟨endPlace e, by simp only [valPlaces]; exact List.getLast?_concat, ?_⟩
    cases e <;> rfl
  | _ => exact ⟨_, rfl, rfl⟩

theorem last_append {α : Type} {a b : List α} {x : α} (h : b.getLast? = some x) :
    (a ++ b).getLast? = some x := by
  obtain ⟨l, rfl⟩ := List.getLast?_eq_some_iff.1 h
  rw [← List.append_assoc]
  exact List.getLast?_concat

theorem head_append {α : Type} {a b : List α} {x : α} (h : a.head? = some x) :
    (a ++ b).head? = some x := by
  cases a with
  | nil => cases h
  | cons y a => exact h

theorem keyStart_some {k : Key} (h : KeyOk k) : ∃ p, keyStart k = some p := by
  cases k with
  | one i => exact ⟨_, rfl⟩
  | dotted is =>
    cases is with
    | nil => simp [KeyOk, Key.idents] at h
    | cons d is => exact ⟨_, rfl⟩

theorem keyEnd_some {k : Key} (h : KeyOk k) : ∃ p, keyEnd k = some p := by
  cases k with
  | one i => exact ⟨_, rfl⟩
  | dotted is =>
    have : is ≠ [] := by rintro rfl; simp [KeyOk, Key.idents] at h
    cases hl : is.getLast? with
    | none => exact absurd (List.getLast?_eq_none_iff.1 hl) this
    | some d => simp only [keyEnd, hl, Option.map_some]; exact ⟨_, rfl⟩

theorem assignment_ends (a : ToplevelAssignment) (h : KeyOk a.assignment.key) :
    ∃ s t, (assignmentPlaces a).head? = some s ∧ (assignmentPlaces a).getLast? = some t ∧
      assignmentSpan a.assignment = some ⟨s.start, t.stop⟩ := by
  obtain ⟨p, hp⟩ := keyStart_some h
  obtain ⟨s, hs, rfl⟩ := keyPlaces_head hp
  obtain ⟨t, ht, ht'⟩ := valPlaces_last a.assignment.val
  refine ⟨s, t, ?_, last_append ht, ?_⟩
  · unfold assignmentPlaces
    exact head_append (head_append hs)
  · simp only [assignmentSpan, hp, Option.bind_eq_bind, Option.bind_some, Option.pure_def, ht']

theorem inline_ends (a : InlineTableAssignment) (h : KeyOk a.assignment.key) :
    ∃ s t, (inlinePlaces a).head? = some s ∧ (inlinePlaces a).getLast? = some t ∧
      inlineAssignmentSpan a = some ⟨s.start, t.stop⟩ := by
  obtain ⟨p, hp⟩ := keyStart_some h
  obtain ⟨s, hs, rfl⟩ := keyPlaces_head hp
  obtain ⟨t, ht, ht'⟩ := valPlaces_last a.assignment.val
  have hd : ∀ l, ((keyPlaces a.assignment.key ++ [Span.asciiChar a.assignment.eq] ++
      valPlaces a.assignment.val ++ l).head? = some s) :=
    fun l => head_append (head_append (head_append hs))
  cases hc : a.comma with
  | none =>
    refine ⟨s, t, hd _, ?_, ?_⟩
    · unfold inlinePlaces
      rw [hc]
      simp only [optPlace, List.append_nil]
      exact last_append ht
    · simp only [inlineAssignmentSpan, hp, Option.bind_eq_bind, Option.bind_some, Option.pure_def,
        InlineTableAssignmentF.end, hc, ht']
  | some q =>
    refine ⟨s, Span.asciiChar q, hd _, ?_, ?_⟩
    · unfold inlinePlaces
      rw [hc]
      exact last_append rfl
    · simp only [inlineAssignmentSpan, hp, Option.bind_eq_bind, Option.bind_some, Option.pure_def,
        InlineTableAssignmentF.end, hc]
      rfl

theorem lastAssignment {as : List ToplevelAssignment} {a : ToplevelAssignment}
    (h : as.getLast? = some a) : ∃ t, (as.flatMap assignmentPlaces).getLast? = some t ∧
      t.stop = a.assignment.val.stop := by
  obtain ⟨l, rfl⟩ := List.getLast?_eq_some_iff.1 h
  obtain ⟨t, ht, ht'⟩ := valPlaces_last a.assignment.val
  refine ⟨t, ?_, ht'⟩
  rw [List.flatMap_append, List.flatMap_cons, List.flatMap_nil, List.append_nil]
  exact last_append (last_append ht)

theorem headKey_last {k : Key} (h : KeyOk k) : ∃ p s, keyEnd k = some p ∧
    (headKeyPlaces (some k)).getLast? = some s ∧ s.stop = p := by
  obtain ⟨p, hp⟩ := keyEnd_some h
  obtain ⟨s, h1, h2⟩ := keyPlaces_last hp
  exact ⟨p, s, hp, h1, h2⟩

theorem table_ends (t : Table) (h : ∀ k, t.header.key = some k → KeyOk k) :
    ∃ s u, (astPlaces true (.table t)).head? = some s ∧ (astPlaces true (.table t)).getLast? = some u ∧
      tableSpan t = some ⟨s.start, u.stop⟩ := by
  refine ⟨Span.asciiChar t.header.lPar, ?_⟩
  have key : ∀ u, (astPlaces true (.table t)).getLast? = some u →
      tableSpan t = some ⟨t.header.lPar, u.stop⟩ → ∃ u, (astPlaces true (.table t)).head? =
        some (Span.asciiChar t.header.lPar) ∧ (astPlaces true (.table t)).getLast? = some u ∧
        tableSpan t = some ⟨(Span.asciiChar t.header.lPar).start, u.stop⟩ :=
    fun u h1 h2 => ⟨u, rfl, h1, h2⟩
  cases ha : t.assignments.getLast? with
  | some a =>
    obtain ⟨u, h1, h2⟩ := lastAssignment ha
    refine key u (last_append h1) ?_
    simp only [tableSpan, ha, Option.bind_eq_bind, Option.bind_some, Option.pure_def, h2]
  | none =>
    have hnil := List.getLast?_eq_none_iff.1 ha
    cases hr : t.header.rPar with
    | some q =>
      refine key (Span.asciiChar q) ?_ ?_
      · simp only [astPlaces, hnil, List.flatMap_nil, List.append_nil, if_true, hr]
        exact last_append rfl
      · simp only [tableSpan, ha, tableHeaderEnd, hr, Option.bind_eq_bind, Option.bind_some, Option.pure_def]
        rfl
    | none =>
      cases hk : t.header.key with
      | some k =>
        obtain ⟨p, s, e1, e2, e3⟩ := headKey_last (h k hk)
        refine key s ?_ ?_
        · simp only [astPlaces, hnil, List.flatMap_nil, List.append_nil, if_true, hr, optPlace, hk]
          exact last_append e2
        · simp only [tableSpan, ha, tableHeaderEnd, hr, hk, e1, Option.bind_eq_bind, Option.bind_some,
            Option.pure_def, e3]
      | none =>
        refine key (Span.asciiChar t.header.lPar) ?_ ?_
        · simp only [astPlaces, hnil, List.flatMap_nil, List.append_nil, if_true, hr, optPlace, hk]
          rfl
        · simp only [tableSpan, ha, tableHeaderEnd, hr, hk, Option.bind_eq_bind, Option.bind_some,
            Option.pure_def]
          rfl

theorem array_ends (t : ArrayEntry) (h : ∀ k, t.header.key = some k → KeyOk k) :
    ∃ s u, (astPlaces true (.array t)).head? = some s ∧ (astPlaces true (.array t)).getLast? = some u ∧
      arrayEntrySpan t = some ⟨s.start, u.stop⟩ := by
  refine ⟨Span.asciiChar t.header.lPars.1, ?_⟩
  have key : ∀ u, (astPlaces true (.array t)).getLast? = some u →
      arrayEntrySpan t = some ⟨t.header.lPars.1, u.stop⟩ → ∃ u, (astPlaces true (.array t)).head? =
        some (Span.asciiChar t.header.lPars.1) ∧ (astPlaces true (.array t)).getLast? = some u ∧
        arrayEntrySpan t = some ⟨(Span.asciiChar t.header.lPars.1).start, u.stop⟩ :=
    fun u h1 h2 => ⟨u, rfl, h1, h2⟩
  cases ha : t.assignments.getLast? with
  | some a =>
    obtain ⟨u, h1, h2⟩ := lastAssignment ha
    refine key u (last_append h1) ?_
    simp only [arrayEntrySpan, ha, Option.bind_eq_bind, Option.bind_some, Option.pure_def, h2]
  | none =>
    have hnil := List.getLast?_eq_none_iff.1 ha
    cases hr2 : t.header.rPars.2 with
    | some q =>
      refine key (Span.asciiChar q) ?_ ?_
      · simp only [astPlaces, hnil, List.flatMap_nil, List.append_nil, if_true, hr2]
        exact last_append (last_append rfl)
      · simp only [arrayEntrySpan, ha, arrayHeaderEnd, hr2, Option.bind_eq_bind, Option.bind_some,
          Option.pure_def]
        rfl
    | none =>
      cases hr1 : t.header.rPars.1 with
      | some q =>
        refine key (Span.asciiChar q) ?_ ?_
        · simp only [astPlaces, hnil, List.flatMap_nil, List.append_nil, if_true, hr2, hr1, optPlace]
          exact last_append rfl
        · simp only [arrayEntrySpan, ha, arrayHeaderEnd, hr2, hr1, Option.or, Option.bind_eq_bind,
            Option.bind_some, Option.pure_def]
          rfl
      | none =>
        cases hk : t.header.key with
        | some k =>
          obtain ⟨p, s, e1, e2, e3⟩ := headKey_last (h k hk)
          refine key s ?_ ?_
          · simp only [astPlaces, hnil, List.flatMap_nil, List.append_nil, if_true, hr2, hr1, optPlace, hk]
            exact last_append e2
          · simp only [arrayEntrySpan, ha, arrayHeaderEnd, hr2, hr1, Option.or, hk, e1, Option.bind_eq_bind,
              Option.bind_some, Option.pure_def, e3]
        | none =>
          refine key (Span.asciiChar t.header.lPars.2) ?_ ?_
          · simp only [astPlaces, hnil, List.flatMap_nil, List.append_nil, if_true, hr2, hr1, optPlace, hk]
            rfl
          · simp only [arrayEntrySpan, ha, arrayHeaderEnd, hr2, hr1, Option.or, hk, Option.bind_eq_bind,
              Option.bind_some, Option.pure_def]
            rfl

theorem part_ends {k : ReprKind} (h : ∀ x, kindKey k = some x → KeyOk x) :
    ∃ s t, (partPlaces true k).head? = some s ∧ (partPlaces true k).getLast? = some t ∧
      k.span = some ⟨s.start, t.stop⟩ := by
  cases k with
  | table t => exact table_ends t h
  | arrayEntry t => exact array_ends t h
  | toplevelAssignment a => exact assignment_ends a (h _ rfl)
  | inlineTableAssignment a => exact inline_ends a (h _ rfl)

/-! ## Enclosing -/

theorem InOrder.covers {input a b : Str} {l : List Span} {s t : Span} (h : InOrder a l b)
    (hb : b <+: input) (h1 : l.head? = some s) (h2 : l.getLast? = some t) :
    SpanOfPlaces input ⟨s.start, t.stop⟩ l := by
  cases h with
  | nil h => cases h1
  | @cons _ x y l _ e1 e2 e3 =>
    cases h1
    suffices ∃ z, t.stop = posOf z ∧ z <+: b ∧ InOrder x (⟨posOf x, posOf y⟩ :: l) z by
      obtain ⟨z, z1, z2, z3⟩ := this
      exact ⟨x, z, by rw [z1], z2.trans hb, z3⟩
    have hx : InOrder x (⟨posOf x, posOf y⟩ :: l) b := .cons (List.prefix_refl _) e2 e3
    obtain ⟨m, hm⟩ := List.getLast?_eq_some_iff.1 h2
    rw [hm] at hx ⊢
    obtain ⟨c, f1, f2⟩ := hx.split
    cases f2 with
    | @cons _ u v _ _ g1 g2 g3 =>
      exact ⟨v, rfl, g3.prefix, f1.append (.one g1 g2 (List.prefix_refl _))⟩

/-- The keys of the parts of a good tree have names. -/
theorem part_key (ha : ∀ x ∈ asts, AstOk x) {k : ReprKind} (h : PartOf asts k) :
    (∀ x, kindKey k = some x → KeyOk x) ∧ (∀ v, kindVal k = some v → ValOk v) ∧
      (∀ t, k = .table t → ∀ a ∈ t.assignments, AssignOk a) ∧
      ∀ t, k = .arrayEntry t → ∀ a ∈ t.assignments, AssignOk a := by
  have hpairs : ∀ (as : List InlineTableAssignment), PairsOk as → ∀ a ∈ as,
      KeyOk a.assignment.key ∧ ValOk a.assignment.val := by
    intro as h
    induction as with
    | nil => simp
    | cons x as ih =>
      obtain ⟨⟨k, p, v⟩, c⟩ := x
      simp only [PairsOk] at h
      intro a hm
      rcases List.mem_cons.1 hm with rfl | hm
      · exact ⟨h.1, h.2.1⟩
      · exact ih h.2.2 a hm
  have hvals : ∀ (vs : List InlineArrayValue), ValsOk vs → ∀ a ∈ vs, ValOk a.val := by
    intro vs h
    induction vs with
    | nil => simp
    | cons x vs ih =>
      obtain ⟨r, v, c⟩ := x
      simp only [ValsOk] at h
      intro a hm
      rcases List.mem_cons.1 hm with rfl | hm
      · exact h.1
      · exact ih h.2 a hm
  have hhas : ∀ {v : Value} {a : InlineTableAssignment}, HasAssignment v a → ValOk v →
      KeyOk a.assignment.key ∧ ValOk a.assignment.val := by
    intro v a hh
    induction hh with
    | @here t x hx =>
      intro hv
      obtain ⟨l, as, e⟩ := t
      simp only [ValOk] at hv
      exact hpairs as hv x hx
    | @elem t y x hy _ ih =>
      intro hv
      obtain ⟨r, l, vs, e⟩ := t
      simp only [ValOk] at hv
      exact ih (hvals vs hv y hy)
  induction h with
  | @top k h =>
    cases k with
    | table t =>
      have := ha _ h
      exact ⟨this.1, by simp [kindVal], by rintro _ h; cases h; exact this.2, by simp⟩
    | arrayEntry t =>
      have := ha _ h
      exact ⟨this.1, by simp [kindVal], by simp, by rintro _ h; cases h; exact this.2⟩
    | toplevelAssignment a =>
      have := ha _ h
      exact ⟨by rintro _ h; cases h; exact this.1, by rintro _ h; cases h; exact this.2, by simp, by simp⟩
    | inlineTableAssignment a => exact h.elim
  | @inside p k _ hc ih =>
    obtain ⟨i1, i2, i3, i4⟩ := ih
    have top : ∀ (a : ToplevelAssignment), AssignOk a → k = .toplevelAssignment a →
        (∀ x, kindKey k = some x → KeyOk x) ∧ (∀ v, kindVal k = some v → ValOk v) ∧
        (∀ t, k = .table t → ∀ a ∈ t.assignments, AssignOk a) ∧
        ∀ t, k = .arrayEntry t → ∀ a ∈ t.assignments, AssignOk a := by
      rintro a ha rfl
      exact ⟨by rintro _ h; cases h; exact ha.1, by rintro _ h; cases h; exact ha.2, by simp, by simp⟩
    have inl : ∀ (a : InlineTableAssignment) (v : Value), HasAssignment v a → ValOk v →
        k = .inlineTableAssignment a →
        (∀ x, kindKey k = some x → KeyOk x) ∧ (∀ v, kindVal k = some v → ValOk v) ∧
        (∀ t, k = .table t → ∀ a ∈ t.assignments, AssignOk a) ∧
        ∀ t, k = .arrayEntry t → ∀ a ∈ t.assignments, AssignOk a := by
      rintro a v h1 h2 rfl
      have := hhas h1 h2
      exact ⟨by rintro _ h; cases h; exact this.1, by rintro _ h; cases h; exact this.2, by simp, by simp⟩
    cases p <;> cases k <;> simp only [Contains] at hc
    · exact top _ (i3 _ rfl _ hc) rfl
    · exact top _ (i4 _ rfl _ hc) rfl
    · exact inl _ _ hc (i2 _ rfl) rfl
    · exact inl _ _ hc (i2 _ rfl) rfl

/-- The span of a part of a document. -/
theorem part_span {input : Str} (ha : ∀ x ∈ asts, AstOk x)
    (hr : InOrder [] (asts.flatMap (astPlaces true)) input) {k : ReprKind} (h : PartOf asts k) :
    ∃ s, k.span = some s ∧ SpanOfPlaces input s (partPlaces true k) := by
  obtain ⟨s, t, h1, h2, h3⟩ := part_ends (part_key ha h).1
  exact ⟨_, h3, (hr.sublist (partPlaces_part h)).covers (List.prefix_refl _) h1 h2⟩

/-- The span of an assignment. -/
theorem assign_span {input : Str} (ha : ∀ x ∈ asts, AstOk x)
    (hr : InOrder [] (asts.flatMap (astPlaces false)) input) {k : ReprKind} (h : PartOf asts k)
    (hk : k.isAssignment = true) : ∃ s, k.span = some s ∧ SpanOfPlaces input s (partPlaces true k) := by
  obtain ⟨s, t, h1, h2, h3⟩ := part_ends (part_key ha h).1
  refine ⟨_, h3, (hr.sublist ?_).covers (List.prefix_refl _) h1 h2⟩
  have : partPlaces true k = partPlaces false k := by cases k <;> first | rfl | cases hk
  rw [this]
  exact partPlaces_part h

end Verif.Spec.Toml
