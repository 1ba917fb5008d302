import Verif.Spec.CheckParts
import Verif.Ide.Access
import Verif.Props.Check
import Verif.Props.Places
import Verif.Cli.Lemmas

/-! # Property C101: what a dependency keeps can be found in the document -/

namespace Verif.Props
open Verif Verif.Toml Verif.TomlMap Verif.Ide
open Verif.Spec.Toml hiding Entry KeyOk
open Verif.Spec.Check hiding Section SectionKey

variable {input : Str} {ovf : Bool} {root : MapTable} {ds : List Dependency} {ms : List Msg}

theorem nodeOk_get {asts : List Ast} {ar : Option (List Repr)} {t : MapTable} (h : NodeOk asts ar (.table t)) {k : Str}
    {e : TomlMap.Entry} (hg : TomlMap.get t k = some e) : (∀ r ∈ e.reprs, NameOk k r) ∧ KindOk e.node e.reprs ∧
      NodeOk asts (some e.reprs) e.node := by
  cases h with
  | table h1 h2 h3 h4 h5 =>
    have hm := TomlMap.mem_of_get hg
    exact ⟨fun r hr => (h3 _ _ hm r hr).1, h4 _ _ hm, h5 _ _ hm⟩

/-- The name of a representation that is right. -/
theorem name_ident {k : Str} {r : Repr} (h : NameOk k r) :
    ∃ i x, r.key.reprIdent = some i ∧ i.text = k ∧ kindKey r.kind = some x ∧ i.litSpan ∈ keyPlaces x := by
  unfold NameOk at h
  split at h
  · next i hk => exact ⟨i, _, by rw [hk]; rfl, h.2, h.1, by simp [keyPlaces]⟩
  · next idx ids hk =>
    obtain ⟨h1, d, h2, h3⟩ := h
    refine ⟨d.ident, _, by simp [hk, KeyRepr.reprIdent, h2], h3, h1, ?_⟩
    simp only [keyPlaces, List.mem_flatMap]
    exact ⟨d, List.mem_of_getElem? h2, List.mem_cons_self⟩

theorem assigned_at {T : Tokens} {le : List Error} {a : Asts} {ps : PS} {n : Nat} (hl : lex input = some (T, le))
    (h : parseDocument ovf input = .ok a ps)  {ar : Option (List Repr)} {t : MapTable} (hok : NodeOk a.asts ar (.table t))
    (htat : NodeAt (¬ SplitPair T.tokens) input n (.table t))
    {k : Str} {e : TomlMap.Entry} (hg : TomlMap.get t k = some e) {s : Scalar} (hn : e.node = .scalar s)
    (hv : valPlaces (scalarValue s) = [(scalarValue s).span]) {r : Repr} (hr : e.reprs.head? = some r)
    (hp : PartRepr a.asts r) :
    ∃ i sp, r.key.reprIdent = some i ∧ i.text = k ∧ r.span = some sp ∧ AssignedAt input i (scalarValue s) sp := by
  obtain ⟨h1, h2, -⟩ := nodeOk_get hok hg
  have hmem : r ∈ e.reprs := List.mem_of_mem_head? hr
  rw [hn] at h2
  obtain ⟨r', hrs, ⟨has, -⟩, v, hkv, hfv⟩ := h2
  rw [hrs] at hr
  cases hr
  obtain ⟨i, x, hi, hit, hx, hix⟩ := name_ident (h1 r hmem)
  obtain ⟨h3, h4⟩ := htat.get hg
  obtain ⟨⟨i', hi', hia⟩, hka⟩ := h3 r hmem
  rw [hi] at hi'
  cases hi'
  rw [hn] at h4
  have hva : ValueAt input n (scalarValue s) := by cases h4 with | scalar h => exact h
  have hsv : scalarValue s = v := by cases hfv with | scalar h => exact h
  obtain ⟨sp, hsp, x0, y0, rfl, hy, hord⟩ := C76_assignment_spans h hp.1 has
  have hi1 : [i.litSpan].Sublist (keyPlaces x) := List.singleton_sublist.2 hix
  have fin : ∀ eq, CharAt input eq '=' →
      ([i.litSpan, Span.asciiChar eq, (scalarValue s).span]).Sublist (partPlaces true r.kind) →
      ((posOf y0) = (scalarValue s).stop ∨ ∃ c, CharAt input c ',' ∧ (posOf y0) = c.plus 1) →
      ∃ i sp, r.key.reprIdent = some i ∧ i.text = k ∧ r.span = some sp ∧ AssignedAt input i (scalarValue s) sp := by
    intro eq heq hsub hstop
    have ho := hord.sublist hsub
    generalize hL : i.litSpan = L at ho
    have hst : i.litStart = L.start := by rw [← hL]; rfl
    cases ho with
    | cons q1 q2 q3 =>
      rename_i u w
      refine ⟨i, ⟨i.litStart, posOf y0⟩, hi, hit, by simp [Repr.span, hi, hsp], hia, ⟨n, hva⟩, ⟨eq, heq, u, y0, ?_, hy, ?_⟩, rfl, hstop⟩
      · rw [hst]
      · rw [hL]; exact .cons (List.prefix_refl _) q2 q3
  cases hk : r.kind with
  | table t => rw [hk] at has; cases has
  | arrayEntry t => rw [hk] at has; cases has
  | toplevelAssignment b =>
    rw [hk] at hx hkv hka hsp fin
    cases hx
    cases hkv
    refine fin b.assignment.eq hka.eq ?_ (.inl ?_)
    · simp only [partPlaces, assignmentPlaces, ← hsv, hv, List.append_assoc]
      exact hi1.append (List.Sublist.refl _)
    · simp only [ReprKind.span, assignmentSpan] at hsp
      cases hks : keyStart b.assignment.key with
      | none => simp [hks] at hsp
      | some q =>
        simp only [hks, Option.bind_eq_bind, Option.bind_some, Option.pure_def, Option.some.injEq] at hsp
        rw [hsv]
        exact (congrArg Span.stop hsp).symm
  | inlineTableAssignment b =>
    rw [hk] at hx hkv hka hsp fin
    cases hx
    cases hkv
    refine fin b.assignment.eq hka.2.1 ?_ ?_
    · simp only [partPlaces, inlinePlaces, ← hsv, hv, List.append_assoc]
      refine hi1.append (List.Sublist.append (l₁ := [_]) (r₁ := [_]) (List.Sublist.refl _) ?_)
      exact (List.sublist_append_left _ _)
    · simp only [ReprKind.span, inlineAssignmentSpan] at hsp
      cases hks : keyStart b.assignment.key with
      | none => simp [hks] at hsp
      | some q =>
        simp only [hks, Option.bind_eq_bind, Option.bind_some, Option.pure_def, Option.some.injEq] at hsp
        have hst : b.end = posOf y0 := congrArg Span.stop hsp
        rw [← hst, hsv]
        cases hc : b.comma with
        | none => left; simp [InlineTableAssignmentF.end, hc]
        | some c => right; exact ⟨c, hka.2.2.1 c hc, by simp [InlineTableAssignmentF.end, hc]⟩

/-- What is needed about a table of the map. -/
structure TableIn (ovf : Bool) (input : Str) (asts : List Ast) (t : MapTable) : Prop where
  ok : ∃ ar, NodeOk asts ar (.table t)
  at_ : ∃ T le n, lex input = some (T, le) ∧ NodeAt (¬ SplitPair T.tokens) input n (.table t)
  parts : ∀ k e, TomlMap.get t k = some e → ∀ r ∈ e.reprs, PartRepr asts r

theorem tableIn_assigned {a : Asts} {ps : PS} (h : parseDocument ovf input = .ok a ps) {t : MapTable}
    (ht : TableIn ovf input a.asts t) {k : Str} {e : TomlMap.Entry} (hg : TomlMap.get t k = some e) {s : Scalar}
    (hn : e.node = .scalar s) (hv : valPlaces (scalarValue s) = [(scalarValue s).span]) {r : Repr}
    (hr : e.reprs.head? = some r) :
    ∃ i sp, r.key.reprIdent = some i ∧ i.text = k ∧ r.span = some sp ∧ AssignedAt input i (scalarValue s) sp := by
  obtain ⟨⟨ar, hok⟩, ⟨T, le, n, hl, hat⟩, hp⟩ := ht
  exact assigned_at hl h hok hat hg hn hv hr (hp _ _ hg _ (List.mem_of_mem_head? hr))

theorem tableIn_str {a : Asts} {ps : PS} (h : parseDocument ovf input = .ok a ps) {t : MapTable}
    (ht : TableIn ovf input a.asts t) {k : String} {b : StringAssignment} (hb : IsStr t k b) :
    ∃ i sp, b.ident = some i ∧ i.text = k.toList ∧ b.span = some sp ∧ AssignedAt input i (.string b.val) sp := by
  obtain ⟨e, h1, h2, h3⟩ := hb
  exact tableIn_assigned h ht h1 h2 rfl h3

theorem tableIn_flag {a : Asts} {ps : PS} (h : parseDocument ovf input = .ok a ps) {t : MapTable}
    (ht : TableIn ovf input a.asts t) {k : String} {b : BoolAssignment} (hb : Flag t k b) :
    ∃ i sp, b.ident = some i ∧ i.text = k.toList ∧ b.span = some sp ∧ AssignedAt input i (.bool b.litSpan b.val) sp := by
  obtain ⟨e, h1, h2, h3⟩ := hb
  exact tableIn_assigned h ht h1 h2 rfl h3

theorem TableIn.child {asts : List Ast} {t t' : MapTable} {path : List Seg} (hm : MapOk asts root)
    (hl : Cli.Leads root path t) (ht : TableIn ovf input asts t) {k : Str} {e : TomlMap.Entry}
    (hg : TomlMap.get t k = some e) (hn : e.node = .table t') :
    TableIn ovf input asts t' ∧ Cli.Leads root (.table e.reprs :: path) t' := by
  obtain ⟨⟨ar, hok⟩, ⟨T, le, n, hlx, hat⟩, hp⟩ := ht
  have hl' := hl.child hg hn
  refine ⟨⟨⟨_, hn ▸ (nodeOk_get hok hg).2.2⟩, ⟨T, le, n, hlx, hn ▸ (hat.get hg).2⟩, ?_⟩, hl'⟩
  intro k' e' hg' r hr
  exact Cli.reprs_in hm hl' hg' hr

theorem section_tableIn {T : Tokens} {le : List Error} {a : Asts} (hl : lex input = some (T, le))
    (hm : MapOk a.asts root) {n : Nat} (hat : NodeAt (¬ SplitPair T.tokens) input n (.table root))
    {loc : Loc} {path : List Seg} {kind : DependencyKind} {target : Option Str} {name : Str} {e : TomlMap.Entry}
    (hd : DepEntry root loc path kind target name e) :
    ∃ t, TomlMap.get t name = some e ∧ TableIn ovf input a.asts t ∧
      ∀ t', e.node = .table t' → TableIn ovf input a.asts t' := by
  have hroot : TableIn ovf input a.asts root :=
    ⟨⟨_, hm⟩, ⟨T, le, n, hl, hat⟩, fun k e hg r hr => Cli.reprs_in hm Cli.leads_root hg hr⟩
  obtain ⟨⟨ho, hk, hg0⟩, hn, hg⟩ := hd
  have hown : ∀ {l p x u}, Owner root l p x u → TableIn ovf input a.asts u ∧ ∃ q, Cli.Leads root q u := by
    intro l p x u ho
    cases ho with
    | root => exact ⟨hroot, _, Cli.leads_root⟩
    | target h1 h2 h3 h4 =>
      obtain ⟨g1, g2⟩ := hroot.child hm Cli.leads_root h1 h2
      obtain ⟨g3, g4⟩ := g1.child hm g2 h3 h4
      exact ⟨g3, _, g4⟩
  obtain ⟨g1, q, g2⟩ := hown ho
  obtain ⟨g3, g4⟩ := g1.child hm g2 hg0 hn
  exact ⟨_, hg, g3, fun t1 h1 => (g3.child hm g4 hg h1).1⟩

/-! ## C101 -/

/-- C101: each string that a dependency keeps can be found in the document: its `ident` is the name of the key it was assigned to,
which stands in the text, and its `span` is the place of this assignment, from the name of the key to the value or to the comma
behind it. -/
theorem C101_strings (h : MapOfText ovf input root) {ovf' : Bool} (hc : check ovf' root = some (ds, ms)) {d : Dependency}
    (hd : d ∈ ds) {k : Str} {a : StringAssignment} (hk : KeepsStr d k a) :
    ∃ i s, a.ident = some i ∧ i.text = k ∧ a.span = some s ∧ AssignedAt input i (.string a.val) s := by
  obtain ⟨T, le, asts, ps, hl, hp, h1, h2⟩ := mapOfText_ok h
  obtain ⟨l, e1, -, e2⟩ := (C49_check h hc).1
  rw [e1] at hd
  obtain ⟨⟨loc, d'⟩, hm, rfl⟩ := List.mem_map.1 hd
  obtain ⟨⟨path, hde⟩, hdesc⟩ := (e2 _ _).1 hm
  obtain ⟨t0, hg, ht0, htt⟩ := section_tableIn (ovf := ovf) hl h1 h2 hde
  cases hdesc with
  | version g1 g2 g3 g4 g5 g6 g7 =>
    cases hk with
    | package h => rw [g5] at h; cases h
    | git h => rw [g4] at h; cases h
    | branch h => rw [g4] at h; cases h
    | tag h => rw [g4] at h; cases h
    | rev h => rw [g4] at h; cases h
    | path h => rw [g4] at h; cases h
    | registry h => rw [g4] at h; cases h
    | version h h' => rw [g1] at h'; cases h'
    | shorthand h h' =>
      rw [g4] at h
      cases h
      exact tableIn_assigned hp ht0 hg g1 rfl g2
  | table g1 g2 g3 g4 g5 =>
    have ht := htt _ g1
    suffices ∃ k' : String, k'.toList = k ∧ IsStr _ k' a by
      obtain ⟨k', rfl, hi⟩ := this
      exact tableIn_str hp ht hi
    cases hk with
    | package h => exact ⟨_, rfl, (g3 _).1 h⟩
    | git h => rw [h] at g2; cases g2; exact ⟨_, rfl, by assumption⟩
    | branch h => rw [h] at g2; cases g2 with | git _ _ _ _ g => cases g; exact ⟨_, rfl, by assumption⟩
    | tag h => rw [h] at g2; cases g2 with | git _ _ _ _ g => cases g; exact ⟨_, rfl, by assumption⟩
    | rev h => rw [h] at g2; cases g2 with | git _ _ _ _ g => cases g; exact ⟨_, rfl, by assumption⟩
    | path h => rw [h] at g2; cases g2; exact ⟨_, rfl, by assumption⟩
    | registry h =>
      generalize d'.spec = sp at h g2
      cases h <;> cases g2 <;> exact ⟨_, rfl, (‹OptStr _ _ _› _).1 rfl⟩
    | version h h' =>
      generalize d'.spec = sp at h g2
      cases h <;> cases g2
      · exact ⟨_, rfl, (‹OptVersion _ _ _›.1 _ rfl).1⟩
      · exact ⟨_, rfl, (‹OptVersion _ _ _›.1 _ rfl).1⟩
      · exact ⟨_, rfl, by assumption⟩
    | shorthand h h' => rw [g1] at h'; cases h'

/-- C101: and so can each boolean. -/
theorem C101_booleans (h : MapOfText ovf input root) {ovf' : Bool} (hc : check ovf' root = some (ds, ms)) {d : Dependency}
    (hd : d ∈ ds) {k : Str} {a : BoolAssignment} (hk : KeepsBool d k a) :
    ∃ i s, a.ident = some i ∧ i.text = k ∧ a.span = some s ∧ AssignedAt input i (.bool a.litSpan a.val) s := by
  obtain ⟨T, le, asts, ps, hl, hp, h1, h2⟩ := mapOfText_ok h
  obtain ⟨l, e1, -, e2⟩ := (C49_check h hc).1
  rw [e1] at hd
  obtain ⟨⟨loc, d'⟩, hm, rfl⟩ := List.mem_map.1 hd
  obtain ⟨⟨path, hde⟩, hdesc⟩ := (e2 _ _).1 hm
  obtain ⟨t0, hg, ht0, htt⟩ := section_tableIn (ovf := ovf) hl h1 h2 hde
  cases hdesc with
  | version g1 g2 g3 g4 g5 g6 g7 =>
    cases hk with
    | optional h => rw [g6] at h; cases h
    | workspace h => rw [g4] at h; cases h
    | defaultFeatures h => rw [g7] at h; cases h
    | defaultFeaturesOld h => rw [g7] at h; cases h
  | table g1 g2 g3 g4 g5 =>
    have ht := htt _ g1
    suffices ∃ k' : String, k'.toList = k ∧ Flag _ k' a by
      obtain ⟨k', rfl, hi⟩ := this
      exact tableIn_flag hp ht hi
    cases hk with
    | optional h => exact ⟨_, rfl, (g4 _).1 h⟩
    | workspace h => rw [h] at g2; cases g2; exact ⟨_, rfl, by assumption⟩
    | defaultFeatures h hn hh => rw [g1] at hn; cases hn; exact ⟨_, rfl, (g5.default hh _).1 h⟩
    | defaultFeaturesOld h hn hh => rw [g1] at hn; cases hn; exact ⟨_, rfl, (g5.defaultOld hh _).1 h⟩

theorem strings_mem : ∀ {es : List InlineEntry} {s : StringVal}, s ∈ strings es → ∃ e ∈ es, e.node = .scalar (.string s)
  | [], s, h => by cases h
  | e :: es, s, h => by
    unfold strings at h
    split at h
    · next x hx =>
      rcases List.mem_cons.1 h with rfl | h
      · exact ⟨e, List.mem_cons_self, hx⟩
      · obtain ⟨e', h1, h2⟩ := strings_mem h
        exact ⟨e', List.mem_cons_of_mem _ h1, h2⟩
    · obtain ⟨e', h1, h2⟩ := strings_mem h
      exact ⟨e', List.mem_cons_of_mem _ h1, h2⟩

/-- C101: and each feature of a dependency is a string in the text, an element of the array of the key `features`. -/
theorem C101_features (h : MapOfText ovf input root) {ovf' : Bool} (hc : check ovf' root = some (ds, ms)) {d : Dependency}
    (hd : d ∈ ds) {s : StringVal} (hs : s ∈ d.features.list) :
    StringIn input s ∧ ∃ t e n arr es x, d.entry.node = .table t ∧ TomlMap.get t "features".toList = some e ∧
      e.node = .inline n arr es ∧ x ∈ es ∧ x.node = .scalar (.string s) ∧ x.repr ∈ arr.values ∧ x.repr.val = .string s := by
  obtain ⟨T, le, asts, ps, hl, hp, h1, h2⟩ := mapOfText_ok h
  obtain ⟨l, e1, -, e2⟩ := (C49_check h hc).1
  rw [e1] at hd
  obtain ⟨⟨loc, d'⟩, hm, rfl⟩ := List.mem_map.1 hd
  obtain ⟨⟨path, hde⟩, hdesc⟩ := (e2 _ _).1 hm
  obtain ⟨t0, hg, ht0, htt⟩ := section_tableIn (ovf := ovf) hl h1 h2 hde
  cases hdesc with
  | version g1 g2 g3 g4 g5 g6 g7 => rw [g7] at hs; cases hs
  | table g1 g2 g3 g4 g5 =>
    rename_i t
    obtain ⟨⟨ar, hok⟩, ⟨T', le', n, -, hat⟩, -⟩ := htt _ g1
    by_cases hf : ∃ e n a es, TomlMap.get t "features".toList = some e ∧ e.node = .inline n a es
    · obtain ⟨e, n', arr, es, f1, f2⟩ := hf
      rw [g5.list e n' arr es f1 f2] at hs
      obtain ⟨x, hx, hxn⟩ := strings_mem hs
      have hat' := (hat.get f1).2
      rw [f2] at hat'
      have hok' := (nodeOk_get hok f1).2.2
      rw [f2] at hok'
      cases hat' with
      | inline q1 q2 q3 =>
        cases hok' with
        | inline w1 w2 w3 w4 =>
          have q4 := q3 x hx
          rw [hxn] at q4
          have w5 := w3 x hx
          rw [hxn] at w5
          refine ⟨q4.string, t, e, n', arr, es, x, g1, f1, f2, hx, hxn, ?_, ?_⟩
          · rw [← w2]; exact List.mem_map_of_mem hx
          · generalize x.repr.val = v at w5
            cases w5 with
            | scalar w5 => exact w5.symm
    · rw [g5.noList fun e n a es f1 f2 => hf ⟨e, n, a, es, f1, f2⟩] at hs
      cases hs

/-- What the dependencies of a text keep: for each the place of the git repository and of the package. -/
def keptPlaces (x : String) : Option (List (List (Option (Str × Span)))) :=
  (checkText true x).map fun r => r.1.map fun d =>
    (match d.package with
      | some a => [a.ident.bind fun i => a.span.map fun s => (i.text, s)]
      | none => []) ++
    (match d.spec with
      | .git a _ _ => [a.ident.bind fun i => a.span.map fun s => (i.text, s)]
      | .registry v _ => [v.str.ident.bind fun i => v.str.span.map fun s => (i.text, s)]
      | _ => [])

/-- The theorems are about such documents: the first dependency is a table of which a package and a repository are kept (the place
of the first one ends behind the comma), the second one a version. -/
example : keptPlaces "[dependencies]\na = { package = \"p\", git = \"x\" }\nb.version = \"1\"" = some
    [[some ("package".toList, ⟨⟨1, 6⟩, ⟨1, 20⟩⟩), some ("git".toList, ⟨⟨1, 21⟩, ⟨1, 30⟩⟩)],
     [some ("version".toList, ⟨⟨2, 2⟩, ⟨2, 15⟩⟩)]] := by decide +kernel

end Verif.Props
