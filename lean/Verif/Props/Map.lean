import Verif.Props.Grammar
import Verif.Toml.ParseOk
import Verif.Toml.MapPlace
import Verif.Toml.MapErrTop

/-! # Properties C45 to C48 and C73: the map of a document

What a document defines is in `Spec/Map.lean` (`docDefs`, `Consistent`, `Says`), where the entries of a
map come from in `Spec/MapRepr.lean` (`MapOk`), what a later part may change in `Spec/MapGrow.lean`
(`Later`, `Refused`), and what a diagnostic says in `Spec/MapErrors.lean` (`MapError`). -/

namespace Verif.Props
open Verif Verif.Toml Verif.Spec.Toml Verif.TomlMap

variable {input : Str} {ovf : Bool} {asts : List Ast} {t : MapTable} {es : List Error}

/-! ## C45 -/

/-- C45: the map of a document without contradictions contains at each location exactly what the
document says: nothing is lost, and nothing is added. -/
theorem C45_map (hf : RootFirst asts) (h : map asts = some (t, [])) {p : Loc} (hp : p ≠ []) (s : Shape) :
    shapeAt t p = some s ↔ Says (docDefs (asts.flatMap astItems)) p s := by
  obtain ⟨h1, h2⟩ := map_good hf h
  have hc := h1.1 rfl
  exact repT_says (h2 hc) hc hp s

/-- C45: the value of each assignment is found at its key, in the table that it belongs to. -/
theorem C45_value (hf : RootFirst asts) (h : map asts = some (t, [])) {a b : List Item} {k : List Str}
    {v : TVal} {p : Loc} (hi : asts.flatMap astItems = a ++ .keyVal k v :: b) (hk : k ≠ [])
    (hs : sectionAt a = some p) : shapeAt t (p ++ k.map .key) = some (valShape v) := by
  refine (C45_map hf h ?_ _).2 (.value ?_)
  · simp [hk]
  · rw [hi]
    exact mem_keyVal hs

/-- C45: the same for the text of a document, which is read without diagnostics. -/
theorem C45_text {vs : List (View × Pos)} {items : List Item} (h1 : Tokenized [] input vs)
    (h2 : Doc false vs items) (hc : Consistent (docDefs items)) (ovf : Bool) :
    ∃ a s t, parseDocument ovf input = .ok a s ∧ s.errors = [] ∧ map a.asts = some (t, []) ∧
      ∀ p, p ≠ [] → ∀ sh, shapeAt t p = some sh ↔ Says (docDefs items) p sh := by
  obtain ⟨a, s, h3, h4, rfl, h6⟩ := C72_items h1 h2 ovf
  obtain ⟨t, es, hm, -⟩ := map_ok a.asts (Tree.parse_tree h3).2
  obtain rfl := (map_good h6 hm).1.2 hc
  exact ⟨a, s, t, h3, h4, hm, fun p hp sh => C45_map h6 hm hp sh⟩

/-! ## C46 -/

/-- C46: there is a diagnostic exactly if the document defines a location in two ways that are not
compatible. -/
theorem C46_reported (hf : RootFirst asts) (h : map asts = some (t, es)) :
    es = [] ↔ Consistent (docDefs (asts.flatMap astItems)) := (map_good hf h).1

/-- C46: the same for the text of a document. -/
theorem C46_text {vs : List (View × Pos)} {items : List Item} (h1 : Tokenized [] input vs)
    (h2 : Doc false vs items) (ovf : Bool) :
    ∃ a s t es, parseDocument ovf input = .ok a s ∧ s.errors = [] ∧ map a.asts = some (t, es) ∧
      (es = [] ↔ Consistent (docDefs items)) := by
  obtain ⟨a, s, h3, h4, rfl, h6⟩ := C72_items h1 h2 ovf
  obtain ⟨t, es, hm, -⟩ := map_ok a.asts (Tree.parse_tree h3).2
  exact ⟨a, s, t, es, h3, h4, hm, C46_reported h6 hm⟩

/-- C46: a later part of a document keeps everything that the earlier part has defined, also if it is
contradictory: entries remain, with their representations, and assigned values do not change. -/
theorem C46_first_wins {a b : List Ast} (hok : ∀ x ∈ a ++ b, AstOk x) {t' : MapTable} {es' : List Error}
    (h : map (a ++ b) = some (t', es')) :
    ∃ t es, map a = some (t, es) ∧ es <+: es' ∧ Later t t' := by
  obtain ⟨t, e1, e2, h1, h2, rfl⟩ := map_prefix h
  obtain ⟨t1, e, hm, hok⟩ := map_ok a fun x hx => hok x (List.mem_append_left _ hx)
  rw [h1] at hm
  cases hm
  exact ⟨t, e1, h1, List.prefix_append _ _, later_of_gr hok (mapAsts_gr b t t' e2 h2)⟩

/-- C46: the same for the assignments of a section. -/
theorem C46_first_wins_section {a b : List ToplevelAssignment} {path : List Seg} {parent : Nat}
    {t0 t' : MapTable} {es' : List Error}
    (h : insertTopLevelAssignments (a ++ b) path parent t0 = some (t', es')) :
    ∃ t es, insertTopLevelAssignments a path parent t0 = some (t, es) ∧ es <+: es' ∧ Kept t t' := by
  rw [insertTop_append] at h
  obtain ⟨t, e1, e2, h1, h2, rfl⟩ := bind_some.1 h
  exact ⟨t, e1, h1, List.prefix_append _ _, kept_of_gr (insertTop_gr b path parent t t' e2 h2)⟩

/-- C46: the same for the assignments of an inline table. -/
theorem C46_first_wins_inline {a b : List InlineTableAssignment} {path : List Seg} {parent : Nat}
    {t0 t' : MapTable} {es' : List Error}
    (h : mapAssignments (a ++ b) path parent t0 = some (t', es')) :
    ∃ t es, mapAssignments a path parent t0 = some (t, es) ∧ es <+: es' ∧ Kept t t' := by
  rw [mapAssignments_append] at h
  obtain ⟨t, e1, e2, h1, h2, rfl⟩ := bind_some.1 h
  exact ⟨t, e1, h1, List.prefix_append _ _, kept_of_gr (mapAssignments_gr b path parent t t' e2 h2)⟩

/-- C46: assigning to a key that is occupied, or that goes through a closed entry, gives one diagnostic
and changes nothing, whatever mistakes the document has before. -/
theorem C46_assignment {root : MapTable} {a : ToplevelAssignment}
    (h : mapAst root (.assignment a) = some (t, es))
    (hr : Refused true (fun _ _ => True) root (keyNames a.assignment.key)) :
    (∃ e, es = [e]) ∧ SameContent root t :=
  insertNodeAtPath_refuses (v := .value (mapValue a.assignment.val)) (kind := .toplevelAssignment a) hr t es h

/-- C46: the same for the assignments of a section; the others are not affected. -/
theorem C46_assignment_section {a : ToplevelAssignment} {as : List ToplevelAssignment} {path : List Seg}
    {parent : Nat} {t0 : MapTable} (h : insertTopLevelAssignments (a :: as) path parent t0 = some (t, es))
    (hr : Refused true (fun _ _ => True) t0 (keyNames a.assignment.key)) :
    ∃ e es' t1, es = e :: es' ∧ SameContent t0 t1 ∧
      insertTopLevelAssignments as path parent t1 = some (t, es') := by
  unfold insertTopLevelAssignments at h
  obtain ⟨t1, e1, e2, h1, h2, rfl⟩ := bind_some.1 h
  obtain ⟨⟨e, rfl⟩, hs⟩ := insertNodeAtPath_refuses (v := .value (mapValue a.assignment.val))
    (kind := .toplevelAssignment a) hr t1 e1 h1
  exact ⟨e, e2, t1, rfl, hs, h2⟩

/-- C46: the same for the assignments of an inline table. -/
theorem C46_assignment_inline {a : InlineTableAssignment} {as : List InlineTableAssignment}
    {path : List Seg} {parent : Nat} {t0 : MapTable}
    (h : mapAssignments (a :: as) path parent t0 = some (t, es))
    (hr : Refused true (fun _ _ => True) t0 (keyNames a.assignment.key)) :
    ∃ e es' t1, es = e :: es' ∧ SameContent t0 t1 ∧ mapAssignments as path parent t1 = some (t, es') := by
  obtain ⟨⟨k, q, v⟩, m⟩ := a
  unfold mapAssignments at h
  obtain ⟨t1, e1, e2, h1, h2, rfl⟩ := bind_some.1 h
  obtain ⟨⟨e, rfl⟩, hs⟩ := insertNodeAtPath_refuses (v := .value fun path parent => mapValue v path parent)
    (kind := .inlineTableAssignment ⟨⟨k, q, v⟩, m⟩) hr t1 e1 h1
  exact ⟨e, e2, t1, rfl, hs, h2⟩

/-- C46: the header of a table that has a header, a value or dotted keys, or that goes through an
assigned value, gives one diagnostic, and its assignments change nothing. -/
theorem C46_header {root : MapTable} {tb : Table} {k : Key} (hk : tb.header.key = some k)
    (h : mapAst root (.table tb) = some (t, es))
    (hr : Refused false ClosedTable root (keyNames k)) : (∃ e, es = [e]) ∧ SameContent root t := by
  unfold mapAst at h
  simp only [hk] at h
  exact insertNodeAtPath_refuses (v := .tableAssignments (insertTopLevelAssignments tb.assignments))
    (kind := .table tb) hr t es h

/-- C46: `[[x]]` for something else than an array of tables gives one diagnostic and changes nothing. -/
theorem C46_array_header {root : MapTable} {tb : ArrayEntry} {k : Key} (hk : tb.header.key = some k)
    (h : mapAst root (.array tb) = some (t, es))
    (hr : Refused false (fun n _ => ∀ es, n ≠ .toplevel es) root (keyNames k)) :
    (∃ e, es = [e]) ∧ SameContent root t := by
  unfold mapAst at h
  simp only [hk] at h
  exact insertArrayEntryAtPath_refuses hr t es h

/-! ## C47 -/

/-- C47: mapping the tree of any text, also of one with mistakes, does not panic, and all
representations and references in the map are right. -/
theorem C47_map {a : Asts} {s : PS} (h : parseDocument ovf input = .ok a s) :
    ∃ t es, map a.asts = some (t, es) ∧ MapOk a.asts t := map_ok a.asts (Tree.parse_tree h).2

/-- C47: the same for any tree with a name in each key. -/
theorem C47_tree (h : ∀ x ∈ asts, AstOk x) : ∃ t es, map asts = some (t, es) ∧ MapOk asts t :=
  map_ok asts h

/-- C47: for each entry of such a map the lines of its context and its path can be determined: no lookup
of a parent or of a name is out of bounds. -/
theorem C47_lookup (h : MapOk asts t) {p : Loc} {segs : List Seg} {e : TomlMap.Entry}
    (hp : pathTo (.table t) [] p = some (segs, e)) :
    (∃ ls, contextLines segs (e.reprs.map (·.parent)) = some ls) ∧
    (∃ x, fmtPath (.table e.reprs :: segs) = some x) ∧
    ∀ r ∈ e.reprs, (∃ i, r.key.reprIdent = some i ∧ ∃ x, joinedPath segs i = some x) ∧
      ∃ ls, contextLines segs [r.parent] = some ls := by
  obtain ⟨h1, k, h2⟩ := map_path h hp
  have hin : ∀ r ∈ e.reprs, InRange segs r.parent := by
    intro r hr
    exact (h2.2.1 r hr).inRange
  have hid : ∀ r ∈ e.reprs, r.key.reprIdent ≠ none := by
    intro r hr
    have := (h2.2.1 r hr).1
    unfold NameOk at this
    unfold KeyRepr.reprIdent
    cases hk : r.key with
    | one i => simp
    | dotted idx ids =>
      rw [hk] at this
      obtain ⟨-, d, hd, -⟩ := this
      simp [hd]
  refine ⟨contextLines_some h1 ?_, fmtPath_some ⟨h2.1, fun r hr => ⟨hid r hr, hin r hr⟩, h1⟩ (by simp), ?_⟩
  · intro n hn
    obtain ⟨r, hr, rfl⟩ := List.mem_map.1 hn
    exact hin r hr
  · intro r hr
    refine ⟨?_, contextLines_some h1 ?_⟩
    · cases hi : r.key.reprIdent with
      | none => exact absurd hi (hid r hr)
      | some i => exact ⟨i, rfl, joinedPath_some h1 i⟩
    · intro n hn
      rw [List.mem_singleton.1 hn]
      exact hin r hr

/-! ## C48 -/

/-- C48: the array `x` has as many entries as there are headers `[[x]]`. -/
theorem C48_length (hf : RootFirst asts) (h : map asts = some (t, [])) {a b : List Item} {x : Str}
    (hi : asts.flatMap astItems = a ++ .arrayTable [x] :: b) :
    shapeAt t [.key x] = some (.array (arrayHeaders x (asts.flatMap astItems))) := by
  refine (C45_map hf h (by simp) _).2 ?_
  rw [← entries_doc]
  exact .array (by rw [hi]; exact mem_arrayHeader a b x)

/-- C48: the assignments behind the n-th header `[[x]]` are in the n-th entry of the array. -/
theorem C48_order (hf : RootFirst asts) (h : map asts = some (t, [])) {a as b : List Item} {x : Str}
    {k : List Str} {v : TVal} (has : ∀ i ∈ as, IsKeyVal i) (hk : k ≠ [])
    (hi : asts.flatMap astItems = a ++ .arrayTable [x] :: as ++ .keyVal k v :: b) :
    shapeAt t (.key x :: .idx (arrayHeaders x a) :: k.map .key) = some (valShape v) := by
  refine C45_value hf h (a := a ++ .arrayTable [x] :: as) (b := b) (p := [.key x, .idx (arrayHeaders x a)])
    (by rw [hi]) hk ?_
  exact sectionAt_array a as x has

/-- C48: a header `[x.y]` behind some `[[x]]` goes to the last one of them, and its assignments too. -/
theorem C48_last (hf : RootFirst asts) (h : map asts = some (t, [])) {a b : List Item} {x y : Str}
    (hx : arrayHeaders x a ≠ 0) (hi : asts.flatMap astItems = a ++ .table [x, y] :: b) :
    shapeAt t [.key x, .idx (arrayHeaders x a - 1), .key y] = some .table ∧
    ∀ as k v b', b = as ++ .keyVal k v :: b' → (∀ i ∈ as, IsKeyVal i) → k ≠ [] →
      shapeAt t (.key x :: .idx (arrayHeaders x a - 1) :: .key y :: k.map .key) = some (valShape v) := by
  constructor
  · refine (C45_map hf h (by simp) _).2 (.header ?_)
    rw [hi]
    exact mem_last a b x y hx
  · rintro as k v b' rfl has hk
    refine C45_value hf h (a := a ++ .table [x, y] :: as) (b := b')
      (p := [.key x, .idx (arrayHeaders x a - 1), .key y]) (by rw [hi]; simp) hk ?_
    exact sectionAt_last a as x y has hx

/-! ## C73 -/

/-- C73: each diagnostic of the map of a text is about an entry of the map and a key of the document with the
same name in the same table, which may not define it again or extend it; it shows the location of the entry,
the place of an earlier representation, the place of the name in the rejected key, and the lines around
both. -/
theorem C73_errors {a : Asts} {s : PS} (h : parseDocument ovf input = .ok a s) (hm : map a.asts = some (t, es)) :
    ∀ e ∈ es, MapError a.asts t e := map_errs a.asts (Tree.parse_tree h).2 t es hm

/-- C73: the same for any tree with a name in each key. -/
theorem C73_tree (h : ∀ x ∈ asts, AstOk x) (hm : map asts = some (t, es)) : ∀ e ∈ es, MapError asts t e :=
  map_errs asts h t es hm

/-! ## Examples -/

/-- The map of a text, if it is read without diagnostics. -/
def mapText (x : Str) : Option (MapTable × List Error) :=
  match parseDocument true x with
  | .ok a s =>
    match s.errors with
    | [] => map a.asts
    | _ => none
  | _ => none

/-- The number of diagnostics of the map of a text. -/
def mapErrors (x : String) : Option Nat := (mapText x.toList).map (·.2.length)

/-- Does the map of a text have the integer `n` at a location? -/
def hasInt (x : String) (p : Loc) (n : Int) : Bool :=
  match mapText x.toList with
  | some (t, _) =>
    match nodeAt (.table t) p with
    | some (.scalar (.int _ _ m)) => m = n
    | _ => false
  | none => false

/-- Documents without contradictions, and documents with one. -/
example : mapErrors "a.b = 1\na.c = {d.e = 2}\n[t.u]\n[t]\n[[x.y]]\n[[x.y]]\n[x.y.z]" = some 0 ∧
    mapErrors "a = 1\na = 2" = some 1 ∧
    mapErrors "[a]\n[a]" = some 1 ∧
    mapErrors "a = {b = 1}\na.c = 2" = some 1 ∧
    mapErrors "a = {b = 1}\n[a.c]" = some 1 ∧
    mapErrors "a = []\n[[a]]" = some 1 ∧
    mapErrors "[[a]]\n[a]" = some 1 ∧
    mapErrors "a.b = 1\n[a]\nc = 3" = some 1 ∧
    mapErrors "[a.b]\n[a]\nb.c = 1" = some 1 ∧
    mapErrors "a = {b = 1, b = 2}\n[t]\nc = 1\nc = 2" = some 2 := by decide +kernel

/-- The second value of a key is dropped, the assignments behind `[[x]]` are in its entry, and `[x.y]`
goes to the last one. -/
example : hasInt "a = 1\na = 2\nb = 3" [.key ['a']] 1 = true ∧
    hasInt "a = 1\na = 2\nb = 3" [.key ['b']] 3 = true ∧
    hasInt "[[x]]\na = 1\n[[x]]\na = 2\n[x.y]\nb = 3" [.key ['x'], .idx 0, .key ['a']] 1 = true ∧
    hasInt "[[x]]\na = 1\n[[x]]\na = 2\n[x.y]\nb = 3" [.key ['x'], .idx 1, .key ['a']] 2 = true ∧
    hasInt "[[x]]\na = 1\n[[x]]\na = 2\n[x.y]\nb = 3" [.key ['x'], .idx 1, .key ['y'], .key ['b']] 3 = true := by
  decide +kernel

/-- The diagnostics of each kind, with the lines around, the location, and both places. -/
example : (mapText "[t]\nb = [0, {c = 1, c = 2}]".toList).map (·.2) =
      some [.duplicateKey [0, 1] "t.b[1].c".toList ⟨⟨1, 9⟩, ⟨1, 10⟩⟩ ⟨⟨1, 16⟩, ⟨1, 17⟩⟩] ∧
    (mapText "[t.u]\n[t]\nu.v = 1".toList).map (·.2) =
      some [.cannotExtendTableWithDottedKey [0, 1] "t.u".toList ⟨⟨0, 0⟩, ⟨0, 5⟩⟩ ⟨⟨2, 0⟩, ⟨2, 1⟩⟩] ∧
    (mapText "a = {b = 1}\n[a.c]".toList).map (·.2) =
      some [.cannotExtendInlineTable [] "a".toList ⟨⟨0, 0⟩, ⟨0, 11⟩⟩ ⟨⟨1, 1⟩, ⟨1, 2⟩⟩] ∧
    (mapText "[[t.'x y']]\n[t]\n'x y'.v = 1".toList).map (·.2) =
      some [.cannotExtendArrayWithDottedKey [0, 1] "t.'x y'".toList ⟨⟨0, 0⟩, ⟨0, 11⟩⟩ ⟨⟨2, 0⟩, ⟨2, 5⟩⟩] ∧
    (mapText "a = []\n[[a]]".toList).map (·.2) =
      some [.cannotExtendInlineArray [] "a".toList ⟨⟨0, 0⟩, ⟨0, 6⟩⟩ ⟨⟨1, 2⟩, ⟨1, 3⟩⟩] ∧
    (mapText "a = []\n[[a.b]]".toList).map (·.2) =
      some [.cannotExtendInlineArrayAsTable [] "a".toList ⟨⟨0, 0⟩, ⟨0, 6⟩⟩ ⟨⟨1, 2⟩, ⟨1, 3⟩⟩] := by decide +kernel

theorem mapText_some {x : Str} {t : MapTable} {es : List Error} (h : mapText x = some (t, es)) :
    ∃ a s, parseDocument true x = .ok a s ∧ s.errors = [] ∧ map a.asts = some (t, es) := by
  unfold mapText at h
  split at h
  · rename_i a s hp
    cases he : s.errors with
    | nil => rw [he] at h; exact ⟨a, s, hp, he, h⟩
    | cons e l => rw [he] at h; cases h
  · cases h

/-- The hypotheses of C45, C47 and C48 are met by the document of `rich_doc` (with dotted keys, nested
values, and an array of tables inside of a table): it is without contradictions. -/
theorem rich_map : ∃ a s t, parseDocument true richToml = .ok a s ∧ RootFirst a.asts ∧
    (∀ x ∈ a.asts, AstOk x) ∧ map a.asts = some (t, []) ∧ MapOk a.asts t := by
  have h : (mapText richToml).map (·.2.isEmpty) = some true := by decide +kernel
  cases hm : mapText richToml with
  | none => rw [hm] at h; cases h
  | some y =>
    obtain ⟨t, es⟩ := y
    rw [hm] at h
    have he : es = [] := by simpa using h
    subst he
    obtain ⟨a, s, h1, -, h3⟩ := mapText_some hm
    obtain ⟨t', es', h4, h5⟩ := C47_map h1
    rw [h3] at h4
    cases h4
    exact ⟨a, s, t, h1, (Tree.parse_tree h1).1, (Tree.parse_tree h1).2, h3, h5⟩

/-- ... it has a path with an index, whose context and text can be determined ... -/
example : ((mapText richToml).bind fun y => (pathTo (.table y.1) [] [.key ['t'], .key ['v'], .idx 0, .key ['e'],
      .key ['l'], .key ['m']]).bind fun z => do
        let l ← contextLines z.1 (z.2.reprs.map (·.parent))
        let x ← fmtPath (.table z.2.reprs :: z.1)
        pure (l, x)) = some ([5, 6], "t.v[0].e.l.m".toList) := by decide +kernel

/-- ... and its definitions are consistent, so C45 applies to its text. -/
example : ∃ vs items, Tokenized [] richToml vs ∧ Doc false vs items ∧ Consistent (docDefs items) := by
  obtain ⟨vs, items, h1, h2⟩ := rich_doc
  refine ⟨vs, items, h1, h2, ?_⟩
  obtain ⟨a, s, t, h3, h4, -, h5, -⟩ := rich_map
  obtain ⟨a', s', h3', -, e, -⟩ := C72_items h1 h2 true
  rw [h3] at h3'
  cases h3'
  rw [← e]
  exact (C46_reported h4 h5).1 rfl

/-- Keys that are refused: an occupied one, and one through an inline table; a table with a header. -/
example {i : Ident} {sp : Span} {l : Str} (a b c : Str) (r1 r2 r3 : Repr) (h2 : IsValueRepr r2) (h3 : IsLast r3) :
    let t : MapTable := [(a, ⟨.scalar (.int l sp 1), [r1]⟩)]
    let t2 : MapTable := [(b, ⟨.table t, [r2]⟩)]
    let t3 : MapTable := [(c, ⟨.table t, [r3]⟩)]
    Refused true (fun _ _ => True) t [a] ∧ Refused true (fun _ _ => True) t2 [b, i.text] ∧
      Refused false ClosedTable t3 [c] := by
  have key : ∀ (k : Str) (e : TomlMap.Entry), followAt [(k, e)] [k] = some (e.node, e.reprs) := by
    intro k e
    simp [followAt, TomlMap.get]
  intro t t2 t3
  exact ⟨Or.inl ⟨_, _, key _ _, trivial⟩,
    Or.inr ⟨[b], [i.text], _, _, rfl, by simp, key _ _, Or.inr (Or.inr (Or.inl ⟨r2, by simp, h2⟩))⟩,
    Or.inl ⟨_, _, key _ _, Or.inr ⟨r3, by simp, Or.inr h3⟩⟩⟩

/-- The model is as liberal as the code: TOML forbids to extend a table on the way of `[[x.a.b]]` by a
dotted key. -/
theorem C46_liberal : mapErrors "[[x.a.b]]\n[x]\na.c = 1" = some 0 := by decide +kernel

end Verif.Props
