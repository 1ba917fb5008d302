import Verif.Toml.MapDup
import Verif.Toml.MapShape
import Verif.Spec.MapDoc

/-! # Lemmas about the places in a document -/

namespace Verif.TomlMap
open Verif Verif.Toml Verif.Spec.Toml

theorem defsFrom_append (a b : List Item) (D : List Def) (sec : Option Loc) :
    defsFrom D sec (a ++ b) = defsFrom (defsFrom D sec a) (sectionFrom D sec a) b := by
  induction a generalizing D sec with
  | nil => rfl
  | cons i a ih =>
    simp only [List.cons_append, defsFrom, sectionFrom]
    exact ih _ _

theorem sectionFrom_append (a b : List Item) (D : List Def) (sec : Option Loc) :
    sectionFrom D sec (a ++ b) = sectionFrom (defsFrom D sec a) (sectionFrom D sec a) b := by
  induction a generalizing D sec with
  | nil => rfl
  | cons i a ih =>
    simp only [List.cons_append, defsFrom, sectionFrom]
    exact ih _ _

theorem mem_defsFrom {D : List Def} {sec : Option Loc} {is : List Item} {d : Def} (h : d ∈ D) :
    d ∈ defsFrom D sec is := by
  induction is generalizing D sec with
  | nil => exact h
  | cons i is ih => exact ih (List.mem_append_left _ h)

/-- The definitions of an item are among the ones of the document. -/
theorem mem_docDefs {a b : List Item} {i : Item} {d : Def}
    (h : d ∈ (itemDefs (docDefs a) (sectionAt a) i).1) : d ∈ docDefs (a ++ i :: b) := by
  unfold docDefs at h ⊢
  rw [defsFrom_append]
  show d ∈ defsFrom (_ ++ (itemDefs _ _ i).1) _ b
  exact mem_defsFrom (List.mem_append_right _ h)

theorem dottedDefs_loc (ks : List Str) (p : Loc) : (dottedDefs p ks).2 = p ++ ks.map .key := by
  unfold dottedDefs
  induction ks generalizing p with
  | nil => simp [wayDefs]
  | cons k ks ih =>
    cases ks with
    | nil => simp [wayDefs]
    | cons k' ks =>
      unfold wayDefs
      simp only [if_true]
      rw [ih]
      simp

theorem valDefs_mem (v : TVal) (p : Loc) : (p, .value v) ∈ valDefs v p := by
  cases v <;> simp [valDefs]

theorem mem_keyVal {a b : List Item} {k : List Str} {v : TVal} {p : Loc} (hs : sectionAt a = some p) :
    (p ++ k.map .key, .value v) ∈ docDefs (a ++ .keyVal k v :: b) := by
  refine mem_docDefs ?_
  rw [hs]
  simp only [itemDefs, keyValDefs]
  refine List.mem_append_right _ ?_
  rw [dottedDefs_loc]
  exact valDefs_mem v _

theorem sectionFrom_keyVals {is : List Item} (h : ∀ i ∈ is, IsKeyVal i) (D : List Def) (sec : Option Loc) :
    sectionFrom D sec is = sec := by
  induction is generalizing D with
  | nil => rfl
  | cons i is ih =>
    obtain ⟨k, v, rfl⟩ := h i (by simp)
    simp only [sectionFrom]
    have : (itemDefs D sec (.keyVal k v)).2 = sec := by
      cases sec <;> rfl
    rw [this]
    exact ih (fun i hi => h i (List.mem_cons_of_mem _ hi)) _

/-! ## Arrays of tables -/

theorem entries_append (D N : List Def) (p : Loc) : entries (D ++ N) p = entries D p + entries N p := by
  simp [entries]

theorem entries_none {N : List Def} (h : ∀ d ∈ N, d.2.isEntry = false) (p : Loc) : entries N p = 0 := by
  unfold entries
  rw [List.length_eq_zero_iff, List.filter_eq_nil_iff]
  intro d hd
  simp [h d hd]

theorem wayDefs_noEntry {w : What} (hw : w.isEntry = false) (count : Loc → Nat) (ks : List Str) (p : Loc) :
    ∀ d ∈ (wayDefs w count p ks).1, d.2.isEntry = false := by
  induction ks generalizing p with
  | nil => simp [wayDefs]
  | cons k ks ih =>
    cases ks with
    | nil => simp [wayDefs]
    | cons k' ks =>
      unfold wayDefs
      simp only
      split
      · intro d hd
        rcases List.mem_cons.1 hd with rfl | hd
        · exact hw
        · exact ih _ d hd
      · exact ih _

mutual

theorem valDefs_noEntry : ∀ (v : TVal) (p : Loc), ∀ d ∈ valDefs v p, d.2.isEntry = false
  | .array vs, p, d, hd => by
    unfold valDefs at hd
    rcases List.mem_cons.1 hd with rfl | hd
    · rfl
    · exact elemDefs_noEntry vs 0 p d hd
  | .table kvs, p, d, hd => by
    unfold valDefs at hd
    rcases List.mem_cons.1 hd with rfl | hd
    · rfl
    · exact pairDefs_noEntry kvs p d hd
  | .str s, p, d, hd => by rw [valDefs, List.mem_singleton] at hd; subst hd; rfl
  | .int s, p, d, hd => by rw [valDefs, List.mem_singleton] at hd; subst hd; rfl
  | .float s, p, d, hd => by rw [valDefs, List.mem_singleton] at hd; subst hd; rfl
  | .bool s, p, d, hd => by rw [valDefs, List.mem_singleton] at hd; subst hd; rfl
  | .dateTime s, p, d, hd => by rw [valDefs, List.mem_singleton] at hd; subst hd; rfl
  | .malformed s, p, d, hd => by rw [valDefs, List.mem_singleton] at hd; subst hd; rfl

theorem elemDefs_noEntry : ∀ (vs : List TVal) (i : Nat) (p : Loc), ∀ d ∈ elemDefs vs i p, d.2.isEntry = false
  | [], _, _, d, hd => by simp [elemDefs] at hd
  | v :: vs, i, p, d, hd => by
    unfold elemDefs at hd
    rcases List.mem_append.1 hd with hd | hd
    · exact valDefs_noEntry v _ d hd
    · exact elemDefs_noEntry vs _ p d hd

theorem pairDefs_noEntry : ∀ (kvs : List (List Str × TVal)) (p : Loc), ∀ d ∈ pairDefs kvs p, d.2.isEntry = false
  | [], _, d, hd => by simp [pairDefs] at hd
  | (k, v) :: kvs, p, d, hd => by
    unfold pairDefs at hd
    rcases List.mem_append.1 hd with hd | hd
    · rcases List.mem_append.1 hd with hd | hd
      · exact wayDefs_noEntry rfl _ _ _ d hd
      · exact valDefs_noEntry v _ d hd
    · exact pairDefs_noEntry kvs p d hd

end

theorem wayDefs_length (w : What) (count : Loc → Nat) (ks : List Str) (p : Loc) :
    p.length + ks.length ≤ (wayDefs w count p ks).2.length := by
  induction ks generalizing p with
  | nil => simp [wayDefs]
  | cons k ks ih =>
    cases ks with
    | nil => simp [wayDefs]
    | cons k' ks =>
      unfold wayDefs
      simp only
      split
      · have := ih (p ++ [.key k])
        simp only [List.length_append, List.length_cons, List.length_nil] at this ⊢
        omega
      · have := ih (p ++ [.key k] ++ [.idx (count (p ++ [.key k]) - 1)])
        simp only [List.length_append, List.length_cons, List.length_nil] at this ⊢
        omega

theorem entries_item (D : List Def) (sec : Option Loc) (i : Item) (x : Str) :
    entries (itemDefs D sec i).1 [.key x] = if isArrayHeader x i then 1 else 0 := by
  cases i with
  | keyVal k v =>
    simp only [isArrayHeader, Bool.false_eq_true, if_false]
    cases sec with
    | none => rfl
    | some p =>
      simp only [itemDefs, keyValDefs]
      refine entries_none ?_ _
      intro d hd
      rcases List.mem_append.1 hd with hd | hd
      · exact wayDefs_noEntry rfl _ _ _ d hd
      · exact valDefs_noEntry v _ d hd
  | table ks =>
    simp only [isArrayHeader, Bool.false_eq_true, if_false]
    cases ks with
    | nil => rfl
    | cons k ks =>
      simp only [itemDefs]
      refine entries_none ?_ _
      intro d hd
      rcases List.mem_append.1 hd with hd | hd
      · exact wayDefs_noEntry rfl _ _ _ d hd
      · rw [List.mem_singleton.1 hd]; rfl
  | arrayTable ks =>
    cases ks with
    | nil => rfl
    | cons k ks =>
      simp only [itemDefs, isArrayHeader]
      rw [entries_append, entries_none (wayDefs_noEntry rfl _ _ _), Nat.zero_add]
      cases ks with
      | nil =>
        by_cases hk : k = x
        · subst hk
          simp [wayDefs, entries, What.isEntry]
        · simp [wayDefs, entries, What.isEntry, hk]
      | cons k' ks =>
        have := wayDefs_length .superArray (entries D) (k :: k' :: ks) []
        have hne : (wayDefs .superArray (entries D) [] (k :: k' :: ks)).2 ≠ [.key x] := by
          intro e
          rw [e] at this
          simp at this
        simp [entries, What.isEntry, hne]

theorem entries_from (D : List Def) (sec : Option Loc) (is : List Item) (x : Str) :
    entries (defsFrom D sec is) [.key x] = entries D [.key x] + arrayHeaders x is := by
  induction is generalizing D sec with
  | nil => simp [defsFrom, arrayHeaders]
  | cons i is ih =>
    simp only [defsFrom]
    rw [ih, entries_append, entries_item]
    unfold arrayHeaders
    rw [List.filter_cons]
    split <;> simp <;> omega

theorem entries_doc (is : List Item) (x : Str) : entries (docDefs is) [.key x] = arrayHeaders x is := by
  unfold docDefs
  rw [entries_from]
  simp [entries]

/-- The table of the assignments behind `[[x]]`. -/
theorem sectionAt_array (a as : List Item) (x : Str) (h : ∀ i ∈ as, IsKeyVal i) :
    sectionAt (a ++ .arrayTable [x] :: as) = some [.key x, .idx (arrayHeaders x a)] := by
  unfold sectionAt
  rw [sectionFrom_append]
  simp only [sectionFrom]
  rw [sectionFrom_keyVals h]
  simp only [itemDefs, wayDefs, List.nil_append]
  have := entries_doc a x
  unfold docDefs at this
  rw [this]
  rfl

/-- The table of the assignments behind `[x.y]`, where `x` is an array of tables. -/
theorem sectionAt_last (a as : List Item) (x y : Str) (h : ∀ i ∈ as, IsKeyVal i) (hx : arrayHeaders x a ≠ 0) :
    sectionAt (a ++ .table [x, y] :: as) = some [.key x, .idx (arrayHeaders x a - 1), .key y] := by
  unfold sectionAt
  rw [sectionFrom_append]
  simp only [sectionFrom]
  rw [sectionFrom_keyVals h]
  have := entries_doc a x
  unfold docDefs at this
  simp only [itemDefs, wayDefs, List.nil_append, this, hx, if_false]
  rfl

/-- The table of `[x.y]`, where `x` is an array of tables. -/
theorem mem_last (a b : List Item) (x y : Str) (hx : arrayHeaders x a ≠ 0) :
    ([.key x, .idx (arrayHeaders x a - 1), .key y], .header) ∈ docDefs (a ++ .table [x, y] :: b) := by
  refine mem_docDefs ?_
  simp only [itemDefs, wayDefs, List.nil_append, entries_doc, hx, if_false]
  simp

theorem mem_arrayHeader (a b : List Item) (x : Str) : ([.key x], .entry) ∈ docDefs (a ++ .arrayTable [x] :: b) := by
  refine mem_docDefs ?_
  simp [itemDefs, wayDefs]

theorem mem_arrayEntry (a b : List Item) (x : Str) :
    ([.key x, .idx (arrayHeaders x a)], .entryTable) ∈ docDefs (a ++ .arrayTable [x] :: b) := by
  refine mem_docDefs ?_
  simp [itemDefs, wayDefs, entries_doc]

/-! ## Sections -/

theorem kept_of_gr {t t' : MapTable} (h : Gr (.table t) [] (.table t') []) : Kept t t' := by
  intro p n rs hp
  obtain ⟨⟨n', rs'⟩, h1, h2, h3, h4⟩ := h p (n, rs) hp
  exact ⟨n', rs', h1, h2, h3, fun hv hn => h4 hv hn⟩

theorem insertTop_append (a b : List ToplevelAssignment) (path : List Seg) (parent : Nat) (t : MapTable) :
    insertTopLevelAssignments (a ++ b) path parent t =
      (insertTopLevelAssignments a path parent t >>= fun t => insertTopLevelAssignments b path parent t) := by
  induction a generalizing t with
  | nil => exact (mapM_pure_bind t fun t => insertTopLevelAssignments b path parent t).symm
  | cons x a ih =>
    have e : ∀ l t, insertTopLevelAssignments (x :: l) path parent t = (insertNodeAtPath path parent t
        x.assignment.key (.value (mapValue x.assignment.val)) (.toplevelAssignment x) >>= fun t =>
          insertTopLevelAssignments l path parent t) := fun l t => by
      conv => lhs; unfold insertTopLevelAssignments
    rw [List.cons_append, e, e, mapM_bind_assoc]
    congr 1
    funext r
    exact ih r

theorem mapAssignments_append (a b : List InlineTableAssignment) (path : List Seg) (parent : Nat) (t : MapTable) :
    mapAssignments (a ++ b) path parent t =
      (mapAssignments a path parent t >>= fun t => mapAssignments b path parent t) := by
  induction a generalizing t with
  | nil =>
    have : mapAssignments [] path parent t = (pure t : MapM MapTable) := by rw [mapAssignments]
    rw [this, mapM_pure_bind]
    rfl
  | cons x a ih =>
    obtain ⟨⟨k, q, v⟩, m⟩ := x
    have e : ∀ l t, mapAssignments (⟨⟨k, q, v⟩, m⟩ :: l) path parent t = (insertNodeAtPath path parent t
        k (.value fun path parent => mapValue v path parent) (.inlineTableAssignment ⟨⟨k, q, v⟩, m⟩) >>= fun t =>
          mapAssignments l path parent t) := fun l t => by
      conv => lhs; unfold mapAssignments
    rw [List.cons_append, e, e, mapM_bind_assoc]
    congr 1
    funext r
    exact ih r

end Verif.TomlMap
