import Verif.Spec.IndexJson
import Verif.Semver.MoreLemmas
import Verif.Semver.Wrap
import Verif.Diag.IndexLemmas

/-! # Reading the lines of an index file: proofs -/

namespace Verif.Index
open Verif Verif.Semver Verif.Spec.Index Verif.Spec.Semver

/-! ## Derived code -/

theorem absent_cons {e : (Str × Bool) × Json} {es : Entries} {k : Str} :
    Absent (e :: es) k ↔ e.1.1 ≠ k ∧ Absent es k := by
  simp [Absent]

theorem only_cons_ne {e : (Str × Bool) × Json} {es : Entries} {k : Str} {x : Json} (h : e.1.1 ≠ k) :
    Only (e :: es) k x ↔ Only es k x := by
  constructor
  · rintro ⟨a, b, pl, he, ha, hb⟩
    cases a with
    | nil => cases he; exact absurd rfl h
    | cons e' a =>
      cases he
      exact ⟨a, b, pl, rfl, (absent_cons.1 ha).2, hb⟩
  · rintro ⟨a, b, pl, rfl, ha, hb⟩
    exact ⟨e :: a, b, pl, rfl, absent_cons.2 ⟨h, ha⟩, hb⟩

theorem only_cons_eq {k : Str} {pl : Bool} {y : Json} {es : Entries} {x : Json} :
    Only (((k, pl), y) :: es) k x ↔ x = y ∧ Absent es k := by
  constructor
  · rintro ⟨a, b, pl, he, ha, hb⟩
    cases a with
    | nil => cases he; exact ⟨rfl, hb⟩
    | cons e' a =>
      cases he
      exact absurd rfl (absent_cons.1 ha).1
  · rintro ⟨rfl, h⟩
    exact ⟨[], es, pl, rfl, (fun e he => by cases he), h⟩

theorem only_not_absent {es : Entries} {k : Str} {x : Json} (h : Only es k x) : ¬ Absent es k := by
  obtain ⟨a, b, pl, rfl, -, -⟩ := h
  intro h
  exact h ((k, pl), x) (by simp) rfl

/-- The names are different. -/
def Distinct (fs : List Field) : Prop :=
  ∀ i k : Fin fs.length, (fs[i]).name = (fs[k]).name → i = k

variable {fs : List Field}

theorem Part.put_same {p : Part fs} {i : Fin fs.length} {x : (fs[i]).type} : p.put i x i = some x := by
  simp [Part.put]

theorem Part.put_other {p : Part fs} {i k : Fin fs.length} {x : (fs[i]).type} (h : k ≠ i) :
    p.put i x k = p k := by
  simp [Part.put, h]

/-- What the loop does to one field. -/
def After (f : Field) (o : Option f.type) (es : Entries) (o' : Option f.type) : Prop :=
  (Absent es f.name ∧ o' = o) ∨
    (o = none ∧ ∃ j y, Only es f.name j ∧ f.get j = .ok y ∧ o' = some y)

theorem visitMap_ok (hd : Distinct fs) {es : Entries} : ∀ {p q : Part fs},
    visitMap fs p es = .ok q ↔ ∀ i, After (fs[i]) (p i) es (q i) := by
  induction es with
  | nil =>
    intro p q
    simp only [visitMap, Res.ok.injEq]
    constructor
    · rintro rfl i
      exact .inl ⟨(fun e he => by cases he), rfl⟩
    · intro h
      funext i
      rcases h i with h | ⟨-, j, y, ⟨a, b, pl, he, -, -⟩, -, -⟩
      · exact h.2.symm
      · simp at he
  | cons e es ih =>
    intro p q
    obtain ⟨⟨k, pl⟩, j⟩ := e
    rw [visitMap]
    cases hf : fs.findFinIdx? (fun f => f.name == k) with
    | none =>
      have hne : ∀ i : Fin fs.length, k ≠ (fs[i]).name := by
        intro i he
        have := List.findFinIdx?_eq_none_iff.1 hf (fs[i]) (List.getElem_mem _)
        simp [he] at this
      simp only
      rw [ih]
      refine forall_congr' fun i => ?_
      unfold After
      rw [absent_cons]
      simp only [only_cons_ne (e := ((k, pl), j)) (hne i)]
      constructor
      · rintro (⟨h1, h2⟩ | h)
        · exact .inl ⟨⟨hne i, h1⟩, h2⟩
        · exact .inr h
      · rintro (⟨h1, h2⟩ | h)
        · exact .inl ⟨h1.2, h2⟩
        · exact .inr h
    | some i0 =>
      have hk : (fs[i0]).name = k := by
        have := (List.findFinIdx?_eq_some_iff.1 hf).1
        simpa using this
      have hne : ∀ i : Fin fs.length, i ≠ i0 → k ≠ (fs[i]).name := by
        intro i hi he
        exact hi (hd _ _ (by rw [hk]; exact he.symm))
      simp only
      by_cases hs : (p i0).isSome = true
      · rw [if_pos hs]
        simp only [reduceCtorEq, false_iff]
        intro h
        rcases h i0 with ⟨h, -⟩ | ⟨h, -⟩
        · exact (absent_cons.1 h).1 hk.symm
        · rw [h] at hs; cases hs
      · rw [if_neg hs, Res.bind_eq_ok]
        have hn : p i0 = none := by simpa using hs
        constructor
        · rintro ⟨x, hx, h⟩ i
          have h := ih.1 h i
          by_cases hi : i = i0
          · subst hi
            rw [Part.put_same] at h
            rcases h with ⟨h1, h2⟩ | ⟨h1, -⟩
            · refine .inr ⟨hn, j, x, ?_, hx, h2⟩
              rw [hk]
              exact only_cons_eq.2 ⟨rfl, by rw [← hk]; exact h1⟩
            · cases h1
          · rw [Part.put_other hi] at h
            unfold After at h ⊢
            rw [absent_cons]
            simp only [only_cons_ne (e := ((k, pl), j)) (hne i hi)]
            rcases h with ⟨h1, h2⟩ | h
            · exact .inl ⟨⟨hne i hi, h1⟩, h2⟩
            · exact .inr h
        · intro h
          have h0 := h i0
          rcases h0 with ⟨h0, -⟩ | ⟨-, j', y, h1, h2, h3⟩
          · exact absurd hk.symm (absent_cons.1 h0).1
          · rw [hk] at h1
            obtain ⟨rfl, h1'⟩ := only_cons_eq.1 h1
            refine ⟨y, h2, ih.2 fun i => ?_⟩
            by_cases hi : i = i0
            · subst hi
              rw [Part.put_same]
              exact .inl ⟨by rw [hk]; exact h1', h3⟩
            · rw [Part.put_other hi]
              have h := h i
              unfold After at h ⊢
              rw [absent_cons] at h
              simp only [only_cons_ne (e := ((k, pl), j')) (hne i hi)] at h
              rcases h with ⟨h1, h2⟩ | h
              · exact .inl ⟨h1.2, h2⟩
              · exact .inr h

theorem fillIn_ok {p : Part fs} {v : Vals fs} :
    fillIn fs p = .ok v ↔ ∀ i, (p i).or (fs[i]).missing = some (v i) := by
  unfold fillIn
  split
  · next h =>
    simp only [Res.ok.injEq]
    constructor
    · rintro rfl i
      simp
    · intro h'
      funext i
      exact Option.some.inj ((Option.some_get _).trans (h' i))
  · next h =>
    simp only [reduceCtorEq, false_iff]
    intro h'
    exact h fun i => by rw [h' i]; rfl

/-- What a field has to be. -/
def FieldOk (f : Field) (i : Nat) (j : Json) (x : f.type) : Prop :=
  (∃ y, FieldIs i f.name y j ∧ f.get y = .ok x) ∨ (FieldMissing f.name j ∧ f.missing = some x)

theorem visitSeq_ok : ∀ {fs : List Field} {js : List Json} {v : Vals fs},
    visitSeq fs js = .ok v ↔ js.length = fs.length ∧
      ∀ i : Fin fs.length, ∃ y, js[i.val]? = some y ∧ (fs[i]).get y = .ok (v i)
  | [], [], v => by
    simp only [visitSeq, Res.ok.injEq]
    constructor
    · intro _; exact ⟨rfl, fun i => i.elim0⟩
    · intro _; funext i; exact i.elim0
  | [], _ :: _, v => by simp [visitSeq]
  | _ :: _, [], v => by simp [visitSeq]
  | f :: fs, j :: js, v => by
    simp only [visitSeq, Res.bind_eq_ok, Res.pure_eq, Res.ok.injEq]
    constructor
    · rintro ⟨x, hx, xs, hxs, rfl⟩
      obtain ⟨h1, h2⟩ := visitSeq_ok.1 hxs
      refine ⟨by simp [h1], fun i => ?_⟩
      refine Fin.cases ?_ (fun i => ?_) i
      · exact ⟨j, rfl, hx⟩
      · exact h2 i
    · rintro ⟨h1, h2⟩
      refine ⟨v 0, ?_, fun i => v i.succ, ?_, ?_⟩
      · obtain ⟨y, hy, h⟩ := h2 0
        cases hy
        exact h
      · rw [visitSeq_ok]
        refine ⟨by simpa using h1, fun i => ?_⟩
        exact h2 i.succ
      · funext i
        refine Fin.cases ?_ (fun i => ?_) i <;> rfl

/-- The derived code reads exactly what the fields say. -/
theorem getStruct_ok (hd : Distinct fs) {j : Json} {v : Vals fs} :
    getStruct fs j = .ok v ↔ IsStruct fs.length j ∧ ∀ i : Fin fs.length, FieldOk (fs[i]) i j (v i) := by
  cases j with
  | obj es =>
    simp only [getStruct, Res.bind_eq_ok, IsStruct, true_and, FieldOk, FieldIs, FieldMissing]
    constructor
    · rintro ⟨p, h1, h2⟩ i
      have h1 := (visitMap_ok hd).1 h1 i
      have h2 := fillIn_ok.1 h2 i
      rcases h1 with ⟨h1, h3⟩ | ⟨-, j, y, h3, h4, h5⟩
      · rw [h3] at h2
        exact .inr ⟨h1, h2⟩
      · rw [h5] at h2
        cases h2
        exact .inl ⟨j, h3, h4⟩
    · intro h
      have hp : ∀ i : Fin fs.length, ∃ o : Option (fs[i]).type, After (fs[i]) none es o ∧
          o.or (fs[i]).missing = some (v i) := by
        intro i
        rcases h i with ⟨y, h1, h2⟩ | ⟨h1, h2⟩
        · exact ⟨some (v i), .inr ⟨rfl, y, v i, h1, h2, rfl⟩, rfl⟩
        · exact ⟨none, .inl ⟨h1, rfl⟩, h2⟩
      refine ⟨fun i => Classical.choose (hp i), (visitMap_ok hd).2 fun i => ?_, fillIn_ok.2 fun i => ?_⟩
      · exact (Classical.choose_spec (hp i)).1
      · exact (Classical.choose_spec (hp i)).2
  | arr js =>
    simp only [getStruct, IsStruct, FieldOk, FieldIs, FieldMissing, false_and, or_false]
    exact visitSeq_ok
  | null => simp [getStruct, IsStruct]
  | bool b => simp [getStruct, IsStruct]
  | num => simp [getStruct, IsStruct]
  | str b s => simp [getStruct, IsStruct]

/-! ## Values -/

theorem getBool_ok {j : Json} {b : Bool} : j.getBool = .ok b ↔ IsBool j b := by
  cases j <;> simp [Json.getBool, IsBool]

theorem getStr_ok {j : Json} {s : Str} : j.getStr = .ok s ↔ IsString j s := by
  cases j <;> simp [Json.getStr, IsString]

theorem getBorrowed_ok {j : Json} {s : Str} : j.getBorrowed = .ok s ↔ IsPlain j s := by
  cases j with
  | str b t => cases b <;> simp [Json.getBorrowed, IsPlain]
  | _ => simp [Json.getBorrowed, IsPlain]

theorem getOption_ok {f : Json → Res Unit α} {p : Json → α → Prop} (h : ∀ j a, f j = .ok a ↔ p j a)
    {j : Json} {o : Option α} : j.getOption f = .ok o ↔ IsOption p j o := by
  cases j with
  | null =>
    simp only [Json.getOption, Res.ok.injEq, IsOption, true_and, ne_eq, not_true_eq_false, false_and,
      and_false, exists_false, or_false]
    exact eq_comm
  | _ =>
    simp only [Json.getOption, Res.bind_eq_ok, Res.pure_eq, Res.ok.injEq, IsOption, h, reduceCtorEq,
      false_and, false_or, ne_eq, not_false_eq_true, true_and]
    constructor
    · rintro ⟨a, h1, rfl⟩; exact ⟨a, rfl, h1⟩
    · rintro ⟨a, rfl, h1⟩; exact ⟨a, h1, rfl⟩

theorem getEach_ok {f : Json → Res Unit α} : ∀ {xs : List Json} {as : List α},
    getEach f xs = .ok as ↔ xs.length = as.length ∧
      ∀ (i : Nat) x a, xs[i]? = some x → as[i]? = some a → f x = .ok a
  | [], as => by
    cases as <;> simp [getEach]
  | x :: xs, as => by
    simp only [getEach, Res.bind_eq_ok, Res.pure_eq, Res.ok.injEq]
    constructor
    · rintro ⟨a, h1, as, h2, rfl⟩
      obtain ⟨h3, h4⟩ := getEach_ok.1 h2
      refine ⟨by simp [h3], fun i => ?_⟩
      cases i with
      | zero => intro x' a' e1 e2; cases e1; cases e2; exact h1
      | succ i => exact h4 i
    · cases as with
      | nil => rintro ⟨h, -⟩; cases h
      | cons a as =>
        rintro ⟨h1, h2⟩
        refine ⟨a, h2 0 x a rfl rfl, as, getEach_ok.2 ⟨by simpa using h1, fun i => h2 (i + 1)⟩, rfl⟩

theorem getVec_ok {f : Json → Res Unit α} {p : Json → α → Prop} (h : ∀ j a, f j = .ok a ↔ p j a)
    {j : Json} {as : List α} : j.getVec f = .ok as ↔ IsList p j as := by
  cases j with
  | arr xs =>
    simp only [Json.getVec, getEach_ok, IsList, h, Json.arr.injEq, exists_eq_left']
  | _ => simp [Json.getVec, IsList]

theorem kindOf_ok {s : Str} {k : DepKind} : kindOf s = .ok k ↔ s = kindName k := by
  unfold kindOf
  constructor
  · intro h
    split at h
    · cases h; assumption
    · split at h
      · cases h; assumption
      · split at h
        · cases h; assumption
        · cases h
  · rintro rfl
    cases k <;> decide

theorem getKind_ok {j : Json} {k : DepKind} : j.getKind = .ok k ↔ IsKind j k := by
  unfold Json.getKind
  split
  · simp [IsKind, IsString, kindOf_ok]
  · simp [IsKind, IsString, kindOf_ok]
  · next h1 h2 =>
    simp only [reduceCtorEq, false_iff]
    rintro (⟨pl, rfl⟩ | ⟨pl, rfl⟩)
    · exact h1 _ _ rfl
    · exact h2 _ _ rfl

theorem toSerde_ok {r : Res ε α} {a : α} : toSerde r = .ok a ↔ r = .ok a := by
  cases r <;> simp [toSerde]

theorem getVersion_ok {ovf : Bool} {j : Json} {v : Semver.Version} : j.getVersion ovf = .ok v ↔ IsVersion ovf j v := by
  unfold Json.getVersion
  split
  · rw [toSerde_ok]
    simp only [IsVersion, IsString]
    constructor
    · intro h
      exact ⟨_, ⟨_, rfl⟩, parseVersion_soundW _ _ _ _ h⟩
    · rintro ⟨s, ⟨pl, he⟩, h⟩
      cases he
      exact parseVersion_completeW _ _ _ _ h
  · next h =>
    simp only [reduceCtorEq, false_iff]
    rintro ⟨s, ⟨pl, rfl⟩, -⟩
    exact h _ _ rfl

theorem getReq_ok {ovf : Bool} {j : Json} {v : Semver.VersionReq} : j.getReq ovf = .ok v ↔ IsReq ovf j v := by
  unfold Json.getReq
  split
  · rw [toSerde_ok]
    simp only [IsReq, IsString]
    constructor
    · intro h
      exact ⟨_, ⟨_, rfl⟩, parseRequirement_soundW _ _ _ _ h⟩
    · rintro ⟨s, ⟨pl, he⟩, h⟩
      cases he
      exact parseRequirement_completeW _ _ _ _ h
  · next h =>
    simp only [reduceCtorEq, false_iff]
    rintro ⟨s, ⟨pl, rfl⟩, -⟩
    exact h _ _ rfl

/-! ## Features -/

theorem getEntries_ok : ∀ {es : Entries} {m r : List (Str × List Str)},
    getEntries m es = .ok r ↔ ∃ ps : List (Str × List Str), es.length = ps.length ∧
      (∀ (i : Nat) e q, es[i]? = some e → ps[i]? = some q → e.1 = (q.1, true) ∧ IsList IsPlain e.2 q.2) ∧
      r = ps.foldl (fun m e => mapInsert m e.1 e.2) m
  | [], m, r => by
    simp only [getEntries, Res.ok.injEq]
    constructor
    · rintro rfl; exact ⟨[], rfl, by simp, rfl⟩
    · rintro ⟨ps, h, -, rfl⟩
      cases ps with
      | nil => rfl
      | cons p ps => cases h
  | ((k, pl), j) :: es, m, r => by
    simp only [getEntries, Res.bind_eq_ok, getBorrowed_ok, getVec_ok (fun j a => getBorrowed_ok (j := j) (s := a)),
      getEntries_ok]
    constructor
    · rintro ⟨k', hk, v, hv, ps, h1, h2, h3⟩
      cases hk
      refine ⟨(k, v) :: ps, by simp [h1], fun i => ?_, h3⟩
      cases i with
      | zero => intro e q e1 e2; cases e1; cases e2; exact ⟨rfl, hv⟩
      | succ i => exact h2 i
    · rintro ⟨ps, h1, h2, h3⟩
      cases ps with
      | nil => cases h1
      | cons q ps =>
        obtain ⟨a1, a2⟩ := h2 0 _ _ rfl rfl
        cases a1
        exact ⟨q.1, rfl, q.2, a2, ps, by simpa using h1, fun i => h2 (i + 1), h3⟩

theorem eraseDups_snoc (l : List Str) (k : Str) :
    (l ++ [k]).eraseDups = if k ∈ l then l.eraseDups else l.eraseDups ++ [k] := by
  rw [List.eraseDups_append]
  by_cases h : k ∈ l
  · simp [List.removeAll, h]
  · simp [List.removeAll, h, List.eraseDups_cons]

theorem collect_keys (ps : List (Str × List Str)) : ∀ (xs : List (Str × List Str)) (m : List (Str × List Str)),
    m.map Prod.fst = (xs.map Prod.fst).eraseDups →
    (ps.foldl (fun m e => mapInsert m e.1 e.2) m).map Prod.fst = ((xs ++ ps).map Prod.fst).eraseDups := by
  induction ps with
  | nil => intro xs m h; simpa using h
  | cons p ps ih =>
    intro xs m h
    have := ih (xs ++ [p]) (mapInsert m p.1 p.2) (by
      rw [mapInsert_keys, List.map_append, List.map_cons, List.map_nil, eraseDups_snoc, h]
      simp only [List.mem_eraseDups])
    simpa using this

theorem mapCollect_keys (ps : List (Str × List Str)) :
    (mapCollect ps).map Prod.fst = (ps.map Prod.fst).eraseDups := by
  have := collect_keys ps [] [] (by simp)
  simpa [mapCollect] using this

theorem same_map : ∀ {a b : List (Str × List Str)} {f : Str → Option (List Str)},
    a.map Prod.fst = b.map Prod.fst → (∀ e ∈ a, f e.1 = some e.2) → (∀ e ∈ b, f e.1 = some e.2) → a = b
  | [], [], _, _, _, _ => rfl
  | [], _ :: _, _, h, _, _ => by cases h
  | _ :: _, [], _, h, _, _ => by cases h
  | (k, v) :: a, (k', v') :: b, f, h, h1, h2 => by
    simp only [List.map_cons, List.cons.injEq] at h
    obtain ⟨rfl, h⟩ := h
    have e1 := h1 (k, v) (by simp)
    have e2 := h2 (k, v') (by simp)
    dsimp only at e1 e2
    rw [e1] at e2
    cases e2
    rw [same_map h (fun e he => h1 e (by simp [he])) (fun e he => h2 e (by simp [he]))]

theorem mapCollect_last {ps : List (Str × List Str)} {e : Str × List Str} (h : e ∈ mapCollect ps) :
    lastOf ps e.1 = some e.2 := by
  have := mapCollect_value ps e.1
  have hv : value (mapCollect ps) e.1 = some e.2 := (value_mem (mapCollect_nodup ps)).2 h
  rw [hv] at this
  exact this.symm

theorem getMap_ok {j : Json} {m : List (Str × List Str)} : j.getMap = .ok m ↔ IsFeatures j m := by
  cases j with
  | obj es =>
    simp only [Json.getMap, getEntries_ok, IsFeatures]
    constructor
    · rintro ⟨ps, h1, h2, h3⟩
      have h3 : m = mapCollect ps := h3
      subst h3
      exact ⟨es, ps, rfl, h1, h2, mapCollect_keys ps, fun e he => mapCollect_last he⟩
    · rintro ⟨es', ps, he, h1, h2, h3, h4⟩
      cases he
      refine ⟨ps, h1, h2, ?_⟩
      exact same_map (h3.trans (mapCollect_keys ps).symm) h4 fun e he => mapCollect_last he
  | _ => simp [Json.getMap, IsFeatures]

/-! ## Structures -/

theorem hasOr_iff {j : Json} {i : Nat} {k : String} {f : Json → Res Unit α} {p : Json → α → Prop}
    (h : ∀ j a, f j = .ok a ↔ p j a) {d a : α} :
    FieldOk ⟨k.toList, α, f, some d⟩ i j a ↔ HasOr j i k p d a := by
  simp only [FieldOk, HasOr, Has, h, Option.some.injEq, eq_comm]

theorem has_iff {j : Json} {i : Nat} {k : String} {f : Json → Res Unit α} {p : Json → α → Prop}
    (h : ∀ j a, f j = .ok a ↔ p j a) {a : α} :
    FieldOk ⟨k.toList, α, f, none⟩ i j a ↔ Has j i k p a := by
  simp only [FieldOk, Has, h, reduceCtorEq, and_false, or_false]

theorem depFields_distinct (ovf : Bool) : Distinct (depFields ovf) := by
  cases ovf <;> (unfold Distinct; decide +kernel)

theorem versionFields_distinct (ovf : Bool) : Distinct (versionFields ovf) := by
  cases ovf <;> (unfold Distinct; decide +kernel)

theorem forall8 {P : Fin 8 → Prop} : (∀ i, P i) ↔ P 0 ∧ P 1 ∧ P 2 ∧ P 3 ∧ P 4 ∧ P 5 ∧ P 6 ∧ P 7 := by
  constructor
  · intro h; exact ⟨h 0, h 1, h 2, h 3, h 4, h 5, h 6, h 7⟩
  · rintro ⟨h0, h1, h2, h3, h4, h5, h6, h7⟩ ⟨i, hi⟩
    match i, hi with
    | 0, _ => exact h0
    | 1, _ => exact h1
    | 2, _ => exact h2
    | 3, _ => exact h3
    | 4, _ => exact h4
    | 5, _ => exact h5
    | 6, _ => exact h6
    | 7, _ => exact h7

theorem forall7 {P : Fin 7 → Prop} : (∀ i, P i) ↔ P 0 ∧ P 1 ∧ P 2 ∧ P 3 ∧ P 4 ∧ P 5 ∧ P 6 := by
  constructor
  · intro h; exact ⟨h 0, h 1, h 2, h 3, h 4, h 5, h 6⟩
  · rintro ⟨h0, h1, h2, h3, h4, h5, h6⟩ ⟨i, hi⟩
    match i, hi with
    | 0, _ => exact h0
    | 1, _ => exact h1
    | 2, _ => exact h2
    | 3, _ => exact h3
    | 4, _ => exact h4
    | 5, _ => exact h5
    | 6, _ => exact h6

/-- The values of the fields of a dependency. -/
def depVals (ovf : Bool) (d : Dep) : Vals (depFields ovf)
  | 0 => d.name
  | 1 => d.package
  | 2 => d.req
  | 3 => d.defaultFeatures
  | 4 => d.features
  | 5 => d.kind
  | 6 => d.target
  | 7 => d.optional

theorem getDep_struct {ovf : Bool} {j : Json} {d : Dep} :
    j.getDep ovf = .ok d ↔ getStruct (depFields ovf) j = .ok (depVals ovf d) := by
  simp only [Json.getDep, Res.bind_eq_ok, Res.pure_eq, Res.ok.injEq]
  constructor
  · rintro ⟨v, h, rfl⟩
    rw [h]
    congr 1
    funext i
    exact (forall8 (P := fun i => v i = depVals ovf _ i)).2 ⟨rfl, rfl, rfl, rfl, rfl, rfl, rfl, rfl⟩ i
  · intro h
    exact ⟨_, h, rfl⟩

theorem getDep_ok {ovf : Bool} {j : Json} {d : Dep} : j.getDep ovf = .ok d ↔ DepSays ovf j d := by
  rw [getDep_struct, getStruct_ok (depFields_distinct ovf)]
  have h : (∀ i : Fin (depFields ovf).length, FieldOk ((depFields ovf)[i]) i j (depVals ovf d i)) ↔ _ :=
    forall8 (P := fun i => FieldOk ((depFields ovf)[i]) i j (depVals ovf d i))
  rw [h]
  constructor
  · rintro ⟨a, h0, h1, h2, h3, h4, h5, h6, h7⟩
    exact ⟨a, (has_iff fun j a => getStr_ok).1 h0,
      (hasOr_iff fun j a => getOption_ok fun j a => getStr_ok).1 h1,
      (has_iff fun j a => getReq_ok).1 h2, (has_iff fun j a => getBool_ok).1 h3,
      (has_iff fun j a => getVec_ok fun j a => getStr_ok).1 h4, (has_iff fun j a => getKind_ok).1 h5,
      (hasOr_iff fun j a => getOption_ok fun j a => getStr_ok).1 h6, (has_iff fun j a => getBool_ok).1 h7⟩
  · rintro ⟨a, h0, h1, h2, h3, h4, h5, h6, h7⟩
    exact ⟨a, (has_iff fun j a => getStr_ok).2 h0,
      (hasOr_iff fun j a => getOption_ok fun j a => getStr_ok).2 h1,
      (has_iff fun j a => getReq_ok).2 h2, (has_iff fun j a => getBool_ok).2 h3,
      (has_iff fun j a => getVec_ok fun j a => getStr_ok).2 h4, (has_iff fun j a => getKind_ok).2 h5,
      (hasOr_iff fun j a => getOption_ok fun j a => getStr_ok).2 h6, (has_iff fun j a => getBool_ok).2 h7⟩

/-- The values of the fields of a version. -/
def versionVals (ovf : Bool) (v : RawVersion) : Vals (versionFields ovf)
  | 0 => v.name
  | 1 => v.vers
  | 2 => v.features
  | 3 => v.features2
  | 4 => v.deps
  | 5 => v.yanked
  | 6 => v.rustVersion

theorem getLine_struct {ovf : Bool} {j : Json} {d : RawVersion} :
    j.getLine ovf = .ok d ↔ getStruct (versionFields ovf) j = .ok (versionVals ovf d) := by
  simp only [Json.getLine, Res.bind_eq_ok, Res.pure_eq, Res.ok.injEq]
  constructor
  · rintro ⟨v, h, rfl⟩
    rw [h]
    congr 1
    funext i
    exact (forall7 (P := fun i => v i = versionVals ovf _ i)).2 ⟨rfl, rfl, rfl, rfl, rfl, rfl, rfl⟩ i
  · intro h
    exact ⟨_, h, rfl⟩

theorem getLine_ok {ovf : Bool} {j : Json} {v : RawVersion} : j.getLine ovf = .ok v ↔ LineSays ovf j v := by
  rw [getLine_struct, getStruct_ok (versionFields_distinct ovf)]
  have h : (∀ i : Fin (versionFields ovf).length, FieldOk ((versionFields ovf)[i]) i j (versionVals ovf v i)) ↔ _ :=
    forall7 (P := fun i => FieldOk ((versionFields ovf)[i]) i j (versionVals ovf v i))
  rw [h]
  constructor
  · rintro ⟨a, h0, h1, h2, h3, h4, h5, h6⟩
    exact ⟨a, (has_iff fun j a => getBorrowed_ok).1 h0, (has_iff fun j a => getVersion_ok).1 h1,
      (has_iff fun j a => getMap_ok).1 h2, (hasOr_iff fun j a => getMap_ok).1 h3,
      (has_iff fun j a => getVec_ok fun j a => getDep_ok).1 h4, (has_iff fun j a => getBool_ok).1 h5,
      (hasOr_iff fun j a => getOption_ok fun j a => getVersion_ok).1 h6⟩
  · rintro ⟨a, h0, h1, h2, h3, h4, h5, h6⟩
    exact ⟨a, (has_iff fun j a => getBorrowed_ok).2 h0, (has_iff fun j a => getVersion_ok).2 h1,
      (has_iff fun j a => getMap_ok).2 h2, (hasOr_iff fun j a => getMap_ok).2 h3,
      (has_iff fun j a => getVec_ok fun j a => getDep_ok).2 h4, (has_iff fun j a => getBool_ok).2 h5,
      (hasOr_iff fun j a => getOption_ok fun j a => getVersion_ok).2 h6⟩


/-! ## Builds without overflow checks -/

/-- `g` reads at least what `f` reads. -/
def Extends (f g : Json → Res Unit α) : Prop := ∀ j a, f j = .ok a → g j = .ok a

theorem extends_option {f g : Json → Res Unit α} (h : Extends f g) :
    Extends (Json.getOption f) (Json.getOption g) := by
  intro j o ho
  rw [getOption_ok (p := fun j a => f j = .ok a) (fun _ _ => Iff.rfl)] at ho
  rw [getOption_ok (p := fun j a => g j = .ok a) (fun _ _ => Iff.rfl)]
  rcases ho with ho | ⟨a, h1, h2, h3⟩
  · exact .inl ho
  · exact .inr ⟨a, h1, h2, h _ _ h3⟩

theorem extends_vec {f g : Json → Res Unit α} (h : Extends f g) :
    Extends (Json.getVec f) (Json.getVec g) := by
  intro j o ho
  rw [getVec_ok (p := fun j a => f j = .ok a) (fun _ _ => Iff.rfl)] at ho
  rw [getVec_ok (p := fun j a => g j = .ok a) (fun _ _ => Iff.rfl)]
  obtain ⟨xs, h1, h2, h3⟩ := ho
  exact ⟨xs, h1, h2, fun i x a e1 e2 => h _ _ (h3 i x a e1 e2)⟩

theorem extends_version {ovf : Bool} : Extends (Json.getVersion true) (Json.getVersion ovf) := by
  intro j v h
  obtain ⟨s, ⟨pl, rfl⟩, hv⟩ := getVersion_ok.1 h
  exact toSerde_ok.2 (parseVersion_complete _ _ _ _ (parseVersion_sound _ .ZERO _ (parseVersion_completeW _ _ _ _ hv)))

theorem extends_req {ovf : Bool} : Extends (Json.getReq true) (Json.getReq ovf) := by
  intro j v h
  obtain ⟨s, ⟨pl, rfl⟩, hv⟩ := getReq_ok.1 h
  exact toSerde_ok.2 (parseRequirement_complete _ _ _ _ (parseRequirement_sound _ _ _ (parseRequirement_completeW _ _ _ _ hv)))

theorem fieldOk_extends {k : Str} {f g : Json → Res Unit α} {m : Option α} (h : Extends f g) {i : Nat} {j : Json}
    {a : α} (ha : FieldOk ⟨k, α, f, m⟩ i j a) : FieldOk ⟨k, α, g, m⟩ i j a := by
  rcases ha with ⟨y, h1, h2⟩ | ha
  · exact .inl ⟨y, h1, h _ _ h2⟩
  · exact .inr ha

theorem fieldOk_id {k : Str} {f : Json → Res Unit α} {m : Option α} {i : Nat} {j : Json}
    {a : α} (ha : FieldOk ⟨k, α, f, m⟩ i j a) : FieldOk ⟨k, α, f, m⟩ i j a := ha

theorem extends_dep {ovf : Bool} : Extends (Json.getDep true) (Json.getDep ovf) := by
  intro j d h
  rw [getDep_struct, getStruct_ok (depFields_distinct _)] at h ⊢
  obtain ⟨h, h'⟩ := h
  refine ⟨h, (forall8 (P := fun i => FieldOk ((depFields ovf)[i]) i j (depVals ovf d i))).2
    ⟨fieldOk_id (h' 0), fieldOk_id (h' 1), ?_, fieldOk_id (h' 3), fieldOk_id (h' 4), fieldOk_id (h' 5),
      fieldOk_id (h' 6), fieldOk_id (h' 7)⟩⟩
  exact fieldOk_extends extends_req (h' 2)

theorem extends_line {ovf : Bool} : Extends (Json.getLine true) (Json.getLine ovf) := by
  intro j d h
  rw [getLine_struct, getStruct_ok (versionFields_distinct _)] at h ⊢
  obtain ⟨h, h'⟩ := h
  refine ⟨h, (forall7 (P := fun i => FieldOk ((versionFields ovf)[i]) i j (versionVals ovf d i))).2
    ⟨fieldOk_id (h' 0), ?_, fieldOk_id (h' 2), fieldOk_id (h' 3), ?_, fieldOk_id (h' 5), ?_⟩⟩
  · exact fieldOk_extends extends_version (h' 1)
  · exact fieldOk_extends (extends_vec extends_dep) (h' 4)
  · exact fieldOk_extends (extends_option extends_version) (h' 6)

/-! ## No panics -/

/-- `f` never panics. -/
def Calm (f : Json → Res Unit α) : Prop := ∀ j, f j ≠ .panic

theorem bind_calm {x : Res Unit α} {f : α → Res Unit β} (h : x ≠ .panic) (hf : ∀ a, f a ≠ .panic) :
    (x >>= f) ≠ .panic := by
  cases x with
  | ok a => exact hf a
  | err e => intro h; cases h
  | panic => exact absurd rfl h

theorem calm_bool : Calm Json.getBool := by intro j; cases j <;> simp [Json.getBool]
theorem calm_str : Calm Json.getStr := by intro j; cases j <;> simp [Json.getStr]
theorem calm_borrowed : Calm Json.getBorrowed := by
  intro j; unfold Json.getBorrowed; split <;> simp
theorem calm_kind : Calm Json.getKind := by
  intro j; unfold Json.getKind kindOf; split <;> (try split) <;> (try split) <;> (try split) <;> simp
theorem calm_option {f : Json → Res Unit α} (h : Calm f) : Calm (Json.getOption f) := by
  intro j
  unfold Json.getOption
  split
  · simp
  · exact bind_calm (h _) (by simp)
theorem calm_each {f : Json → Res Unit α} (h : Calm f) : ∀ js, getEach f js ≠ .panic
  | [] => by simp [getEach]
  | j :: js => bind_calm (h _) fun _ => bind_calm (calm_each h js) (by simp)
theorem calm_vec {f : Json → Res Unit α} (h : Calm f) : Calm (Json.getVec f) := by
  intro j
  unfold Json.getVec
  split
  · exact calm_each h _
  · simp
theorem calm_entries : ∀ es m, getEntries m es ≠ .panic
  | [], m => by simp [getEntries]
  | ((k, pl), j) :: es, m =>
    bind_calm (calm_borrowed _) fun _ => bind_calm (calm_vec calm_borrowed _) fun _ => calm_entries es _
theorem calm_map : Calm Json.getMap := by
  intro j
  unfold Json.getMap
  split
  · exact calm_entries _ _
  · simp
theorem toSerde_calm {r : Res ε α} (h : r ≠ .panic) : toSerde r ≠ .panic := by
  cases r <;> simp_all [toSerde]

theorem calm_visit (h : ∀ f ∈ fs, Calm f.get) : ∀ es p, visitMap fs p es ≠ .panic
  | [], p => by simp [visitMap]
  | ((k, pl), j) :: es, p => by
    rw [visitMap]
    split
    · exact calm_visit h es p
    · split
      · simp
      · exact bind_calm (h _ (List.getElem_mem _) _) fun _ => calm_visit h es _

theorem calm_seq : ∀ {fs : List Field}, (∀ f ∈ fs, Calm f.get) → ∀ js, visitSeq fs js ≠ .panic
  | [], _, [] => by simp [visitSeq]
  | [], _, _ :: _ => by simp [visitSeq]
  | _ :: _, _, [] => by simp [visitSeq]
  | f :: fs, h, j :: js =>
    bind_calm (h f (by simp) _) fun _ => bind_calm (calm_seq (fun f hf => h f (by simp [hf])) js) (by simp)

theorem calm_struct (h : ∀ f ∈ fs, Calm f.get) : Calm (getStruct fs) := by
  intro j
  unfold getStruct
  split
  · refine bind_calm (calm_visit h _ _) fun p => ?_
    unfold fillIn
    split <;> simp
  · exact calm_seq h _
  · simp

theorem calm_version : Calm (Json.getVersion false) := by
  intro j
  unfold Json.getVersion
  split
  · refine toSerde_calm fun hp => ?_
    have := ((parseVersion_good false _ _).panic hp).1
    cases this
  · simp

theorem calm_req : Calm (Json.getReq false) := by
  intro j
  unfold Json.getReq
  split
  · refine toSerde_calm fun hp => ?_
    have := ((parseRequirement_good false _ _).panic hp).1
    cases this
  · simp

theorem calm_dep : Calm (Json.getDep false) := by
  intro j
  refine bind_calm (calm_struct ?_ j) (by simp)
  intro f hf
  simp only [depFields, List.mem_cons, List.not_mem_nil, or_false] at hf
  rcases hf with rfl | rfl | rfl | rfl | rfl | rfl | rfl | rfl
  · exact calm_str
  · exact calm_option calm_str
  · exact calm_req
  · exact calm_bool
  · exact calm_vec calm_str
  · exact calm_kind
  · exact calm_option calm_str
  · exact calm_bool

theorem calm_line : Calm (Json.getLine false) := by
  intro j
  refine bind_calm (calm_struct ?_ j) (by simp)
  intro f hf
  simp only [versionFields, List.mem_cons, List.not_mem_nil, or_false] at hf
  rcases hf with rfl | rfl | rfl | rfl | rfl | rfl | rfl
  · exact calm_borrowed
  · exact calm_version
  · exact calm_map
  · exact calm_map
  · exact calm_vec calm_dep
  · exact calm_bool
  · exact calm_option calm_version

end Verif.Index
