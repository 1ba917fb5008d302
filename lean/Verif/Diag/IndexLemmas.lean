import Verif.Spec.Index
import Verif.Diag.Lemmas
import Verif.Semver.OrderLemmas

/-! # Lemmas about the crate index -/

namespace Verif.Index
open Verif Verif.Toml Verif.Semver Verif.Spec Verif.Spec.Index

theorem stripPrefix_eq {p s t : Str} : stripPrefix p s = some t ↔ s = p ++ t := by
  induction p generalizing s with
  | nil => simp [stripPrefix, eq_comm]
  | cons a p ih =>
    cases s with
    | nil => simp [stripPrefix]
    | cons c s =>
      rw [stripPrefix]
      split
      · next h => subst h; simp [ih]
      · next h => simp [Ne.symm h]

theorem asDep_eq {m t : Str} : asDep m = some t ↔ m = depPrefix ++ t := stripPrefix_eq

theorem asDep_isSome {m : Str} : (asDep m).isSome = true ↔ "dep:".toList <+: m := by
  rw [Option.isSome_iff_exists]
  constructor
  · rintro ⟨t, ht⟩; exact ⟨t, (asDep_eq.1 ht).symm⟩
  · rintro ⟨t, ht⟩; exact ⟨t, asDep_eq.2 ht.symm⟩

theorem asDep_none {m : Str} : asDep m = none ↔ ¬ "dep:".toList <+: m := by
  rw [← asDep_isSome]; simp

theorem memberCmp_eq (a b : Str) :
    memberCmp a b = (compare (rank a) (rank b)).then (strCmp a b) := by
  have rd : ∀ m t, asDep m = some t → rank m = 2 := fun m t h => by
    rw [rank, if_pos (asDep_isSome.1 (by rw [h]; rfl))]
  have rn : ∀ m, asDep m = none → rank m = if isDepFeature m = true then 1 else 0 := fun m h => by
    rw [rank, if_neg (asDep_none.1 h)]
    simp [isDepFeature]
  unfold memberCmp
  cases ha : asDep a with
  | some x =>
    cases hb : asDep b with
    | some y =>
      rw [rd a x ha, rd b y hb, asDep_eq.1 ha, asDep_eq.1 hb]
      have key : ∀ p : Str, strCmp (p ++ x) (p ++ y) = strCmp x y := by
        intro p
        induction p with
        | nil => rfl
        | cons c p ih => simp [strCmp, ih, Nat.compare_eq_eq.2]
      simp [key]
    | none =>
      rw [rd a x ha, rn b hb]; cases isDepFeature b <;> rfl
  | none =>
    cases hb : asDep b with
    | some y => rw [rn a ha, rd b y hb]; cases isDepFeature a <;> rfl
    | none =>
      rw [rn a ha, rn b hb]
      cases isDepFeature a <;> cases isDepFeature b <;> simp [compare, compareOfLessAndEq]

theorem memberCmp_total : TotalOrder memberCmp := by
  have h := (TotalOrder.prod TotalOrder.natCompare strCmp_total).comap
    (fun m : Str => (rank m, m)) (by
      intro a b h
      simp only [Prod.mk.injEq] at h
      exact h.2)
  have e : memberCmp = fun a b => (compare (rank a) (rank b)).then (strCmp a b) := by
    funext a b; exact memberCmp_eq a b
  rw [e]; exact h

theorem hasKey_iff {m : List (Str × List Str)} {k : Str} : hasKey m k = true ↔ k ∈ m.map Prod.fst := by
  simp [hasKey]

theorem normalize_eq (v : RawVersion) (m : Str) : normalize v m = meaning v m := by
  have hk : ∀ (fs : List (Str × List Str)), hasKey fs m = false ↔ ∀ f ∈ fs, f.1 ≠ m := by
    intro fs; simp [hasKey]
  have key : ((!(asDep m).isSome && !(hasKey v.features m || hasKey v.features2 m) &&
      v.deps.any (fun d => d.kind == .normal && d.optional && d.name == m)) = true) ↔
      (¬ "dep:".toList <+: m ∧ (∀ f ∈ v.features ++ v.features2, f.1 ≠ m) ∧
      (∃ d ∈ v.deps, d.kind = .normal ∧ d.optional = true ∧ d.name = m)) := by
    rw [← asDep_isSome]
    simp only [Bool.and_eq_true, Bool.not_eq_true', Bool.or_eq_false_iff, List.any_eq_true, beq_iff_eq,
      and_assoc, Bool.not_eq_true, hk, List.mem_append, or_imp, forall_and]
  unfold normalize meaning
  dsimp only
  by_cases h : (¬ "dep:".toList <+: m ∧ (∀ f ∈ v.features ++ v.features2, f.1 ≠ m) ∧
      (∃ d ∈ v.deps, d.kind = .normal ∧ d.optional = true ∧ d.name = m))
  · rw [if_pos h, if_pos (key.2 h)]; rfl
  · rw [if_neg h, if_neg (fun e => h (key.1 e))]

/-! ## Index maps -/

/-- The value of a key. -/
def value (m : List (Str × List Str)) (k : Str) : Option (List Str) :=
  (m.find? (fun e => e.1 == k)).map Prod.snd

theorem value_none {m : List (Str × List Str)} {k : Str} : value m k = none ↔ k ∉ m.map Prod.fst := by
  simp only [value, Option.map_eq_none_iff, List.find?_eq_none, beq_iff_eq, List.mem_map, not_exists,
    not_and]

theorem value_mem {m : List (Str × List Str)} (hn : (m.map Prod.fst).Nodup) {k : Str} {v : List Str} :
    value m k = some v ↔ (k, v) ∈ m := by
  induction m with
  | nil => simp [value]
  | cons e m ih =>
    rw [List.map_cons, List.nodup_cons] at hn
    obtain ⟨k', v'⟩ := e
    simp only [value, List.find?_cons] at *
    by_cases h : k' = k
    · subst h
      simp only [beq_self_eq_true, Option.map_some, Option.some.injEq, List.mem_cons, Prod.mk.injEq,
        true_and]
      constructor
      · rintro rfl; exact .inl rfl
      · rintro (rfl | h)
        · rfl
        · exact absurd (List.mem_map_of_mem (f := Prod.fst) h) hn.1
    · have : (k' == k) = false := by simpa using h
      rw [this]
      simp only
      rw [ih hn.2]
      simp [Ne.symm h]

theorem mapInsert_keys (m : List (Str × List Str)) (k : Str) (v : List Str) :
    (mapInsert m k v).map Prod.fst = if k ∈ m.map Prod.fst then m.map Prod.fst else m.map Prod.fst ++ [k] := by
  unfold mapInsert
  by_cases h : k ∈ m.map Prod.fst
  · rw [if_pos (hasKey_iff.2 h), if_pos h, List.map_map]
    apply List.map_congr_left
    intro e _
    simp only [Function.comp]
    split
    · next he => exact (by simpa using he : e.1 = k).symm
    · rfl
  · rw [if_neg (fun e => h (hasKey_iff.1 e)), if_neg h]; simp

theorem mapInsert_nodup {m : List (Str × List Str)} (h : (m.map Prod.fst).Nodup) (k : Str)
    (v : List Str) : ((mapInsert m k v).map Prod.fst).Nodup := by
  rw [mapInsert_keys]
  split
  · exact h
  · next hk =>
    rw [List.nodup_append]
    refine ⟨h, by simp, ?_⟩
    intro a ha b hb
    simp only [List.mem_singleton] at hb
    subst hb
    rintro rfl
    exact hk ha

theorem mapInsert_value {m : List (Str × List Str)} (k : Str) (v : List Str) (k' : Str) :
    value (mapInsert m k v) k' = if k = k' then some v else value m k' := by
  unfold mapInsert
  split
  · next h =>
    rw [hasKey_iff] at h
    unfold value
    induction m with
    | nil => simp at h
    | cons e m ih =>
      rw [List.map_cons, List.find?_cons, List.find?_cons]
      by_cases he : e.1 = k
      · subst he
        by_cases hk : e.1 = k'
        · simp [hk]
        · have h1 : (e.1 == k') = false := by simpa using hk
          simp only [beq_self_eq_true, if_true, h1, if_neg hk]
          by_cases hm : e.1 ∈ m.map Prod.fst
          · rw [ih hm, if_neg hk]
          · have : m.map (fun f => if (f.1 == e.1) = true then (e.1, v) else f) = m := by
              conv => rhs; rw [← List.map_id m]
              apply List.map_congr_left
              intro f hf
              rw [if_neg]; · rfl
              simp only [beq_iff_eq]
              intro hfe
              exact hm (hfe ▸ List.mem_map_of_mem hf)
            rw [this]
      · have hb : (e.1 == k) = false := by simpa using he
        rw [List.map_cons, List.mem_cons] at h
        have hm : k ∈ m.map Prod.fst := by
          rcases h with h | h
          · exact absurd h.symm he
          · exact h
        simp only [hb, Bool.false_eq_true, if_false]
        by_cases hk : e.1 = k'
        · subst hk
          simp [Ne.symm he]
        · have h1 : (e.1 == k') = false := by simpa using hk
          simp only [h1]
          exact ih hm
  · next h =>
    have h : k ∉ m.map Prod.fst := fun e => h (hasKey_iff.2 e)
    unfold value
    rw [List.find?_append]
    split
    · next hk =>
      subst hk
      rw [show m.find? (fun e => e.1 == k) = none from by
        have := value_none.2 h
        simpa [value] using this]
      simp
    · next hk =>
      have : (k == k') = false := by simpa using hk
      cases hf : m.find? (fun e => e.1 == k') with
      | none => simp [this]
      | some x => simp

theorem mapCollect_aux (es : List (Str × List Str)) : ∀ m : List (Str × List Str),
    (m.map Prod.fst).Nodup →
    ((es.foldl (fun m e => mapInsert m e.1 e.2) m).map Prod.fst).Nodup ∧
    ∀ k, value (es.foldl (fun m e => mapInsert m e.1 e.2) m) k = (value es.reverse k).or (value m k) := by
  induction es with
  | nil => intro m h; exact ⟨h, fun k => rfl⟩
  | cons e es ih =>
    intro m h
    obtain ⟨h1, h2⟩ := ih (mapInsert m e.1 e.2) (mapInsert_nodup h _ _)
    refine ⟨h1, fun k => ?_⟩
    rw [List.foldl_cons, h2, mapInsert_value]
    simp only [value, List.reverse_cons, List.find?_append]
    cases hf : es.reverse.find? (fun e => e.1 == k) with
    | some x => simp
    | none =>
      by_cases hk : e.1 = k
      · simp [hk]
      · have : (e.1 == k) = false := by simpa using hk
        simp [hk, this]

theorem mapCollect_nodup (es : List (Str × List Str)) : ((mapCollect es).map Prod.fst).Nodup :=
  (mapCollect_aux es [] (by simp)).1

theorem mapCollect_value (es : List (Str × List Str)) (k : Str) :
    value (mapCollect es) k = value es.reverse k := by
  rw [mapCollect, (mapCollect_aux es [] (by simp)).2]
  simp [value]

theorem swapRemove_spec {m : List (Str × List Str)} (hn : (m.map Prod.fst).Nodup) (k : Str) :
    (swapRemove m k).1 = value m k ∧
    (swapRemove m k).2.Perm (m.filter (fun e => e.1 != k)) := by
  unfold swapRemove
  cases hi : m.findIdx? (fun e => e.1 == k) with
  | none =>
    rw [List.findIdx?_eq_none_iff] at hi
    refine ⟨?_, ?_⟩
    · refine (value_none.2 ?_).symm
      simp only [List.mem_map, not_exists, not_and]
      intro e he hk
      have := hi e he
      simp [hk] at this
    · rw [List.filter_eq_self.2]
      intro e he
      simpa using hi e he
  | some i =>
    obtain ⟨hlt, hk, -⟩ := List.findIdx?_eq_some_iff_getElem.1 hi
    have hne : m ≠ [] := by rintro rfl; simp at hlt
    dsimp only
    rw [List.getElem?_eq_getElem hlt, List.getLast?_eq_some_getLast hne]
    have hk' : m[i].1 = k := by simpa using hk
    have hval : value m k = some m[i].2 := by
      rw [value_mem hn, ← hk']; exact List.getElem_mem hlt
    have hsplit : m = m.take i ++ m[i] :: m.drop (i + 1) := by
      rw [List.getElem_cons_drop, List.take_append_drop]
    have hf : m.filter (fun e => e.1 != k) = m.take i ++ m.drop (i + 1) := by
      conv => lhs; rw [hsplit]
      rw [hsplit] at hn
      rw [List.map_append, List.map_cons, List.nodup_append, List.nodup_cons] at hn
      obtain ⟨-, ⟨hn1, -⟩, hn2⟩ := hn
      rw [List.filter_append, List.filter_cons, if_neg (by simp [hk'])]
      congr 1
      · rw [List.filter_eq_self]
        intro e he
        simp only [bne_iff_ne, ne_eq]
        intro hek
        exact hn2 e.1 (List.mem_map_of_mem he) m[i].1 (by simp) (hek.trans hk'.symm)
      · rw [List.filter_eq_self]
        intro e he
        simp only [bne_iff_ne, ne_eq]
        intro hek
        exact hn1 (by rw [hk', ← hek]; exact List.mem_map_of_mem he)
    simp only
    split
    · next hlast =>
      refine ⟨hval.symm, ?_⟩
      rw [hf, List.dropLast_eq_take, List.drop_eq_nil_of_le (by omega), List.append_nil,
        show m.length - 1 = i by omega]
    · next hlast =>
      refine ⟨hval.symm, ?_⟩
      rw [hf]
      have hd : m.drop (i + 1) ≠ [] := by
        intro h
        have := congrArg List.length h
        simp at this
        omega
      have hset : m.set i (m.getLast hne) = m.take i ++ m.getLast hne :: m.drop (i + 1) := by
        rw [List.set_eq_take_append_cons_drop, if_pos hlt]
      have hl : m.getLast hne = (m.drop (i + 1)).getLast hd := by
        rw [List.getLast_drop]
      rw [hset, List.dropLast_append_of_ne_nil (by simp), List.dropLast_cons_of_ne_nil hd, hl]
      refine List.Perm.append_left _ ?_
      calc ((m.drop (i + 1)).getLast hd :: (m.drop (i + 1)).dropLast).Perm
            ((m.drop (i + 1)).dropLast ++ [(m.drop (i + 1)).getLast hd]) := by
              exact (List.perm_append_comm (l₁ := [_]))
        _ = m.drop (i + 1) := List.dropLast_concat_getLast hd

/-! ## Versions -/

theorem value_map_snd (f : List Str → List Str) (es : List (Str × List Str)) (k : Str) :
    value (es.map (fun e => (e.1, f e.2))) k = (value es k).map f := by
  unfold value
  rw [List.find?_map]
  cases h : es.find? (fun e => e.1 == k) with
  | none => simp [Function.comp_def, h]
  | some x => simp [Function.comp_def, h]

theorem normalizeAll_iff (v : RawVersion) (l ms : List Str) :
    ms = normalizeAll v l ↔ StableSorted memberCmp (l.map (meaning v)) ms := by
  have e : l.map (normalize v) = l.map (meaning v) := by
    apply List.map_congr_left; intro m _; exact normalize_eq v m
  have hs := sortBy_stableSorted memberCmp_total.preorder (l.map (meaning v))
  rw [normalizeAll, e]
  exact ⟨fun h => h ▸ hs, fun h => stableSorted_unique memberCmp_total.preorder h hs⟩

theorem buildVersion_describes (v : RawVersion) : Describes v (buildVersion v) := by
  have hn := mapCollect_nodup ((v.features ++ v.features2).map (fun e => (e.1, normalizeAll v e.2)))
  have hv : ∀ k, value (mapCollect ((v.features ++ v.features2).map
      (fun e => (e.1, normalizeAll v e.2)))) k = (listed v k).map (normalizeAll v) := by
    intro k
    rw [mapCollect_value, ← List.map_reverse, value_map_snd]; rfl
  have hmem : ∀ k ms, value (mapCollect ((v.features ++ v.features2).map
      (fun e => (e.1, normalizeAll v e.2)))) k = some ms ↔ Members v k ms := by
    intro k ms
    rw [hv, Option.map_eq_some_iff, Members]
    refine exists_congr fun l => and_congr_right fun _ => ?_
    rw [← normalizeAll_iff, eq_comm]
  generalize hg : mapCollect ((v.features ++ v.features2).map
      (fun e => (e.1, normalizeAll v e.2))) = g at hn hv hmem
  obtain ⟨h1, h2⟩ := swapRemove_spec hn "default".toList
  have hbuild : buildVersion v = ⟨v.vers, v.yanked, v.rustVersion, (swapRemove g "default".toList).1,
      sortBy (fun a b => strCmp a.1 b.1) (swapRemove g "default".toList).2, v.deps⟩ := by
    rw [← hg]; rfl
  have hsort := sortBy_stableSorted (strCmp_total.preorder.comap (fun e : Str × List Str => e.1))
    (swapRemove g "default".toList).2
  have hperm := hsort.perm.trans h2
  rw [hbuild]
  refine ⟨rfl, rfl, rfl, rfl, ?_, ?_, ?_, ?_⟩
  · show (swapRemove g "default".toList).1 = none ↔ _
    rw [h1, hv]; simp
  · intro ms
    show (swapRemove g "default".toList).1 = some ms ↔ _
    rw [h1, hmem]
  · show (sortBy (fun a b => strCmp a.1 b.1) (swapRemove g "default".toList).2).Pairwise _
    have hnd : ((sortBy (fun a b : Str × List Str => strCmp a.1 b.1)
        (swapRemove g "default".toList).2).map Prod.fst).Nodup := by
      refine ((hperm.map Prod.fst).nodup_iff).2 ?_
      exact hn.sublist ((List.filter_sublist).map _)
    have := hsort.sorted
    rw [List.nodup_iff_pairwise_ne, List.pairwise_map] at hnd
    refine (this.and hnd).imp ?_
    intro a b ⟨ha, hb⟩
    cases e : strCmp a.1 b.1 with
    | lt => rfl
    | gt => exact absurd e ha
    | eq => exact absurd ((strCmp_total.eq_iff _ _).1 e) hb
  · intro k ms
    show (k, ms) ∈ sortBy (fun a b => strCmp a.1 b.1) (swapRemove g "default".toList).2 ↔ _
    rw [hperm.mem_iff, List.mem_filter, ← value_mem hn, hmem, and_comm]
    simp

theorem describes_unique {raw : RawVersion} {a b : IndexVersion} (ha : Describes raw a)
    (hb : Describes raw b) : a = b := by
  have hd : a.defaultFeatures = b.defaultFeatures := by
    cases e : a.defaultFeatures with
    | none => exact (hb.default_none.2 (ha.default_none.1 e)).symm
    | some ms => exact ((hb.default_some ms).2 ((ha.default_some ms).1 e)).symm
  have hf : a.features = b.features := by
    have hpre := strCmp_total.preorder.comap (fun e : Str × List Str => e.1)
    have nod : ∀ {l : List (Str × List Str)}, (l.Pairwise fun a b => strCmp a.1 b.1 = .lt) → l.Nodup := by
      intro l h
      refine h.imp ?_
      rintro x y hxy rfl
      rw [(strCmp_total.eq_iff _ _).2 rfl] at hxy
      cases hxy
    have hp : a.features.Perm b.features := by
      rw [List.perm_ext_iff_of_nodup (nod ha.sorted) (nod hb.sorted)]
      rintro ⟨k, ms⟩
      rw [ha.features, hb.features]
    exact List.Perm.eq_of_pairwise (le := fun a b => strCmp a.1 b.1 = .lt) (by
      intro x y _ _ h1 h2
      have := strCmp_total.swap x.1 y.1
      rw [h1, h2] at this
      cases this) ha.sorted hb.sorted hp
  obtain ⟨h1, h2, h3, h4, -⟩ := ha
  obtain ⟨g1, g2, g3, g4, -⟩ := hb
  cases a; cases b
  simp_all

/-! ## Lines -/

open Verif.Diag in
theorem strLines_eq (s : Str) : ∀ cur : Str, '\n' ∉ cur →
    strLines cur s = if (lines (cur ++ s)).getLast? = some [] then (lines (cur ++ s)).dropLast
      else lines (cur ++ s) := by
  induction s with
  | nil =>
    intro cur h
    rw [List.append_nil, lines_last h, strLines]
    by_cases hc : cur = [] <;> simp [hc]
  | cons c s ih =>
    intro cur h
    rw [strLines]
    split
    · next hc =>
      subst hc
      have hne : lines s ≠ [] := by
        rw [lines]
        have := splitNl_ne_nil s
        cases hs : splitNl s with
        | nil => exact absurd hs this
        | cons a l => cases l <;> simp [stripTerminated]
      rw [lines_app h, ih [] (by simp), List.nil_append, List.getLast?_cons]
      cases hl : (lines s).getLast? with
      | none => exact absurd (List.getLast?_eq_none_iff.1 hl) hne
      | some x =>
        simp only [Option.getD_some, Option.some.injEq]
        split
        · rw [List.dropLast_cons_of_ne_nil hne]; rfl
        · rfl
    · next hc =>
      rw [ih (cur ++ [c]) (by simp [h, Ne.symm hc])]
      simp

theorem fileLines_iff (text : Str) (ls : List Str) : FileLines text ls ↔ strLines [] text = ls := by
  have hl := Verif.Diag.lines_linesOf text
  have hu : ∀ {m}, LinesOf text m ↔ m = Verif.Diag.lines text := fun {m} =>
    ⟨fun h => (Verif.Diag.linesOf_eq h).symm, fun h => h ▸ hl⟩
  rw [strLines_eq text [] (by simp), List.nil_append, FileLines, hu, hu]
  split
  · next h =>
    obtain ⟨m, hm⟩ := List.getLast?_eq_some_iff.1 h
    rw [hm, List.dropLast_concat]
    constructor
    · rintro (h | ⟨rfl, h⟩)
      · exact (List.append_inj_left' h rfl).symm
      · simp at h
    · rintro rfl; exact .inl rfl
  · next h =>
    constructor
    · rintro (h' | ⟨rfl, -⟩)
      · exact absurd (by rw [← h']; simp) h
      · rfl
    · rintro rfl; exact .inr ⟨rfl, h⟩

/-! ## parse_crate -/

theorem crateLoop_ok {json : Str → Res Unit RawVersion} {ls : List Str} :
    ∀ {name : Option Str} {vs : List IndexVersion} {r : Option Str × List IndexVersion},
    crateLoop json name vs ls = .ok r ↔ ∃ raws : List RawVersion, ls.map json = raws.map .ok ∧
      r.2 = vs ++ raws.map buildVersion ∧ r.1 = (name.or (raws.head?.map (·.name))) ∧
      ∀ raw ∈ raws, some raw.name = r.1 := by
  induction ls with
  | nil =>
    intro name vs r
    simp only [crateLoop, Res.ok.injEq, List.map_nil, List.nil_eq, List.map_eq_nil_iff]
    constructor
    · rintro rfl; exact ⟨[], by simp⟩
    · rintro ⟨raws, rfl, h1, h2, -⟩
      obtain ⟨a, b⟩ := r
      simp only [List.map_nil, List.append_nil, List.head?_nil, Option.map_none, Option.or_none] at h1 h2
      rw [h1, h2]
  | cons l ls ih =>
    intro name vs r
    rw [crateLoop]
    cases hj : json l with
    | err e =>
      simp only [reduceCtorEq, false_iff, not_exists]
      intro raws h
      have := congrArg List.head? h.1
      cases raws <;> simp [hj] at this
    | panic =>
      simp only [reduceCtorEq, false_iff, not_exists]
      intro raws h
      have := congrArg List.head? h.1
      cases raws <;> simp [hj] at this
    | ok v =>
      have hraws : ∀ raws : List RawVersion, (l :: ls).map json = raws.map .ok ↔
          ∃ t, raws = v :: t ∧ ls.map json = t.map .ok := by
        intro raws
        cases raws with
        | nil => simp
        | cons w t =>
          simp only [List.map_cons, hj, List.cons.injEq, Res.ok.injEq]
          constructor
          · rintro ⟨rfl, h⟩; exact ⟨t, ⟨rfl, rfl⟩, h⟩
          · rintro ⟨t', ⟨rfl, rfl⟩, h⟩; exact ⟨rfl, h⟩
      cases name with
      | some n =>
        simp only
        split
        · next hn =>
          simp only [reduceCtorEq, false_iff, not_exists]
          rintro raws ⟨h1, -, h3, h4⟩
          obtain ⟨t, rfl, -⟩ := (hraws raws).1 h1
          have := h4 v List.mem_cons_self
          rw [h3] at this
          simp only [Option.some_or, Option.some.injEq] at this
          simp [this] at hn
        · next hn =>
          have hn : n = v.name := by simpa using hn
          rw [ih]
          constructor
          · rintro ⟨t, h1, h2, h3, h4⟩
            refine ⟨v :: t, (hraws _).2 ⟨t, rfl, h1⟩, by simp [h2], by simpa using h3, ?_⟩
            rintro raw hraw
            rcases List.mem_cons.1 hraw with rfl | hraw
            · rw [h3, hn]; rfl
            · exact h4 raw hraw
          · rintro ⟨raws, h1, h2, h3, h4⟩
            obtain ⟨t, rfl, h5⟩ := (hraws raws).1 h1
            exact ⟨t, h5, by simp [h2], by simpa using h3,
              fun raw hr => h4 raw (List.mem_cons_of_mem _ hr)⟩
      | none =>
        simp only
        rw [ih]
        constructor
        · rintro ⟨t, h1, h2, h3, h4⟩
          refine ⟨v :: t, (hraws _).2 ⟨t, rfl, h1⟩, by simp [h2], by simpa using h3, ?_⟩
          rintro raw hraw
          rcases List.mem_cons.1 hraw with rfl | hraw
          · rw [h3]; rfl
          · exact h4 raw hraw
        · rintro ⟨raws, h1, h2, h3, h4⟩
          obtain ⟨t, rfl, h5⟩ := (hraws raws).1 h1
          exact ⟨t, h5, by simp [h2], by simpa using h3,
            fun raw hr => h4 raw (List.mem_cons_of_mem _ hr)⟩

end Verif.Index
