import Verif.Diag.IndexLemmas

/-! # Properties C55-C57: the crate index -/

namespace Verif.Props
open Verif Verif.Index Verif.Spec Verif.Spec.Index Verif.Semver Verif.Toml

/-! ## C55 -/

/-- C55: the order of feature members is total and agrees with equality. -/
theorem C55_total : TotalOrder memberCmp := memberCmp_total

/-- C55: plain features are smaller than features of dependencies, which are smaller than
dependencies; in each group the order is the one of the texts. -/
theorem C55_order (a b : Str) : memberCmp a b = .lt ↔
    rank a < rank b ∨ (rank a = rank b ∧ strCmp a b = .lt) := by
  rw [memberCmp_eq, Ordering.then_eq_lt, Nat.compare_eq_lt, Nat.compare_eq_eq]

example : memberCmp "std".toList "serde?/std".toList = .lt ∧
    memberCmp "serde?/std".toList "dep:a".toList = .lt ∧
    memberCmp "dep:a/b".toList "dep:b".toList = .lt := by decide

/-! ## C56 -/

/-- C56: an index file is accepted exactly if it has at least one line, every line is a valid
description (according to the JSON library) and all have the same name; and then the crate has that
name and exactly the versions described by the lines, in ascending order of version. -/
theorem C56_parse (json : Str → Res Unit RawVersion) (text : Str) (c : Crate) :
    parseCrate json text = .ok c ↔
    ∃ ls, ∃ raws : List RawVersion, ∃ vs, FileLines text ls ∧ ls.map json = raws.map .ok ∧
      raws ≠ [] ∧ (∀ raw ∈ raws, raw.name = c.name) ∧
      vs.length = raws.length ∧
      (∀ (i : Nat) raw v, raws[i]? = some raw → vs[i]? = some v → Describes raw v) ∧
      StableSorted (fun a b => versionCmp a.vers b.vers) vs c.versions := by
  have hpre := versionCmp_total.preorder.comap (fun v : IndexVersion => v.vers)
  have hb : ∀ (raws : List RawVersion) (vs : List IndexVersion), vs.length = raws.length →
      (∀ (i : Nat) raw v, raws[i]? = some raw → vs[i]? = some v → Describes raw v) →
      vs = raws.map buildVersion := by
    intro raws vs hl h
    apply List.ext_getElem (by simpa using hl)
    intro i h1 h2
    rw [List.getElem_map]
    have hlt : i < raws.length := by omega
    exact describes_unique (h i raws[i] vs[i] (List.getElem?_eq_getElem hlt)
      (List.getElem?_eq_getElem h1)) (buildVersion_describes _)
  rw [parseCrate]
  constructor
  · intro h
    split at h
    · cases h
    · cases h
    · next name versions hloop =>
      obtain ⟨raws, h1, h2, h3, h4⟩ := crateLoop_ok.1 hloop
      dsimp only at h h2 h3 h4
      split at h
      · cases h
      · next name =>
        simp only [Res.ok.injEq] at h
        subst h
        refine ⟨_, raws, raws.map buildVersion, (fileLines_iff _ _).2 rfl, h1, ?_, ?_, by simp, ?_, ?_⟩
        · rintro rfl; simp at h3
        · intro raw hr; exact Option.some.inj (h4 raw hr)
        · intro i raw v e1 e2
          rw [List.getElem?_map, e1] at e2
          simp only [Option.map_some, Option.some.injEq] at e2
          subst e2
          exact buildVersion_describes raw
        · rw [h2, List.nil_append]; exact sortBy_stableSorted hpre _
  · rintro ⟨ls, raws, vs, h1, h2, h3, h4, h5, h6, h7⟩
    have hls := (fileLines_iff _ _).1 h1
    have hvs := hb raws vs h5 h6
    have hloop : crateLoop json none [] (strLines [] text) = .ok (some c.name, vs) := by
      rw [crateLoop_ok]
      refine ⟨raws, by rw [hls]; exact h2, by rw [hvs]; rfl, ?_, fun raw hr => by rw [h4 raw hr]⟩
      cases raws with
      | nil => exact absurd rfl h3
      | cons r rs => simp [h4 r]
    rw [hloop]
    simp only
    rw [← stableSorted_unique hpre h7 (sortBy_stableSorted hpre vs)]

/-- C56: the versions of an accepted file are in ascending order. -/
theorem C56_sorted {json : Str → Res Unit RawVersion} {text : Str} {c : Crate}
    (h : parseCrate json text = .ok c) :
    c.versions.Pairwise fun a b => versionCmp a.vers b.vers ≠ .gt := by
  obtain ⟨_, _, _, _, _, _, _, _, _, h7⟩ := (C56_parse json text c).1 h
  exact h7.sorted

/-- A JSON library for the example: two lines are known. -/
def sampleJson (l : Str) : Res Unit RawVersion :=
  if l = "one".toList then
    .ok ⟨"a".toList, ⟨1, 2, 0, [], []⟩, [("default".toList, ["std".toList]),
      ("std".toList, ["serde".toList, "b/x".toList, "alloc".toList]), ("alloc".toList, [])],
      [], [⟨"serde".toList, none, ⟨.ZERO, 0, []⟩, true, [], .normal, none, true⟩], false, none⟩
  else if l = "two".toList then .ok ⟨"a".toList, ⟨1, 0, 0, [], []⟩, [], [], [], true, none⟩
  else .err ()

example : parseCrate sampleJson "one\r\ntwo\n".toList = .ok ⟨"a".toList,
    [⟨⟨1, 0, 0, [], []⟩, true, none, none, [], []⟩,
     ⟨⟨1, 2, 0, [], []⟩, false, none, some ["std".toList],
      [("alloc".toList, []), ("std".toList, ["alloc".toList, "b/x".toList, "dep:serde".toList])],
      [⟨"serde".toList, none, ⟨.ZERO, 0, []⟩, true, [], .normal, none, true⟩]⟩]⟩ := by decide

example : parseCrate sampleJson "one\n\ntwo\n".toList = .err .json := by decide

/-! ## C57 -/

theorem slice_prefix {a b : Str} : slice (a ++ b) 0 (blen a) = some a :=
  slice_of (x := []) (y := a) (z := b) rfl rfl rfl

/-- C57: the place of an ASCII crate name in the index of crates.io, and the memory is reserved
exactly. -/
theorem C57_url {name : Str} (hne : name ≠ []) (ha : ∀ c ∈ name, c.utf8Size = 1) :
    ∃ url, sparseIndexUrl .cratesIo name = some (blen url, url) ∧
      url = "https://index.crates.io/".toList ++
        (match name with
        | [_] => "1/".toList
        | [_, _] => "2/".toList
        | [a, _, _] => "3/".toList ++ [a, '/']
        | a :: b :: c :: d :: _ => [a, b, '/', c, d, '/']
        | [] => []) ++ name := by
  have hl : ∀ s : Str, (∀ c ∈ s, c.utf8Size = 1) → blen s = s.length := by
    intro s hs
    induction s with
    | nil => rfl
    | cons c s ih =>
      rw [blen_cons, hs c List.mem_cons_self, ih fun c hc => hs c (List.mem_cons_of_mem _ hc),
        List.length_cons, Nat.add_comm]
  have u1 : blen "https://index.crates.io/1/".toList = 26 := by decide
  have u2 : blen "https://index.crates.io/2/".toList = 26 := by decide
  have u3 : blen "https://index.crates.io/3/".toList = 26 := by decide
  have u4 : blen "https://index.crates.io/".toList = 24 := by decide
  have e1 : "https://index.crates.io/1/".toList = "https://index.crates.io/".toList ++ "1/".toList := by
    decide
  have e2 : "https://index.crates.io/2/".toList = "https://index.crates.io/".toList ++ "2/".toList := by
    decide
  have e3 : "https://index.crates.io/3/".toList = "https://index.crates.io/".toList ++ "3/".toList := by
    decide
  have hs : '/'.utf8Size = 1 := by decide
  match name, hne, ha with
  | [a], _, ha =>
    have h := hl _ ha
    refine ⟨_, ?_, rfl⟩
    simp only [sparseIndexUrl, h, List.length_cons, List.length_nil, boxedStr, ← e1, blen_append, u1]
  | [a, b], _, ha =>
    have h := hl _ ha
    refine ⟨_, ?_, rfl⟩
    simp only [sparseIndexUrl, h, List.length_cons, List.length_nil, boxedStr, ← e2, blen_append, u2]
  | [a, b, c], _, ha =>
    have h := hl _ ha
    have ha1 : blen [a] = 1 := by simp [ha a]
    have s1 : slice [a, b, c] 0 1 = some [a] := by
      have := slice_prefix (a := [a]) (b := [b, c])
      rwa [ha1] at this
    refine ⟨_, ?_, rfl⟩
    simp only [sparseIndexUrl, h, List.length_cons, List.length_nil, boxedStr, s1, Option.bind_eq_bind,
      Option.bind_some, Option.pure_def, Option.some.injEq, Prod.mk.injEq]
    refine ⟨?_, by rw [e3]; simp⟩
    rw [← List.append_assoc, ← e3]
    simp only [blen_append, u3, h, List.length_cons, List.length_nil]
    simp [ha a, hs]
  | a :: b :: c :: d :: r, _, ha =>
    have h := hl _ ha
    have b2 : blen [a, b] = 2 := by simp [ha a, ha b]
    have b4 : blen [a, b, c, d] = 4 := by simp [ha a, ha b, ha c, ha d]
    have s1 : slice (a :: b :: c :: d :: r) 0 2 = some [a, b] := by
      have := slice_prefix (a := [a, b]) (b := c :: d :: r)
      rwa [b2] at this
    have s2 : slice (a :: b :: c :: d :: r) 2 4 = some [c, d] :=
      slice_of (x := [a, b]) (y := [c, d]) (z := r) rfl b2.symm b4.symm
    have hn : sparseIndexUrl .cratesIo (a :: b :: c :: d :: r) = (do
        let digits01 ← slice (a :: b :: c :: d :: r) 0 2
        let digits23 ← slice (a :: b :: c :: d :: r) 2 4
        pure (boxedStr 30 ("https://index.crates.io/".toList ++ digits01 ++ ['/'] ++ digits23 ++ ['/'] ++
          (a :: b :: c :: d :: r)) (a :: b :: c :: d :: r))) := by
      rw [sparseIndexUrl]
      split
      · next e => rw [h] at e; simp at e
      · next e => rw [h] at e; simp at e
      · next e => rw [h] at e; simp at e
      · next e => rw [h] at e; simp at e
      · rfl
    refine ⟨_, ?_, rfl⟩
    rw [hn, s1, s2]
    simp only [boxedStr, Option.bind_eq_bind, Option.bind_some, Option.pure_def, Option.some.injEq,
      Prod.mk.injEq]
    refine ⟨?_, by simp⟩
    simp only [blen_append, u4, blen_cons, blen_nil, ha a, ha b, ha c, ha d, hs, List.mem_cons, true_or, or_true]

example : sparseIndexUrl .cratesIo "syn".toList = some (31, "https://index.crates.io/3/s/syn".toList) := by
  decide
example : sparseIndexUrl .cratesIo "serde".toList =
    some (35, "https://index.crates.io/se/rd/serde".toList) := by decide

/-- The code panics for the empty name, for names with other characters at the wrong place, and for
other registries. -/
theorem C57_panics : sparseIndexUrl .cratesIo [] = none ∧ sparseIndexUrl .cratesIo "aäb".toList = none ∧
    ∀ i n, sparseIndexUrl (.other i) n = none := ⟨by decide, by decide, fun _ _ => rfl⟩

end Verif.Props
