import Verif.Toml.AssocReach

/-! # Comments: the invariant -/

namespace Verif.Toml
open Verif Verif.Spec.Toml

theorem nextExpr_isNone {ws : List Ln} (hn : nextExpr ws = none) : ∀ l ∈ ws, l.isExpr = false := by
  intro l hl
  unfold nextExpr at hn
  simpa using List.find?_eq_none.1 hn l hl

theorem nextExpr_ne {ws : List Ln} {l : Ln} (hl : l ∈ ws) (hx : l.isExpr = true) : nextExpr ws ≠ none := by
  intro h
  rw [nextExpr_isNone h l hl] at hx; cases hx

/-- A comment that is not directly above the line `l` has a blank line below. -/
theorem blank_of_fate {xs ws : List Ln} {l : Ln} (hw : ∀ l ∈ ws, l.isExpr = false) (hl : l.isExpr = true)
    (hf : ∀ p, fate xs (ws ++ [l]) ≠ .above p) : Ln.blank ∈ ws := by
  apply Classical.byContradiction
  intro hb
  obtain ⟨p, hp⟩ := fate_run (xs := xs) (ys := ws) (l := l) (fun m hm => by
    have := hw m hm
    cases m with
    | blank => exact absurd hm hb
    | comment => rfl
    | header => cases this
    | keyVal => cases this) hl
  exact hf p hp

theorem openHeader_pend {xs xs1 ys : List Ln} {d : Com} (h : xs = xs1 ++ .comment d :: ys) (hy : ∀ l ∈ ys, l.isExpr = false) :
    openHeader xs = openHeader xs1 := by
  rw [h, openHeader_append, openHeader_none]
  · rfl
  · rw [List.any_eq_false]
    intro l hl
    rcases List.mem_cons.1 hl with rfl | hl
    · simp [Ln.isHeader]
    · simp [nonExpr_notHeader (hy l hl)]

/-- Freestanding comments, with another header or assignment. -/
theorem AInv.free_expr {xs : List Ln} {c : Cfg} {l : Ln} {loose run : List Comment} {asts : List Ast} (h : AInv xs c)
    (hp : c.prev = loose ++ run) (hr : run.map comOf = runAbove xs) (hl : l.isExpr = true)
    (hk : ∀ k, .comment k ∈ asts → .comment k ∈ c.asts ∨ (k ∈ loose ∧ ∀ xs1 ys, (∀ l ∈ ys, l.isExpr = false) → Ln.blank ∈ ys →
      xs = xs1 ++ .comment (comOf k) :: ys → fate xs1 (ys ++ [l]) = .free))
    (hk' : ∀ k, .comment k ∈ c.asts → .comment k ∈ asts)
    (hf : ∀ xs1 d ys, xs = xs1 ++ .comment d :: ys → (∀ l ∈ ys, l.isExpr = false) → Ln.blank ∈ ys →
      fate xs1 (ys ++ [l]) = .free → ∀ k ∈ loose, .comment k ∈ asts) :
    (∀ xs1 d ys, xs ++ [l] = xs1 ++ .comment d :: ys → nextExpr ys ≠ none → fate xs1 ys = .free →
      ∃ k, comOf k = d ∧ .comment k ∈ asts) ∧
    (∀ k, .comment k ∈ asts → ∃ xs1 ys, xs ++ [l] = xs1 ++ .comment (comOf k) :: ys ∧ nextExpr ys ≠ none ∧ fate xs1 ys = .free) := by
  obtain ⟨s1, s2, -⟩ := loose_split h.pend hp hr
  constructor
  · intro xs1 d ys hx hn hfr
    rcases snoc_split hx with ⟨rfl, -, -⟩ | ⟨ys', rfl, hx'⟩
    · exact absurd rfl hn
    · by_cases hn' : nextExpr ys' = none
      · have hw := nextExpr_isNone hn'
        have hb := blank_of_fate hw hl (fun p => by rw [hfr]; simp)
        obtain ⟨k, k1, k2⟩ := List.mem_map.1 (s2 _ _ _ hx' hw hb)
        exact ⟨k, k2, hf _ _ _ hx' hw hb hfr k k1⟩
      · obtain ⟨k, k1, k2⟩ := h.free _ _ _ hx' hn' (by rw [← fate_append hn']; exact hfr)
        exact ⟨k, k1, hk' k k2⟩
  · intro k hkm
    rcases hk k hkm with hm | ⟨hm, hf⟩
    · obtain ⟨xs1, ys, h1, h2, h3⟩ := h.free' k hm
      exact ⟨xs1, ys ++ [l], by rw [h1]; simp, by rw [nextExpr_append h2]; exact h2, by rw [fate_append h2]; exact h3⟩
    · obtain ⟨xs1, ys, h1, h2, h3⟩ := s1 k hm
      exact ⟨xs1, ys ++ [l], by rw [h1]; simp, by rw [nextExpr_snoc h2 hl]; simp, hf _ _ h2 h3 h1⟩

theorem RestOk.nil {xs1 : List Ln} {p : Pos} {o : Option Com} : RestOk xs1 p o [] [] :=
  ⟨.inl rfl, fun zs c ws h => by simp at h⟩

theorem AInv.header {xs : List Ln} {c : Cfg} {x : Ast} {p : Pos} {loose run : List Comment} {o : Option Comment} (h : AInv xs c)
    (hp : c.prev = loose ++ run) (hr : run.map comOf = runAbove xs)
    (hx : tablePart x = some (p, ⟨c.storage.length, run.length + o.toList.length, 0⟩, [])) :
    AInv (xs ++ [.header p (o.map comOf)])
      ⟨c.asts ++ loose.map .comment ++ [x], c.storage ++ (abv 0 run ++ tl o), []⟩ := by
  have hlen : run.length + o.toList.length = (abv 0 run ++ tl o).length := by simp [abv, tl]
  have hfr := h.free_expr (l := .header p (o.map comOf)) (asts := c.asts ++ loose.map .comment ++ [x]) hp hr rfl ?_ ?_ ?_
  · refine ⟨?_, ?_, ?_, ?_, hfr.1, hfr.2⟩
    · rw [pendOf_snoc]; rfl
    · intro xs1 p' inner tail ys hxs
      rcases snoc_split hxs with ⟨-, -, hh⟩ | ⟨ys', rfl, hx'⟩
      · cases hh
      · exact (h.asg _ _ _ _ _ hx').mono (fun _ _ h => by simpa using h.append (l := loose.map .comment ++ [x])) ⟨_, rfl⟩
    · intro xs1 p' tail ys hxs
      rcases snoc_split hxs with ⟨rfl, rfl, hh⟩ | ⟨ys', rfl, hx'⟩
      · cases hh
        have hst : (storedIn (c.storage ++ (abv 0 run ++ tl o)) ⟨c.storage.length, run.length + o.toList.length, 0⟩).map seen =
            headSeen xs (o.map comOf) := by
          rw [hlen, storedIn_new, List.map_append, seen_abv, seen_tl, hr]; rfl
        refine ⟨x, _, _, [], hx, ?_, by rw [List.append_nil]; exact hst, .nil, ?_⟩
        · unfold RangeIn; rw [hlen]; simp
        · refine ⟨by simp, rfl, [], ?_, by simp⟩
          rw [List.append_nil, ← hst, hlen, storedIn_new]
          simp
      · obtain ⟨x0, r, as, rest, h1, h2, h3, h4, h5⟩ := h.head _ _ _ _ hx'
        refine ⟨x0, r, as, rest, h1, ?_, by rw [storedIn_append h2, h3], h4.header, ?_⟩
        · unfold RangeIn at *; rw [List.length_append]; omega
        · rw [if_pos (by simp [Ln.isHeader])]
          have : x0 ∈ c.asts := by
            split at h5
            · exact (List.dropLast_sublist _).subset h5
            · exact List.mem_of_getLast? h5.1
          show x0 ∈ (c.asts ++ loose.map Ast.comment ++ [x]).dropLast
          rw [List.dropLast_concat]
          simp [this]
    · intro hh
      simp [Ln.isHeader] at hh
  · intro k hk
    simp only [List.mem_append, List.mem_singleton, List.mem_map] at hk
    rcases hk with (hk | ⟨k', hk, hkk⟩) | hk
    · exact .inl hk
    · cases hkk
      refine .inr ⟨hk, fun xs1 ys hy hb _ => ?_⟩
      rw [fate_loose hy hb rfl]
      cases openHeader xs1 <;> rfl
    · rw [← hk] at hx; cases hx
  · intro k hk; simp [hk]
  · intro _ _ _ _ _ _ _ k hk
    simp only [List.mem_append, List.mem_map]
    exact .inl (.inr ⟨k, hk, rfl⟩)

theorem levelBehind_false {xs : List Ln} (h : xs.any Ln.isHeader = false) : levelBehind xs = 0 := by simp [levelBehind, h]

theorem levelBehind_true {xs : List Ln} (h : xs.any Ln.isHeader = true) : levelBehind xs = 1 := by simp [levelBehind, h]

theorem seen_com (mid : List AssocComment) : (mid.map seen).map (·.2.2) = mid.map fun c => comOf c.comment := by
  rw [List.map_map]; rfl

theorem AInv.root {xs : List Ln} {c : Cfg} {a : ToplevelAssignment} {loose run : List Comment} {mid : List AssocComment}
    {o : Option Comment} (h : AInv xs c) (hlast : ∀ x, c.asts.getLast? = some x → tablePart x = none)
    (hp : c.prev = loose ++ run) (hr : run.map comOf = runAbove xs)
    (ha : a.comments = ⟨c.storage.length, run.length + mid.length + o.toList.length, 0⟩) :
    AInv (xs ++ [.keyVal a.assignment.eq (mid.map fun c => comOf c.comment) (o.map comOf)])
      ⟨c.asts ++ loose.map .comment ++ [.assignment a], c.storage ++ (abv 0 run ++ mid ++ tl o), []⟩ := by
  have hno : xs.any Ln.isHeader = false := by
    apply Classical.byContradiction
    intro hh
    rw [Bool.not_eq_false] at hh
    obtain ⟨xs1, p, o, ys, h1, h2⟩ := last_header hh
    obtain ⟨x, r, as, rest, g1, -, -, -, g2⟩ := h.head _ _ _ _ h1
    rw [if_neg (by simp [h2])] at g2
    rw [hlast x g2.1] at g1
    cases g1
  have hlen : run.length + mid.length + o.toList.length = (abv 0 run ++ mid ++ tl o).length := by simp [abv, tl, Nat.add_assoc]
  have hfr := h.free_expr (l := .keyVal a.assignment.eq (mid.map fun c => comOf c.comment) (o.map comOf))
    (asts := c.asts ++ loose.map .comment ++ [.assignment a]) hp hr rfl ?_ ?_ ?_
  · refine ⟨?_, ?_, ?_, ?_, hfr.1, hfr.2⟩
    · rw [pendOf_snoc]; rfl
    · intro xs1 p' inner tail ys hxs
      rcases snoc_split hxs with ⟨rfl, rfl, hh⟩ | ⟨ys', rfl, hx'⟩
      · cases hh
        refine ⟨a.comments, mid.map seen, .root (by simp), ?_, ?_, seen_com mid⟩
        · unfold RangeIn; rw [ha, hlen]; simp
        · rw [ha, hlen, storedIn_new, List.map_append, List.map_append, seen_abv, seen_tl, hr, levelBehind_false hno]
      · exact (h.asg _ _ _ _ _ hx').mono
          (fun _ _ h => by simpa using h.append (l := loose.map .comment ++ [.assignment a])) ⟨_, rfl⟩
    · intro xs1 p' tail ys hxs
      exfalso
      have : (xs ++ [Ln.keyVal a.assignment.eq (mid.map fun c => comOf c.comment) (o.map comOf)]).any Ln.isHeader = true := by
        rw [hxs]; simp [Ln.isHeader]
      rw [List.any_append, hno] at this
      simp [Ln.isHeader] at this
    · intro _ x hx
      simp only [List.mem_append, List.mem_singleton, List.mem_map] at hx
      rcases hx with (hx | ⟨k', hk, rfl⟩) | rfl
      · exact h.noTab hno x hx
      · rfl
      · rfl
  · intro k hk
    simp only [List.mem_append, List.mem_singleton, List.mem_map] at hk
    rcases hk with (hk | ⟨k', hk, hkk⟩) | hk
    · exact .inl hk
    · cases hkk
      refine .inr ⟨hk, fun xs1 ys hy hb hxs => ?_⟩
      rw [fate_loose hy hb rfl, ← openHeader_pend hxs hy, openHeader_none hno]
    · cases hk
  · intro k hk; simp [hk]
  · intro _ _ _ _ _ _ _ k hk
    simp only [List.mem_append, List.mem_map]
    exact .inl (.inr ⟨k, hk, rfl⟩)

/-- An assignment in the open table. -/
theorem RestOk.keyVal {xs1 ys : List Ln} {p q : Pos} {i : List Com} {tail o : Option Com} {rest more : List Seen} {loose run : List Comment}
    (h : RestOk xs1 p tail ys rest) (hno : ys.any Ln.isHeader = false) (hre : rest <+: more)
    (hpend : (loose ++ run).map comOf = pendOf (xs1 ++ .header p tail :: ys))
    (hr : run.map comOf = runAbove (xs1 ++ .header p tail :: ys))
    (hm : more.map (·.2.2) ++ (loose ++ run).map comOf = ys.flatMap Ln.coms) :
    RestOk xs1 p tail (ys ++ [.keyVal q i o])
      (if loose = [] then rest else more ++ (loose.map comOf).map (fun c => (.contained, 0, c))) := by
  obtain ⟨-, s2, s3⟩ := loose_split hpend rfl hr
  have hall : ∀ zs c ws, ys ++ [.keyVal q i o] = zs ++ .comment c :: ws → zs.any Ln.isHeader = false → nextExpr ws ≠ none →
      fate (xs1 ++ .header p tail :: zs) ws = .inside p → (AssocPos.contained, 0, c) ∈ rest ∨ c ∈ loose.map comOf := by
    intro zs c ws h1 h2 h3 h4
    rcases snoc_split h1 with ⟨rfl, h5, h6⟩ | ⟨ws', rfl, h5⟩
    · cases h6
    · by_cases hn : nextExpr ws' = none
      · have hw := nextExpr_isNone hn
        have hb := blank_of_fate hw rfl (fun p => by rw [h4]; simp)
        exact .inr (s2 (xs1 ++ .header p tail :: zs) c ws' (by rw [h5]; simp) hw hb)
      · exact .inl (h.all zs c ws' h5 h2 hn (by rw [← fate_append hn]; exact h4))
  split
  · rename_i he
    constructor
    · rcases h.upTo with h | ⟨zs, c, ws, h1, h2, h3, h4, h5⟩
      · exact .inl h
      · exact .inr ⟨zs, c, ws ++ [.keyVal q i o], by rw [h1]; simp, h2, by rw [nextExpr_append h3]; exact h3,
          by rw [fate_append h3]; exact h4, h5⟩
    · intro zs c ws h1 h2 h3 h4
      rcases hall zs c ws h1 h2 h3 h4 with hh | hh
      · exact hh
      · rw [he] at hh; cases hh
  · rename_i he
    constructor
    · obtain ⟨xd, d, yd, e1, e2, e3, X, ls, e4, e5, e6, e7, e8⟩ := s3 he
      -- the last header or assignment in front of the comments
      have hX : ∃ Z, X = xs1 ++ .header p tail :: Z ∧ ys = Z ++ ls ++ .comment d :: yd := by
        have e9 : xs1 ++ .header p tail :: ys = X ++ (ls ++ .comment d :: yd) := by rw [e1, e4]; simp
        have hne : ∀ l ∈ ls ++ .comment d :: yd, l.isExpr = false := by
          intro l hl
          rcases List.mem_append.1 hl with hl | hl
          · exact e5 l hl
          · rcases List.mem_cons.1 hl with rfl | hl
            · rfl
            · exact e2 l hl
        rcases List.append_eq_append_iff.1 e9 with ⟨m, f1, f2⟩ | ⟨m, f1, f2⟩
        · cases m with
          | nil =>
            have := hne (.header p tail) (by rw [List.nil_append] at f2; rw [← f2]; simp)
            cases this
          | cons z m =>
            simp only [List.cons_append, List.cons.injEq] at f2
            obtain ⟨rfl, f2⟩ := f2
            exact ⟨m, f1, by rw [f2]; simp⟩
        · have := hne (.header p tail) (by rw [f2]; simp)
          cases this
      obtain ⟨Z, rfl, hys⟩ := hX
      have hz : (Z ++ ls).any Ln.isHeader = false := by
        rw [hys] at hno
        exact (mem_any_false hno).1
      refine .inr ⟨Z ++ ls, d, yd ++ [.keyVal q i o], by rw [hys]; simp, hz, by rw [nextExpr_snoc e2 rfl]; simp, ?_, ?_⟩
      · rw [fate_loose e2 e3 rfl, openHeader_last hz]
      · rw [List.map_append, List.map_map]
        have hid : (fun x : Seen => x.2.2) ∘ (fun c => ((.contained, 0, c) : Seen)) = id := rfl
        rw [hid, List.map_id, e6, List.flatMap_append, List.append_assoc]
        rw [hys, List.map_append, e6, List.flatMap_append, List.flatMap_append, List.flatMap_cons, Ln.coms, e7] at hm
        have hm' : more.map (·.2.2) ++ (ls.flatMap Ln.coms ++ [d] ++ run.map comOf) =
            Z.flatMap Ln.coms ++ (ls.flatMap Ln.coms ++ [d] ++ run.map comOf) := by rw [hm]; simp
        rw [List.append_cancel_right hm']
    · intro zs c ws h1 h2 h3 h4
      rcases hall zs c ws h1 h2 h3 h4 with hh | hh
      · exact List.mem_append_left _ (hre.subset hh)
      · exact List.mem_append_right _ (List.mem_map_of_mem hh)

theorem AInv.inTable {xs : List Ln} {c : Cfg} {asts0 : List Ast} {x x' : Ast} {q : Pos} {r : CommentRange}
    {as : List ToplevelAssignment} {a : ToplevelAssignment} {loose run : List Comment} {mid : List AssocComment}
    {o : Option Comment} (h : AInv xs c) (hc : c.asts = asts0 ++ [x]) (hx : tablePart x = some (q, r, as))
    (hp : c.prev = loose ++ run) (hr : run.map comOf = runAbove xs)
    (hx' : tablePart x' = some (q, if loose = [] then r else ⟨r.start, c.storage.length + loose.length - r.start, r.level⟩, as ++ [a]))
    (ha : a.comments = ⟨c.storage.length + loose.length, run.length + mid.length + o.toList.length, 1⟩) :
    AInv (xs ++ [.keyVal a.assignment.eq (mid.map fun c => comOf c.comment) (o.map comOf)])
      ⟨asts0 ++ [x'], c.storage ++ (ctd r.level loose ++ (abv 1 run ++ mid ++ tl o)), []⟩ := by
  have hyes : xs.any Ln.isHeader = true := by
    apply Classical.byContradiction
    intro hh
    rw [Bool.not_eq_true] at hh
    have := h.noTab hh x (by rw [hc]; simp)
    rw [hx] at this; cases this
  have hlen : run.length + mid.length + o.toList.length = (abv 1 run ++ mid ++ tl o).length := by simp [abv, tl, Nat.add_assoc]
  have hll : loose.length = (ctd r.level loose).length := by simp [ctd]
  have hfr := h.free_expr (l := .keyVal a.assignment.eq (mid.map fun c => comOf c.comment) (o.map comOf))
    (asts := asts0 ++ [x']) hp hr rfl ?_ ?_ ?_
  · refine ⟨?_, ?_, ?_, ?_, hfr.1, hfr.2⟩
    · rw [pendOf_snoc]; rfl
    · intro xs1 p' inner tail ys hxs
      rcases snoc_split hxs with ⟨rfl, rfl, hh⟩ | ⟨ys', rfl, hx1⟩
      · cases hh
        refine ⟨a.comments, mid.map seen, .inTable (by simp) hx' (by simp), ?_, ?_, seen_com mid⟩
        · unfold RangeIn; rw [ha, hlen, hll]
          simp only [List.length_append]; omega
        · rw [ha, hlen, storedIn_mid hll, List.map_append, List.map_append, seen_abv, seen_tl, hr, levelBehind_true hyes]
      · exact (h.asg _ _ _ _ _ hx1).mono (fun _ _ h => by rw [hc] at h; exact h.grow hx hx') ⟨_, rfl⟩
    · intro xs1 p' tail ys hxs
      rcases snoc_split hxs with ⟨-, -, hh⟩ | ⟨ys', rfl, hx1⟩
      · cases hh
      · obtain ⟨x0, r0, as0, rest, h1, h2, h3, h4, h5⟩ := h.head _ _ _ _ hx1
        split at h5
        · rename_i hy
          refine ⟨x0, r0, as0, rest, h1, ?_, by rw [storedIn_append h2, h3], h4.closed hy, ?_⟩
          · unfold RangeIn at *; rw [List.length_append]; omega
          · rw [if_pos (by rw [List.any_append, hy]; rfl)]
            rw [hc, List.dropLast_concat] at h5
            show x0 ∈ (asts0 ++ [x']).dropLast
            rw [List.dropLast_concat]; exact h5
        · rename_i hy
          rw [Bool.not_eq_true] at hy
          obtain ⟨g1, g2, more, g3, g4⟩ := h5
          rw [hc, List.getLast?_concat] at g1
          cases g1
          rw [hx] at h1
          cases h1
          have hpre : rest <+: more := by
            have : storedIn c.storage r <+: c.storage.drop r.start := List.take_prefix _ _
            have := this.map seen
            rw [h3, g3] at this
            exact (List.prefix_append_right_inj _).1 this
          have hst : r.start ≤ c.storage.length := by unfold RangeIn at h2; omega
          have hk := h4.keyVal (q := a.assignment.eq) (i := mid.map fun c => comOf c.comment) (o := o.map comOf) (run := run) (loose := loose) hy hpre (by rw [← hp, ← hx1]; exact h.pend)
            (by rw [← hx1]; exact hr) (by rw [← hp]; exact g4)
          refine ⟨x', _, _, _, hx', ?_, ?_, hk, ?_⟩
          · split
            · unfold RangeIn at *; rw [List.length_append]; omega
            · unfold RangeIn at *
              simp only [List.length_append, ← hll]; omega
          · split
            · rw [storedIn_append h2, h3]
            · unfold storedIn
              simp only []
              rw [← List.append_assoc, List.drop_append_of_le_length (by simp; omega),
                List.take_append_of_le_length (by simp [← hll]), List.drop_append_of_le_length hst,
                List.take_of_length_le (by simp [← hll]; omega), List.map_append, g3, seen_ctd, g2]
              simp
          · rw [if_neg (by rw [List.any_append, hy]; simp [Ln.isHeader])]
            refine ⟨by simp, ?_, more ++ ((ctd 0 loose ++ (abv 1 run ++ mid ++ tl o)).map seen), ?_, ?_⟩
            · split
              · exact g2
              · exact g2
            · have : (if loose = [] then r else ⟨r.start, c.storage.length + loose.length - r.start, r.level⟩).start = r.start := by
                split <;> rfl
              show ((c.storage ++ (ctd r.level loose ++ (abv 1 run ++ mid ++ tl o))).drop _).map seen = _
              rw [this, List.drop_append_of_le_length hst, List.map_append, g3, g2]
              simp
            · rw [List.flatMap_append, ← g4, hp]
              simp only [List.map_append, seen_abv, seen_ctd, seen_tl, List.map_map]
              simp only [List.flatMap_cons, List.flatMap_nil, Ln.coms, List.append_nil, List.map_nil, List.append_assoc]
              have hid : ∀ (w : AssocPos) (n : Nat), (fun x : Seen => x.2.2) ∘ (fun c => ((w, n, c) : Seen)) ∘ comOf = comOf :=
                fun _ _ => rfl
              have hs : (fun x : Seen => x.2.2) ∘ seen = fun c => comOf c.comment := rfl
              rw [hs, hid, hid]
              cases o <;> simp
    · intro hh
      rw [(mem_any_false hh).1] at hyes; cases hyes
  · intro k hk
    left
    rw [hc]
    simp only [List.mem_append, List.mem_singleton] at hk ⊢
    rcases hk with hk | hk
    · exact .inl hk
    · rw [← hk] at hx'; cases hx'
  · intro k hk
    rw [hc] at hk
    simp only [List.mem_append, List.mem_singleton] at hk ⊢
    rcases hk with hk | hk
    · exact .inl hk
    · rw [← hk] at hx; cases hx
  · intro xs1 d ys hxs hy hb hf
    exfalso
    rw [fate_loose hy hb rfl, ← openHeader_pend hxs hy] at hf
    obtain ⟨xs2, p, o, ys2, e1, e2⟩ := last_header hyes
    rw [e1, openHeader_last e2] at hf
    cases hf

/-- What is gathered from lines satisfies the invariant. -/
theorem Reach.inv {xs : List Ln} {c : Cfg} (h : Reach xs c) : AInv xs c := by
  induction h with
  | nil =>
    refine ⟨rfl, ?_, ?_, by simp, ?_, by simp⟩
    · intro _ _ _ _ _ h; simp at h
    · intro _ _ _ _ h; simp at h
    · intro _ _ _ h; simp at h
  | blank _ ih => exact ih.nonExpr rfl (by simp [Ln.coms])
  | comment _ ih => exact ih.nonExpr rfl (by simp [Ln.coms])
  | header _ h2 h3 h4 ih => exact ih.header h2 h3 h4
  | root _ h2 h3 h4 h5 ih => exact ih.root h2 h3 h4 h5
  | inTable _ h2 h3 h4 h5 h6 h7 ih => exact ih.inTable h2 h3 h4 h5 h6 h7

end Verif.Toml
