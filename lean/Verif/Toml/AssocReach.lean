import Verif.Toml.AssocLines

/-! # Comments: the items gathered from the lines of a document -/

namespace Verif.Toml
open Verif Verif.Spec.Toml

/-- The items, the stored comments, and the comments that are not assigned yet. -/
structure Cfg where
  asts : List Ast
  storage : List AssocComment
  prev : List Comment

/-- A comment at the end of a line. -/
def tl (o : Option Comment) : List AssocComment := o.toList.map (⟨.lineEnd, 0, ·⟩)

/-- Comments directly above something. -/
def abv (n : Nat) (cs : List Comment) : List AssocComment := cs.map (⟨.above, n, ·⟩)

/-- Comments in a table. -/
def ctd (n : Nat) (cs : List Comment) : List AssocComment := cs.map (⟨.contained, n, ·⟩)

/-- What is gathered from lines. -/
inductive Reach : List Ln → Cfg → Prop
  | nil : Reach [] ⟨[], [], []⟩
  | blank {xs c} : Reach xs c → Reach (xs ++ [.blank]) c
  | comment {xs c d} : Reach xs c → Reach (xs ++ [.comment (comOf d)]) ⟨c.asts, c.storage, c.prev ++ [d]⟩
  | header {xs c x p loose run o} : Reach xs c → c.prev = loose ++ run → run.map comOf = runAbove xs →
      tablePart x = some (p, ⟨c.storage.length, run.length + o.toList.length, 0⟩, []) →
      Reach (xs ++ [.header p (o.map comOf)])
        ⟨c.asts ++ loose.map .comment ++ [x], c.storage ++ (abv 0 run ++ tl o), []⟩
  | root {xs c a loose run mid o} : Reach xs c → (∀ x, c.asts.getLast? = some x → tablePart x = none) →
      c.prev = loose ++ run → run.map comOf = runAbove xs →
      a.comments = ⟨c.storage.length, run.length + mid.length + o.toList.length, 0⟩ →
      Reach (xs ++ [.keyVal a.assignment.eq (mid.map fun c => comOf c.comment) (o.map comOf)])
        ⟨c.asts ++ loose.map .comment ++ [.assignment a], c.storage ++ (abv 0 run ++ mid ++ tl o), []⟩
  | inTable {xs c asts0 x x' q r as a loose run mid o} : Reach xs c → c.asts = asts0 ++ [x] →
      tablePart x = some (q, r, as) → c.prev = loose ++ run → run.map comOf = runAbove xs →
      tablePart x' = some (q, if loose = [] then r else ⟨r.start, c.storage.length + loose.length - r.start, r.level⟩, as ++ [a]) →
      a.comments = ⟨c.storage.length + loose.length, run.length + mid.length + o.toList.length, 1⟩ →
      Reach (xs ++ [.keyVal a.assignment.eq (mid.map fun c => comOf c.comment) (o.map comOf)])
        ⟨asts0 ++ [x'], c.storage ++ (ctd r.level loose ++ (abv 1 run ++ mid ++ tl o)), []⟩

/-! ## Stored comments -/

theorem storedIn_append {st new : List AssocComment} {r : CommentRange} (h : RangeIn st.length r) :
    storedIn (st ++ new) r = storedIn st r := by
  unfold storedIn
  unfold RangeIn at h
  rw [List.drop_append_of_le_length (by omega), List.take_append_of_le_length (by simp; omega)]

theorem storedIn_new {st new : List AssocComment} {n : Nat} :
    storedIn (st ++ new) ⟨st.length, new.length, n⟩ = new := by
  simp [storedIn]

theorem storedIn_mid {st a new : List AssocComment} {n m : Nat} (h : m = a.length) :
    storedIn (st ++ (a ++ new)) ⟨st.length + m, new.length, n⟩ = new := by
  rw [← List.append_assoc]
  have := storedIn_new (st := st ++ a) (new := new) (n := n)
  simpa [h] using this

theorem seen_abv (n : Nat) (cs : List Comment) : (abv n cs).map seen = (cs.map comOf).map (fun c => (.above, n, c)) := by
  simp [abv, seen]

theorem seen_tl (o : Option Comment) : (tl o).map seen = (o.map comOf).toList.map (fun c => (.lineEnd, 0, c)) := by
  cases o <;> simp [tl, seen]

theorem seen_ctd (n : Nat) (cs : List Comment) : (ctd n cs).map seen = (cs.map comOf).map (fun c => (.contained, n, c)) := by
  simp [ctd, seen]

/-! ## The invariant -/

/-- An assignment of the tree. -/
inductive HasAsg (asts : List Ast) : Pos → CommentRange → Prop
  | root {x} : .assignment x ∈ asts → HasAsg asts x.assignment.eq x.comments
  | inTable {a p r as x} : a ∈ asts → tablePart a = some (p, r, as) → x ∈ as →
      HasAsg asts x.assignment.eq x.comments

theorem HasAsg.item {asts : List Ast} {p : Pos} {r : CommentRange} (h : HasAsg asts p r) : HasItem asts p r := by
  cases h with
  | root h => exact .root h
  | inTable h1 h2 h3 => exact .inTable h1 h2 h3

theorem HasAsg.append {asts l : List Ast} {p : Pos} {r : CommentRange} (h : HasAsg asts p r) : HasAsg (asts ++ l) p r := by
  cases h with
  | root h => exact .root (by simp [h])
  | inTable h1 h2 h3 => exact .inTable (by simp [h1]) h2 h3

/-- A table gets more comments and another assignment. -/
theorem HasAsg.grow {asts : List Ast} {x x' : Ast} {q : Pos} {r r' : CommentRange} {as as' : List ToplevelAssignment} {p : Pos}
    {r0 : CommentRange} (h : HasAsg (asts ++ [x]) p r0) (hx : tablePart x = some (q, r, as))
    (hx' : tablePart x' = some (q, r', as ++ as')) : HasAsg (asts ++ [x']) p r0 := by
  cases h with
  | root h =>
    rcases List.mem_append.1 h with h | h
    · exact .root (by simp [h])
    · rw [← List.mem_singleton.1 h] at hx; cases hx
  | inTable h1 h2 h3 =>
    rcases List.mem_append.1 h1 with h | h
    · exact .inTable (by simp [h]) h2 h3
    · rw [List.mem_singleton.1 h, hx] at h2
      cases h2
      exact .inTable (by simp) hx' (by simp [h3])

/-- What the comments of an assignment are. -/
def AsgOk (c : Cfg) (xs1 : List Ln) (p : Pos) (inner : List Com) (tail : Option Com) : Prop :=
  ∃ r mid, HasAsg c.asts p r ∧ RangeIn c.storage.length r ∧
    (storedIn c.storage r).map seen = (runAbove xs1).map (fun c => (.above, levelBehind xs1, c)) ++ mid ++
      tail.toList.map (fun c => (.lineEnd, 0, c)) ∧ mid.map (·.2.2) = inner

/-- The comments of a table behind those of its header. -/
structure RestOk (xs1 : List Ln) (p : Pos) (tail : Option Com) (ys : List Ln) (rest : List Seen) : Prop where
  upTo : rest = [] ∨ ∃ zs c ws, ys = zs ++ .comment c :: ws ∧ zs.any Ln.isHeader = false ∧ nextExpr ws ≠ none ∧
    fate (xs1 ++ .header p tail :: zs) ws = .inside p ∧ rest.map (·.2.2) = zs.flatMap Ln.coms ++ [c]
  all : ∀ zs c ws, ys = zs ++ .comment c :: ws → zs.any Ln.isHeader = false → nextExpr ws ≠ none →
    fate (xs1 ++ .header p tail :: zs) ws = .inside p → (.contained, 0, c) ∈ rest

/-- The comments of a header. -/
def headSeen (xs1 : List Ln) (tail : Option Com) : List Seen :=
  (runAbove xs1).map (fun c => (.above, 0, c)) ++ tail.toList.map (fun c => (.lineEnd, 0, c))

/-- What the comments of a table are. -/
def HeadOk (c : Cfg) (xs1 : List Ln) (p : Pos) (tail : Option Com) (ys : List Ln) : Prop :=
  ∃ x r as rest, tablePart x = some (p, r, as) ∧ RangeIn c.storage.length r ∧
    (storedIn c.storage r).map seen = headSeen xs1 tail ++ rest ∧ RestOk xs1 p tail ys rest ∧
    if ys.any Ln.isHeader then x ∈ c.asts.dropLast
    else c.asts.getLast? = some x ∧ r.level = 0 ∧ ∃ more, (c.storage.drop r.start).map seen = headSeen xs1 tail ++ more ∧
      more.map (·.2.2) ++ c.prev.map comOf = ys.flatMap Ln.coms

/-- What is known of the items gathered so far. -/
structure AInv (xs : List Ln) (c : Cfg) : Prop where
  pend : c.prev.map comOf = pendOf xs
  asg : ∀ xs1 p inner tail ys, xs = xs1 ++ .keyVal p inner tail :: ys → AsgOk c xs1 p inner tail
  head : ∀ xs1 p tail ys, xs = xs1 ++ .header p tail :: ys → HeadOk c xs1 p tail ys
  noTab : xs.any Ln.isHeader = false → ∀ x ∈ c.asts, tablePart x = none
  free : ∀ xs1 d ys, xs = xs1 ++ .comment d :: ys → nextExpr ys ≠ none → fate xs1 ys = .free →
    ∃ k, comOf k = d ∧ .comment k ∈ c.asts
  free' : ∀ k, .comment k ∈ c.asts → ∃ xs1 ys, xs = xs1 ++ .comment (comOf k) :: ys ∧ nextExpr ys ≠ none ∧ fate xs1 ys = .free

theorem AsgOk.mono {c c' : Cfg} {xs1 : List Ln} {p : Pos} {inner : List Com} {tail : Option Com} (h : AsgOk c xs1 p inner tail)
    (ha : ∀ p r, HasAsg c.asts p r → HasAsg c'.asts p r) (hs : ∃ new, c'.storage = c.storage ++ new) :
    AsgOk c' xs1 p inner tail := by
  obtain ⟨r, mid, h1, h2, h3, h4⟩ := h
  obtain ⟨new, hs⟩ := hs
  refine ⟨r, mid, ha _ _ h1, ?_, by rw [hs, storedIn_append h2, h3], h4⟩
  unfold RangeIn at *
  rw [hs, List.length_append]; omega

theorem mem_any_false {ys zs : List Ln} (h : (ys ++ zs).any Ln.isHeader = false) :
    ys.any Ln.isHeader = false ∧ zs.any Ln.isHeader = false := by
  rw [List.any_append, Bool.or_eq_false_iff] at h
  exact h

/-- Lines without a header or an assignment. -/
theorem RestOk.nonExpr {xs1 ys : List Ln} {p : Pos} {tail : Option Com} {rest : List Seen} {l : Ln}
    (h : RestOk xs1 p tail ys rest) (hl : l.isExpr = false) : RestOk xs1 p tail (ys ++ [l]) rest := by
  constructor
  · rcases h.upTo with h | ⟨zs, c, ws, h1, h2, h3, h4, h5⟩
    · exact .inl h
    · exact .inr ⟨zs, c, ws ++ [l], by rw [h1]; simp, h2, by rw [nextExpr_append h3]; exact h3, by rw [fate_append h3]; exact h4, h5⟩
  · intro zs c ws h1 h2 h3 h4
    rcases snoc_split h1 with ⟨rfl, h5, h6⟩ | ⟨ws', rfl, h5⟩
    · exact absurd rfl h3
    · have hn : nextExpr ws' ≠ none := by
        intro hh
        unfold nextExpr at hh h3
        rw [List.find?_append, hh] at h3
        simp [hl] at h3
      exact h.all zs c ws' h5 h2 hn (by rw [← fate_append hn]; exact h4)

/-- A further line that is decided already, or a header. -/
theorem RestOk.header {xs1 ys : List Ln} {p q : Pos} {tail o : Option Com} {rest : List Seen}
    (h : RestOk xs1 p tail ys rest) : RestOk xs1 p tail (ys ++ [.header q o]) rest := by
  constructor
  · rcases h.upTo with h | ⟨zs, c, ws, h1, h2, h3, h4, h5⟩
    · exact .inl h
    · exact .inr ⟨zs, c, ws ++ [.header q o], by rw [h1]; simp, h2, by rw [nextExpr_append h3]; exact h3, by rw [fate_append h3]; exact h4, h5⟩
  · intro zs c ws h1 h2 h3 h4
    rcases snoc_split h1 with ⟨rfl, h5, h6⟩ | ⟨ws', rfl, h5⟩
    · cases h6
    · by_cases hn : nextExpr ws' = none
      · exfalso
        have hw : ∀ l ∈ ws', l.isExpr = false := by
          intro l hl
          unfold nextExpr at hn
          simpa using List.find?_eq_none.1 hn l hl
        by_cases hb : Ln.blank ∈ ws'
        · rw [fate_loose hw hb rfl] at h4
          generalize openHeader _ = oh at h4
          cases oh <;> cases h4
        · obtain ⟨p', hp⟩ := fate_run (xs := xs1 ++ .header p tail :: zs) (ys := ws') (l := .header q o) (fun l hl => by
            have := hw l hl
            cases l with
            | blank => exact absurd hl hb
            | comment => rfl
            | header => cases this
            | keyVal => cases this) rfl
          rw [hp] at h4; cases h4
      · exact h.all zs c ws' h5 h2 hn (by rw [← fate_append hn]; exact h4)

/-- A header is followed by another one: further lines do not matter. -/
theorem RestOk.closed {xs1 ys : List Ln} {p : Pos} {tail : Option Com} {rest : List Seen} {l : Ln}
    (h : RestOk xs1 p tail ys rest) (hy : ys.any Ln.isHeader = true) : RestOk xs1 p tail (ys ++ [l]) rest := by
  constructor
  · rcases h.upTo with h | ⟨zs, c, ws, h1, h2, h3, h4, h5⟩
    · exact .inl h
    · exact .inr ⟨zs, c, ws ++ [l], by rw [h1]; simp, h2, by rw [nextExpr_append h3]; exact h3, by rw [fate_append h3]; exact h4, h5⟩
  · intro zs c ws h1 h2 h3 h4
    rcases snoc_split h1 with ⟨rfl, h5, h6⟩ | ⟨ws', rfl, h5⟩
    · exact absurd rfl h3
    · have hn : nextExpr ws' ≠ none := by
        rw [h5, List.any_append, h2] at hy
        simp only [Bool.false_or, List.any_cons, Ln.isHeader, List.any_eq_true] at hy
        obtain ⟨e, he, hx⟩ := hy
        intro hh
        unfold nextExpr at hh
        have := List.find?_eq_none.1 hh e he
        cases e with
        | header => exact this rfl
        | _ => cases hx
      exact h.all zs c ws' h5 h2 hn (by rw [← fate_append hn]; exact h4)

theorem nonExpr_notHeader {l : Ln} (h : l.isExpr = false) : l.isHeader = false := by
  cases l <;> first | rfl | cases h

/-- A line without a header or an assignment. -/
theorem AInv.nonExpr {xs : List Ln} {c : Cfg} {l : Ln} {prev : List Comment} (h : AInv xs c) (hl : l.isExpr = false)
    (hp : prev.map comOf = c.prev.map comOf ++ l.coms) : AInv (xs ++ [l]) ⟨c.asts, c.storage, prev⟩ := by
  refine ⟨?_, ?_, ?_, ?_, ?_, ?_⟩
  · rw [pendOf_snoc, hl, ← h.pend]; simpa using hp
  · intro xs1 p inner tail ys hx
    rcases snoc_split hx with ⟨-, -, rfl⟩ | ⟨ys', rfl, hx'⟩
    · cases hl
    · exact (h.asg _ _ _ _ _ hx').mono (fun _ _ h => h) ⟨[], by simp⟩
  · intro xs1 p tail ys hx
    rcases snoc_split hx with ⟨-, -, rfl⟩ | ⟨ys', rfl, hx'⟩
    · cases hl
    · obtain ⟨x, r, as, rest, h1, h2, h3, h4, h5⟩ := h.head _ _ _ _ hx'
      refine ⟨x, r, as, rest, h1, h2, h3, h4.nonExpr hl, ?_⟩
      have : (ys' ++ [l]).any Ln.isHeader = ys'.any Ln.isHeader := by simp [nonExpr_notHeader hl]
      rw [this]
      split at h5
      · rename_i hh; rw [if_pos hh]; exact h5
      · rename_i hh
        rw [if_neg hh]
        obtain ⟨g1, g2, more, g3, g4⟩ := h5
        refine ⟨g1, g2, more, g3, ?_⟩
        rw [hp, ← List.append_assoc, g4]; simp
  · intro hx
    exact h.noTab (mem_any_false hx).1
  · intro xs1 d ys hx hn hf
    rcases snoc_split hx with ⟨rfl, -, -⟩ | ⟨ys', rfl, hx'⟩
    · exact absurd rfl hn
    · have hn' : nextExpr ys' ≠ none := by
        intro hh
        unfold nextExpr at hh hn
        rw [List.find?_append, hh] at hn
        simp [hl] at hn
      exact h.free _ _ _ hx' hn' (by rw [← fate_append hn']; exact hf)
  · intro k hk
    obtain ⟨xs1, ys, h1, h2, h3⟩ := h.free' k hk
    exact ⟨xs1, ys ++ [l], by rw [h1]; simp, by rw [nextExpr_append h2]; exact h2, by rw [fate_append h2]; exact h3⟩

/-- The comments that are not directly above. -/
theorem loose_split {xs : List Ln} {prev loose run : List Comment} (hp : prev.map comOf = pendOf xs) (he : prev = loose ++ run)
    (hr : run.map comOf = runAbove xs) :
    (∀ k ∈ loose, ∃ xs1 ys, xs = xs1 ++ .comment (comOf k) :: ys ∧ (∀ l ∈ ys, l.isExpr = false) ∧ Ln.blank ∈ ys) ∧
    (∀ xs1 d ys, xs = xs1 ++ .comment d :: ys → (∀ l ∈ ys, l.isExpr = false) → Ln.blank ∈ ys → d ∈ loose.map comOf) ∧
    (loose ≠ [] → ∃ xs1 d ys, xs = xs1 ++ .comment d :: ys ∧ (∀ l ∈ ys, l.isExpr = false) ∧ Ln.blank ∈ ys ∧
      ∃ X ls, xs1 = X ++ ls ∧ (∀ l ∈ ls, l.isExpr = false) ∧ loose.map comOf = ls.flatMap Ln.coms ++ [d] ∧
        ys.flatMap Ln.coms = run.map comOf ∧ (X = [] ∨ ∃ Y l, X = Y ++ [l] ∧ l.isExpr = true)) := by
  obtain ⟨X, T1, T2, h1, h2, h3, h4, h5, h6, h7⟩ := tail_lines xs
  have hl : loose.map comOf = T1.flatMap Ln.coms := by
    rw [he, h7, List.map_append, hr, h6] at hp
    exact List.append_cancel_right hp
  have h3' : ∀ l ∈ T2, l.isExpr = false := by
    intro l hl
    have := h3 l hl
    cases l <;> first | rfl | cases this
  have hb3 : Ln.blank ∉ T2 := fun hh => by have := h3 _ hh; cases this
  have split : ∀ d, d ∈ T1.flatMap Ln.coms → ∃ a b, T1 = a ++ .comment d :: b := by
    intro d hd
    obtain ⟨l, hl1, hl2⟩ := List.mem_flatMap.1 hd
    rcases coms_nonExpr (h2 l hl1) with h | ⟨c, rfl⟩
    · rw [h] at hl2; cases hl2
    · simp only [Ln.coms, List.mem_singleton] at hl2
      subst hl2
      exact List.append_of_mem hl1
  have last : ∀ {a b : List Ln} {d : Com}, T1 = a ++ .comment d :: b → Ln.blank ∈ b := by
    intro a b d hab
    rcases h4 with h | ⟨T, h⟩
    · rw [h] at hab; simp at hab
    · rw [hab] at h
      rcases snoc_split h.symm with ⟨-, -, hh⟩ | ⟨b', hh, -⟩
      · cases hh
      · rw [hh]; simp
  refine ⟨?_, ?_, ?_⟩
  · intro k hk
    obtain ⟨a, b, hab⟩ := split (comOf k) (by rw [← hl]; exact List.mem_map_of_mem hk)
    refine ⟨X ++ a, b ++ T2, by rw [h1, hab]; simp, ?_, by simp [last hab]⟩
    intro l hl
    rcases List.mem_append.1 hl with hl | hl
    · exact h2 l (by rw [hab]; simp [hl])
    · exact h3' l hl
  · intro xs1 d ys hx hy hb
    rw [hl]
    rw [h1] at hx
    -- the comment is in `T1`
    rcases List.append_eq_append_iff.1 hx with ⟨m, e1, e2⟩ | ⟨m, e1, e2⟩
    · -- in `T2`
      exfalso
      exact hb3 (by rw [e2]; simp [hb])
    · cases m with
      | nil =>
        simp only [List.nil_append] at e2
        exact absurd (show Ln.blank ∈ T2 by rw [← e2]; simp [hb]) hb3
      | cons z m =>
        simp only [List.cons_append, List.cons.injEq] at e2
        obtain ⟨rfl, e2⟩ := e2
        rcases List.append_eq_append_iff.1 e1 with ⟨k, f1, f2⟩ | ⟨k, f1, f2⟩
        · rw [f2]
          simp [Ln.coms]
        · -- in `X`
          cases k with
          | nil =>
            simp only [List.nil_append] at f2
            rw [← f2]; simp [Ln.coms]
          | cons z k =>
            simp only [List.cons_append, List.cons.injEq] at f2
            obtain ⟨rfl, f2⟩ := f2
            exfalso
            rcases h5 with h | ⟨Y, l, h, hll⟩
            · rw [h] at f1; simp at f1
            · rw [h] at f1
              rcases snoc_split f1 with ⟨-, -, hh⟩ | ⟨b', hh, -⟩
              · rw [hh] at hll; cases hll
              · have := hy l (by rw [e2, f2, hh]; simp)
                rw [this] at hll; cases hll
  · intro hne
    rcases List.eq_nil_or_concat loose with h | ⟨lo, k, h⟩
    · exact absurd h hne
    · have hlast : T1.flatMap Ln.coms = lo.map comOf ++ [comOf k] := by rw [← hl, h]; simp
      -- the last comment of `T1`
      have key : ∀ (T : List Ln) (u : List Com) (d : Com), (∀ l ∈ T, l.isExpr = false) → T.flatMap Ln.coms = u ++ [d] →
          ∃ a b, T = a ++ .comment d :: b ∧ a.flatMap Ln.coms = u := by
        intro T u d hT
        induction T generalizing u with
        | nil => intro h; simp at h
        | cons t T ih =>
          intro h
          rw [List.flatMap_cons] at h
          have hT' : ∀ l ∈ T, l.isExpr = false := fun l hl => hT l (by simp [hl])
          rcases coms_nonExpr (hT t (by simp)) with h' | ⟨e, rfl⟩
          · rw [h'] at h
            obtain ⟨a, b, h1, h2⟩ := ih _ hT' h
            exact ⟨t :: a, b, by rw [h1]; simp, by simp [h', h2]⟩
          · simp only [Ln.coms, List.cons_append, List.nil_append] at h
            cases u with
            | nil =>
              simp only [List.nil_append, List.cons.injEq] at h
              obtain ⟨rfl, -⟩ := h
              exact ⟨[], T, rfl, rfl⟩
            | cons u0 u =>
              simp only [List.cons_append, List.cons.injEq] at h
              obtain ⟨rfl, h⟩ := h
              obtain ⟨a, b, h1, h2⟩ := ih _ hT' h
              exact ⟨.comment e :: a, b, by rw [h1]; simp, by simp [Ln.coms, h2]⟩
      obtain ⟨a, b, e1, e2⟩ := key T1 _ _ h2 hlast
      refine ⟨X ++ a, comOf k, b ++ T2, by rw [h1, e1]; simp, ?_, by simp [last e1], X, a, rfl, ?_, by rw [h, e2]; simp, ?_, h5⟩
      · intro l hl
        rcases List.mem_append.1 hl with hl | hl
        · exact h2 l (by rw [e1]; simp [hl])
        · exact h3' l hl
      · intro l hl
        exact h2 l (by rw [e1]; simp [hl])
      · have hb : b.flatMap Ln.coms = [] := by
          rw [e1] at hlast
          simp only [List.flatMap_append, List.flatMap_cons, Ln.coms, e2] at hlast
          have := List.append_cancel_left hlast
          simpa using this
        rw [List.flatMap_append, hb, hr, h6]; rfl

end Verif.Toml
