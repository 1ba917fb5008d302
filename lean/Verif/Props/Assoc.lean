import Verif.Toml.AssocTop
import Verif.Props.Grammar
import Verif.Props.Lex

/-! # Property C93: what the comments of a document belong to

The lines of a document and what a comment belongs to are in `Spec/Assoc.lean`. -/

namespace Verif.Props
open Verif Verif.Toml Verif.Spec.Toml

variable {input : Str} {vs : List Tok} {ls xs ys : List Ln} {ovf : Bool} {a : Asts} {s : PS}

/-! ## Lines -/

theorem fate_inside {ws : List Ln} {p : Pos} (h : fate xs ws = .inside p) : nextExpr ws ≠ none ∧ openHeader xs = some p := by
  unfold fate at h
  split at h
  · cases h
  · cases h
  · split at h
    · rename_i h1 h2
      cases h
      exact ⟨by rw [h2]; simp, h1⟩
    · cases h

theorem fate_above {ws : List Ln} {p : Pos} (h : fate xs ws = .above p) :
    ∃ T e ws', ws = T ++ e :: ws' ∧ (∀ l ∈ T, l.isComment = true) ∧ e.place = some p ∧ e.isExpr = true := by
  have key : ∀ e ws', ws.dropWhile Ln.isComment = e :: ws' → ∃ T, ws = T ++ e :: ws' ∧ (∀ l ∈ T, l.isComment = true) := by
    intro e ws' he
    refine ⟨ws.takeWhile Ln.isComment, by rw [← he, List.takeWhile_append_dropWhile], ?_⟩
    exact fun l hl => List.all_eq_true.1 List.all_takeWhile l hl
  unfold fate at h
  split at h
  · rename_i h1
    cases h
    obtain ⟨T, h2, h3⟩ := key _ _ h1
    exact ⟨T, _, _, h2, h3, rfl, rfl⟩
  · rename_i h1
    cases h
    obtain ⟨T, h2, h3⟩ := key _ _ h1
    exact ⟨T, _, _, h2, h3, rfl, rfl⟩
  · split at h <;> cases h

theorem fate_none {ws : List Ln} (h : nextExpr ws = none) : fate xs ws = .free := by
  cases hf : fate xs ws with
  | free => rfl
  | inside p => exact absurd h (fate_inside hf).1
  | above p =>
    obtain ⟨T, e, ws', rfl, -, -, h2⟩ := fate_above hf
    exact absurd h (nextExpr_ne (l := e) (by simp) h2)

theorem runAbove_comments (xs : List Ln) : ∀ {T : List Ln}, (∀ l ∈ T, l.isComment = true) →
    runAbove (xs ++ T) = runAbove xs ++ T.flatMap Ln.coms := by
  intro T h
  unfold runAbove
  rw [List.reverse_append, List.takeWhile_append_of_pos (by simpa using h)]
  simp

theorem pendOf_nonExpr (xs : List Ln) {T : List Ln} (h : ∀ l ∈ T, l.isExpr = false) : pendOf (xs ++ T) = pendOf xs ++ T.flatMap Ln.coms := by
  unfold pendOf
  rw [List.reverse_append, List.takeWhile_append_of_pos (by simpa using h)]
  simp

theorem pendOf_mem {d : Spec.Toml.Com} (h : d ∈ pendOf ls) : ∃ xs ys, ls = xs ++ .comment d :: ys ∧ nextExpr ys = none := by
  obtain ⟨X, T1, T2, h1, h2, h3, -, -, -, h4⟩ := tail_lines ls
  have hT : ∀ l ∈ T1 ++ T2, l.isExpr = false := by
    intro l hl
    rcases List.mem_append.1 hl with hl | hl
    · exact h2 l hl
    · have := h3 l hl
      cases l <;> first | rfl | cases this
  rw [h4, ← List.flatMap_append] at h
  rw [List.append_assoc] at h1
  generalize T1 ++ T2 = T at h1 hT h
  obtain ⟨l, hl, hd⟩ := List.mem_flatMap.1 h
  obtain ⟨A, B, rfl⟩ := List.append_of_mem hl
  have : l = .comment d := by
    have := hT l hl
    cases l with
    | comment c => simp [Ln.coms] at hd; rw [hd]
    | blank => simp [Ln.coms] at hd
    | header => cases this
    | keyVal => cases this
  subst this
  exact ⟨X ++ A, B, by rw [h1]; simp, nextExpr_none fun l hl => hT l (by simp [hl])⟩

theorem openHeader_split {p : Pos} (h : openHeader xs = some p) : ∃ xs1 tail zs, xs = xs1 ++ .header p tail :: zs ∧ zs.any Ln.isHeader = false := by
  cases hh : xs.any Ln.isHeader with
  | false => rw [openHeader_none hh] at h; cases h
  | true =>
    obtain ⟨xs1, q, o, zs, rfl, h2⟩ := last_header hh
    rw [openHeader_last h2] at h
    cases h
    exact ⟨_, _, _, rfl, h2⟩

/-! ## The tree -/

/-- What is known of the tree of a document. -/
theorem assoc_tree (ht : Tokenized [] input vs) (hd : DocLines false vs ls) (h : parseDocument ovf input = .ok a s) :
    ∃ c, Reach ls c ∧ AInv ls c ∧ a.asts = c.asts ++ c.prev.map .comment ∧ a.comments = c.storage := by
  obtain ⟨a', s', c, h1, -, h2, h3, h4⟩ := assoc_run ht hd ovf
  rw [h] at h1
  cases h1
  exact ⟨c, h2, h2.inv, h3, h4⟩

theorem item_unique (ht : Tokenized [] input vs) (hd : DocLines false vs ls) (h : parseDocument ovf input = .ok a s) {p : Pos}
    {r r' : CommentRange} (h1 : HasItem a.asts p r) (h2 : HasItem a.asts p r') : r' = r := by
  obtain ⟨c, hR, -, ha, -⟩ := assoc_tree ht hd h
  have hn : ((itemRanges a.asts).map (·.1)).Nodup := by
    rw [ha, itemRanges_append, itemRanges_comments, List.append_nil, hR.places]
    exact (lines_place hd).nodup (tokenized_places ht).1
  exact nodup_fst hn (hasItem_mem h2) (hasItem_mem h1)

/-- C93: a text is read without any diagnostic exactly if it is a list of lines that are blank, a comment, a header or an assignment;
so the theorems below are about all such texts. -/
theorem C93_lines (ovf : Bool) (input : Str) : (∃ a s, parseDocument ovf input = .ok a s ∧ s.errors = []) ↔
    ∃ vs ls, Tokenized [] input vs ∧ DocLines false vs ls := by
  constructor
  · intro h
    obtain ⟨vs, items, h1, h2⟩ := (C71_grammar ovf input).1 h
    obtain ⟨ls, h3⟩ := doc_lines h2
    exact ⟨vs, ls, h1, h3⟩
  · rintro ⟨vs, ls, h1, h2⟩
    obtain ⟨a, s, -, h3, h4, -⟩ := assoc_run h1 h2 ovf
    exact ⟨a, s, h3, h4⟩

/-- C93: the headers and assignments of the tree are those of the lines, in their order. -/
theorem C93_items (ht : Tokenized [] input vs) (hd : DocLines false vs ls) (h : parseDocument ovf input = .ok a s) :
    (itemRanges a.asts).map (·.1) = ls.filterMap Ln.place := by
  obtain ⟨c, hR, -, ha, -⟩ := assoc_tree ht hd h
  rw [ha, itemRanges_append, itemRanges_comments, List.append_nil, hR.places]

/-- C93: the comments of an assignment are those of the lines directly above it (with the level of the assignment), those inside of
its value, and the one behind it; in the order of the text. -/
theorem C93_assignment_partial (ht : Tokenized [] input vs) (hd : DocLines false vs ls) (h : parseDocument ovf input = .ok a s)
    {p : Pos} {inner : List Spec.Toml.Com} {tail : Option Spec.Toml.Com} (hl : ls = xs ++ .keyVal p inner tail :: ys) :
    ∃ mid : List Seen, mid.map (·.2.2) = inner ∧
      Owns a p ((runAbove xs).map (fun c => (.above, levelBehind xs, c)) ++ mid ++ tail.toList.map (fun c => (.lineEnd, 0, c))) := by
  obtain ⟨c, -, hA, ha, hs⟩ := assoc_tree ht hd h
  obtain ⟨r, mid, h1, h2, h3, h4⟩ := hA.asg _ _ _ _ _ hl
  have h1' : HasItem a.asts p r := by rw [ha]; exact h1.append.item
  exact ⟨mid, h4, r, h1', fun r' => item_unique ht hd h h1', by rw [hs]; exact h3⟩

/-- C93: the comments of a table or an element of an array of tables are those of the lines directly above its header, the one behind
its header, and then either none or those of the lines up to the last comment that is contained in it; the latter are
marked as contained. -/
theorem C93_header (ht : Tokenized [] input vs) (hd : DocLines false vs ls) (h : parseDocument ovf input = .ok a s)
    {p : Pos} {tail : Option Spec.Toml.Com} (hl : ls = xs ++ .header p tail :: ys) :
    ∃ rest : List Seen,
      Owns a p ((runAbove xs).map (fun c => (.above, 0, c)) ++ tail.toList.map (fun c => (.lineEnd, 0, c)) ++ rest) ∧
      (rest = [] ∨ ∃ zs c ws, ys = zs ++ .comment c :: ws ∧ zs.any Ln.isHeader = false ∧
        fate (xs ++ .header p tail :: zs) ws = .inside p ∧ rest.map (·.2.2) = zs.flatMap Ln.coms ++ [c]) ∧
      ∀ zs c ws, ys = zs ++ .comment c :: ws → zs.any Ln.isHeader = false → fate (xs ++ .header p tail :: zs) ws = .inside p →
        (.contained, 0, c) ∈ rest := by
  obtain ⟨c, -, hA, ha, hs⟩ := assoc_tree ht hd h
  obtain ⟨x, r, as, rest, h1, h2, h3, h4, h5⟩ := hA.head _ _ _ _ hl
  have hx : x ∈ c.asts := by
    split at h5
    · exact (List.dropLast_sublist _).subset h5
    · exact List.mem_of_getLast? h5.1
  have h1' : HasItem a.asts p r := .table (by rw [ha]; simp [hx]) h1
  refine ⟨rest, ⟨r, h1', fun r' => item_unique ht hd h h1', by rw [hs]; exact h3⟩, ?_, ?_⟩
  · rcases h4.upTo with h6 | ⟨zs, c, ws, e1, e2, -, e3, e4⟩
    · exact .inl h6
    · exact .inr ⟨zs, c, ws, e1, e2, e3, e4⟩
  · intro zs c ws e1 e2 e3
    exact h4.all zs c ws e1 e2 (fate_inside e3).1 e3

/-- C93: a comment on its own line is marked as above the header or assignment below it if only such lines are in between; otherwise, if
an assignment of a table follows, it is marked as contained in this table; otherwise it is an item of its own. -/
theorem C93_own_line (ht : Tokenized [] input vs) (hd : DocLines false vs ls) (h : parseDocument ovf input = .ok a s)
    {c : Spec.Toml.Com} (hl : ls = xs ++ .comment c :: ys) :
    match fate xs ys with
    | .above p => ∃ e ∈ ys, e.place = some p ∧ ∃ cs, Owns a p cs ∧ (.above, if e.isHeader then 0 else levelBehind xs, c) ∈ cs
    | .inside p => ∃ cs, Owns a p cs ∧ (.contained, 0, c) ∈ cs
    | .free => ∃ k, Spec.Toml.comOf k = c ∧ .comment k ∈ a.asts := by
  cases hf : fate xs ys with
  | above p =>
    dsimp only
    obtain ⟨T, e, ys', rfl, h1, h2, h3⟩ := fate_above hf
    have hT : ∀ l ∈ Ln.comment c :: T, l.isComment = true := by
      intro l hl
      rcases List.mem_cons.1 hl with rfl | hl
      · rfl
      · exact h1 l hl
    have hm : c ∈ runAbove (xs ++ .comment c :: T) := by
      rw [runAbove_comments xs hT]
      simp [Ln.coms]
    refine ⟨e, by simp, h2, ?_⟩
    cases e with
    | blank => cases h3
    | comment => cases h3
    | header q tail =>
      cases h2
      obtain ⟨rest, e1, -⟩ := C93_header ht hd h (xs := xs ++ .comment c :: T) (p := p) (tail := tail) (ys := ys') (by rw [hl]; simp)
      exact ⟨_, e1, by simp [Ln.isHeader, hm]⟩
    | keyVal q inner tail =>
      cases h2
      obtain ⟨mid, -, e1⟩ := C93_assignment_partial ht hd h (xs := xs ++ .comment c :: T) (p := p) (inner := inner) (tail := tail) (ys := ys')
        (by rw [hl]; simp)
      have hlv : levelBehind (xs ++ .comment c :: T) = levelBehind xs := by
        have : (Ln.comment c :: T).any Ln.isHeader = false := by
          rw [List.any_eq_false]
          intro l hl
          have := hT l hl
          cases l <;> first | (simp [Ln.isHeader]; done) | cases this
        unfold levelBehind
        rw [List.any_append, this, Bool.or_false]
      exact ⟨_, e1, by simp [Ln.isHeader, hm, hlv]⟩
  | inside p =>
    dsimp only
    obtain ⟨xs1, tail, zs, rfl, h2⟩ := openHeader_split (fate_inside hf).2
    obtain ⟨rest, e1, -, e2⟩ := C93_header ht hd h (xs := xs1) (p := p) (tail := tail) (ys := zs ++ .comment c :: ys) (by rw [hl]; simp)
    exact ⟨_, e1, by simp [e2 zs c ys rfl h2 hf]⟩
  | free =>
    dsimp only
    obtain ⟨g, -, hA, ha, -⟩ := assoc_tree ht hd h
    by_cases hn : nextExpr ys = none
    · have : c ∈ g.prev.map Spec.Toml.comOf := by
        rw [hA.pend, hl]
        rw [pendOf_nonExpr xs (T := .comment c :: ys) (by
          intro l hl
          rcases List.mem_cons.1 hl with rfl | hl
          · rfl
          · exact nextExpr_isNone hn l hl)]
        simp [Ln.coms]
      obtain ⟨k, hk, hk'⟩ := List.mem_map.1 this
      exact ⟨k, hk', by rw [ha]; simp [hk]⟩
    · obtain ⟨k, h1, h2⟩ := hA.free _ _ _ hl hn hf
      exact ⟨k, h1, by rw [ha]; simp [h2]⟩

/-- C93: a comment that is an item of its own is on its own line, and is neither above something nor contained in a table. -/
theorem C93_free (ht : Tokenized [] input vs) (hd : DocLines false vs ls) (h : parseDocument ovf input = .ok a s) {k : Comment}
    (hk : .comment k ∈ a.asts) : ∃ xs ys, ls = xs ++ .comment (Spec.Toml.comOf k) :: ys ∧ fate xs ys = .free := by
  obtain ⟨g, -, hA, ha, -⟩ := assoc_tree ht hd h
  rw [ha] at hk
  rcases List.mem_append.1 hk with hk | hk
  · obtain ⟨xs, ys, h1, -, h2⟩ := hA.free' k hk
    exact ⟨xs, ys, h1, h2⟩
  · obtain ⟨k', hk', he⟩ := List.mem_map.1 hk
    cases he
    have : Spec.Toml.comOf k ∈ pendOf ls := by
      rw [← hA.pend]; exact List.mem_map_of_mem hk'
    obtain ⟨xs, ys, h1, h2⟩ := pendOf_mem this
    exact ⟨xs, ys, h1, fate_none h2⟩

/-! ## An example -/

/-- A table with comments: above and behind its header, in it, above and behind its assignment, and behind it. -/
def assocToml : Str := ['#', ' ', 'a', '\n', '[', 't', ']', ' ', '#', ' ', 'b', '\n', '\n', '#', ' ', 'c', '\n', '\n', '#', ' ', 'd', '\n', 'x', '=', '\'', '\'', ' ', '#', ' ', 'e', '\n', '\n', '#', ' ', 'f']

/-- Its tokens. -/
def assocToks : List Tok := [(.comment [' ', 'a'], ⟨0, 0⟩), (.newline, ⟨0, 3⟩), (.punct '[', ⟨1, 0⟩), (.word ['t'], ⟨1, 1⟩), (.punct ']', ⟨1, 2⟩), (.comment [' ', 'b'], ⟨1, 4⟩), (.newline, ⟨1, 7⟩), (.newline, ⟨2, 0⟩), (.comment [' ', 'c'], ⟨3, 0⟩), (.newline, ⟨3, 3⟩), (.newline, ⟨4, 0⟩), (.comment [' ', 'd'], ⟨5, 0⟩), (.newline, ⟨5, 3⟩), (.word ['x'], ⟨6, 0⟩), (.punct '=', ⟨6, 1⟩), (.string .literal ['\'', '\''] [], ⟨6, 2⟩), (.comment [' ', 'e'], ⟨6, 5⟩), (.newline, ⟨6, 8⟩), (.newline, ⟨7, 0⟩), (.comment [' ', 'f'], ⟨8, 0⟩)]

/-- Its lines. -/
def assocLines : List Ln := [.comment ([' ', 'a'], ⟨0, 0⟩), .header ⟨1, 0⟩ (some ([' ', 'b'], ⟨1, 4⟩)), .blank, .comment ([' ', 'c'], ⟨3, 0⟩), .blank,
  .comment ([' ', 'd'], ⟨5, 0⟩), .keyVal ⟨6, 1⟩ [] (some ([' ', 'e'], ⟨6, 5⟩)), .blank, .comment ([' ', 'f'], ⟨8, 0⟩)]

set_option maxRecDepth 100000 in
theorem assocToml_lex : (lex assocToml).map (fun r => (r.2, r.1.tokens.map (resolve r.1.strings r.1.literals))) =
    some ([], assocToks.map some) := by decide +kernel

theorem assocToml_tokens : Tokenized [] assocToml assocToks := by
  have h := assocToml_lex
  cases hl : lex assocToml with
  | none => rw [hl] at h; cases h
  | some r =>
    rw [hl] at h
    obtain ⟨r1, r2⟩ := r
    simp only [Option.map_some, Option.some.injEq, Prod.mk.injEq] at h
    obtain ⟨rfl, h⟩ := h
    exact (C33_tokens hl _).2 h

theorem assocToml_lines : DocLines false assocToks assocLines := by
  have hb : ∀ {c : Char} {p : Pos}, BareChar c → KeyToks [(.word [c], p)] [[c]] := fun h => .one (.bare (by simpa using h))
  have e1 : LineIs false [(.punct '[', ⟨1, 0⟩), (.word ['t'], ⟨1, 1⟩), (.punct ']', ⟨1, 2⟩), (.comment [' ', 'b'], ⟨1, 4⟩)]
      (.header ⟨1, 0⟩ (some ([' ', 'b'], ⟨1, 4⟩))) :=
    .table (p := ⟨1, 0⟩) (q := ⟨1, 2⟩) (o := some ([' ', 'b'], ⟨1, 4⟩)) (kt := [(.word ['t'], ⟨1, 1⟩)]) (hb (by unfold BareChar; decide))
  have e2 : LineIs true [(.word ['x'], ⟨6, 0⟩), (.punct '=', ⟨6, 1⟩), (.string .literal ['\'', '\''] [], ⟨6, 2⟩), (.comment [' ', 'e'], ⟨6, 5⟩)]
      (.keyVal ⟨6, 1⟩ [] (some ([' ', 'e'], ⟨6, 5⟩))) :=
    .keyVal (kt := [(.word ['x'], ⟨6, 0⟩)]) (vt := [(.string .literal ['\'', '\''] [], ⟨6, 2⟩)]) (o := some ([' ', 'e'], ⟨6, 5⟩))
      (hb (by unfold BareChar; decide)) .string
  exact .more .comment (.more e1 (.more .blank (.more .comment (.more .blank (.more .comment (.more e2 (.more .blank (.last .comment))))))))

/-- What becomes of its comments: `a` is above the header, `c` is in the table, `d` is above the assignment, `f` is on its own. -/
example : fate [] (assocLines.drop 1) = .above ⟨1, 0⟩ ∧ fate (assocLines.take 3) (assocLines.drop 4) = .inside ⟨1, 0⟩ ∧
    fate (assocLines.take 5) (assocLines.drop 6) = .above ⟨6, 1⟩ ∧ fate (assocLines.take 8) [] = .free := by
  refine ⟨rfl, rfl, rfl, rfl⟩

/-- The comments of its assignment. -/
example : ∃ a s, parseDocument true assocToml = .ok a s ∧
    Owns a ⟨6, 1⟩ [(.above, 1, ([' ', 'd'], ⟨5, 0⟩)), (.lineEnd, 0, ([' ', 'e'], ⟨6, 5⟩))] := by
  obtain ⟨a, s, h, -⟩ := (C93_lines true _).2 ⟨_, _, assocToml_tokens, assocToml_lines⟩
  obtain ⟨mid, h1, h2⟩ := C93_assignment_partial assocToml_tokens assocToml_lines h (xs := assocLines.take 6) (ys := assocLines.drop 7) rfl
  have : mid = [] := by simpa using h1
  subst this
  exact ⟨a, s, h, h2⟩

/-! ## What is not as documented -/

/-- The associated comments of a result. -/
def storedOf : Run Asts → List (AssocPos × Nat × Nat)
  | .ok a _ => a.comments.map fun c => (c.pos, c.level, c.comment.span.start.line)
  | _ => []

/-- C93 (false today): the level is documented to be 0 for comments of items declared directly in the root and more for others, but
the comment behind an assignment in a table has level 0, while the one above it has level 1.  (`[t]`, `# a`, `a='' # b`.) -/
theorem C93_counterexample_level : storedOf (parseDocument true ['[', 't', ']', '\n', '#', ' ', 'a', '\n', 'a', '=', '\'', '\'', ' ', '#', ' ', 'b']) =
    [(.above, 1, 1), (.lineEnd, 0, 2)] := by decide +kernel

/-- The comments of the entries of an array: their number. -/
def entryComments : Run Asts → List (List Nat)
  | .ok a _ => a.asts.map fun x => match x with
    | .assignment a => match a.assignment.val with
      | .inlineArray v => v.values.map (·.comments.len)
      | _ => []
    | _ => []
  | _ => []

/-- C93 (false today): a comment above an entry of an array is marked as above it, but is not among its comments.  (`a=[`, `# c`,
`''`, `]`.) -/
theorem C93_counterexample_entry :
    storedOf (parseDocument true ['a', '=', '[', '\n', '#', ' ', 'c', '\n', '\'', '\'', '\n', ']']) = [(.above, 1, 1)] ∧
    entryComments (parseDocument true ['a', '=', '[', '\n', '#', ' ', 'c', '\n', '\'', '\'', '\n', ']']) = [[0]] := by decide +kernel

end Verif.Props
