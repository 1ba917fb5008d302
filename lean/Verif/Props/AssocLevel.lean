import Verif.Toml.AssocLevelRoot
import Verif.Props.AssocArr

/-! # Property C97: the levels of comments in arrays

`Nested`, `AssignmentIn`, `Directly`, `OfEntry` and `innerLevel` are in `Spec/AssocLevel.lean`. -/

namespace Verif.Props
open Verif Verif.Toml Verif.Spec.Toml

variable {input : Str} {ovf : Bool} {a : Asts} {s : PS} {arr : InlineArray} {q : Pos} {n i : Nat}

theorem levels_run (h : parseDocument ovf input = .ok a s) : ∀ x ∈ a.asts, AstLv a.comments x := by
  obtain ⟨T, es, vs, h0, h1, h2, h3, h4, h5, -⟩ := lex_post input
  unfold parseDocument at h
  rw [h0] at h
  simp only [parse] at h
  have hG := good_start (ovf := ovf) (es := es) h1 h2 h3 h4 h5
  rw [bind_budget] at h
  obtain ⟨r, s1, hr, h'⟩ := bind_inv h
  have hE : EnvEof (envOf ovf input T) := ⟨hG.eofTy⟩
  have hL := rootLoop_lv hE _ (by simp [RootLv]) hr
  cases h'
  exact RootLv.comments hL

theorem level_assignment (h : parseDocument ovf input = .ok a s) {x : ToplevelAssignment} (hx : AssignmentIn a.asts x n) : AssLv n a.comments x := by
  cases hx with
  | root hx => exact levels_run h _ hx
  | @inTable y p r as hy ht hx =>
    have := levels_run h _ hy
    cases y with
    | table t => cases ht; exact this.2 x hx
    | array t => cases ht; exact this.2 x hx
    | assignment t => cases ht
    | comment t => cases ht

/-- C97: the level of the comments of an assignment is 0 at the top level, and 1 in a table or in an element of an array of tables. -/
theorem C97_assignment (h : parseDocument ovf input = .ok a s) {x : ToplevelAssignment} (hx : AssignmentIn a.asts x n) : x.comments.level = n :=
  (level_assignment h hx).level

/-- C97: the level of the comments of a header is 0. -/
theorem C97_header (h : parseDocument ovf input = .ok a s) {y : Ast} {p : Pos} {r : CommentRange} {as : List ToplevelAssignment}
    (hy : y ∈ a.asts) (ht : tablePart y = some (p, r, as)) : r.level = 0 := by
  have := levels_run h _ hy
  cases y with
  | table t => cases ht; exact this.1
  | array t => cases ht; exact this.1
  | assignment t => cases ht
  | comment t => cases ht

/-- C97: the level of the comments of an array is the number of tables, arrays and inline tables around it. -/
theorem C97_array (h : parseDocument ovf input = .ok a s) (ha : Nested a arr n) : arr.comments.level = n := by
  obtain ⟨x, l, m, hx, hm, rfl⟩ := ha
  exact (level_assignment h hx).depth arr m hm

theorem array_at_in {arr : InlineArray} {v : Value} {m : Nat} (h : ArrayAt arr m v) : ArrayIn arr v := by
  induction h with
  | here => exact .here
  | inArray hx _ ih => exact .inArray hx ih
  | inTable hx _ ih => exact .inTable hx ih

/-- C97: the level of the comments of an entry of an array is one more. -/
theorem C97_entry (h : parseDocument ovf input = .ok a s) (ha : Nested a arr n) {x : InlineArrayValue} (hx : x ∈ arr.values) :
    x.comments.level = n + 1 := by
  have hl := C97_array h ha
  obtain ⟨y, l, m, hy, hm, rfl⟩ := ha
  rw [((level_assignment h hy).fit arr (array_at_in hm)).2.1 x hx, hl]

/-- C97: a comment that is directly in an array and not above something has the level of the array, or one more if it is a comment of one of the
entries. -/
theorem C97_level (h : parseDocument ovf input = .ok a s) (ha : Nested a arr n) {c : AssocComment} (hi : Directly arr i)
    (hc : a.comments[i]? = some c) (hp : c.pos ≠ .above) : c.level = n + if OfEntry arr i then 1 else 0 := by
  have hl := C97_array h ha
  obtain ⟨y, l, m, hy, hm, rfl⟩ := ha
  rw [((level_assignment h hy).fit arr (array_at_in hm)).2.2 i c hi hc hp]
  unfold innerLevel
  rw [hl]

/-- C97: what is missing is the level of the comments that are above an entry: the comment of `x = [[[`, `#c`, `]], 1]` is in an array of level 2, but
has the level 1, because the entry `1` is on the line below. -/
def deepToml : Str := ['x', '=', '[', '[', '[', '\n', '#', 'c', '\n', ']', ']', ',', '1', ']']

/-! ## Examples -/

/-- The arrays of a value: the level of its comments, those of its entries, and the numbers of the comments directly in it, with the level it
should have. -/
def levelsOf (total : Nat) : Nat → Value → List (Nat × List Nat × List (Nat × Nat))
  | 0, _ => []
  | n + 1, .inlineArray r => (r.comments.level, r.values.map (·.comments.level), ((List.range total).filter (fun i => decide (Has r.comments i))).map
      fun i => (i, innerLevel r i)) :: r.values.flatMap fun v => levelsOf total n v.val
  | n + 1, .inlineTable t => t.assignments.flatMap fun v => levelsOf total n v.assignment.val
  | _, _ => []

/-- The arrays of a result, its associated comments, and whether there are diagnostics. -/
def levelSeen : Run Asts → List (Nat × List Nat × List (Nat × Nat)) × List (AssocPos × Nat) × Bool
  | .ok a s => ((a.asts.flatMap astValues).flatMap (levelsOf a.comments.length 4), a.comments.map fun c => (c.pos, c.level), s.errors.isEmpty)
  | _ => ([], [], true)

/-- An array in an inline table in an array in a table, with comments behind its bracket, on their own, behind an entry and behind its comma. -/
def levelToml : Str := ['[', 't', ']', '\n', 'x', '=', '[', '#', 'a', '\n', '{', 'y', '=', '[', '#', 'b', '\n', ']', '}', '\n', '#', 'c', '\n', ',', '#', 'd', '\n',
  '\n', '#', 'e', '\n', '\n', '2', '#', 'f', '\n', '#', 'g', '\n', ']']

set_option maxRecDepth 100000 in
/-- The outer array has level 1 and the inner one level 3; `a`, `e` and `g` have the level of the array, `c`, `d` and `f` are comments of its entries
and have one more, and `b` is in the inner array. -/
example : levelSeen (parseDocument true levelToml) =
    ([(1, [2, 2], [(0, 1), (1, 1), (2, 2), (3, 2), (4, 1), (5, 2), (6, 1)]), (3, [], [(1, 3)])],
      [(.lineEnd, 1), (.lineEnd, 3), (.contained, 2), (.lineEnd, 2), (.contained, 1), (.lineEnd, 2), (.contained, 1)], true) := by decide +kernel

set_option maxRecDepth 100000 in
/-- The comment of `deepToml` is in an array of level 2, and is said to be above something and to have level 1. -/
example : levelSeen (parseDocument true deepToml) =
    ([(0, [1, 1], [(0, 0)]), (1, [2], [(0, 1)]), (2, [], [(0, 2)])], [(.above, 1)], true) := by decide +kernel

end Verif.Props
