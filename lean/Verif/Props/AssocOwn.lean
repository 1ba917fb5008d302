import Verif.Spec.AssocOwn
import Verif.Props.AssocLevel
import Verif.Props.AssocKind

/-! # Property C98: the comments of the entries of arrays

`Belongs` is in `Spec/AssocOwn.lean`, `Directly` and `Has` in `Spec/AssocLevel.lean`. -/

namespace Verif.Props
open Verif Verif.Toml Verif.Spec.Toml

variable {input : Str} {ovf : Bool} {a : Asts} {s : PS} {arr : InlineArray} {i : Nat}

theorem owned_run (h : parseDocument ovf input = .ok a s) (he : s.errors = []) (ha : HasArray a arr) : ∃ R, Owned a.comments R arr := by
  obtain ⟨vs, -, -, -, -, -, r, hR, e1, e2⟩ := kinds_run h he
  obtain ⟨y, hy, v, hv, har⟩ := ha
  have hv' : v ∈ vals r.asts := by
    rw [e1] at hy
    rcases List.mem_append.1 hy with hy | hy
    · exact List.mem_flatMap.2 ⟨y, hy, hv⟩
    · obtain ⟨c, -, rfl⟩ := List.mem_map.1 hy
      cases hv
  rw [e2]
  exact ⟨_, hR.ent v hv' arr har⟩

/-- Of two entries one is the first. -/
theorem pairwise_cases {α : Type} {R : α → α → Prop} {l : List α} (h : l.Pairwise R) {x y : α} (hx : x ∈ l) (hy : y ∈ l) : x = y ∨ R x y ∨ R y x := by
  induction l with
  | nil => cases hx
  | cons z l ih =>
    obtain ⟨h1, h2⟩ := List.pairwise_cons.1 h
    rcases List.mem_cons.1 hx with rfl | hx'
    · rcases List.mem_cons.1 hy with rfl | hy'
      · exact .inl rfl
      · exact .inr (.inl (h1 y hy'))
    · rcases List.mem_cons.1 hy with rfl | hy'
      · exact .inr (.inr (h1 x hx'))
      · exact ih h2 hx' hy'

/-- C98: in a text without diagnostics, a comment directly in an array that is not marked as above something is one of the comments of an entry
exactly if it is behind the start of the entry, in front of the next entry, and either behind something on its line or in front of the comma. -/
theorem C98_entry (h : parseDocument ovf input = .ok a s) (he : s.errors = []) (ha : HasArray a arr) {c : AssocComment} (hi : Directly arr i)
    (hc : a.comments[i]? = some c) (hp : c.pos ≠ .above) {x : InlineArrayValue} (hx : x ∈ arr.values) :
    Has x.comments i ↔ Belongs arr x c := by
  obtain ⟨R, hO⟩ := owned_run h he ha
  have hE := hO.each x hx
  have hnd : ¬ Deeper arr.values i := fun ⟨y, hy, inner, h1, h2⟩ => hi.2 y hy inner h1 h2
  constructor
  · intro hh
    obtain ⟨h1, h2⟩ := hE.own i c hc hp hh
    refine ⟨h1, fun y hy hxy => ?_, ?_⟩
    · rcases pairwise_cases hO.order hx hy with rfl | ho | ho
      · exact absurd hxy sooner_irrefl
      · exact ho.2 i c hc hh
      · exact absurd (sooner_trans hxy ho.1) sooner_irrefl
    · cases hq : c.pos with
      | lineEnd => exact .inl rfl
      | above => exact absurd hq hp
      | contained => exact .inr (h2 hq)
  · rintro ⟨h1, h2, h3⟩
    rcases h3 with h3 | ⟨p, h3, h4⟩
    · obtain ⟨z, hz, hh⟩ := hO.tail i c hi.1 hc h3 hnd ⟨x, hx, h1⟩
      have hz1 := ((hO.each z hz).own i c hc hp hh).1
      rcases pairwise_cases hO.order hx hz with rfl | ho | ho
      · exact hh
      · exact absurd (sooner_trans hz1 (h2 z hz ho.1)) sooner_irrefl
      · exact absurd (sooner_trans h1 (ho.2 i c hc hh)) sooner_irrefl
    · exact hE.all i c p hc h3 h1 h4 fun ⟨y, hy, inner, g1, g2⟩ => hi.2 x hx inner (by rw [List.mem_singleton.1 hy] at g1; exact g1) g2

/-- C98: no comment that is not marked as above something is one of two entries. -/
theorem C98_unique (h : parseDocument ovf input = .ok a s) (he : s.errors = []) (ha : HasArray a arr) {c : AssocComment}
    (hc : a.comments[i]? = some c) (hp : c.pos ≠ .above) {x y : InlineArrayValue} (hx : x ∈ arr.values) (hy : y ∈ arr.values)
    (h1 : Has x.comments i) (h2 : Has y.comments i) : x = y := by
  obtain ⟨R, hO⟩ := owned_run h he ha
  have g1 := ((hO.each x hx).own i c hc hp h1).1
  have g2 := ((hO.each y hy).own i c hc hp h2).1
  rcases pairwise_cases hO.order hx hy with rfl | ho | ho
  · rfl
  · exact absurd (sooner_trans g2 (ho.2 i c hc h1)) sooner_irrefl
  · exact absurd (sooner_trans g1 (ho.2 i c hc h2)) sooner_irrefl

/-- C98: the entries are in the order of the text. -/
theorem C98_order (h : parseDocument ovf input = .ok a s) (he : s.errors = []) (ha : HasArray a arr) :
    arr.values.Pairwise fun x y => Sooner x.val.start y.val.start := by
  obtain ⟨R, hO⟩ := owned_run h he ha
  exact hO.order.imp fun ho => ho.1

/-! ## Examples -/

/-- The first array of a document: for each entry the start, the comma and the numbers of its comments; the comments; and whether there are no
diagnostics. -/
def ownSeen : Run Asts → List (Pos × Option Pos × List Nat) × List (AssocPos × Pos) × Bool
  | .ok ⟨.assignment ⟨_, ⟨_, _, .inlineArray r⟩⟩ :: _, cs⟩ s =>
    (r.values.map fun x => (x.val.start, x.comma, (List.range cs.length).filter fun i => decide (Has x.comments i)),
      cs.map fun c => (c.pos, c.comment.span.start), s.errors.isEmpty)
  | _ => ([], [], false)

set_option maxRecDepth 100000 in
/-- `C98_entry` in the array `x = [#a`, `1#b`, `#c`, `,#d`, ``, `#e`, ``, `2#f`, `#g`, `]`: the comments `b`, `c` and `d` are of the first entry and
`f` of the second one, which has no comma, so that `g` is not; `a` and `e` are of neither. -/
example : ownSeen (parseDocument true ['x', '=', '[', '#', 'a', '\n', '1', '#', 'b', '\n', '#', 'c', '\n', ',', '#', 'd', '\n', '\n', '#', 'e', '\n', '\n',
      '2', '#', 'f', '\n', '#', 'g', '\n', ']']) =
    ([(⟨1, 0⟩, some ⟨3, 0⟩, [1, 2, 3]), (⟨7, 0⟩, none, [5])],
      [(.lineEnd, ⟨0, 3⟩), (.lineEnd, ⟨1, 1⟩), (.contained, ⟨2, 0⟩), (.lineEnd, ⟨3, 1⟩), (.contained, ⟨5, 0⟩), (.lineEnd, ⟨7, 1⟩), (.contained, ⟨8, 0⟩)],
      true) := by decide +kernel

end Verif.Props
