import Verif.Toml.ParseLogic
import Verif.Spec.Places

/-! # Lemmas on places in order -/

namespace Verif.Spec.Toml.InOrder
open Verif Verif.Toml Verif.Spec.Toml

variable {a b c x y : Str} {l m : List Span}

theorem «prefix» (h : InOrder a l b) : a <+: b := by
  induction h with
  | nil h => exact h
  | cons h1 h2 _ ih => exact h1.trans (h2.trans ih)

theorem from_ (h : InOrder b l c) (hab : a <+: b) : InOrder a l c := by
  cases h with
  | nil h => exact .nil (hab.trans h)
  | cons h1 h2 h3 => exact .cons (hab.trans h1) h2 h3

theorem upto (h : InOrder a l b) (hbc : b <+: c) : InOrder a l c := by
  induction h with
  | nil h => exact .nil (h.trans hbc)
  | cons h1 h2 _ ih => exact .cons h1 h2 (ih hbc)

theorem append (h1 : InOrder a l b) (h2 : InOrder b m c) : InOrder a (l ++ m) c := by
  induction h1 with
  | nil h => exact h2.from_ h
  | cons e1 e2 _ ih => exact .cons e1 e2 (ih h2)

theorem refl : InOrder a [] a := .nil (List.prefix_refl _)

theorem one (h1 : a <+: x) (h2 : x <+: y) (h3 : y <+: b) : InOrder a [⟨posOf x, posOf y⟩] b :=
  .cons h1 h2 (.nil h3)

theorem one' {s : Span} (hs : s = ⟨posOf x, posOf y⟩) (h1 : a <+: x) (h2 : x <+: y) (h3 : y <+: b) :
    InOrder a [s] b := hs ▸ one h1 h2 h3

theorem split (h : InOrder a (l ++ m) b) : ∃ c, InOrder a l c ∧ InOrder c m b := by
  induction l generalizing a with
  | nil => exact ⟨a, refl, h⟩
  | cons s l ih =>
    cases h with
    | cons h1 h2 h3 =>
      obtain ⟨c, e1, e2⟩ := ih h3
      exact ⟨c, .cons h1 h2 e1, e2⟩

/-- The place of one character. -/
theorem asciiChar_eq {r : Char} (hr : r ≠ '\n') (hr1 : r.utf8Size = 1) (x : Str) :
    Span.asciiChar (posOf x) = ⟨posOf x, posOf (x ++ [r])⟩ := by
  rw [posOf_plus (by simpa using hr.symm)]
  show Span.mk _ _ = Span.mk _ _
  congr 2
  show 1 = r.utf8Size + 0
  omega

theorem char {r : Char} {p : Pos} (hr : r ≠ '\n') (hr1 : r.utf8Size = 1) (hp : p = posOf x)
    (h1 : a <+: x) (h2 : x ++ [r] <+: b) : InOrder a [Span.asciiChar p] b := by
  rw [hp, asciiChar_eq hr hr1]
  exact one h1 (List.prefix_append _ _) h2

/-- A part of the places. -/
theorem sublist (h : InOrder a l b) (hm : m.Sublist l) : InOrder a m b := by
  induction h generalizing m with
  | nil h => rw [List.sublist_nil.1 hm]; exact .nil h
  | cons h1 h2 h3 ih =>
    cases hm with
    | cons _ hm => exact (ih hm).from_ (h1.trans h2)
    | cons_cons _ hm => exact .cons h1 h2 (ih hm)

/-- Every place is in the text. -/
theorem mem (h : InOrder a l b) {s : Span} (hs : s ∈ l) : ∃ x y, a <+: x ∧ x <+: y ∧ y <+: b ∧
    s = ⟨posOf x, posOf y⟩ := by
  induction h with
  | nil h => cases hs
  | cons h1 h2 h3 ih =>
    rcases List.mem_cons.1 hs with rfl | hs
    · exact ⟨_, _, h1, h2, h3.prefix, rfl⟩
    · obtain ⟨x, y, e1, e2, e3, e4⟩ := ih hs
      exact ⟨x, y, h1.trans (h2.trans e1), e2, e3, e4⟩

/-- From the start of the first place to the end of the last one. -/
theorem ends {s t : Span} (h : InOrder a l b) (h1 : l.head? = some s) (h2 : l.getLast? = some t) :
    ∃ x y, a <+: x ∧ x <+: y ∧ y <+: b ∧ s.start = posOf x ∧ t.stop = posOf y := by
  induction h generalizing s with
  | nil h => cases h1
  | @cons a x y l b e1 e2 e3 ih =>
    cases h1
    cases l with
    | nil => cases h2; exact ⟨x, y, e1, e2, e3.prefix, rfl, rfl⟩
    | cons u l =>
      rw [List.getLast?_cons_cons] at h2
      obtain ⟨x', y', f1, f2, f3, f4, f5⟩ := ih rfl h2
      exact ⟨x, y', e1, e2.trans (f1.trans f2), f3, rfl, f5⟩

end Verif.Spec.Toml.InOrder

namespace Verif.Spec.Toml
open Verif Verif.Toml

theorem valsPlaces_append (a b : List InlineArrayValue) :
    valsPlaces (a ++ b) = valsPlaces a ++ valsPlaces b := by
  induction a with
  | nil => simp [valsPlaces]
  | cons x a ih =>
    obtain ⟨r, v, c⟩ := x
    simp only [List.cons_append, valsPlaces, ih, List.append_assoc]

theorem pairsPlaces_append (a b : List InlineTableAssignment) :
    pairsPlaces (a ++ b) = pairsPlaces a ++ pairsPlaces b := by
  induction a with
  | nil => simp [pairsPlaces]
  | cons x a ih =>
    obtain ⟨⟨k, p, v⟩, c⟩ := x
    simp only [List.cons_append, pairsPlaces, ih, List.append_assoc]

theorem valsPlaces_one (r : CommentRange) (v : Value) (c : Option Pos) :
    valsPlaces [⟨r, v, c⟩] = valPlaces v ++ optPlace c := by simp [valsPlaces]

theorem pairsPlaces_one (k : Key) (p : Pos) (v : Value) (c : Option Pos) :
    pairsPlaces [⟨⟨k, p, v⟩, c⟩] = keyPlaces k ++ [Span.asciiChar p] ++ valPlaces v ++ optPlace c := by
  simp [pairsPlaces]

end Verif.Spec.Toml
