import Verif.Toml.Lex
import Verif.Spec.Lex

/-! # Lemmas: positions, slices and the elementary operations of the tokenizer -/

namespace Verif.Toml
open Verif Verif.Spec.Toml

/-- Induction on a list from the end. -/
theorem snocRec {α : Type} {motive : List α → Prop} (nil : motive [])
    (append_singleton : ∀ t c, motive t → motive (t ++ [c])) (l : List α) : motive l := by
  have : ∀ l : List α, motive l.reverse := by
    intro l
    induction l with
    | nil => exact nil
    | cons c l ih => rw [List.reverse_cons]; exact append_singleton _ _ ih
  have h := this l.reverse
  rwa [List.reverse_reverse] at h

/-! ## Positions -/

@[simp] theorem posOf_nil : posOf [] = ⟨0, 0⟩ := rfl

theorem posOf_nl (s : Str) : posOf (s ++ ['\n']) = ⟨(posOf s).line + 1, 0⟩ := by
  simp [posOf, List.count_append]

theorem posOf_snoc {c : Char} (s : Str) (h : c ≠ '\n') :
    posOf (s ++ [c]) = ⟨(posOf s).line, (posOf s).char + c.utf8Size⟩ := by
  simp only [posOf, List.count_append, List.reverse_append, List.reverse_cons, List.reverse_nil,
    List.nil_append, List.singleton_append]
  rw [List.takeWhile_cons, if_pos (by simpa using h), blen_cons, List.count_singleton,
    if_neg (by simpa using h), Nat.add_comm c.utf8Size]
  rfl

theorem posOf_app (s : Str) : ∀ {t : Str}, '\n' ∉ t →
    posOf (s ++ t) = ⟨(posOf s).line, (posOf s).char + blen t⟩ := by
  intro t
  induction t using snocRec with
  | nil => intro _; simp
  | append_singleton t c ih =>
    intro h
    simp only [List.mem_append, List.mem_singleton, not_or] at h
    rw [← List.append_assoc, posOf_snoc _ (fun e => h.2 e.symm), ih h.1]
    simp [Nat.add_assoc]

theorem posOf_char_le (s : Str) : (posOf s).char ≤ blen s := by
  induction s using snocRec with
  | nil => simp
  | append_singleton t c ih =>
    by_cases h : c = '\n'
    · subst h; rw [posOf_nl]; simp
    · rw [posOf_snoc _ h]; simp; omega

theorem posOf_mono (s t : Str) : Pos.le (posOf s) (posOf (s ++ t)) := by
  induction t using snocRec with
  | nil => simp [Pos.le]
  | append_singleton t c ih =>
    rw [← List.append_assoc]
    by_cases h : c = '\n'
    · subst h; rw [posOf_nl]; unfold Pos.le at *; left; dsimp only; omega
    · rw [posOf_snoc _ h]; unfold Pos.le at *; dsimp only; omega

/-! ## Slices -/

@[simp] theorem sliceFrom_zero (s : Str) : sliceFrom 0 s = some s := by cases s <;> rfl
@[simp] theorem sliceTo_zero (s : Str) : sliceTo 0 s = some [] := by cases s <;> rfl

theorem utf8Size_pos'' (c : Char) : 0 < c.utf8Size := Char.utf8Size_pos c

theorem sliceFrom_app (x y : Str) : sliceFrom (blen x) (x ++ y) = some y := by
  induction x with
  | nil => simp
  | cons c x ih =>
    have := utf8Size_pos'' c
    obtain ⟨n, hn⟩ : ∃ n, c.utf8Size + blen x = n + 1 := ⟨c.utf8Size + blen x - 1, by omega⟩
    rw [List.cons_append, blen_cons, hn, sliceFrom, if_pos (by omega)]
    rw [show n + 1 - c.utf8Size = blen x by omega, ih]

theorem sliceTo_app (x y : Str) : sliceTo (blen x) (x ++ y) = some x := by
  induction x with
  | nil => simp
  | cons c x ih =>
    have := utf8Size_pos'' c
    obtain ⟨n, hn⟩ : ∃ n, c.utf8Size + blen x = n + 1 := ⟨c.utf8Size + blen x - 1, by omega⟩
    rw [List.cons_append, blen_cons, hn, sliceTo, if_pos (by omega)]
    rw [show n + 1 - c.utf8Size = blen x by omega, ih]
    rfl

theorem slice_app (x y z : Str) : slice (x ++ (y ++ z)) (blen x) (blen x + blen y) = some y := by
  rw [slice, if_pos (by omega), sliceFrom_app, Option.bind_some,
    show blen x + blen y - blen x = blen y by omega, sliceTo_app]

theorem slice_of {s x y z : Str} {a b : Nat} (h : s = x ++ y ++ z) (ha : a = blen x)
    (hb : b = blen (x ++ y)) : slice s a b = some y := by
  subst h ha hb
  rw [blen_append, List.append_assoc, slice_app]

/-! ## The position invariant -/

/-- `pre` has been consumed, `rest` is left; the line counters are right. -/
structure St (L : Lexer) (pre rest : Str) : Prop where
  input : L.input = pre ++ rest
  line : L.lineIdx = (posOf pre).line
  col : L.lineByteStart + (posOf pre).char = blen pre

theorem St.new (input : Str) : St (Lexer.new input) [] input := ⟨rfl, rfl, rfl⟩

variable {L L' : Lexer} {pre rest : Str}

theorem St.nextBytePos (h : St L pre rest) : L.nextBytePos rest = blen pre := by
  rw [Lexer.nextBytePos, h.input, blen_append]; omega

theorem St.congr (h : St L pre rest) (hi : L'.input = L.input) (hl : L'.lineIdx = L.lineIdx)
    (hb : L'.lineByteStart = L.lineByteStart) : St L' pre rest :=
  ⟨hi ▸ h.input, hl ▸ h.line, hb ▸ h.col⟩

theorem St.step {c : Char} {cs : Str} (h : St L pre (c :: cs)) (hc : c ≠ '\n') :
    St L (pre ++ [c]) cs := by
  refine ⟨by simpa using h.input, by rw [posOf_snoc _ hc]; exact h.line, ?_⟩
  rw [posOf_snoc _ hc]
  have := h.col
  simp only [blen_append, blen_cons, blen_nil]
  omega

theorem St.app {w cs : Str} (h : St L pre (w ++ cs)) (hw : '\n' ∉ w) : St L (pre ++ w) cs := by
  induction w generalizing pre with
  | nil => simpa using h
  | cons c w ih =>
    simp only [List.mem_cons, not_or] at hw
    have := ih (h.step (fun e => hw.1 e.symm)) hw.2
    simpa using this

theorem St.newline {cs : Str} (h : St L pre ('\n' :: cs)) (hb : L.bytePos = blen pre) :
    St L.newline (pre ++ ['\n']) cs := by
  refine ⟨by simpa [Lexer.newline] using h.input, by rw [posOf_nl]; simp [Lexer.newline, h.line], ?_⟩
  rw [posOf_nl]
  simp only [Lexer.newline, hb, blen_append, blen_cons, blen_nil]
  rfl

theorem St.atNext (h : St L pre rest) : St (L.atNext rest) pre rest := ⟨h.input, h.line, h.col⟩

theorem St.atNext_bytePos (h : St L pre rest) : (L.atNext rest).bytePos = blen pre :=
  h.nextBytePos

/-- Positions on the current line, at or before the consumed text. -/
theorem St.posInLine {x y : Str} (h : St L pre rest) (hx : pre = x ++ y) (hy : '\n' ∉ y) :
    L.posInLine (blen x) = some (posOf x) := by
  subst hx
  have hc := h.col
  have hl := h.line
  rw [posOf_app _ hy] at hc hl
  simp only [blen_append] at hc
  have := posOf_char_le x
  rw [Lexer.posInLine, subU, if_pos (by omega)]
  simp only [Option.bind_eq_bind, Option.bind_some, hl]
  rw [show blen x - L.lineByteStart = (posOf x).char by omega]
  rfl

/-- Positions on the current line, behind the consumed text. -/
theorem St.posAhead {y : Str} {b : Nat} (h : St L pre rest) (hy : '\n' ∉ y)
    (hb : b = blen (pre ++ y)) : L.posInLine b = some (posOf (pre ++ y)) := by
  subst hb
  have hc := h.col
  rw [posOf_app _ hy, Lexer.posInLine, subU, if_pos (by simp only [blen_append]; omega)]
  simp only [Option.bind_eq_bind, Option.bind_some, h.line]
  rw [show blen (pre ++ y) - L.lineByteStart = (posOf pre).char + blen y by
    simp only [blen_append]; omega]
  rfl

theorem St.pos (h : St L pre rest) (hb : L.bytePos = blen pre) : L.pos = some (posOf pre) := by
  rw [Lexer.pos, hb]
  exact h.posInLine (y := []) (by simp) (by simp)

theorem St.nextPos (h : St L pre rest) : L.nextPos rest = some (posOf pre) := by
  rw [Lexer.nextPos, h.nextBytePos]
  exact h.posInLine (y := []) (by simp) (by simp)

theorem St.peekPrev (h : St L pre rest) (hb : L.bytePos = blen pre) :
    L.peekPrev = some pre.getLast? := by
  rw [Lexer.peekPrev, hb, h.input, sliceTo_app]
  rfl

/-! ## Resolving token ids -/

theorem resolve_mono {S S' : List StringToken} {I I' : List Str} {t : Token} {v : View × Pos}
    (h : resolve S I t = some v) : resolve (S ++ S') (I ++ I') t = some v := by
  unfold resolve at *
  split <;> rename_i he <;> simp only [he] at h <;> try exact h
  all_goals
    simp only [Option.map_eq_some_iff] at h ⊢
    obtain ⟨a, ha, hv⟩ := h
    refine ⟨a, ?_, hv⟩
    rw [List.getElem?_append_left (List.getElem?_eq_some_iff.1 ha).1]
    exact ha

end Verif.Toml
