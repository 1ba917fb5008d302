import Verif.Diag.Model
import Verif.Spec.Diag
import Verif.Toml.LexBasic

/-! # Lemmas about lines, places and rendering -/

namespace Verif.Diag
open Verif Verif.Toml Verif.Spec Verif.Spec.Toml

/-! ## Lines -/

theorem splitNl_ne_nil (s : Str) : splitNl s ≠ [] := by
  cases s with
  | nil => simp [splitNl]
  | cons c cs =>
    rw [splitNl]
    split
    · simp
    · split <;> simp

theorem splitNl_last {l : Str} (h : '\n' ∉ l) : splitNl l = [l] := by
  induction l with
  | nil => rfl
  | cons c cs ih =>
    simp only [List.mem_cons, not_or] at h
    rw [splitNl, if_neg (fun e => h.1 e.symm), ih h.2]

theorem splitNl_app {l : Str} (h : '\n' ∉ l) (rest : Str) :
    splitNl (l ++ '\n' :: rest) = l :: splitNl rest := by
  induction l with
  | nil => simp [splitNl]
  | cons c cs ih =>
    simp only [List.mem_cons, not_or] at h
    rw [List.cons_append, splitNl, if_neg (fun e => h.1 e.symm), ih h.2]

theorem stripTerminated_cons (l : Str) {ls : List Str} (h : ls ≠ []) :
    stripTerminated (l :: ls) = stripCr l :: stripTerminated ls := by
  cases ls with
  | nil => exact absurd rfl h
  | cons m ls => rfl

theorem lines_last {l : Str} (h : '\n' ∉ l) : lines l = [l] := by
  rw [lines, splitNl_last h]; rfl

theorem lines_app {l : Str} (h : '\n' ∉ l) (rest : Str) :
    lines (l ++ '\n' :: rest) = stripCr l :: lines rest := by
  rw [lines, splitNl_app h, stripTerminated_cons _ (splitNl_ne_nil _)]; rfl

theorem stripCr_snoc (l : Str) : stripCr (l ++ ['\r']) = l := by simp [stripCr]

theorem stripCr_keep {l : Str} (h : l.getLast? ≠ some '\r') : stripCr l = l := by
  rw [stripCr, if_neg h]

theorem linesOf_eq {text : Str} {ls : List Str} (h : LinesOf text ls) : lines text = ls := by
  induction h with
  | last h => exact lines_last h
  | lf h1 h2 _ ih => rw [lines_app h1, stripCr_keep h2, ih]
  | @crlf l rest ls h1 _ ih =>
    rw [show l ++ '\r' :: '\n' :: rest = (l ++ ['\r']) ++ '\n' :: rest by simp,
      lines_app (by simp [h1]), stripCr_snoc, ih]

theorem linesOf_exists (text : Str) : ∀ l : Str, '\n' ∉ l → ∃ ls, LinesOf (l ++ text) ls := by
  induction text with
  | nil => intro l hl; exact ⟨[l], by simpa using LinesOf.last hl⟩
  | cons c cs ih =>
    intro l hl
    by_cases hc : c = '\n'
    · subst hc
      obtain ⟨ls, hls⟩ := ih [] (by simp)
      rw [List.nil_append] at hls
      by_cases hr : l.getLast? = some '\r'
      · obtain ⟨m, rfl⟩ := List.getLast?_eq_some_iff.1 hr
        refine ⟨m :: ls, ?_⟩
        rw [List.append_assoc]
        exact .crlf (fun h => hl (by simp [h])) hls
      · exact ⟨l :: ls, .lf hl hr hls⟩
    · obtain ⟨ls, hls⟩ := ih (l ++ [c]) (by simp [hl, Ne.symm hc])
      exact ⟨ls, by simpa using hls⟩

theorem lines_linesOf (text : Str) : LinesOf text (lines text) := by
  obtain ⟨ls, h⟩ := linesOf_exists text [] (by simp)
  rw [List.nil_append] at h
  rwa [linesOf_eq h]

/-! ## Places -/

/-- The part of the last line of `x`. -/
def curLine (x : Str) : Str := (x.reverse.takeWhile (· != '\n')).reverse

theorem blen_reverse (s : Str) : blen s.reverse = blen s := by
  induction s with
  | nil => rfl
  | cons c cs ih => simp [ih, Nat.add_comm]

theorem blen_curLine (x : Str) : blen (curLine x) = (posOf x).char := by
  rw [curLine, blen_reverse]; rfl

theorem curLine_of_not_mem {x : Str} (h : '\n' ∉ x) : curLine x = x := by
  have key : ∀ a : Str, '\n' ∉ a → a.takeWhile (· != '\n') = a := by
    intro a ha
    induction a with
    | nil => rfl
    | cons c a ih =>
      simp only [List.mem_cons, not_or] at ha
      rw [List.takeWhile_cons, if_pos (by simpa using fun e => ha.1 e.symm), ih ha.2]
  rw [curLine, key _ (by simpa using h), List.reverse_reverse]

theorem curLine_cons (l x : Str) : curLine (l ++ '\n' :: x) = curLine x := by
  have key : ∀ a b : Str, (a ++ '\n' :: b).takeWhile (· != '\n') = a.takeWhile (· != '\n') := by
    intro a b
    induction a with
    | nil => simp
    | cons c a ih => simp only [List.cons_append, List.takeWhile_cons, ih]
  rw [curLine, List.reverse_append, List.reverse_cons, List.append_assoc, List.singleton_append,
    key, curLine]

theorem posOf_cons_nl {l : Str} (h : '\n' ∉ l) (x : Str) :
    posOf (l ++ '\n' :: x) = ⟨(posOf x).line + 1, (posOf x).char⟩ := by
  have h1 : (posOf (l ++ '\n' :: x)).char = (posOf x).char := by
    rw [← blen_curLine, curLine_cons, blen_curLine]
  have h2 : (posOf (l ++ '\n' :: x)).line = (posOf x).line + 1 := by
    simp only [posOf, List.count_append, List.count_cons_self, List.count_eq_zero.2 h]; omega
  rw [← h1, ← h2]

/-- The line of a place in the text: it starts with the part of the line in front of the place, and
continues with a part of the text behind the place. -/
theorem linesOf_at {text : Str} {ls : List Str} (h : LinesOf text ls) : ∀ {x y : Str},
    text = x ++ y → ¬ (x.getLast? = some '\r' ∧ y.head? = some '\n') →
    ∃ v w, ls[(posOf x).line]? = some (curLine x ++ v) ∧ y = v ++ w ∧ '\n' ∉ v ∧
      (w = [] ∨ w.head? = some '\n' ∨ ∃ w', w = '\r' :: '\n' :: w') := by
  induction h with
  | @last l h =>
    intro x y hxy _
    subst hxy
    have hx : '\n' ∉ x := fun e => h (by simp [e])
    have hy : '\n' ∉ y := fun e => h (by simp [e])
    refine ⟨y, [], ?_, by simp, hy, .inl rfl⟩
    rw [curLine_of_not_mem hx]
    simp [posOf, List.count_eq_zero.2 hx]
  | @lf l rest ls h1 h2 _ ih =>
    intro x y hxy hne
    rcases List.append_eq_append_iff.1 hxy with ⟨u, rfl, hu⟩ | ⟨u, rfl, hu⟩
    · cases u with
      | nil =>
        rw [List.nil_append] at hu
        subst hu
        refine ⟨[], '\n' :: rest, ?_, by simp, by simp, .inr (.inl rfl)⟩
        rw [List.append_nil, curLine_of_not_mem h1]
        simp [posOf, List.count_eq_zero.2 h1]
      | cons c u =>
        simp only [List.cons_append, List.cons.injEq] at hu
        obtain ⟨rfl, rfl⟩ := hu
        obtain ⟨v, w, e1, e2, e3, e4⟩ := ih (x := u) (y := y) rfl (by
          intro ⟨g1, g2⟩
          refine hne ⟨?_, g2⟩
          rw [List.getLast?_append, List.getLast?_cons, g1]; rfl)
        refine ⟨v, w, ?_, e2, e3, e4⟩
        rw [posOf_cons_nl h1, curLine_cons]
        simpa using e1
    · have hx : '\n' ∉ x := fun e => h1 (by simp [e])
      have hu' : '\n' ∉ u := fun e => h1 (by simp [e])
      refine ⟨u, '\n' :: rest, ?_, hu, hu', .inr (.inl rfl)⟩
      rw [curLine_of_not_mem hx]
      simp [posOf, List.count_eq_zero.2 hx]
  | @crlf l rest ls h1 _ ih =>
    intro x y hxy hne
    rcases List.append_eq_append_iff.1 hxy with ⟨u, rfl, hu⟩ | ⟨u, rfl, hu⟩
    · match u, hu with
      | [], hu =>
        rw [List.nil_append] at hu
        subst hu
        refine ⟨[], '\r' :: '\n' :: rest, ?_, by simp, by simp, .inr (.inr ⟨rest, rfl⟩)⟩
        rw [List.append_nil, List.append_nil, curLine_of_not_mem h1]
        simp [posOf, List.count_eq_zero.2 h1]
      | [c], hu =>
        simp only [List.cons_append, List.nil_append, List.cons.injEq] at hu
        obtain ⟨rfl, rfl⟩ := hu
        exact absurd ⟨by simp, rfl⟩ hne
      | c :: d :: u, hu =>
        simp only [List.cons_append, List.cons.injEq] at hu
        obtain ⟨rfl, rfl, rfl⟩ := hu
        obtain ⟨v, w, e1, e2, e3, e4⟩ := ih (x := u) (y := y) rfl (by
          intro ⟨g1, g2⟩
          refine hne ⟨?_, g2⟩
          rw [List.getLast?_append, List.getLast?_cons, List.getLast?_cons, g1]; rfl)
        refine ⟨v, w, ?_, e2, e3, e4⟩
        have hl : '\n' ∉ l ++ ['\r'] := by simp [h1]
        rw [show l ++ '\r' :: '\n' :: u = (l ++ ['\r']) ++ '\n' :: u by simp, posOf_cons_nl hl,
          curLine_cons]
        simpa using e1
    · have hx : '\n' ∉ x := fun e => h1 (by simp [e])
      have hu' : '\n' ∉ u := fun e => h1 (by simp [e])
      refine ⟨u, '\r' :: '\n' :: rest, ?_, hu, hu', .inr (.inr ⟨rest, rfl⟩)⟩
      rw [curLine_of_not_mem hx]
      simp [posOf, List.count_eq_zero.2 hx]

/-- A byte offset on a character boundary. -/
def Bnd (n : Nat) (l : Str) : Prop := ∃ u v, l = u ++ v ∧ blen u = n

theorem showable_line {text : Str} {p : Pos} (h : Showable text p) :
    ∃ l, (lines text)[p.line]? = some l ∧ Bnd p.char l := by
  obtain ⟨x, y, rfl, rfl, hne⟩ := h
  obtain ⟨v, w, e1, -⟩ := linesOf_at (lines_linesOf _) rfl hne
  exact ⟨_, e1, curLine x, v, rfl, blen_curLine x⟩

theorem Bnd.le {n : Nat} {l : Str} (h : Bnd n l) : n ≤ blen l := by
  obtain ⟨u, v, rfl, rfl⟩ := h; simp

theorem Bnd.zero (l : Str) : Bnd 0 l := ⟨[], l, rfl, rfl⟩
theorem Bnd.full (l : Str) : Bnd (blen l) l := ⟨l, [], by simp, rfl⟩

theorem Bnd.sliceTo {n : Nat} {l : Str} (h : Bnd n l) : ∃ u, sliceTo n l = some u := by
  obtain ⟨u, v, rfl, rfl⟩ := h; exact ⟨u, sliceTo_app u v⟩

theorem app_prefix_of_blen {a b c d : Str} (h : a ++ b = c ++ d) (hl : blen a ≤ blen c) :
    ∃ m, c = a ++ m := by
  rcases List.append_eq_append_iff.1 h with ⟨u, h1, -⟩ | ⟨u, h1, -⟩
  · exact ⟨u, h1⟩
  · cases u with
    | nil => exact ⟨[], by simpa using h1.symm⟩
    | cons e u =>
      have := utf8Size_pos'' e
      rw [h1, blen_append, blen_cons] at hl
      omega

theorem Bnd.slice {a b : Nat} {l : Str} (ha : Bnd a l) (hb : Bnd b l) (hab : a ≤ b) :
    ∃ u, slice l a b = some u := by
  obtain ⟨u, v, h1, rfl⟩ := ha
  obtain ⟨u', v', h2, rfl⟩ := hb
  obtain ⟨m, rfl⟩ := app_prefix_of_blen (h1.symm.trans h2) hab
  exact ⟨m, slice_of h2 rfl rfl⟩

/-! ## Rendering -/

section
variable {width : Str → Nat}

theorem bodyLoop_ok {annotation : Str} {severity : Severity} {span : Span} {numLines : Nat} :
    ∀ (ls : List Str) (i : Nat), (∀ j l, ls[j]? = some l →
      (i + j = 0 → Bnd span.start.char l) ∧ (i + j = numLines - 1 → Bnd span.stop.char l) ∧
      (i + j = 0 → i + j = numLines - 1 → span.start.char ≤ span.stop.char)) →
    ∃ out, bodyLoop width annotation severity span numLines i ls = some out := by
  intro ls
  induction ls with
  | nil => intro i _; exact ⟨[], rfl⟩
  | cons line ls ih =>
    intro i h
    obtain ⟨h1, h2, h3⟩ := h 0 line rfl
    simp only [Nat.add_zero] at h1 h2 h3
    have b1 : Bnd (if i = 0 then span.start.char else 0) line := by
      split
      · next e => exact h1 e
      · exact Bnd.zero _
    have b2 : Bnd (if i = numLines - 1 then span.stop.char else blen line) line := by
      split
      · next e => exact h2 e
      · exact Bnd.full _
    obtain ⟨u, hu⟩ := b1.sliceTo
    obtain ⟨w, hw⟩ := b1.slice b2 (by
      split
      · next e =>
        split
        · next e' => exact h3 e e'
        · exact (h1 e).le
      · exact Nat.zero_le _)
    obtain ⟨rest, hr⟩ := ih (i + 1) (fun j l hj => by
      have := h (j + 1) l (by simpa using hj)
      rwa [show i + 1 + j = i + (j + 1) by omega])
    exact ⟨_, by simp only [bodyLoop, hu, hw, hr, Option.bind_eq_bind, Option.bind_some]; rfl⟩

theorem displayBody_ok {text : Str} {span : Span} (annotation : Str) (severity : Severity)
    (h1 : Showable text span.start) (h2 : Showable text span.stop)
    (hle : Pos.le span.start span.stop) :
    ∃ out, displayBody width annotation severity span (lines text) = some out := by
  obtain ⟨l1, e1, b1⟩ := showable_line h1
  obtain ⟨l2, e2, b2⟩ := showable_line h2
  have hlt := (List.getElem?_eq_some_iff.1 e2).1
  have hle' : span.start.line ≤ span.stop.line := by unfold Pos.le at hle; omega
  rw [displayBody, subU, if_pos (by omega), Option.bind_eq_bind, Option.bind_some,
    if_pos (by omega)]
  apply bodyLoop_ok
  intro j l hj
  rw [List.getElem?_take] at hj
  split at hj
  · next hjn =>
    rw [List.getElem?_drop] at hj
    refine ⟨fun e => ?_, fun e => ?_, fun e e' => ?_⟩
    · rw [show span.start.line + j = span.start.line by omega, e1] at hj
      cases hj; exact b1
    · rw [show span.start.line + j = span.stop.line by omega, e2] at hj
      cases hj; exact b2
    · unfold Pos.le at hle; omega
  · cases hj

theorem displayContextLines_ok {text : List Str} {lo hi : Nat} {ls : List Nat}
    (h : ∀ l ∈ ls, l < text.length) : ∃ out, displayContextLines text lo hi ls = some out := by
  induction ls with
  | nil => exact ⟨[], rfl⟩
  | cons l ls ih =>
    obtain ⟨out, ho⟩ := ih (fun l hl => h l (List.mem_cons_of_mem _ hl))
    rw [displayContextLines]
    split
    · exact ⟨out, ho⟩
    · split
      · rw [List.getElem?_eq_getElem (h l List.mem_cons_self), ho]
        exact ⟨_, rfl⟩
      · exact ⟨[], rfl⟩

theorem display_ok {text : Str} {d : Diagnostic}
    (h1 : Showable text d.span.start) (h2 : Showable text d.span.stop)
    (hle : Pos.le d.span.start d.span.stop)
    (hh : ∀ h, d.hint = some h → Showable text h.span.start ∧ Showable text h.span.stop ∧
      Pos.le h.span.start h.span.stop)
    (hc : ∀ l ∈ d.contextLines, l < (lines text).length) :
    ∃ out, display width d (lines text) = some out := by
  obtain ⟨l, e1, b1⟩ := showable_line h1
  obtain ⟨u, hu⟩ := b1.sliceTo
  have ctx := fun lo hi => displayContextLines_ok (lo := lo) (hi := hi) hc
  obtain ⟨body, hb⟩ := displayBody_ok (width := width) d.annotation d.severity h1 h2 hle
  have hB : ∃ r, hintBefore width d (lines text) = some r := by
    rw [hintBefore]
    split
    · next h eh =>
      split
      · obtain ⟨g1, g2, g3⟩ := hh h eh
        obtain ⟨b, hb⟩ := displayBody_ok (width := width) h.annotation .hint g1 g2 g3
        obtain ⟨c, hc⟩ := ctx 0 h.span.start.line
        rw [hb, hc]; exact ⟨_, rfl⟩
      · exact ⟨_, rfl⟩
    · exact ⟨_, rfl⟩
  have hA : ∃ r, hintAfter width d (lines text) = some r := by
    rw [hintAfter]
    split
    · next h eh =>
      split
      · exact ⟨_, rfl⟩
      · obtain ⟨g1, g2, g3⟩ := hh h eh
        obtain ⟨b, hb⟩ := displayBody_ok (width := width) h.annotation .hint g1 g2 g3
        obtain ⟨c, hc⟩ := ctx (d.span.stop.line + 1) h.span.start.line
        rw [hb, hc]; exact ⟨_, rfl⟩
    · exact ⟨_, rfl⟩
  obtain ⟨⟨r1, cur⟩, hB⟩ := hB
  obtain ⟨r2, hA⟩ := hA
  obtain ⟨c, hc⟩ := ctx cur d.span.start.line
  simp only [display, displayHeader, e1, Option.bind_some, hu, hB, hc, hb, hA, Option.bind_eq_bind,
    Option.pure_def]
  exact ⟨_, rfl⟩

end

end Verif.Diag
