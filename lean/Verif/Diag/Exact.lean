import Verif.Diag.Lemmas

/-! # When rendering a diagnostic panics -/

namespace Verif.Diag
open Verif Verif.Toml Verif.Spec Verif.Spec.Toml

theorem sliceTo_bnd : ∀ {l : Str} {n : Nat} {u : Str}, sliceTo n l = some u → Bnd n l := by
  intro l
  induction l with
  | nil =>
    intro n u h
    cases n with
    | zero => exact Bnd.zero _
    | succ n => simp [sliceTo] at h
  | cons c cs ih =>
    intro n u h
    cases n with
    | zero => exact Bnd.zero _
    | succ n =>
      rw [sliceTo] at h
      split at h
      · next hc =>
        obtain ⟨w, hw, -⟩ := Option.map_eq_some_iff.1 h
        obtain ⟨a, b, rfl, hab⟩ := ih hw
        exact ⟨c :: a, b, rfl, by rw [blen_cons]; omega⟩
      · cases h

theorem sliceFrom_bnd : ∀ {l : Str} {n : Nat} {r : Str}, sliceFrom n l = some r →
    ∃ u, l = u ++ r ∧ blen u = n := by
  intro l
  induction l with
  | nil =>
    intro n r h
    cases n with
    | zero => simp [sliceFrom] at h; exact ⟨[], by simp [h], rfl⟩
    | succ n => simp [sliceFrom] at h
  | cons c cs ih =>
    intro n r h
    cases n with
    | zero => simp [sliceFrom] at h; exact ⟨[], by simp [h], rfl⟩
    | succ n =>
      rw [sliceFrom] at h
      split at h
      · next hc =>
        obtain ⟨u, rfl, hu⟩ := ih h
        exact ⟨c :: u, rfl, by rw [blen_cons]; omega⟩
      · cases h

theorem slice_bnd {l u : Str} {a b : Nat} (h : slice l a b = some u) : Bnd a l ∧ Bnd b l ∧ a ≤ b := by
  rw [slice] at h
  split at h
  · next hab =>
    obtain ⟨r, hr, h2⟩ := Option.bind_eq_some_iff.1 h
    obtain ⟨x, rfl, hx⟩ := sliceFrom_bnd hr
    obtain ⟨y, z, rfl, hy⟩ := sliceTo_bnd h2
    exact ⟨⟨x, _, rfl, hx⟩, ⟨x ++ y, z, by simp, by rw [blen_append]; omega⟩, hab⟩
  · cases h

/-- A boundary of a line is a place of the text. -/
theorem line_showable {text : Str} {ls : List Str} (h : LinesOf text ls) : ∀ {i n : Nat} {l : Str},
    ls[i]? = some l → Bnd n l → Showable text ⟨i, n⟩ := by
  induction h with
  | @last l h =>
    intro i n m hi hb
    cases i with
    | zero =>
      simp at hi; subst hi
      obtain ⟨u, v, rfl, rfl⟩ := hb
      have hu : '\n' ∉ u := fun e => h (by simp [e])
      have hv : '\n' ∉ v := fun e => h (by simp [e])
      refine ⟨u, v, rfl, ?_, fun ⟨_, g⟩ => hv (List.mem_of_head? g)⟩
      rw [← curLine_of_not_mem hu, blen_curLine, curLine_of_not_mem hu]
      simp [posOf, List.count_eq_zero.2 hu]
    | succ i => simp at hi
  | @lf l rest ls h1 h2 _ ih =>
    intro i n m hi hb
    cases i with
    | zero =>
      simp at hi; subst hi
      obtain ⟨u, v, rfl, rfl⟩ := hb
      have hu : '\n' ∉ u := fun e => h1 (by simp [e])
      refine ⟨u, v ++ '\n' :: rest, by simp, ?_, ?_⟩
      · rw [← curLine_of_not_mem hu, blen_curLine, curLine_of_not_mem hu]
        simp [posOf, List.count_eq_zero.2 hu]
      · intro ⟨g1, g2⟩
        cases v with
        | nil => exact h2 (by simpa using g1)
        | cons c v =>
          simp only [List.cons_append, List.head?_cons, Option.some.injEq] at g2
          exact h1 (by simp [g2])
    | succ i =>
      obtain ⟨x, y, rfl, hp, hne⟩ := ih (i := i) (n := n) (l := m) (by simpa using hi) hb
      refine ⟨l ++ '\n' :: x, y, by simp, ?_, ?_⟩
      · rw [posOf_cons_nl h1, ← hp]
      · intro ⟨g1, g2⟩
        refine hne ⟨?_, g2⟩
        rw [List.getLast?_append, List.getLast?_cons] at g1
        cases hx : x.getLast? with
        | none => rw [hx] at g1; simp at g1
        | some c => rw [hx] at g1; simpa using g1
  | @crlf l rest ls h1 _ ih =>
    intro i n m hi hb
    have h1' : '\n' ∉ l ++ ['\r'] := by simp [h1]
    cases i with
    | zero =>
      simp at hi; subst hi
      obtain ⟨u, v, rfl, rfl⟩ := hb
      have hu : '\n' ∉ u := fun e => h1 (by simp [e])
      refine ⟨u, v ++ '\r' :: '\n' :: rest, by simp, ?_, ?_⟩
      · rw [← curLine_of_not_mem hu, blen_curLine, curLine_of_not_mem hu]
        simp [posOf, List.count_eq_zero.2 hu]
      · intro ⟨g1, g2⟩
        cases v with
        | nil => simp at g2
        | cons c v =>
          simp only [List.cons_append, List.head?_cons, Option.some.injEq] at g2
          exact h1 (by simp [g2])
    | succ i =>
      obtain ⟨x, y, rfl, hp, hne⟩ := ih (i := i) (n := n) (l := m) (by simpa using hi) hb
      refine ⟨(l ++ ['\r']) ++ '\n' :: x, y, by simp, ?_, ?_⟩
      · rw [posOf_cons_nl h1', ← hp]
      · intro ⟨g1, g2⟩
        refine hne ⟨?_, g2⟩
        rw [List.getLast?_append, List.getLast?_cons] at g1
        cases hx : x.getLast? with
        | none => rw [hx] at g1; simp at g1
        | some c => rw [hx] at g1; simpa using g1

theorem showable_iff {text : Str} {p : Pos} :
    Showable text p ↔ ∃ l, (lines text)[p.line]? = some l ∧ Bnd p.char l :=
  ⟨showable_line, fun ⟨_, h1, h2⟩ => line_showable (lines_linesOf text) h1 h2⟩

theorem linesOf_length {text : Str} {ls : List Str} (h : LinesOf text ls) : ls.length = text.count '\n' + 1 := by
  induction h with
  | last h => simp [List.count_eq_zero.2 h]
  | lf h1 h2 _ ih => simp [List.count_eq_zero.2 h1, ih]
  | crlf h1 _ ih => simp [List.count_eq_zero.2 h1, ih]

section
variable {width : Str → Nat}

theorem bodyLoop_some {annotation : Str} {severity : Severity} {span : Span} {numLines : Nat} :
    ∀ (ls : List Str) (i : Nat) {out : Str}, bodyLoop width annotation severity span numLines i ls = some out →
      ∀ j l, ls[j]? = some l →
      (i + j = 0 → Bnd span.start.char l) ∧ (i + j = numLines - 1 → Bnd span.stop.char l) ∧
      (i + j = 0 → i + j = numLines - 1 → span.start.char ≤ span.stop.char) := by
  intro ls
  induction ls with
  | nil => intro i out _ j l hj; simp at hj
  | cons line ls ih =>
    intro i out h j l hj
    simp only [bodyLoop, Option.bind_eq_bind] at h
    obtain ⟨u, hu, h⟩ := Option.bind_eq_some_iff.1 h
    obtain ⟨w, hw, h⟩ := Option.bind_eq_some_iff.1 h
    obtain ⟨rest, hr, -⟩ := Option.bind_eq_some_iff.1 h
    cases j with
    | zero =>
      simp at hj; subst hj
      obtain ⟨b1, b2, b3⟩ := slice_bnd hw
      rw [Nat.add_zero]
      refine ⟨fun e => ?_, fun e => ?_, fun e e' => ?_⟩
      · rwa [if_pos e] at b1
      · rwa [if_pos e] at b2
      · rwa [if_pos e, if_pos e'] at b3
    | succ j =>
      have := ih (i + 1) hr j l (by simpa using hj)
      rwa [show i + 1 + j = i + (j + 1) by omega] at this

theorem displayBody_iff {text : Str} {span : Span} (annotation : Str) (severity : Severity) :
    (∃ out, displayBody width annotation severity span (lines text) = some out) ↔ Drawable text span := by
  have hlen := linesOf_length (lines_linesOf text)
  constructor
  · rintro ⟨out, h⟩
    rw [displayBody, subU] at h
    split at h
    · next hle =>
      rw [Option.bind_eq_bind, Option.bind_some] at h
      split at h
      · next hel =>
        by_cases e : span.start.line = span.stop.line + 1
        · exact .inr ⟨e, by omega⟩
        · have hs : span.start.line < (lines text).length := by omega
          have ht : span.stop.line < (lines text).length := by omega
          have key := fun j (hj : span.start.line + j < (lines text).length)
              (hn : j < span.stop.line + 1 - span.start.line) =>
            bodyLoop_some _ 0 h j ((lines text)[span.start.line + j]'hj) (by
              rw [List.getElem?_take, if_pos hn, List.getElem?_drop, List.getElem?_eq_getElem hj])
          obtain ⟨b1, -, b3⟩ := key 0 (by omega) (by omega)
          obtain ⟨-, b2, -⟩ := key (span.stop.line - span.start.line) (by omega) (by omega)
          refine .inl ⟨showable_iff.2 ⟨_, List.getElem?_eq_getElem hs, b1 rfl⟩,
            showable_iff.2 ⟨_, List.getElem?_eq_getElem ht, ?_⟩, ?_⟩
          · have := b2 (by omega)
            simpa only [show span.start.line + (span.stop.line - span.start.line) = span.stop.line by omega] using this
          · unfold Pos.le
            by_cases hh : span.start.line = span.stop.line
            · exact .inr ⟨hh, b3 rfl (by omega)⟩
            · exact .inl (by omega)
      · cases h
    · cases h
  · rintro (⟨h1, h2, h3⟩ | ⟨h1, h2⟩)
    · exact displayBody_ok annotation severity h1 h2 h3
    · rw [displayBody, subU, if_pos (by omega), Option.bind_eq_bind, Option.bind_some, if_pos (by omega), h1]
      simp only [Nat.sub_self, List.take_zero, bodyLoop]
      exact ⟨_, rfl⟩

/-- Context lines are only taken from in front of an existing line. -/
theorem displayContextLines_total {text : List Str} {lo hi : Nat} (h : hi ≤ text.length) (ls : List Nat) :
    ∃ out, displayContextLines text lo hi ls = some out := by
  induction ls with
  | nil => exact ⟨[], rfl⟩
  | cons l ls ih =>
    obtain ⟨out, ho⟩ := ih
    rw [displayContextLines]
    split
    · exact ⟨out, ho⟩
    · split
      · rw [List.getElem?_eq_getElem (by omega), ho]
        exact ⟨_, rfl⟩
      · exact ⟨[], rfl⟩

theorem Drawable.start_le {text : Str} {s : Span} (h : Drawable text s) : s.start.line ≤ (lines text).length := by
  have hlen := linesOf_length (lines_linesOf text)
  rcases h with ⟨h1, -⟩ | ⟨h1, h2⟩
  · obtain ⟨l, e, -⟩ := showable_line h1
    have := (List.getElem?_eq_some_iff.1 e).1
    omega
  · omega

theorem display_iff {text : Str} {d : Diagnostic} :
    (∃ out, display width d (lines text) = some out) ↔
      Showable text d.span.start ∧ Drawable text d.span ∧ ∀ h, d.hint = some h → Drawable text h.span := by
  constructor
  · rintro ⟨out, h⟩
    simp only [display, Option.bind_eq_bind] at h
    obtain ⟨hd, h1, h⟩ := Option.bind_eq_some_iff.1 h
    obtain ⟨⟨hb, cur⟩, h2, h⟩ := Option.bind_eq_some_iff.1 h
    obtain ⟨c, -, h⟩ := Option.bind_eq_some_iff.1 h
    obtain ⟨b, h3, h⟩ := Option.bind_eq_some_iff.1 h
    obtain ⟨ha, h4, -⟩ := Option.bind_eq_some_iff.1 h
    refine ⟨?_, (displayBody_iff _ _).1 ⟨_, h3⟩, fun hint e => ?_⟩
    · simp only [displayHeader, Option.bind_eq_bind] at h1
      obtain ⟨l, e, h1⟩ := Option.bind_eq_some_iff.1 h1
      obtain ⟨u, e', -⟩ := Option.bind_eq_some_iff.1 h1
      exact showable_iff.2 ⟨l, e, sliceTo_bnd e'⟩
    · rw [hintBefore, e] at h2
      rw [hintAfter, e] at h4
      simp only [Option.bind_eq_bind] at h2 h4
      by_cases hc : before hint.span.start d.span.start = true
      · rw [if_pos hc] at h2
        obtain ⟨x, -, h2⟩ := Option.bind_eq_some_iff.1 h2
        obtain ⟨y, h2, -⟩ := Option.bind_eq_some_iff.1 h2
        exact (displayBody_iff _ _).1 ⟨_, h2⟩
      · rw [if_neg hc] at h4
        obtain ⟨x, -, h4⟩ := Option.bind_eq_some_iff.1 h4
        obtain ⟨y, h4, -⟩ := Option.bind_eq_some_iff.1 h4
        exact (displayBody_iff _ _).1 ⟨_, h4⟩
  · rintro ⟨h0, h1, hh⟩
    obtain ⟨l, e1, b1⟩ := showable_line h0
    obtain ⟨u, hu⟩ := b1.sliceTo
    obtain ⟨body, hb⟩ := (displayBody_iff (width := width) d.annotation d.severity).2 h1
    have hB : ∃ r, hintBefore width d (lines text) = some r := by
      rw [hintBefore]
      split
      · next h eh =>
        split
        · have g := hh h eh
          obtain ⟨b, hb⟩ := (displayBody_iff (width := width) h.annotation .hint).2 g
          obtain ⟨c, hc⟩ := displayContextLines_total (lo := 0) (Drawable.start_le g) d.contextLines
          rw [hb, hc]; exact ⟨_, rfl⟩
        · exact ⟨_, rfl⟩
      · exact ⟨_, rfl⟩
    have hA : ∃ r, hintAfter width d (lines text) = some r := by
      rw [hintAfter]
      split
      · next h eh =>
        split
        · exact ⟨_, rfl⟩
        · have g := hh h eh
          obtain ⟨b, hb⟩ := (displayBody_iff (width := width) h.annotation .hint).2 g
          obtain ⟨c, hc⟩ := displayContextLines_total (lo := d.span.stop.line + 1) (Drawable.start_le g) d.contextLines
          rw [hb, hc]; exact ⟨_, rfl⟩
      · exact ⟨_, rfl⟩
    obtain ⟨⟨r1, cur⟩, hB⟩ := hB
    obtain ⟨r2, hA⟩ := hA
    obtain ⟨c, hc⟩ := displayContextLines_total (lo := cur) (Drawable.start_le h1) d.contextLines
    simp only [display, displayHeader, e1, Option.bind_some, hu, hB, hc, hb, hA, Option.bind_eq_bind,
      Option.pure_def]
    exact ⟨_, rfl⟩

end

end Verif.Diag
