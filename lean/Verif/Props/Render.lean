import Verif.Props.Common

/-! # Property C65: the whole rendering of a diagnostic -/

namespace Verif.Props
open Verif Verif.Diag Verif.Spec Verif.Spec.Toml Verif.Toml

/-- What is printed for one line of a span: the line, and below it `pre` columns of space and the
underline of the marked text. -/
def block (width : Str → Nat) (severity : Severity) (nr : Nat) (line pre marked tail : Str) : Str :=
  displayLine nr line ++ "     ".toList ++ blue ++ "|".toList ++ clear ++ " ".toList ++
    List.replicate (calcWidth width pre) ' ' ++ escColor severity ++
    List.replicate (max (width marked) 1) (underlineChar severity) ++ tail ++ clear ++ ['\n']

theorem slice_all (l : Str) : slice l 0 (blen l) = some l := by
  have := slice_app [] l []
  simpa using this

theorem bodyLoop_tail (width : Str → Nat) (annotation : Str) (severity : Severity) (span : Span)
    {n : Nat} {c v : Str} (hc : blen c = span.stop.char) : ∀ (ls : List Str) (i : Nat), 0 < i →
      i + ls.length + 1 = n →
      bodyLoop width annotation severity span n i (ls ++ [c ++ v]) =
        some ((ls.zipIdx (span.start.line + i)).flatMap
            (fun l => block width severity l.2 l.1 [] l.1 []) ++
          block width severity (span.start.line + (n - 1)) (c ++ v) [] c (' ' :: annotation)) := by
  intro ls
  induction ls with
  | nil =>
    intro i hi hn
    have hin : i = n - 1 := by simp at hn; omega
    have s2 : slice (c ++ v) 0 span.stop.char = some c := by
      have := slice_app [] c v
      simpa [hc] using this
    have hi0 : ¬ (n - 1 = 0) := by omega
    subst hin
    simp only [List.nil_append, bodyLoop, if_neg hi0, if_true, sliceTo_zero, s2, Option.bind_eq_bind,
      Option.bind_some, Option.pure_def, List.append_nil, List.zipIdx_nil, List.flatMap_nil]
    simp [block]
  | cons l ls ih =>
    intro i hi hn
    simp only [List.length_cons] at hn
    have h1 : ¬ i = 0 := by omega
    have h2 : ¬ i = n - 1 := by omega
    simp only [List.cons_append, bodyLoop, if_neg h1, if_neg h2, sliceTo_zero, slice_all,
      Option.bind_eq_bind, Option.bind_some, Option.pure_def, ih (i + 1) (by omega) (by omega),
      List.zipIdx_cons, List.flatMap_cons]
    simp [block, Nat.add_assoc]

/-- C65: a span over several lines is printed line by line: in the first line everything from the start
of the span is underlined, in the lines in between everything, and in the last line everything up to
the end of the span, with the annotation behind it. -/
theorem C65_body_lines (width : Str → Nat) (annotation : Str) (severity : Severity) {text x y z : Str}
    (ht : text = x ++ y ++ z) (hy : '\n' ∈ y)
    (h1 : ¬ (x.getLast? = some '\r' ∧ (y ++ z).head? = some '\n'))
    (h2 : ¬ ((x ++ y).getLast? = some '\r' ∧ z.head? = some '\n')) :
    ∃ first middle last, (lines text)[x.count '\n']? = some (curLine x ++ first) ∧
      (lines text)[(x ++ y).count '\n']? = some (curLine (x ++ y) ++ last) ∧
      ((lines text).drop (x.count '\n' + 1)).take (y.count '\n' - 1) = middle ∧
      displayBody width annotation severity ⟨posOf x, posOf (x ++ y)⟩ (lines text) =
        some (block width severity (x.count '\n') (curLine x ++ first) (curLine x) first [] ++
          (middle.zipIdx (x.count '\n' + 1)).flatMap (fun l => block width severity l.2 l.1 [] l.1 []) ++
          block width severity ((x ++ y).count '\n') (curLine (x ++ y) ++ last) [] (curLine (x ++ y))
            (' ' :: annotation)) := by
  obtain ⟨v, w, e1, e2, e3, e4⟩ := linesOf_at (lines_linesOf text) (x := x) (y := y ++ z)
    (by rw [ht]; simp) h1
  obtain ⟨v', w', f1, f2, f3, f4⟩ := linesOf_at (lines_linesOf text) (x := x ++ y) (y := z)
    (by rw [ht]) h2
  have l1 : (posOf x).line = x.count '\n' := rfl
  have l2 : (posOf (x ++ y)).line = (x ++ y).count '\n' := rfl
  have hcnt : (x ++ y).count '\n' = x.count '\n' + y.count '\n' := List.count_append ..
  have hpos : 0 < y.count '\n' := List.count_pos_iff.2 hy
  rw [l1] at e1; rw [l2] at f1
  refine ⟨v, _, v', e1, f1, rfl, ?_⟩
  have hlt1 := (List.getElem?_eq_some_iff.1 e1).1
  have hlt2 := (List.getElem?_eq_some_iff.1 f1).1
  have hdrop : ((lines text).drop (x.count '\n')).take (y.count '\n' + 1) =
      (curLine x ++ v) :: (((lines text).drop (x.count '\n' + 1)).take (y.count '\n' - 1) ++
        [curLine (x ++ y) ++ v']) := by
    rw [List.drop_eq_getElem_cons hlt1, List.take_succ_cons, (List.getElem?_eq_some_iff.1 e1).2]
    congr 1
    obtain ⟨k, hk⟩ : ∃ k, y.count '\n' = k + 1 := ⟨_, (Nat.sub_add_cancel hpos).symm⟩
    rw [hk, List.take_add_one, Nat.add_sub_cancel, List.getElem?_drop,
      show x.count '\n' + 1 + k = (x ++ y).count '\n' by omega, f1]
    rfl
  have s1 : sliceTo (posOf x).char (curLine x ++ v) = some (curLine x) := by
    rw [← blen_curLine]; exact sliceTo_app _ _
  have s2 : slice (curLine x ++ v) (posOf x).char (blen (curLine x ++ v)) = some v := by
    have := slice_app (curLine x) v []
    rw [← blen_curLine]
    simpa using this
  rw [displayBody]
  dsimp only
  rw [l1, l2, subU, if_pos (by omega), show (x ++ y).count '\n' + 1 - x.count '\n' = y.count '\n' + 1 by omega]
  simp only [Option.bind_eq_bind, Option.bind_some]
  rw [if_pos (by omega), hdrop]
  have hlen : (((lines text).drop (x.count '\n' + 1)).take (y.count '\n' - 1)).length =
      y.count '\n' - 1 := by
    rw [List.length_take, List.length_drop]; omega
  have := bodyLoop_tail width annotation severity ⟨posOf x, posOf (x ++ y)⟩ (n := y.count '\n' + 1)
    (c := curLine (x ++ y)) (v := v') (blen_curLine _)
    (((lines text).drop (x.count '\n' + 1)).take (y.count '\n' - 1)) 1 (by omega)
    (by rw [hlen]; omega)
  have hne : ¬ 0 = y.count '\n' := by omega
  simp only [bodyLoop, s1, if_true, Option.bind_eq_bind, Option.bind_some, Nat.add_sub_cancel, if_neg hne,
    s2, this, Option.pure_def, l1, hcnt]
  simp [block]

/-- The lines of `ls` from `lo` to before `hi`. -/
def contextOf (text : List Str) (lo hi : Nat) (ls : List Nat) : Str :=
  (ls.filter (fun l => lo ≤ l ∧ l < hi)).flatMap (fun l => displayLine l (text.getD l []))

theorem displayContextLines_eq {text : List Str} {lo hi : Nat} {ls : List Nat} {out : Str}
    (hs : ls.Pairwise (· ≤ ·)) (h : displayContextLines text lo hi ls = some out) :
    out = contextOf text lo hi ls := by
  induction ls generalizing out with
  | nil => simpa [displayContextLines, contextOf] using h.symm
  | cons l ls ih =>
    rw [List.pairwise_cons] at hs
    rw [displayContextLines] at h
    split at h
    · rename_i hl
      rw [ih hs.2 h, contextOf, contextOf, List.filter_cons_of_neg]
      simp; omega
    · split at h
      · rename_i h1 h2
        cases ht : text[l]? with
        | none => rw [ht] at h; cases h
        | some line =>
          rw [ht] at h
          cases hr : displayContextLines text lo hi ls with
          | none => rw [hr] at h; cases h
          | some rest =>
            rw [hr] at h
            cases h
            rw [ih hs.2 hr, contextOf, contextOf, List.filter_cons_of_pos (by simp; omega)]
            simp [List.getD, ht]
      · rename_i h1 h2
        cases h
        rw [contextOf, List.filter_eq_nil_iff.2]
        · rfl
        · intro m hm
          rcases List.mem_cons.1 hm with rfl | hm
          · simp; omega
          · have := hs.1 m hm; simp; omega

/-- The line below the header. -/
def rule : Str := ['\n'] ++ "     ".toList ++ blue ++ "|".toList ++ clear ++ ['\n']

/-- `a` is in front of `b`. -/
def InFront (a b : Pos) : Prop := a.line < b.line ∨ a.line = b.line ∧ a.char < b.char

theorem before_iff (a b : Pos) : before a b = true ↔ InFront a b := by
  rw [before, beq_iff_eq, posCmp, InFront]
  rcases Nat.lt_trichotomy a.line b.line with h | h | h
  · simp [Nat.compare_eq_lt.2 h, h]
  · simp only [h, Nat.compare_eq_eq.2 rfl, Ordering.then, Nat.lt_irrefl, true_and, false_or]
    exact Nat.compare_eq_lt
  · simp only [Nat.compare_eq_gt.2 h, Ordering.then]
    simp; omega

/-- C65: a diagnostic without a hint is printed as its header, the context lines in front of it, and
its lines. -/
theorem C65_plain (width : Str → Nat) {d : Diagnostic} {text : List Str} {out : Str}
    (hd : d.hint = none) (hs : d.contextLines.Pairwise (· ≤ ·))
    (h : display width d text = some out) :
    ∃ header body, displayHeader d text = some header ∧
      displayBody width d.annotation d.severity d.span text = some body ∧
      out = header ++ rule ++ contextOf text 0 d.span.start.line d.contextLines ++ body := by
  rw [display] at h
  cases e1 : displayHeader d text with
  | none => rw [e1] at h; cases h
  | some header =>
  have e2 : hintBefore width d text = some ([], 0) := by rw [hintBefore, hd]
  have e3 : hintAfter width d text = some [] := by rw [hintAfter, hd]
  rw [e1, e2, e3] at h
  simp only [Option.bind_eq_bind, Option.bind_some, Option.pure_def] at h
  cases e4 : displayContextLines text 0 d.span.start.line d.contextLines with
  | none => rw [e4] at h; cases h
  | some ctx =>
  cases e5 : displayBody width d.annotation d.severity d.span text with
  | none => rw [e4, e5] at h; cases h
  | some body =>
  rw [e4, e5] at h
  cases h
  exact ⟨header, body, rfl, rfl, by rw [displayContextLines_eq hs e4]; simp [rule]⟩

/-- C65: the lines of the hint are printed in front of the ones of the diagnostic if the hint starts in
front of it, and behind them otherwise; the context lines stand in between. -/
theorem C65_hint (width : Str → Nat) {d : Diagnostic} {hint : Hint} {text : List Str} {out : Str}
    (hd : d.hint = some hint) (hs : d.contextLines.Pairwise (· ≤ ·))
    (h : display width d text = some out) :
    ∃ header body hintBody, displayHeader d text = some header ∧
      displayBody width d.annotation d.severity d.span text = some body ∧
      displayBody width hint.annotation .hint hint.span text = some hintBody ∧
      (InFront hint.span.start d.span.start → out = header ++ rule ++
        contextOf text 0 hint.span.start.line d.contextLines ++ hintBody ++
        contextOf text (hint.span.stop.line + 1) d.span.start.line d.contextLines ++ body) ∧
      (¬ InFront hint.span.start d.span.start → out = header ++ rule ++
        contextOf text 0 d.span.start.line d.contextLines ++ body ++
        contextOf text (d.span.stop.line + 1) hint.span.start.line d.contextLines ++ hintBody) := by
  rw [display] at h
  cases e1 : displayHeader d text with
  | none => rw [e1] at h; cases h
  | some header =>
  rw [e1, hintBefore, hintAfter, hd] at h
  dsimp only at h
  cases e2 : displayBody width hint.annotation .hint hint.span text with
  | none =>
    rw [e2] at h
    exfalso
    by_cases hb : before hint.span.start d.span.start = true
    · simp only [hb, if_true, Option.bind_eq_bind, Option.bind_some] at h
      revert h
      cases displayContextLines text 0 hint.span.start.line d.contextLines <;> simp
    · simp only [hb, if_false, Option.bind_eq_bind, Option.bind_some] at h
      revert h
      cases displayContextLines text 0 d.span.start.line d.contextLines <;> simp <;>
      cases displayBody width d.annotation d.severity d.span text <;> simp
  | some hintBody =>
  rw [e2] at h
  by_cases hb : before hint.span.start d.span.start = true
  · simp only [hb, if_true, Option.bind_eq_bind, Option.bind_some] at h
    rw [before_iff] at hb
    cases e4 : displayContextLines text 0 hint.span.start.line d.contextLines with
    | none => rw [e4] at h; cases h
    | some c1 =>
    rw [e4] at h
    simp only [Option.bind_some, Option.pure_def] at h
    cases e5 : displayContextLines text (hint.span.stop.line + 1) d.span.start.line d.contextLines with
    | none => rw [e5] at h; cases h
    | some c2 =>
    cases e6 : displayBody width d.annotation d.severity d.span text with
    | none => rw [e5, e6] at h; cases h
    | some body =>
    rw [e5, e6] at h
    cases h
    refine ⟨header, body, hintBody, rfl, rfl, rfl, fun _ => ?_, fun h => absurd hb h⟩
    rw [displayContextLines_eq hs e4, displayContextLines_eq hs e5]; simp [rule]
  · have hb' : ¬ InFront hint.span.start d.span.start := by rwa [← before_iff]
    simp only [hb, Option.bind_eq_bind, Option.bind_some] at h
    cases e4 : displayContextLines text 0 d.span.start.line d.contextLines with
    | none => simp [e4] at h
    | some c1 =>
    cases e6 : displayBody width d.annotation d.severity d.span text with
    | none => simp [e4, e6] at h
    | some body =>
    cases e5 : displayContextLines text (d.span.stop.line + 1) hint.span.start.line d.contextLines with
    | none => simp [e4, e5, e6] at h
    | some c2 =>
    refine ⟨header, body, hintBody, rfl, rfl, rfl, fun h => absurd h hb', fun _ => ?_⟩
    simp only [e4, e5, e6, Bool.false_eq_true, if_false, Option.bind_some, Option.pure_def] at h
    rw [displayContextLines_eq hs e4, displayContextLines_eq hs e5] at h
    simpa [rule] using h.symm

/-! ## The width of the indentation -/

theorem isHidden_iff (c : Char) : isHidden c = true ↔ NotShown c := by
  unfold isHidden isControl NotShown
  have : c = '\t' ↔ c.toNat = 9 := by
    constructor
    · rintro rfl; rfl
    · intro h
      apply Char.ext
      apply UInt32.toNat_inj.1
      exact h
  simp only [Bool.and_eq_true, bne_iff_ne, ne_eq, Bool.or_eq_true, decide_eq_true_eq, beq_iff_eq]
  constructor <;> intro h <;> grind

theorem pieces_ne (l : Str) : pieces l ≠ [] := by
  induction l with
  | nil => simp [pieces]
  | cons c l ih =>
    unfold pieces
    split
    · simp
    · split <;> simp

theorem pieces_parts (l : Str) : ShownParts l (pieces l) := by
  induction l with
  | nil => exact .last (by simp)
  | cons c l ih =>
    unfold pieces
    split
    · rename_i hc
      exact .more (l := []) (by simp) ((isHidden_iff c).1 hc) ih
    · rename_i hc
      have hc' : ¬ NotShown c := fun h => hc ((isHidden_iff c).2 h)
      generalize pieces l = ps at ih
      cases ih with
      | last h => exact .last (by simpa using ⟨hc', h⟩)
      | @more a d rest ps h1 h2 h3 => exact .more (l := c :: a) (by simpa using ⟨hc', h1⟩) h2 h3

theorem shownParts_unique {l : Str} {ps : List Str} (h : ShownParts l ps) : ∀ {qs}, ShownParts l qs → qs = ps := by
  have key : ∀ {a b : Str} {c : Char} {rest : Str}, (∀ c ∈ a, ¬ NotShown c) → NotShown c → a = b ++ c :: rest → False := by
    intro a b c rest h1 h2 e
    exact h1 c (by rw [e]; simp) h2
  induction h with
  | @last l h =>
    intro qs hq
    generalize hl : l = l' at hq
    cases hq with
    | last => rfl
    | more h1 h2 h3 => exact (key h h2 hl).elim
  | @more a c rest ps h1 h2 h3 ih =>
    intro qs hq
    generalize hl : a ++ c :: rest = l' at hq
    cases hq with
    | last h => exact (key h h2 hl.symm).elim
    | @more a' c' rest' ps' g1 g2 g3 =>
      have : a = a' ∧ c :: rest = c' :: rest' := by
        rcases List.append_eq_append_iff.1 hl with ⟨u, e1, e2⟩ | ⟨u, e1, e2⟩
        · cases u with
          | nil => exact ⟨by simpa using e1.symm, by simpa using e2⟩
          | cons d u =>
            simp only [List.cons_append, List.cons.injEq] at e2
            exact (key (rest := u) g1 h2 (by rw [e1, e2.1])).elim
        · cases u with
          | nil => exact ⟨by simpa using e1, by simpa using e2.symm⟩
          | cons d u =>
            simp only [List.cons_append, List.cons.injEq] at e2
            exact (key (rest := u) h1 g2 (by rw [e1, e2.1])).elim
      obtain ⟨rfl, e⟩ := this
      cases e
      rw [ih g3]

/-- C65: the width of the text in front of the underline is the sum of the widths of the parts that are shown. -/
theorem C65_width (width : Str → Nat) {l : Str} {n : Nat} : calcWidth width l = n ↔ ∃ ps, ShownParts l ps ∧ (ps.map width).sum = n := by
  constructor
  · intro h
    exact ⟨_, pieces_parts l, h⟩
  · rintro ⟨ps, h1, h2⟩
    unfold calcWidth
    rw [shownParts_unique h1 (pieces_parts l)]
    exact h2

/-- C65: if the width of a text is the sum of the widths of its characters, the underline starts exactly below the marked text: the indentation has
the width of what is shown of the text in front. -/
theorem C65_aligned {width : Str → Nat} (h0 : width [] = 0) (ha : ∀ a b, width (a ++ b) = width a + width b) (l : Str) :
    calcWidth width l = width (l.filter fun c => !isHidden c) := by
  unfold calcWidth
  induction l with
  | nil => simp [pieces]
  | cons c l ih =>
    unfold pieces
    split
    · rename_i hc
      simp [hc, h0, ih]
    · rename_i hc
      have hp := pieces_ne l
      generalize pieces l = ps at ih hp
      cases ps with
      | nil => exact absurd rfl hp
      | cons p ps =>
        simp only [List.map_cons, List.sum_cons] at ih ⊢
        rw [List.filter_cons_of_pos (by simpa using hc), show c :: p = [c] ++ p from rfl,
          show c :: l.filter (fun c => !isHidden c) = [c] ++ l.filter (fun c => !isHidden c) from rfl, ha, ha, ← ih]
        omega

example : ShownParts ['a', '\x1b', 'b', '\t', 'c'] [['a'], ['b', '\t', 'c']] :=
  .more (l := ['a']) (by decide) (by decide) (.last (by decide))

/-- The text `a = [\n1\nb`, with the array marked and a hint at its first value. -/
example : display List.length ⟨.error, ⟨⟨0, 4⟩, ⟨2, 1⟩⟩, "no end".toList, "here".toList,
    some ⟨⟨⟨1, 0⟩, ⟨1, 1⟩⟩, "first".toList⟩, [0]⟩ (lines "a = [\n1\nb".toList) = some (escColor .error ++ "error".toList ++ clear ++
      ": no end\n    ".toList ++ blue ++ "-->".toList ++ clear ++ " 1:4".toList ++ rule ++
      (block List.length .error 0 "a = [".toList "a = ".toList "[".toList [] ++
      block List.length .error 1 "1".toList [] "1".toList [] ++
      block List.length .error 2 "b".toList [] "b".toList " here".toList) ++
      block List.length .hint 1 "1".toList [] "1".toList " first".toList) := by
  decide +kernel

end Verif.Props
