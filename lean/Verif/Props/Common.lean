import Verif.Diag.Lemmas
import Verif.Diag.Exact
import Verif.Toml.ParseBase
import Verif.Common.Cmp
import Verif.Props.Lex

/-! # Properties C52-C54, C65-C67: diagnostics (crates/common) -/

namespace Verif.Props
open Verif Verif.Diag Verif.Spec Verif.Spec.Toml Verif.Toml

section
variable {E W I : Type}

/-! ## C52 -/

/-- Collect a diagnostic. -/
def collect (d : Diagnostics E W I) : Event E W I → Diagnostics E W I
  | .error e => d.error e
  | .warning w => d.warn w
  | .info i => d.info i

/-- Collect diagnostics one after the other. -/
def collectAll (d : Diagnostics E W I) (es : List (Event E W I)) : Diagnostics E W I :=
  es.foldl collect d

theorem collectAll_eq (d : Diagnostics E W I) (es : List (Event E W I)) : ∃ a b c,
    collectAll d es = ⟨d.errors ++ a, d.warnings ++ b, d.infos ++ c⟩ := by
  induction es generalizing d with
  | nil => exact ⟨[], [], [], by simp [collectAll]⟩
  | cons e es ih =>
    obtain ⟨a, b, c, h⟩ := ih (collect d e)
    rw [show collectAll d (e :: es) = collectAll (collect d e) es from rfl, h]
    cases e with
    | error e => exact ⟨e :: a, b, c, by simp [collect, Diagnostics.error]⟩
    | warning w => exact ⟨a, w :: b, c, by simp [collect, Diagnostics.warn]⟩
    | info i => exact ⟨a, b, i :: c, by simp [collect, Diagnostics.info]⟩

/-- C52: whatever is collected after taking a mark, resetting to the mark gives back exactly what was
there when the mark was taken. -/
theorem C52_reset (d : Diagnostics E W I) (es : List (Event E W I)) :
    (collectAll d es).reset d.mark = d := by
  obtain ⟨a, b, c, h⟩ := collectAll_eq d es
  rw [h]
  simp [Diagnostics.reset, Diagnostics.mark]

/-- C52: also across an inner mark and reset. -/
theorem C52_nested (d : Diagnostics E W I) (es fs gs : List (Event E W I)) :
    (collectAll ((collectAll (collectAll d es) fs).reset (collectAll d es).mark) gs).reset d.mark = d := by
  rw [C52_reset, show collectAll (collectAll d es) gs = collectAll d (es ++ gs) by
    simp [collectAll], C52_reset]

/-- C52: a collected diagnostic is kept until a reset: it is the last one of its kind. -/
theorem C52_collect (d : Diagnostics E W I) (e : E) (w : W) (i : I) :
    ((collect d (.error e)).errors = d.errors ++ [e] ∧
      (collect d (.error e)).warnings = d.warnings ∧ (collect d (.error e)).infos = d.infos) ∧
    ((collect d (.warning w)).warnings = d.warnings ++ [w] ∧
      (collect d (.warning w)).errors = d.errors ∧ (collect d (.warning w)).infos = d.infos) ∧
    ((collect d (.info i)).infos = d.infos ++ [i] ∧
      (collect d (.info i)).errors = d.errors ∧ (collect d (.info i)).warnings = d.warnings) :=
  ⟨⟨rfl, rfl, rfl⟩, ⟨rfl, rfl, rfl⟩, ⟨rfl, rfl, rfl⟩⟩

example : (collectAll (⟨[1], [], [2]⟩ : Diagnostics Nat Nat Nat)
    [.error 3, .warning 4, .info 5]).errors = [1, 3] := rfl

/-! ## C53 -/

theorem posCmp_total : TotalOrder posCmp := by
  have h := (TotalOrder.prod TotalOrder.natCompare TotalOrder.natCompare).comap
    (fun p : Pos => (p.line, p.char)) (by
      intro a b h
      cases a; cases b
      simpa [Prod.mk.injEq] using h)
  exact h

/-- The comparison of places is the order of the places in the text. -/
theorem posCmp_le (p q : Pos) : posCmp p q ≠ .gt ↔ p.le q := by
  unfold posCmp Pos.le
  rcases Nat.lt_trichotomy p.line q.line with h | h | h
  · simp [Nat.compare_eq_lt.2 h, h]
  · simp only [h, Nat.compare_eq_eq.2 rfl, Ordering.then, Nat.lt_irrefl, true_and, false_or]
    rw [← Nat.not_lt, ne_eq, Nat.compare_eq_gt]
  · simp only [Nat.compare_eq_gt.2 h, Ordering.then, ne_eq, not_true_eq_false, false_iff]
    omega

/-- C53: sorting gives, for each kind of diagnostics, the same diagnostics ordered by their start, and
diagnostics with the same start stay in order. -/
theorem C53_sort (se : E → Span) (sw : W → Span) (si : I → Span) (d : Diagnostics E W I) :
    StableSorted (fun a b => posCmp (se a).start (se b).start) d.errors (d.sort se sw si).errors ∧
    StableSorted (fun a b => posCmp (sw a).start (sw b).start) d.warnings (d.sort se sw si).warnings ∧
    StableSorted (fun a b => posCmp (si a).start (si b).start) d.infos (d.sort se sw si).infos := by
  have h := posCmp_total.preorder
  exact ⟨sortBy_stableSorted (h.comap fun a => (se a).start) _,
    sortBy_stableSorted (h.comap fun a => (sw a).start) _,
    sortBy_stableSorted (h.comap fun a => (si a).start) _⟩

/-- C53: the starts are in text order. -/
theorem C53_ordered (se : E → Span) (sw : W → Span) (si : I → Span) (d : Diagnostics E W I) :
    (d.sort se sw si).errors.Pairwise (fun a b => (se a).start.le (se b).start) ∧
    (d.sort se sw si).warnings.Pairwise (fun a b => (sw a).start.le (sw b).start) ∧
    (d.sort se sw si).infos.Pairwise (fun a b => (si a).start.le (si b).start) := by
  obtain ⟨h1, h2, h3⟩ := C53_sort se sw si d
  exact ⟨h1.sorted.imp fun h => (posCmp_le _ _).1 h, h2.sorted.imp fun h => (posCmp_le _ _).1 h,
    h3.sorted.imp fun h => (posCmp_le _ _).1 h⟩

/-- C53: the result is determined: sorting is the only way to do it, and sorting again changes
nothing. -/
theorem C53_unique (se : E → Span) (sw : W → Span) (si : I → Span) (d : Diagnostics E W I)
    {l : List E} (h : StableSorted (fun a b => posCmp (se a).start (se b).start) d.errors l) :
    l = (d.sort se sw si).errors :=
  stableSorted_unique (posCmp_total.preorder.comap fun a => (se a).start) h (C53_sort se sw si d).1

example : (Diagnostics.sort (E := Nat × Pos) (W := Pos) (I := Pos) (fun e => ⟨e.2, e.2⟩)
    (fun e => ⟨e, e⟩) (fun e => ⟨e, e⟩)
    ⟨[(0, ⟨2, 0⟩), (1, ⟨1, 5⟩), (2, ⟨1, 3⟩), (3, ⟨1, 5⟩)], [], []⟩).errors =
    [(2, ⟨1, 3⟩), (1, ⟨1, 5⟩), (3, ⟨1, 5⟩), (0, ⟨2, 0⟩)] := by decide
end

/-! ## C54 -/

/-- C54: the lines of a text are exactly the parts between its line breaks (`\n` or `\r\n`). -/
theorem C54_lines (text : Str) (ls : List Str) : lines text = ls ↔ LinesOf text ls :=
  ⟨fun h => h ▸ lines_linesOf text, linesOf_eq⟩

/-- C54: there is always one more line than there are line feeds. -/
theorem C54_count (text : Str) : (lines text).length = text.count '\n' + 1 := by
  have h := lines_linesOf text
  generalize lines text = ls at h
  induction h with
  | last h => simp [List.count_eq_zero.2 h]
  | lf h1 h2 _ ih => simp [List.count_eq_zero.2 h1, ih]
  | crlf h1 _ ih => simp [List.count_eq_zero.2 h1, ih]

example : lines "a\r\n\nb\r\r\nc\r".toList =
    ["a".toList, "".toList, "b\r".toList, "c\r".toList] := by decide

/-! ## C65: rendering -/

/-- C65: rendering a diagnostic does not panic if its span (and the one of its hint) starts and ends
at character boundaries outside of line breaks, and its context lines exist. -/
theorem C65_no_panic (width : Str → Nat) {text : Str} {d : Diagnostic}
    (h1 : Showable text d.span.start) (h2 : Showable text d.span.stop)
    (hle : Pos.le d.span.start d.span.stop)
    (hh : ∀ h, d.hint = some h → Showable text h.span.start ∧ Showable text h.span.stop ∧
      Pos.le h.span.start h.span.stop)
    (hc : ∀ l ∈ d.contextLines, l ≤ text.count '\n') :
    ∃ out, display width d (lines text) = some out :=
  display_ok h1 h2 hle hh (fun l hl => by rw [C54_count]; have := hc l hl; omega)

/-- C65: exactly when rendering a diagnostic panics, for any context lines.  A diagnostic can be rendered if and
only if its start is a character boundary outside of line breaks, and its span and the one of its hint can be
underlined. -/
theorem C65_panics_iff (width : Str → Nat) (text : Str) (d : Diagnostic) :
    display width d (lines text) = none ↔
      ¬ (Showable text d.span.start ∧ Drawable text d.span ∧ ∀ h, d.hint = some h → Drawable text h.span) := by
  rw [← display_iff (width := width)]
  cases display width d (lines text) <;> simp

/-- C65: a diagnostic without a hint, whose span does not start on a later line than it ends on, can be rendered
if and only if its span is a piece of the text that neither starts nor ends inside of a line break. -/
theorem C65_piece (width : Str → Nat) {text : Str} {d : Diagnostic} (hn : d.hint = none)
    (hl : d.span.start.line ≤ d.span.stop.line) :
    (∃ out, display width d (lines text) = some out) ↔ PieceOf text d.span := by
  rw [display_iff, hn]
  constructor
  · rintro ⟨-, ⟨⟨x, y, h1, h2, h3⟩, ⟨x', y', h1', h2', h3'⟩, hle⟩ | ⟨h, -⟩, -⟩
    · have e := h1.symm.trans h1'
      have hp : ∃ u, x' = x ++ u := by
        rcases List.append_eq_append_iff.1 e with ⟨u, g, -⟩ | ⟨u, g, -⟩
        · exact ⟨u, g⟩
        · have hm := posOf_mono x' u
          rw [← g, ← h2, ← h2'] at hm
          have he : posOf x = posOf x' := by
            rw [← h2, ← h2']
            unfold Pos.le at hm hle
            have e1 : d.span.start.line = d.span.stop.line := by omega
            have e2 : d.span.start.char = d.span.stop.char := by omega
            cases h : d.span.start; cases h' : d.span.stop
            rw [h, h'] at e1 e2
            simp_all
          exact ⟨[], by rw [List.append_nil]; exact (posOf_inj e he).symm⟩
      obtain ⟨u, rfl⟩ := hp
      have hy : y = u ++ y' := by
        rw [List.append_assoc] at e
        exact List.append_cancel_left e
      subst hy
      refine ⟨x, u, y', h1', ?_, h3, h3'⟩
      rw [← h2, ← h2']
    · omega
  · rintro ⟨x, y, z, rfl, e, h1, h2⟩
    have s1 : Showable (x ++ y ++ z) d.span.start := ⟨x, y ++ z, by simp, by rw [e], h1⟩
    exact ⟨s1, .inl ⟨s1, ⟨x ++ y, z, rfl, by rw [e], h2⟩, by rw [e]; exact posOf_mono x y⟩, fun _ h => by cases h⟩

/-- The quote of an unterminated string in a file with Windows line breaks, up to the carriage return, and with
it. -/
example : PieceOf "\"a\r\n".toList ⟨⟨0, 0⟩, ⟨0, 2⟩⟩ ∧ ¬ PieceOf "\"a\r\n".toList ⟨⟨0, 2⟩, ⟨0, 3⟩⟩ := by
  constructor
  · exact ⟨[], "\"a".toList, "\r\n".toList, by decide, by decide, by decide, by decide⟩
  · intro h
    have := (C65_piece List.length (d := ⟨.error, ⟨⟨0, 2⟩, ⟨0, 3⟩⟩, [], [], none, []⟩) rfl (by decide)).2 h
    revert this
    rw [show display List.length ⟨.error, ⟨⟨0, 2⟩, ⟨0, 3⟩⟩, [], [], none, []⟩ (lines "\"a\r\n".toList) = none by decide]
    simp

/-- A span that starts on the line behind its end: nothing is underlined, but nothing breaks. -/
example : Drawable "a\nb".toList ⟨⟨1, 7⟩, ⟨0, 0⟩⟩ ∧ ¬ Drawable "a\nb".toList ⟨⟨2, 0⟩, ⟨0, 0⟩⟩ := by
  refine ⟨.inr ⟨rfl, by decide⟩, ?_⟩
  rintro (⟨-, -, h⟩ | ⟨h, -⟩)
  · unfold Pos.le at h; simp at h
  · simp at h

/-- C65: a diagnostic on one line is rendered as the line, without control characters, and below it an
underline of the width of the marked text `y` (at least one character), indented by the width of the
text in front of it, with the annotation behind it. -/
theorem C65_body (width : Str → Nat) (annotation : Str) (severity : Severity) {text x y z : Str}
    (ht : text = x ++ y ++ z) (hy : '\n' ∉ y)
    (h1 : ¬ (x.getLast? = some '\r' ∧ (y ++ z).head? = some '\n'))
    (h2 : ¬ ((x ++ y).getLast? = some '\r' ∧ z.head? = some '\n')) :
    ∃ line, (lines text)[(posOf x).line]? = some line ∧
      displayBody width annotation severity ⟨posOf x, posOf (x ++ y)⟩ (lines text) =
        some (displayLine (posOf x).line line ++
          "     ".toList ++ blue ++ "|".toList ++ clear ++ " ".toList ++
          List.replicate (calcWidth width (curLine x)) ' ' ++ escColor severity ++
          List.replicate (max (width y) 1) (underlineChar severity) ++
          ' ' :: annotation ++ clear ++ ['\n']) := by
  obtain ⟨v, w, e1, e2, e3, e4⟩ := linesOf_at (lines_linesOf text) (x := x) (y := y ++ z)
    (by rw [ht]; simp) h1
  have hp := posOf_app x hy
  have hyv : ∃ v', v = y ++ v' := by
    rcases List.append_eq_append_iff.1 e2 with ⟨u, h, h'⟩ | ⟨u, h, h'⟩
    · exact ⟨u, h⟩
    · rcases e4 with rfl | hw | ⟨w', rfl⟩
      · obtain ⟨rfl, -⟩ := List.append_eq_nil_iff.1 h'.symm
        exact ⟨[], by simpa using h.symm⟩
      · cases u with
        | nil => exact ⟨[], by simpa using h.symm⟩
        | cons c u =>
          rw [h'] at hw
          simp only [List.cons_append, List.head?_cons, Option.some.injEq] at hw
          exact absurd (by rw [h, hw]; simp) hy
      · match u, h, h' with
        | [], h, _ => exact ⟨[], by simpa using h.symm⟩
        | [c], h, h' =>
          simp only [List.cons_append, List.nil_append, List.cons.injEq] at h'
          obtain ⟨rfl, rfl⟩ := h'
          exact absurd ⟨by rw [h]; simp, rfl⟩ h2
        | c :: d :: u, h, h' =>
          simp only [List.cons_append, List.cons.injEq] at h'
          exact absurd (by rw [h, ← h'.2.1]; simp) hy
  obtain ⟨v', rfl⟩ := hyv
  refine ⟨_, e1, ?_⟩
  have hlt := (List.getElem?_eq_some_iff.1 e1).1
  have hdrop : ((lines text).drop (posOf x).line).take 1 = [curLine x ++ (y ++ v')] := by
    rw [List.drop_eq_getElem_cons hlt, List.take_succ_cons, List.take_zero,
      (List.getElem?_eq_some_iff.1 e1).2]
  have s1 : sliceTo (posOf x).char (curLine x ++ (y ++ v')) = some (curLine x) := by
    rw [← blen_curLine]; exact sliceTo_app _ _
  have s2 : slice (curLine x ++ (y ++ v')) (posOf x).char ((posOf x).char + blen y) = some y := by
    rw [← blen_curLine]; exact slice_app _ _ _
  rw [displayBody, hp]
  dsimp only
  rw [subU, if_pos (by omega), show (posOf x).line + 1 - (posOf x).line = 1 by omega]
  simp only [Option.bind_eq_bind, Option.bind_some]
  rw [if_pos (by omega), hdrop]
  simp only [bodyLoop, s1, s2, if_true, Option.bind_eq_bind, Option.bind_some, Nat.sub_self,
    Option.pure_def, Nat.add_zero, List.append_nil]

/-- C65: the header names the line, counted from one, and the number of characters in front of the
span in its line. -/
theorem C65_header {text x y : Str} {d : Diagnostic} (ht : text = x ++ y) (hd : d.span.start = posOf x)
    (h1 : ¬ (x.getLast? = some '\r' ∧ y.head? = some '\n')) :
    displayHeader d (lines text) = some (escColor d.severity ++ d.severity.text ++ clear ++
      ": ".toList ++ d.description ++ ['\n'] ++ "    ".toList ++ blue ++ "-->".toList ++ clear ++
      " ".toList ++ decimal (x.count '\n' + 1) ++ ":".toList ++ decimal (curLine x).length) := by
  obtain ⟨v, w, e1, -⟩ := linesOf_at (lines_linesOf text) (x := x) (y := y) ht h1
  have s1 : sliceTo (posOf x).char (curLine x ++ v) = some (curLine x) := by
    rw [← blen_curLine]; exact sliceTo_app _ _
  rw [displayHeader, hd, e1]
  simp only [Option.bind_eq_bind, Option.bind_some, s1]
  rfl

/-- The text `a = "ä` with the missing quote marked. -/
example : display List.length ⟨.error, ⟨⟨1, 4⟩, ⟨1, 7⟩⟩, "no quote".toList, "here".toList, none, [0]⟩
    (lines "[t]\r\na = \"ä\nb".toList) = some (
      (escColor .error ++ "error".toList ++ clear ++ ": no quote\n    ".toList ++ blue ++ "-->".toList ++
      clear ++ " 2:4\n     ".toList ++ blue ++ "|".toList ++ clear ++ "\n".toList ++ 
      blue ++ "   1 |".toList ++ clear ++ " [t]\n".toList ++ 
      blue ++ "   2 |".toList ++ clear ++ " a = \"ä\n     ".toList ++
      blue ++ "|".toList ++ clear ++ "     ".toList ++ escColor .error ++ "^^ here".toList ++ clear ++
      "\n".toList)) := by decide

/-! ## C66: the tokenizer's diagnostics can be shown -/

/-- What the command line shows for a diagnostic of the tokenizer (the texts do not matter here). -/
def shown (e : Error) (description annotation : Str) : Diagnostic :=
  ⟨.error, e.span, description, annotation, none, []⟩

theorem spanIn_showable {text : Str} {s : Span} (hcr : '\r' ∉ text) (h : SpanIn text s) :
    Showable text s.start ∧ Showable text s.stop ∧ Pos.le s.start s.stop := by
  obtain ⟨x, y, z, rfl, rfl⟩ := h
  refine ⟨⟨x, y ++ z, by simp, rfl, fun h => hcr ?_⟩, ⟨x ++ y, z, rfl, rfl, fun h => hcr ?_⟩,
    posOf_mono x y⟩
  · obtain ⟨l, hl⟩ := List.getLast?_eq_some_iff.1 h.1
    rw [hl]; simp
  · obtain ⟨l, hl⟩ := List.getLast?_eq_some_iff.1 h.1
    rw [hl]; simp

/-- C66, the part that holds: in a text without carriage returns, every diagnostic of the tokenizer can
be shown, except the ones about control characters in comments; these too if the text is ASCII.

Missing: see `C66_counterexample` and `C63_counterexample`. -/
theorem C66_lexer_partial (width : Str → Nat) {input : Str} {T : Tokens} {es : List Error}
    (h : lex input = some (T, es)) (hcr : '\r' ∉ input) :
    ∀ e ∈ es, (∀ c ∈ input, c.utf8Size = 1) ∨ (∀ c s, e ≠ .invalidCommentChar c s) →
      ∀ desc ann, ∃ out, display width (shown e desc ann) (lines input) = some out := by
  intro e he hx desc ann
  have hs : SpanIn input e.span := by
    rcases hx with ha | hn
    · exact C63_ascii h ha e he
    · rcases C63_places_partial h e he with h1 | ⟨c, x, d, z, -, h3⟩
      · exact h1
      · exact absurd h3 (hn _ _)
  obtain ⟨h1, h2, h3⟩ := spanIn_showable hcr hs
  exact C65_no_panic width h1 h2 h3 (fun _ h => by cases h) (fun _ h => by cases h)

/-- C66, exactly: a diagnostic of the tokenizer can be shown if and only if its span is a piece of the text that
neither starts nor ends inside of a line break. -/
theorem C66_shown_iff (width : Str → Nat) {input : Str} {T : Tokens} {es : List Error}
    (h : lex input = some (T, es)) : ∀ e ∈ es, ∀ desc ann,
      (∃ out, display width (shown e desc ann) (lines input) = some out) ↔ PieceOf input e.span := by
  intro e he desc ann
  refine C65_piece width rfl ?_
  rcases C63_places_partial h e he with ⟨x, y, z, -, h1⟩ | ⟨c, x, d, z, -, rfl⟩
  · have := posOf_mono x y
    unfold Pos.le at this
    rw [show (shown e desc ann).span = e.span from rfl, h1]
    simp only
    omega
  · exact Nat.le_refl _

/-- C66 is false in general: an unterminated string in a text with Windows line breaks makes the
command line panic.  The diagnostic for the carriage return covers the byte behind the end of the
line. -/
theorem C66_counterexample (width : Str → Nat) (desc ann : Str) :
    (lex "\"a\r\n".toList).map Prod.snd = some
      [.invalidStringChar '\r' ⟨⟨0, 2⟩, ⟨0, 3⟩⟩, .missingQuote .basic ⟨⟨0, 0⟩, ⟨0, 2⟩⟩] ∧
    display width (shown (.invalidStringChar '\r' ⟨⟨0, 2⟩, ⟨0, 3⟩⟩) desc ann)
      (lines "\"a\r\n".toList) = none := by
  refine ⟨by decide, ?_⟩
  have hl : lines "\"a\r\n".toList = [['"', 'a'], []] := by decide
  have e : displayBody width ann .error ⟨⟨0, 2⟩, ⟨0, 3⟩⟩ [['"', 'a'], []] = none := by
    simp [displayBody, bodyLoop, subU, show slice ['"', 'a'] 2 3 = none by decide,
      show sliceTo 2 ['"', 'a'] = some ['"', 'a'] by decide]
  rw [hl, display]
  simp [shown, Error.span, hintBefore, displayContextLines, e, displayHeader,
    show sliceTo 2 ['"', 'a'] = some ['"', 'a'] by decide]

/-! ## C67: names in messages -/

theorem isControl_digitChar {n : Nat} (h : n < 16) : isControl (Nat.digitChar n) = false := by
  have : ∀ n : Fin 16, isControl (Nat.digitChar n.1) = false := by decide
  exact this ⟨n, h⟩

/-- C67: a name printed in a message contains no control characters (so it cannot break the line or
send escape sequences to the terminal), and printable names are printed as they are. -/
theorem C67_fmtStr (s : Str) : (∀ c ∈ fmtStr s, 0x1f < c.toNat ∧ c.toNat ≠ 0x7f) ∧
    ((∀ c ∈ s, 0x1f < c.toNat ∧ c.toNat ≠ 0x7f) → fmtStr s = s) := by
  have ctl : ∀ c : Char, isControl c = false ↔ 0x1f < c.toNat ∧ c.toNat ≠ 0x7f := by
    intro c; simp [isControl]
  refine ⟨fun c hc => ?_, fun h => ?_⟩
  · rw [← ctl]
    simp only [fmtStr, List.mem_flatten, List.mem_map] at hc
    obtain ⟨l, ⟨a, -, rfl⟩, hc⟩ := hc
    unfold fmtChar at hc
    by_cases ha : isControl a = true
    · have hlt : a.toNat < 128 := by
        simp only [isControl, Bool.or_eq_true, decide_eq_true_eq] at ha; omega
      split at hc
      · exact (by decide : ∀ c ∈ "\\b".toList, isControl c = false) c hc
      split at hc
      · exact (by decide : ∀ c ∈ "\\t".toList, isControl c = false) c hc
      split at hc
      · exact (by decide : ∀ c ∈ "\\n".toList, isControl c = false) c hc
      split at hc
      · exact (by decide : ∀ c ∈ "\\f".toList, isControl c = false) c hc
      split at hc
      · exact (by decide : ∀ c ∈ "\\r".toList, isControl c = false) c hc
      rw [List.mem_append] at hc
      rcases hc with hc | hc
      · exact (by decide : ∀ c ∈ "\\x".toList, isControl c = false) c hc
      · simp only [List.mem_cons, List.not_mem_nil, or_false] at hc
        rcases hc with rfl | rfl
        · exact isControl_digitChar (by omega)
        · exact isControl_digitChar (by omega)
    · have : ∀ b : Char, isControl b = true → a ≠ b := by
        rintro b hb rfl; exact ha hb
      rw [if_neg (this _ (by decide)), if_neg (this _ (by decide)), if_neg (this _ (by decide)),
        if_neg (this _ (by decide)), if_neg (this _ (by decide)), if_neg ha] at hc
      simp only [List.mem_singleton] at hc
      subst hc
      simpa using ha
  · rw [fmtStr]
    induction s with
    | nil => rfl
    | cons a s ih =>
      have ha := (ctl a).2 (h a List.mem_cons_self)
      have : ∀ b : Char, isControl b = true → a ≠ b := by
        rintro b hb rfl; rw [hb] at ha; cases ha
      rw [List.map_cons, List.flatten_cons, ih fun c hc => h c (List.mem_cons_of_mem _ hc), fmtChar,
        if_neg (this _ (by decide)), if_neg (this _ (by decide)), if_neg (this _ (by decide)),
        if_neg (this _ (by decide)), if_neg (this _ (by decide)), if_neg (by simp [ha])]
      rfl

example : fmtStr (Char.ofNat 27 :: "a\n".toList) = "\\x1ba\\n".toList := by decide

end Verif.Props
