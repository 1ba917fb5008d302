import Verif.Spec.Nvim
import Verif.Cli.Printable
import Verif.Props.Cli

/-! # Properties C80 and C81: the Neovim plugin, and texts that are safe to print

`checkToml ovf shuffle lines` are the diagnostics for a buffer with these lines, or `none` if the plugin panics. -/

namespace Verif.Props
open Verif Verif.Toml Verif.TomlMap Verif.Cli Verif.Spec.Cli Verif.Nvim Verif.Spec.Nvim
open Verif.Spec (Printable PrintableDiag ForTerminal)
open Verif.Spec.Toml hiding Entry KeyOk
open Verif.Spec.Check (ExactlyOnce Message NoTrap ReadsTrap Reordered)

variable {text : Str} {ovf : Bool} {width : Str → Nat} {shuffle : MapTable → MapTable}

/-! ## C81 -/

theorem phases_parts {mode : Mode} {t : MapTable} {d : Collected} (h : phases ovf shuffle mode text = some (t, d)) :
    ∃ a s es, parseDocument ovf text = .ok a s ∧ map a.asts = some (t, es) ∧ d.infos = [] ∧
      ((mode = .validate ∧ d.errors = (s.errors ++ es).map .toml ∧ d.warnings = []) ∨
       ∃ ds ms, mode = .check ∧ Ide.check ovf (shuffle t) = some (ds, ms) ∧
        d.errors = (s.errors ++ es).map .toml ++ (checkErrors ms).map .check ∧
        d.warnings = (checkWarnings ms).map .check) := by
  unfold phases at h
  cases h1 : parseDocument ovf text with
  | ok a s =>
    rw [h1] at h
    cases h2 : map a.asts with
    | none => simp [h2] at h
    | some y =>
      obtain ⟨t', es⟩ := y
      simp only [h2] at h
      cases mode with
      | validate =>
        simp only [Option.some.injEq, Prod.mk.injEq] at h
        obtain ⟨rfl, rfl⟩ := h
        exact ⟨a, s, es, rfl, h2, by simp [errors_eq, Diag.Diagnostics.default],
          .inl ⟨rfl, by simp [errors_eq, Diag.Diagnostics.default], by simp [errors_eq, Diag.Diagnostics.default]⟩⟩
      | check =>
        simp only at h
        cases h3 : Ide.check ovf (shuffle t') with
        | none => rw [h3] at h; cases h
        | some z =>
          obtain ⟨ds, ms⟩ := z
          rw [h3] at h
          simp only [Option.some.injEq, Prod.mk.injEq] at h
          obtain ⟨rfl, rfl⟩ := h
          exact ⟨a, s, es, rfl, h2, by simp [errors_eq, messages_eq, Diag.Diagnostics.default],
            .inr ⟨ds, ms, rfl, h3, by simp [errors_eq, messages_eq, Diag.Diagnostics.default],
              by simp [errors_eq, messages_eq, Diag.Diagnostics.default]⟩⟩
  | panic => rw [h1] at h; cases h
  | timeout => rw [h1] at h; cases h

/-- C81: whatever the text is, all texts of its diagnostics (of the tokenizer, the parser, the map and the
check) are on one line and without control characters. -/
theorem C81_texts (hsh : Shuffles ovf text shuffle) {mode : Mode} {t : MapTable} {d : Collected}
    (h : phases ovf shuffle mode text = some (t, d)) :
    ∀ x ∈ d.errors ++ d.warnings ++ d.infos, PrintableDiag x.diagnostic := by
  obtain ⟨a, s, es, h1, h2, h3, h4⟩ := phases_parts h
  have ht : ∀ x ∈ ((s.errors ++ es).map Shown.toml : List Shown), PrintableDiag x.diagnostic := by
    intro x hx
    obtain ⟨e, he, rfl⟩ := List.mem_map.1 hx
    rcases List.mem_append.1 he with he | he
    · exact parse_printable h1 e he
    · exact map_printable h1 h2 e he
  rw [h3, List.append_nil]
  rcases h4 with ⟨-, e1, e2⟩ | ⟨ds, ms, -, hck, e1, e2⟩
  · rw [e1, e2, List.append_nil]
    exact ht
  · have hmap : MapOfText ovf text (shuffle t) := ⟨a, s, t, es, h1, h2, hsh a s t es h1 h2⟩
    have hms := (C49_check hmap hck).2
    have hm : ∀ m ∈ ms, PrintableDiag m.diagnostic := fun m hm => by
      obtain ⟨r, hr⟩ := (hms.mem m).1 hm
      exact message_printable hr
    rw [e1, e2]
    intro x hx
    rcases List.mem_append.1 hx with hx | hx
    · rcases List.mem_append.1 hx with hx | hx
      · exact ht x hx
      · obtain ⟨m, h', rfl⟩ := List.mem_map.1 hx
        exact hm m (List.mem_filter.1 h').1
    · obtain ⟨m, h', rfl⟩ := List.mem_map.1 hx
      exact hm m (List.mem_filter.1 h').1

/-- C81: whatever the file contains, what the command line prints about it consists of printable characters,
tabs, line feeds, and the sequences for the colours of the program. -/
theorem C81_messages (hsh : Shuffles ovf text shuffle) {mode : Mode} {out : Output}
    (h : run width ovf shuffle mode text = some out) : ∀ m ∈ out.messages, ForTerminal m := by
  obtain ⟨a, s, t, es, h1, h2, d, hp⟩ := run_parts h
  obtain ⟨a', s', es', -, -, hi, -⟩ := phases_parts hp
  obtain ⟨-, ds, ws, m1, m2, c1, c2, c3, c4, c5⟩ := (run_of (width := width) hp hi).1 out h
  have hd := C81_texts hsh hp
  have key : ∀ {ds : List Diag.Diagnostic} {ms : List Str}, Printed width text ds ms →
      (∀ x ∈ ds, PrintableDiag x) → ∀ m ∈ ms, ForTerminal m := by
    intro ds ms hp hd m hm
    have : some m ∈ ms.map some := List.mem_map_of_mem hm
    rw [hp] at this
    obtain ⟨x, hx, e⟩ := List.mem_map.1 this
    obtain ⟨o, ho, rfl⟩ := Option.map_eq_some_iff.1 e
    exact (forTerminal_display width (hd x hx) ho).append (.char (by simp) .nil)
  rw [c3]
  intro m hm
  rcases List.mem_append.1 hm with hm | hm
  · refine key c4 (fun x hx => ?_) m hm
    obtain ⟨y, hy, rfl⟩ := List.mem_map.1 (c1.perm.subset hx)
    exact hd y (by simp [hy])
  · refine key c5 (fun x hx => ?_) m hm
    obtain ⟨y, hy, rfl⟩ := List.mem_map.1 (c2.perm.subset hx)
    exact hd y (by simp [hy])

/-- A text with escape sequences for the terminal, in a comment, a name and a string. -/
def nasty : Str :=
  "# \x1b[2J\n\"\\u001b[2J\" = 1\n\"\\u001b[2J\" = '\x07'\n[dependencies]\n\"\\u001b\" = '\x1b[2J'\n".toList

/-- The premises are met by this text; the sequence in the name is printed as characters, the one in the string is
left out. -/
example : Shuffles true nasty id := shuffles_id _ _

example : (run List.length true id .check nasty).map (·.messages.length) = some 6 := by decide +kernel

example : ((phases true id .check nasty).map fun x => x.2.errors.map fun d => d.diagnostic.description) = some
    ["invalid character `\\x1b` in comment".toList, "invalid character `\\x07`in string".toList,
     "invalid character `\\x1b`in string".toList, "duplicate key `'\\x1b[2J'`".toList,
     "invalid operator `\\x1b`, expected one of: `=`, `>`, `>=`, `<`, `<=`, `~`, `^` or a blank version requirement".toList] := by
  decide +kernel

/-! ## C80 -/

theorem bufferText_at : ∀ (lines : List Str), (∀ l ∈ lines, '\n' ∉ l) → ∀ x y, bufferText lines = x ++ y →
    InBuffer lines (posOf x).line (posOf x).char := by
  intro lines
  induction lines with
  | nil =>
    intro _ x y h
    obtain ⟨rfl, rfl⟩ := List.append_eq_nil_iff.1 h.symm
    exact .inr ⟨rfl, rfl⟩
  | cons l ls ih =>
    intro hn x y h
    have hl := hn l (by simp)
    rcases List.append_eq_append_iff.1 (show l ++ '\n' :: bufferText ls = x ++ y from h) with ⟨u, rfl, hu⟩ | ⟨u, rfl, hu⟩
    · cases u with
      | nil =>
        refine .inl ⟨l, [], by simp [posOf, List.count_eq_zero.2 hl], ?_⟩
        rw [List.append_nil, ← Diag.blen_curLine, Diag.curLine_of_not_mem hl]
      | cons c u =>
        simp only [List.cons_append, List.cons.injEq] at hu
        obtain ⟨rfl, hu⟩ := hu
        rw [Diag.posOf_cons_nl hl]
        rcases ih (fun l hl => hn l (by simp [hl])) u y hu with ⟨a, b, h1, h2⟩ | ⟨h1, h2⟩
        · exact .inl ⟨a, b, by simpa using h1, h2⟩
        · exact .inr ⟨by simpa using h1, h2⟩
    · have hx : '\n' ∉ x := fun e => hl (by simp [e])
      refine .inl ⟨x, u, by simp [posOf, List.count_eq_zero.2 hx], ?_⟩
      rw [← Diag.blen_curLine, Diag.curLine_of_not_mem hx]

theorem spanIn_buffer {lines : List Str} (hn : ∀ l ∈ lines, '\n' ∉ l) {s : Span} (h : SpanIn (bufferText lines) s) :
    InBuffer lines s.start.line s.start.char ∧ InBuffer lines s.stop.line s.stop.char ∧
      (s.start.line < s.stop.line ∨ (s.start.line = s.stop.line ∧ s.start.char ≤ s.stop.char)) := by
  obtain ⟨x, y, z, h1, rfl⟩ := h
  refine ⟨bufferText_at lines hn x (y ++ z) (by rw [h1]; simp), bufferText_at lines hn (x ++ y) z h1, ?_⟩
  exact posOf_mono x y

theorem sameList (ds : List Shown) : SameList (ds.map Shown.diagnostic) (ds.map mapVimDiagnostic) := by
  induction ds with
  | nil => exact .nil
  | cons d ds ih => exact .cons ⟨rfl, rfl, rfl⟩ ih

variable {lines : List Str}

theorem checkToml_parts {out : VimDiagnostics} (h : checkToml ovf shuffle lines = some out) :
    ∃ t d, phases ovf shuffle .check (bufferText lines) = some (t, d) ∧
      out = ⟨d.errors.map mapVimDiagnostic, d.warnings.map mapVimDiagnostic, d.infos.map mapVimDiagnostic⟩ := by
  unfold checkToml at h
  cases hp : phases ovf shuffle .check (bufferText lines) with
  | none => rw [hp] at h; cases h
  | some x =>
    rw [hp] at h
    exact ⟨x.1, x.2, rfl, (Option.some.inj h).symm⟩

/-- C80: whenever the plugin returns, it gives one diagnostic for each diagnostic of the tokenizer, the parser, the
map and the check, at the same place, in this order; and no message has control characters. -/
theorem C80_diagnostics (hsh : Shuffles ovf (bufferText lines) shuffle) {out : VimDiagnostics}
    (h : checkToml ovf shuffle lines = some out) :
    ∃ a s t es ms, parseDocument ovf (bufferText lines) = .ok a s ∧ map a.asts = some (t, es) ∧
      ExactlyOnce ms (Message false (shuffle t)) ∧
      SameList (s.errors.map Error.diagnostic ++ es.map Error.diagnostic ++
        (checkErrors ms).map Ide.Msg.diagnostic) out.errors ∧
      SameList ((checkWarnings ms).map Ide.Msg.diagnostic) out.warnings ∧ out.infos = [] ∧
      ∀ v ∈ out.errors ++ out.warnings, Printable v.message := by
  obtain ⟨t, d, hp, rfl⟩ := checkToml_parts h
  obtain ⟨a, s, es, h1, h2, h3, ⟨h4, -⟩ | ⟨ds, ms, -, hck, e1, e2⟩⟩ := phases_parts hp
  · cases h4
  have hmap : MapOfText ovf (bufferText lines) (shuffle t) := ⟨a, s, t, es, h1, h2, hsh a s t es h1 h2⟩
  refine ⟨a, s, t, es, ms, h1, h2, (C49_check hmap hck).2, ?_, ?_, by simp [h3], ?_⟩
  · have := sameList d.errors
    rw [e1] at this ⊢
    simpa [Shown.diagnostic, Function.comp_def] using this
  · have := sameList d.warnings
    rw [e2] at this ⊢
    simpa [Shown.diagnostic, Function.comp_def] using this
  · intro v hv
    rw [← List.map_append] at hv
    obtain ⟨x, hx, rfl⟩ := List.mem_map.1 hv
    exact (C81_texts hsh hp x (List.mem_append_left _ hx)).description

/-- C80, the part that holds: for a buffer without a multi-line string inside of brackets, without control
characters in comments behind characters that are not ASCII, and with plain strings as version requirements,
the plugin returns, and all diagnostics can be shown.

Missing: see `C80_counterexample`. -/
theorem C80_shown_partial {T : Tokens} {le : List Error} (hn : ∀ l ∈ lines, '\n' ∉ l)
    (hl : lex (bufferText lines) = some (T, le)) (hc : CommentsOk (bufferText lines)) (hs : ¬ SplitPair T.tokens)
    (hsh : Shuffles ovf (bufferText lines) shuffle)
    (hv : ∀ root, MapOfText ovf (bufferText lines) root →
      (ovf = false ∨ ¬ ReadsTrap root) ∧ ∀ v, VersionStr root v → PlainStr v) :
    ∃ out, checkToml ovf shuffle lines = some out ∧
      ∀ v ∈ out.errors ++ out.warnings ++ out.infos, ShownIn lines v := by
  obtain ⟨a, s, t, es, h, hm, hok⟩ := parse_map hl hs ovf
  have hp := placed hl hs h
  have hr := hsh a s t es h hm
  have hmap : MapOfText ovf (bufferText lines) (shuffle t) := ⟨a, s, t, es, h, hm, hr⟩
  obtain ⟨hv1, hv2⟩ := hv _ hmap
  obtain ⟨deps, ms, hck⟩ := C74_no_panic_reads hmap hv1
  have hms := (C49_check hmap hck).2
  have h6 := Ide.nodeOk_reordered hok hr
  have hat := mapAt_of (C68_tree_in_text hl h) h6
  have hph := phases_check (shuffle := shuffle) h hm hck
  have hmsg : ∀ m ∈ ms, DiagIn (bufferText lines) m.diagnostic := fun m hm' => by
    obtain ⟨r, hr'⟩ := (hms.mem m).1 hm'
    exact message_diag hp h6 hat hv2 hr'
  have hout : ∃ out, checkToml ovf shuffle lines = some out := by
    unfold checkToml
    rw [hph]
    exact ⟨_, rfl⟩
  obtain ⟨out, ho⟩ := hout
  refine ⟨out, ho, ?_⟩
  obtain ⟨t', d, hp', rfl⟩ := checkToml_parts ho
  rw [hph] at hp'
  cases hp'
  have hpr := C81_texts hsh hph
  have hin : ∀ x ∈ ((s.errors ++ es).map Shown.toml ++ (checkErrors ms).map Shown.check ++
      (checkWarnings ms).map Shown.check : List Shown), DiagIn (bufferText lines) x.diagnostic := by
    intro x hx
    simp only [List.mem_append, List.mem_map] at hx
    rcases hx with (⟨e, he | he, rfl⟩ | ⟨m, hm', rfl⟩) | ⟨m, hm', rfl⟩
    · exact parse_diag hl hc h e he
    · exact map_diag hp hm e he
    · exact hmsg m (List.mem_filter.1 hm').1
    · exact hmsg m (List.mem_filter.1 hm').1
  intro v hv'
  simp only [List.map_nil, List.append_nil, ← List.map_append] at hv'
  obtain ⟨x, hx, rfl⟩ := List.mem_map.1 hv'
  rw [List.map_append] at hx
  obtain ⟨k1, k2, k3⟩ := spanIn_buffer hn (hin x (by simpa using hx)).span
  exact ⟨k1, k2, k3, (hpr x (by simpa using hx)).description⟩

/-- A place in the buffer is a place of its text. -/
theorem buffer_at : ∀ (lines : List Str), (∀ l ∈ lines, '\n' ∉ l) → ∀ {l c : Nat}, InBuffer lines l c →
    ∃ x y, bufferText lines = x ++ y ∧ posOf x = ⟨l, c⟩ := by
  intro lines
  induction lines with
  | nil =>
    rintro _ l c (⟨a, b, h, -⟩ | ⟨rfl, rfl⟩)
    · simp at h
    · exact ⟨[], [], rfl, rfl⟩
  | cons m ls ih =>
    intro hn l c h
    have hm := hn m (by simp)
    have step : ∀ {l : Nat}, InBuffer ls l c → ∃ x y, bufferText (m :: ls) = x ++ y ∧ posOf x = ⟨l + 1, c⟩ := by
      intro l h
      obtain ⟨x, y, h1, h2⟩ := ih (fun l hl => hn l (by simp [hl])) h
      refine ⟨m ++ '\n' :: x, y, by rw [bufferText, h1]; simp, ?_⟩
      rw [Diag.posOf_cons_nl hm, h2]
    rcases h with ⟨a, b, h, rfl⟩ | ⟨rfl, rfl⟩
    · cases l with
      | zero =>
        simp only [List.getElem?_cons_zero, Option.some.injEq] at h
        subst h
        have ha : '\n' ∉ a := fun e => hm (by simp [e])
        refine ⟨a, b ++ '\n' :: bufferText ls, by rw [bufferText]; simp, ?_⟩
        have h2 := Diag.blen_curLine a
        rw [Diag.curLine_of_not_mem ha] at h2
        have h1 : (posOf a).line = 0 := by simp [posOf, List.count_eq_zero.2 ha]
        rw [h2, ← h1]
      | succ l => exact step (.inl ⟨a, b, by simpa using h, rfl⟩)
    · exact step (.inr ⟨rfl, rfl⟩)

/-- The places of a buffer are the character boundaries of its text. -/
theorem spanIn_buffer_iff (hn : ∀ l ∈ lines, '\n' ∉ l) {s : Span} : SpanIn (bufferText lines) s ↔
    InBuffer lines s.start.line s.start.char ∧ InBuffer lines s.stop.line s.stop.char ∧
      (s.start.line < s.stop.line ∨ (s.start.line = s.stop.line ∧ s.start.char ≤ s.stop.char)) := by
  refine ⟨spanIn_buffer hn, fun ⟨h1, h2, h3⟩ => ?_⟩
  obtain ⟨x, y, e1, p1⟩ := buffer_at lines hn h1
  obtain ⟨x', y', e2, p2⟩ := buffer_at lines hn h2
  have e := e1.symm.trans e2
  have hp : ∃ u, x' = x ++ u := by
    rcases List.append_eq_append_iff.1 e with ⟨u, g, -⟩ | ⟨u, g, -⟩
    · exact ⟨u, g⟩
    · have hm := posOf_mono x' u
      rw [← g, p1, p2] at hm
      unfold Pos.le at hm
      simp only at hm
      have he : posOf x = posOf x' := by
        rw [p1, p2, Pos.mk.injEq]
        omega
      exact ⟨[], by rw [List.append_nil]; exact (posOf_inj e he).symm⟩
  obtain ⟨u, rfl⟩ := hp
  exact ⟨x, u, y', e2, by rw [p1, p2]⟩

/-- C80, exactly: whenever the plugin returns, for every buffer, a diagnostic has a valid range if and only if its
span starts and ends at character boundaries of the text, in this order. -/
theorem C80_shown_iff (hn : ∀ l ∈ lines, '\n' ∉ l) (hsh : Shuffles ovf (bufferText lines) shuffle)
    {out : VimDiagnostics} (h : checkToml ovf shuffle lines = some out) :
    ∀ v ∈ out.errors ++ out.warnings ++ out.infos,
      ShownIn lines v ↔ SpanIn (bufferText lines) ⟨⟨v.lnum, v.col⟩, ⟨v.endLnum, v.endCol⟩⟩ := by
  intro v hv
  obtain ⟨a, s, t, es, ms, -, -, -, -, -, hi, hp⟩ := C80_diagnostics hsh h
  rw [hi, List.append_nil] at hv
  rw [spanIn_buffer_iff hn]
  constructor
  · exact fun k => ⟨k.start, k.stop, k.order⟩
  · exact fun ⟨k1, k2, k3⟩ => ⟨k1, k2, k3, hp v hv⟩

/-- In the second line of the buffer `a`, `ä` there are two places. -/
example : SpanIn (bufferText ["a".toList, "ä".toList]) ⟨⟨1, 0⟩, ⟨1, 2⟩⟩ ∧
    ¬ SpanIn (bufferText ["a".toList, "ä".toList]) ⟨⟨1, 0⟩, ⟨1, 1⟩⟩ := by
  rw [spanIn_buffer_iff (by decide), spanIn_buffer_iff (by decide)]
  refine ⟨⟨.inl ⟨[], "ä".toList, by decide, rfl⟩, .inl ⟨"ä".toList, [], by decide, by decide⟩, .inr ⟨rfl, by decide⟩⟩, ?_⟩
  rintro ⟨-, ⟨a, b, h, hc⟩ | ⟨h, -⟩, -⟩
  · simp only [List.getElem?_cons_succ, List.getElem?_cons_zero, Option.some.injEq] at h
    rcases a with _ | ⟨c, a⟩
    · simp at hc
    · have h' : ['ä'] = c :: a ++ b := h
      simp only [List.cons_append, List.cons.injEq] at h'
      obtain ⟨rfl, h'⟩ := h'
      obtain ⟨rfl, -⟩ := List.append_eq_nil_iff.1 h'.symm
      revert hc
      decide
  · simp at h

/-- C80, in terms of the buffer only: no backslashes, no three quotes in a row, no control characters but tabs, and
none of the numbers of C20. -/
theorem C80_text_partial (hn : ∀ l ∈ lines, '\n' ∉ l) (hb : '\\' ∉ bufferText lines)
    (hc : CommentsOk (bufferText lines)) (ht : NoTripleQuotes (bufferText lines))
    (ho : ovf = false ∨ ¬ Spec.Semver.OverflowTrap (bufferText lines)) (hsh : Shuffles ovf (bufferText lines) shuffle) :
    ∃ out, checkToml ovf shuffle lines = some out ∧
      ∀ v ∈ out.errors ++ out.warnings ++ out.infos, ShownIn lines v := by
  obtain ⟨T, le, vs, hl, -⟩ := lex_post (bufferText lines)
  exact C80_shown_partial hn hl hc (no_split_text ht hl) hsh fun root hr => versions_plain hb ht ho hr

/-- C80: the plugin has nothing to say about a buffer exactly if its text is a TOML document without contradictions,
there is nothing to say about its dependencies, and, if the build has overflow checks, none of the version requirements
that are read has a number of C20. -/
theorem C80_clean (hsh : Shuffles ovf (bufferText lines) shuffle) :
    checkToml ovf shuffle lines = some ⟨[], [], []⟩ ↔
      ∃ vs items root, Tokenized [] (bufferText lines) vs ∧ Doc false vs items ∧ Consistent (docDefs items) ∧
        MapOfText ovf (bufferText lines) root ∧ (∀ r m, ¬ Message false root r m) ∧
          (ovf = false ∨ ¬ ReadsTrap root) := by
  rw [← C79_clean List.length hsh]
  constructor
  · intro h
    obtain ⟨t, d, hp, e⟩ := checkToml_parts h
    simp only [VimDiagnostics.mk.injEq] at e
    obtain ⟨e1, e2, e3⟩ := e
    have e1 := List.map_eq_nil_iff.1 e1.symm
    have e2 := List.map_eq_nil_iff.1 e2.symm
    have e3 := List.map_eq_nil_iff.1 e3.symm
    obtain ⟨g1, g2⟩ := run_of (width := List.length) hp e3
    obtain ⟨out, ho⟩ := g2 (by simp [e1, e2])
    obtain ⟨-, ds, ws, m1, m2, c1, c2, c3, c4, c5⟩ := g1 _ ho
    rw [e1] at c1
    rw [e2] at c2
    obtain rfl := List.perm_nil.1 c1.perm
    obtain rfl := List.perm_nil.1 c2.perm
    obtain rfl := List.map_eq_nil_iff.1 c4
    obtain rfl := List.map_eq_nil_iff.1 c5
    obtain ⟨simple, msgs⟩ := out
    obtain rfl : msgs = [] := c3
    exact ⟨simple, ho⟩
  · rintro ⟨simple, h⟩
    obtain ⟨a, s, t, es, -, -, d, hp⟩ := run_parts h
    obtain ⟨a', s', es', -, -, hi, -⟩ := phases_parts hp
    obtain ⟨-, ds, ws, m1, m2, c1, c2, c3, c4, c5⟩ := (run_of (width := List.length) hp hi).1 _ h
    obtain ⟨rfl, rfl⟩ := List.append_eq_nil_iff.1 c3.symm
    obtain rfl := printed_nil.1 c4
    obtain rfl := printed_nil.1 c5
    have e1 := List.map_eq_nil_iff.1 (List.nil_perm.1 c1.perm)
    have e2 := List.map_eq_nil_iff.1 (List.nil_perm.1 c2.perm)
    unfold checkToml
    rw [hp]
    simp [e1, e2, hi]

/-- C80, exactly: the plugin panics for a buffer exactly if the parser does (C60), or the build has overflow checks and
a version requirement that is read has a number of C20. -/
theorem C80_panics_iff (hsh : Shuffles ovf (bufferText lines) shuffle) :
    checkToml ovf shuffle lines = none ↔ parseDocument ovf (bufferText lines) = .panic ∨
      (ovf = true ∧ ∃ root, MapOfText ovf (bufferText lines) root ∧ ReadsTrap root) := by
  have hx : checkToml ovf shuffle lines = none ↔ phases ovf shuffle .check (bufferText lines) = none := by
    unfold checkToml
    cases phases ovf shuffle .check (bufferText lines) <;> simp
  rw [hx]
  have hto := C58_terminates (ovf := ovf) (input := bufferText lines)
  cases h : parseDocument ovf (bufferText lines) with
  | timeout => exact absurd h hto
  | panic => simp [phases, h]
  | ok a s =>
    obtain ⟨t, es, hm, hok⟩ := C47_map h
    have hmap : MapOfText ovf (bufferText lines) (shuffle t) := ⟨a, s, t, es, h, hm, hsh a s t es h hm⟩
    have hp : phases ovf shuffle .check (bufferText lines) = none ↔
        Ide.check ovf (shuffle t) = (none : Option (List Ide.Dependency × List Ide.Msg)) := by
      simp only [phases, h, hm]
      cases (Ide.check ovf (shuffle t) : Option (List Ide.Dependency × List Ide.Msg)) <;> simp <;> rfl
    rw [hp, C74_panics_iff hmap]
    constructor
    · exact fun ⟨h1, h2⟩ => .inr ⟨h1, _, hmap, h2⟩
    · rintro (h0 | ⟨h1, root, h2, h3⟩)
      · cases h0
      · exact ⟨h1, (readsTrap_orders h2 hmap).1 h3⟩

theorem inBuffer_slice {l c : Nat} (h : InBuffer lines l c) :
    ((lines[l]?).bind (sliceTo c)).isSome = true ∨ l = lines.length := by
  rcases h with ⟨a, b, h1, rfl⟩ | ⟨h, -⟩
  · left
    rw [h1, Option.bind_some, sliceTo_app]
    rfl
  · exact .inr h

/-- Some diagnostic ends at a place outside of the lines. -/
def badEnd (lines : List Str) : Bool :=
  match checkToml true id lines with
  | some out => out.errors.any fun v =>
      !((lines[v.endLnum]?).bind (sliceTo v.endCol)).isSome && v.endLnum != lines.length
  | none => false

theorem badEnd_not_shown (h : badEnd lines = true) :
    ∃ out, checkToml true id lines = some out ∧ ∃ v ∈ out.errors, ¬ ShownIn lines v := by
  unfold badEnd at h
  cases hc : checkToml true id lines with
  | none => rw [hc] at h; cases h
  | some out =>
    rw [hc] at h
    obtain ⟨v, hv, h1⟩ := List.any_eq_true.1 h
    refine ⟨out, rfl, v, hv, fun hs => ?_⟩
    simp only [Bool.and_eq_true, Bool.not_eq_true', bne_iff_ne] at h1
    rcases inBuffer_slice hs.stop with h2 | h2
    · rw [h1.1] at h2; cases h2
    · exact h1.2 h2

/-- C80 is false in general: the plugin panics for a header that is split by a multi-line string (with overflow
checks); the diagnostic of a control character in a comment can begin inside of another character; and the one of an
error in a multi-line version requirement is behind the end of the line. -/
theorem C80_counterexample :
    checkToml true id ["   [\"\"\"".toList, "\"\"\"]".toList] = none ∧
    (∃ out, checkToml true id ["#ä\x01".toList] = some out ∧ ∃ v ∈ out.errors, ¬ ShownIn ["#ä\x01".toList] v) ∧
    (∃ out, checkToml true id ["dependencies.a = \"\"\"1,".toList, "2x\"\"\"".toList] = some out ∧
      ∃ v ∈ out.errors, ¬ ShownIn ["dependencies.a = \"\"\"1,".toList, "2x\"\"\"".toList] v) := by
  refine ⟨?_, badEnd_not_shown (by decide +kernel), badEnd_not_shown (by decide +kernel)⟩
  decide +kernel

/-- C80: all diagnostics are given to Neovim, the errors first, then the warnings; errors have the severity of errors. -/
theorem C80_published (hsh : Shuffles ovf (bufferText lines) shuffle) {out : VimDiagnostics}
    (h : checkToml ovf shuffle lines = some out) :
    (publish out).map Prod.snd = out.errors ++ out.warnings ∧
    (publish out).take out.errors.length = out.errors.map fun e => (VimSeverity.error, e) := by
  obtain ⟨a, s, t, es, ms, -, -, -, -, -, hi, -⟩ := C80_diagnostics hsh h
  constructor
  · simp [publish, hi, Function.comp_def]
  · simp [publish, List.take_append, List.take_of_length_le]

/-- Warnings have the severity of errors, too: a manifest with only a warning is shown with an error. -/
theorem C80_severity_counterexample :
    ∃ out w, checkToml true id ["[dependencies]".toList, "[dev_dependencies]".toList] = some out ∧
      out.errors = [] ∧ out.warnings = [w] ∧ publish out = [(.error, w)] := by
  refine ⟨_, ⟨1, 1, 1, 18, "`dev_dependencies` is deprecated in favor of `dev-dependencies` and will be unsupported in the 2024 edition".toList⟩,
    (by decide +kernel : _ = some ⟨[], [⟨1, 1, 1, 18, "`dev_dependencies` is deprecated in favor of `dev-dependencies` and will be unsupported in the 2024 edition".toList⟩], []⟩), rfl, rfl, rfl⟩

/-! ## The premises are met -/

/-- The lines of a buffer with a diagnostic of each phase. -/
def faultyLines : List Str :=
  ["x = 1".toList, "x = 'y".toList, "[dependencies]".toList, "b = \"1.x.y\"".toList, "c = true".toList,
   "d = { version = '1', workspace = false }".toList, "[dev_dependencies]".toList]

example : bufferText faultyLines = faulty := by decide +kernel

example : (∀ l ∈ faultyLines, '\n' ∉ l) := by decide +kernel

/-- The first error, and the number of the diagnostics. -/
example : (checkToml true id faultyLines).map (fun o => (o.errors.length, o.warnings.length, o.errors.head?)) =
    some (5, 2, some ⟨1, 1, 4, 6, "unterminated literal string, missing `'`".toList⟩) := by
  decide +kernel

end Verif.Props
