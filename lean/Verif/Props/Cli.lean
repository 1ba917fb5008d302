import Verif.Cli.Lemmas
import Verif.Props.Simple

/-! # Properties C78 and C79: the command line

`run width ovf shuffle mode text` is what the program prints for a file with the contents `text`, or `none` if
it panics; `width` is the width of characters on the terminal, `ovf` says whether the build checks for
overflows, and `shuffle` is the order of the entries of tables.  What is printed is in `Spec/Cli.lean`. -/

namespace Verif.Props
open Verif Verif.Toml Verif.TomlMap Verif.Cli Verif.Spec.Cli
open Verif.Spec.Toml hiding Entry KeyOk
open Verif.Spec.Check (ExactlyOnce Message NoTrap ReadsTrap Reordered)


variable {text : Str} {ovf : Bool} {width : Str → Nat} {shuffle : MapTable → MapTable}

/-- There is a tree and a map, unless the parser panics (C60). -/
theorem phases_validate {a : Asts} {s : PS} {t : MapTable} {es : List Error}
    (h : parseDocument ovf text = .ok a s) (hm : map a.asts = some (t, es)) :
    phases ovf shuffle .validate text = some (t, ⟨(s.errors ++ es).map .toml, [], []⟩) := by
  simp [phases, h, hm, errors_eq, Diag.Diagnostics.default]

theorem phases_check {a : Asts} {s : PS} {t : MapTable} {es : List Error}
    (h : parseDocument ovf text = .ok a s) (hm : map a.asts = some (t, es)) {ds : List Ide.Dependency}
    {ms : List Ide.Msg} (hc : Ide.check ovf (shuffle t) = some (ds, ms)) :
    phases ovf shuffle .check text = some (t, ⟨(s.errors ++ es).map .toml ++ (checkErrors ms).map .check,
      (checkWarnings ms).map .check, []⟩) := by
  simp only [phases, h, hm, errors_eq, hc, messages_eq]
  simp [Diag.Diagnostics.default]

theorem no_back {T : Tokens} (h : ¬ SplitPair T.tokens) : ¬ SplitBack ovf T.tokens :=
  fun ⟨l, r, h1, h2, _⟩ => h ⟨l, r, h1, h2⟩

theorem parse_map {T : Tokens} {le : List Error} (hl : lex text = some (T, le)) (hs : ¬ SplitPair T.tokens)
    (ovf : Bool) : ∃ a s t es, parseDocument ovf text = .ok a s ∧ map a.asts = some (t, es) ∧ MapOk a.asts t := by
  have h1 := C60_no_panic_partial (ovf := ovf) hl (no_back hs)
  have h2 := C58_terminates (ovf := ovf) (input := text)
  cases h : parseDocument ovf text with
  | ok a s =>
    obtain ⟨t, es, hm, hok⟩ := C47_map h
    exact ⟨a, s, t, es, rfl, hm, hok⟩
  | panic => exact absurd h h1
  | timeout => exact absurd h h2

/-! ## C78 -/

/-- C78, the part that holds: for a text without carriage returns, without a multi-line string inside of
brackets, and without control characters in comments behind characters that are not ASCII, `validate`
prints each diagnostic of the tokenizer, of the parser and of the map once, ordered by their places, and
the plain values.

Missing: the program panics for some other texts, see `C78_counterexample`. -/
theorem C78_validate_partial {T : Tokens} {le : List Error} (hl : lex text = some (T, le)) (hcr : '\r' ∉ text)
    (hc : CommentsOk text) (hs : ¬ SplitPair T.tokens) (width : Str → Nat) (ovf : Bool)
    (shuffle : MapTable → MapTable) :
    ∃ a s t es out ds, parseDocument ovf text = .ok a s ∧ map a.asts = some (t, es) ∧
      run width ovf shuffle .validate text = some out ∧ out.simple = mapSimple t ∧
      Sorted ((s.errors ++ es).map Error.diagnostic) ds ∧ Printed width text ds out.messages := by
  obtain ⟨a, s, t, es, h, hm, hok⟩ := parse_map hl hs ovf
  have hp := placed hl hs h
  obtain ⟨g1, g2⟩ := run_of (width := width) (phases_validate (shuffle := shuffle) h hm) rfl
  obtain ⟨out, ho⟩ := g2 (by
    simp only [List.append_nil, List.mem_map, forall_exists_index, and_imp, forall_apply_eq_imp_iff₂, List.mem_append]
    rintro e (he | he)
    · exact (parse_diag hl hc h e he).display hcr width
    · exact (map_diag hp hm e he).display hcr width)
  obtain ⟨e1, ds, ws, m1, m2, c1, c2, c3, c4, c5⟩ := g1 out ho
  have hw : ws = [] := List.perm_nil.1 c2.perm
  subst hw
  have hm2 : m2 = [] := List.map_eq_nil_iff.1 c5
  subst hm2
  refine ⟨a, s, t, es, out, ds, h, hm, ho, e1, by rw [List.map_map] at c1; exact c1, ?_⟩
  rw [c3, List.append_nil]
  exact c4

theorem opening_triple {q : Quote} {o x r : Str} (h : Opening q o) (ht : NoTripleQuotes text)
    (hx : text = x ++ o ++ r) : isMulti q = false := by
  cases hm : isMulti q with
  | false => rfl
  | true =>
    have ho : ∃ y, o = [quoteChar q, quoteChar q, quoteChar q] ++ y := by
      cases h with
      | single h' => rw [hm] at h'; cases h'
      | multi _ => exact ⟨[], rfl⟩
      | multiLf _ => exact ⟨_, rfl⟩
      | multiCrlf _ => exact ⟨_, rfl⟩
    obtain ⟨y, rfl⟩ := ho
    have hi : [quoteChar q, quoteChar q, quoteChar q] <:+: text := ⟨x, y ++ r, by rw [hx]; simp⟩
    cases q with
    | basic => cases hm
    | literal => cases hm
    | basicMultiline => exact absurd hi ht.1
    | literalMultiline => exact absurd hi ht.2

/-- A text without three quotes in a row has no multi-line string. -/
theorem no_split_text (h : NoTripleQuotes text) {T : Tokens} {le : List Error} (hl : lex text = some (T, le)) :
    ¬ SplitPair T.tokens := by
  obtain ⟨T', es', vs, h0, h1, h2, h3, h4, h5, -⟩ := lex_post text
  rw [hl] at h0
  cases h0
  have hG := good_start (ovf := true) (es := le) h1 h2 h3 h4 h5
  refine no_split hG.chain fun tok htok id st hid hst => ?_
  obtain ⟨pre0, q, o, t, d, r, txt, g1, g2, g3, g4, g5, g6, -⟩ := h5 tok htok id hid
  have g3' : (envOf true text T).strings[id]? = _ := g3
  rw [hst] at g3'
  cases g3'
  exact g6 (opening_triple g4 h (x := pre0) (r := t ++ d ++ r) (by rw [g1]; simp))

/-- C78, in terms of the text only: `validate` does not panic for a text without carriage returns,
without three quotes in a row and without control characters but line feeds and tabs. -/
theorem C78_text_partial (hcr : '\r' ∉ text) (hc : CommentsOk text) (ht : NoTripleQuotes text)
    (width : Str → Nat) (ovf : Bool) (shuffle : MapTable → MapTable) :
    ∃ out, run width ovf shuffle .validate text = some out := by
  obtain ⟨T, le, vs, hl, -⟩ := lex_post text
  obtain ⟨a, s, t, es, out, ds, -, -, h, -⟩ := C78_validate_partial hl hcr hc (no_split_text ht hl) width ovf shuffle
  exact ⟨out, h⟩

theorem printed_nil {ds : List Diag.Diagnostic} : Printed width text ds [] ↔ ds = [] := by
  unfold Printed
  rw [List.map_nil, eq_comm, List.map_eq_nil_iff]

theorem run_parts {mode : Mode} {out : Output} (h : run width ovf shuffle mode text = some out) :
    ∃ a s t es, parseDocument ovf text = .ok a s ∧ map a.asts = some (t, es) ∧
      ∃ d, phases ovf shuffle mode text = some (t, d) := by
  unfold run at h
  cases hp : phases ovf shuffle mode text with
  | none => rw [hp] at h; cases h
  | some x =>
    unfold phases at hp
    cases h1 : parseDocument ovf text with
    | ok a s =>
      cases h2 : map a.asts with
      | none => simp [h1, h2] at hp
      | some y =>
        obtain ⟨t, es⟩ := y
        refine ⟨a, s, t, es, rfl, h2, x.2, ?_⟩
        simp only [h1, h2] at hp
        cases mode with
        | validate => cases hp; rfl
        | check =>
          simp only at hp
          cases h3 : Ide.check ovf (shuffle t) with
          | none => rw [h3] at hp; cases hp
          | some z => rw [h3] at hp; cases hp; rfl
    | panic => simp [h1] at hp
    | timeout => simp [h1] at hp

/-- C78: for each text, `validate` prints no diagnostic exactly if the text is a TOML document without
contradictions; and then the plain values that it prints are what the document says. -/
theorem C78_clean (width : Str → Nat) (ovf : Bool) (shuffle : MapTable → MapTable) (text : Str) :
    (∃ simple, run width ovf shuffle .validate text = some ⟨simple, []⟩) ↔
      ∃ vs items, Tokenized [] text vs ∧ Doc false vs items ∧ Consistent (docDefs items) := by
  constructor
  · rintro ⟨simple, h⟩
    obtain ⟨a, s, t, es, h1, h2, -⟩ := run_parts h
    obtain ⟨g1, -⟩ := run_of (width := width) (phases_validate (shuffle := shuffle) h1 h2) rfl
    obtain ⟨-, ds, ws, m1, m2, c1, c2, c3, c4, c5⟩ := g1 _ h
    obtain ⟨rfl, rfl⟩ := List.append_eq_nil_iff.1 c3.symm
    obtain rfl := printed_nil.1 c4
    have he : s.errors ++ es = [] := by
      have := List.nil_perm.1 c1.perm
      simpa using this
    obtain ⟨he1, rfl⟩ := List.append_eq_nil_iff.1 he
    obtain ⟨vs, items, k1, k2⟩ := (C71_grammar ovf text).1 ⟨a, s, h1, he1⟩
    obtain ⟨a', s', t', es', k3, -, k4, k5⟩ := C46_text k1 k2 ovf
    rw [h1] at k3
    cases k3
    rw [h2] at k4
    cases k4
    exact ⟨vs, items, k1, k2, k5.1 rfl⟩
  · rintro ⟨vs, items, k1, k2, k3⟩
    obtain ⟨a, s, t, h1, h2, h3, -⟩ := C45_text k1 k2 k3 ovf
    have hp := phases_validate (shuffle := shuffle) h1 h3
    rw [h2] at hp
    obtain ⟨g1, g2⟩ := run_of (width := width) hp rfl
    obtain ⟨out, ho⟩ := g2 (by simp)
    obtain ⟨-, ds, ws, m1, m2, c1, c2, c3, c4, c5⟩ := g1 _ ho
    obtain rfl := List.perm_nil.1 c1.perm
    obtain rfl := List.perm_nil.1 c2.perm
    obtain rfl := List.map_eq_nil_iff.1 c4
    obtain rfl := List.map_eq_nil_iff.1 c5
    obtain ⟨simple, msgs⟩ := out
    obtain rfl : msgs = [] := c3
    exact ⟨simple, ho⟩

/-- C78: the plain values that `validate` prints for such a document. -/
theorem C78_values {vs : List (View × Pos)} {items : List Item} (h1 : Tokenized [] text vs)
    (h2 : Doc false vs items) (hc : Consistent (docDefs items)) {out : Output}
    (h : run width ovf shuffle .validate text = some out) :
    ∀ p, p ≠ [] → ∀ sh,
      (simpleAt (.table out.simple) p).map simpleShape = some sh ↔ Says (docDefs items) p sh := by
  obtain ⟨a, s, t, k1, k2, k3, k4⟩ := C77_text h1 h2 hc ovf
  obtain ⟨g1, -⟩ := run_of (width := width) (phases_validate (shuffle := shuffle) k1 k3) rfl
  rw [(g1 _ h).1]
  exact k4

/-- A message cannot be printed if one of the diagnostics makes `display` panic. -/
theorem run_none {mode : Mode} {t : MapTable} {d : Collected} (h : phases ovf shuffle mode text = some (t, d))
    (hi : d.infos = []) {x : Shown} (hx : x ∈ d.errors)
    (hd : Diag.display width x.diagnostic (Diag.lines text) = none) : run width ovf shuffle mode text = none := by
  cases hr : run width ovf shuffle mode text with
  | none => rfl
  | some out =>
    obtain ⟨-, ds, ws, m1, m2, c1, c2, c3, c4, c5⟩ := (run_of h hi).1 out hr
    have hm : x.diagnostic ∈ ds := c1.perm.symm.subset (List.mem_map_of_mem hx)
    have : none ∈ m1.map some := by
      rw [c4]
      exact List.mem_map.2 ⟨_, hm, by rw [hd]; rfl⟩
    simp at this

theorem canShow_iff {d : Diag.Diagnostic} :
    Diag.display width d (Diag.lines text) = none ↔ ¬ CanShow text d :=
  C65_panics_iff width text d

/-- What the last part of the program does: it panics exactly if a diagnostic cannot be shown. -/
theorem run_panics {mode : Mode} {t : MapTable} {d : Collected} (h : phases ovf shuffle mode text = some (t, d))
    (hi : d.infos = []) :
    run width ovf shuffle mode text = none ↔ ∃ x ∈ d.errors ++ d.warnings, ¬ CanShow text x.diagnostic := by
  constructor
  · intro hr
    refine Classical.byContradiction fun hno => ?_
    obtain ⟨out, ho⟩ := (run_of (width := width) h hi).2 (fun x hx => by
      cases hd : Diag.display width x.diagnostic (Diag.lines text) with
      | some o => exact ⟨o, rfl⟩
      | none => exact absurd ⟨x, hx, canShow_iff.1 hd⟩ hno)
    rw [hr] at ho
    cases ho
  · rintro ⟨x, hx, hd⟩
    rw [← canShow_iff (width := width)] at hd
    cases hr : run width ovf shuffle mode text with
    | none => rfl
    | some out =>
      obtain ⟨-, ds, ws, m1, m2, c1, c2, c3, c4, c5⟩ := (run_of h hi).1 out hr
      have key : ∀ {l ds : List Diag.Diagnostic} {m : List Str}, Sorted l ds → Printed width text ds m →
          x.diagnostic ∈ l → False := by
        intro l ds m c1 c4 hm
        have : none ∈ m.map some := by
          rw [c4]
          exact List.mem_map.2 ⟨_, c1.perm.symm.subset hm, by rw [hd]; rfl⟩
        simp at this
      rcases List.mem_append.1 hx with hx | hx
      · exact (key c1 c4 (List.mem_map_of_mem hx)).elim
      · exact (key c2 c5 (List.mem_map_of_mem hx)).elim

/-- C78: for every text, if `validate` does not panic it prints each diagnostic of the tokenizer, of the parser and
of the map once, ordered by their places, and the plain values of the map. -/
theorem C78_prints {out : Output} (h : run width ovf shuffle .validate text = some out) :
    ∃ a s t es ds, parseDocument ovf text = .ok a s ∧ map a.asts = some (t, es) ∧ out.simple = mapSimple t ∧
      Sorted ((s.errors ++ es).map Error.diagnostic) ds ∧ Printed width text ds out.messages := by
  obtain ⟨a, s, t, es, h1, h2, -⟩ := run_parts h
  obtain ⟨g1, -⟩ := run_of (width := width) (phases_validate (shuffle := shuffle) h1 h2) rfl
  obtain ⟨e1, ds, ws, m1, m2, c1, c2, c3, c4, c5⟩ := g1 out h
  have hw : ws = [] := List.perm_nil.1 c2.perm
  subst hw
  have hm2 : m2 = [] := List.map_eq_nil_iff.1 c5
  subst hm2
  refine ⟨a, s, t, es, ds, h1, h2, e1, by rw [List.map_map] at c1; exact c1, ?_⟩
  rw [c3, List.append_nil]
  exact c4

/-- C78: exactly when `validate` panics: the parser panics (C60), or a diagnostic of the tokenizer, of the parser
or of the map cannot be shown.  There is always a map if the parser does not panic. -/
theorem C78_panics_iff (width : Str → Nat) (ovf : Bool) (shuffle : MapTable → MapTable) (text : Str) :
    run width ovf shuffle .validate text = none ↔
      parseDocument ovf text = .panic ∨
      ∃ a s t es, parseDocument ovf text = .ok a s ∧ map a.asts = some (t, es) ∧
        ∃ e ∈ s.errors ++ es, ¬ CanShow text e.diagnostic := by
  cases hp : parseDocument ovf text with
  | panic => simp [run, phases, hp]
  | timeout => exact absurd hp (C58_terminates _ _)
  | ok a s =>
    obtain ⟨t, es, hm, -⟩ := C47_map hp
    rw [run_panics (phases_validate hp hm) rfl]
    constructor
    · rintro ⟨x, hx, hd⟩
      rw [List.append_nil] at hx
      obtain ⟨e, he, rfl⟩ := List.mem_map.1 hx
      exact .inr ⟨a, s, t, es, rfl, hm, e, he, hd⟩
    · rintro (h | ⟨a', s', t', es', h1, h2, e, he, hd⟩)
      · cases h
      · cases h1
        rw [hm] at h2
        cases h2
        exact ⟨.toml e, by rw [List.append_nil]; exact List.mem_map_of_mem he, hd⟩

/-- A diagnostic whose span begins or ends inside of a character of its only line, or behind it, cannot be
shown. -/
theorem display_none (width : Str → Nat) {d : Diag.Diagnostic} {line : Str} {rest : List Str} {a b : Nat}
    (hs : d.span = ⟨⟨0, a⟩, ⟨0, b⟩⟩) (hh : d.hint = none) (hl : d.contextLines = [])
    (h : slice line a b = none) : Diag.display width d (line :: rest) = none := by
  have e : Diag.displayBody width d.annotation d.severity ⟨⟨0, a⟩, ⟨0, b⟩⟩ (line :: rest) = none := by
    simp only [Diag.displayBody, Diag.bodyLoop, subU, h]
    cases sliceTo a line <;> simp [Diag.bodyLoop, h]
  rw [Diag.display]
  simp only [hs, hh, hl, e, Diag.hintBefore, Diag.displayContextLines]
  cases Diag.displayHeader d (line :: rest) <;> simp

/-- The parser makes the error `e`. -/
def makesError (ovf : Bool) (text : Str) (e : Error) : Bool :=
  match parseDocument ovf text with
  | .ok _ s => s.errors.any (fun x => decide (x = e))
  | _ => false

theorem run_error {e : Error} (h : makesError ovf text e = true)
    (hd : Diag.display width e.diagnostic (Diag.lines text) = none) :
    run width ovf shuffle .validate text = none := by
  unfold makesError at h
  cases hp : parseDocument ovf text with
  | ok a s =>
    rw [hp] at h
    obtain ⟨t, es, hm, -⟩ := C47_map hp
    obtain ⟨x, hx, rfl⟩ : ∃ x ∈ s.errors, x = e := by simpa using h
    refine run_none (phases_validate hp hm) rfl (x := .toml x) ?_ hd
    exact List.mem_map_of_mem (List.mem_append_left _ hx)
  | panic => rw [hp] at h; cases h
  | timeout => rw [hp] at h; cases h

/-- C78 is false in general: `validate` panics on a header that is split by a multi-line string, on an
unterminated string before a Windows line break, and on a control character behind a character that is not
ASCII in a comment. -/
theorem C78_counterexample (width : Str → Nat) (shuffle : MapTable → MapTable) :
    run width true shuffle .validate "   [\"\"\"\n\"\"\"]\n".toList = none ∧
    run width true shuffle .validate "\"a\r\n".toList = none ∧
    run width true shuffle .validate "#ä\x01".toList = none := by
  refine ⟨?_, ?_, ?_⟩
  · have h := C60_counterexample true
    unfold run phases
    cases hp : parseDocument true "   [\"\"\"\n\"\"\"]\n".toList with
    | panic => rfl
    | ok a s => rw [hp] at h; cases h
    | timeout => rfl
  · refine run_error (e := .invalidStringChar '\r' ⟨⟨0, 2⟩, ⟨0, 3⟩⟩) (by decide +kernel) ?_
    exact display_none width rfl rfl rfl (line := "\"a".toList) (by decide)
  · refine run_error (e := .invalidCommentChar '\x01' ⟨⟨0, 1⟩, ⟨0, 2⟩⟩) (by decide +kernel) ?_
    exact display_none width rfl rfl rfl (line := "#ä\x01".toList) (by decide)

/-! ## C79 -/

/-- `shuffle` gives the entries of each table of the map of the text in some order. -/
def Shuffles (ovf : Bool) (text : Str) (shuffle : MapTable → MapTable) : Prop :=
  ∀ a s t es, parseDocument ovf text = .ok a s → map a.asts = some (t, es) →
    Reordered (.table t) (.table (shuffle t))

/-- C79, the part that holds: `check` prints each diagnostic of the tokenizer, of the parser, of the map and
of the check once: the errors ordered by their places, then the warnings ordered by their places.

Besides the restrictions of C78, the version requirements have to be strings on one line without escape
sequences, and without the numbers of C20 if the build has overflow checks.

Missing: the program panics for some other texts, see `C79_counterexample` and `C74_counterexample`. -/
theorem C79_check_partial {T : Tokens} {le : List Error} (hl : lex text = some (T, le)) (hcr : '\r' ∉ text)
    (hc : CommentsOk text) (hs : ¬ SplitPair T.tokens) (hsh : Shuffles ovf text shuffle)
    (hv : ∀ root, MapOfText ovf text root →
      (ovf = false ∨ ¬ ReadsTrap root) ∧ ∀ v, VersionStr root v → PlainStr v)
    (width : Str → Nat) :
    ∃ a s t es ms out ds ws m1 m2, parseDocument ovf text = .ok a s ∧ map a.asts = some (t, es) ∧
      ExactlyOnce ms (Message false (shuffle t)) ∧
      run width ovf shuffle .check text = some out ∧ out.simple = mapSimple t ∧
      Sorted (s.errors.map Error.diagnostic ++ es.map Error.diagnostic ++
        (checkErrors ms).map Ide.Msg.diagnostic) ds ∧
      Sorted ((checkWarnings ms).map Ide.Msg.diagnostic) ws ∧
      out.messages = m1 ++ m2 ∧ Printed width text ds m1 ∧ Printed width text ws m2 := by
  obtain ⟨a, s, t, es, h, hm, hok⟩ := parse_map hl hs ovf
  have hp := placed hl hs h
  have hr := hsh a s t es h hm
  have hmap : MapOfText ovf text (shuffle t) := ⟨a, s, t, es, h, hm, hr⟩
  obtain ⟨hv1, hv2⟩ := hv _ hmap
  obtain ⟨deps, ms, hck⟩ := C74_no_panic_reads hmap hv1
  have hms := (C49_check hmap hck).2
  have h6 := Ide.nodeOk_reordered hok hr
  have hat := mapAt_of (C68_tree_in_text hl h) h6
  obtain ⟨g1, g2⟩ := run_of (width := width) (phases_check (shuffle := shuffle) h hm hck) rfl
  have hmsg : ∀ m ∈ ms, DiagIn text m.diagnostic := fun m hm => by
    obtain ⟨r, hr⟩ := (hms.mem m).1 hm
    exact message_diag hp h6 hat hv2 hr
  obtain ⟨out, ho⟩ := g2 (by
    simp only [List.mem_map, List.mem_append]
    rintro x ((⟨e, he | he, rfl⟩ | ⟨m, hm, rfl⟩) | ⟨m, hm, rfl⟩)
    · exact (parse_diag hl hc h e he).display hcr width
    · exact (map_diag hp hm e he).display hcr width
    · exact (hmsg m (List.mem_filter.1 hm).1).display hcr width
    · exact (hmsg m (List.mem_filter.1 hm).1).display hcr width)
  obtain ⟨e1, ds, ws, m1, m2, c1, c2, c3, c4, c5⟩ := g1 out ho
  refine ⟨a, s, t, es, ms, out, ds, ws, m1, m2, h, hm, hms, ho, e1, ?_, ?_, c3, c4, c5⟩
  · simpa [List.map_append, List.map_map, Function.comp_def, Shown.diagnostic] using c1
  · simpa [List.map_map, Function.comp_def, Shown.diagnostic] using c2

/-- C79: each diagnostic is printed with its severity: those of the tokenizer, the parser and the map and the errors of the check as errors, and the
warnings of the check as warnings. -/
theorem C79_severity (ms : List Ide.Msg) : (∀ e : Error, e.diagnostic.severity = .error) ∧
    (∀ d ∈ (checkErrors ms).map Ide.Msg.diagnostic, d.severity = .error) ∧
    ∀ d ∈ (checkWarnings ms).map Ide.Msg.diagnostic, d.severity = .warning := by
  refine ⟨fun e => by cases e <;> rfl, fun d hd => ?_, fun d hd => ?_⟩
  · obtain ⟨m, hm, rfl⟩ := List.mem_map.1 hd
    have := (List.mem_filter.1 hm).2
    cases m with
    | error => rfl
    | semver => rfl
    | warning => cases this
  · obtain ⟨m, hm, rfl⟩ := List.mem_map.1 hd
    have := (List.mem_filter.1 hm).2
    cases m with
    | error => cases this
    | semver => cases this
    | warning => rfl

/-- The strings of a map of such a text are plain, and parts of the text. -/
theorem version_plain (hb : '\\' ∉ text) (ht : NoTripleQuotes text) {root : MapTable} (h : MapOfText ovf text root)
    {v : StringVal} (hv : VersionStr root v) : PlainStr v ∧ v.text <:+: text := by
  obtain ⟨T, le, a, s, -, -, -, hat⟩ := mapOfText_ok h
  obtain ⟨x, o, t, d, z, h1, h2, h3, h4, h5, h6, hpl, -⟩ := version_in hat hv
  have hl : '\\' ∉ v.lit := fun hh => hb (by
    rw [h2] at hh
    rw [h1]
    exact List.mem_append_left _ (List.mem_append_right _ hh))
  have hm := opening_triple h4 ht (x := x) (r := t ++ d ++ z) (by rw [h1]; simp)
  refine ⟨⟨hm, hl⟩, x ++ o, d ++ z, ?_⟩
  rw [(hpl hm).2 fun hh => hl (by rw [h2]; simp [hh]), h1]
  simp

theorem versions_plain (hb : '\\' ∉ text) (ht : NoTripleQuotes text)
    (ho : ovf = false ∨ ¬ Spec.Semver.OverflowTrap text) {root : MapTable} (hr : MapOfText ovf text root) :
    (ovf = false ∨ ¬ ReadsTrap root) ∧ ∀ v, VersionStr root v → PlainStr v := by
  refine ⟨?_, fun v hv => (version_plain hb ht hr hv).1⟩
  rcases ho with ho | ho
  · exact .inl ho
  · refine .inr (reads_noTrap (root := root) fun loc path kind target name e hd => ⟨fun s hs hh => ?_, fun t a hn hi hh => ?_⟩)
    · exact ho (Semver.OverflowTrap.mono hh (version_plain hb ht hr (.entry hd hs)).2)
    · exact ho (Semver.OverflowTrap.mono hh (version_plain hb ht hr (.key hd hn hi rfl)).2)

/-- C79, in terms of the text only: `check` does not panic for a text without carriage returns,
backslashes, three quotes in a row and control characters but line feeds and tabs, and without the numbers
of C20 if the build has overflow checks. -/
theorem C79_text_partial (hcr : '\r' ∉ text) (hb : '\\' ∉ text) (hc : CommentsOk text) (ht : NoTripleQuotes text)
    (ho : ovf = false ∨ ¬ Spec.Semver.OverflowTrap text) (hsh : Shuffles ovf text shuffle) (width : Str → Nat) :
    ∃ out, run width ovf shuffle .check text = some out := by
  obtain ⟨T, le, vs, hl, -⟩ := lex_post text
  obtain ⟨a, s, t, es, ms, out, ds, ws, m1, m2, -, -, -, h, -⟩ :=
    C79_check_partial hl hcr hc (no_split_text ht hl) hsh (fun root hr => versions_plain hb ht ho hr) width
  exact ⟨out, h⟩

theorem check_of_run {a : Asts} {s : PS} {t : MapTable} {es : List Error} {out : Output}
    (h1 : parseDocument ovf text = .ok a s) (h2 : map a.asts = some (t, es))
    (h : run width ovf shuffle .check text = some out) : ∃ ds ms, Ide.check ovf (shuffle t) = some (ds, ms) := by
  unfold run at h
  cases hc : Ide.check ovf (shuffle t) with
  | some x => exact ⟨x.1, x.2, rfl⟩
  | none => simp [phases, h1, h2, hc] at h

/-- Reading such a number does not depend on the order of the tables. -/
theorem readsTrap_orders {root root' : MapTable} (h : MapOfText ovf text root) (h' : MapOfText ovf text root') :
    ReadsTrap root ↔ ReadsTrap root' := by
  obtain ⟨a, s, t, es, p, hm, hr⟩ := h
  obtain ⟨a', s', t', es', p', hm', hr'⟩ := h'
  rw [p] at p'
  cases p'
  rw [hm] at hm'
  cases hm'
  have hok := map_of_text_ok p hm
  rw [← Ide.readsTrap_reordered hok hr, ← Ide.readsTrap_reordered hok hr']

/-- C79: for each text and build, `check` prints no diagnostic exactly if the text is a TOML document without
contradictions, there is nothing to say about its dependencies, and, if the build has overflow checks, none of the
version requirements that are read has a number of C20. -/
theorem C79_clean (width : Str → Nat) (hsh : Shuffles ovf text shuffle) :
    (∃ simple, run width ovf shuffle .check text = some ⟨simple, []⟩) ↔
      ∃ vs items root, Tokenized [] text vs ∧ Doc false vs items ∧ Consistent (docDefs items) ∧
        MapOfText ovf text root ∧ (∀ r m, ¬ Message false root r m) ∧
          (ovf = false ∨ ¬ ReadsTrap root) := by
  constructor
  · rintro ⟨simple, h⟩
    obtain ⟨a, s, t, es, h1, h2, -⟩ := run_parts h
    have hmap : MapOfText ovf text (shuffle t) := ⟨a, s, t, es, h1, h2, hsh a s t es h1 h2⟩
    obtain ⟨deps, ms, hck⟩ := check_of_run h1 h2 h
    obtain ⟨g1, -⟩ := run_of (width := width) (phases_check (shuffle := shuffle) h1 h2 hck) rfl
    obtain ⟨-, ds, ws, m1, m2, c1, c2, c3, c4, c5⟩ := g1 _ h
    obtain ⟨rfl, rfl⟩ := List.append_eq_nil_iff.1 c3.symm
    obtain rfl := printed_nil.1 c4
    obtain rfl := printed_nil.1 c5
    have e1 := List.nil_perm.1 c1.perm
    have e2 := List.nil_perm.1 c2.perm
    simp only [List.map_eq_nil_iff, List.append_eq_nil_iff] at e1 e2
    obtain ⟨⟨he1, rfl⟩, he3⟩ := e1
    obtain ⟨vs, items, k1, k2⟩ := (C71_grammar ovf text).1 ⟨a, s, h1, he1⟩
    obtain ⟨a', s', t', es', k3, -, k4, k5⟩ := C46_text k1 k2 ovf
    rw [h1] at k3
    cases k3
    rw [h2] at k4
    cases k4
    refine ⟨vs, items, shuffle t, k1, k2, k5.1 rfl, hmap, fun r m hm => ?_, ?_⟩
    · have hm' := ((C49_check hmap hck).2.mem m).2 ⟨r, hm⟩
      have : m ∈ checkWarnings ms ∨ m ∈ checkErrors ms := by
        cases m <;> simp [checkWarnings, checkErrors, hm']
      rw [e2, he3] at this
      simp at this
    · cases ovf with
      | false => exact .inl rfl
      | true =>
        refine .inr fun ht => ?_
        rw [(C74_panics_iff hmap true).2 ⟨rfl, ht⟩] at hck
        cases hck
  · rintro ⟨vs, items, root, k1, k2, k3, hroot, hno, htrap⟩
    obtain ⟨a, s, t, h1, h2, h3, -⟩ := C45_text k1 k2 k3 ovf
    have hmap : MapOfText ovf text (shuffle t) := ⟨a, s, t, _, h1, h3, hsh a s t _ h1 h3⟩
    obtain ⟨deps, ms, hck⟩ := C74_no_panic_reads hmap (htrap.imp id fun h h' => h ((readsTrap_orders hmap hroot).1 h'))
    obtain ⟨deps', ms', hck'⟩ := C74_no_panic_reads hroot htrap
    have hms : ms = [] := by
      have hp := C50_messages hmap hroot hck hck'
      have : ms' = [] := List.eq_nil_iff_forall_not_mem.2 fun m hm => by
        obtain ⟨r, hr⟩ := ((C49_check hroot hck').2.mem m).1 hm
        exact hno r m hr
      subst this
      exact List.perm_nil.1 hp
    subst hms
    have hp := phases_check (shuffle := shuffle) h1 h3 hck
    rw [h2] at hp
    obtain ⟨g1, g2⟩ := run_of (width := width) hp rfl
    obtain ⟨out, ho⟩ := g2 (by simp [checkErrors, checkWarnings])
    obtain ⟨-, ds, ws, m1, m2, c1, c2, c3, c4, c5⟩ := g1 _ ho
    obtain rfl := List.perm_nil.1 c1.perm
    obtain rfl := List.perm_nil.1 c2.perm
    obtain rfl := List.map_eq_nil_iff.1 c4
    obtain rfl := List.map_eq_nil_iff.1 c5
    obtain ⟨simple, msgs⟩ := out
    obtain rfl : msgs = [] := c3
    exact ⟨simple, ho⟩

/-- The messages of the check of a text. -/
def textMessages (ovf : Bool) (text : Str) : Option (List Ide.Msg) :=
  match parseDocument ovf text with
  | .ok a _ =>
    match map a.asts with
    | some (t, _) => (Ide.check ovf t : Option (List Ide.Dependency × List Ide.Msg)).map Prod.snd
    | none => none
  | _ => none

theorem once_mem {R A : Type} {as : List A} {P : R → A → Prop} (h : ExactlyOnce as P) {a : A} :
    a ∈ as ↔ ∃ r, P r a := by
  obtain ⟨l, rfl, -, h⟩ := h
  constructor
  · intro ha
    obtain ⟨⟨r, b⟩, hb, rfl⟩ := List.mem_map.1 ha
    exact ⟨r, (h _ _).1 hb⟩
  · rintro ⟨r, hr⟩
    exact List.mem_map.2 ⟨(r, a), (h _ _).2 hr, rfl⟩

/-- C79: for every text and order of the tables, if `check` does not panic it prints each diagnostic of the
tokenizer, of the parser, of the map and of the check once: the errors ordered by their places, then the warnings
ordered by their places. -/
theorem C79_prints (hsh : Shuffles ovf text shuffle) {out : Output}
    (h : run width ovf shuffle .check text = some out) :
    ∃ a s t es ms ds ws m1 m2, parseDocument ovf text = .ok a s ∧ map a.asts = some (t, es) ∧
      ExactlyOnce ms (Message false (shuffle t)) ∧ out.simple = mapSimple t ∧
      Sorted (s.errors.map Error.diagnostic ++ es.map Error.diagnostic ++
        (checkErrors ms).map Ide.Msg.diagnostic) ds ∧
      Sorted ((checkWarnings ms).map Ide.Msg.diagnostic) ws ∧
      out.messages = m1 ++ m2 ∧ Printed width text ds m1 ∧ Printed width text ws m2 := by
  obtain ⟨a, s, t, es, h1, h2, -⟩ := run_parts h
  have hmap : MapOfText ovf text (shuffle t) := ⟨a, s, t, es, h1, h2, hsh a s t es h1 h2⟩
  obtain ⟨deps, ms, hck⟩ := check_of_run h1 h2 h
  obtain ⟨g1, -⟩ := run_of (width := width) (phases_check (shuffle := shuffle) h1 h2 hck) rfl
  obtain ⟨e1, ds, ws, m1, m2, c1, c2, c3, c4, c5⟩ := g1 _ h
  refine ⟨a, s, t, es, ms, ds, ws, m1, m2, h1, h2, (C49_check hmap hck).2, e1, ?_, ?_, c3, c4, c5⟩
  · simp only [List.map_append, List.map_map] at c1
    exact c1
  · rw [List.map_map] at c2; exact c2

/-- C79: exactly when `check` panics, for every order of the tables: the parser panics (C60), or the check reads a
number of C20 and the build has overflow checks (C74), or one of the diagnostics cannot be shown. -/
theorem C79_panics_iff (width : Str → Nat) (hsh : Shuffles ovf text shuffle) :
    run width ovf shuffle .check text = none ↔
      parseDocument ovf text = .panic ∨
      ∃ a s t es, parseDocument ovf text = .ok a s ∧ map a.asts = some (t, es) ∧
        ((ovf = true ∧ ReadsTrap (shuffle t)) ∨
          (∃ e ∈ s.errors ++ es, ¬ CanShow text e.diagnostic) ∨
          ∃ r m, Message false (shuffle t) r m ∧ ¬ CanShow text (m.diagnostic)) := by
  cases hp : parseDocument ovf text with
  | panic => simp [run, phases, hp]
  | timeout => exact absurd hp (C58_terminates _ _)
  | ok a s =>
    obtain ⟨t, es, hm, -⟩ := C47_map hp
    have hmap : MapOfText ovf text (shuffle t) := ⟨a, s, t, es, hp, hm, hsh a s t es hp hm⟩
    cases hck : Ide.check ovf (shuffle t) with
    | none =>
      have ht := (C74_panics_iff hmap ovf).1 hck
      constructor
      · exact fun _ => .inr ⟨a, s, t, es, rfl, hm, .inl ht⟩
      · intro _
        simp [run, phases, hp, hm, hck]
    | some x =>
      obtain ⟨deps, ms⟩ := x
      have hms := (C49_check hmap hck).2
      have hnt : ¬ (ovf = true ∧ ReadsTrap (shuffle t)) := fun ht => by
        rw [(C74_panics_iff hmap ovf).2 ht] at hck
        cases hck
      rw [run_panics (phases_check hp hm hck) rfl]
      constructor
      · rintro ⟨x, hx, hd⟩
        refine .inr ⟨a, s, t, es, rfl, hm, .inr ?_⟩
        simp only [List.mem_append, List.mem_map] at hx
        rcases hx with (⟨e, he, rfl⟩ | ⟨m, h, rfl⟩) | ⟨m, h, rfl⟩
        · exact .inl ⟨e, by simpa using he, hd⟩
        · obtain ⟨r, hr⟩ := (once_mem hms).1 (List.mem_filter.1 h).1
          exact .inr ⟨r, m, hr, hd⟩
        · obtain ⟨r, hr⟩ := (once_mem hms).1 (List.mem_filter.1 h).1
          exact .inr ⟨r, m, hr, hd⟩
      · rintro (h | ⟨a', s', t', es', h1, h2, h3⟩)
        · cases h
        · cases h1
          rw [hm] at h2
          cases h2
          rcases h3 with h3 | ⟨e, he, hd⟩ | ⟨r, m, hr, hd⟩
          · exact absurd h3 hnt
          · exact ⟨.toml e, by simp only [List.mem_append, List.mem_map]; exact .inl (.inl ⟨e, by simpa using he, rfl⟩), hd⟩
          · have hmem := (once_mem hms).2 ⟨r, hr⟩
            refine ⟨.check m, ?_, hd⟩
            simp only [List.mem_append, List.mem_map]
            cases m with
            | warning => exact .inr ⟨_, List.mem_filter.2 ⟨hmem, rfl⟩, rfl⟩
            | error => exact .inl (.inr ⟨_, List.mem_filter.2 ⟨hmem, rfl⟩, rfl⟩)
            | semver => exact .inl (.inr ⟨_, List.mem_filter.2 ⟨hmem, rfl⟩, rfl⟩)

/-- C79 is false in general: `check` panics on a manifest with an error in a version requirement that is a
multi-line string, because the place of the error is computed as if the string was on one line.  The order
of the tables does not matter. -/
theorem C79_counterexample (width : Str → Nat)
    (hsh : Shuffles false "dependencies.a = \"\"\"1,\n2x\"\"\"".toList shuffle) :
    run width false shuffle .check "dependencies.a = \"\"\"1,\n2x\"\"\"".toList = none := by
  have h : textMessages false "dependencies.a = \"\"\"1,\n2x\"\"\"".toList =
      some [.semver (.invalidOp '\n' ⟨0, 22⟩)] := by decide +kernel
  have hd : Diag.display width (Ide.Msg.semver (.invalidOp '\n' ⟨0, 22⟩)).diagnostic
      (Diag.lines "dependencies.a = \"\"\"1,\n2x\"\"\"".toList) = none :=
    display_none width rfl rfl rfl (line := "dependencies.a = \"\"\"1,".toList) (by decide)
  generalize "dependencies.a = \"\"\"1,\n2x\"\"\"".toList = text at *
  unfold textMessages at h
  cases hp : parseDocument false text with
  | ok a s =>
    rw [hp] at h
    obtain ⟨t, es, hm, hok⟩ := C47_map hp
    simp only [hm] at h
    obtain ⟨⟨ds, ms⟩, hck, rfl⟩ := Option.map_eq_some_iff.1 h
    have hr := hsh a s t es hp hm
    have hmap : MapOfText false text (shuffle t) := ⟨a, s, t, es, hp, hm, hr⟩
    obtain ⟨ds', ms', hck'⟩ := C74_no_panic_release hmap
    have hperm := C50_messages ⟨a, s, t, es, hp, hm, Ide.reordered_refl hok⟩ hmap hck hck'
    have hmem : Ide.Msg.semver (.invalidOp '\n' ⟨0, 22⟩) ∈ ms' := hperm.subset (by simp)
    refine run_none (phases_check hp hm hck') rfl (x := .check (.semver (.invalidOp '\n' ⟨0, 22⟩))) ?_ hd
    exact List.mem_append_right _ (List.mem_map_of_mem (List.mem_filter.2 ⟨hmem, rfl⟩))
  | panic => rw [hp] at h; cases h
  | timeout => rw [hp] at h; cases h

/-! ## The premises are met -/

/-- Some text is in its own order. -/
theorem shuffles_id (ovf : Bool) (text : Str) : Shuffles ovf text id := by
  intro a s t es h hm
  exact Ide.reordered_refl (map_of_text_ok h hm)

/-- A text with a diagnostic of each phase. -/
def faulty : Str :=
  "x = 1\nx = 'y\n[dependencies]\nb = \"1.x.y\"\nc = true\nd = { version = '1', workspace = false }\n[dev_dependencies]\n".toList

/-- The premises of `C78_text_partial` and `C79_text_partial` (hence those of `C78_validate_partial` and
`C79_check_partial`) are met by this text. -/
example : '\r' ∉ faulty ∧ '\\' ∉ faulty ∧ CommentsOk faulty ∧ NoTripleQuotes faulty ∧
    ¬ Spec.Semver.OverflowTrap faulty ∧ Shuffles true faulty id := by
  refine ⟨by decide +kernel, by decide +kernel, .inr (by decide +kernel), ⟨by decide +kernel, by decide +kernel⟩, ?_,
    shuffles_id _ _⟩
  unfold Spec.Semver.OverflowTrap
  decide +kernel

/-- `check` prints five errors and two warnings for it, `validate` two errors. -/
example : (run List.length true id .check faulty).map (·.messages.length) = some 7 ∧
    (run List.length true id .validate faulty).map (·.messages.length) = some 2 := by
  decide +kernel

/-- The first message for it. -/
example : (run List.length true id .check faulty).bind (fun o => o.messages.head?) = some
    "\x1b[91merror\x1b[0m: duplicate key `x`\n    \x1b[94m-->\x1b[0m 2:0\n     \x1b[94m|\x1b[0m\n\x1b[94m   1 |\x1b[0m x = 1\n     \x1b[94m|\x1b[0m \x1b[94m- original key defined here\x1b[0m\n\x1b[94m   2 |\x1b[0m x = 'y\n     \x1b[94m|\x1b[0m \x1b[91m^ duplicate key\x1b[0m\n\n".toList := by
  decide +kernel

/-- There are texts without diagnostics: the premises of `C78_clean` and `C78_values`, and of `C79_clean`. -/
example : ∃ simple, run List.length true id .validate richToml = some ⟨simple, []⟩ := by
  refine (C78_clean List.length true id richToml).2 ?_
  obtain ⟨vs, items, h1, h2⟩ := rich_doc
  refine ⟨vs, items, h1, h2, ?_⟩
  obtain ⟨a, s, t, h3, h4, -, h5, -⟩ := rich_map
  obtain ⟨a', s', h3', -, e, -⟩ := C72_items h1 h2 true
  rw [h3] at h3'
  cases h3'
  rw [← e]
  exact (C46_reported h4 h5).1 rfl

example : (run List.length false id .check "[package]\nname = 'x'\n[dependencies]\na = { version = \">=1.2, <2\", features = ['b'] }\n".toList).map
    (fun o => o.messages) = some [] := by
  decide +kernel

/-! ## The command line arguments -/

/-- The arguments name a mode and a file: `validate` takes any file that has a name, `check` only a file named
`Cargo.toml`.  Further arguments are ignored. -/
def Accepts (fileName : Str → Option Str) (args : List Str) (mode : Mode) (path : Str) : Prop :=
  (∃ more, args = "validate".toList :: path :: more ∧ mode = .validate ∧ ∃ name, fileName path = some name) ∨
  (∃ more, args = "check".toList :: path :: more ∧ mode = .check ∧ fileName path = some "Cargo.toml".toList)

/-- C78, C79: for all arguments, the program succeeds with an output exactly if the arguments name a mode and a file,
the file can be read, and the output is the one of that mode for the contents of that file; it panics exactly if this
mode panics for the contents; and in all other cases it ends with a failure and prints nothing to standard output. -/
theorem C78_arguments (width : Str → Nat) (ovf : Bool) (shuffle : MapTable → MapTable) (fileName readFile : Str → Option Str)
    (args : List Str) :
    (∀ out, main width ovf shuffle fileName readFile args = some (.success out) ↔
      ∃ mode path text, Accepts fileName args mode path ∧ readFile path = some text ∧
        run width ovf shuffle mode text = some out) ∧
    (main width ovf shuffle fileName readFile args = none ↔
      ∃ mode path text, Accepts fileName args mode path ∧ readFile path = some text ∧
        run width ovf shuffle mode text = none) := by
  have hvc : ("check".toList : Str) ≠ "validate".toList := by decide
  have key : ∀ mode path, Accepts fileName args mode path →
      main width ovf shuffle fileName readFile args = (match readFile path with
        | none => some .failure
        | some text => (match run width ovf shuffle mode text with
          | some out => some (.success out)
          | none => none)) ∧ ∀ mode' path', Accepts fileName args mode' path' → mode' = mode ∧ path' = path := by
    rintro mode path (⟨more, rfl, rfl, name, hn⟩ | ⟨more, rfl, rfl, hn⟩)
    · refine ⟨?_, ?_⟩
      · simp only [main, if_true, hn]
        rw [if_neg (by simp)]
        cases readFile path with
        | none => rfl
        | some text => rfl
      · rintro mode' path' (⟨more', h, rfl, -⟩ | ⟨more', h, -⟩)
        · simp only [List.cons.injEq] at h; exact ⟨rfl, h.2.1.symm⟩
        · simp only [List.cons.injEq] at h; exact absurd h.1.symm hvc
    · refine ⟨?_, ?_⟩
      · simp only [main, if_neg hvc, if_true, hn]
        rw [if_neg (by simp)]
        cases readFile path with
        | none => rfl
        | some text => rfl
      · rintro mode' path' (⟨more', h, -⟩ | ⟨more', h, rfl, -⟩)
        · simp only [List.cons.injEq] at h; exact absurd h.1 hvc
        · simp only [List.cons.injEq] at h; exact ⟨rfl, h.2.1.symm⟩
  have other : (¬ ∃ mode path, Accepts fileName args mode path) →
      main width ovf shuffle fileName readFile args = some .failure := by
    intro h
    cases args with
    | nil => rfl
    | cons m rest =>
      unfold main
      simp only
      by_cases h1 : m = "validate".toList
      · subst h1
        rw [if_pos rfl]
        cases rest with
        | nil => rfl
        | cons path more =>
          simp only
          cases hn : fileName path with
          | none => rfl
          | some name => exact absurd ⟨.validate, path, .inl ⟨more, rfl, rfl, name, hn⟩⟩ h
      · rw [if_neg h1]
        by_cases h2 : m = "check".toList
        · subst h2
          rw [if_pos rfl]
          cases rest with
          | nil => rfl
          | cons path more =>
            simp only
            cases hn : fileName path with
            | none => rfl
            | some name =>
              simp only
              by_cases h3 : name = "Cargo.toml".toList
              · subst h3; exact absurd ⟨.check, path, .inr ⟨more, rfl, rfl, hn⟩⟩ h
              · rw [if_pos ⟨trivial, h3⟩]
        · rw [if_neg h2]
  by_cases ha : ∃ mode path, Accepts fileName args mode path
  · obtain ⟨mode, path, ha⟩ := ha
    obtain ⟨hm, hu⟩ := key mode path ha
    rw [hm]
    refine ⟨fun out => ⟨fun h => ?_, ?_⟩, ⟨fun h => ?_, ?_⟩⟩
    · cases hr : readFile path with
      | none => rw [hr] at h; cases h
      | some text =>
        rw [hr] at h
        simp only at h
        cases hx : run width ovf shuffle mode text with
        | none => rw [hx] at h; cases h
        | some o => rw [hx] at h; cases h; exact ⟨mode, path, text, ha, hr, hx⟩
    · rintro ⟨mode', path', text, ha', hr, hx⟩
      obtain ⟨rfl, rfl⟩ := hu _ _ ha'
      simp only [hr, hx]
    · cases hr : readFile path with
      | none => rw [hr] at h; cases h
      | some text =>
        rw [hr] at h
        simp only at h
        cases hx : run width ovf shuffle mode text with
        | none => exact ⟨mode, path, text, ha, hr, hx⟩
        | some o => rw [hx] at h; cases h
    · rintro ⟨mode', path', text, ha', hr, hx⟩
      obtain ⟨rfl, rfl⟩ := hu _ _ ha'
      simp only [hr, hx]
  · rw [other ha]
    refine ⟨fun out => ⟨fun h => (by cases h), fun ⟨m, p, _, h, _⟩ => absurd ⟨m, p, h⟩ ha⟩,
      ⟨fun h => (by cases h), fun ⟨m, p, _, h, _⟩ => absurd ⟨m, p, h⟩ ha⟩⟩

example : Accepts (fun _ => some "x.toml".toList) ["validate".toList, "d/x.toml".toList] .validate "d/x.toml".toList :=
  .inl ⟨[], rfl, rfl, _, rfl⟩

end Verif.Props
