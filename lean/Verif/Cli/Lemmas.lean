import Verif.Spec.Cli
import Verif.Toml.ReprSpans
import Verif.Props.Common
import Verif.Props.Places
import Verif.Props.Map
import Verif.Props.Parse
import Verif.Props.Check
import Verif.Props.SemverParse

/-! # The diagnostics of the command line can be shown -/

namespace Verif.Cli
open Verif Verif.Toml Verif.TomlMap Verif.Props Verif.Spec.Cli
open Verif.Spec (LinesOf Showable)
open Verif.Spec.Toml hiding Entry KeyOk

variable {text : Str} {ovf : Bool}

/-- All places of a diagnostic are in the text. -/
structure DiagIn (text : Str) (d : Diag.Diagnostic) : Prop where
  span : SpanIn text d.span
  hint : ∀ h, d.hint = some h → SpanIn text h.span
  lines : ∀ l ∈ d.contextLines, l ≤ text.count '\n'

theorem DiagIn.display {d : Diag.Diagnostic} (h : DiagIn text d) (hcr : '\r' ∉ text) (width : Str → Nat) :
    ∃ out, Diag.display width d (Diag.lines text) = some out := by
  obtain ⟨h1, h2, h3⟩ := spanIn_showable hcr h.span
  exact C65_no_panic width h1 h2 h3 (fun x hx => spanIn_showable hcr (h.hint x hx)) h.lines

theorem lexErr_plain {e : Error} (h : LexErr e) : e.hint = none ∧ e.contextLines = [] := by
  cases e <;> first | exact h.elim | exact ⟨rfl, rfl⟩

theorem lex_diag {T : Tokens} {es : List Error} (hl : lex text = some (T, es)) (hc : CommentsOk text) :
    ∀ e ∈ es, DiagIn text e.diagnostic := by
  intro e he
  have hp : ∀ {e}, LexErr e → SpanIn text e.span → DiagIn text e.diagnostic := fun hk hs =>
    ⟨hs, fun h hh => by rw [Error.diagnostic] at hh; simp [(lexErr_plain hk).1] at hh,
      fun l hh => by rw [Error.diagnostic] at hh; simp [(lexErr_plain hk).2] at hh⟩
  rcases lex_located hl e he with h1 | ⟨c, x, d, z, h1, -, h3, h4, h5, h6, -⟩
  · exact hp (told_span h1).2 (told_span h1).1
  · have hk : LexErr e := by rw [h1]; trivial
    refine hp hk ?_
    rcases hc with hc | hc
    · exact C63_ascii hl hc e he
    · exact absurd (hc c (by rw [h3]; simp) h4) (by simp [h5, h6])

theorem loc_diag {E : Env} {toks : List Token} {e : Error} (hE : E.input = text) (h : Loc E toks e) : DiagIn text e.diagnostic := by
  subst hE
  refine ⟨h.span, fun x hx => ?_, fun l hl => ?_⟩
  · have := h.extra
    cases e <;> simp [Error.diagnostic, Error.hint] at hx <;> subst hx <;>
      first
      | exact CharAt.spanIn this (by decide) (by decide)
      | exact this.elim
  · have := h.extra
    cases e <;> simp [Error.diagnostic, Error.contextLines] at hl <;> exact this.elim

theorem parse_diag {T : Tokens} {es : List Error} (hl : lex text = some (T, es)) (hc : CommentsOk text)
    {a : Asts} {s : PS} (h : parseDocument ovf text = .ok a s) : ∀ e ∈ s.errors, DiagIn text e.diagnostic := by
  obtain ⟨T', es', vs, h1, -, h2⟩ := parse_post ovf text
  rw [hl] at h1
  cases h1
  rw [h] at h2
  obtain ⟨new, n1, n2⟩ := h2.2.2.1
  intro e he
  rw [n1, List.mem_append] at he
  rcases he with he | he
  · exact lex_diag hl hc e he
  · exact loc_diag rfl (n2 e he)

theorem placed {T : Tokens} {es : List Error} (hl : lex text = some (T, es)) (hs : ¬ SplitPair T.tokens)
    {a : Asts} {s : PS} (h : parseDocument ovf text = .ok a s) : Placed text a.asts :=
  ⟨(Tree.parse_tree h).2, (C76_order hl h).2 hs⟩

theorem map_diag {asts : List Ast} (hp : Placed text asts) {t : MapTable} {es : List Error}
    (hm : map asts = some (t, es)) : ∀ e ∈ es, DiagIn text e.diagnostic := by
  intro e he
  obtain ⟨t', es', hm', hok⟩ := map_ok asts hp.ok
  rw [hm] at hm'
  cases hm'
  obtain ⟨loc, k, path, en, o, r, h1, h2, h3, h4, h5⟩ := C73_tree hp.ok hm e he
  obtain ⟨p1, -, p3⟩ := map_parts hok h1
  have ho := p3 o h2
  have hr : PartRepr asts r := ⟨parent_part h4 fun rs hrs => p1.around hrs, k, h3⟩
  cases h5
  case duplicateKey ls i j c1 c2 c3 c4 =>
    exact ⟨hp.ident hr c3, fun x hx => by cases hx; exact hp.ident ho c2, hp.lines p1 c1⟩
  all_goals
    rename_i c1 c2 c3 _ _ _
    exact ⟨hp.ident hr ‹r.key.reprIdent = some _›, fun x hx => by cases hx; exact hp.kind ho ‹o.kind.span = some _›, hp.lines p1 ‹ContextLines _ _ _›⟩

/-! ## The messages of the check -/

section
open Verif.Spec.Check hiding Section SectionKey

variable {asts : List Ast} {root : MapTable}

/-- A path that leads to a table of the map, whose entries are then at `loc ++ [.key k]`. -/
def Leads (root : MapTable) (path : List Seg) (t : MapTable) : Prop :=
  ∀ k e, TomlMap.get t k = some e → ∃ loc, pathTo (.table root) [] loc = some (path, e)

theorem leads_root : Leads root [] root := fun k e h => ⟨[.key k], by simp [pathTo, h]⟩

theorem Leads.child {path : List Seg} {t t' : MapTable} (h : Leads root path t) {k : Str} {e : TomlMap.Entry}
    (hk : TomlMap.get t k = some e) (hn : e.node = .table t') : Leads root (.table e.reprs :: path) t' := by
  intro k' e' h'
  obtain ⟨loc, hl⟩ := h k e hk
  exact ⟨_, pathTo_child loc _ _ _ _ hl t' k' e' hn h'⟩

theorem owner_leads {loc : Loc} {path : List Seg} {x : Option Str} {t : MapTable} (h : Owner root loc path x t) :
    Leads root path t := by
  cases h with
  | root => exact leads_root
  | target h1 h2 h3 h4 => exact (leads_root.child h1 h2).child h3 h4

theorem error_diag (hp : Placed text asts) (hm : MapOk asts root) {path : List Seg} {t : MapTable}
    (hl : Leads root path t) {k : Str} {e : TomlMap.Entry} (hk : TomlMap.get t k = some e) {r : Repr} (hr : r ∈ e.reprs)
    {shown : Loc} {kind : Ide.ErrorKind} {m : Ide.Msg} (h : ErrorAt path r shown kind m) :
    DiagIn text m.diagnostic := by
  obtain ⟨loc, hl⟩ := hl k e hk
  obtain ⟨p1, -, p3⟩ := map_parts hm hl
  obtain ⟨ls, s, c1, c2, rfl⟩ := h
  exact ⟨hp.repr (p3 r hr) c2, fun x hx => (by cases hx), hp.lines p1 c1⟩

theorem warning_diag (hp : Placed text asts) (hm : MapOk asts root) {path : List Seg} {t : MapTable}
    (hl : Leads root path t) {k : Str} {e : TomlMap.Entry} (hk : TomlMap.get t k = some e) {r : Repr} (hr : r ∈ e.reprs)
    {shown : Loc} {kind : Ide.WarningKind} {m : Ide.Msg} (h : WarningAt path r shown kind m)
    (hh : ∀ x, kind.hint = some x → SpanIn text x.span) :
    DiagIn text m.diagnostic := by
  obtain ⟨loc, hl⟩ := hl k e hk
  obtain ⟨p1, -, p3⟩ := map_parts hm hl
  obtain ⟨ls, s, c1, c2, rfl⟩ := h
  exact ⟨hp.repr (p3 r hr) c2, hh, hp.lines p1 c1⟩

theorem reprs_in (hm : MapOk asts root) {path : List Seg} {t : MapTable}
    (hl : Leads root path t) {k : Str} {e : TomlMap.Entry} (hk : TomlMap.get t k = some e) {r : Repr} (hr : r ∈ e.reprs) :
    PartRepr asts r := by
  obtain ⟨loc, hl⟩ := hl k e hk
  exact (map_parts hm hl).2.2 r hr

theorem underscore_hint (hp : Placed text asts) (hm : MapOk asts root) {path : List Seg} {t : MapTable}
    (hl : Leads root path t) {old new : String} {kind : Ide.WarningKind} (h : Underscore t old new kind) :
    ∀ x, kind.hint = some x → SpanIn text x.span := by
  intro x hx
  cases h with
  | deprecated h => cases hx
  | redundant h1 h2 h3 =>
    cases hx
    exact hp.kind (reprs_in hm hl h1 (List.mem_of_mem_head? h2)) h3

/-- All strings in the place of versions are in the text. -/
theorem owner_at {one : Prop} {n : Nat} (hat : NodeAt one text n (.table root)) {loc : Loc} {path : List Seg}
    {x : Option Str} {t : MapTable} (h : Owner root loc path x t) : NodeAt one text n (.table t) := by
  cases h with
  | root => exact hat
  | target h1 h2 h3 h4 =>
    have g1 := (hat.get h1).2
    rw [h2] at g1
    have g2 := (g1.get h3).2
    rw [h4] at g2
    exact g2

theorem dep_at {one : Prop} {n : Nat} (hat : NodeAt one text n (.table root)) {loc : Loc} {path : List Seg}
    {kind : Ide.DependencyKind} {target : Option Str} {name : Str} {e : TomlMap.Entry}
    (h : DepEntry root loc path kind target name e) : NodeAt one text n e.node := by
  cases h with
  | mk h1 h2 h3 =>
    cases h1 with
    | mk g1 g2 g3 =>
      have := ((owner_at hat g1).get g3).2
      rw [h2] at this
      exact (this.get h3).2

theorem version_in {one : Prop} {n : Nat} (hat : NodeAt one text n (.table root)) {v : StringVal}
    (h : VersionStr root v) : StringIn text v := by
  cases h with
  | entry h1 h2 =>
    have := dep_at hat h1
    rw [h2] at this
    exact this.string
  | key h1 h2 h3 h4 =>
    subst h4
    have := dep_at hat h1
    rw [h2] at this
    obtain ⟨e, g1, g2, -⟩ := h3
    have := (this.get g1).2
    rw [g2] at this
    exact this.string

theorem opening_single {q : Quote} {o : Str} (h : Opening q o) (hm : isMulti q = false) : o = [quoteChar q] := by
  cases h with
  | single _ => rfl
  | multi h => rw [hm] at h; cases h
  | multiLf h => rw [hm] at h; cases h
  | multiCrlf h => rw [hm] at h; cases h

theorem semver_diag {v : StringVal} (h : StringIn text v) (hp : PlainStr v) {er : Semver.Error}
    (he : VersionError false v er) : DiagIn text er.diagnostic := by
  refine ⟨?_, fun x hx => (by cases hx), fun l hl => (by cases hl)⟩
  obtain ⟨x, o, t, d, z, rfl, h2, h3, h4, h5, h6, hpl, ts, h7, -, h8, -⟩ := h
  obtain ⟨hm, hbs⟩ := hp
  have htx : v.text = t := (hpl hm).2 fun hh => hbs (by rw [h2]; simp [hh])
  have ho := opening_single h4 hm
  subst ho
  have hs : ts.start = posOf (x ++ [quoteChar v.quote]) := h8 (by simpa using Ne.symm (quoteChar_ne_nl v.quote))
  obtain ⟨s, e1, e2⟩ := he
  have e1' : s = ts := by
    unfold Ide.textSpan at e1
    rw [h7] at e1
    exact (Option.some.inj e1).symm
  subst e1'
  obtain ⟨a, b, c, e3, e4, -⟩ := C22_requirement_error_spans false _ _ _ e2
  have hn : '\n' ∉ v.lit := h6 hm
  rw [h2, ← htx, e3] at hn
  rw [← htx, e3]
  simp only [List.mem_append, List.mem_cons, not_or, List.not_mem_nil, or_false] at hn
  refine ⟨x ++ [quoteChar v.quote] ++ a, b, c ++ d ++ z, by simp, ?_⟩
  show er.span = _
  have k1 := posOf_plus (x := x ++ [quoteChar v.quote]) (y := a) hn.1.2.1.1
  have k2 := posOf_plus (x := x ++ [quoteChar v.quote]) (y := a ++ b) (by simpa using hn.1.2.1)
  rw [e4, hs, ← blen_append, ← k1, ← k2, List.append_assoc (x ++ [quoteChar v.quote]) a b]

theorem key_diag (hp : Placed text asts) (hm : MapOk asts root) {path : List Seg} {t : MapTable}
    (hl : Leads root path t) {loc : Loc} {r : Reason} {m : Ide.Msg} (h : KeyMessage loc path t r m) :
    DiagIn text m.diagnostic := by
  cases h with
  | unknown h1 h2 h3 h4 =>
    exact warning_diag hp hm hl h1 (List.mem_of_getElem? h3) h4 fun x hx => (by cases hx)
  | type h1 h2 h3 h4 h5 => exact error_diag hp hm hl h2 (List.mem_of_getElem? h4) h5
  | deprecated h1 h2 h3 h4 =>
    exact warning_diag hp hm hl h1 (List.mem_of_getElem? h3) h4 (underscore_hint hp hm hl h2)
  | features h1 h2 h3 h4 => exact error_diag hp hm hl h1 (List.mem_of_getElem? h3) h4
  | @feature e n a es i x found ls h1 h2 h3 h4 h5 =>
    obtain ⟨loc', hl'⟩ := hl _ e h1
    obtain ⟨p1, ⟨k, -, -, p4, p5⟩, p3⟩ := map_parts hm hl'
    rw [h2] at p4 p5
    obtain ⟨r, hr, -, v, hv, hf⟩ := p5
    have hrp := p3 r (by rw [hr]; simp)
    generalize hg : some e.reprs = ar at p4
    cases p4 with
    | inline q1 q2 q3 q4 =>
      cases hf with
      | inline f1 f2 =>
        have hx := List.mem_of_getElem? h3
        refine ⟨?_, fun x hx => (by cases hx), hp.lines (path := .table e.reprs :: path) ⟨p3, p1⟩ h5⟩
        refine hp.element hrp hv (by rw [← q2]; exact List.mem_map_of_mem hx) ?_
        intro l s he
        have := q3 x hx
        rw [he] at this
        cases hn : x.node with
        | scalar sc =>
          rw [hn] at this
          cases this with
          | scalar hs =>
            cases sc <;> simp [scalarValue] at hs
            rw [hn] at h4
            cases h4.1
            exact h4.2.1 rfl
        | _ => rw [hn] at this; cases this

theorem source_diag (hp : Placed text asts) (hm : MapOk asts root) {prev : List Seg} {t t0 : MapTable}
    {k : Str} {e : TomlMap.Entry} (hl : Leads root prev t0) (hk : TomlMap.get t0 k = some e) (ht : e.node = .table t)
    {loc : Loc} (hv : ∀ b er, IsStr t "version" b → VersionError false b.val er → DiagIn text er.diagnostic)
    {r : Reason} {m : Ide.Msg} (h : SourceMessage false loc prev e t r m) : DiagIn text m.diagnostic := by
  have hl' := hl.child hk ht
  have key : ∀ {k' b kd m shown}, IsStr t k' b → ErrorAt (.table e.reprs :: prev) b.repr shown kd m →
      DiagIn text m.diagnostic := by
    intro k' b kd m shown h1 h2
    obtain ⟨e', g1, -, g3⟩ := h1
    exact error_diag hp hm hl' g1 (List.mem_of_mem_head? g3) h2
  cases h with
  | workspaceFalse h1 h2 h3 =>
    obtain ⟨e', g1, -, g3⟩ := h1
    exact error_diag hp hm hl' g1 (List.mem_of_mem_head? g3) h3
  | workspaceIgnored h1 h2 h3 h4 h5 h6 =>
    obtain ⟨e', g1, -, g3⟩ := h1
    obtain ⟨e2, f1, -, f3⟩ := h4
    refine warning_diag hp hm hl' f1 (List.mem_of_mem_head? f3) h6 fun x hx => ?_
    cases hx
    exact hp.repr (reprs_in hm hl' g1 (List.mem_of_mem_head? g3)) h5
  | withoutGit _ _ _ h4 h5 => exact key h4 h5
  | gitRegistry _ _ _ _ h4 h5 => exact key h4 h5
  | gitPath _ _ _ _ _ h4 h5 => exact key h4 h5
  | gitSpec _ _ _ _ _ _ h4 h5 => exact key h4 h5
  | version _ _ h3 h4 => exact hv _ _ h3 h4
  | missing _ _ _ _ h5 h6 =>
    exact warning_diag hp hm hl hk (List.mem_of_getElem? h5) h6 fun x hx => (by cases hx)

theorem message_diag (hp : Placed text asts) (hm : MapOk asts root) {one : Prop} {n : Nat}
    (hat : NodeAt one text n (.table root)) (hv : ∀ v, VersionStr root v → PlainStr v) {r : Reason} {m : Ide.Msg}
    (h : Message false root r m) : DiagIn text m.diagnostic := by
  cases h with
  | unknown h1 h2 h3 h4 =>
    exact warning_diag hp hm leads_root h1 (List.mem_of_getElem? h3) h4 fun x hx => (by cases hx)
  | unknownTarget h0 h1 h2 h3 h4 =>
    exact warning_diag hp hm (owner_leads h0) h1 (List.mem_of_getElem? h3) h4 fun x hx => (by cases hx)
  | targetType h1 h2 h3 h4 => exact error_diag hp hm leads_root h1 (List.mem_of_getElem? h3) h4
  | targetEntryType h1 h2 h3 h4 h5 h6 =>
    exact error_diag hp hm (leads_root.child h1 h2) h3 (List.mem_of_getElem? h5) h6
  | deprecated h1 h2 h3 h4 h5 h6 =>
    exact warning_diag hp hm (owner_leads h1) h3 (List.mem_of_getElem? h5) h6
      (underscore_hint hp hm (owner_leads h1) h4)
  | sectionType h1 h2 h3 h4 =>
    cases h1 with
    | mk g1 g2 g3 => exact error_diag hp hm (owner_leads g1) g3 (List.mem_of_getElem? h3) h4
  | entry h1 h2 =>
    have hver : ∀ v er, VersionStr root v → VersionError false v er → DiagIn text er.diagnostic :=
      fun v er hs he => semver_diag (version_in hat hs) (hv v hs) he
    have h1' := h1
    cases h1' with
    | mk g1 g2 g3 =>
      cases g1 with
      | mk f1 f2 f3 =>
        have hl := (owner_leads f1).child f3 g2
        cases h2 with
        | version c1 c2 => exact hver _ _ (.entry h1 c1) c2
        | type c1 c2 c3 => exact error_diag hp hm hl g3 (List.mem_of_getElem? c2) c3
        | key c1 c2 => exact key_diag hp hm (hl.child g3 c1) c2
        | source c1 c2 =>
          exact source_diag hp hm hl g3 c1 (fun b er hb he => hver _ _ (.key h1 c1 hb rfl) he) c2

end

/-! ## The whole program -/

theorem errors_eq (es : List Error) : ∀ d : Collected,
    errors d es = { d with errors := d.errors ++ es.map .toml } := by
  induction es with
  | nil => intro d; simp [errors]
  | cons e es ih =>
    intro d
    have : errors d (e :: es) = errors (d.error (.toml e)) es := rfl
    rw [this, ih]
    simp [Diag.Diagnostics.error]

theorem messages_eq (ms : List Ide.Msg) : ∀ d : Collected,
    ms.foldl message d = { d with
      errors := d.errors ++ (checkErrors ms).map .check
      warnings := d.warnings ++ (checkWarnings ms).map .check } := by
  induction ms with
  | nil => intro d; simp [checkErrors, checkWarnings]
  | cons m ms ih =>
    intro d
    rw [List.foldl_cons, ih]
    cases m <;> simp [message, Diag.Diagnostics.error, Diag.Diagnostics.warn, checkErrors, checkWarnings]

theorem render_eq (width : Str → Nat) : ∀ (ds : List Shown) (out : List Str),
    render width (Diag.lines text) ds = some out ↔ Printed width text (ds.map Shown.diagnostic) out := by
  intro ds
  induction ds with
  | nil =>
    intro out
    simp only [render, Printed, List.map_nil, List.map_eq_nil_iff, Option.some.injEq]
    exact eq_comm
  | cons d ds ih =>
    intro out
    unfold render Printed
    cases hd : Diag.display width d.diagnostic (Diag.lines text) with
    | none =>
      refine ⟨fun h => (by cases h), fun h => ?_⟩
      cases out with
      | nil => cases h
      | cons x out =>
        rw [List.map_cons, List.map_cons, List.map_cons, hd] at h
        cases (List.cons.inj h).1
    | some o =>
      cases hr : render width (Diag.lines text) ds with
      | none =>
        cases out with
        | nil => simp
        | cons x out =>
          simp only [reduceCtorEq, List.map_cons, hd, Option.map_some, List.cons.injEq, false_iff, not_and]
          intro _ h
          have := (ih out).2 h
          rw [hr] at this
          cases this
      | some r =>
        cases out with
        | nil => simp
        | cons x out =>
          simp only [Option.some.injEq, List.cons.injEq, List.map_cons, hd, Option.map_some]
          have := ih out
          rw [hr] at this
          simp only [Option.some.injEq] at this
          rw [this]
          exact and_congr_left fun _ => eq_comm

theorem render_total (width : Str → Nat) (ds : List Shown)
    (h : ∀ d ∈ ds, ∃ o, Diag.display width d.diagnostic (Diag.lines text) = some o) :
    ∃ out, render width (Diag.lines text) ds = some out := by
  induction ds with
  | nil => exact ⟨[], rfl⟩
  | cons d ds ih =>
    obtain ⟨o, ho⟩ := h d (by simp)
    obtain ⟨out, hr⟩ := ih fun d hd => h d (by simp [hd])
    exact ⟨_, by rw [render, ho, hr]⟩

theorem sorted_shown {ds ds' : List Shown} (h : Spec.StableSorted (fun a b => Diag.posCmp a.span.start b.span.start) ds ds') :
    Sorted (ds.map Shown.diagnostic) (ds'.map Shown.diagnostic) := by
  refine ⟨h.perm.map _, ?_, fun x => ?_⟩
  · rw [List.pairwise_map]; exact h.sorted
  · rw [List.filter_map, List.filter_map]
    have key : ∀ p : Pos, ds'.filter (fun y => Diag.posCmp p y.span.start == .eq) =
        ds.filter (fun y => Diag.posCmp p y.span.start == .eq) := by
      intro p
      by_cases hp : ∃ y ∈ ds, y.span.start = p
      · obtain ⟨y, -, rfl⟩ := hp
        exact h.stable y
      · have e : ∀ l : List Shown, (∀ y ∈ l, y.span.start ≠ p) →
            l.filter (fun y => Diag.posCmp p y.span.start == .eq) = [] := by
          intro l hl
          rw [List.filter_eq_nil_iff]
          intro y hy hc
          have := hl y hy
          refine this ?_
          simp only [beq_iff_eq] at hc
          exact (posCmp_total.eq_iff _ _ |>.1 hc).symm
        rw [e ds fun y hy hc => hp ⟨y, hy, hc⟩, e ds' fun y hy hc => hp ⟨y, h.perm.subset hy, hc⟩]
    exact congrArg _ (key x.span.start)

/-- What the last part of the program does. -/
theorem run_of {width : Str → Nat} {shuffle : MapTable → MapTable} {mode : Mode} {t : MapTable} {d : Collected}
    (h : phases ovf shuffle mode text = some (t, d)) (hi : d.infos = []) :
    (∀ out, run width ovf shuffle mode text = some out → out.simple = mapSimple t ∧
      ∃ es ws m1 m2, Sorted (d.errors.map Shown.diagnostic) es ∧ Sorted (d.warnings.map Shown.diagnostic) ws ∧
        out.messages = m1 ++ m2 ∧ Printed width text es m1 ∧ Printed width text ws m2) ∧
    ((∀ x ∈ d.errors ++ d.warnings, ∃ o, Diag.display width x.diagnostic (Diag.lines text) = some o) →
      ∃ out, run width ovf shuffle mode text = some out) := by
  obtain ⟨s1, s2, s3⟩ := C53_sort Shown.span Shown.span Shown.span d
  have hinf : (d.sort Shown.span Shown.span Shown.span).infos = [] := by
    rw [hi] at s3
    exact List.perm_nil.1 s3.perm
  constructor
  · intro out hr
    unfold run at hr
    rw [h] at hr
    simp only [hinf, render] at hr
    cases h1 : render width (Diag.lines text) (d.sort Shown.span Shown.span Shown.span).errors with
    | none => rw [h1] at hr; cases hr
    | some m1 =>
      cases h2 : render width (Diag.lines text) (d.sort Shown.span Shown.span Shown.span).warnings with
      | none => rw [h1, h2] at hr; cases hr
      | some m2 =>
        rw [h1, h2] at hr
        cases hr
        exact ⟨rfl, _, _, m1, m2, sorted_shown s1, sorted_shown s2, by simp, (render_eq _ _ _).1 h1, (render_eq _ _ _).1 h2⟩
  · intro hd
    obtain ⟨m1, h1⟩ := render_total width (d.sort Shown.span Shown.span Shown.span).errors
      fun x hx => hd x (by simp [s1.perm.subset hx])
    obtain ⟨m2, h2⟩ := render_total width (d.sort Shown.span Shown.span Shown.span).warnings
      fun x hx => hd x (by simp [s2.perm.subset hx])
    refine ⟨⟨mapSimple t, m1 ++ m2 ++ []⟩, ?_⟩
    unfold run
    rw [h]
    simp only [hinf, h1, h2, render]

end Verif.Cli
