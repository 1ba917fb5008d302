import Verif.Spec.Printable
import Verif.Cli.Lemmas

/-! # The texts of diagnostics are printable -/

namespace Verif.Cli
open Verif Verif.Toml Verif.TomlMap Verif.Props Verif.Spec.Cli
open Verif.Spec (Printable PrintableDiag ForTerminal colours)
open Verif.Spec.Toml hiding Entry KeyOk

instance (s : Str) : Decidable (Printable s) := by unfold Printable; infer_instance

theorem printable_append {a b : Str} (ha : Printable a) (hb : Printable b) : Printable (a ++ b) := by
  intro c hc
  rcases List.mem_append.1 hc with h | h
  · exact ha c h
  · exact hb c h

theorem printable_fmtStr (s : Str) : Printable (Diag.fmtStr s) := (C67_fmtStr s).1

theorem printable_fmtChar (c : Char) : Printable (Diag.fmtChar c) := by
  have := printable_fmtStr [c]
  simpa [Diag.fmtStr] using this

theorem printable_digitChar : ∀ n : Nat, n < 16 → Printable [Nat.digitChar n] := by
  have : ∀ n : Fin 16, Printable [Nat.digitChar n.1] := by decide
  exact fun n h => this ⟨n, h⟩

theorem printable_digits {b : Nat} (hb : 1 < b) (h16 : b ≤ 16) : ∀ n, Printable (Nat.toDigits b n) := by
  intro n
  induction n using Nat.strongRecOn with
  | _ n ih =>
    rw [Nat.toDigits_eq_if hb]
    split
    · exact printable_digitChar n (by omega)
    · exact printable_append (ih _ (Nat.div_lt_self (by omega) hb))
        (printable_digitChar _ (Nat.lt_of_lt_of_le (Nat.mod_lt _ (by omega)) h16))

theorem printable_decimal (n : Nat) : Printable (Spec.decimal n) := printable_digits (by omega) (by omega) n

theorem printable_replicate {n : Nat} {c : Char} (h : 0x1f < c.toNat ∧ c.toNat ≠ 0x7f) :
    Printable (List.replicate n c) := by
  intro d hd
  rw [(List.mem_replicate.1 hd).2]
  exact h

theorem printable_hex (w n : Nat) : Printable (hexPadded w n) :=
  printable_append (printable_replicate (by decide)) (printable_digits (by omega) (by omega) n)

theorem printable_keyword {s : Str} (h : isKeyword s) : Printable s := by
  unfold isKeyword at h
  rcases h with rfl | rfl | rfl | rfl <;> decide

theorem printable_litPart (l : LitPart) : Printable l.text := by
  cases l with
  | prefixedInt r => cases r <;> decide
  | _ => decide

theorem printable_dateTimeField (l : DateTimeField) : Printable l.text := by cases l <;> decide

theorem printable_datatype (l : Ide.Datatype) : Printable l.text := by cases l <;> decide

macro "printable" : tactic => `(tactic| (
  repeat' (with_reducible first
    | apply printable_append
    | exact printable_fmtStr _
    | exact printable_fmtChar _
    | exact printable_decimal _
    | exact printable_hex _ _
    | exact printable_litPart _
    | exact printable_dateTimeField _
    | exact printable_datatype _
    | assumption
    | decide +kernel)))

/-- The expected text named in an error is printable. -/
def Named : Error → Prop
  | .uppercaseBareLitChar _ ex _ => Printable ex
  | .unexpectedBareLitChar _ ex _ => Printable ex
  | .bareLitTrailingChars _ ex _ => Printable ex
  | .bareLitMissingChars ex _ => Printable ex
  | _ => True

theorem toml_description {e : Error} (h : Named e) : Printable e.description := by
  cases e <;> simp only [Named] at h <;> unfold Error.description
  case missingQuote q s => cases q <;> dsimp only <;> decide +kernel
  case excessiveQuotes q s => cases q <;> dsimp only <;> decide +kernel
  case missingNumDigitsAfterSign g s => cases g <;> dsimp only <;> decide +kernel
  case uppercaseIntRadix g s => cases g <;> dsimp only <;> decide +kernel
  case intDigitTooBig g c s => cases g <;> dsimp only <;> printable
  case unexpectedLiteralChar l c s =>
    dsimp only
    split <;> printable
  all_goals (dsimp only; printable)

theorem toml_annotation (e : Error) : Printable e.annotation := by
  cases e <;> unfold Error.annotation
  case intDigitTooBig g c s => cases g <;> dsimp only <;> printable
  all_goals (dsimp only; printable)

theorem toml_printable {e : Error} (h : Named e) : PrintableDiag e.diagnostic := by
  refine ⟨toml_description h, toml_annotation e, fun x hx => ?_⟩
  cases e <;> simp [Error.diagnostic, Error.hint] at hx <;> subst hx <;> dsimp only <;> decide +kernel

theorem named_lex {e : Error} (h : LexErr e) : Named e := by
  cases e <;> first | exact h.elim | trivial

theorem named_loc {text : Str} {e : Error} (h : LocX text e) : Named e := by
  cases e <;> first | trivial | exact printable_keyword h

/-! ## The errors of versions -/

theorem printable_numField (f : Semver.NumField) : Printable f.text := by cases f <;> decide

theorem printable_identField (f : Semver.IdentField) : Printable f.text := by cases f <;> decide

theorem printable_identName (f : Option Semver.IdentField) : Printable (Semver.identName f) := by
  cases f with
  | none => decide
  | some f => exact printable_identField f

macro "printable_semver" : tactic => `(tactic| (
  repeat' (with_reducible first
    | apply printable_append
    | exact printable_fmtStr _
    | exact printable_fmtChar _
    | exact printable_decimal _
    | exact printable_numField _
    | exact printable_identField _
    | exact printable_identName _
    | decide +kernel)))

theorem semver_printable (e : Semver.Error) : PrintableDiag e.diagnostic := by
  refine ⟨?_, ?_, fun x hx => (by cases hx)⟩
  · show Printable e.description
    cases e <;> unfold Semver.Error.description
    case wildcardNotTheSoleComparator w p => cases w <;> dsimp only <;> decide +kernel
    all_goals (dsimp only; printable_semver)
  · show Printable e.annotation
    cases e <;> unfold Semver.Error.annotation
    all_goals (dsimp only; printable_semver)

/-! ## The messages of the check -/

/-- The keys named in an error are printable. -/
def NamedE : Ide.ErrorKind → Prop
  | .unsupportedUnderscore old new => Printable old ∧ Printable new
  | .depIgnoredGitKey k => Printable k
  | _ => True

/-- The keys named in a warning are printable. -/
def NamedW : Ide.WarningKind → Prop
  | .deprecatedUnderscore old new => Printable old ∧ Printable new
  | .redundantDeprecatedUnderscore old new _ => Printable old ∧ Printable new
  | _ => True

theorem printable_prefix (p : Str) : Printable (Ide.pathPrefix p) := by
  unfold Ide.pathPrefix
  split
  · decide
  · printable

theorem errorKind_printable {ls : List Nat} {p : Str} {s : Span} {k : Ide.ErrorKind} (h : NamedE k) :
    PrintableDiag (Ide.Msg.error ls p s k).diagnostic := by
  refine ⟨?_, ?_, fun x hx => (by cases hx)⟩
  · show Printable (k.description p)
    have hp := printable_prefix p
    cases k <;> unfold Ide.ErrorKind.description <;> simp only [NamedE] at h <;> dsimp only
    case unsupportedUnderscore => obtain ⟨h1, h2⟩ := h; printable
    all_goals printable
  · show Printable k.annotation
    cases k <;> unfold Ide.ErrorKind.annotation <;> simp only [NamedE] at h <;> dsimp only
    case unsupportedUnderscore => obtain ⟨h1, h2⟩ := h; printable
    all_goals printable

theorem warningKind_printable {ls : List Nat} {p : Str} {s : Span} {k : Ide.WarningKind} (h : NamedW k) :
    PrintableDiag (Ide.Msg.warning ls p s k).diagnostic := by
  refine ⟨?_, ?_, fun x hx => ?_⟩
  · show Printable (k.description p)
    have hp := printable_prefix p
    cases k <;> unfold Ide.WarningKind.description <;> simp only [NamedW] at h <;> dsimp only
    case deprecatedUnderscore => obtain ⟨h1, h2⟩ := h; printable
    case redundantDeprecatedUnderscore => obtain ⟨h1, h2⟩ := h; printable
    all_goals printable
  · show Printable k.annotation
    cases k <;> unfold Ide.WarningKind.annotation <;> simp only [NamedW] at h <;> dsimp only
    case deprecatedUnderscore => obtain ⟨h1, h2⟩ := h; printable
    all_goals printable
  · cases k <;> simp [Ide.Msg.diagnostic, Ide.WarningKind.hint] at hx <;> subst hx <;> dsimp only <;> decide +kernel

section
open Verif.Spec.Check hiding Section SectionKey

theorem errorAt_printable {path : List Seg} {r : Repr} {shown : Loc} {kind : Ide.ErrorKind} {m : Ide.Msg}
    (h : ErrorAt path r shown kind m) (hk : NamedE kind) : PrintableDiag m.diagnostic := by
  obtain ⟨ls, s, -, -, rfl⟩ := h
  exact errorKind_printable hk

theorem warningAt_printable {path : List Seg} {r : Repr} {shown : Loc} {kind : Ide.WarningKind} {m : Ide.Msg}
    (h : WarningAt path r shown kind m) (hk : NamedW kind) : PrintableDiag m.diagnostic := by
  obtain ⟨ls, s, -, -, rfl⟩ := h
  exact warningKind_printable hk

theorem underscore_named {t : MapTable} {old new : String} {kind : Ide.WarningKind} (h : Underscore t old new kind)
    (h1 : Printable old.toList) (h2 : Printable new.toList) : NamedW kind := by
  cases h <;> exact ⟨h1, h2⟩

theorem message_printable {root : MapTable} {r : Reason} {m : Ide.Msg} (h : Message false root r m) :
    PrintableDiag m.diagnostic := by
  cases h with
  | unknown _ _ _ h => exact warningAt_printable h trivial
  | unknownTarget _ _ _ _ h => exact warningAt_printable h trivial
  | targetType _ _ _ h => exact errorAt_printable h trivial
  | targetEntryType _ _ _ _ _ h => exact errorAt_printable h trivial
  | deprecated _ h2 _ h4 _ h =>
    refine warningAt_printable h ?_
    simp only [List.mem_cons, List.not_mem_nil, or_false] at h2
    rcases h2 with rfl | rfl <;> exact underscore_named h4 (by decide) (by decide)
  | sectionType _ _ _ h => exact errorAt_printable h trivial
  | entry _ h =>
    cases h with
    | version _ _ => exact semver_printable _
    | type _ _ h => exact errorAt_printable h trivial
    | key _ h =>
      cases h with
      | unknown _ _ _ h => exact warningAt_printable h trivial
      | type _ _ _ _ h => exact errorAt_printable h trivial
      | deprecated _ h2 _ h => exact warningAt_printable h (underscore_named h2 (by decide) (by decide))
      | features _ _ _ h => exact errorAt_printable h trivial
      | feature => exact errorKind_printable trivial
    | source _ h =>
      cases h with
      | workspaceFalse _ _ h => exact errorAt_printable h trivial
      | workspaceIgnored _ _ _ _ _ h => exact warningAt_printable h trivial
      | withoutGit _ _ hk _ h =>
        refine errorAt_printable h ?_
        simp only [List.mem_cons, List.not_mem_nil, or_false] at hk
        rcases hk with rfl | rfl | rfl <;> (show Printable _; decide)
      | gitRegistry _ _ _ _ _ h => exact errorAt_printable h trivial
      | gitPath _ _ _ _ _ _ h => exact errorAt_printable h trivial
      | gitSpec _ _ _ _ _ _ _ h => exact errorAt_printable h trivial
      | version => exact semver_printable _
      | missing _ _ _ _ _ h => exact warningAt_printable h trivial

end

/-! ## The diagnostics of the parser and of the map -/

variable {text : Str} {ovf : Bool}

theorem parse_printable {a : Asts} {s : PS} (h : parseDocument ovf text = .ok a s) :
    ∀ e ∈ s.errors, PrintableDiag e.diagnostic := by
  obtain ⟨T, es, vs, h1, -, h2⟩ := parse_post ovf text
  rw [h] at h2
  obtain ⟨new, n1, n2⟩ := h2.2.2.1
  intro e he
  rw [n1, List.mem_append] at he
  rcases he with he | he
  · rcases lex_located h1 e he with h2 | ⟨c, x, d, z, rfl, -⟩
    · exact toml_printable (named_lex (told_span h2).2)
    · exact toml_printable trivial
  · exact toml_printable (named_loc (n2 e he).extra)

theorem map_printable {a : Asts} {s : PS} (h : parseDocument ovf text = .ok a s) {t : MapTable} {es : List Error}
    (hm : map a.asts = some (t, es)) : ∀ e ∈ es, PrintableDiag e.diagnostic := by
  intro e he
  obtain ⟨loc, k, path, en, o, r, -, -, -, -, h5⟩ := C73_tree (Tree.parse_tree h).2 hm e he
  refine toml_printable ?_
  cases h5 <;> trivial

/-! ## What is printed -/

theorem _root_.Verif.Spec.ForTerminal.append {a b : Str} (ha : ForTerminal a) (hb : ForTerminal b) : ForTerminal (a ++ b) := by
  induction ha with
  | nil => exact hb
  | char h _ ih => exact .char h ih
  | colour h _ ih => rw [List.append_assoc]; exact .colour h ih

theorem forTerminal_chars {s : Str} (h : ∀ c ∈ s, (0x1f < c.toNat ∧ c.toNat ≠ 0x7f) ∨ c = '\t' ∨ c = '\n') :
    ForTerminal s := by
  induction s with
  | nil => exact .nil
  | cons c s ih => exact .char (h c (by simp)) (ih fun d hd => h d (by simp [hd]))

theorem Printable.forTerminal {s : Str} (h : Printable s) : ForTerminal s :=
  forTerminal_chars fun c hc => Or.inl (h c hc)

theorem forTerminal_colour {s : Str} (h : s ∈ colours) : ForTerminal s := by
  have := ForTerminal.colour h .nil
  rwa [List.append_nil] at this

theorem forTerminal_blue : ForTerminal Diag.blue := forTerminal_colour (by decide)
theorem forTerminal_clear : ForTerminal Diag.clear := forTerminal_colour (by decide)
theorem forTerminal_esc (s : Diag.Severity) : ForTerminal (Diag.escColor s) :=
  forTerminal_colour (by cases s <;> decide)
theorem forTerminal_decimal (n : Nat) : ForTerminal (Spec.decimal n) := Printable.forTerminal (printable_decimal n)
theorem forTerminal_nl : ForTerminal ['\n'] := .char (by simp) .nil
theorem forTerminal_spaces (n : Nat) : ForTerminal (List.replicate n ' ') :=
  Printable.forTerminal (printable_replicate (by decide))
theorem forTerminal_severity (s : Diag.Severity) : ForTerminal s.text :=
  Printable.forTerminal (by cases s <;> decide)
theorem forTerminal_underline (n : Nat) (s : Diag.Severity) : ForTerminal (List.replicate n (Diag.underlineChar s)) :=
  Printable.forTerminal (printable_replicate (by cases s <;> decide))

macro "terminal" : tactic => `(tactic| (
  repeat' (with_reducible first
    | apply ForTerminal.append
    | exact forTerminal_blue
    | exact forTerminal_clear
    | exact forTerminal_esc _
    | exact forTerminal_decimal _
    | exact forTerminal_nl
    | exact forTerminal_spaces _
    | exact forTerminal_severity _
    | exact forTerminal_underline _ _
    | assumption
    | exact Printable.forTerminal (by decide +kernel))))

theorem forTerminal_line (n : Nat) (line : Str) : ForTerminal (Diag.displayLine n line) := by
  unfold Diag.displayLine Diag.pad4
  have h : ForTerminal (line.filter (fun c => !Diag.isHidden c)) := by
    refine forTerminal_chars fun c hc => ?_
    have := (List.mem_filter.1 hc).2
    simp only [Diag.isHidden, isControl, Bool.not_and, Bool.or_eq_true, Bool.not_eq_true', bne_eq_false_iff_eq,
      Bool.or_eq_false_iff, decide_eq_false_iff_not] at this
    rcases this with h | h
    · exact Or.inr (Or.inl h)
    · exact Or.inl ⟨by omega, by omega⟩
  terminal

theorem forTerminal_body (width : Str → Nat) {ann : Str} (ha : Printable ann) (sev : Diag.Severity) (sp : Span) (n : Nat) :
    ∀ (ls : List Str) (i : Nat) (out : Str), Diag.bodyLoop width ann sev sp n i ls = some out → ForTerminal out := by
  intro ls
  induction ls with
  | nil => intro i out h; cases h; exact .nil
  | cons l ls ih =>
    intro i out h
    simp only [Diag.bodyLoop, Option.bind_eq_bind, Option.bind_eq_some_iff, Option.pure_def, Option.some.injEq] at h
    obtain ⟨b, -, sp', -, rest, hr, rfl⟩ := h
    have h1 := ih _ _ hr
    have h2 := forTerminal_line (sp.start.line + i) l
    have h3 : ForTerminal (if i = n - 1 then ' ' :: ann else []) := by
      split
      · exact .char (by decide) (Printable.forTerminal ha)
      · exact .nil
    terminal

theorem forTerminal_displayBody (width : Str → Nat) {ann : Str} (ha : Printable ann) {sev : Diag.Severity} {sp : Span}
    {ls : List Str} {out : Str} (h : Diag.displayBody width ann sev sp ls = some out) : ForTerminal out := by
  simp only [Diag.displayBody, Option.bind_eq_bind, Option.bind_eq_some_iff] at h
  obtain ⟨n, -, h⟩ := h
  split at h
  · exact forTerminal_body width ha sev sp n _ _ _ h
  · cases h

theorem forTerminal_context (ls : List Str) (lo hi : Nat) : ∀ (cs : List Nat) (out : Str),
    Diag.displayContextLines ls lo hi cs = some out → ForTerminal out := by
  intro cs
  induction cs with
  | nil => intro out h; cases h; exact .nil
  | cons c cs ih =>
    intro out h
    unfold Diag.displayContextLines at h
    split at h
    · exact ih _ h
    · split at h
      · simp only [Option.bind_eq_bind, Option.bind_eq_some_iff, Option.pure_def, Option.some.injEq] at h
        obtain ⟨l, -, rest, hr, rfl⟩ := h
        exact (forTerminal_line c l).append (ih _ hr)
      · cases h; exact .nil

theorem forTerminal_display (width : Str → Nat) {d : Diag.Diagnostic} (hd : PrintableDiag d) {ls : List Str} {out : Str}
    (h : Diag.display width d ls = some out) : ForTerminal out := by
  simp only [Diag.display, Option.bind_eq_bind, Option.bind_eq_some_iff, Option.pure_def, Option.some.injEq] at h
  obtain ⟨hd1, e1, ⟨h1, cur⟩, e2, ctx, e3, body, e4, h2, e5, rfl⟩ := h
  have k1 : ForTerminal hd1 := by
    simp only [Diag.displayHeader, Option.bind_eq_bind, Option.bind_eq_some_iff, Option.pure_def, Option.some.injEq] at e1
    obtain ⟨l, -, b, -, rfl⟩ := e1
    have := Printable.forTerminal hd.description
    terminal
  have k2 : ForTerminal h1 := by
    unfold Diag.hintBefore at e2
    split at e2
    next h hh =>
      split at e2
      · simp only [Option.bind_eq_bind, Option.bind_eq_some_iff, Option.pure_def, Option.some.injEq, Prod.mk.injEq] at e2
        obtain ⟨a, f1, b, f2, rfl, -⟩ := e2
        exact (forTerminal_context _ _ _ _ _ f1).append (forTerminal_displayBody width (hd.hint h hh) f2)
      · cases e2; exact .nil
    next => cases e2; exact .nil
  have k3 := forTerminal_context _ _ _ _ _ e3
  have k4 := forTerminal_displayBody width hd.annotation e4
  have k5 : ForTerminal h2 := by
    unfold Diag.hintAfter at e5
    split at e5
    next h hh =>
      split at e5
      · cases e5; exact .nil
      · simp only [Option.bind_eq_bind, Option.bind_eq_some_iff, Option.pure_def, Option.some.injEq] at e5
        obtain ⟨a, f1, b, f2, rfl⟩ := e5
        exact (forTerminal_context _ _ _ _ _ f1).append (forTerminal_displayBody width (hd.hint h hh) f2)
    next => cases e5; exact .nil
  terminal

end Verif.Cli
