import Verif.Spec.Wording
import Verif.Common.Dec
import Verif.Props.Map

/-!
# C100: messages show what they are about
-/

namespace Verif.Spec.Wording
open Verif

/-- A decision procedure for messages that are known. -/
def saysB : Str → Str → Bool
  | [], x => x.isEmpty
  | c :: s, x => x.isPrefixOf (c :: s) || saysB s x

theorem saysB_iff (s x : Str) : saysB s x = true ↔ Says s x := by
  induction s with
  | nil =>
    simp only [saysB, List.isEmpty_iff, Says]
    constructor
    · rintro rfl; exact ⟨[], [], rfl⟩
    · rintro ⟨a, b, h⟩
      have := congrArg List.length h
      simp at this
      exact List.eq_nil_of_length_eq_zero (by omega)
  | cons c s ih =>
    simp only [saysB, Bool.or_eq_true, List.isPrefixOf_iff_prefix, ih]
    constructor
    · rintro (⟨t, h⟩ | ⟨a, b, rfl⟩)
      · exact ⟨[], t, h.symm⟩
      · exact ⟨c :: a, b, rfl⟩
    · rintro ⟨a, b, h⟩
      cases a with
      | nil => exact .inl ⟨b, h.symm⟩
      | cons d a =>
        simp only [List.cons_append, List.cons.injEq] at h
        exact .inr ⟨a, b, h.2⟩

theorem Says.self (x : Str) : Says x x := ⟨[], [], by simp⟩
theorem Says.tail {s x : Str} (r : Str) (h : Says s x) : Says (s ++ r) x := by
  obtain ⟨a, b, rfl⟩ := h
  exact ⟨a, b ++ r, by simp⟩
theorem Says.head {s x : Str} (l : Str) (h : Says s x) : Says (l ++ s) x := by
  obtain ⟨a, b, rfl⟩ := h
  exact ⟨l ++ a, b, by simp⟩

theorem Quoted.says {s x : Str} : Quoted s x ↔ Says s ('`' :: (x ++ ['`'])) := by
  constructor
  · rintro ⟨a, b, rfl⟩; exact ⟨a, b, by simp⟩
  · rintro ⟨a, b, rfl⟩; exact ⟨a, b, by simp⟩

theorem Quoted.lit {s x : Str} (h : saysB s ('`' :: (x ++ ['`'])) = true) : Quoted s x := Quoted.says.2 ((saysB_iff _ _).1 h)
theorem Quoted.tail {s x : Str} (r : Str) (h : Quoted s x) : Quoted (s ++ r) x := Quoted.says.2 ((Quoted.says.1 h).tail r)
theorem Quoted.head {s x : Str} (l : Str) (h : Quoted s x) : Quoted (l ++ s) x := Quoted.says.2 ((Quoted.says.1 h).head l)

/-- The text ends with a backtick. -/
def EndsTick (l : Str) : Prop := ∃ a, l = a ++ ['`']

theorem EndsTick.lit {l : Str} (h : l.getLast? = some '`') : EndsTick l := by
  obtain ⟨a, rfl⟩ := List.getLast?_eq_some_iff.1 h
  exact ⟨a, rfl⟩
theorem EndsTick.app (a : Str) {l : Str} (h : EndsTick l) : EndsTick (a ++ l) := by
  obtain ⟨b, rfl⟩ := h
  exact ⟨a ++ b, by simp⟩

theorem Quoted.mid {l x r : Str} (hl : EndsTick l) (hr : r.head? = some '`') : Quoted (l ++ x ++ r) x := by
  obtain ⟨a, rfl⟩ := hl
  cases r with
  | nil => cases hr
  | cons c r => cases hr; exact ⟨a, r, by simp⟩

end Verif.Spec.Wording

namespace Verif.Props
open Verif Verif.Toml Verif.Spec.Wording

/-- Show that a text ends with a backtick. -/
macro "endtick" : tactic => `(tactic| first
  | (with_reducible refine EndsTick.app _ ?_; exact EndsTick.lit (by decide +kernel))
  | exact EndsTick.lit (by decide +kernel))

/-- Find the place of a quoted text in a message. -/
syntax "ticks" : tactic

macro_rules
  | `(tactic| ticks) => `(tactic| first
    | (with_reducible refine Quoted.mid ?_ ?_
       · endtick
       · decide +kernel)
    | (with_reducible refine Quoted.tail _ ?_; ticks)
    | (with_reducible refine Quoted.head _ ?_; ticks)
    | exact Quoted.lit (by decide +kernel))

/-- C100: a message about a document quotes what it is about. -/
theorem C100_quotes (e : Error) : ∀ x ∈ quotes e, Quoted e.description x := by
  cases e with
  | missingQuote q s => cases q <;> (simp only [quotes, List.mem_singleton]; rintro _ rfl; unfold Error.description; dsimp only; exact Quoted.lit (by decide +kernel))
  | excessiveQuotes q s => cases q <;> (simp only [quotes, List.mem_singleton]; rintro _ rfl; unfold Error.description; dsimp only; exact Quoted.lit (by decide +kernel))
  | missingNumDigitsAfterSign g s => cases g <;> (simp only [quotes, List.mem_singleton]; rintro _ rfl; unfold Error.description; dsimp only; exact Quoted.lit (by decide +kernel))
  | uppercaseIntRadix r s =>
    cases r <;> (simp only [quotes, List.mem_cons, List.not_mem_nil, or_false]; rintro _ (rfl | rfl) <;> (unfold Error.description; dsimp only; exact Quoted.lit (by decide +kernel)))
  | intDigitTooBig r c s =>
    cases r
    · simp only [quotes, List.mem_cons, List.not_mem_nil, or_false]; rintro _ (rfl | rfl | rfl) <;> (unfold Error.description; dsimp only; ticks)
    · simp only [quotes, List.mem_cons, List.not_mem_nil, or_false]; rintro _ (rfl | rfl) <;> (unfold Error.description; dsimp only; ticks)
    · simp only [quotes, List.mem_cons, List.not_mem_nil, or_false]; rintro _ (rfl | rfl | rfl | rfl) <;> (unfold Error.description; dsimp only; ticks)
  | expectedRadixOrDateTime c s =>
    simp only [quotes, List.mem_cons, List.not_mem_nil, or_false]; rintro _ (rfl | rfl | rfl | rfl) <;> (unfold Error.description; dsimp only; ticks)
  | dateTimeOutOfBounds f n lo hi s =>
    simp only [quotes, List.mem_cons, List.not_mem_nil, or_false]
    rintro _ (rfl | rfl)
    · unfold Error.description; dsimp only; ticks
    · have e : Error.description (.dateTimeOutOfBounds f n lo hi s) = ("date-time ".toList ++ f.text ++ " `".toList ++ Spec.decimal n ++
          "` out of range, the valid range is `".toList) ++ (Spec.decimal lo ++ ['.', '.', '='] ++ Spec.decimal hi) ++ "`".toList := by
        have : "..=".toList = ['.', '.', '='] := by decide +kernel
        unfold Error.description; dsimp only; rw [this]; simp only [List.append_assoc]
      rw [e]
      exact Quoted.mid (EndsTick.app _ (EndsTick.lit (by decide +kernel))) (by decide +kernel)
  | _ =>
    first
    | (simp only [quotes, List.not_mem_nil]; intro x hx; exact hx.elim)
    | (simp only [quotes, List.mem_singleton]; rintro _ rfl; unfold Error.description; dsimp only; ticks)
    | (simp only [quotes, List.mem_cons, List.not_mem_nil, or_false]; rintro _ (rfl | rfl) <;> (unfold Error.description; dsimp only; ticks))

theorem ends_with {l w f : Str} (h : l.drop (l.length - w.length) = w) : ∃ a, l ++ f = a ++ w ++ f :=
  ⟨l.take (l.length - w.length), by
    have := List.take_append_drop (l.length - w.length) l
    rw [h] at this
    rw [this]⟩

/-- C100: a message about a token ends with that token. -/
theorem C100_found {e : Error} {f : Str} (h : foundToken e = some f) : ∃ a, e.description = a ++ "found ".toList ++ Diag.fmtStr f := by
  cases e <;> simp only [foundToken, Option.some.injEq, reduceCtorEq] at h <;> subst h <;> unfold Error.description <;> dsimp only
  all_goals exact ends_with (by decide +kernel)

/-- Find a name in a message. -/
syntax "said" : tactic

macro_rules
  | `(tactic| said) => `(tactic| first
    | exact (saysB_iff _ _).1 (by decide +kernel)
    | (with_reducible refine Says.tail _ ?_; said)
    | (with_reducible refine Says.head _ ?_; said))

theorem fieldName_eq (f : DateTimeField) : f.text = fieldName f := by cases f <;> rfl

theorem numberName_says (l : LitPart) : Says l.text (numberName l) := by
  cases l with
  | prefixedInt p => cases p <;> exact (saysB_iff _ _).1 (by decide +kernel)
  | _ => exact (saysB_iff _ _).1 (by decide +kernel)

/-- C100: a message about a document names the kind of string or number, the part of a date-time, or what cannot be extended. -/
theorem C100_names (e : Error) : ∀ x ∈ names e, Says e.description x := by
  cases e with
  | missingQuote q s => cases q <;> (simp only [names, List.mem_singleton]; rintro _ rfl; unfold Error.description; dsimp only; said)
  | unexpectedLiteralChar l c s =>
    simp only [names, List.mem_singleton]; rintro _ rfl; unfold Error.description; dsimp only
    exact (numberName_says l).head _ |>.tail _
  | litStartsWithUnderscore l s =>
    simp only [names, List.mem_cons, List.not_mem_nil, or_false]; rintro _ (rfl | rfl) <;> (unfold Error.description; dsimp only)
    · exact (numberName_says l).tail _
    · said
  | litEndsWithUnderscore l s =>
    simp only [names, List.mem_cons, List.not_mem_nil, or_false]; rintro _ (rfl | rfl) <;> (unfold Error.description; dsimp only)
    · exact (numberName_says l).tail _
    · said
  | uppercaseIntRadix r s => cases r <;> (simp only [names, List.mem_singleton]; rintro _ rfl; unfold Error.description; dsimp only; said)
  | intDigitTooBig r c s => cases r <;> (simp only [names, List.mem_singleton]; rintro _ rfl; unfold Error.description; dsimp only; said)
  | dateTimeExpectedCharFound f ex fo s =>
    simp only [names, List.mem_singleton]; rintro _ rfl; unfold Error.description; dsimp only
    rw [fieldName_eq]
    exact (((Says.self _).head _).tail _).tail _ |>.tail _
  | dateTimeMissingChar f c s =>
    simp only [names, List.mem_singleton]; rintro _ rfl; unfold Error.description; dsimp only
    rw [fieldName_eq]
    exact (Says.self _).head _
  | dateTimeIncomplete f s =>
    simp only [names, List.mem_singleton]; rintro _ rfl; unfold Error.description; dsimp only
    rw [fieldName_eq]
    exact ((Says.self _).head _).tail _
  | dateTimeMissing f s =>
    simp only [names, List.mem_singleton]; rintro _ rfl; unfold Error.description; dsimp only
    rw [fieldName_eq]
    exact (Says.self _).head _
  | dateTimeOutOfBounds f n lo hi s =>
    simp only [names, List.mem_singleton]; rintro _ rfl; unfold Error.description; dsimp only
    rw [fieldName_eq]
    exact ((((((((Says.self _).head _).tail _).tail _).tail _).tail _).tail _).tail _).tail _
  | _ =>
    first
    | (simp only [names, List.not_mem_nil]; intro x hx; exact hx.elim)
    | (simp only [names, List.mem_singleton]; rintro _ rfl; unfold Error.description; dsimp only; said)
    | (simp only [names, List.mem_cons, List.not_mem_nil, or_false]; rintro _ (rfl | rfl) <;> (unfold Error.description; dsimp only; said))

/-- C100: an unterminated string is said to be a multi-line string, or a literal one, exactly if it is one. -/
theorem C100_string_kind (q : Quote) (s : Span) :
    (Says (Error.missingQuote q s).description "multi-line".toList ↔ Spec.Toml.isMulti q = true) ∧
    (Says (Error.missingQuote q s).description "literal".toList ↔ Spec.Toml.hasEscapes q = false) := by
  cases q <;> (unfold Error.description; dsimp only; rw [← saysB_iff, ← saysB_iff]; decide +kernel)

/-! ## Hints -/

/-- C100, the part that holds: the hint of a message names the bracket, the key, the table or the array that it marks, except if a table cannot be
extended by a dotted key.

Missing: see `C100_counterexample_hint`. -/
theorem C100_hint_partial (e : Error) (he : ∀ l p o s, e ≠ .cannotExtendTableWithDottedKey l p o s) :
    (∀ h, e.hint = some h → ∀ x ∈ hintNames e, Says h.annotation x) ∧ (hintNames e = [] ↔ e.hint = none) := by
  cases e with
  | cannotExtendTableWithDottedKey l p o s => exact absurd rfl (he l p o s)
  | _ =>
    unfold Error.hint hintNames
    dsimp only
    first
    | exact ⟨fun h hh => (by cases hh), fun _ => rfl, fun _ => rfl⟩
    | (refine ⟨fun h hh => ?_, fun h => (by cases h), fun h => (by cases h)⟩
       simp only [Option.some.injEq] at hh
       subst hh
       simp only [List.mem_singleton]
       rintro _ rfl
       said)

/-- A table that has a header, which a dotted key may not extend. -/
def tableHintToml : Str := "[a.b]\n[a]\nb.c = 1\n".toList

/-- The messages of the map of a text, with the text of the hint and what it marks. -/
def mapMessages (x : Str) : Option (List (Str × Option (Str × Span))) :=
  (mapText x).map fun y => y.2.map fun e => (e.description, e.hint.map fun h => (h.annotation, h.span))

set_option maxRecDepth 100000 in
/-- C100 (false today): the hint of this message calls the table `[a.b]` an array. -/
theorem C100_counterexample_hint : mapMessages tableHintToml =
    some [("cannot extend table `a.b` with dotted key".toList, some ("original array defined here".toList, ⟨⟨0, 0⟩, ⟨0, 5⟩⟩))] := by
  decide +kernel

/-! ## Numbers -/

theorem hexLetter_iff (c : Char) : isHexLetter c = true ↔ HexLetter c := by
  unfold isHexLetter HexLetter
  simp only [Bool.or_eq_true, Bool.and_eq_true, decide_eq_true_eq, List.mem_cons, List.not_mem_nil, or_false]
  constructor
  · rintro (⟨h1, h2⟩ | ⟨h1, h2⟩)
    · have a : 97 ≤ c.toNat := h1
      have b : c.toNat ≤ 102 := h2
      have : c = Char.ofNat c.toNat := (Char.ofNat_toNat c).symm
      rw [this]
      generalize c.toNat = n at *
      have : n = 97 ∨ n = 98 ∨ n = 99 ∨ n = 100 ∨ n = 101 ∨ n = 102 := by omega
      rcases this with rfl | rfl | rfl | rfl | rfl | rfl <;> decide
    · have a : 65 ≤ c.toNat := h1
      have b : c.toNat ≤ 70 := h2
      have : c = Char.ofNat c.toNat := (Char.ofNat_toNat c).symm
      rw [this]
      generalize c.toNat = n at *
      have : n = 65 ∨ n = 66 ∨ n = 67 ∨ n = 68 ∨ n = 69 ∨ n = 70 := by omega
      rcases this with rfl | rfl | rfl | rfl | rfl | rfl <;> decide
  · rintro (rfl | rfl | rfl | rfl | rfl | rfl | rfl | rfl | rfl | rfl | rfl | rfl) <;> decide

theorem text_last (l : LitPart) : ∃ c, l.text.getLast? = some c ∧ c ≠ '`' := by
  have : ∀ s : Str, s ≠ [] → s.getLast? ≠ some '`' → ∃ c, s.getLast? = some c ∧ c ≠ '`' := by
    intro s h1 h2
    cases h : s.getLast? with
    | none => exact absurd (List.getLast?_eq_none_iff.1 h) h1
    | some c => exact ⟨c, rfl, by rintro rfl; exact h2 h⟩
  refine this _ ?_ ?_
  · cases l with
    | prefixedInt p => cases p <;> decide +kernel
    | _ => decide +kernel
  · cases l with
    | prefixedInt p => cases p <;> decide +kernel
    | _ => decide +kernel

/-- C100: the prefix `0x` is proposed exactly if the character is a hexadecimal letter in something that starts like a number. -/
theorem C100_hex_prefix (l : LitPart) (c : Char) (p : Pos) :
    (∃ a, (Error.unexpectedLiteralChar l c p).description = a ++ "need to be prefixed by `0x`".toList) ↔ l = .intOrFloat ∧ HexLetter c := by
  rw [← hexLetter_iff]
  unfold Error.description
  dsimp only
  constructor
  · intro h
    by_cases hc : l = .intOrFloat ∧ isHexLetter c = true
    · exact hc
    · rw [if_neg hc, List.append_nil] at h
      obtain ⟨a, h⟩ := h
      have h1 := congrArg List.getLast? h
      have e : "need to be prefixed by `0x`".toList.getLast? = some '`' := by decide +kernel
      obtain ⟨d, hd, hd'⟩ := text_last l
      rw [List.getLast?_append, List.getLast?_append (l := a), e, hd] at h1
      simp only [Option.some_or, Option.some.injEq] at h1
      exact absurd h1 hd'
  · rintro h
    rw [if_pos h]
    obtain ⟨a, h⟩ := ends_with (l := ", hexadecimal integers need to be prefixed by `0x`".toList) (w := "need to be prefixed by `0x`".toList) (f := [])
      (by decide +kernel)
    simp only [List.append_nil] at h
    rw [h]
    exact ⟨"unexpected character `".toList ++ Diag.fmtChar c ++ "` in ".toList ++ l.text ++ a, by simp only [List.append_assoc]⟩

theorem digitOf_digitChar {n : Nat} (h : n < 16) : Spec.Toml.digitOf (Nat.digitChar n) = n := by
  have : n = 0 ∨ n = 1 ∨ n = 2 ∨ n = 3 ∨ n = 4 ∨ n = 5 ∨ n = 6 ∨ n = 7 ∨ n = 8 ∨ n = 9 ∨ n = 10 ∨ n = 11 ∨ n = 12 ∨ n = 13 ∨ n = 14 ∨ n = 15 := by omega
  rcases this with rfl | rfl | rfl | rfl | rfl | rfl | rfl | rfl | rfl | rfl | rfl | rfl | rfl | rfl | rfl | rfl <;> decide

theorem hexValue_snoc' (w : Str) (c : Char) :
    Spec.Toml.hexValue (w ++ [c]) = Spec.Toml.hexValue w * 16 + (if Spec.Toml.digitOf c < 16 then Spec.Toml.digitOf c else 0) := by
  simp [Spec.Toml.hexValue, List.foldl_append]

theorem hexValue_zeros (k : Nat) (w : Str) : Spec.Toml.hexValue (List.replicate k '0' ++ w) = Spec.Toml.hexValue w := by
  unfold Spec.Toml.hexValue
  rw [List.foldl_append]
  have : List.foldl (fun v c => v * 16 + (if Spec.Toml.digitOf c < 16 then Spec.Toml.digitOf c else 0)) 0 (List.replicate k '0') = 0 := by
    induction k with
    | zero => rfl
    | succ k ih => rw [List.replicate_succ, List.foldl_cons]; exact ih
  rw [this]

theorem hexValue_toDigits (n : Nat) : Spec.Toml.hexValue (Nat.toDigits 16 n) = n := by
  induction n using Nat.strongRecOn with
  | ind n ih =>
    by_cases h : n < 16
    · rw [Nat.toDigits_of_lt_base h]
      have := hexValue_snoc' [] (Nat.digitChar n)
      rw [List.nil_append, digitOf_digitChar h, if_pos h] at this
      rw [this]
      simp [Spec.Toml.hexValue]
    · rw [Nat.toDigits_of_base_le (by omega) (by omega), hexValue_snoc', ih (n / 16) (by omega), digitOf_digitChar (by omega), if_pos (by omega)]
      omega

/-- C100: a message about a code point that is no character shows it as hexadecimal number, with at least as many digits as the escape has. -/
theorem C100_codepoint (n cp : Nat) (s : Span) :
    ∃ h, Quoted (Error.invalidUnicodeCodepoint n cp s).description ("0x".toList ++ h) ∧ Spec.Toml.hexValue h = cp ∧ n ≤ h.length ∧
      (h.length = n ∨ h = Nat.toDigits 16 cp) := by
  refine ⟨hexPadded n cp, ?_, ?_, ?_, ?_⟩
  · unfold Error.description
    dsimp only
    have e : "invalid unicode scalar `0x".toList = "invalid unicode scalar `".toList ++ "0x".toList := by decide +kernel
    rw [e, List.append_assoc (as := "invalid unicode scalar `".toList)]
    ticks
  · unfold hexPadded
    rw [hexValue_zeros, hexValue_toDigits]
  · unfold hexPadded
    rw [List.length_append, List.length_replicate]
    omega
  · unfold hexPadded
    rw [List.length_append, List.length_replicate]
    by_cases h : (Nat.toDigits 16 cp).length ≤ n
    · left; omega
    · right
      have : n - (Nat.toDigits 16 cp).length = 0 := by omega
      rw [this]; rfl

/-! ## Versions -/

/-- C100: a message about a version quotes the characters that it is about. -/
theorem C100_semver_quotes (e : Semver.Error) : ∀ x ∈ semverQuotes e, Quoted e.description x := by
  cases e with
  | wildcardNotTheSoleComparator w s =>
    cases w <;> (simp only [semverQuotes, List.mem_singleton]; rintro _ rfl; unfold Semver.Error.description; dsimp only; exact Quoted.lit (by decide +kernel))
  | invalidOp c s =>
    simp only [semverQuotes, List.mem_cons, List.not_mem_nil, or_false]
    rintro _ (rfl | rfl | rfl | rfl | rfl | rfl | rfl | rfl) <;> (unfold Semver.Error.description; dsimp only; ticks)
  | _ =>
    first
    | (simp only [semverQuotes, List.not_mem_nil]; intro x hx; exact hx.elim)
    | (simp only [semverQuotes, List.mem_singleton]; rintro _ rfl; unfold Semver.Error.description; dsimp only; ticks)

theorem numberField_says (f : Semver.NumField) : Says f.text (numberField f) := by
  cases f <;> exact (saysB_iff _ _).1 (by decide +kernel)

/-- C100: a message about a number of a version names that number; the limit of comparators is shown. -/
theorem C100_semver_names (e : Semver.Error) : ∀ x ∈ semverNames e, Says e.description x := by
  cases e with
  | missingField f s => simp only [semverNames, List.mem_singleton]; rintro _ rfl; exact (numberField_says f).head _
  | leadingZeroNum f s => simp only [semverNames, List.mem_singleton]; rintro _ rfl; exact (numberField_says f).head _
  | invalidIntChar c f s => simp only [semverNames, List.mem_singleton]; rintro _ rfl; exact (numberField_says f).head _
  | intOverflow f a b => simp only [semverNames, List.mem_singleton]; rintro _ rfl; exact (numberField_says f).head _
  | expectedDot c f s =>
    simp only [semverNames, List.mem_singleton]; rintro _ rfl
    exact ((((numberField_says f).head _).tail _).tail _).tail _
  | missingDot f s => simp only [semverNames, List.mem_singleton]; rintro _ rfl; exact (numberField_says f).head _
  | unexpectedAfterWildcard c f s => simp only [semverNames, List.mem_singleton]; rintro _ rfl; exact (numberField_says f).head _
  | excessiveComparators a b =>
    simp only [semverNames, List.mem_singleton]; rintro _ rfl; unfold Semver.Error.description; dsimp only
    exact (saysB_iff _ _).1 (by decide +kernel)
  | _ => simp only [semverNames, List.not_mem_nil]; intro x hx; exact hx.elim

/-! ## Manifests -/

theorem typeName_eq (d : Ide.Datatype) : d.text = typeName d := by cases d <;> rfl

theorem prefix_quotes {path : Str} : ∀ x ∈ (if path = [] then [] else [Diag.fmtStr path]), Quoted (Ide.pathPrefix path) x := by
  intro x hx
  by_cases h : path = []
  · rw [if_pos h] at hx; cases hx
  · rw [if_neg h] at hx
    cases List.mem_singleton.1 hx
    unfold Ide.pathPrefix
    rw [if_neg (by simpa using h)]
    ticks

/-- C100: an error about a manifest quotes the path of the entry and the keys in question. -/
theorem C100_error_quotes (path : Str) (k : Ide.ErrorKind) : ∀ x ∈ errorQuotes path k, Quoted (k.description path) x := by
  cases k with
  | unsupportedUnderscore old new =>
    intro x hx
    unfold Ide.ErrorKind.description
    dsimp only
    rcases List.mem_append.1 hx with hx | hx
    · simp only [List.mem_cons, List.not_mem_nil, or_false] at hx
      rcases hx with rfl | rfl <;> ticks
    · exact ((((((prefix_quotes x hx).tail _).tail _).tail _).tail _).tail _)
  | _ =>
    first
    | (simp only [errorQuotes, List.mem_singleton]; rintro _ rfl; unfold Ide.ErrorKind.description; dsimp only; ticks)
    | (simp only [errorQuotes, List.mem_cons, List.not_mem_nil, or_false]; rintro _ (rfl | rfl) <;> (unfold Ide.ErrorKind.description; dsimp only; ticks))
    | (simp only [errorQuotes, List.mem_cons, List.not_mem_nil, or_false]
       rintro _ (rfl | rfl | rfl) <;> (unfold Ide.ErrorKind.description; dsimp only; ticks))
    | (simp only [errorQuotes, List.mem_cons, List.not_mem_nil, or_false]
       rintro _ (rfl | rfl | rfl | rfl) <;> (unfold Ide.ErrorKind.description; dsimp only; ticks))
    | (simp only [errorQuotes, List.mem_cons, List.not_mem_nil, or_false]
       rintro _ (rfl | rfl | rfl | rfl | rfl) <;> (unfold Ide.ErrorKind.description; dsimp only; ticks))

/-- C100: an error about the type of an entry says which type is expected and which one is there. -/
theorem C100_types (path : Str) (k : Ide.ErrorKind) : TypesSaid (k.description path) k := by
  cases k with
  | wrongDatatype ex fo =>
    unfold TypesSaid Ide.ErrorKind.description
    dsimp only
    rw [typeName_eq, typeName_eq]
    refine ⟨"expected `".toList ++ Diag.fmtStr path ++ "` ".toList, ?_⟩
    have e : "` to be of type ".toList = "` ".toList ++ "to be of type ".toList := by decide +kernel
    rw [e]
    simp only [List.append_assoc]
  | depWrongDatatype fo =>
    unfold TypesSaid Ide.ErrorKind.description
    dsimp only
    rw [typeName_eq]
    refine ⟨"expected `".toList ++ Diag.fmtStr path ++ "` ".toList, ?_⟩
    have e : "` to be of type string or table, found ".toList = "` ".toList ++ "to be of type string or table, found ".toList := by decide +kernel
    rw [e]
    simp only [List.append_assoc]
  | _ => trivial

/-- C100: a warning about a manifest quotes the path of the entry and the keys in question. -/
theorem C100_warning_quotes (path : Str) (k : Ide.WarningKind) : ∀ x ∈ warningQuotes path k, Quoted (k.description path) x := by
  cases k with
  | deprecatedUnderscore old new =>
    intro x hx
    unfold Ide.WarningKind.description
    dsimp only
    rcases List.mem_append.1 hx with hx | hx
    · simp only [List.mem_cons, List.not_mem_nil, or_false] at hx
      rcases hx with rfl | rfl <;> ticks
    · exact ((((((prefix_quotes x hx).tail _).tail _).tail _).tail _).tail _)
  | redundantDeprecatedUnderscore old new s =>
    intro x hx
    unfold Ide.WarningKind.description
    dsimp only
    rcases List.mem_append.1 hx with hx | hx
    · simp only [List.mem_cons, List.not_mem_nil, or_false] at hx
      rcases hx with rfl | rfl <;> ticks
    · exact ((((((prefix_quotes x hx).tail _).tail _).tail _).tail _).tail _)
  | missingDepSpec =>
    simp only [warningQuotes, List.mem_cons, List.not_mem_nil, or_false]
    rintro _ (rfl | rfl | rfl | rfl) <;> (unfold Ide.WarningKind.description; dsimp only; exact Quoted.lit (by decide +kernel))
  | workspaceDepIgnoredKey s =>
    simp only [warningQuotes, List.mem_cons, List.not_mem_nil, or_false]
    rintro _ (rfl | rfl) <;> (unfold Ide.WarningKind.description; dsimp only; ticks)
  | ignoredUnknownKey => simp only [warningQuotes, List.mem_singleton]; rintro _ rfl; unfold Ide.WarningKind.description; dsimp only; ticks

/-- A message about a token that is found. -/
example : foundToken (.expectedKeyFound "`]`".toList ⟨⟨0, 1⟩, ⟨0, 2⟩⟩) = some "`]`".toList ∧
    (Error.expectedKeyFound "`]`".toList ⟨⟨0, 1⟩, ⟨0, 2⟩⟩).description = "expected a key, found `]`".toList := by decide +kernel

/-- A message about a code point. -/
example : (Error.invalidUnicodeCodepoint 4 0xd800 ⟨⟨0, 1⟩, ⟨0, 7⟩⟩).description = "invalid unicode scalar `0xd800` (`55296`)".toList := by decide +kernel

end Verif.Props
