import Verif.Toml.StrTail
import Verif.Spec.LexTruth

/-! # Lemmas: the string part of the tokenizer -/

namespace Verif.Toml
open Verif Verif.Spec.Toml

theorem _root_.Verif.Spec.Toml.Opening.head {q : Quote} {o : Str} (h : Opening q o) (t : Str) :
    (o ++ t).head? = some (quoteChar q) := by cases h <;> rfl

theorem _root_.Verif.Spec.Toml.Opening.count {q : Quote} {o : Str} (h : Opening q o) : o.count '\n' ≤ 1 := by
  cases h <;> cases q <;> decide

theorem _root_.Verif.Spec.Toml.Opening.blen {q : Quote} {o : Str} (h : Opening q o) : blen o < 256 := by
  cases h <;> cases q <;> decide

theorem blen_quotes {q : Quote} {d : Str} (h : ∀ c ∈ d, c = quoteChar q) : blen d = d.length := by
  induction d with
  | nil => rfl
  | cons c d ih =>
    rw [blen_cons, ih (fun c hc => h c (by simp [hc])), h c (by simp), quoteChar_size]
    simp [Nat.add_comm]

/-- The offsets stored for opening `o` and closing `d`. -/
def offOf (o d : Str) : TextOffset :=
  ⟨o.count '\n', if '\n' ∈ o then 0 else blen o, 0, blen d % 256⟩

theorem posOf_line (s : Str) : (posOf s).line = s.count '\n' := rfl

theorem textOffsetOf_eq {q : Quote} {pre0 o t d : Str} (ho : Opening q o) (hd : '\n' ∉ d) :
    textOffsetOf ⟨posOf pre0, posOf (pre0 ++ o ++ t ++ d)⟩
      ⟨posOf (pre0 ++ o), posOf (pre0 ++ o ++ t)⟩ = some (offOf o d) := by
  have h1 := ho.count
  have h2 := ho.blen
  rw [posOf_app (pre0 ++ o ++ t) hd]
  unfold textOffsetOf
  dsimp only
  rw [show (posOf (pre0 ++ o)).line = (posOf pre0).line + o.count '\n' by
    simp only [posOf_line, List.count_append]]
  have e1 : subU ((posOf pre0).line + o.count '\n') (posOf pre0).line = some (o.count '\n') := by
    rw [subU, if_pos (by omega)]; congr 1; omega
  have e2 : subU (posOf (pre0 ++ o ++ t)).line (posOf (pre0 ++ o ++ t)).line = some 0 := by
    rw [subU, if_pos (by omega)]; congr 1; omega
  have e3 : subU ((posOf (pre0 ++ o ++ t)).char + blen d) (posOf (pre0 ++ o ++ t)).char =
      some (blen d) := by
    rw [subU, if_pos (by omega)]; congr 1; omega
  have e4 : asU8 (o.count '\n') = o.count '\n' := by unfold asU8; omega
  simp only [e1, e2, e3, e4, Option.bind_eq_bind, Option.bind_some, offOf]
  by_cases hn : '\n' ∈ o
  · have : o.count '\n' ≠ 0 := by
      have := List.count_pos_iff.2 hn; omega
    simp [hn, this, asU8]
  · have h0 : o.count '\n' = 0 := List.count_eq_zero.2 hn
    have e5 : subU (posOf (pre0 ++ o)).char (posOf pre0).char = some (blen o) := by
      rw [posOf_app _ hn, subU, if_pos (by dsimp only; omega)]
      congr 1; dsimp only; omega
    have e6 : asU8 (blen o) = blen o := by unfold asU8; omega
    simp [hn, h0, e5, e6]
    simp [asU8]

/-- The body `b` is not closed, and a quote that follows does not extend a run of quotes. -/
structure Open (q : Quote) (b rest : Str) : Prop where
  unclosed : Unclosed q b
  ahead : rest.head? = some (quoteChar q) → isMulti q = true → b.getLast? ≠ some (quoteChar q) ∨
    (hasEscapes q = true ∧ ∃ u, b = u ++ ['\\', quoteChar q])

theorem _root_.Verif.Spec.Toml.Unclosed.nil (q : Quote) : Unclosed q [] := by
  intro u v h
  have h1 := congrArg List.length h
  simp at h1
  split at h1 <;> omega

theorem Open.nil (q : Quote) (rest : Str) : Open q [] rest := ⟨Unclosed.nil q, fun _ _ => .inl (by simp)⟩

theorem _root_.Verif.Spec.Toml.Unclosed.prefix {q : Quote} {b c : Str} (h : Unclosed q (b ++ c)) : Unclosed q b := by
  intro u v e
  exact h u (v ++ c) (by rw [e]; simp)

theorem _root_.Verif.Spec.Toml.Unclosed.snoc {q : Quote} {b : Str} {c : Char} (h : Unclosed q b) (hc : c ≠ quoteChar q) :
    Unclosed q (b ++ [c]) := by
  intro u v e
  induction v using snocRec with
  | nil =>
    exfalso
    rw [List.append_nil] at e
    have e1 := congrArg List.getLast? e
    rw [List.getLast?_append, List.getLast?_singleton, Option.some_or] at e1
    split at e1
    · rw [List.getLast?_append] at e1
      simp [List.replicate_succ] at e1
      exact hc e1
    · rw [List.getLast?_append] at e1
      simp [List.replicate_succ] at e1
      exact hc e1
  | append_singleton v d _ =>
    rw [← List.append_assoc] at e
    exact h u v (List.append_inj_left' e rfl)

theorem Open.snoc {q : Quote} {b rest : Str} {c : Char} (h : Unclosed q b) (hc : c ≠ quoteChar q) :
    Open q (b ++ [c]) rest :=
  ⟨h.snoc hc, fun _ _ => .inl (by simpa using hc)⟩

theorem _root_.Verif.Spec.Toml.Unclosed.quote {q : Quote} {b : Str} (hm : isMulti q = true) (h : Unclosed q b)
    (ha : b.getLast? ≠ some (quoteChar q) ∨ (hasEscapes q = true ∧ ∃ u, b = u ++ ['\\', quoteChar q])) :
    Unclosed q (b ++ [quoteChar q]) := by
  intro u v e
  rw [if_pos hm] at e
  induction v using snocRec with
  | nil =>
    exfalso
    rw [List.append_nil, show List.replicate 3 (quoteChar q) = [quoteChar q, quoteChar q] ++ [quoteChar q] from rfl,
      ← List.append_assoc] at e
    have e1 := List.append_inj_left' e rfl
    rcases ha with ha | ⟨-, w, rfl⟩
    · exact ha (by rw [e1]; simp)
    · have e2 := List.append_inj_right' e1 rfl
      simp only [List.cons.injEq, and_true] at e2
      exact quoteChar_ne_bs q e2.symm
  | append_singleton v d _ =>
    rw [← List.append_assoc] at e
    exact h u v (by rw [if_pos hm]; exact List.append_inj_left' e rfl)

theorem Open.quote1 {q : Quote} {b rest rest' : Str} (hm : isMulti q = true)
    (h : Open q b (quoteChar q :: rest')) (hr : rest.head? ≠ some (quoteChar q)) :
    Open q (b ++ [quoteChar q]) rest :=
  ⟨h.unclosed.quote hm (h.ahead rfl hm), fun e _ => absurd e hr⟩

theorem Open.quote2 {q : Quote} {b rest rest' : Str} (hm : isMulti q = true)
    (h : Open q b (quoteChar q :: rest')) (hr : rest.head? ≠ some (quoteChar q)) :
    Open q (b ++ [quoteChar q, quoteChar q]) rest := by
  have ha := h.ahead rfl hm
  refine ⟨?_, fun e _ => absurd e hr⟩
  intro u v e
  rw [if_pos hm] at e
  induction v using snocRec with
  | nil =>
    rw [List.append_nil, show List.replicate 3 (quoteChar q) = [quoteChar q] ++ [quoteChar q, quoteChar q] from rfl,
      ← List.append_assoc] at e
    have e1 := List.append_inj_left' e rfl
    rcases ha with ha | ⟨he, w, rfl⟩
    · exact absurd (by rw [e1]; simp) ha
    · rw [show w ++ ['\\', quoteChar q] = (w ++ ['\\']) ++ [quoteChar q] by simp] at e1
      rw [← List.append_inj_left' e1 rfl]
      exact ⟨he, by simp⟩
  | append_singleton v d _ =>
    rw [← List.append_assoc, show b ++ [quoteChar q, quoteChar q] = (b ++ [quoteChar q]) ++ [quoteChar q] by simp] at e
    exact (h.unclosed.quote hm ha) u v (by rw [if_pos hm]; exact List.append_inj_left' e rfl)

theorem Open.escaped {q : Quote} {b rest : Str} (hq : hasEscapes q = true)
    (h : Unclosed q (b ++ ['\\'])) (c : Char) : Open q (b ++ ['\\'] ++ [c]) rest := by
  by_cases hc : c = quoteChar q
  · subst hc
    refine ⟨?_, fun _ _ => .inr ⟨hq, b, by simp⟩⟩
    intro u v e
    induction v using snocRec with
    | nil =>
      rw [List.append_nil] at e
      split at e
      · exfalso
        rw [show List.replicate 3 (quoteChar q) = [quoteChar q, quoteChar q] ++ [quoteChar q] from rfl,
          ← List.append_assoc] at e
        have e1 := congrArg List.getLast? (List.append_inj_left' e rfl)
        simp at e1
        exact quoteChar_ne_bs q e1.symm
      · rw [← List.append_inj_left' (t₂ := [quoteChar q]) e rfl]
        exact ⟨hq, by simp⟩
    | append_singleton v d _ =>
      rw [← List.append_assoc] at e
      exact h u v (List.append_inj_left' e rfl)
  · exact .snoc h hc

/-- Position facts inside of a string: `pre0` is in front of it, `o` opens it, `b` has been consumed
of the body. -/
structure SInv (L : Lexer) (s : StrState) (pre0 o b rest : Str) : Prop where
  opening : Opening s.quote o
  st : St L (pre0 ++ o ++ b) rest
  lbs : L.litByteStart = blen pre0
  ls : L.litStart = posOf pre0
  tbs : s.textByteStart = blen (pre0 ++ o)
  ts : s.textStart = posOf (pre0 ++ o)
  oneLine : isMulti s.quote = false → '\n' ∉ b
  plain : isMulti s.quote = false → '\\' ∉ b → rest.head? ≠ some '\\' → s.text = none
  open_ : Open s.quote b rest

theorem SInv.inString {L : Lexer} {s : StrState} {pre0 o b rest : Str} (h : SInv L s pre0 o b rest) :
    InString s.quote (pre0 ++ o ++ b) := ⟨pre0, o, b, rfl, h.opening, h.oneLine, h.open_.unclosed⟩

/-- The string token. -/
def tokOf (s : StrState) (pre0 o t d : Str) : StringToken :=
  ⟨s.quote, o ++ t ++ d, posOf (pre0 ++ (o ++ t ++ d)), s.text.getD t, offOf o d⟩

/-- The effect of `end_string`. -/
def endStringL (L : Lexer) (tok : StringToken) : Lexer :=
  { L with
    strings := L.strings ++ [tok]
    tokens := L.tokens ++ [⟨.string L.strings.length, L.litStart⟩]
    inLit := false }

theorem endString_eq {L : Lexer} {s : StrState} {pre0 o b rest : Str}
    (h : SInv L s pre0 o b rest) {t d r : Str} {te le : Nat}
    (hin : L.input = pre0 ++ o ++ t ++ d ++ r) (hd : '\n' ∉ d)
    (hte : te = blen (pre0 ++ o ++ t)) (hle : le = blen (pre0 ++ o ++ t ++ d))
    (p1 : L.posInLine te = some (posOf (pre0 ++ o ++ t)))
    (p2 : L.posInLine le = some (posOf (pre0 ++ o ++ t ++ d))) :
    endString L s te le = some (endStringL L (tokOf s pre0 o t d)) := by
  unfold endString
  rw [slice_of (x := pre0) (y := o ++ t ++ d) (z := r) (by simpa using hin) h.lbs (by rw [hle]; simp)]
  have hs2 : slice L.input s.textByteStart te = some t :=
    slice_of (x := pre0 ++ o) (y := t) (z := d ++ r) (by simpa using hin) h.tbs hte
  have hoff := textOffsetOf_eq (pre0 := pre0) (t := t) h.opening hd
  simp only [Option.bind_eq_bind, Option.bind_some, p1, p2, StringToken.new, h.ls, h.ts, hoff, hs2]
  cases hst : s.text <;>
    simp [endStringL, tokOf, Lexer.storeString, Lexer.push, h.ls, hst]

/-- The diagnostics of the tokenizer. -/
def LexErr : Error → Prop
  | .missingQuote _ _ => True
  | .excessiveQuotes _ _ => True
  | .invalidStringChar _ _ => True
  | .invalidEscapeChar _ _ => True
  | .invalidUnicodeEscapeChar _ _ => True
  | .invalidUnicodeCodepoint _ _ _ => True
  | .invalidLineEndingEscape _ => True
  | .unfinishedEscapeSequence _ => True
  | .invalidCommentChar _ _ => True
  | _ => False

theorem lexErr_of {x y z : Str} {e : Error} (h : LexTrue x y z e) : LexErr e := by
  cases e <;> first | trivial | exact h.elim

theorem told_span {input : Str} {e : Error} (h : LexTold input e) : SpanIn input e.span ∧ LexErr e := by
  obtain ⟨x, y, z, h1, h2, h3⟩ := h
  exact ⟨⟨x, y, z, h1, h2⟩, lexErr_of h3⟩

/-- All new errors are true of the document. -/
def SpansIn (input : Str) (es : List Error) : Prop := ∀ e ∈ es, LexTold input e

theorem SpansIn.nil {input : Str} : SpansIn input [] := by simp [SpansIn]

theorem SpansIn.one {input : Str} {e : Error} {x y z : Str} (h : input = x ++ y ++ z)
    (hs : e.span = ⟨posOf x, posOf (x ++ y)⟩) (hk : LexTrue x y z e) : SpansIn input [e] := by
  intro e' he
  rw [List.mem_singleton] at he
  subst he
  exact ⟨x, y, z, h, hs, hk⟩

theorem SpansIn.append {input : Str} {a b : List Error} (ha : SpansIn input a)
    (hb : SpansIn input b) : SpansIn input (a ++ b) := by
  intro e he
  rcases List.mem_append.1 he with h | h
  · exact ha e h
  · exact hb e h

/-- The token tables and the literal state are untouched. -/
structure SameToks (L L' : Lexer) : Prop where
  input : L'.input = L.input
  tokens : L'.tokens = L.tokens
  strings : L'.strings = L.strings
  literals : L'.literals = L.literals
  lbs : L'.litByteStart = L.litByteStart
  ls : L'.litStart = L.litStart
  inLit : L'.inLit = L.inLit

theorem SameToks.refl (L : Lexer) : SameToks L L := ⟨rfl, rfl, rfl, rfl, rfl, rfl, rfl⟩

theorem SameToks.trans {L L' L'' : Lexer} (h : SameToks L L') (h' : SameToks L' L'') :
    SameToks L L'' :=
  ⟨h'.1.trans h.1, h'.2.trans h.2, h'.3.trans h.3, h'.4.trans h.4, h'.5.trans h.5,
    h'.6.trans h.6, h'.7.trans h.7⟩

theorem SameToks.atNext {L L' : Lexer} (h : SameToks L L') (rest : Str) :
    SameToks L (L'.atNext rest) := ⟨h.1, h.2, h.3, h.4, h.5, h.6, h.7⟩

theorem SameToks.error {L L' : Lexer} (h : SameToks L L') (e : Error) :
    SameToks L (L'.error e) := ⟨h.1, h.2, h.3, h.4, h.5, h.6, h.7⟩

theorem SameToks.newline {L L' : Lexer} (h : SameToks L L') :
    SameToks L L'.newline := ⟨h.1, h.2, h.3, h.4, h.5, h.6, h.7⟩

/-- A string token (and a line break, if the string is not terminated) has been pushed. -/
structure StrDone (L : Lexer) (pre0 : Str) (q : Quote) (L' : Lexer) (lit nl rest txt : Str) :
    Prop where
  st : St L' (pre0 ++ lit ++ nl) rest
  head : lit.head? = some (quoteChar q)
  oneLine : isMulti q = false → '\n' ∉ lit
  nlOk : nl = [] ∨ IsNewline nl
  inLit : L'.inLit = false
  inputEq : L'.input = L.input
  literals : L'.literals = L.literals
  strings : ∃ o t d, Opening q o ∧ lit = o ++ t ++ d ∧ (∀ c ∈ d, c = quoteChar q) ∧
    (L'.errors = L.errors → d ≠ [] ∧ d.length < 256) ∧ (isMulti q = false → d.length ≤ 1 ∧ ('\\' ∉ t → txt = t)) ∧
    L'.strings = L.strings ++ [⟨q, lit, posOf (pre0 ++ lit), txt, offOf o d⟩]
  tokens : L'.tokens = L.tokens ++ [⟨.string L.strings.length, posOf pre0⟩] ++
    (if nl = [] then [] else [⟨.newline, posOf (pre0 ++ lit)⟩])

/-- The text collected so far is `T`; a line feed that follows a consumed carriage return has a
carriage return at the end of `T`. -/
def Clean (s : StrState) (b rest T : Str) : Prop :=
  s.text.getD b = T ∧ (b.getLast? = some '\r' → rest.head? ≠ some '\n')

/-- What one step of the string loop does, starting at the text `src`, where `C` are the possible
texts collected before. -/
inductive FlowPost (L : Lexer) (q : Quote) (pre0 o src : Str) (C : Str → Prop) : Flow → Prop
  | cont {L' s' rest' es b'} : s'.quote = q → L'.errors = L.errors ++ es → SpansIn L.input es →
      SInv L' s' pre0 o b' rest' → SameToks L L' → rest'.length < src.length →
      (∀ T, C T →
        (es = [] ∧ ∃ D, Clean s' b' rest' (T ++ D) ∧
          ∀ txt r, StrTail q src txt r ↔ ∃ t, txt = D ++ t ∧ StrTail q rest' t r) ∨
        (es ≠ [] ∧ ∀ txt r, ¬ StrTail q src txt r)) →
      FlowPost L q pre0 o src C (L', s', rest', true)
  | done {L' s' rest' es lit nl txt'} : L'.errors = L.errors ++ es → SpansIn L.input es →
      StrDone L pre0 q L' lit nl rest' txt' → rest'.length ≤ src.length →
      (∀ T, C T →
        (es = [] ∧ nl = [] ∧ ∃ D, txt' = T ++ D ∧ ∀ txt r, StrTail q src txt r ↔ txt = D ∧ r = rest') ∨
        (es ≠ [] ∧ ∀ txt r, ¬ StrTail q src txt r)) →
      FlowPost L q pre0 o src C (L', s', rest', false)

end Verif.Toml
