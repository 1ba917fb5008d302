import Verif.Toml.LexAll

/-! # The tokenizer on one line

Whatever is written on a line: without `"""` and `'''` the tokenizer reads the line break as such, and its tokens and
diagnostics begin on the line. -/

namespace Verif.Toml
open Verif Verif.Spec.Toml

variable {ℓ : Nat} {L L' L1 L2 : Lexer} {T : List Token}

/-- The tokens `T` on the line `ℓ` have been pushed; the diagnostics begin on the line. -/
structure LexOn (ℓ : Nat) (L L' : Lexer) (T : List Token) : Prop where
  tokens : L'.tokens = L.tokens ++ T
  strings : L.strings <+: L'.strings
  on : ∀ t ∈ T, t.start.line = ℓ ∧ t.ty ≠ .eof ∧
    ∀ id, t.ty = .string id → ∃ st, L'.strings[id]? = some st ∧ st.litEnd.line = ℓ
  errors : ∃ es, L'.errors = L.errors ++ es ∧ ∀ e ∈ es, e.span.start.line = ℓ

theorem LexOn.same (h1 : L'.tokens = L.tokens) (h2 : L'.strings = L.strings) (h3 : L'.errors = L.errors) :
    LexOn ℓ L L' [] :=
  ⟨by simp [h1], by rw [h2]; exact List.prefix_refl _, by simp, [], by simp [h3], by simp⟩

theorem LexOn.refl (ℓ : Nat) (L : Lexer) : LexOn ℓ L L [] := .same rfl rfl rfl

theorem LexOn.trans {T1 T2 : List Token} (h1 : LexOn ℓ L L1 T1) (h2 : LexOn ℓ L1 L2 T2) :
    LexOn ℓ L L2 (T1 ++ T2) := by
  obtain ⟨e1, a1, a2⟩ := h1.errors
  obtain ⟨e2, b1, b2⟩ := h2.errors
  refine ⟨by rw [h2.tokens, h1.tokens, List.append_assoc], h1.strings.trans h2.strings, ?_, e1 ++ e2,
    by rw [b1, a1, List.append_assoc], ?_⟩
  · intro t ht
    rcases List.mem_append.1 ht with ht | ht
    · obtain ⟨g1, g2, g3⟩ := h1.on t ht
      refine ⟨g1, g2, fun id hid => ?_⟩
      obtain ⟨st, k1, k2⟩ := g3 id hid
      obtain ⟨z, hz⟩ := h2.strings
      refine ⟨st, ?_, k2⟩
      rw [← hz, List.getElem?_append_left (List.getElem?_eq_some_iff.1 k1).1]
      exact k1
    · exact h2.on t ht
  · intro e he
    rcases List.mem_append.1 he with he | he
    · exact a2 e he
    · exact b2 e he

/-- Fields that do not matter. -/
theorem LexOn.congr (h : LexOn ℓ L L1 T) (h1 : L'.tokens = L1.tokens) (h2 : L'.strings = L1.strings)
    (h3 : L'.errors = L1.errors) : LexOn ℓ L L' T := by
  have := h.trans (LexOn.same (ℓ := ℓ) h1 h2 h3)
  simpa using this

theorem LexOn.from (h : LexOn ℓ L1 L' T) (h1 : L1.tokens = L.tokens) (h2 : L1.strings = L.strings)
    (h3 : L1.errors = L.errors) : LexOn ℓ L L' T := by
  have := (LexOn.same (ℓ := ℓ) h1 h2 h3).trans h
  simpa using this

theorem LexOn.error (h : LexOn ℓ L L1 T) {e : Error} (he : e.span.start.line = ℓ) :
    LexOn ℓ L (L1.error e) T := by
  have : LexOn ℓ L1 (L1.error e) [] :=
    ⟨by simp [Lexer.error], List.prefix_refl _, by simp, [e], rfl, by simpa using he⟩
  simpa using h.trans this

theorem LexOn.push (h : LexOn ℓ L L1 T) {t : Token} (ht : t.start.line = ℓ) (h1 : t.ty ≠ .eof)
    (h2 : ∀ id, t.ty ≠ .string id) : LexOn ℓ L (L1.push t) (T ++ [t]) := by
  refine h.trans ⟨rfl, List.prefix_refl _, ?_, [], by simp [Lexer.push], by simp⟩
  intro t' ht'
  rw [List.mem_singleton.1 ht']
  exact ⟨ht, h1, fun id hid => absurd hid (h2 id)⟩

/-- Tokens other than line breaks, `[`, `=` and `{`. -/
def QuietToks (T : List Token) : Prop :=
  ∀ t ∈ T, t.ty ≠ .newline ∧ t.ty ≠ .squareLeft ∧ t.ty ≠ .equal ∧ t.ty ≠ .curlyLeft

theorem QuietToks.nil : QuietToks [] := by simp [QuietToks]

theorem QuietToks.append {T1 T2 : List Token} (h1 : QuietToks T1) (h2 : QuietToks T2) : QuietToks (T1 ++ T2) := by
  intro t ht
  rcases List.mem_append.1 ht with ht | ht
  · exact h1 t ht
  · exact h2 t ht

theorem posInLine_line {b : Nat} {p : Pos} (h : L.posInLine b = some p) : p.line = L.lineIdx := by
  simp only [Lexer.posInLine, Option.bind_eq_bind, Option.bind_eq_some_iff, Option.pure_def,
    Option.some.injEq] at h
  obtain ⟨a, -, rfl⟩ := h
  rfl

theorem pos_line {p : Pos} (h : L.pos = some p) : p.line = L.lineIdx := posInLine_line h

theorem endLiteral_line (h : endLiteral L = some L') (hl : L.inLit = true → L.litStart.line = ℓ) :
    ∃ T, LexOn ℓ L L' T ∧ QuietToks T ∧ L'.inLit = false ∧ L'.lineIdx = L.lineIdx := by
  unfold endLiteral at h
  split at h
  · rename_i hi
    simp only [Option.bind_eq_bind, Option.bind_eq_some_iff, Option.pure_def, Option.some.injEq] at h
    obtain ⟨lit, -, rfl⟩ := h
    refine ⟨[⟨.literalOrIdent L.literals.length, L.litStart⟩], ?_, ?_, rfl, rfl⟩
    · refine ⟨rfl, List.prefix_refl _, ?_, [], by simp [Lexer.push, Lexer.storeLiteral], by simp⟩
      intro t ht
      rw [List.mem_singleton.1 ht]
      exact ⟨hl hi, by simp, by simp⟩
    · intro t ht
      rw [List.mem_singleton.1 ht]
      simp
  · rename_i hi
    cases h
    exact ⟨[], .refl _ _, .nil, by simpa using hi, rfl⟩

theorem charToken_line {ty : TokenType} (h : charToken L ty = some L')
    (hl : L.inLit = true → L.litStart.line = ℓ) (hi : L.lineIdx = ℓ) (h1 : ty ≠ .eof)
    (h2 : ∀ id, ty ≠ .string id) :
    ∃ T p, LexOn ℓ L L' (T ++ [⟨ty, p⟩]) ∧ QuietToks T ∧ L'.inLit = false ∧ L'.lineIdx = L.lineIdx := by
  unfold charToken at h
  simp only [Option.bind_eq_bind, Option.bind_eq_some_iff, Option.pure_def, Option.some.injEq] at h
  obtain ⟨A, a1, p, a2, rfl⟩ := h
  obtain ⟨T, b1, b2, b3, b4⟩ := endLiteral_line a1 hl
  exact ⟨T, p, b1.push (by rw [pos_line a2, b4, hi]) h1 h2, b2, b3, b4⟩

theorem endString_line {s : StrState} {a b : Nat} (h : endString L s a b = some L') (hi : L.lineIdx = ℓ)
    (hl : L.litStart.line = ℓ) :
    ∃ T, LexOn ℓ L L' T ∧ QuietToks T ∧ L'.inLit = false ∧ L'.lineIdx = L.lineIdx ∧ L'.litStart = L.litStart := by
  have key : ∀ {text : Str} {tok : StringToken} {lit : Str} {p q : Pos}, L.posInLine b = some p →
      StringToken.new s.quote lit ⟨L.litStart, p⟩ text ⟨s.textStart, q⟩ = some tok →
      ({ (L.storeString tok).2.push ⟨.string (L.storeString tok).1, (L.storeString tok).2.litStart⟩ with
        inLit := false } : Lexer) = L' →
      ∃ T, LexOn ℓ L L' T ∧ QuietToks T ∧ L'.inLit = false ∧ L'.lineIdx = L.lineIdx ∧ L'.litStart = L.litStart := by
    rintro text tok lit p q h1 h2 rfl
    simp only [StringToken.new, Option.bind_eq_bind, Option.bind_eq_some_iff, Option.pure_def,
      Option.some.injEq] at h2
    obtain ⟨off, -, rfl⟩ := h2
    refine ⟨[⟨.string L.strings.length, L.litStart⟩], ?_, ?_, rfl, rfl, rfl⟩
    · refine ⟨rfl, List.prefix_append _ _, ?_, [], by simp [Lexer.push, Lexer.storeString], by simp⟩
      intro t ht
      rw [List.mem_singleton.1 ht]
      refine ⟨hl, by simp, ?_⟩
      intro id hid
      simp only [TokenType.string.injEq] at hid
      subst hid
      exact ⟨_, List.getElem?_concat_length, by rw [← hi]; exact posInLine_line h1⟩
    · intro t ht
      rw [List.mem_singleton.1 ht]
      simp
  unfold endString at h
  simp only [Option.bind_eq_bind, Option.bind_eq_some_iff, Option.pure_def] at h
  obtain ⟨lit, -, h⟩ := h
  cases hs : s.text with
  | some x =>
    simp only [hs, Option.bind_some, Option.bind_eq_some_iff, Option.some.injEq] at h
    obtain ⟨p, h1, q, -, tok, h2, h3⟩ := h
    exact key h1 h2 h3
  | none =>
    simp only [hs, Option.bind_eq_some_iff, Option.some.injEq] at h
    obtain ⟨x, -, p, h1, q, -, tok, h2, h3⟩ := h
    exact key h1 h2 h3

/-- The tokenizer has gone on within the line, or over its line break. -/
inductive LexWent (ℓ : Nat) (P : List Token → Prop) (L : Lexer) (rest : Str) (L' : Lexer) (rest' : Str) : Prop
  | inside {x T} : rest = x ++ rest' → '\n' ∉ x → L'.lineIdx = ℓ → LexOn ℓ L L' T → P T →
      LexWent ℓ P L rest L' rest'
  | across {x T nl} : rest = x ++ '\n' :: rest' → '\n' ∉ x → L'.inLit = false →
      LexOn ℓ L L' (T ++ [nl]) → nl.ty = .newline → P T → LexWent ℓ P L rest L' rest'

theorem LexWent.pre {x rest rest1 rest' : Str} {T0 : List Token} (hr : rest = x ++ rest1) (hx : '\n' ∉ x)
    (h0 : LexOn ℓ L L1 T0) (hq : QuietToks T0) (h : LexWent ℓ QuietToks L1 rest1 L' rest') :
    LexWent ℓ QuietToks L rest L' rest' := by
  cases h with
  | @inside y T h1 h2 h3 h4 h5 =>
    exact .inside (x := x ++ y) (by rw [hr, h1, List.append_assoc])
      (by rw [List.mem_append]; rintro (h | h); exact hx h; exact h2 h) h3 (h0.trans h4) (hq.append h5)
  | @across y T nl h1 h2 h3 h4 h5 h6 =>
    exact .across (x := x ++ y) (by rw [hr, h1, List.append_assoc])
      (by rw [List.mem_append]; rintro (h | h); exact hx h; exact h2 h) h3
      (by rw [List.append_assoc]; exact h0.trans h4) h5 (hq.append h6)

/-! ## Comments -/

theorem commentLoop_line : ∀ {rest : Str} {L L' : Lexer} {r : Str}, commentLoop L rest = some (L', r) →
    L.lineIdx = ℓ → LexOn ℓ L L' [] ∧ L'.lineIdx = ℓ ∧ L'.inLit = L.inLit ∧
      ∃ x, rest = x ++ r ∧ '\n' ∉ x ∧ (r = [] ∨ ∃ r', r = '\n' :: r') := by
  intro rest
  induction rest with
  | nil =>
    intro L L' r h hi
    simp only [commentLoop, Option.some.injEq, Prod.mk.injEq] at h
    obtain ⟨rfl, rfl⟩ := h
    exact ⟨.refl _ _, hi, rfl, [], rfl, by simp, .inl rfl⟩
  | cons c cs ih =>
    intro L L' r h hi
    have key : ∀ {L1 : Lexer}, LexOn ℓ L L1 [] → L1.lineIdx = ℓ → L1.inLit = L.inLit → c ≠ '\n' →
        commentLoop L1 cs = some (L', r) → LexOn ℓ L L' [] ∧ L'.lineIdx = ℓ ∧ L'.inLit = L.inLit ∧
        ∃ x, c :: cs = x ++ r ∧ '\n' ∉ x ∧ (r = [] ∨ ∃ r', r = '\n' :: r') := by
      intro L1 h1 h2 h3 hc h4
      obtain ⟨g1, g2, g3, x, g4, g5, g6⟩ := ih h4 h2
      exact ⟨h1.trans g1, g2, g3.trans h3, c :: x, by rw [g4]; rfl, by simp [Ne.symm hc, g5], g6⟩
    unfold commentLoop at h
    split at h
    · rename_i hc
      cases h
      exact ⟨.refl _ _, hi, rfl, [], rfl, by simp, .inr ⟨cs, by rw [hc]⟩⟩
    rename_i hc
    have hn : LexOn ℓ L (L.atNext (c :: cs)) [] := .same rfl rfl rfl
    split at h
    · exact key hn hi rfl hc h
    split at h
    · exact key hn hi rfl hc h
    split at h
    · simp only [Option.bind_eq_bind, Option.bind_eq_some_iff] at h
      obtain ⟨p, h1, h2⟩ := h
      refine key (L1 := (L.error (.invalidCommentChar c (Span.asciiChar p))).atNext (c :: cs)) ?_ hi rfl hc h2
      exact ((LexOn.refl ℓ L).error (e := .invalidCommentChar c (Span.asciiChar p)) (by
        rw [← hi]; exact pos_line h1)).congr rfl rfl rfl
    · exact key hn hi rfl hc h

theorem comment_line {rest rest' : Str} (h : comment L rest = some (L', rest')) (hi : L.lineIdx = ℓ)
    (hl : L.inLit = true → L.litStart.line = ℓ) : LexWent ℓ QuietToks L rest L' rest' ∧ L'.inLit = false := by
  unfold comment at h
  simp only [Option.bind_eq_bind, Option.bind_eq_some_iff] at h
  obtain ⟨A, a1, p, a2, ⟨B, r⟩, a3, prev, -, te, -, lit, -, h⟩ := h
  obtain ⟨T, b1, b2, b3, b4⟩ := endLiteral_line a1 hl
  obtain ⟨c1, c2, c3, x, c4, c5, c6⟩ := commentLoop_line a3 (b4.trans hi)
  have hB : LexOn ℓ L B T := by simpa using b1.trans c1
  have hC : LexOn ℓ L (((B.atNext r).storeLiteral lit).2.push ⟨.comment ((B.atNext r).storeLiteral lit).1, p⟩)
      (T ++ [⟨.comment ((B.atNext r).storeLiteral lit).1, p⟩]) :=
    (hB.congr (L' := ((B.atNext r).storeLiteral lit).2) rfl rfl rfl).push
      (by rw [pos_line a2, b4, hi]) (by simp) (by simp)
  have hq : QuietToks (T ++ [⟨.comment ((B.atNext r).storeLiteral lit).1, p⟩]) :=
    b2.append (by intro t ht; rw [List.mem_singleton.1 ht]; simp)
  rcases c6 with rfl | ⟨r', rfl⟩
  · simp only [List.isEmpty_nil, Bool.not_true, Bool.false_eq_true, if_false, List.tail_nil, Option.pure_def,
      Option.some.injEq, Prod.mk.injEq] at h
    obtain ⟨rfl, rfl⟩ := h
    exact ⟨.inside c4 c5 c2 hC hq, c3.trans b3⟩
  · simp only [List.isEmpty_cons, Bool.not_false, if_true, List.tail_cons, Option.bind_eq_some_iff,
      Option.pure_def, Option.some.injEq, Prod.mk.injEq] at h
    obtain ⟨p', h1, rfl, rfl⟩ := h
    refine ⟨.across c4 c5 (c3.trans b3) ((hC.push (t := ⟨.newline, p'⟩) ?_ (by simp) (by simp)).congr rfl rfl rfl) rfl hq,
      c3.trans b3⟩
    have := posInLine_line h1
    rw [← c2]
    exact this

/-! ## Strings -/

/-- What a part of the string loop does on a line. -/
def SFlow (ℓ : Nat) (L : Lexer) (s : StrState) (rest : Str) (o : Flow) : Prop :=
  (o.2.2.2 = true ∧ o.1.litStart = L.litStart ∧ o.2.1.quote = s.quote ∧
    ∃ x T, rest = x ++ o.2.2.1 ∧ '\n' ∉ x ∧ o.1.lineIdx = ℓ ∧ LexOn ℓ L o.1 T ∧ QuietToks T) ∨
  (o.2.2.2 = false ∧ o.1.inLit = false ∧ LexWent ℓ QuietToks L rest o.1 o.2.2.1)

theorem SFlow.pre {x rest rest1 : Str} {s s1 : StrState} {o : Flow} (hr : rest = x ++ rest1) (hx : '\n' ∉ x)
    (h0 : LexOn ℓ L L1 []) (hl : L1.litStart = L.litStart) (hq : s1.quote = s.quote)
    (h : SFlow ℓ L1 s1 rest1 o) : SFlow ℓ L s rest o := by
  rcases h with ⟨h1, h2, h3, y, T, h4, h5, h6, h7, h8⟩ | ⟨h1, h2, h3⟩
  · refine .inl ⟨h1, h2.trans hl, h3.trans hq, x ++ y, T, by rw [hr, h4, List.append_assoc], ?_, h6,
      by simpa using h0.trans h7, h8⟩
    rw [List.mem_append]; rintro (h | h)
    · exact hx h
    · exact h5 h
  · exact .inr ⟨h1, h2, h3.pre hr hx h0 .nil⟩

/-- Going on in the string. -/
theorem SFlow.cont {x rest rest' : Str} {s s' : StrState} (hr : rest = x ++ rest') (hx : '\n' ∉ x)
    (h0 : LexOn ℓ L L' []) (hi : L'.lineIdx = ℓ) (hl : L'.litStart = L.litStart) (hq : s'.quote = s.quote) :
    SFlow ℓ L s rest (L', s', rest', true) :=
  .inl ⟨rfl, hl, hq, x, [], hr, hx, hi, h0, .nil⟩

theorem recoverNewline_line {s : StrState} {rest : Str} {o : Flow} (h : recoverNewline L s rest = some o)
    (hi : L.lineIdx = ℓ) (hl : L.litStart.line = ℓ) : SFlow ℓ L s ('\n' :: rest) o := by
  unfold recoverNewline at h
  simp only [Option.bind_eq_bind, Option.bind_eq_some_iff, Option.pure_def, Option.some.injEq] at h
  obtain ⟨p, h1, A, h2, B, h3, rfl⟩ := h
  obtain ⟨T, a1, a2, a3, a4, a5⟩ := endString_line (ℓ := ℓ) h2 hi hl
  obtain ⟨T', p', b1, b2, b3, b4⟩ := charToken_line (ℓ := ℓ) h3 (by rw [a3]; simp) (a4.trans hi) (by simp) (by simp)
  refine .inr ⟨rfl, b3, .across (x := []) (T := T ++ T') (nl := ⟨.newline, p'⟩) rfl (by simp) b3 ?_ rfl (a2.append b2)⟩
  rw [List.append_assoc]
  exact ((((LexOn.refl ℓ L).error (e := .missingQuote s.quote ⟨L.litStart, p⟩) hl).trans a1).trans b1).congr rfl rfl rfl

theorem closing_line {s : StrState} {rest : Str} {o : Flow} (h : stringClosingQuote L s rest = some o)
    (hm : s.quote.isMultiline = false) (hi : L.lineIdx = ℓ) (hl : L.litStart.line = ℓ) :
    SFlow ℓ L s rest o := by
  unfold stringClosingQuote at h
  simp only [hm, Bool.false_eq_true, if_false, Option.bind_eq_bind, Option.bind_eq_some_iff, Option.pure_def,
    Option.some.injEq] at h
  obtain ⟨A, h1, rfl⟩ := h
  obtain ⟨T, a1, a2, a3, a4, a5⟩ := endString_line (ℓ := ℓ) h1 hi hl
  exact .inr ⟨rfl, a3, .inside (x := []) rfl (by simp) (a4.trans hi) a1 a2⟩

theorem unicodeDone_line {s : StrState} {e0 : Pos} {n cp : Nat} {c : Char} {rest : Str} {o : Flow}
    (h : unicodeDone L s e0 n c cp rest = some o) (hi : L.lineIdx = ℓ) (he : e0.line = ℓ) : SFlow ℓ L s rest o := by
  unfold unicodeDone at h
  split at h
  · cases h
    exact .cont (x := []) rfl (by simp) (.refl _ _) hi rfl rfl
  · simp only [Option.bind_eq_bind, Option.bind_eq_some_iff, Option.pure_def, Option.some.injEq] at h
    obtain ⟨p, h1, rfl⟩ := h
    exact .cont (x := []) rfl (by simp)
      ((LexOn.refl ℓ L).error (e := .invalidUnicodeCodepoint n cp ⟨e0, p.after c⟩) he) hi rfl rfl

theorem unicodeLoop_line {e0 : Pos} {n : Nat} (he : e0.line = ℓ) : ∀ {k : Nat} {L : Lexer} {s : StrState} {cp : Nat}
    {rest : Str} {o : Flow}, unicodeLoop e0 n k L s cp rest = some o → s.quote.isMultiline = false →
    L.lineIdx = ℓ → L.litStart.line = ℓ → SFlow ℓ L s rest o := by
  intro k
  induction k with
  | zero => intro L s cp rest o h; simp [unicodeLoop] at h
  | succ k ih =>
    intro L s cp rest o h hm hi hl
    cases rest with
    | nil =>
      simp only [unicodeLoop, Option.bind_eq_bind, Option.bind_eq_some_iff, Option.pure_def, Option.some.injEq] at h
      obtain ⟨p, h1, rfl⟩ := h
      exact .cont (x := []) rfl (by simp) (((LexOn.same rfl rfl rfl : LexOn ℓ L (L.atNext []) []).error
        (e := .unfinishedEscapeSequence ⟨e0, p⟩) he)) hi rfl rfl
    | cons c cs =>
      simp only [unicodeLoop, Option.bind_eq_bind, Option.bind_eq_some_iff] at h
      obtain ⟨p, hp, h⟩ := h
      have hp' : p.line = ℓ := (pos_line hp).trans hi
      have hA : LexOn ℓ L (L.atNext (c :: cs)) [] := .same rfl rfl rfl
      have goOn : ∀ {B : Lexer} {s' : StrState} {cp' : Nat}, LexOn ℓ L B [] → B.lineIdx = ℓ → B.litStart = L.litStart →
          s'.quote = s.quote → c ≠ '\n' →
          (if k = 0 then unicodeDone B s' e0 n c cp' cs else unicodeLoop e0 n k B s' cp' cs) = some o →
          SFlow ℓ L s (c :: cs) o := by
        intro B s' cp' h1 h2 h3 h4 hc h5
        refine SFlow.pre (x := [c]) rfl (by simpa using Ne.symm hc) h1 h3 h4 ?_
        split at h5
        · exact unicodeDone_line h5 h2 he
        · exact ih h5 (by rw [h4]; exact hm) h2 (by rw [h3]; exact hl)
      split at h
      · rename_i d hd
        refine goOn hA hi rfl rfl ?_ h
        rintro rfl
        rw [show unicodeDigit '\n' = none from by decide] at hd; cases hd
      · rename_i hd
        split at h
        · rename_i hc
          exact goOn (s' := s.pushChar c) (hA.error (e := .unfinishedEscapeSequence ⟨e0, p⟩) he) hi rfl rfl (by rw [hc]; decide) h
        split at h
        · rename_i hc
          subst hc
          simp only [hm, Bool.not_false, if_true] at h
          exact SFlow.pre (x := []) rfl (by simp) (hA.error (e := .unfinishedEscapeSequence ⟨e0, p⟩) he) rfl rfl
            (recoverNewline_line h hi hl)
        split at h
        · rename_i hc hc2
          exact SFlow.pre (x := [c]) rfl (by simpa using Ne.symm hc) (hA.error (e := .unfinishedEscapeSequence ⟨e0, p⟩) he) rfl rfl
            (closing_line h hm hi hl)
        · rename_i hc hc2
          exact goOn (hA.error (e := .invalidUnicodeEscapeChar c p) hp') hi rfl rfl hc h

theorem stringEscape_line {s : StrState} {e0 : Pos} {rest : Str} {o : Flow} (h : stringEscape L s e0 rest = some o)
    (he : e0.line = ℓ) (hm : s.quote.isMultiline = false) (hi : L.lineIdx = ℓ) (hl : L.litStart.line = ℓ) :
    SFlow ℓ L s rest o := by
  cases rest with
  | nil =>
    simp only [stringEscape, Option.bind_eq_bind, Option.bind_eq_some_iff, Option.pure_def, Option.some.injEq] at h
    obtain ⟨p, h1, rfl⟩ := h
    exact .cont (x := []) rfl (by simp) (((LexOn.same rfl rfl rfl : LexOn ℓ L (L.atNext []) []).error
      (e := .unfinishedEscapeSequence ⟨e0, p⟩) he)) hi rfl rfl
  | cons c cs =>
    simp only [stringEscape] at h
    have hA : LexOn ℓ L (L.atNext (c :: cs)) [] := .same rfl rfl rfl
    split at h
    · rename_i hc
      exact SFlow.pre (x := [c]) rfl (by rw [hc]; decide) hA rfl rfl (unicodeLoop_line he h hm hi hl)
    split at h
    · rename_i hc
      exact SFlow.pre (x := [c]) rfl (by rw [hc]; decide) hA rfl rfl (unicodeLoop_line he h hm hi hl)
    split at h
    · rename_i ch hch
      cases h
      refine .cont (x := [c]) rfl ?_ hA hi rfl rfl
      rw [List.mem_singleton]
      rintro rfl
      rw [show simpleEscape '\n' = none from by decide] at hch; cases hch
    · split at h
      · simp only [hm, Bool.not_false, if_true, Option.bind_eq_bind, Option.bind_eq_some_iff] at h
        obtain ⟨p, hp, h⟩ := h
        have hB := hA.error (e := .unfinishedEscapeSequence ⟨e0, p⟩) he
        split at h
        · rename_i hc
          subst hc
          exact SFlow.pre (x := []) rfl (by simp) hB rfl rfl (recoverNewline_line h hi hl)
        · rename_i hc
          cases h
          exact .cont (x := [c]) rfl (by simpa using Ne.symm hc) hB hi rfl rfl
      · rename_i hc
        simp only [Option.bind_eq_bind, Option.bind_eq_some_iff, Option.pure_def, Option.some.injEq] at h
        obtain ⟨p, hp, rfl⟩ := h
        have hp' : p.line = ℓ := (pos_line hp).trans hi
        refine .cont (x := [c]) rfl ?_ (hA.error (e := .invalidEscapeChar c p) hp') hi rfl rfl
        rw [List.mem_singleton]
        rintro rfl
        simp at hc

theorem strScan_line {q : Quote} : ∀ {rest : Str} {L L' : Lexer} {r : Option (Char × Str)},
    strScan q L rest = some (L', r) → L.lineIdx = ℓ →
    LexOn ℓ L L' [] ∧ L'.lineIdx = ℓ ∧ L'.litStart = L.litStart ∧
      ((r = none ∧ '\n' ∉ rest) ∨ ∃ x c cs, r = some (c, cs) ∧ rest = x ++ c :: cs ∧ '\n' ∉ x) := by
  intro rest
  induction rest with
  | nil =>
    intro L L' r h hi
    simp only [strScan, Option.some.injEq, Prod.mk.injEq] at h
    obtain ⟨rfl, rfl⟩ := h
    exact ⟨.same rfl rfl rfl, hi, rfl, .inl ⟨rfl, by simp⟩⟩
  | cons c cs ih =>
    intro L L' r h hi
    have key : ∀ {L1 : Lexer}, LexOn ℓ L L1 [] → L1.lineIdx = ℓ → L1.litStart = L.litStart → c ≠ '\n' →
        strScan q L1 cs = some (L', r) → LexOn ℓ L L' [] ∧ L'.lineIdx = ℓ ∧ L'.litStart = L.litStart ∧
        ((r = none ∧ '\n' ∉ c :: cs) ∨ ∃ x d ds, r = some (d, ds) ∧ c :: cs = x ++ d :: ds ∧ '\n' ∉ x) := by
      intro L1 h1 h2 h3 hc h4
      obtain ⟨g1, g2, g3, g4⟩ := ih h4 h2
      refine ⟨h1.trans g1, g2, g3.trans h3, ?_⟩
      rcases g4 with ⟨rfl, g4⟩ | ⟨x, d, ds, rfl, g4, g5⟩
      · exact .inl ⟨rfl, by simp [Ne.symm hc, g4]⟩
      · exact .inr ⟨c :: x, d, ds, rfl, by rw [g4]; rfl, by simp [Ne.symm hc, g5]⟩
    have hA : LexOn ℓ L (L.atNext (c :: cs)) [] := .same rfl rfl rfl
    simp only [strScan] at h
    split at h
    · cases h
      exact ⟨hA, hi, rfl, .inr ⟨[], c, cs, rfl, rfl, by simp⟩⟩
    rename_i hc
    have hc' : c ≠ '\n' := fun e => hc (.inr (.inl e))
    split at h
    · exact key hA hi rfl hc' h
    split at h
    · exact key hA hi rfl hc' h
    split at h
    · simp only [Option.bind_eq_bind, Option.bind_eq_some_iff] at h
      obtain ⟨p, h1, h2⟩ := h
      exact key (hA.error (e := .invalidStringChar c (Span.asciiChar p)) ((pos_line h1).trans hi)) hi rfl hc' h2
    · exact key hA hi rfl hc' h

theorem stringNewline_line {s : StrState} {rest : Str} {o : Flow} (h : stringNewline L s rest = some o)
    (hm : s.quote.isMultiline = false) (hi : L.lineIdx = ℓ) (hl : L.litStart.line = ℓ) :
    SFlow ℓ L s ('\n' :: rest) o := by
  unfold stringNewline at h
  simp only [Option.bind_eq_bind, Option.bind_eq_some_iff] at h
  obtain ⟨prev, -, le, -, h⟩ := h
  simp only [hm, Bool.not_false, if_true, Option.bind_eq_some_iff, Option.pure_def, Option.some.injEq] at h
  obtain ⟨p, h1, A, h2, rfl⟩ := h
  obtain ⟨T, a1, a2, a3, a4, a5⟩ := endString_line (ℓ := ℓ) h2 hi hl
  refine .inr ⟨rfl, a3, .across (x := []) (T := T) (nl := ⟨.newline, p⟩) rfl (by simp) a3 ?_ rfl a2⟩
  have := (((LexOn.refl ℓ L).error (e := .missingQuote s.quote ⟨L.litStart, p⟩) hl).trans a1)
  exact (LexOn.push (by simpa using this) (t := ⟨.newline, p⟩) ((posInLine_line h1).trans hi) (by simp) (by simp)).congr rfl rfl rfl

theorem pushScanned_quote {s s' : StrState} {n : Nat} (h : pushScanned L s n = some s') : s'.quote = s.quote := by
  unfold pushScanned at h
  split at h
  · simp only [Option.bind_eq_bind, Option.bind_eq_some_iff, Option.pure_def, Option.some.injEq] at h
    obtain ⟨_, -, rfl⟩ := h
    rfl
  · cases h; rfl

theorem ownText_quote {s s' : StrState} (h : ownText L s = some s') : s'.quote = s.quote := by
  unfold ownText at h
  split at h
  · cases h; rfl
  · simp only [Option.bind_eq_bind, Option.bind_eq_some_iff, Option.pure_def, Option.some.injEq] at h
    obtain ⟨_, -, rfl⟩ := h
    rfl

theorem stringIter_line {s : StrState} {rest : Str} {o : Flow} (h : stringIter L s rest = some o)
    (hm : s.quote.isMultiline = false) (hi : L.lineIdx = ℓ) (hl : L.litStart.line = ℓ) : SFlow ℓ L s rest o := by
  unfold stringIter at h
  simp only [Option.bind_eq_bind, Option.bind_eq_some_iff] at h
  obtain ⟨⟨A, r⟩, h1, h⟩ := h
  obtain ⟨a1, a2, a3, a4⟩ := strScan_line h1 hi
  have hl' : A.litStart.line = ℓ := by rw [a3]; exact hl
  rcases a4 with ⟨rfl, a4⟩ | ⟨x, c, cs, rfl, a4, a5⟩
  · simp only [Option.bind_eq_some_iff, Option.pure_def, Option.some.injEq] at h
    obtain ⟨p, -, B, h2, rfl⟩ := h
    obtain ⟨T, b1, b2, b3, b4, b5⟩ := endString_line (ℓ := ℓ) h2 a2 hl'
    exact .inr ⟨rfl, b3, .inside (x := rest) (by simp) a4 (b4.trans a2)
      (by simpa using (a1.error (e := .missingQuote s.quote ⟨A.litStart, p⟩) hl').trans b1) b2⟩
  · simp only [Option.bind_eq_some_iff] at h
    obtain ⟨s1, h2, h⟩ := h
    have hq := pushScanned_quote h2
    rw [← hq] at hm
    split at h
    · rename_i hc
      refine SFlow.pre (x := x ++ [c]) (by rw [a4]; simp) ?_ a1 a3 hq (closing_line h hm a2 hl')
      simp only [List.mem_append, List.mem_singleton, a5, false_or]
      rw [hc]
      cases s1.quote <;> decide
    split at h
    · rename_i hc
      subst hc
      exact SFlow.pre a4 a5 a1 a3 hq (stringNewline_line h hm a2 hl')
    rename_i hc
    have hx : '\n' ∉ x ++ [c] := by simp [a5, Ne.symm hc]
    split at h
    · simp only [Option.bind_eq_some_iff] at h
      obtain ⟨s2, h3, p, h4, h⟩ := h
      have hq2 := ownText_quote h3
      exact SFlow.pre (x := x ++ [c]) (by rw [a4]; simp) hx a1 a3 (hq2.trans hq)
        (stringEscape_line h ((pos_line h4).trans a2) (by rw [hq2]; exact hm) a2 hl')
    · cases h
      exact .cont (x := x ++ [c]) (by rw [a4]; simp) hx a1 a2 a3 hq

theorem stringLoop_line : ∀ {n : Nat} {L : Lexer} {s : StrState} {rest : Str} {o : Lexer × Str},
    stringLoop n L s rest = some o → s.quote.isMultiline = false → L.lineIdx = ℓ → L.litStart.line = ℓ →
    LexWent ℓ QuietToks L rest o.1 o.2 ∧ o.1.inLit = false := by
  intro n
  induction n with
  | zero => intro L s rest o h; simp [stringLoop] at h
  | succ n ih =>
    intro L s rest o h hm hi hl
    simp only [stringLoop, Option.bind_eq_bind, Option.bind_eq_some_iff] at h
    obtain ⟨⟨A, s', rest', b⟩, h1, h⟩ := h
    rcases stringIter_line h1 hm hi hl with ⟨g1, g2, g3, x, T, g4, g5, g6, g7, g8⟩ | ⟨g1, g2, g3⟩
    · dsimp only at *
      subst g1
      rw [if_pos rfl] at h
      obtain ⟨k1, k2⟩ := ih h (by rw [g3]; exact hm) g6 (by rw [g2]; exact hl)
      exact ⟨k1.pre g4 g5 g7 g8, k2⟩
    · dsimp only at *
      subst g1
      rw [if_neg (by simp)] at h
      cases h
      exact ⟨g3, g2⟩

theorem startString_line {q : Quote} {rest : Str} {o : Lexer × Str} (h : startString L q rest = some o)
    (hm : q.isMultiline = false) (hi : L.lineIdx = ℓ) (hl : L.litStart.line = ℓ) :
    LexWent ℓ QuietToks L rest o.1 o.2 ∧ o.1.inLit = false := by
  unfold startString at h
  simp only [Option.bind_eq_bind, Option.bind_eq_some_iff] at h
  obtain ⟨p, -, h⟩ := h
  exact stringLoop_line h hm hi hl

theorem emptyString_line {q : Quote} (h : emptyString L q = some L') (hl : L.litStart.line = ℓ) :
    ∃ T, LexOn ℓ L L' T ∧ QuietToks T ∧ L'.inLit = L.inLit ∧ L'.lineIdx = L.lineIdx := by
  unfold emptyString at h
  simp only [Option.bind_eq_bind, Option.bind_eq_some_iff, Option.pure_def, Option.some.injEq] at h
  obtain ⟨p, h1, lit, -, text, -, tok, h2, rfl⟩ := h
  simp only [StringToken.new, Option.bind_eq_bind, Option.bind_eq_some_iff, Option.pure_def,
    Option.some.injEq] at h2
  obtain ⟨off, -, rfl⟩ := h2
  refine ⟨[⟨.string L.strings.length, L.litStart⟩], ?_, ?_, rfl, rfl⟩
  · refine ⟨rfl, List.prefix_append _ _, ?_, [], by simp [Lexer.push, Lexer.storeString], by simp⟩
    intro t ht
    rw [List.mem_singleton.1 ht]
    refine ⟨hl, by simp, ?_⟩
    intro id hid
    simp only [TokenType.string.injEq] at hid
    subst hid
    exact ⟨_, List.getElem?_concat_length, hl⟩
  · intro t ht
    rw [List.mem_singleton.1 ht]
    simp

theorem quoteCase_line {c : Char} {rest : Str} {o : Lexer × Str} (hc : c = '"' ∨ c = '\'')
    (h : quoteCase L c rest = some o) (hi : L.lineIdx = ℓ) (hl : L.inLit = true → L.litStart.line = ℓ)
    (h3 : ¬ ∃ t, rest = c :: c :: t) : LexWent ℓ QuietToks L rest o.1 o.2 ∧ o.1.inLit = false := by
  unfold quoteCase at h
  simp only [Option.bind_eq_bind, Option.bind_eq_some_iff] at h
  obtain ⟨A, a1, p, a2, h⟩ := h
  obtain ⟨T, b1, b2, b3, b4⟩ := endLiteral_line a1 hl
  have hp : p.line = ℓ := by rw [pos_line a2, b4, hi]
  have hcn : c ≠ '\n' := (quote_size hc).2
  generalize hB : ({ A with litByteStart := A.bytePos, litStart := p } : Lexer) = B at h
  have hBl : B.litStart.line = ℓ := by rw [← hB]; exact hp
  have hBi : B.lineIdx = ℓ := by rw [← hB]; exact b4.trans hi
  have hBn : B.inLit = false := by rw [← hB]; exact b3
  have hBo : LexOn ℓ L B T := b1.congr (by rw [← hB]) (by rw [← hB]) (by rw [← hB])
  split at h
  · rename_i hr
    obtain ⟨r, rfl⟩ : ∃ r, rest = c :: r := by
      cases rest with
      | nil => cases hr
      | cons d r => simp at hr; exact ⟨r, by rw [hr]⟩
    rw [if_neg (by
      intro hh
      cases r with
      | nil => cases hh
      | cons d r => simp at hh; exact h3 ⟨r, by rw [hh]⟩)] at h
    simp only [Option.bind_eq_some_iff, Option.pure_def, Option.some.injEq] at h
    obtain ⟨C, h1, rfl⟩ := h
    obtain ⟨T', c1, c2, c3, c4⟩ := emptyString_line (ℓ := ℓ) h1 hBl
    refine ⟨.inside (x := [c]) rfl (by simpa using Ne.symm hcn) (c4.trans hBi)
      ((hBo.congr (L' := B.atNext (c :: r)) rfl rfl rfl).trans c1) (b2.append c2), c3.trans hBn⟩
  · have hm : (if c = '"' then Quote.basic else Quote.literal).isMultiline = false := by split <;> rfl
    obtain ⟨k1, k2⟩ := startString_line h hm hBi hBl
    exact ⟨k1.pre (x := []) rfl (by simp) hBo b2, k2⟩

/-! ## The loop -/

/-- The tokens pushed for the character `c`. -/
def StepToks (c : Char) (T : List Token) : Prop :=
  QuietToks T ∨ ∃ W ty p, QuietToks W ∧ punct c = some ty ∧ T = W ++ [⟨ty, p⟩]

theorem lexStep_line {c : Char} {cs : Str} {o : Lexer × Str} (h : lexStep L c cs = some o) (hi : L.lineIdx = ℓ)
    (hl : L.inLit = true → L.litStart.line = ℓ) (h3 : (c = '"' ∨ c = '\'') → ¬ ∃ t, cs = c :: c :: t) :
    LexWent ℓ (StepToks c) L (c :: cs) o.1 o.2 ∧ (o.1.inLit = true → o.1.litStart.line = ℓ) := by
  unfold lexStep at h
  have hA : LexOn ℓ L (L.atNext (c :: cs)) [] := .same rfl rfl rfl
  have hAi : (L.atNext (c :: cs)).lineIdx = ℓ := hi
  have hAl : (L.atNext (c :: cs)).inLit = true → (L.atNext (c :: cs)).litStart.line = ℓ := hl
  generalize L.atNext (c :: cs) = A at *
  dsimp only at h
  have quiet : ∀ {L' : Lexer} {r : Str}, c ≠ '\n' → LexWent ℓ QuietToks A cs L' r → LexWent ℓ (StepToks c) L (c :: cs) L' r := by
    intro L' r hc hw
    cases hw.pre (x := [c]) (rest := c :: cs) rfl (by simpa using Ne.symm hc) hA .nil with
    | inside h1 h2 h3 h4 h5 => exact .inside h1 h2 h3 h4 (.inl h5)
    | across h1 h2 h3 h4 h5 h6 => exact .across h1 h2 h3 h4 h5 (.inl h6)
  split at h
  · rename_i h1
    obtain ⟨rfl, hh⟩ := h1
    obtain ⟨r, rfl⟩ : ∃ r, cs = '\n' :: r := by
      cases cs with
      | nil => cases hh
      | cons d r => simp at hh; exact ⟨r, by rw [hh]⟩
    simp only [Option.bind_eq_bind, Option.bind_eq_some_iff, Option.pure_def, Option.some.injEq, List.tail_cons] at h
    obtain ⟨B, h1, rfl⟩ := h
    obtain ⟨T, p, a1, a2, a3, a4⟩ := charToken_line (ℓ := ℓ) h1 hAl hAi (by simp) (by simp)
    refine ⟨.across (x := ['\r']) rfl (by decide) a3 ((by simpa using hA.trans a1 : LexOn ℓ L B _).congr rfl rfl rfl) rfl (.inl a2), ?_⟩
    intro hh
    have : B.inLit = true := hh
    rw [a3] at this; cases this
  split at h
  · rename_i h2
    subst h2
    simp only [Option.bind_eq_bind, Option.bind_eq_some_iff, Option.pure_def, Option.some.injEq] at h
    obtain ⟨B, h1, rfl⟩ := h
    obtain ⟨T, p, a1, a2, a3, a4⟩ := charToken_line (ℓ := ℓ) h1 hAl hAi (by simp) (by simp)
    refine ⟨.across (x := []) rfl (by simp) a3 ((by simpa using hA.trans a1 : LexOn ℓ L B _).congr rfl rfl rfl) rfl (.inl a2), ?_⟩
    intro hh
    have : B.inLit = true := hh
    rw [a3] at this; cases this
  rename_i hcn
  split at h
  · simp only [Option.bind_eq_bind, Option.bind_eq_some_iff, Option.pure_def, Option.some.injEq] at h
    obtain ⟨B, h1, rfl⟩ := h
    obtain ⟨T, a1, a2, a3, a4⟩ := endLiteral_line h1 hAl
    exact ⟨quiet hcn (.inside (x := []) rfl (by simp) (a4.trans hAi) a1 a2), fun hh => by
      have : B.inLit = true := hh
      rw [a3] at this; cases this⟩
  split at h
  · rename_i hq
    obtain ⟨k1, k2⟩ := quoteCase_line hq h hAi hAl (h3 hq)
    exact ⟨quiet hcn k1, fun hh => by rw [k2] at hh; cases hh⟩
  split at h
  · rename_i ty hty
    simp only [Option.bind_eq_bind, Option.bind_eq_some_iff, Option.pure_def, Option.some.injEq] at h
    obtain ⟨B, h1, rfl⟩ := h
    obtain ⟨T, p, a1, a2, a3, a4⟩ := charToken_line (ℓ := ℓ) h1 hAl hAi (by
      rintro rfl; unfold punct at hty; repeat' split at hty
      all_goals cases hty) (punct_ne hty)
    refine ⟨.inside (x := [c]) rfl (by simpa using Ne.symm hcn) (a4.trans hAi) (hA.trans a1)
      (.inr ⟨T, ty, p, a2, hty, rfl⟩), fun hh => by
      have : B.inLit = true := hh
      rw [a3] at this; cases this⟩
  · split at h
    · obtain ⟨k1, k2⟩ := comment_line h hAi hAl
      exact ⟨quiet hcn k1, fun hh => by rw [k2] at hh; cases hh⟩
    · simp only [Option.bind_eq_bind, Option.bind_eq_some_iff, Option.pure_def, Option.some.injEq] at h
      obtain ⟨B, h1, rfl⟩ := h
      unfold startLiteral at h1
      split at h1
      · cases h1
        exact ⟨quiet hcn (.inside (x := []) rfl (by simp) hAi (.refl _ _) .nil), hAl⟩
      · simp only [Option.bind_eq_bind, Option.bind_eq_some_iff, Option.pure_def, Option.some.injEq] at h1
        obtain ⟨p, h1, rfl⟩ := h1
        exact ⟨quiet hcn (.inside (x := []) rfl (by simp) hAi (.same rfl rfl rfl) .nil),
          fun _ => (pos_line h1).trans hAi⟩

end Verif.Toml
