import Verif.Toml.LexQuote
import Verif.Toml.NumLemmas

/-! # Lemmas: escapes -/

namespace Verif.Toml
open Verif Verif.Spec.Toml

theorem FlowPost.pre {L L1 : Lexer} {q : Quote} {pre0 o src src1 : Str} {C C1 : Str → Prop}
    {es1 : List Error} {out : Flow} (hs : SameToks L L1) (he : L1.errors = L.errors ++ es1)
    (hsp : SpansIn L.input es1) (hlen : src1.length ≤ src.length)
    (hC : ∀ T, C T →
      (es1 = [] ∧ ∃ D, C1 (T ++ D) ∧
        ∀ txt r, StrTail q src txt r ↔ ∃ t, txt = D ++ t ∧ StrTail q src1 t r) ∨
      (es1 ≠ [] ∧ ∀ txt r, ¬ StrTail q src txt r))
    (h : FlowPost L1 q pre0 o src1 C1 out) : FlowPost L q pre0 o src C out := by
  cases h with
  | @cont L' s' rest' es b' h1 h2 h3 h4 h5 h6 h7 =>
    refine .cont (es := es1 ++ es) h1 (by rw [h2, he, List.append_assoc])
      (hsp.append (by rw [← hs.input]; exact h3)) h4 (hs.trans h5) (by omega) ?_
    intro T hT
    rcases hC T hT with ⟨rfl, D, hD, hD'⟩ | ⟨hne, hno⟩
    · rcases h7 _ hD with ⟨rfl, D1, hc, ht⟩ | ⟨hne, hno⟩
      · refine .inl ⟨rfl, D ++ D1, by rwa [← List.append_assoc], fun txt r => ?_⟩
        rw [hD']
        constructor
        · rintro ⟨t, rfl, h⟩
          obtain ⟨t', rfl, h'⟩ := (ht _ _).1 h
          exact ⟨t', by simp, h'⟩
        · rintro ⟨t, rfl, h⟩
          exact ⟨D1 ++ t, by simp, (ht _ _).2 ⟨t, rfl, h⟩⟩
      · refine .inr ⟨by simpa using hne, fun txt r h => ?_⟩
        obtain ⟨t, -, h'⟩ := (hD' _ _).1 h
        exact hno _ _ h'
    · exact .inr ⟨by simp [hne], hno⟩
  | @done L' s' rest' es lit nl txt' h1 h2 h3 h4 h5 =>
    refine .done (es := es1 ++ es) (by rw [h1, he, List.append_assoc])
      (hsp.append (by rw [← hs.input]; exact h2)) (lit := lit) (nl := nl) (txt' := txt') ?_
      (by omega) ?_
    · refine ⟨h3.st, h3.head, h3.oneLine, h3.nlOk, h3.inLit, h3.inputEq.trans hs.input, h3.literals.trans hs.literals, ?_, ?_⟩
      · obtain ⟨o1, t1, d1, g1, g2, g3, g5, g6, g4⟩ := h3.strings
        refine ⟨o1, t1, d1, g1, g2, g3, fun hE => g5 ?_, g6, by rw [← hs.strings]; exact g4⟩
        rw [h1, he, List.append_assoc] at hE
        have hnil := List.append_right_eq_self.1 hE
        rw [h1, (List.append_eq_nil_iff.1 hnil).2, List.append_nil]
      · rw [← hs.strings, ← hs.tokens]; exact h3.tokens
    · intro T hT
      rcases hC T hT with ⟨rfl, D, hD, hD'⟩ | ⟨hne, hno⟩
      · rcases h5 _ hD with ⟨rfl, hnl, D1, hc, ht⟩ | ⟨hne, hno⟩
        · refine .inl ⟨rfl, hnl, D ++ D1, by rwa [← List.append_assoc], fun txt r => ?_⟩
          rw [hD']
          constructor
          · rintro ⟨t, rfl, h⟩
            obtain ⟨rfl, h'⟩ := (ht _ _).1 h
            exact ⟨rfl, h'⟩
          · rintro ⟨rfl, h⟩
            exact ⟨D1, rfl, (ht _ _).2 ⟨rfl, h⟩⟩
        · refine .inr ⟨by simpa using hne, fun txt r h => ?_⟩
          obtain ⟨t, -, h'⟩ := (hD' _ _).1 h
          exact hno _ _ h'
      · exact .inr ⟨by simp [hne], hno⟩

/-- After an error that rules out the grammar, only positions matter. -/
theorem FlowPost.dirty {L L1 : Lexer} {q : Quote} {pre0 o src src1 : Str} {C : Str → Prop}
    {es1 : List Error} {out : Flow} (hs : SameToks L L1) (he : L1.errors = L.errors ++ es1)
    (hsp : SpansIn L.input es1) (hlen : src1.length ≤ src.length) (hne : es1 ≠ [])
    (hno : ∀ T, C T → ∀ txt r, ¬ StrTail q src txt r) {C1 : Str → Prop}
    (h : FlowPost L1 q pre0 o src1 C1 out) : FlowPost L q pre0 o src C out :=
  FlowPost.pre hs he hsp hlen (fun T hT => .inr ⟨hne, hno T hT⟩) h

/-! ## Grammar lemmas -/

theorem strTail_bs_head {q : Quote} {c : Char} {cs txt r : Str} (hb : hasEscapes q = true)
    (hc : isTrimmed c = false) :
    StrTail q ('\\' :: c :: cs) txt r ↔
      ∃ e ch s t, c :: cs = e ++ s ∧ Escape e ch ∧ txt = ch :: t ∧ StrTail q s t r := by
  rw [strTail_bs hb]
  constructor
  · rintro (h | ⟨-, w, s, h1, h2, h3, -⟩)
    · exact h
    · cases w with
      | nil => cases h3
      | cons x w =>
        rw [List.cons_append, List.cons.injEq] at h1
        have := h2 x (by simp)
        rw [← h1.1, hc] at this
        cases this
  · exact .inl

/-- The number of digits of a unicode escape. -/
def uniLen (u : Char) : Nat := if u = 'u' then 4 else 8

theorem escape_uni {u : Char} (hu : u = 'u' ∨ u = 'U') {e' : Str} {ch : Char} :
    Escape (u :: e') ch ↔ e'.length = uniLen u ∧ (∀ c ∈ e', digitOf c < 16) ∧
      (numeral 16 e').isValidChar ∧ ch = Char.ofNat (numeral 16 e') := by
  constructor
  · intro h
    generalize he : u :: e' = e at h
    cases h with
    | unicode4 h1 h2 h3 => cases he; exact ⟨h1, h2, h3, rfl⟩
    | unicode8 h1 h2 h3 => cases he; exact ⟨h1, h2, h3, rfl⟩
    | _ => cases he; rcases hu with h | h <;> cases h
  · rintro ⟨h1, h2, h3, rfl⟩
    rcases hu with rfl | rfl
    · exact .unicode4 h1 h2 h3
    · exact .unicode8 h1 h2 h3

theorem strTail_uni {q : Quote} {u : Char} (hu : u = 'u' ∨ u = 'U') (hb : hasEscapes q = true)
    {cs txt r : Str} :
    StrTail q ('\\' :: u :: cs) txt r ↔ ∃ h s t, cs = h ++ s ∧ h.length = uniLen u ∧
      (∀ c ∈ h, digitOf c < 16) ∧ (numeral 16 h).isValidChar ∧
      txt = Char.ofNat (numeral 16 h) :: t ∧ StrTail q s t r := by
  rw [strTail_bs_head hb (by rcases hu with rfl | rfl <;> decide)]
  constructor
  · rintro ⟨e, ch, s, t, h1, h2, rfl, h4⟩
    cases e with
    | nil => cases h2
    | cons x e' =>
      rw [List.cons_append, List.cons.injEq] at h1
      obtain ⟨rfl, rfl⟩ := h1
      obtain ⟨g1, g2, g3, rfl⟩ := (escape_uni hu).1 h2
      exact ⟨e', s, t, rfl, g1, g2, g3, rfl, h4⟩
  · rintro ⟨h, s, t, rfl, g1, g2, g3, rfl, h4⟩
    exact ⟨u :: h, _, s, t, rfl, (escape_uni hu).2 ⟨g1, g2, g3, rfl⟩, rfl, h4⟩

theorem strTail_uni_ok {q : Quote} {u : Char} (hu : u = 'u' ∨ u = 'U') (hb : hasEscapes q = true)
    {h rest txt r : Str} (hl : h.length = uniLen u) (hh : ∀ c ∈ h, digitOf c < 16) :
    StrTail q ('\\' :: u :: (h ++ rest)) txt r ↔ (numeral 16 h).isValidChar ∧
      ∃ t, txt = [Char.ofNat (numeral 16 h)] ++ t ∧ StrTail q rest t r := by
  rw [strTail_uni hu hb]
  constructor
  · rintro ⟨h', s, t, h1, h2, h3, h4, rfl, h5⟩
    obtain ⟨rfl, rfl⟩ := List.append_inj h1 (by rw [hl, h2])
    exact ⟨h4, t, rfl, h5⟩
  · rintro ⟨h4, t, rfl, h5⟩
    exact ⟨h, rest, t, rfl, hl, hh, h4, rfl, h5⟩

theorem strTail_uni_bad {q : Quote} {u : Char} (hu : u = 'u' ∨ u = 'U') (hb : hasEscapes q = true)
    {h rest txt r : Str} (hl : h.length < uniLen u)
    (hc : ∀ c, rest.head? = some c → ¬ digitOf c < 16) :
    ¬ StrTail q ('\\' :: u :: (h ++ rest)) txt r := by
  rw [strTail_uni hu hb]
  rintro ⟨h', s, t, h1, h2, h3, -⟩
  have h4 := congrArg (fun l => l[h.length]?) h1
  simp only [List.getElem?_append_right (Nat.le_refl _), Nat.sub_self] at h4
  rw [List.getElem?_append_left (by omega)] at h4
  rw [← List.head?_eq_getElem?, List.getElem?_eq_getElem (by omega)] at h4
  exact hc _ h4 (h3 _ (List.getElem_mem _))

/-! ## Unicode escapes -/

theorem unicodeDigit_eq (c : Char) :
    unicodeDigit c = if digitOf c < 16 then some (digitOf c) else none := by
  unfold unicodeDigit digitOf isDigit
  have e : (decide ('0' ≤ c) && decide (c ≤ '9')) = true ↔ '0' ≤ c ∧ c ≤ '9' := by simp
  simp only [e]
  by_cases h1 : '0' ≤ c ∧ c ≤ '9'
  · simp only [if_pos h1]
    have : c.toNat ≤ 57 := h1.2
    rw [if_pos (by omega)]; rfl
  · simp only [if_neg h1]
    by_cases h2 : 'a' ≤ c ∧ c ≤ 'f'
    · simp only [if_pos h2]
      have g1 : 97 ≤ c.toNat := h2.1
      have g2 : c.toNat ≤ 102 := h2.2
      rw [if_pos (by omega)]
      congr 1
      show c.toNat - 97 + 10 = _
      omega
    · simp only [if_neg h2]
      by_cases h3 : 'A' ≤ c ∧ c ≤ 'F'
      · simp only [if_pos h3]
        have g1 : 65 ≤ c.toNat := h3.1
        have g2 : c.toNat ≤ 70 := h3.2
        rw [if_pos (by omega)]
        congr 1
        show c.toNat - 65 + 10 = _
        omega
      · simp [if_neg h3]

theorem charFromU32_eq (n : Nat) :
    charFromU32 n = if n.isValidChar then some (Char.ofNat n) else none := rfl

theorem numeral_snoc16 {h : Str} {c : Char} (hc : digitOf c < 16) :
    numeral 16 (h ++ [c]) = numeral 16 h * 16 + digitOf c := by
  have : c ≠ '_' := by rintro rfl; exact absurd hc (by decide)
  simp [numeral, List.foldl_append, this]

theorem SInv.newline {L : Lexer} {s : StrState} {pre0 o b cs : Str}
    (h : SInv L s pre0 o b ('\n' :: cs)) (hb : L.bytePos = blen (pre0 ++ o ++ b))
    (hm : isMulti s.quote = true) : SInv L.newline s pre0 o (b ++ ['\n']) cs :=
  ⟨h.opening, by simpa using h.st.newline hb, h.lbs, h.ls, h.tbs, h.ts, fun hf => (by rw [hm] at hf; cases hf),
    fun hf => (by rw [hm] at hf; cases hf), .snoc h.open_.unclosed (quoteChar_ne_nl _).symm⟩

/-- A character that is not a quote. -/
theorem SInv.stepNe {L : Lexer} {s : StrState} {pre0 o b cs : Str} {c : Char}
    (h : SInv L s pre0 o b (c :: cs)) (hc : c ≠ '\n') (hq : c ≠ quoteChar s.quote) :
    SInv L s pre0 o (b ++ [c]) cs := h.step hc (.snoc h.open_.unclosed hq)

theorem quoteChar_esc {q : Quote} (hq : hasEscapes q = true) : quoteChar q = '"' := by
  revert hq; cases q <;> simp [hasEscapes, quoteChar]

theorem SInv.pos {L : Lexer} {s : StrState} {pre0 o b rest : Str}
    (h : SInv L s pre0 o b rest) (hb : L.bytePos = blen (pre0 ++ o ++ b)) :
    L.pos = some (posOf (pre0 ++ o ++ b)) := h.st.pos hb

theorem SInv.atNext {L : Lexer} {s : StrState} {pre0 o b rest : Str}
    (h : SInv L s pre0 o b rest) : SInv (L.atNext rest) s pre0 o b rest :=
  h.congr ((SameToks.refl L).atNext _) rfl rfl rfl rfl rfl id

theorem SInv.error {L : Lexer} {s : StrState} {pre0 o b rest : Str}
    (h : SInv L s pre0 o b rest) (e : Error) : SInv (L.error e) s pre0 o b rest :=
  h.congr ((SameToks.refl L).error _) rfl rfl rfl rfl rfl id

theorem SInv.text {L : Lexer} {s : StrState} {pre0 o b rest : Str} {t : Option Str}
    (h : SInv L s pre0 o b rest) (ht : s.text = none → t = none := by (intro h; simp [h, StrState.pushChar])) :
    SInv L { s with text := t } pre0 o b rest :=
  h.congr (SameToks.refl L) rfl rfl rfl rfl rfl ht

theorem recoverNewline_post {L : Lexer} {s : StrState} {pre0 o b cs : Str} {C : Str → Prop}
    (h : SInv L s pre0 o b ('\n' :: cs)) (hb : L.bytePos = blen (pre0 ++ o ++ b))
    (hm : isMulti s.quote = false) :
    ∃ out, recoverNewline L s cs = some out ∧
      FlowPost L s.quote pre0 o ('\n' :: cs) C out := by
  have hin := h.st.input
  unfold recoverNewline
  rw [h.pos hb]
  simp only [Option.bind_eq_bind, Option.bind_some]
  generalize he : Error.missingQuote s.quote ⟨L.litStart, posOf (pre0 ++ o ++ b)⟩ = e
  have hA := h.error e
  have p : (L.error e).posInLine L.bytePos = some (posOf (pre0 ++ o ++ b)) := hA.pos hb
  have hend := endString_eq hA (t := b) (d := []) (r := '\n' :: cs) (te := L.bytePos)
    (le := L.bytePos) (by simpa [Lexer.error] using hin) (by simp) hb (by simpa using hb) p
    (by simpa using p)
  have hbb : (L.error e).bytePos = L.bytePos := rfl
  rw [hbb, hend]
  simp only [Option.bind_some]
  generalize hB : endStringL (L.error e) (tokOf s pre0 o b []) = B
  have hBst : St B (pre0 ++ o ++ b) ('\n' :: cs) := by rw [← hB]; exact hA.st.congr rfl rfl rfl
  have hBb : B.bytePos = blen (pre0 ++ o ++ b) := by rw [← hB]; exact hb
  have hBi : B.inLit = false := by rw [← hB]; rfl
  have hnt : newlineToken B = some (B.push ⟨.newline, posOf (pre0 ++ o ++ b)⟩) := by
    unfold newlineToken charToken endLiteral
    simp [hBi, hBst.pos hBb]
  rw [hnt]
  simp only [Option.bind_some]
  have hst : St (B.push ⟨.newline, posOf (pre0 ++ o ++ b)⟩) (pre0 ++ o ++ b) ('\n' :: cs) :=
    hBst.congr rfl rfl rfl
  refine ⟨_, rfl, .done (es := [e]) (lit := o ++ b) (nl := ['\n']) (txt' := s.text.getD b) ?_ ?_ ?_
    (by simp) ?_⟩
  · show B.errors = _
    rw [← hB]; rfl
  · refine SpansIn.one (x := pre0) (y := o ++ b) (z := '\n' :: cs) (by simpa using hin) ?_ (by
      subst he
      exact ⟨o, b, [], h.opening, by simp, h.open_.unclosed, fun hm => ⟨rfl, by
        simpa using lit_oneLine (d := []) h.opening (by simp) h.oneLine hm, .inr ⟨['\n'], cs, .inl rfl, rfl⟩⟩,
        fun hf => (by rw [hm] at hf; cases hf)⟩)
    rw [← he]
    show Span.mk _ _ = _
    rw [h.ls, List.append_assoc]
  · refine ⟨?_, h.opening.head _, fun hm => by simpa using lit_oneLine (d := []) h.opening (by simp) h.oneLine hm, .inr (.inl rfl), ?_, ?_, ?_,
      ⟨o, b, [], h.opening, by simp, by simp, ?_, fun hm => ⟨by simp, fun hb => by rw [h.plain hm hb (by simp)]; rfl⟩, ?_⟩, ?_⟩
    · have := hst.newline hBb
      simpa using this
    · show B.inLit = false
      exact hBi
    · show B.input = _
      rw [← hB]; rfl
    · show B.literals = _
      rw [← hB]; rfl
    · intro hE
      have hE' : B.errors = L.errors := hE
      rw [← hB] at hE'
      simp [endStringL, Lexer.error] at hE'
    · show B.strings = _
      rw [← hB]; simp [endStringL, tokOf, Lexer.error]
    · show B.tokens ++ _ = _
      rw [← hB]; simp [endStringL, Lexer.error, h.ls]
  · intro T _
    refine .inr ⟨by simp, fun txt r => ?_⟩
    rw [strTail_nl, hm]
    simp

/-- What is known while the digits of a unicode escape are read. -/
def UniC (u : Char) (k : Nat) (s : StrState) (src rest : Str) (cp : Nat) (T : Str) : Prop :=
  s.text = some T ∧ ∃ h0, src = '\\' :: u :: (h0 ++ rest) ∧ (∀ c ∈ h0, digitOf c < 16) ∧
    h0.length + k = uniLen u ∧ cp = numeral 16 h0 * 16 ^ k

theorem letter_of {u : Char} (hu : u = 'u' ∨ u = 'U') : UnicodeLetter u (uniLen u) := by
  rcases hu with rfl | rfl
  · exact .four
  · exact .eight

/-- The text of the escape so far: the digits still to come count as zero. -/
def UniY (u : Char) (k : Nat) (y : Str) (cp : Nat) : Prop :=
  ∃ w, y = '\\' :: u :: w ∧ w.length + k = uniLen u ∧ cp = hexValue w * 16 ^ k

theorem hexValue_snoc (w : Str) (c : Char) :
    hexValue (w ++ [c]) = hexValue w * 16 + (if digitOf c < 16 then digitOf c else 0) := by
  simp [hexValue, List.foldl_append]

theorem UniY.digit {u : Char} {k : Nat} {y : Str} {cp : Nat} {c : Char} (h : UniY u (k + 1) y cp)
    (hd : digitOf c < 16) : UniY u k (y ++ [c]) (cp + digitOf c * 2 ^ (k * 4)) := by
  obtain ⟨w, rfl, h2, rfl⟩ := h
  refine ⟨w ++ [c], by simp, by simp; omega, ?_⟩
  rw [hexValue_snoc, if_pos hd, Nat.add_mul, Nat.mul_comm k 4, Nat.pow_mul, Nat.mul_assoc (hexValue w),
    ← Nat.pow_succ']

theorem UniY.other {u : Char} {k : Nat} {y : Str} {cp : Nat} {c : Char} (h : UniY u (k + 1) y cp)
    (hd : ¬ digitOf c < 16) : UniY u k (y ++ [c]) cp := by
  obtain ⟨w, rfl, h2, rfl⟩ := h
  refine ⟨w ++ [c], by simp, by simp; omega, ?_⟩
  rw [hexValue_snoc, if_neg hd, Nat.pow_succ', Nat.add_mul, Nat.zero_mul, Nat.add_zero, Nat.mul_assoc]

theorem UniY.short {u : Char} {k : Nat} {y : Str} {cp : Nat} (h : UniY u (k + 1) y cp) :
    ∃ w, y = '\\' :: u :: w ∧ w.length < uniLen u := by
  obtain ⟨w, h1, h2, -⟩ := h
  exact ⟨w, h1, by omega⟩

theorem UniY.told {u : Char} (hu : u = 'u' ∨ u = 'U') {k : Nat} {x y z : Str} {cp : Nat} {q : Quote}
    {sp : Span} (h : UniY u (k + 1) y cp) (hi : InString q x) (hq : hasEscapes q = true)
    (hz : z = [] ∨ ∃ c, z.head? = some c ∧ (c = ' ' ∨ c = '\n' ∨ c = '"')) :
    LexTrue x y z (.unfinishedEscapeSequence sp) := by
  obtain ⟨w, h1, h2⟩ := h.short
  exact ⟨q, hi, hq, .inr ⟨u, _, w, h1, letter_of hu, h2, hz⟩⟩

theorem UniC.bad {u : Char} (hu : u = 'u' ∨ u = 'U') {k : Nat} {s : StrState} {q : Quote}
    (hq : hasEscapes q = true) {src rest T : Str} {cp : Nat} (h : UniC u (k + 1) s src rest cp T)
    (hc : ∀ c, rest.head? = some c → ¬ digitOf c < 16) :
    ∀ txt r, ¬ StrTail q src txt r := by
  obtain ⟨-, h0, rfl, -, hl, -⟩ := h
  intro txt r
  exact strTail_uni_bad hu hq (by omega) hc

theorem unicodeDone_post {L : Lexer} {s : StrState} {pre0 o b rest src : Str} {c u : Char}
    {C : Str → Prop} {x y : Str} {n cp : Nat}
    (hu : u = 'u' ∨ u = 'U') (hq : hasEscapes s.quote = true)
    (h : SInv L s pre0 o (b ++ [c]) rest) (hb : L.bytePos = blen (pre0 ++ o ++ b)) (hc : c ≠ '\n')
    (hx : pre0 ++ o ++ b = x ++ y) (hlen : rest.length < src.length)
    (hi : InString s.quote x) (hun : n = uniLen u) (hy : UniY u 0 (y ++ [c]) cp)
    (hC : ∀ T, C T → UniC u 0 s src rest cp T ∧ c ≠ '\r') :
    ∃ out, unicodeDone L s (posOf x) n c cp rest = some out ∧
      FlowPost L s.quote pre0 o src C out := by
  have hin := h.st.input
  have htail : ∀ T, C T → (s.text = some T ∧ c ≠ '\r') ∧ ∀ txt r, StrTail s.quote src txt r ↔ cp.isValidChar ∧
      ∃ t, txt = [Char.ofNat cp] ++ t ∧ StrTail s.quote rest t r := by
    intro T hT
    obtain ⟨⟨h1, h0, rfl, h3, h4, h5⟩, hcr⟩ := hC T hT
    rw [Nat.pow_zero, Nat.mul_one] at h5
    subst h5
    exact ⟨⟨h1, hcr⟩, fun txt r => strTail_uni_ok hu hq (by omega) h3⟩
  unfold unicodeDone
  rw [charFromU32_eq]
  by_cases hv : cp.isValidChar
  · simp only [if_pos hv]
    refine ⟨_, rfl, .cont (es := []) (b' := b ++ [c]) rfl (by simp) SpansIn.nil h.text (.refl L) hlen ?_⟩
    intro T hT
    obtain ⟨⟨h1, hcr⟩, h2⟩ := htail T hT
    refine .inl ⟨rfl, [Char.ofNat cp], ⟨by simp [StrState.pushChar, h1], ?_⟩, ?_⟩
    · intro he
      simp at he
      exact absurd he hcr
    · intro txt r; rw [h2]; simp [hv]
  · simp only [if_neg hv]
    have hp : L.pos = some (posOf (pre0 ++ o ++ b)) := by
      rw [Lexer.pos, hb]
      exact h.st.posInLine (y := [c]) (by simp) (by simpa using hc.symm)
    rw [hp]
    simp only [Option.bind_eq_bind, Option.bind_some]
    refine ⟨_, rfl, .cont (b' := b ++ [c]) rfl rfl ?_ (h.error _) ((SameToks.refl L).error _) hlen ?_⟩
    · refine SpansIn.one (x := x) (y := y ++ [c]) (z := rest) ?_ ?_ (by
        obtain ⟨w, g1, g2, g3⟩ := hy
        rw [Nat.pow_zero, Nat.mul_one] at g3
        exact ⟨s.quote, u, w, g1, hun ▸ letter_of hu, by omega, g3, hv, hi, hq⟩)
      · rw [hin, ← List.append_assoc, ← List.append_assoc x, ← hx]
      · rw [← List.append_assoc, ← hx, posOf_snoc _ hc]
        rfl
    · intro T hT
      obtain ⟨h1, h2⟩ := htail T hT
      refine .inr ⟨by simp, fun txt r => ?_⟩
      rw [h2]; simp [hv]

/-- The statement for the loop over the digits. -/
def UniPost (u : Char) (q : Quote) (pre0 o src x : Str) (n k : Nat) : Prop :=
  ∀ (L : Lexer) (s : StrState) (b y : Str) (cp : Nat) (rest : Str) (C : Str → Prop),
    s.quote = q → SInv L s pre0 o b rest → pre0 ++ o ++ b = x ++ y → rest.length < src.length →
    InString q x → n = uniLen u → UniY u (k + 1) y cp →
    (∀ T, C T → UniC u (k + 1) s src rest cp T) →
    ∃ out, unicodeLoop (posOf x) n (k + 1) L s cp rest = some out ∧ FlowPost L q pre0 o src C out

/-- The end of an iteration. -/
theorem unicodeNext {u : Char} (hu : u = 'u' ∨ u = 'U') {q : Quote}
    (hq : hasEscapes q = true) {pre0 o src x : Str} {n k : Nat}
    (ih : ∀ k', k = k' + 1 → UniPost u q pre0 o src x n k')
    {L : Lexer} {s : StrState} {b y cs : Str} {c : Char} {cp : Nat} {C : Str → Prop}
    (hs : s.quote = q) (h : SInv L s pre0 o (b ++ [c]) cs) (hb : L.bytePos = blen (pre0 ++ o ++ b))
    (hc : c ≠ '\n') (hx : pre0 ++ o ++ b = x ++ y) (hlen : cs.length < src.length)
    (hi : InString q x) (hun : n = uniLen u) (hy : UniY u k (y ++ [c]) cp)
    (hC : ∀ T, C T → UniC u k s src cs cp T ∧ c ≠ '\r') :
    ∃ out, (if k = 0 then unicodeDone L s (posOf x) n c cp cs
        else unicodeLoop (posOf x) n k L s cp cs) = some out ∧ FlowPost L q pre0 o src C out := by
  subst hs
  cases k with
  | zero =>
    rw [if_pos rfl]
    exact unicodeDone_post hu hq h hb hc hx hlen hi hun hy hC
  | succ k =>
    rw [if_neg (by omega)]
    exact ih k rfl L s (b ++ [c]) (y ++ [c]) cp cs C rfl h (by
      rw [← List.append_assoc, hx, List.append_assoc]) hlen hi hun hy (fun T hT => (hC T hT).1)

theorem span_esc {input pre x y rest : Str} {e : Error} (hin : input = pre ++ rest)
    (hx : pre = x ++ y) (he : e.span = ⟨posOf x, posOf pre⟩)
    (hk : LexTrue x y rest e) : SpansIn input [e] := by
  subst hx
  exact SpansIn.one hin he hk

theorem unicodeStep {u : Char} (hu : u = 'u' ∨ u = 'U') {q : Quote}
    (hq : hasEscapes q = true) {pre0 o src x : Str} {n k : Nat}
    (ih : ∀ k', k = k' + 1 → UniPost u q pre0 o src x n k') : UniPost u q pre0 o src x n k := by
  intro L s b y cp rest C hs h hx hlen hi hun hy hC
  have hA := h.atNext
  have hAb : (L.atNext rest).bytePos = blen (pre0 ++ o ++ b) := h.st.atNext_bytePos
  have hAS : SameToks L (L.atNext rest) := (SameToks.refl L).atNext _
  have hAe : (L.atNext rest).errors = L.errors := rfl
  have hp := hA.pos hAb
  have hin := h.st.input
  subst hs
  unfold unicodeLoop
  cases rest with
  | nil =>
    simp only [hp, Option.bind_eq_bind, Option.bind_some]
    refine ⟨_, rfl, .cont (b' := b) rfl rfl ?_ (hA.error _) (hAS.error _) hlen ?_⟩
    · exact span_esc hin hx rfl (hy.told hu hi hq (.inl rfl))
    · intro T hT
      exact .inr ⟨by simp, (hC T hT).bad hu hq (by simp)⟩
  | cons c cs =>
    simp only [hp, Option.bind_eq_bind, Option.bind_some]
    generalize hA' : L.atNext (c :: cs) = A at *
    have hlen' : cs.length < src.length := by simp at hlen; omega
    rw [unicodeDigit_eq]
    by_cases hd : digitOf c < 16
    · simp only [if_pos hd]
      have hcn : c ≠ '\n' := by rintro rfl; exact absurd hd (by decide)
      have hcr : c ≠ '\r' := by rintro rfl; exact absurd hd (by decide)
      obtain ⟨out, ho, hpost⟩ := unicodeNext (L := A) (s := s) (y := y) (cs := cs)
        (cp := cp + digitOf c * 2 ^ (k * 4)) (C := C) hu hq ih rfl (hA.stepNe hcn
          (by rw [quoteChar_esc hq]; rintro rfl; exact absurd hd (by decide))) hAb hcn hx hlen' hi hun (hy.digit hd)
        (by
          intro T hT
          refine ⟨?_, hcr⟩
          obtain ⟨h1, h0, h2, h3, h4, h5⟩ := hC T hT
          refine ⟨h1, h0 ++ [c], by rw [h2]; simp, ?_, by simp; omega, ?_⟩
          · intro d hd'
            rcases List.mem_append.1 hd' with h | h
            · exact h3 d h
            · rw [List.mem_singleton] at h; rw [h]; exact hd
          · rw [h5, numeral_snoc16 hd, Nat.add_mul, Nat.mul_comm k 4, Nat.pow_mul,
              Nat.mul_assoc (numeral 16 h0), ← Nat.pow_succ'])
      exact ⟨out, ho, FlowPost.pre hAS (es1 := []) (by simpa using hAe) SpansIn.nil (Nat.le_refl _)
        (fun T hT => .inl ⟨rfl, [], by simpa using hT, by simp⟩) hpost⟩
    · simp only [if_neg hd]
      have hno : ∀ T, C T → ∀ txt r, ¬ StrTail s.quote src txt r := by
        intro T hT
        refine (hC T hT).bad hu hq ?_
        intro d hd'
        simp at hd'
        rw [← hd']; exact hd
      have hE : ∀ e : Error, (A.error e).errors = L.errors ++ [e] := by
        intro e; rw [← hAe]; rfl
      by_cases hsp : c = ' '
      · rw [if_pos hsp]
        have hcn : c ≠ '\n' := by rw [hsp]; decide
        generalize he : Error.unfinishedEscapeSequence ⟨posOf x, posOf (pre0 ++ o ++ b)⟩ = e
        obtain ⟨out, ho, hpost⟩ := unicodeNext (L := A.error e) (s := s.pushChar c) (y := y)
          (cs := cs) (cp := cp) (C := fun _ => False) hu (q := s.quote) hq ih rfl
          ((hA.error e).stepNe hcn (by rw [quoteChar_esc hq, hsp]; decide)).text hAb hcn hx hlen' hi hun (hy.other hd) (by simp)
        exact ⟨out, ho, FlowPost.dirty (hAS.error e) (hE e) (span_esc hin hx (by rw [← he]; rfl)
          (by subst he; exact hy.told hu hi hq (.inr ⟨c, rfl, .inl hsp⟩)))
          (Nat.le_refl _) (by simp) hno hpost⟩
      · rw [if_neg hsp]
        by_cases hnl : c = '\n'
        · subst hnl
          rw [if_pos rfl]
          generalize he : Error.unfinishedEscapeSequence ⟨posOf x, posOf (pre0 ++ o ++ b)⟩ = e
          rw [isMulti_eq]
          by_cases hm : isMulti s.quote = true
          · simp only [hm, Bool.not_true, Bool.false_eq_true, if_false]
            refine ⟨_, rfl, .cont (es := [e]) (b' := b ++ ['\n']) rfl (hE e) ?_ ?_
              (hAS.error e).newline hlen' ?_⟩
            · exact span_esc hin hx (by rw [← he]; rfl) (by subst he; exact hy.told hu hi hq (.inr ⟨_, rfl, .inr (.inl rfl)⟩))
            · exact ((hA.error e).newline hAb hm).text
            · intro T hT
              exact .inr ⟨by simp, hno T hT⟩
          · have hm' : isMulti s.quote = false := by simpa using hm
            simp only [hm', Bool.not_false, if_true]
            obtain ⟨out, ho, hpost⟩ := recoverNewline_post (C := C) (hA.error e) hAb hm'
            exact ⟨out, ho, FlowPost.dirty (hAS.error e) (hE e)
              (span_esc hin hx (by rw [← he]; rfl) (by subst he; exact hy.told hu hi hq (.inr ⟨_, rfl, .inr (.inl rfl)⟩))) (Nat.le_of_lt hlen) (by simp) hno hpost⟩
        · rw [if_neg hnl]
          by_cases hqu : c = '"'
          · subst hqu
            rw [if_pos rfl]
            generalize he : Error.unfinishedEscapeSequence ⟨posOf x, posOf (pre0 ++ o ++ b)⟩ = e
            have hqc : quoteChar s.quote = '"' := by
              revert hq; cases s.quote <;> simp [hasEscapes, quoteChar]
            have hA2 := hA.error e
            rw [← hqc] at hA2
            obtain ⟨out, ho, hpost⟩ := stringClosingQuote_post hA2 hAb
            rw [hqc] at hpost
            exact ⟨out, ho, FlowPost.dirty (hAS.error e) (hE e)
              (span_esc hin hx (by rw [← he]; rfl) (by subst he; exact hy.told hu hi hq (.inr ⟨_, rfl, .inr (.inr rfl)⟩)))
              (Nat.le_of_lt hlen) (by simp) hno hpost⟩
          · rw [if_neg hqu]
            generalize he : Error.invalidUnicodeEscapeChar c (posOf (pre0 ++ o ++ b)) = e
            obtain ⟨out, ho, hpost⟩ := unicodeNext (L := A.error e) (s := s) (y := y)
              (cs := cs) (cp := cp) (C := fun _ => False) hu (q := s.quote) hq ih rfl
              ((hA.error e).stepNe hnl (by rw [quoteChar_esc hq]; exact hqu)) hAb hnl hx hlen' hi hun (hy.other hd) (by simp)
            refine ⟨out, ho, FlowPost.dirty (hAS.error e) (hE e)
              (SpansIn.one (x := pre0 ++ o ++ b) (y := []) (z := c :: cs) (by simpa using hin) ?_ (by
                subst he
                obtain ⟨w, g1, g2⟩ := hy.short
                exact ⟨rfl, rfl, hd, s.quote, x, u, _, w, by rw [hx, g1], letter_of hu, g2, hi, hq⟩))
              (Nat.le_refl _) (by simp) hno hpost⟩
            rw [← he, List.append_nil]; rfl

theorem unicodeLoop_post {u : Char} (hu : u = 'u' ∨ u = 'U') {q : Quote}
    (hq : hasEscapes q = true) {pre0 o src x : Str} {n : Nat} (k : Nat) :
    UniPost u q pre0 o src x n k := by
  induction k with
  | zero => exact unicodeStep hu hq (by intro k' h; omega)
  | succ k ih => exact unicodeStep hu hq (by intro k' h; cases h; exact ih)

end Verif.Toml
