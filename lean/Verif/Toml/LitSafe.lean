import Verif.Toml.IntLemmas

/-!
# The literal parsers never panic, and their errors point into the literal
-/

namespace Verif.Toml
open Verif Verif.Spec.Toml

/-- No panic, and every error satisfies `P`. -/
def Safe {α : Type} (P : Error → Prop) (r : Res Error α) : Prop :=
  r ≠ .panic ∧ ∀ e, r = .err e → P e

theorem Safe.ok {α : Type} {P : Error → Prop} (a : α) : Safe P (.ok a : Res Error α) := by
  constructor <;> simp

theorem Safe.pure {α : Type} {P : Error → Prop} (a : α) : Safe P (pure a : Res Error α) := Safe.ok a

theorem Safe.err {α : Type} {P : Error → Prop} {e : Error} (h : P e) :
    Safe P (.err e : Res Error α) := by
  constructor
  · simp
  · intro e' h'; cases h'; exact h

theorem Safe.bind {α β : Type} {P : Error → Prop} {x : Res Error α} {f : α → Res Error β}
    (hx : Safe P x) (hf : ∀ a, x = .ok a → Safe P (f a)) : Safe P (x >>= f) := by
  cases x with
  | ok a => exact hf a rfl
  | err e => exact Safe.err (hx.2 e rfl)
  | panic => exact absurd rfl hx.1

theorem Safe.mono {α : Type} {P Q : Error → Prop} {r : Res Error α} (h : Safe P r)
    (hpq : ∀ e, P e → Q e) : Safe Q r := ⟨h.1, fun e he => hpq e (h.2 e he)⟩

/-- The error is not an integer overflow and points into the `n` bytes at `p`. -/
structure In (p : Pos) (n : Nat) (e : Error) : Prop where
  notOvf : ∀ s, e ≠ .intLiteralOverflow s
  line1 : e.span.start.line = p.line
  line2 : e.span.stop.line = p.line
  ge : p.char ≤ e.span.start.char
  le : e.span.start.char ≤ e.span.stop.char
  stop : e.span.stop.char ≤ p.char + n

/-- Proves `In` for a concrete error. -/
macro "in_tac" : tactic => `(tactic|
  (constructor <;> first
    | (intro s h; cases h; done)
    | (simp only [Error.span, Span.ofPos, Span.fromPosLen, Span.asciiChar, Pos.plus, Pos.minus] at *;
       first | done | omega | rfl)))

variable {p : Pos} {n : Nat}

theorem utf8Size_pos' (c : Char) : 1 ≤ c.utf8Size := Char.utf8Size_pos c

theorem expectTwoDigitNum_safe {i : Nat} {s : Str} {next : List Char} {f : DateTimeField}
    (h : i + blen s ≤ n) :
    Safe (In p n) (expectTwoDigitNum ⟨i, s⟩ next (Span.fromPosLen p n) f) := by
  unfold expectTwoDigitNum
  rcases s with _ | ⟨c, cs⟩
  · exact Safe.err (by unfold ExpectNumError.kind; in_tac)
  have hc := utf8Size_pos' c
  rw [blen_cons] at h
  dsimp only [Cur.adv]
  split
  · rcases cs with _ | ⟨d, ds⟩
    · exact Safe.err (by unfold ExpectNumError.kind; in_tac)
    have hd := utf8Size_pos' d
    rw [blen_cons] at h
    dsimp only
    split
    · exact Safe.ok _
    · split <;> exact Safe.err (by unfold ExpectNumError.kind; in_tac)
  · split <;> exact Safe.err (by unfold ExpectNumError.kind; in_tac)

/-- What a successful two-digit number consumes. -/
theorem expectTwoDigitNum_ok {i : Nat} {s : Str} {next : List Char} {f : DateTimeField}
    {span : Span} {m : Nat} {sp : Span} {cur : Cur} :
    expectTwoDigitNum ⟨i, s⟩ next span f = .ok (m, sp, cur) ↔
      ∃ cs, m < 100 ∧ s = two m ++ cs ∧ cur = ⟨i + 2, cs⟩ ∧
        sp = ⟨span.start.plus i, (span.start.plus i).plus 2⟩ := by
  unfold expectTwoDigitNum
  constructor
  · intro h
    rcases s with _ | ⟨c, cs⟩
    · simp at h
    dsimp only [Cur.adv] at h
    split at h
    · rename_i hc
      rcases cs with _ | ⟨d, ds⟩
      · simp at h
      dsimp only at h
      split at h
      · rename_i hd
        simp only [Res.ok.injEq, Prod.mk.injEq] at h
        obtain ⟨rfl, rfl, rfl⟩ := h
        have h1 := digitVal_lt hc
        have h2 := digitVal_lt hd
        refine ⟨ds, by omega, ?_, ?_, rfl⟩
        · unfold two
          have e1 : (10 * digitVal c + digitVal d) / 10 = digitVal c := by omega
          have e2 : (10 * digitVal c + digitVal d) % 10 = digitVal d := by omega
          rw [e1, e2, digitChar_digitVal hc, digitChar_digitVal hd]
          rfl
        · rw [isDigit_utf8Size hc, isDigit_utf8Size hd]
      · split at h <;> simp at h
    · split at h <;> simp at h
  · rintro ⟨cs, hm, rfl, rfl, rfl⟩
    have h1 : isDigit (Nat.digitChar (m / 10)) = true := isDigit_digitChar (by omega)
    have h2 : isDigit (Nat.digitChar (m % 10)) = true := isDigit_digitChar (by omega)
    simp only [two, List.cons_append, List.nil_append, Cur.adv, h1, if_true, h2, Res.ok.injEq,
      Prod.mk.injEq, isDigit_utf8Size h1, isDigit_utf8Size h2]
    refine ⟨?_, trivial⟩
    rw [digitVal_digitChar (by omega), digitVal_digitChar (by omega)]
    omega

theorem blen_two {m : Nat} (hm : m < 100) : blen (two m) = 2 := by
  simp [two, isDigit_utf8Size (isDigit_digitChar (show m / 10 < 10 by omega)),
    isDigit_utf8Size (isDigit_digitChar (show m % 10 < 10 by omega))]

theorem expectNumIn_ok {i : Nat} {s : Str} {next : List Char} {f : DateTimeField}
    {span : Span} {lo hi m : Nat} {cur : Cur} (hhi : hi < 100) :
    expectNumIn ⟨i, s⟩ next span f lo hi = .ok (m, cur) ↔
      ∃ cs, s = two m ++ cs ∧ cur = ⟨i + 2, cs⟩ ∧ lo ≤ m ∧ m ≤ hi := by
  unfold expectNumIn
  simp only [Res.bind_eq_ok]
  constructor
  · rintro ⟨⟨m', sp, cur'⟩, h, ⟨⟩, h2, h3⟩
    obtain ⟨cs, -, rfl, rfl, -⟩ := expectTwoDigitNum_ok.1 h
    simp only [Res.pure_eq, Res.ok.injEq, Prod.mk.injEq] at h3
    obtain ⟨rfl, rfl⟩ := h3
    unfold checkRange at h2
    split at h2
    · rename_i hr
      exact ⟨cs, rfl, rfl, hr⟩
    · simp at h2
  · rintro ⟨cs, rfl, rfl, h1, h2⟩
    refine ⟨(m, _, _), expectTwoDigitNum_ok.2 ⟨cs, by omega, rfl, rfl, rfl⟩, (), ?_, rfl⟩
    unfold checkRange
    rw [if_pos ⟨h1, h2⟩]

theorem expectNumIn_safe {i : Nat} {s : Str} {next : List Char} {f : DateTimeField}
    {lo hi : Nat} (h : i + blen s ≤ n) :
    Safe (In p n) (expectNumIn ⟨i, s⟩ next (Span.fromPosLen p n) f lo hi) := by
  unfold expectNumIn
  refine Safe.bind (expectTwoDigitNum_safe h) ?_
  rintro ⟨m, sp, cur⟩ hok
  obtain ⟨cs, hm, rfl, rfl, rfl⟩ := expectTwoDigitNum_ok.1 hok
  rw [blen_append, blen_two hm] at h
  refine Safe.bind ?_ (fun _ _ => Safe.pure _)
  unfold checkRange
  split
  · exact Safe.ok _
  · exact Safe.err (by in_tac)

/-- Later cursors stay inside. -/
theorem expectNumIn_rest {i : Nat} {s : Str} {next : List Char} {f : DateTimeField}
    {span : Span} {lo hi m : Nat} {cur : Cur}
    (hok : expectNumIn ⟨i, s⟩ next span f lo hi = .ok (m, cur)) :
    cur.i + blen cur.rest = i + blen s := by
  unfold expectNumIn at hok
  simp only [Res.bind_eq_ok] at hok
  obtain ⟨⟨m', sp, cur'⟩, h, ⟨⟩, -, h3⟩ := hok
  obtain ⟨cs, hm, rfl, rfl, -⟩ := expectTwoDigitNum_ok.1 h
  simp only [Res.pure_eq, Res.ok.injEq, Prod.mk.injEq] at h3
  obtain ⟨rfl, rfl⟩ := h3
  rw [blen_append, blen_two hm]
  simp only []
  omega

theorem expectChar_ok {i : Nat} {s : Str} {span : Span} {f : DateTimeField} {x : Char} {cur : Cur}
    (hx : x.utf8Size = 1) :
    expectChar ⟨i, s⟩ span f x = .ok cur ↔ ∃ cs, s = x :: cs ∧ cur = ⟨i + 1, cs⟩ := by
  unfold expectChar
  rcases s with _ | ⟨c, cs⟩
  · simp
  dsimp only [Cur.adv]
  by_cases h : c = x
  · subst h
    simp only [if_true, Res.ok.injEq, List.cons.injEq, true_and, hx]
    constructor
    · rintro rfl; exact ⟨_, rfl, rfl⟩
    · rintro ⟨_, rfl, rfl⟩; rfl
  · simp [h]

theorem expectChar_safe {i : Nat} {s : Str} {f : DateTimeField} {x : Char} (h : i + blen s ≤ n) :
    Safe (In p n) (expectChar ⟨i, s⟩ (Span.fromPosLen p n) f x) := by
  unfold expectChar
  rcases s with _ | ⟨c, cs⟩
  · exact Safe.err (by in_tac)
  rw [blen_cons] at h
  dsimp only
  split
  · exact Safe.ok _
  · exact Safe.err (by in_tac)

theorem expectChar_rest {i : Nat} {s : Str} {span : Span} {f : DateTimeField} {x : Char}
    {cur : Cur} (hok : expectChar ⟨i, s⟩ span f x = .ok cur) :
    cur.i + blen cur.rest = i + blen s := by
  unfold expectChar at hok
  rcases s with _ | ⟨c, cs⟩
  · simp at hok
  dsimp only [Cur.adv] at hok
  split at hok
  · simp only [Res.ok.injEq] at hok
    subst hok
    rw [blen_cons]; simp only []; omega
  · simp at hok

theorem unexpectedCharError_safe {α : Type} {c : Char} {i : Nat} (h : i + c.utf8Size ≤ n) :
    Safe (In p n) (unexpectedCharError c (Span.fromPosLen p n) i : Res Error α) := by
  have hc := utf8Size_pos' c
  exact Safe.err (by in_tac)

theorem subsecLoop_safe {s : Str} : ∀ {i d m : Nat}, i + blen s ≤ n →
    Safe (fun e => In p n e) (subsecLoop (Span.fromPosLen p n) i s d m) ∧
    ∀ d' m' cur, subsecLoop (Span.fromPosLen p n) i s d m = .ok (d', m', cur) →
      cur.i + blen cur.rest = i + blen s := by
  induction s with
  | nil =>
    intro i d m h
    unfold subsecLoop
    refine ⟨Safe.ok _, ?_⟩
    intro d' m' cur h'
    simp only [Res.ok.injEq, Prod.mk.injEq] at h'
    obtain ⟨rfl, rfl, rfl⟩ := h'
    rfl
  | cons c cs ih =>
    intro i d m h
    rw [blen_cons] at h
    have hc := utf8Size_pos' c
    unfold subsecLoop
    split
    · split
      · have := @ih (i + c.utf8Size) (d + 1) (m * 10 + digitVal c) (by omega)
        refine ⟨this.1, fun d' m' cur h' => ?_⟩
        rw [this.2 _ _ _ h', blen_cons]; omega
      · have := @ih (i + c.utf8Size) d m (by omega)
        refine ⟨this.1, fun d' m' cur h' => ?_⟩
        rw [this.2 _ _ _ h', blen_cons]; omega
    · split
      · refine ⟨Safe.ok _, ?_⟩
        intro d' m' cur h'
        simp only [Res.ok.injEq, Prod.mk.injEq] at h'
        obtain ⟨rfl, rfl, rfl⟩ := h'
        rfl
      · refine ⟨unexpectedCharError_safe (by omega), ?_⟩
        intro d' m' cur h'
        simp [unexpectedCharError] at h'

theorem parseSubsec_safe {i : Nat} {s : Str} (h : i + blen s ≤ n) :
    Safe (In p n) (parseSubsec ⟨i, s⟩ (Span.fromPosLen p n)) ∧
    ∀ m cur, parseSubsec ⟨i, s⟩ (Span.fromPosLen p n) = .ok (m, cur) →
      cur.i + blen cur.rest = i + blen s := by
  have hl := @subsecLoop_safe p n s i 0 0 h
  unfold parseSubsec
  constructor
  · refine Safe.bind hl.1 ?_
    rintro ⟨d, m, cur⟩ -
    dsimp only
    split
    · exact Safe.err (by in_tac)
    · exact Safe.pure _
  · intro m cur hok
    simp only [Res.bind_eq_ok] at hok
    obtain ⟨⟨d', m', cur'⟩, h1, h2⟩ := hok
    split at h2
    · simp at h2
    · simp only [Res.pure_eq, Res.ok.injEq, Prod.mk.injEq] at h2
      obtain ⟨rfl, rfl⟩ := h2
      exact hl.2 _ _ _ h1

theorem optSubsec_safe {i : Nat} {s : Str} (h : i + blen s ≤ n) :
    Safe (In p n) (optSubsec ⟨i, s⟩ (Span.fromPosLen p n)) ∧
    ∀ m cur, optSubsec ⟨i, s⟩ (Span.fromPosLen p n) = .ok (m, cur) →
      cur.i + blen cur.rest = i + blen s := by
  unfold optSubsec
  rcases s with _ | ⟨c, cs⟩
  · refine ⟨Safe.pure _, fun m cur h' => ?_⟩
    simp only [Res.pure_eq, Res.ok.injEq, Prod.mk.injEq] at h'
    obtain ⟨rfl, rfl⟩ := h'; rfl
  rw [blen_cons] at h
  dsimp only [Cur.adv]
  split
  · have := @parseSubsec_safe p n (i + c.utf8Size) cs (by omega)
    refine ⟨this.1, fun m cur h' => ?_⟩
    rw [this.2 _ _ h', blen_cons]; omega
  · refine ⟨Safe.pure _, fun m cur h' => ?_⟩
    simp only [Res.pure_eq, Res.ok.injEq, Prod.mk.injEq] at h'
    obtain ⟨rfl, rfl⟩ := h'; rfl

theorem continueParsingTime_safe {cur : Cur} {hour : Nat} (h : cur.i + blen cur.rest ≤ n) :
    Safe (In p n) (continueParsingTime cur (Span.fromPosLen p n) hour) ∧
    ∀ m cur', continueParsingTime cur (Span.fromPosLen p n) hour = .ok (m, cur') →
      cur'.i + blen cur'.rest = cur.i + blen cur.rest := by
  unfold continueParsingTime
  constructor
  · refine Safe.bind (expectNumIn_safe h) ?_
    rintro ⟨m, c1⟩ h1
    have e1 := expectNumIn_rest h1
    refine Safe.bind (expectChar_safe (by omega)) ?_
    rintro c2 h2
    have e2 := expectChar_rest h2
    refine Safe.bind (expectNumIn_safe (by omega)) ?_
    rintro ⟨sec, c3⟩ h3
    have e3 := expectNumIn_rest h3
    have hs := @optSubsec_safe p n c3.i c3.rest (by omega)
    refine Safe.bind hs.1 ?_
    rintro ⟨nn, c4⟩ h4
    have e4 := hs.2 _ _ h4
    rcases c4 with ⟨j, _ | ⟨c, cs⟩⟩
    · exact Safe.pure _
    · dsimp only
      split
      · exact Safe.pure _
      · simp only [blen_cons] at e4
        exact unexpectedCharError_safe (by omega)
  · intro t cur' hok
    simp only [Res.bind_eq_ok] at hok
    obtain ⟨⟨m, c1⟩, h1, c2, h2, ⟨sec, c3⟩, h3, ⟨nn, c4⟩, h4, h5⟩ := hok
    have e1 := expectNumIn_rest h1
    have e2 := expectChar_rest h2
    have e3 := expectNumIn_rest h3
    have e4 := (@optSubsec_safe p n c3.i c3.rest (by omega)).2 _ _ h4
    rcases c4 with ⟨j, _ | ⟨c, cs⟩⟩
    · simp only [Res.pure_eq, Res.ok.injEq, Prod.mk.injEq] at h5
      rw [← h5.2]; omega
    · dsimp only at h5
      split at h5
      · simp only [Res.pure_eq, Res.ok.injEq, Prod.mk.injEq] at h5
        rw [← h5.2]; simp only [] at *; omega
      · simp [unexpectedCharError] at h5

theorem parseOffset_safe {cur : Cur} (h : cur.i + blen cur.rest ≤ n) :
    Safe (In p n) (parseOffset cur (Span.fromPosLen p n)) := by
  unfold parseOffset
  refine Safe.bind (expectNumIn_safe h) ?_
  rintro ⟨m, c1⟩ h1
  have e1 := expectNumIn_rest h1
  refine Safe.bind (expectChar_safe (by omega)) ?_
  rintro c2 h2
  have e2 := expectChar_rest h2
  refine Safe.bind (expectNumIn_safe (by omega)) ?_
  rintro ⟨sec, c3⟩ h3
  exact Safe.pure _

theorem tryToParseOffset_safe {cur : Cur} (h : cur.i + blen cur.rest ≤ n) :
    Safe (In p n) (tryToParseOffset cur (Span.fromPosLen p n)) := by
  unfold tryToParseOffset
  rcases cur with ⟨i, _ | ⟨c, cs⟩⟩
  · exact Safe.ok _
  simp only [blen_cons] at h
  dsimp only
  split
  · exact Safe.ok _
  split
  · refine Safe.bind (parseOffset_safe (by simp only [Cur.adv]; omega)) ?_
    rintro ⟨m, c1⟩ -
    exact Safe.pure _
  split
  · refine Safe.bind (parseOffset_safe (by simp only [Cur.adv]; omega)) ?_
    rintro ⟨m, c1⟩ -
    exact Safe.pure _
  · exact unexpectedCharError_safe (by omega)

theorem parseTimeAndOffset_safe {cur : Cur} (h : cur.i + blen cur.rest ≤ n) :
    Safe (In p n) (parseTimeAndOffset cur (Span.fromPosLen p n)) := by
  unfold parseTimeAndOffset
  refine Safe.bind (expectNumIn_safe h) ?_
  rintro ⟨m, c1⟩ h1
  have e1 := expectNumIn_rest h1
  refine Safe.bind (expectChar_safe (by omega)) ?_
  rintro c2 h2
  have e2 := expectChar_rest h2
  have ht := @continueParsingTime_safe p n c2 m (by omega)
  refine Safe.bind ht.1 ?_
  rintro ⟨t, c3⟩ h3
  have e3 := ht.2 _ _ h3
  refine Safe.bind (tryToParseOffset_safe (by omega)) ?_
  rintro ⟨o, c4⟩ -
  exact Safe.pure _

theorem continueParsingLocalTime_safe {cur : Cur} {hour : Nat} (h : cur.i + blen cur.rest ≤ n)
    (h2 : 2 ≤ n) :
    Safe (In p n) (continueParsingLocalTime cur (Span.fromPosLen p n) hour) := by
  unfold continueParsingLocalTime
  refine Safe.bind ?_ ?_
  · unfold checkRange
    split
    · exact Safe.ok _
    · exact Safe.err (by in_tac)
  rintro ⟨⟩ -
  have ht := @continueParsingTime_safe p n cur hour h
  refine Safe.bind ht.1 ?_
  rintro ⟨t, c3⟩ h3
  have e3 := ht.2 _ _ h3
  refine Safe.bind ?_ (fun _ _ => Safe.pure _)
  unfold errorOnOffset
  rcases c3 with ⟨i, _ | ⟨c, cs⟩⟩
  · exact Safe.ok _
  simp only [blen_cons] at e3
  have hc := utf8Size_pos' c
  dsimp only
  split <;> exact Safe.err (by in_tac)

theorem afterYear_safe {cur : Cur} {y : Nat} (h : cur.i + blen cur.rest ≤ n) :
    Safe (In p n) (continueParsingDateTimeAfterYear cur (Span.fromPosLen p n) y) := by
  unfold continueParsingDateTimeAfterYear
  refine Safe.bind (expectNumIn_safe h) ?_
  rintro ⟨m, c1⟩ h1
  have e1 := expectNumIn_rest h1
  refine Safe.bind (expectChar_safe (by omega)) ?_
  rintro c2 h2
  have e2 := expectChar_rest h2
  refine Safe.bind (expectNumIn_safe (by omega)) ?_
  rintro ⟨sec, c3⟩ h3
  have e3 := expectNumIn_rest h3
  rcases c3 with ⟨i, _ | ⟨c, cs⟩⟩
  · exact Safe.pure _
  simp only [blen_cons] at e3
  dsimp only
  split
  · refine Safe.bind (parseTimeAndOffset_safe (by simp only [Cur.adv]; omega)) ?_
    rintro ⟨⟨t, o⟩, c4⟩ -
    exact Safe.pure _
  · split <;> exact Safe.err (by in_tac)

theorem yearCharError_safe {α : Type} {c : Char} {i : Nat} (h : i + c.utf8Size ≤ n) :
    Safe (In p n) (yearCharError c i (Span.fromPosLen p n) : Res Error α) := by
  have hc := utf8Size_pos' c
  unfold yearCharError
  split
  · exact Safe.err (by in_tac)
  split <;> exact Safe.err (by in_tac)

theorem continueParsingDateTime_safe {cur : Cur} {y : Nat} (h : cur.i + blen cur.rest ≤ n)
    (h2 : 2 ≤ n) :
    Safe (In p n) (continueParsingDateTime cur (Span.fromPosLen p n) y) := by
  unfold continueParsingDateTime
  rcases cur with ⟨i, _ | ⟨c, cs⟩⟩
  · exact Safe.err (by in_tac)
  simp only [blen_cons] at h
  dsimp only [Cur.adv]
  split
  · rcases cs with _ | ⟨d, ds⟩
    · exact Safe.err (by in_tac)
    simp only [blen_cons] at h
    dsimp only
    split
    · refine Safe.bind (expectChar_safe (by omega)) ?_
      rintro c2 h2
      have e2 := expectChar_rest h2
      exact afterYear_safe (by omega)
    · exact yearCharError_safe (by omega)
  · split
    · refine Safe.bind (continueParsingLocalTime_safe (by simp only []; omega) h2) ?_
      rintro t -
      exact Safe.pure _
    · exact yearCharError_safe (by omega)

theorem orInvalid_safe {P : Error → Prop} {r : Res Error PartialValue} (h : Safe P r) :
    Safe P (orInvalidDateTime r) := by
  cases r with
  | ok v => exact Safe.ok _
  | err e => exact Safe.ok _
  | panic => exact absurd rfl h.1

/-! ### Numbers -/

theorem leadingUnderscores_le (s : Str) : leadingUnderscores s ≤ blen s := by
  induction s with
  | nil => simp [leadingUnderscores]
  | cons c cs ih =>
    have hc := utf8Size_pos' c
    unfold leadingUnderscores
    rw [blen_cons]
    split <;> omega

theorem consec_safe {α : Type} {s : Str} {i : Nat} (h1 : 1 ≤ i) (h : i + 1 + blen s ≤ n) :
    Safe (In p n) (consecutiveUnderscoreError s ((Span.fromPosLen p n).start.plus (i - 1)) :
      Res Error α) := by
  have := leadingUnderscores_le s
  exact Safe.err (by in_tac)

theorem posMinus_ok {ovf : Bool} {q : Pos} {k : Nat} (h : k ≤ q.char) :
    posMinus ovf q k = .ok (q.minus k) := by
  unfold posMinus; rw [if_pos h]

theorem parseFloat_safe {lit : Str} :
    Safe (In p n) (parseFloat lit (Span.fromPosLen p n)) := by
  unfold parseFloat
  dsimp only
  split
  · exact Safe.ok _
  · exact Safe.err (by in_tac)

theorem floatExpLoop_safe {ovf : Bool} {lit : Str} (hn : 1 ≤ n) {s : Str} :
    ∀ {i : Nat} {first last : Bool}, 1 ≤ i → i + blen s ≤ n →
    Safe (In p n) (floatExpLoop ovf lit (Span.fromPosLen p n) i s first last) := by
  induction s with
  | nil =>
    intro i first last hi h
    unfold floatExpLoop
    split
    · rw [posMinus_ok (by simp only [Span.fromPosLen, Pos.plus]; omega)]
      exact Safe.err (by in_tac)
    · exact parseFloat_safe
  | cons c cs ih =>
    intro i first last hi h
    rw [blen_cons] at h
    have hc := utf8Size_pos' c
    unfold floatExpLoop
    split
    · exact ih (by omega) (by omega)
    split
    · rename_i hu
      subst hu
      have : '_'.utf8Size = 1 := by decide
      split
      · exact Safe.err (by in_tac)
      split
      · exact consec_safe hi (by omega)
      · exact ih (by omega) (by omega)
    · exact Safe.err (by in_tac)

theorem validateFloatExponent_safe {ovf : Bool} {lit : Str} (hn : 1 ≤ n) {cur : Cur}
    (hi : 1 ≤ cur.i) (h : cur.i + blen cur.rest ≤ n) :
    Safe (In p n) (validateFloatExponent ovf cur lit (Span.fromPosLen p n)) := by
  unfold validateFloatExponent
  rcases cur with ⟨i, _ | ⟨c, cs⟩⟩
  · exact floatExpLoop_safe hn hi h
  simp only [blen_cons] at h hi
  dsimp only
  split
  · exact floatExpLoop_safe hn (by omega) (by omega)
  · exact floatExpLoop_safe hn hi (by rw [blen_cons]; omega)

theorem floatFractLoop_safe {ovf : Bool} {lit : Str} {start : Nat} (hn : 1 ≤ n) {s : Str} :
    ∀ {i : Nat} {last : Bool}, 1 ≤ i → i + blen s ≤ n →
    Safe (In p n) (floatFractLoop ovf lit (Span.fromPosLen p n) start i s last) := by
  induction s with
  | nil =>
    intro i last hi h
    unfold floatFractLoop
    split
    · rw [posMinus_ok (by simp only [Span.fromPosLen, Pos.plus]; omega)]
      exact Safe.err (by in_tac)
    · exact parseFloat_safe
  | cons c cs ih =>
    intro i last hi h
    rw [blen_cons] at h
    have hc := utf8Size_pos' c
    unfold floatFractLoop
    split
    · exact ih (by omega) (by omega)
    split
    · split
      · exact Safe.err (by in_tac)
      split
      · exact Safe.err (by in_tac)
      · exact validateFloatExponent_safe hn (by simp only [Cur.adv]; omega)
          (by simp only [Cur.adv]; omega)
    split
    · rename_i hu
      subst hu
      have : '_'.utf8Size = 1 := by decide
      split
      · exact Safe.err (by in_tac)
      split
      · exact consec_safe hi (by omega)
      · exact ih (by omega) (by omega)
    · exact Safe.err (by in_tac)

theorem validateFract_safe {ovf : Bool} {lit : Str} {start : Nat} (hn : 1 ≤ n) {cur : Cur}
    (hi : 1 ≤ cur.i) (h : cur.i + blen cur.rest ≤ n) :
    Safe (In p n) (validateFloatFractionalPart ovf cur lit (Span.fromPosLen p n) start) := by
  unfold validateFloatFractionalPart
  split
  · exact Safe.err (by in_tac)
  · exact floatFractLoop_safe hn hi h

theorem prefixedIntLoop_safe {ovf : Bool} {pre : IntPrefix} (hn : 1 ≤ n) {s : Str} :
    ∀ {i : Nat} {first last : Bool} {a : Nat}, 1 ≤ i → i + blen s ≤ n →
    Safe (In p n) (prefixedIntLoop ovf (Span.fromPosLen p n) pre i s first (wrapI64 a) last) := by
  induction s with
  | nil =>
    intro i first last a hi h
    unfold prefixedIntLoop
    split
    · exact Safe.err (by in_tac)
    split
    · rw [posMinus_ok (by simp only [Span.fromPosLen, Pos.plus]; omega)]
      exact Safe.err (by in_tac)
    · exact Safe.ok _
  | cons c cs ih =>
    intro i first last a hi h
    rw [blen_cons] at h
    have hc := utf8Size_pos' c
    unfold prefixedIntLoop
    cases hx : hexDigitVal c with
    | some d =>
      dsimp only
      by_cases hb : 2 ^ pre.bits ≤ d
      · rw [if_pos hb]
        exact Safe.err (by in_tac)
      · rw [if_neg hb]
        have h64 : ¬ 64 ≤ pre.bits := by rcases bits_cases pre with h | h | h <;> omega
        rw [if_neg h64]
        have hw := wrap_step (bits_cases pre) a d (by omega)
        rw [addI64_ok hw.1, hw.2]
        have e : ((a : Int) * 2 ^ pre.bits + (d : Int)) =
            ((a * 2 ^ pre.bits + d : Nat) : Int) := by push_cast; rfl
        rw [e]
        exact ih (by omega) (by omega)
    | none =>
      dsimp only
      split
      · exact Safe.err (by in_tac)
      split
      · rename_i hu
        subst hu
        have : '_'.utf8Size = 1 := by decide
        split
        · exact Safe.err (by in_tac)
        split
        · exact consec_safe hi (by omega)
        · exact ih (by omega) (by omega)
      · exact Safe.err (by in_tac)

/-- Overflow of an integer literal is also a legitimate error; it carries the literal's span. -/
def InOrOvf (p : Pos) (n : Nat) (e : Error) : Prop :=
  In p n e ∨ e = .intLiteralOverflow (Span.fromPosLen p n)

theorem Safe.inOr {α : Type} {r : Res Error α} (h : Safe (In p n) r) : Safe (InOrOvf p n) r :=
  h.mono fun _ he => .inl he

/-- A character the decimal loop steps over. -/
def numChar (c : Char) : Bool := isDigit c || c == '_'

theorem numChar_utf8 {c : Char} (h : numChar c = true) : c.utf8Size = 1 := by
  unfold numChar at h
  simp only [Bool.or_eq_true, beq_iff_eq] at h
  rcases h with h | rfl
  · exact isDigit_utf8Size h
  · decide

theorem decimalLoop_safe {ovf : Bool} {lit : Str} (hn : 1 ≤ n) {sg : Option Sign} {s : Str} :
    ∀ {i : Nat} {acc : Int} {over last : Bool}, 1 ≤ i → i + blen s ≤ n →
    (∃ pre, lit = pre ++ s ∧ pre.length = i) →
    Safe (InOrOvf p n) (decimalLoop ovf lit (Span.fromPosLen p n) sg i s acc over last) := by
  induction s with
  | nil =>
    intro i acc over last hi h _
    unfold decimalLoop
    split
    · rw [posMinus_ok (by simp only [Span.fromPosLen, Pos.plus]; omega)]
      exact Safe.err (.inl (by in_tac))
    split
    · exact Safe.err (.inr rfl)
    · exact Safe.pure _
  | cons c cs ih =>
    intro i acc over last hi h hpre
    obtain ⟨pre, hlit, hlen⟩ := hpre
    rw [blen_cons] at h
    have hc := utf8Size_pos' c
    have hpre' : c.utf8Size = 1 → ∃ pre, lit = pre ++ cs ∧ pre.length = i + c.utf8Size := by
      intro h1
      exact ⟨pre ++ [c], by rw [hlit]; simp, by simp [hlen, h1]⟩
    unfold decimalLoop
    dsimp only
    split
    · rename_i hd
      have hd1 := isDigit_utf8Size hd
      split
      · exact ih (by omega) (by omega) (hpre' hd1)
      · split
        · exact ih (by omega) (by omega) (hpre' hd1)
        · exact ih (by omega) (by omega) (hpre' hd1)
    split
    · split
      · rw [posMinus_ok (by simp only [Span.fromPosLen, Pos.plus]; omega)]
        exact Safe.err (.inl (by in_tac))
      · refine Safe.bind (validateFract_safe hn (by simp only [Cur.adv]; omega)
          (by simp only [Cur.adv]; omega)).inOr ?_
        intro v _
        exact Safe.pure _
    split
    · split
      · rw [posMinus_ok (by simp only [Span.fromPosLen, Pos.plus]; omega)]
        exact Safe.err (.inl (by in_tac))
      · refine Safe.bind (validateFloatExponent_safe hn (by simp only [Cur.adv]; omega)
          (by simp only [Cur.adv]; omega)).inOr ?_
        intro v _
        exact Safe.pure _
    split
    · rename_i h3
      refine Safe.bind (continueParsingLocalTime_safe (by simp only [Cur.adv]; omega)
        (by omega)).inOr ?_
      intro v _
      exact Safe.pure _
    split
    · exact (orInvalid_safe (afterYear_safe (by simp only [Cur.adv]; omega))).inOr
    split
    · exact Safe.err (.inl (by in_tac))
    split
    · split
      · exact Safe.pure _
      · rename_i h6 h7
        have hlt : 4 < lit.length := by rw [hlit]; simp; omega
        rw [List.getElem?_eq_getElem hlt]
        exact Safe.pure _
    split
    · rename_i hu
      subst hu
      have : '_'.utf8Size = 1 := by decide
      split
      · exact (consec_safe hi (by omega)).inOr
      · exact ih (by omega) (by omega) (hpre' this)
    · exact Safe.err (.inl (by in_tac))

theorem parsePrefixed_safe {ovf : Bool} {lit : Str} {sg : Option Sign} {cur : Cur}
    (hn : (if sg.isSome then 2 else 1) ≤ n) (hi : 1 ≤ cur.i) (h : cur.i + blen cur.rest ≤ n) :
    Safe (In p n) (parsePrefixedIntFloatOrDate ovf cur lit (Span.fromPosLen p n) sg) := by
  have hn1 : 1 ≤ n := by split at hn <;> omega
  unfold parsePrefixedIntFloatOrDate
  rcases cur with ⟨i, _ | ⟨c, cs⟩⟩
  · exact Safe.pure _
  simp only [blen_cons] at h hi
  have hc := utf8Size_pos' c
  dsimp only
  split
  · split
    · exact Safe.err (by in_tac)
    split
    · exact Safe.err (by in_tac)
    · refine Safe.bind ?_ (fun _ _ => Safe.pure _)
      unfold parsePrefixedIntLiteral
      rw [← wrapI64_zero]
      exact prefixedIntLoop_safe hn1 (by simp only [Cur.adv]; omega) (by simp only [Cur.adv]; omega)
  · split
    · exact Safe.bind (validateFract_safe hn1 (by simp only [Cur.adv]; omega)
        (by simp only [Cur.adv]; omega)) (fun _ _ => Safe.pure _)
    split
    · exact Safe.bind (validateFloatExponent_safe hn1 (by simp only [Cur.adv]; omega)
        (by simp only [Cur.adv]; omega)) (fun _ _ => Safe.pure _)
    split
    · exact orInvalid_safe (continueParsingDateTime_safe (by simp only [Cur.adv]; omega) (by omega))
    split
    · refine Safe.err ?_
      split at hn
      · rename_i hs; rw [if_pos hs]; in_tac
      · rename_i hs; rw [if_neg hs]; in_tac
    split <;> exact Safe.err (by in_tac)

theorem bareLoop_safe {ex : Str} {s : Str} : ∀ {i : Nat} {e : Str}, i + blen s ≤ n →
    Safe (In p n) (bareLoop (Span.fromPosLen p n) ex i s e) := by
  induction s with
  | nil =>
    intro i e h
    cases e with
    | nil => exact Safe.ok _
    | cons e es => exact Safe.err (by in_tac)
  | cons c cs ih =>
    intro i e h
    rw [blen_cons] at h
    have hc := utf8Size_pos' c
    cases e with
    | nil => exact Safe.err (by in_tac)
    | cons e es =>
      unfold bareLoop
      split
      · exact ih (by omega)
      split <;> exact Safe.err (by in_tac)

theorem parseBareLiteral_safe {cur : Cur} {i : Nat} {first : Char} {ex : Str}
    (h : cur.i + blen cur.rest ≤ n) (hi : i + 1 ≤ n) :
    Safe (In p n) (parseBareLiteral cur (Span.fromPosLen p n) i first ex) := by
  unfold parseBareLiteral
  split
  · rename_i hu
    have hf : first.utf8Size = 1 := by
      apply ascii_utf8Size
      simp only [le_char_iff, Char.reduceToNat] at hu
      omega
    exact Safe.err (by in_tac)
  · exact bareLoop_safe h

theorem parseDecimal_safe {ovf : Bool} {lit : Str} {sg : Option Sign} {cur : Cur} {acc : Int}
    (hi : 1 ≤ cur.i) (h : cur.i + blen cur.rest ≤ n)
    (hpre : ∃ pre, lit = pre ++ cur.rest ∧ pre.length = cur.i) :
    Safe (InOrOvf p n) (parseDecimalIntFloatOrDate ovf cur lit (Span.fromPosLen p n) acc sg) := by
  unfold parseDecimalIntFloatOrDate
  exact decimalLoop_safe (by omega) hi h hpre

theorem isDigit19_utf8 {c : Char} (h : isDigit19 c = true) : c.utf8Size = 1 := by
  have := (isDigit19_iff c).1 h
  exact isDigit_utf8Size ((isDigit_iff_digitOf c).2 this.1)

theorem parseSigned_safe {ovf : Bool} {c : Char} {cs : Str} {sign : Sign} (hc : c.utf8Size = 1)
    (h : 1 + blen cs ≤ n) :
    Safe (InOrOvf p n) (parseSigned ovf (c :: cs) (Span.fromPosLen p n) c sign ⟨1, cs⟩) := by
  unfold parseSigned
  rcases cs with _ | ⟨d, ds⟩
  · exact Safe.err (.inl (by in_tac))
  rw [blen_cons] at h
  have hd := utf8Size_pos' d
  dsimp only
  split
  · refine (parsePrefixed_safe ?_ ?_ ?_).inOr
    · simp; omega
    · simp only [Cur.adv]; omega
    · simp only [Cur.adv]; omega
  split
  · rename_i h19
    refine parseDecimal_safe ?_ ?_ ⟨[c, d], rfl, ?_⟩
    · simp only [Cur.adv]; omega
    · simp only [Cur.adv]; omega
    · simp [Cur.adv, isDigit19_utf8 h19]
  split
  · refine Safe.bind (parseBareLiteral_safe ?_ ?_).inOr (fun _ _ => Safe.pure _)
    · simp only [Cur.adv]; omega
    · omega
  split
  · refine Safe.bind (parseBareLiteral_safe ?_ ?_).inOr (fun _ _ => Safe.pure _)
    · simp only [Cur.adv]; omega
    · omega
  split
  · exact Safe.err (.inl (by in_tac))
  · exact Safe.err (.inl (by in_tac))

/-- For a non-empty literal with its own span there is no panic, and errors point inside. -/
theorem parseLiteral_safe {ovf : Bool} {lit : Str} (hlit : lit ≠ []) :
    Safe (InOrOvf p (blen lit)) (parseLiteral ovf lit (Span.fromPosLen p (blen lit))) := by
  rcases lit with _ | ⟨c, cs⟩
  · exact absurd rfl hlit
  have hc := utf8Size_pos' c
  unfold parseLiteral
  dsimp only
  split
  · rename_i hp
    subst hp
    exact parseSigned_safe (by decide) (by rw [blen_cons, show '+'.utf8Size = 1 by decide]; omega)
  split
  · rename_i hp
    subst hp
    exact parseSigned_safe (by decide) (by rw [blen_cons, show '-'.utf8Size = 1 by decide]; omega)
  split
  · refine (parsePrefixed_safe ?_ ?_ ?_).inOr
    · simp; omega
    · simp only [Cur.adv]; omega
    · simp only [Cur.adv, blen_cons]; omega
  split
  · rename_i h19
    refine parseDecimal_safe ?_ ?_ ⟨[c], rfl, ?_⟩
    · simp only [Cur.adv]; omega
    · simp only [Cur.adv, blen_cons]; omega
    · simp [Cur.adv, isDigit19_utf8 h19]
  iterate 4
    split
    · refine Safe.bind (parseBareLiteral_safe ?_ ?_).inOr (fun _ _ => Safe.pure _)
      · simp only [Cur.adv, blen_cons]; omega
      · rw [blen_cons]; omega
  split
  · exact Safe.err (.inl (by rw [blen_cons]; in_tac))
  · exact Safe.err (.inl (by rw [blen_cons]; in_tac))

end Verif.Toml
