import Verif.Toml.InvalidLoc

/-!
# The errors of the literal parsers begin and end between characters of the literal
-/

namespace Verif.Toml
open Verif Verif.Spec.Toml

/-- The offset `o` is between characters of `lit`. -/
def Bnd (lit : Str) (o : Nat) : Prop := ∃ a b, lit = a ++ b ∧ blen a = o

/-- The keywords of literals. -/
def isKeyword (s : Str) : Prop :=
  s = "true".toList ∨ s = "false".toList ∨ s = "inf".toList ∨ s = "nan".toList

/-- Neither an error about brackets nor one about the entries of tables; the expected text named in
an error is a keyword. -/
def ExpOk : Error → Prop
  | .uppercaseBareLitChar _ ex _ => isKeyword ex
  | .unexpectedBareLitChar _ ex _ => isKeyword ex
  | .bareLitTrailingChars _ ex _ => isKeyword ex
  | .bareLitMissingChars ex _ => isKeyword ex
  | .expectedRightCurlyFound _ _ _ => False
  | .expectedRightSquareFound _ _ _ => False
  | .expectedDotOrRightSquareFound _ _ _ => False
  | .duplicateKey _ _ _ _ => False
  | .cannotExtendInlineTable _ _ _ _ => False
  | .cannotExtendInlineArray _ _ _ _ => False
  | .cannotExtendInlineArrayAsTable _ _ _ _ => False
  | .cannotExtendTableWithDottedKey _ _ _ _ => False
  | .cannotExtendArrayWithDottedKey _ _ _ _ => False
  | _ => True

/-- The error spans whole characters of the literal `lit` at `p`. -/
structure Bd (lit : Str) (p : Pos) (e : Error) : Prop where
  at_ : ∃ o1 o2, e.span = ⟨p.plus o1, p.plus o2⟩ ∧ o1 ≤ o2 ∧ Bnd lit o1 ∧ Bnd lit o2
  exp : ExpOk e

/-- The cursor `(i, s)` in `lit`: all characters before are ASCII. -/
def CurAt (lit : Str) (i : Nat) (s : Str) : Prop :=
  ∃ pre, lit = pre ++ s ∧ pre.length = i ∧ ∀ c ∈ pre, c.utf8Size = 1

theorem blen_ascii {s : Str} (h : ∀ c ∈ s, c.utf8Size = 1) : blen s = s.length := by
  induction s with
  | nil => rfl
  | cons c cs ih =>
    rw [blen_cons, h c (by simp), ih (fun d hd => h d (by simp [hd]))]
    simp; omega

variable {lit : Str} {p : Pos} {i : Nat} {s : Str}

theorem Bnd.full : Bnd lit (blen lit) := ⟨lit, [], by simp, rfl⟩

theorem Bnd.zero : Bnd lit 0 := ⟨[], lit, rfl, rfl⟩

theorem CurAt.zero : CurAt lit 0 lit := ⟨[], rfl, rfl, by simp⟩

theorem CurAt.le (h : CurAt lit i s) {o : Nat} (ho : o ≤ i) : Bnd lit o := by
  obtain ⟨pre, rfl, rfl, hasc⟩ := h
  refine ⟨pre.take o, pre.drop o ++ s, ?_, ?_⟩
  · rw [← List.append_assoc, List.take_append_drop]
  · rw [blen_ascii (fun c hc => hasc c (List.mem_of_mem_take hc))]
    simp; omega

theorem CurAt.char {c : Char} {cs : Str} (h : CurAt lit i (c :: cs)) : Bnd lit (i + c.utf8Size) := by
  obtain ⟨pre, rfl, rfl, hasc⟩ := h
  exact ⟨pre ++ [c], cs, by simp, by simp [blen_ascii hasc]⟩

theorem CurAt.adv {c : Char} {cs : Str} (h : CurAt lit i (c :: cs)) (hc : c.utf8Size = 1) :
    CurAt lit (i + c.utf8Size) cs := by
  obtain ⟨pre, rfl, rfl, hasc⟩ := h
  refine ⟨pre ++ [c], by simp, by simp [hc], ?_⟩
  intro d hd
  rcases List.mem_append.1 hd with hd | hd
  · exact hasc d hd
  · rw [List.mem_singleton.1 hd]; exact hc

theorem CurAt.adv1 {c : Char} {cs : Str} (h : CurAt lit i (c :: cs)) (hc : c.utf8Size = 1) :
    CurAt lit (i + 1) cs := by rw [← hc]; exact h.adv hc

theorem CurAt.blen (h : CurAt lit i s) : blen lit = i + blen s := by
  obtain ⟨pre, rfl, rfl, hasc⟩ := h
  rw [blen_append, blen_ascii hasc]

theorem CurAt.nil (h : CurAt lit i []) : i = Verif.blen lit := by rw [h.blen]; simp

theorem CurAt.unders (h : CurAt lit i s) : Bnd lit (i + leadingUnderscores s) := by
  induction s generalizing i with
  | nil => exact h.le (by simp [leadingUnderscores])
  | cons c cs ih =>
    unfold leadingUnderscores
    split
    · rename_i hc
      subst hc
      have := ih (h.adv1 (by decide))
      rw [show i + (leadingUnderscores cs + 1) = i + 1 + leadingUnderscores cs by omega]
      exact this
    · exact h.le (by omega)

theorem Bd.of {e : Error} (o1 o2 : Nat) (h1 : e.span.start.line = p.line)
    (h2 : e.span.stop.line = p.line) (h3 : e.span.start.char = p.char + o1)
    (h4 : e.span.stop.char = p.char + o2) (hle : o1 ≤ o2) (b1 : Bnd lit o1) (b2 : Bnd lit o2)
    (hs : ExpOk e) : Bd lit p e := by
  refine ⟨⟨o1, o2, ?_, hle, b1, b2⟩, hs⟩
  revert h1 h2 h3 h4
  generalize e.span = sp
  obtain ⟨⟨l1, c1⟩, ⟨l2, c2⟩⟩ := sp
  rintro rfl rfl rfl rfl
  rfl

/-- Proves `Bd` for a concrete error from its offsets. -/
macro "bd_tac" o1:term ", " o2:term : tactic => `(tactic|
  (refine Safe.err (Bd.of $o1 $o2 ?_ ?_ ?_ ?_ ?_ ?_ ?_ ?_) <;> first
    | exact Bnd.full | exact Bnd.zero | trivial | (show (_ : Nat) ≤ _; omega)
    | (simp only [Error.span, Span.ofPos, Span.fromPosLen, Span.asciiChar, Pos.plus, Pos.minus] at *;
       first | done | omega | rfl)
    | skip))

theorem expectTwoDigitNum_bd {next : List Char} {f : DateTimeField} (h : CurAt lit i s) :
    Safe (Bd lit p) (expectTwoDigitNum ⟨i, s⟩ next (Span.fromPosLen p (blen lit)) f) := by
  unfold expectTwoDigitNum
  rcases s with _ | ⟨c, cs⟩
  · unfold ExpectNumError.kind; bd_tac (blen lit), (blen lit)
  dsimp only [Cur.adv]
  split
  · rename_i hc
    have h1 := h.adv (isDigit_utf8Size hc)
    rcases cs with _ | ⟨d, ds⟩
    · unfold ExpectNumError.kind; bd_tac (blen lit), (blen lit)
    dsimp only
    split
    · exact Safe.ok _
    · split
      · unfold ExpectNumError.kind
        bd_tac (i + c.utf8Size), (i + c.utf8Size) <;> exact h1.le (Nat.le_refl _)
      · unfold ExpectNumError.kind
        bd_tac (i + c.utf8Size), (i + c.utf8Size + d.utf8Size)
        · exact h1.le (Nat.le_refl _)
        · exact h1.char
  · split
    · unfold ExpectNumError.kind
      bd_tac i, i <;> exact h.le (Nat.le_refl _)
    · unfold ExpectNumError.kind
      bd_tac i, (i + c.utf8Size)
      · exact h.le (Nat.le_refl _)
      · exact h.char

theorem expectTwoDigitNum_cur {next : List Char} {f : DateTimeField} {span : Span} {m : Nat}
    {sp : Span} {cur : Cur} (h : CurAt lit i s)
    (hok : expectTwoDigitNum ⟨i, s⟩ next span f = .ok (m, sp, cur)) :
    CurAt lit cur.i cur.rest ∧ cur.i = i + 2 ∧
      sp = ⟨span.start.plus i, (span.start.plus i).plus 2⟩ := by
  obtain ⟨cs, hm, rfl, rfl, rfl⟩ := expectTwoDigitNum_ok.1 hok
  refine ⟨?_, rfl, rfl⟩
  unfold two at h
  exact (h.adv1 (isDigit_utf8Size (isDigit_digitChar (by omega)))).adv1
    (isDigit_utf8Size (isDigit_digitChar (by omega)))

theorem expectNumIn_bd {next : List Char} {f : DateTimeField} {lo hi : Nat}
    (h : CurAt lit i s) :
    Safe (Bd lit p) (expectNumIn ⟨i, s⟩ next (Span.fromPosLen p (blen lit)) f lo hi) := by
  unfold expectNumIn
  refine Safe.bind (expectTwoDigitNum_bd h) ?_
  rintro ⟨m, sp, cur⟩ hok
  obtain ⟨hc, hi', rfl⟩ := expectTwoDigitNum_cur h hok
  refine Safe.bind ?_ (fun _ _ => Safe.pure _)
  unfold checkRange
  split
  · exact Safe.ok _
  · bd_tac i, (i + 2)
    · exact h.le (Nat.le_refl _)
    · exact hc.le (by omega)

theorem expectNumIn_cur {next : List Char} {f : DateTimeField} {span : Span} {lo hi m : Nat}
    {cur : Cur} (h : CurAt lit i s)
    (hok : expectNumIn ⟨i, s⟩ next span f lo hi = .ok (m, cur)) :
    CurAt lit cur.i cur.rest := by
  unfold expectNumIn at hok
  simp only [Res.bind_eq_ok] at hok
  obtain ⟨⟨m', sp, cur'⟩, h1, ⟨⟩, -, h3⟩ := hok
  simp only [Res.pure_eq, Res.ok.injEq, Prod.mk.injEq] at h3
  obtain ⟨rfl, rfl⟩ := h3
  exact (expectTwoDigitNum_cur h h1).1

theorem expectChar_bd {f : DateTimeField} {x : Char} (h : CurAt lit i s) :
    Safe (Bd lit p) (expectChar ⟨i, s⟩ (Span.fromPosLen p (blen lit)) f x) := by
  unfold expectChar
  rcases s with _ | ⟨c, cs⟩
  · bd_tac (blen lit), (blen lit)
  dsimp only
  split
  · exact Safe.ok _
  · bd_tac i, (i + c.utf8Size)
    · exact h.le (Nat.le_refl _)
    · exact h.char

theorem expectChar_cur {span : Span} {f : DateTimeField} {x : Char} {cur : Cur}
    (h : CurAt lit i s) (hx : x.utf8Size = 1)
    (hok : expectChar ⟨i, s⟩ span f x = .ok cur) : CurAt lit cur.i cur.rest := by
  obtain ⟨cs, rfl, rfl⟩ := (expectChar_ok hx).1 hok
  exact h.adv1 hx

theorem unexpectedCharError_bd {α : Type} {c : Char} {cs : Str} (h : CurAt lit i (c :: cs)) :
    Safe (Bd lit p) (unexpectedCharError c (Span.fromPosLen p (blen lit)) i : Res Error α) := by
  unfold unexpectedCharError
  bd_tac i, (i + c.utf8Size)
  · exact h.le (Nat.le_refl _)
  · exact h.char

theorem subsecLoop_bd {s : Str} : ∀ {i d m : Nat}, CurAt lit i s →
    Safe (Bd lit p) (subsecLoop (Span.fromPosLen p (blen lit)) i s d m) ∧
    ∀ d' m' cur, subsecLoop (Span.fromPosLen p (blen lit)) i s d m = .ok (d', m', cur) →
      CurAt lit cur.i cur.rest := by
  induction s with
  | nil =>
    intro i d m h
    unfold subsecLoop
    refine ⟨Safe.ok _, ?_⟩
    intro d' m' cur h'
    simp only [Res.ok.injEq, Prod.mk.injEq] at h'
    obtain ⟨rfl, rfl, rfl⟩ := h'
    exact h
  | cons c cs ih =>
    intro i d m h
    unfold subsecLoop
    split
    · rename_i hd
      have h1 := h.adv (isDigit_utf8Size hd)
      split
      · exact ih h1
      · exact ih h1
    · split
      · refine ⟨Safe.ok _, ?_⟩
        intro d' m' cur h'
        simp only [Res.ok.injEq, Prod.mk.injEq] at h'
        obtain ⟨rfl, rfl, rfl⟩ := h'
        exact h
      · refine ⟨unexpectedCharError_bd h, ?_⟩
        intro d' m' cur h'
        simp [unexpectedCharError] at h'

theorem parseSubsec_bd (h : CurAt lit i s) :
    Safe (Bd lit p) (parseSubsec ⟨i, s⟩ (Span.fromPosLen p (blen lit))) ∧
    ∀ m cur, parseSubsec ⟨i, s⟩ (Span.fromPosLen p (blen lit)) = .ok (m, cur) →
      CurAt lit cur.i cur.rest := by
  have hl := @subsecLoop_bd lit p s i 0 0 h
  unfold parseSubsec
  constructor
  · refine Safe.bind hl.1 ?_
    rintro ⟨d, m, cur⟩ -
    dsimp only
    split
    · bd_tac (blen lit), (blen lit)
    · exact Safe.pure _
  · intro m cur hok
    simp only [Res.bind_eq_ok] at hok
    obtain ⟨⟨d', m', cur'⟩, h1, h2⟩ := hok
    split at h2
    · simp at h2
    · simp only [Res.pure_eq, Res.ok.injEq, Prod.mk.injEq] at h2
      obtain ⟨rfl, rfl⟩ := h2
      exact hl.2 _ _ _ h1

theorem optSubsec_bd (h : CurAt lit i s) :
    Safe (Bd lit p) (optSubsec ⟨i, s⟩ (Span.fromPosLen p (blen lit))) ∧
    ∀ m cur, optSubsec ⟨i, s⟩ (Span.fromPosLen p (blen lit)) = .ok (m, cur) →
      CurAt lit cur.i cur.rest := by
  unfold optSubsec
  rcases s with _ | ⟨c, cs⟩
  · refine ⟨Safe.pure _, fun m cur h' => ?_⟩
    simp only [Res.pure_eq, Res.ok.injEq, Prod.mk.injEq] at h'
    obtain ⟨rfl, rfl⟩ := h'; exact h
  dsimp only [Cur.adv]
  split
  · rename_i hd
    subst hd
    exact parseSubsec_bd (h.adv (by decide))
  · refine ⟨Safe.pure _, fun m cur h' => ?_⟩
    simp only [Res.pure_eq, Res.ok.injEq, Prod.mk.injEq] at h'
    obtain ⟨rfl, rfl⟩ := h'; exact h

theorem continueParsingTime_bd {cur : Cur} {hour : Nat} (h : CurAt lit cur.i cur.rest) :
    Safe (Bd lit p) (continueParsingTime cur (Span.fromPosLen p (blen lit)) hour) ∧
    ∀ m cur', continueParsingTime cur (Span.fromPosLen p (blen lit)) hour = .ok (m, cur') →
      CurAt lit cur'.i cur'.rest := by
  unfold continueParsingTime
  constructor
  · refine Safe.bind (expectNumIn_bd h) ?_
    rintro ⟨m, c1⟩ h1
    have e1 := expectNumIn_cur h h1
    refine Safe.bind (expectChar_bd e1) ?_
    rintro c2 h2
    have e2 := expectChar_cur e1 (by decide) h2
    refine Safe.bind (expectNumIn_bd e2) ?_
    rintro ⟨sec, c3⟩ h3
    have e3 := expectNumIn_cur e2 h3
    have hs := @optSubsec_bd lit p c3.i c3.rest e3
    refine Safe.bind hs.1 ?_
    rintro ⟨nn, c4⟩ h4
    have e4 := hs.2 _ _ h4
    rcases c4 with ⟨j, _ | ⟨c, cs⟩⟩
    · exact Safe.pure _
    · dsimp only
      split
      · exact Safe.pure _
      · exact unexpectedCharError_bd e4
  · intro t cur' hok
    simp only [Res.bind_eq_ok] at hok
    obtain ⟨⟨m, c1⟩, h1, c2, h2, ⟨sec, c3⟩, h3, ⟨nn, c4⟩, h4, h5⟩ := hok
    have e1 := expectNumIn_cur h h1
    have e2 := expectChar_cur e1 (by decide) h2
    have e3 := expectNumIn_cur e2 h3
    have e4 := (@optSubsec_bd lit p c3.i c3.rest e3).2 _ _ h4
    rcases c4 with ⟨j, _ | ⟨c, cs⟩⟩
    · simp only [Res.pure_eq, Res.ok.injEq, Prod.mk.injEq] at h5
      rw [← h5.2]; exact e4
    · dsimp only at h5
      split at h5
      · simp only [Res.pure_eq, Res.ok.injEq, Prod.mk.injEq] at h5
        rw [← h5.2]; exact e4
      · simp [unexpectedCharError] at h5

theorem parseOffset_bd {cur : Cur} (h : CurAt lit cur.i cur.rest) :
    Safe (Bd lit p) (parseOffset cur (Span.fromPosLen p (blen lit))) := by
  unfold parseOffset
  refine Safe.bind (expectNumIn_bd h) ?_
  rintro ⟨m, c1⟩ h1
  have e1 := expectNumIn_cur h h1
  refine Safe.bind (expectChar_bd e1) ?_
  rintro c2 h2
  have e2 := expectChar_cur e1 (by decide) h2
  refine Safe.bind (expectNumIn_bd e2) ?_
  rintro ⟨sec, c3⟩ h3
  exact Safe.pure _

theorem tryToParseOffset_bd {cur : Cur} (h : CurAt lit cur.i cur.rest) :
    Safe (Bd lit p) (tryToParseOffset cur (Span.fromPosLen p (blen lit))) := by
  unfold tryToParseOffset
  rcases cur with ⟨i, _ | ⟨c, cs⟩⟩
  · exact Safe.ok _
  dsimp only at h ⊢
  split
  · exact Safe.ok _
  split
  · rename_i hc
    subst hc
    refine Safe.bind (parseOffset_bd (h.adv (by decide))) ?_
    rintro ⟨m, c1⟩ -
    exact Safe.pure _
  split
  · rename_i hc
    subst hc
    refine Safe.bind (parseOffset_bd (h.adv (by decide))) ?_
    rintro ⟨m, c1⟩ -
    exact Safe.pure _
  · exact unexpectedCharError_bd h

theorem parseTimeAndOffset_bd {cur : Cur} (h : CurAt lit cur.i cur.rest) :
    Safe (Bd lit p) (parseTimeAndOffset cur (Span.fromPosLen p (blen lit))) := by
  unfold parseTimeAndOffset
  refine Safe.bind (expectNumIn_bd h) ?_
  rintro ⟨m, c1⟩ h1
  have e1 := expectNumIn_cur h h1
  refine Safe.bind (expectChar_bd e1) ?_
  rintro c2 h2
  have e2 := expectChar_cur e1 (by decide) h2
  have ht := @continueParsingTime_bd lit p c2 m e2
  refine Safe.bind ht.1 ?_
  rintro ⟨t, c3⟩ h3
  have e3 := ht.2 _ _ h3
  refine Safe.bind (tryToParseOffset_bd e3) ?_
  rintro ⟨o, c4⟩ -
  exact Safe.pure _

theorem continueParsingLocalTime_bd {cur : Cur} {hour : Nat} (h : CurAt lit cur.i cur.rest)
    (h2 : 2 ≤ cur.i) :
    Safe (Bd lit p) (continueParsingLocalTime cur (Span.fromPosLen p (blen lit)) hour) := by
  unfold continueParsingLocalTime
  refine Safe.bind ?_ ?_
  · unfold checkRange
    split
    · exact Safe.ok _
    · bd_tac 0, 2
      exact h.le h2
  rintro ⟨⟩ -
  have ht := @continueParsingTime_bd lit p cur hour h
  refine Safe.bind ht.1 ?_
  rintro ⟨t, c3⟩ h3
  have e3 := ht.2 _ _ h3
  refine Safe.bind ?_ (fun _ _ => Safe.pure _)
  unfold errorOnOffset
  rcases c3 with ⟨i, _ | ⟨c, cs⟩⟩
  · exact Safe.ok _
  dsimp only at e3 ⊢
  split
  · rename_i ho
    have hc : c.utf8Size = 1 := by
      unfold isOffsetStart at ho
      simp only [Bool.or_eq_true, decide_eq_true_eq] at ho
      rcases ho with ((rfl | rfl) | rfl) | rfl <;> decide
    bd_tac i, (i + 1)
    · exact e3.le (Nat.le_refl _)
    · exact (e3.adv1 hc).le (Nat.le_refl _)
  · bd_tac i, (i + c.utf8Size)
    · exact e3.le (Nat.le_refl _)
    · exact e3.char

theorem afterYear_bd {cur : Cur} {y : Nat} (h : CurAt lit cur.i cur.rest) :
    Safe (Bd lit p) (continueParsingDateTimeAfterYear cur (Span.fromPosLen p (blen lit)) y) := by
  unfold continueParsingDateTimeAfterYear
  refine Safe.bind (expectNumIn_bd h) ?_
  rintro ⟨m, c1⟩ h1
  have e1 := expectNumIn_cur h h1
  refine Safe.bind (expectChar_bd e1) ?_
  rintro c2 h2
  have e2 := expectChar_cur e1 (by decide) h2
  refine Safe.bind (expectNumIn_bd e2) ?_
  rintro ⟨sec, c3⟩ h3
  have e3 := expectNumIn_cur e2 h3
  rcases c3 with ⟨i, _ | ⟨c, cs⟩⟩
  · exact Safe.pure _
  dsimp only at e3 ⊢
  split
  · rename_i hT
    have hc : c.utf8Size = 1 := by rcases hT with rfl | rfl <;> decide
    refine Safe.bind (parseTimeAndOffset_bd (e3.adv hc)) ?_
    rintro ⟨⟨t, o⟩, c4⟩ -
    exact Safe.pure _
  · split
    · bd_tac i, i <;> exact e3.le (Nat.le_refl _)
    · bd_tac i, (i + c.utf8Size)
      · exact e3.le (Nat.le_refl _)
      · exact e3.char

theorem yearCharError_bd {α : Type} {c : Char} {cs : Str} (h : CurAt lit i (c :: cs))
    (hi : 1 ≤ i) :
    Safe (Bd lit p) (yearCharError c i (Span.fromPosLen p (blen lit)) : Res Error α) := by
  unfold yearCharError
  split
  · bd_tac 0, 1
    exact h.le hi
  split
  · bd_tac i, i <;> exact h.le (Nat.le_refl _)
  · bd_tac i, (i + c.utf8Size)
    · exact h.le (Nat.le_refl _)
    · exact h.char

theorem continueParsingDateTime_bd {cur : Cur} {y : Nat} (h : CurAt lit cur.i cur.rest)
    (hi : 1 ≤ cur.i) :
    Safe (Bd lit p) (continueParsingDateTime cur (Span.fromPosLen p (blen lit)) y) := by
  unfold continueParsingDateTime
  rcases cur with ⟨i, _ | ⟨c, cs⟩⟩
  · bd_tac (blen lit), (blen lit)
  dsimp only [Cur.adv] at h hi ⊢
  split
  · rename_i hd
    have h1 := h.adv (isDigit_utf8Size hd)
    rcases cs with _ | ⟨d, ds⟩
    · bd_tac (blen lit), (blen lit)
    dsimp only
    split
    · rename_i hd2
      have h2 := h1.adv (isDigit_utf8Size hd2)
      refine Safe.bind (expectChar_bd h2) ?_
      rintro c2 h3
      exact afterYear_bd (expectChar_cur h2 (by decide) h3)
    · exact yearCharError_bd h1 (by omega)
  · split
    · rename_i hc
      subst hc
      have h1 := h.adv (by decide)
      refine Safe.bind (continueParsingLocalTime_bd h1 ?_) ?_
      · simp only [show ':'.utf8Size = 1 by decide]; omega
      rintro t -
      exact Safe.pure _
    · exact yearCharError_bd h hi

/-! ### Numbers -/

theorem consec_bd {α : Type} {s : Str} (h1 : 1 ≤ i) (h : CurAt lit (i + 1) s) :
    Safe (Bd lit p) (consecutiveUnderscoreError s ((Span.fromPosLen p (blen lit)).start.plus (i - 1)) :
      Res Error α) := by
  unfold consecutiveUnderscoreError
  bd_tac (i - 1), (i + 1 + leadingUnderscores s)
  · exact h.le (by omega)
  · exact h.unders

theorem parseFloat_bd {t : Str} :
    Safe (Bd lit p) (parseFloat t (Span.fromPosLen p (blen lit))) := by
  unfold parseFloat
  dsimp only
  split
  · exact Safe.ok _
  · bd_tac 0, (blen lit)

theorem floatExpLoop_bd {ovf : Bool} {t : Str} {s : Str} :
    ∀ {i : Nat} {first last : Bool}, 1 ≤ i → CurAt lit i s →
    Safe (Bd lit p) (floatExpLoop ovf t (Span.fromPosLen p (blen lit)) i s first last) := by
  induction s with
  | nil =>
    intro i first last hi h
    have hn := h.nil
    unfold floatExpLoop
    split
    · rw [posMinus_ok (by simp only [Span.fromPosLen, Pos.plus]; omega)]
      simp only [Res.bind_ok]
      bd_tac (blen lit - 1), (blen lit)
      exact h.le (by omega)
    · exact parseFloat_bd
  | cons c cs ih =>
    intro i first last hi h
    have hc := utf8Size_pos' c
    unfold floatExpLoop
    split
    · rename_i hd
      exact ih (by omega) (h.adv (isDigit_utf8Size hd))
    split
    · rename_i hu
      subst hu
      have h1 := h.adv1 (by decide)
      split
      · bd_tac i, (i + 1)
        · exact h.le (Nat.le_refl _)
        · exact h1.le (Nat.le_refl _)
      split
      · exact consec_bd hi h1
      · exact ih (by omega) h1
    · bd_tac i, (i + c.utf8Size)
      · exact h.le (Nat.le_refl _)
      · exact h.char

theorem validateFloatExponent_bd {ovf : Bool} {t : Str} {cur : Cur}
    (hi : 1 ≤ cur.i) (h : CurAt lit cur.i cur.rest) :
    Safe (Bd lit p) (validateFloatExponent ovf cur t (Span.fromPosLen p (blen lit))) := by
  unfold validateFloatExponent
  rcases cur with ⟨i, _ | ⟨c, cs⟩⟩
  · exact floatExpLoop_bd hi h
  dsimp only at h hi ⊢
  split
  · rename_i hs
    have hc : c.utf8Size = 1 := by rcases hs with rfl | rfl <;> decide
    exact floatExpLoop_bd (by omega) (h.adv hc)
  · exact floatExpLoop_bd hi h

theorem floatFractLoop_bd {ovf : Bool} {t : Str} {start : Nat} {s : Str} :
    ∀ {i : Nat} {last : Bool}, 1 ≤ i → CurAt lit i s →
    Safe (Bd lit p) (floatFractLoop ovf t (Span.fromPosLen p (blen lit)) start i s last) := by
  induction s with
  | nil =>
    intro i last hi h
    have hn := h.nil
    unfold floatFractLoop
    split
    · rw [posMinus_ok (by simp only [Span.fromPosLen, Pos.plus]; omega)]
      simp only [Res.bind_ok]
      bd_tac (blen lit - 1), (blen lit)
      exact h.le (by omega)
    · exact parseFloat_bd
  | cons c cs ih =>
    intro i last hi h
    have hc := utf8Size_pos' c
    unfold floatFractLoop
    split
    · rename_i hd
      exact ih (by omega) (h.adv (isDigit_utf8Size hd))
    split
    · rename_i hE
      have hc : c.utf8Size = 1 := by rcases hE with rfl | rfl <;> decide
      split
      · bd_tac i, i <;> exact h.le (Nat.le_refl _)
      split
      · bd_tac (i - 1), i <;> exact h.le (by omega)
      · exact validateFloatExponent_bd (by simp only [Cur.adv]; omega) (h.adv hc)
    split
    · rename_i hu
      subst hu
      have h1 := h.adv1 (by decide)
      split
      · bd_tac i, (i + 1)
        · exact h.le (Nat.le_refl _)
        · exact h1.le (Nat.le_refl _)
      split
      · exact consec_bd hi h1
      · exact ih (by omega) h1
    · bd_tac i, (i + c.utf8Size)
      · exact h.le (Nat.le_refl _)
      · exact h.char

theorem validateFract_bd {ovf : Bool} {t : Str} {start : Nat} {cur : Cur}
    (hi : 1 ≤ cur.i) (h : CurAt lit cur.i cur.rest) :
    Safe (Bd lit p) (validateFloatFractionalPart ovf cur t (Span.fromPosLen p (blen lit)) start) := by
  unfold validateFloatFractionalPart
  split
  · bd_tac (blen lit), (blen lit)
  · exact floatFractLoop_bd hi h

theorem hexDigit_utf8 {c : Char} {d : Nat} (h : hexDigitVal c = some d) : c.utf8Size = 1 := by
  apply ascii_utf8Size
  unfold hexDigitVal at h
  split at h
  · rename_i hd
    unfold isDigit at hd
    simp only [Bool.and_eq_true, decide_eq_true_eq, le_char_iff, Char.reduceToNat] at hd
    omega
  split at h
  · rename_i hd
    simp only [le_char_iff, Char.reduceToNat] at hd
    omega
  split at h
  · rename_i hd
    simp only [le_char_iff, Char.reduceToNat] at hd
    omega
  · cases h

theorem prefixedIntLoop_bd {ovf : Bool} {pre : IntPrefix} {s : Str} :
    ∀ {i : Nat} {first last : Bool} {a : Nat}, 1 ≤ i → CurAt lit i s →
    Safe (Bd lit p) (prefixedIntLoop ovf (Span.fromPosLen p (blen lit)) pre i s first (wrapI64 a) last) := by
  induction s with
  | nil =>
    intro i first last a hi h
    have hn := h.nil
    unfold prefixedIntLoop
    split
    · bd_tac (blen lit), (blen lit)
    split
    · rw [posMinus_ok (by simp only [Span.fromPosLen, Pos.plus]; omega)]
      simp only [Res.bind_ok]
      bd_tac (blen lit - 1), (blen lit)
      exact h.le (by omega)
    · exact Safe.ok _
  | cons c cs ih =>
    intro i first last a hi h
    have hc := utf8Size_pos' c
    unfold prefixedIntLoop
    cases hx : hexDigitVal c with
    | some d =>
      dsimp only
      by_cases hb : 2 ^ pre.bits ≤ d
      · rw [if_pos hb]
        bd_tac i, (i + c.utf8Size)
        · exact h.le (Nat.le_refl _)
        · exact h.char
      · rw [if_neg hb]
        have h64 : ¬ 64 ≤ pre.bits := by rcases bits_cases pre with h | h | h <;> omega
        rw [if_neg h64]
        have hw := wrap_step (bits_cases pre) a d (by omega)
        rw [addI64_ok hw.1, hw.2]
        have e : ((a : Int) * 2 ^ pre.bits + (d : Int)) =
            ((a * 2 ^ pre.bits + d : Nat) : Int) := by push_cast; rfl
        rw [e]
        exact ih (by omega) (h.adv (hexDigit_utf8 hx))
    | none =>
      dsimp only
      split
      · bd_tac i, (i + c.utf8Size)
        · exact h.le (Nat.le_refl _)
        · exact h.char
      split
      · rename_i hu
        subst hu
        have h1 := h.adv1 (by decide)
        split
        · bd_tac i, (i + 1)
          · exact h.le (Nat.le_refl _)
          · exact h1.le (Nat.le_refl _)
        split
        · exact consec_bd hi h1
        · exact ih (by omega) h1
      · bd_tac i, (i + c.utf8Size)
        · exact h.le (Nat.le_refl _)
        · exact h.char

/-- Also for the error of an unfinished date. -/
def SafeI (P : Error → Prop) (r : Res Error PartialValue) : Prop :=
  Safe P r ∧ ∀ e, r = .ok (.invalidDateTime e) → P e

theorem SafeI.of {P : Error → Prop} {r : Res Error PartialValue} (h : Safe P r)
    (hr : ∀ e, r ≠ .ok (.invalidDateTime e)) : SafeI P r := ⟨h, fun e he => absurd he (hr e)⟩

theorem SafeI.orInvalid {P : Error → Prop} {r : Res Error PartialValue} (h : Safe P r)
    (hr : ∀ e, r ≠ .ok (.invalidDateTime e)) : SafeI P (orInvalidDateTime r) :=
  ⟨orInvalid_safe h, fun e he => h.2 e (orInvalid_inv (hr e) he)⟩

theorem SafeI.err {P : Error → Prop} {e : Error} (h : Safe P (.err e : Res Error PartialValue)) :
    SafeI P (.err e) := ⟨h, fun _ he => by cases he⟩

theorem SafeI.bind {α : Type} {P : Error → Prop} {x : Res Error α} {f : α → PartialValue}
    (h : Safe P x) (hf : ∀ a e, f a ≠ .invalidDateTime e) :
    SafeI P (x >>= fun a => pure (f a)) := by
  refine ⟨Safe.bind h fun _ _ => Safe.pure _, fun e he => ?_⟩
  rw [Res.bind_eq_ok] at he
  obtain ⟨a, -, ha⟩ := he
  simp only [Res.pure_eq, Res.ok.injEq] at ha
  exact absurd ha (hf a e)

theorem SafeI.pure {P : Error → Prop} {v : PartialValue} (h : ∀ e, v = .invalidDateTime e → P e) :
    SafeI P (.ok v) := ⟨Safe.ok _, fun e he => h e (by injection he)⟩

theorem Safe.get {α : Type} {P : Error → Prop} {e : Error} (h : Safe P (.err e : Res Error α)) :
    P e := h.2 e rfl

theorem decimalLoop_bd {ovf : Bool} {sg : Option Sign} {s : Str} :
    ∀ {i : Nat} {acc : Int} {over last : Bool}, 1 ≤ i → CurAt lit i s →
    SafeI (Bd lit p) (decimalLoop ovf lit (Span.fromPosLen p (blen lit)) sg i s acc over last) := by
  induction s with
  | nil =>
    intro i acc over last hi h
    have hn := h.nil
    unfold decimalLoop
    split
    · rw [posMinus_ok (by simp only [Span.fromPosLen, Pos.plus]; omega)]
      simp only [Res.bind_ok]
      refine SafeI.err ?_
      bd_tac (blen lit - 1), (blen lit)
      exact h.le (by omega)
    split
    · refine SafeI.err ?_
      bd_tac 0, (blen lit)
    · exact SafeI.pure (by simp)
  | cons c cs ih =>
    intro i acc over last hi h
    have hc := utf8Size_pos' c
    unfold decimalLoop
    dsimp only
    split
    · rename_i hd
      have h1 := h.adv (isDigit_utf8Size hd)
      split
      · exact ih (by omega) h1
      · split
        · exact ih (by omega) h1
        · exact ih (by omega) h1
    split
    · rename_i hp
      subst hp
      split
      · rw [posMinus_ok (by simp only [Span.fromPosLen, Pos.plus]; omega)]
        simp only [Res.bind_ok]
        refine SafeI.err ?_
        bd_tac (i - 1), i <;> exact h.le (by omega)
      · exact SafeI.bind (validateFract_bd (by simp only [Cur.adv]; omega) (h.adv (by decide)))
          (by simp)
    split
    · rename_i hE
      have hc : c.utf8Size = 1 := by rcases hE with rfl | rfl <;> decide
      split
      · rw [posMinus_ok (by simp only [Span.fromPosLen, Pos.plus]; omega)]
        simp only [Res.bind_ok]
        refine SafeI.err ?_
        bd_tac (i - 1), i <;> exact h.le (by omega)
      · exact SafeI.bind (validateFloatExponent_bd (by simp only [Cur.adv]; omega) (h.adv hc))
          (by simp)
    split
    · rename_i h3
      obtain ⟨rfl, -, rfl⟩ := h3
      exact SafeI.bind (continueParsingLocalTime_bd (h.adv (by decide)) (by
        simp only [Cur.adv]; omega)) (by simp)
    split
    · rename_i h3
      obtain ⟨rfl, -, rfl⟩ := h3
      exact SafeI.orInvalid (afterYear_bd (h.adv (by decide))) (fun _ => afterYear_ne_invalid)
    split
    · refine SafeI.err ?_
      bd_tac i, i <;> exact h.le (Nat.le_refl _)
    split
    · rename_i h6
      split
      · refine SafeI.pure ?_
        intro e he
        simp only [PartialValue.invalidDateTime.injEq] at he
        subst he
        refine Safe.get (α := Unit) ?_
        bd_tac i, i <;> exact h.le (Nat.le_refl _)
      · rename_i h7
        have h1 : CurAt lit (i + 1) cs := h.adv1 (by rw [h6.1]; decide)
        obtain ⟨pre, hlit, hlen, hasc⟩ := h1
        have hlt : 4 < lit.length := by rw [hlit]; simp; omega
        rw [List.getElem?_eq_getElem hlt]
        have hf : lit[4].utf8Size = 1 := by
          have : lit[4] = pre[4]'(by omega) := by
            simp only [hlit]
            rw [List.getElem_append_left]
          rw [this]
          exact hasc _ (List.getElem_mem _)
        refine SafeI.pure ?_
        intro e he
        simp only [PartialValue.invalidDateTime.injEq] at he
        subst he
        refine Safe.get (α := Unit) ?_
        have h1 : CurAt lit (i + 1) cs := ⟨pre, hlit, hlen, hasc⟩
        bd_tac 4, 5
        · exact h1.le (by omega)
        · exact h1.le (by omega)
    split
    · rename_i hu
      subst hu
      have h1 := h.adv1 (by decide)
      split
      · exact SafeI.of (consec_bd hi h1) (fun e he => by cases he)
      · exact ih (by omega) h1
    · refine SafeI.err ?_
      bd_tac i, (i + c.utf8Size)
      · exact h.le (Nat.le_refl _)
      · exact h.char

theorem radix_utf8 {c : Char} {r : IntPrefix} (h : radixOf c = some r) : c.utf8Size = 1 := by
  unfold radixOf at h
  split at h
  · rename_i hc; rcases hc with rfl | rfl <;> decide
  split at h
  · rename_i hc; rcases hc with rfl | rfl <;> decide
  split at h
  · rename_i hc; rcases hc with rfl | rfl <;> decide
  · cases h

theorem parsePrefixed_bd {ovf : Bool} {sg : Option Sign} {cur : Cur}
    (hn : (if sg.isSome then 2 else 1) ≤ cur.i) (h : CurAt lit cur.i cur.rest) :
    SafeI (Bd lit p) (parsePrefixedIntFloatOrDate ovf cur lit (Span.fromPosLen p (blen lit)) sg) := by
  have hn1 : 1 ≤ cur.i := by split at hn <;> omega
  unfold parsePrefixedIntFloatOrDate
  rcases cur with ⟨i, _ | ⟨c, cs⟩⟩
  · exact SafeI.pure (by simp)
  dsimp only at h hn hn1 ⊢
  have hc := utf8Size_pos' c
  split
  · rename_i pre hr
    have h1 := radix_utf8 hr
    split
    · refine SafeI.err ?_
      bd_tac 0, 1
      exact h.le (by omega)
    split
    · refine SafeI.err ?_
      bd_tac i, (i + 1)
      · exact h.le (Nat.le_refl _)
      · exact (h.adv1 h1).le (Nat.le_refl _)
    · refine SafeI.bind ?_ (by simp)
      unfold parsePrefixedIntLiteral
      rw [← wrapI64_zero]
      exact prefixedIntLoop_bd (by simp only [Cur.adv]; omega) (h.adv h1)
  · split
    · rename_i hp
      subst hp
      exact SafeI.bind (validateFract_bd (by simp only [Cur.adv]; omega) (h.adv (by decide)))
        (by simp)
    split
    · rename_i hE
      have hc : c.utf8Size = 1 := by rcases hE with rfl | rfl <;> decide
      exact SafeI.bind (validateFloatExponent_bd (by simp only [Cur.adv]; omega) (h.adv hc))
        (by simp)
    split
    · rename_i hd
      exact SafeI.orInvalid (continueParsingDateTime_bd (h.adv (isDigit_utf8Size hd.1))
        (by simp only [Cur.adv]; omega)) (fun _ => continueDate_ne_invalid)
    split
    · rename_i hd
      refine SafeI.err ?_
      have h1 : CurAt lit (i + 1) cs := h.adv1 (by
        rcases hd with hd | rfl
        · exact isDigit_utf8Size hd
        · decide)
      split at hn
      · rename_i hs
        rw [if_pos hs]
        bd_tac 1, 2
        · exact h1.le (by omega)
        · exact h1.le (by omega)
      · rename_i hs
        rw [if_neg hs]
        bd_tac 0, 1
        exact h1.le (by omega)
    split <;> refine SafeI.err ?_ <;> bd_tac i, (i + c.utf8Size)
    · exact h.le (Nat.le_refl _)
    · exact h.char
    · exact h.le (Nat.le_refl _)
    · exact h.char

theorem bareLoop_bd {ex : Str} (hex : isKeyword ex) {s : Str} : ∀ {i : Nat} {e : Str},
    CurAt lit i s → (∀ c ∈ e, c.utf8Size = 1) →
    Safe (Bd lit p) (bareLoop (Span.fromPosLen p (blen lit)) ex i s e) := by
  induction s with
  | nil =>
    intro i e h he
    cases e with
    | nil => exact Safe.ok _
    | cons e es =>
      unfold bareLoop
      bd_tac (blen lit), (blen lit)
  | cons c cs ih =>
    intro i e h he
    have hle := h.blen
    rw [blen_cons] at hle
    cases e with
    | nil =>
      unfold bareLoop
      bd_tac i, (blen lit)
      · exact h.le (Nat.le_refl _)
    | cons e es =>
      unfold bareLoop
      split
      · rename_i hce
        exact ih (h.adv (by rw [hce]; exact he e (by simp))) (fun d hd => he d (by simp [hd]))
      split
      · bd_tac i, (i + c.utf8Size)
        · exact h.le (Nat.le_refl _)
        · exact h.char
      · bd_tac i, (i + c.utf8Size)
        · exact h.le (Nat.le_refl _)
        · exact h.char

theorem keyword_ascii {ex : Str} (h : isKeyword ex) : ∀ c ∈ ex.drop 1, c.utf8Size = 1 := by
  rcases h with rfl | rfl | rfl | rfl <;> decide

theorem parseBareLiteral_bd {cur : Cur} {first : Char} {ex : Str} (hex : isKeyword ex)
    (h : CurAt lit cur.i cur.rest) (hi : i + 1 ≤ cur.i) :
    Safe (Bd lit p) (parseBareLiteral cur (Span.fromPosLen p (blen lit)) i first ex) := by
  unfold parseBareLiteral
  split
  · rename_i hu
    have hf : first.utf8Size = 1 := by
      apply ascii_utf8Size
      simp only [le_char_iff, Char.reduceToNat] at hu
      omega
    bd_tac i, (i + 1)
    · exact h.le (by omega)
    · exact h.le (by omega)
  · exact bareLoop_bd hex h (keyword_ascii hex)

theorem parseSigned_bd {ovf : Bool} {c : Char} {cs : Str} {sign : Sign} (hc : c.utf8Size = 1) :
    SafeI (Bd (c :: cs) p) (parseSigned ovf (c :: cs) (Span.fromPosLen p (blen (c :: cs))) c sign
      ⟨1, cs⟩) := by
  have h0 : CurAt (c :: cs) 1 cs := CurAt.zero.adv1 hc
  unfold parseSigned
  rcases cs with _ | ⟨d, ds⟩
  · refine SafeI.err ?_
    bd_tac (blen [c]), (blen [c])
  dsimp only
  have hd := utf8Size_pos' d
  split
  · rename_i h1
    subst h1
    exact parsePrefixed_bd (by simp [Cur.adv]; omega) (h0.adv (by decide))
  split
  · rename_i h19
    unfold parseDecimalIntFloatOrDate
    exact decimalLoop_bd (by simp only [Cur.adv]; omega) (h0.adv (isDigit19_utf8 h19))
  split
  · rename_i h1
    have hd : d.utf8Size = 1 := by rcases h1 with rfl | rfl <;> decide
    refine SafeI.bind (f := fun _ => .float (.inf (sign = .negative)))
      (parseBareLiteral_bd (by simp [isKeyword]) (h0.adv hd) ?_) (by simp)
    simp only [Cur.adv, hd]; omega
  split
  · rename_i h1
    have hd : d.utf8Size = 1 := by rcases h1 with rfl | rfl <;> decide
    refine SafeI.bind (f := fun _ => .float (.nan (sign = .negative)))
      (parseBareLiteral_bd (by simp [isKeyword]) (h0.adv hd) ?_) (by simp)
    simp only [Cur.adv, hd]; omega
  split
  · refine SafeI.err ?_
    bd_tac 1, 1 <;> exact h0.le (Nat.le_refl _)
  · refine SafeI.err ?_
    bd_tac 1, (1 + d.utf8Size)
    · exact h0.le (Nat.le_refl _)
    · exact h0.char

/-- The errors of a non-empty literal with its own span cover whole characters of it. -/
theorem parseLiteral_bd {ovf : Bool} {lit : Str} (hlit : lit ≠ []) :
    SafeI (Bd lit p) (parseLiteral ovf lit (Span.fromPosLen p (blen lit))) := by
  rcases lit with _ | ⟨c, cs⟩
  · exact absurd rfl hlit
  have hc := utf8Size_pos' c
  have h0 : CurAt (c :: cs) 0 (c :: cs) := CurAt.zero
  unfold parseLiteral
  dsimp only
  split
  · rename_i hp
    subst hp
    exact parseSigned_bd (by decide)
  split
  · rename_i hp
    subst hp
    exact parseSigned_bd (by decide)
  split
  · rename_i hp
    subst hp
    exact parsePrefixed_bd (by simp [Cur.adv]; omega) (h0.adv (by decide))
  split
  · rename_i h19
    unfold parseDecimalIntFloatOrDate
    exact decimalLoop_bd (by simp only [Cur.adv]; omega) (h0.adv (isDigit19_utf8 h19))
  split
  · rename_i h1
    have hd : c.utf8Size = 1 := by rcases h1 with rfl | rfl <;> decide
    refine SafeI.bind (f := fun _ => .bool false)
      (parseBareLiteral_bd (by simp [isKeyword]) (h0.adv hd) ?_) (by simp)
    simp only [Cur.adv, hd]; omega
  split
  · rename_i h1
    have hd : c.utf8Size = 1 := by rcases h1 with rfl | rfl <;> decide
    refine SafeI.bind (f := fun _ => .bool true)
      (parseBareLiteral_bd (by simp [isKeyword]) (h0.adv hd) ?_) (by simp)
    simp only [Cur.adv, hd]; omega
  split
  · rename_i h1
    have hd : c.utf8Size = 1 := by rcases h1 with rfl | rfl <;> decide
    refine SafeI.bind (f := fun _ => .float (.inf false))
      (parseBareLiteral_bd (by simp [isKeyword]) (h0.adv hd) ?_) (by simp)
    simp only [Cur.adv, hd]; omega
  split
  · rename_i h1
    have hd : c.utf8Size = 1 := by rcases h1 with rfl | rfl <;> decide
    refine SafeI.bind (f := fun _ => .float (.nan false))
      (parseBareLiteral_bd (by simp [isKeyword]) (h0.adv hd) ?_) (by simp)
    simp only [Cur.adv, hd]; omega
  split
  · rename_i h1
    subst h1
    refine SafeI.err ?_
    bd_tac 0, 1
    exact (h0.adv1 (by decide)).le (Nat.le_refl _)
  · refine SafeI.err ?_
    bd_tac 0, (0 + c.utf8Size)
    exact h0.char

end Verif.Toml
