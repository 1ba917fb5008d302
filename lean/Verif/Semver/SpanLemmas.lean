import Verif.Semver.ReqParse

/-! # Helper lemmas: error spans and panics of the semver parsers -/

namespace Verif.Semver
open Verif Verif.Spec Verif.Spec.Semver

/-- The cursor stands inside `input`, which is written at `pos`. -/
structure At (input : Str) (pos : Pos) (c : Cur) : Prop where
  start : c.start = pos
  here : ∃ a, input = a ++ c.rest ∧ c.idx = blen a

/-- A Hoare triple: a value satisfies `post`, an error is inside the input, and a panic needs
overflow checks and the overflow trap. -/
structure Good (input : Str) (pos : Pos) (ovf : Bool) {α : Type} (post : α → Prop)
    (r : Res Error α) : Prop where
  ok : ∀ a, r = .ok a → post a
  err : ∀ e, r = .err e → ErrorIn pos input e
  panic : r = .panic → ovf = true ∧ OverflowTrap input

variable {input : Str} {pos : Pos} {ovf : Bool} {α β : Type}

theorem Good.bind {post : α → Prop} {post' : β → Prop} {r : Res Error α} {f : α → Res Error β}
    (h : Good input pos ovf post r) (h' : ∀ a, post a → Good input pos ovf post' (f a)) :
    Good input pos ovf post' (r >>= f) := by
  cases r with
  | ok a => exact h' a (h.ok a rfl)
  | err e =>
    exact ⟨nofun, fun e' he => (by cases he; exact h.err e rfl), nofun⟩
  | panic => exact ⟨nofun, nofun, fun _ => h.panic rfl⟩

theorem Good.mk_ok {post : α → Prop} {a : α} (h : post a) : Good input pos ovf post (.ok a) :=
  ⟨fun a h => (by cases h; assumption), nofun, nofun⟩

theorem Good.mk_err {post : α → Prop} {e : Error} (h : ErrorIn pos input e) :
    Good input pos ovf post (.err e) :=
  ⟨nofun, fun e' he => (by cases he; assumption), nofun⟩

theorem Good.weaken {post post' : α → Prop} {r : Res Error α} (h : Good input pos ovf post r)
    (hp : ∀ a, post a → post' a) : Good input pos ovf post' r :=
  ⟨fun a ha => hp a (h.ok a ha), h.err, h.panic⟩

theorem At.posEq {c : Cur} {a r : Str} (hs : c.start = pos) (hi : c.idx = blen a) :
    c.pos = pos.plus (blen a) := by rw [Cur.pos, hs, hi]

theorem plus_plus (p : Pos) (a b : Nat) : (p.plus a).plus b = p.plus (a + b) := by
  simp [Pos.plus, Nat.add_assoc]

/-- Build an `ErrorIn` from a decomposition of the input. -/
theorem errorIn_mk {e : Error} (a b t : Str) (h : input = a ++ (b ++ t))
    (hs : e.span = Span.fromPosLen (pos.plus (blen a)) (blen b)) (hc : ErrorCovers e b) :
    ErrorIn pos input e :=
  ⟨a, b, t, by rw [h, List.append_assoc], by rw [hs, Span.fromPosLen, plus_plus], hc⟩

theorem errorIn_empty {e : Error} (a t : Str) (h : input = a ++ t)
    (hs : e.span = Span.ofPos (pos.plus (blen a))) (hc : ErrorCovers e []) :
    ErrorIn pos input e :=
  errorIn_mk a [] t (by simpa using h) (by rw [hs]; simp [Span.ofPos, Span.fromPosLen, plus_plus]) hc

theorem At.step {c : Cur} {x : Char} {cs : Str} (h : At input pos c) (hr : c.rest = x :: cs)
    (hx : x.utf8Size = 1) : At input pos (c.step cs) := by
  obtain ⟨hs, a, ha, hi⟩ := h
  exact ⟨hs, a ++ [x], by rw [ha, hr]; simp [Cur.step], by simp [Cur.step, hi, hx]⟩

theorem blen_spaces (n : Nat) : blen (spaces n) = n := by
  induction n with
  | zero => rfl
  | succ n ih =>
    have hsp : (' ' : Char).utf8Size = 1 := by decide
    simp only [spaces, List.replicate_succ, blen_cons] at ih ⊢
    rw [ih, hsp]; omega

theorem At.advance {c : Cur} (h : At input pos c) (b r : Str) (hr : c.rest = b ++ r) {n : Nat}
    (hn : n = c.idx + blen b) : At input pos ⟨c.start, n, r⟩ := by
  obtain ⟨hs, a, ha, hi⟩ := h
  exact ⟨hs, a ++ b, by rw [ha, hr]; simp, by simp [hn, hi]⟩

theorem At.eatWs {c : Cur} (h : At input pos c) : At input pos (eatWs c) ∧
    (Semver.eatWs c).rest.length ≤ c.rest.length := by
  obtain ⟨n, r, hr, -, hw⟩ := eatWs_spec c
  rw [hw]
  refine ⟨h.advance (spaces n) r hr (by rw [blen_spaces]), ?_⟩
  rw [hr]; simp

theorem At.new (input : Str) (pos : Pos) : At input pos (Cur.new pos input) :=
  ⟨rfl, [], rfl, rfl⟩

theorem digit_utf8 {c : Char} (h : isDigit c = true) : c.utf8Size = 1 := by
  have := blen_eq_length_of_digits (s := [c]) (by simpa using h)
  simpa using this

/-- Postcondition: the cursor stays in the input, and `k` more characters have been read. -/
def Next (input : Str) (pos : Pos) (n : Nat) (c : Cur) : Prop :=
  At input pos c ∧ c.rest.length ≤ n

/-! ## numbers -/

theorem afterDigits_at {c : Cur} {x : Char} {cs : Str} (h : At input pos c)
    (hr : c.rest = x :: cs) (hx : isDigit x = true) :
    Next input pos cs.length (afterDigits c.start (c.idx + 1) cs) := by
  refine ⟨h.advance (x :: cs.takeWhile isDigit) (cs.dropWhile isDigit) ?_ ?_, ?_⟩
  · rw [hr]; simp
  · rw [blen_eq_length_of_digits (by simp [hx])]
    simp; omega
  · have := congrArg List.length (List.takeWhile_append_dropWhile (p := isDigit) (l := cs))
    rw [List.length_append] at this
    simp only [afterDigits]; omega

theorem intLoop_shape (start : Pos) (acc : Option Nat) (idx : Nat) (s : Str) :
    (ovf = true ∧ intLoop ovf start acc idx s = .panic) ∨
    ∃ v, intLoop ovf start acc idx s = .ok (v, afterDigits start idx s) := by
  induction s generalizing acc idx with
  | nil => exact .inr ⟨acc, by simp [intLoop, afterDigits]⟩
  | cons c cs ih =>
    by_cases hc : isDigit c = true
    · rw [afterDigits_cons hc]
      simp only [intLoop, hc, if_true]
      split
      · split
        · split
          · exact ih ..
          · split
            · rename_i hh; exact .inl ⟨by simpa using hh, rfl⟩
            · exact ih ..
        · exact ih ..
      · exact ih ..
    · simp only [Bool.not_eq_true] at hc
      exact .inr ⟨acc, by simp [intLoop, afterDigits, hc]⟩

/-- An overflow is only ever reported for a number that does not fit. -/
theorem intLoop_none_big (start : Pos) (a T : Nat) (idx : Nat) (s : Str) (c' : Cur) (hT : a ≤ T)
    (h : intLoop ovf start (some a) idx s = .ok (none, c')) : 2 ^ 32 ≤ runVal T s := by
  induction s generalizing a T idx with
  | nil => simp [intLoop] at h
  | cons c cs ih =>
    by_cases hc : isDigit c = true
    · rw [runVal_cons_digit hc]
      simp only [intLoop, hc, if_true] at h
      have hm : a * 10 ≤ T * 10 := Nat.mul_le_mul_right _ hT
      split at h
      · split at h
        · exact ih _ _ _ (by omega) h
        · split at h
          · cases h
          · exact ih _ _ _ (Nat.le_trans (Nat.mod_le _ _) (by omega)) h
      · have := runVal_ge (T * 10 + digitVal c) cs
        omega
    · simp only [Bool.not_eq_true] at hc
      simp [intLoop, hc] at h

theorem OverflowTrap.mono {s t : Str} (h : OverflowTrap s) (hst : s <:+: t) : OverflowTrap t := by
  obtain ⟨d, hd, hi⟩ := h
  exact ⟨d, hd, hi.trans hst⟩

theorem decimal_snoc {a : Nat} (ha : 0 < a) {c : Char} (hc : isDigit c = true) :
    decimal (a * 10 + digitVal c) = decimal a ++ [c] := by
  obtain ⟨d, ds, hd, hne⟩ := decimal_head a ha
  have hall : (decimal a ++ [c]).all isDigit = true := by simp [decimal_all, hc]
  have hv : decVal (decimal a ++ [c]) = a * 10 + digitVal c := by
    have := decVal_decimal a
    simp only [decVal, List.foldl_append] at this ⊢
    rw [this]; simp [Nat.mul_comm]
  rw [← hv]
  rw [hd] at hall ⊢
  exact decimal_decVal hall hne

theorem intLoop_panic (start : Pos) (a idx : Nat) (s : Str) (ha : 0 < a)
    (h : intLoop ovf start (some a) idx s = .panic) : OverflowTrap (decimal a ++ s) := by
  induction s generalizing a idx with
  | nil => simp [intLoop] at h
  | cons c cs ih =>
    by_cases hc : isDigit c = true
    · simp only [intLoop, hc, if_true] at h
      have hsn := decimal_snoc ha hc
      have key : decimal a ++ c :: cs = decimal (a * 10 + digitVal c) ++ cs := by rw [hsn]; simp
      split at h
      · split at h
        · rw [key]; exact ih _ _ (by omega) h
        · rename_i h1 h2
          have hd := digitVal_lt hc
          have ea : a = 429496729 := by omega
          subst ea
          have hd6 : 6 ≤ digitVal c := by omega
          refine ⟨c, ?_, [], cs, ?_⟩
          · have : c = Char.ofNat (48 + digitVal c) := by
              rw [isDigit_iff] at hc
              have h0 : digitVal c = c.toNat - 48 := rfl
              rw [h0, show 48 + (c.toNat - 48) = c.toNat by omega, Char.ofNat_toNat]
            generalize digitVal c = d at *
            have : d = 6 ∨ d = 7 ∨ d = 8 ∨ d = 9 := by omega
            rcases this with rfl | rfl | rfl | rfl <;> subst this <;> decide
          · have : decimal 429496729 = "429496729".toList := by decide
            rw [this]; simp
      · rw [intLoop_none] at h; cases h
    · simp only [Bool.not_eq_true] at hc
      simp [intLoop, hc] at h

theorem parseInt_good {c : Cur} (h : At input pos c) (f : NumField) :
    Good input pos ovf (fun r => Next input pos (c.rest.length - 1) r.2 ∧ c.rest ≠ [])
      (parseInt ovf c f) := by
  obtain ⟨hs, a, ha, hi⟩ := id h
  unfold parseInt
  have hp : c.pos = pos.plus (blen a) := At.posEq (r := []) hs hi
  cases hr : c.rest with
  | nil =>
    refine .mk_err (errorIn_empty a [] (by rw [ha, hr]) ?_ rfl)
    simp [Error.span, hp]
  | cons x cs =>
    simp only
    split
    · rename_i hx
      subst hx
      have hst := h.step hr (by decide)
      cases cs with
      | nil => exact .mk_ok ⟨⟨hst, by simp [Cur.step]⟩, by simp⟩
      | cons y ys =>
        simp only
        split
        · refine .mk_err (errorIn_mk a ['0'] (y :: ys) (by rw [ha, hr]; rfl) ?_ rfl)
          have hz : ('0' : Char).utf8Size = 1 := by decide
          simp [Error.span, Span.asciiChar, Span.fromPosLen, Cur.pos, Cur.step, Pos.plus, Pos.minus,
            hs, hi, hz]
        · exact .mk_ok ⟨⟨hst, by simp [Cur.step]⟩, by simp⟩
    · rename_i hx0
      split
      · rename_i hx
        have hnext := afterDigits_at h hr hx
        rcases intLoop_shape (ovf := ovf) c.start (some (digitVal x)) (c.idx + 1) cs with
          ⟨ho, hl⟩ | ⟨v, hl⟩
        · rw [hl]
          refine ⟨nofun, nofun, fun _ => ⟨ho, ?_⟩⟩
          have hx10 := digitVal_lt hx
          have hdv : decimal (digitVal x) = [x] := by
            have := decimal_decVal (c := x) (cs := []) (by simpa using hx) hx0
            simpa [decVal] using this
          have hpos : 0 < digitVal x := by
            rcases Nat.eq_zero_or_pos (digitVal x) with h0 | h0
            · rw [h0] at hdv
              rw [decimal_zero] at hdv
              simp at hdv; exact absurd hdv.symm hx0
            · exact h0
          have := intLoop_panic c.start (digitVal x) (c.idx + 1) cs hpos hl
          rw [hdv] at this
          exact OverflowTrap.mono this ⟨a, [], by rw [ha, hr]; simp⟩
        · rw [hl]
          cases v with
          | some v => exact .mk_ok ⟨by simpa using hnext, by simp⟩
          | none =>
            have hbig := intLoop_none_big c.start (digitVal x) (digitVal x) (c.idx + 1) cs _
              (Nat.le_refl _) hl
            rw [runVal_eq, ← decVal_cons] at hbig
            refine .mk_err (errorIn_mk a (x :: cs.takeWhile isDigit) (cs.dropWhile isDigit) ?_ ?_ ?_)
            · rw [ha, hr]; simp
            · simp only [Error.span]
              rw [hs, hi, blen_eq_length_of_digits (s := x :: cs.takeWhile isDigit) (by simp [hx])]
              simp only [afterDigits, List.length_cons]
              congr 1; omega
            · exact ⟨by simp [hx], hbig⟩
      · rename_i hd
        refine .mk_err (errorIn_mk a [x] cs (by rw [ha, hr]; rfl) ?_ ⟨rfl, by simpa using hd⟩)
        simp [Error.span, hp]

theorem expectDot_good {c : Cur} (h : At input pos c) (f : NumField) :
    Good input pos ovf (Next input pos c.rest.length) (expectDot c f) := by
  obtain ⟨hs, a, ha, hi⟩ := id h
  have hp : c.pos = pos.plus (blen a) := At.posEq (r := []) hs hi
  unfold expectDot
  cases hr : c.rest with
  | nil => exact .mk_err (errorIn_empty a [] (by rw [ha, hr]) (by simp [Error.span, hp]) rfl)
  | cons x cs =>
    simp only
    split
    · rename_i hx; subst hx
      exact .mk_ok ⟨h.step hr (by decide), by simp [Cur.step]⟩
    · rename_i hx
      exact .mk_err (errorIn_mk a [x] cs (by rw [ha, hr]; rfl) (by simp [Error.span, hp]) ⟨rfl, hx⟩)

theorem expectCommaOrEnd_good {c : Cur} (h : At input pos c) :
    Good input pos ovf (fun r => Next input pos c.rest.length r.2 ∧
        ∀ o, r.1 = some o → ∃ a t, input = a ++ ',' :: t ∧ blen a = o)
      (expectCommaOrEnd c) := by
  obtain ⟨hs, a, ha, hi⟩ := id h
  have hp : c.pos = pos.plus (blen a) := At.posEq (r := []) hs hi
  unfold expectCommaOrEnd
  cases hr : c.rest with
  | nil => exact .mk_ok ⟨⟨h, by simp [hr]⟩, by simp⟩
  | cons x cs =>
    simp only
    split
    · rename_i hx; subst hx
      refine .mk_ok ⟨⟨h.step hr (by decide), by simp [Cur.step]⟩, ?_⟩
      rintro o ho
      cases ho
      exact ⟨a, cs, by rw [ha, hr], hi.symm⟩
    · exact .mk_err (errorIn_empty a (x :: cs) (by rw [ha, hr]) (by simp [Error.span, hp]) rfl)

/-! ## identifiers -/

theorem zeroSeg (f : IdentField) (seg a0 r : Str) (idx : Nat) (hi : idx = blen (a0 ++ seg))
    (hz : seg.head? = some '0') (hin : input = a0 ++ seg ++ r) :
    ErrorIn pos input (.leadingZeroSegment f (pos.plus (idx - blen seg))) := by
  cases seg with
  | nil => simp at hz
  | cons y ys =>
    simp only [List.head?_cons, Option.some.injEq] at hz; subst hz
    refine errorIn_mk a0 ['0'] (ys ++ r) (by rw [hin]; simp) ?_ rfl
    have : idx - blen ('0' :: ys) = blen a0 := by rw [hi, blen_append]; omega
    rw [this]; rfl

theorem boundary_good (f : IdentField) (taken seg a0 rest : Str) (nd : Bool) (idx : Nat)
    (hi : idx = blen (a0 ++ seg)) (hin : input = a0 ++ seg ++ rest) :
    Good input pos ovf (fun r => Next input pos rest.length r.2)
      (identLoop.boundary f pos taken seg nd idx rest) := by
  unfold identLoop.boundary
  split
  · rename_i h0; subst h0
    rw [List.append_nil] at hin hi
    split
    · exact .mk_err (errorIn_empty a0 rest hin (by simp [Error.span, hi]) rfl)
    · exact .mk_err (errorIn_empty a0 rest hin (by simp [Error.span, hi]) rfl)
  · split
    · rename_i hz
      exact .mk_err (zeroSeg f seg a0 rest idx hi hz.2.2.2 hin)
    · exact .mk_ok ⟨⟨rfl, a0 ++ seg, hin, hi⟩, Nat.le_refl _⟩

theorem identLoop_good (f : IdentField) (taken seg : Str) (nd : Bool) (a0 : Str) (idx : Nat)
    (rest : Str) (hin : input = a0 ++ seg ++ rest) (hi : idx = blen (a0 ++ seg)) :
    Good input pos ovf (fun r => Next input pos rest.length r.2)
      (identLoop f pos taken seg nd idx rest) := by
  induction rest generalizing taken seg nd a0 idx with
  | nil => exact boundary_good f taken seg a0 [] nd idx hi hin
  | cons c cs ih =>
    simp only [identLoop]
    have goOn : ∀ (taken' : Str) (nd' : Bool), identChar c = true →
        Good input pos ovf (fun r => Next input pos (c :: cs).length r.2)
          (identLoop f pos taken' (seg ++ [c]) nd' (idx + 1) cs) := by
      intro taken' nd' hc
      refine (ih taken' (seg ++ [c]) nd' a0 (idx + 1) (by rw [hin]; simp)
        (by rw [hi]; simp [identChar_utf8 hc]; omega)).weaken ?_
      rintro ⟨s, c'⟩ ⟨h1, h2⟩
      exact ⟨h1, by simp at h2 ⊢; omega⟩
    split
    · rename_i h1
      apply goOn
      simp only [identChar, Bool.or_eq_true] at h1 ⊢; rcases h1 with h | h <;> simp [h]
    · split
      · rename_i h1; apply goOn; simp [identChar, h1]
      · split
        · rename_i hdot; subst hdot
          split
          · rename_i h0; subst h0
            rw [List.append_nil] at hin hi
            exact .mk_err (errorIn_empty a0 _ hin (by simp [Error.span, hi]) rfl)
          · split
            · rename_i hz
              exact .mk_err (zeroSeg f seg a0 _ idx hi hz.2.2.2 hin)
            · refine (ih (taken ++ ['.']) [] false (a0 ++ seg ++ ['.']) (idx + 1)
                (by rw [hin]; simp) ?_).weaken ?_
              · have : ('.' : Char).utf8Size = 1 := by decide
                rw [hi]; simp [this]; omega
              · rintro ⟨s, c'⟩ ⟨h1, h2⟩
                exact ⟨h1, by simp at h2 ⊢; omega⟩
        · exact boundary_good f taken seg a0 _ nd idx hi hin

theorem parseIdent_good {c : Cur} (h : At input pos c) (f : IdentField) :
    Good input pos ovf (fun r => Next input pos c.rest.length r.2) (parseIdent c f) := by
  obtain ⟨hs, a, ha, hi⟩ := h
  unfold parseIdent
  rw [hs]
  exact identLoop_good f [] [] false a c.idx c.rest (by simpa using ha) (by simpa using hi)

theorem eatChar_at' {c : Cur} (h : At input pos c) {ch : Char} (hch : ch.utf8Size = 1) :
    Next input pos c.rest.length (eatChar ch c).2 := by
  unfold eatChar
  split
  · rename_i x cs hr
    split
    · rename_i hx; subst hx
      exact ⟨h.step hr hch, by simp [Cur.step, hr]⟩
    · exact ⟨h, Nat.le_refl _⟩
  · exact ⟨h, Nat.le_refl _⟩

theorem optIdent_good {c : Cur} (h : At input pos c) {ch : Char} (hch : ch.utf8Size = 1)
    (f : IdentField) :
    Good input pos ovf (fun r => Next input pos c.rest.length r.2) (optIdent ch f c) := by
  unfold optIdent
  have hn := eatChar_at' h hch
  split
  · rename_i c' he
    rw [he] at hn
    refine (parseIdent_good hn.1 f).bind ?_
    rintro ⟨s, c2⟩ h2
    exact .mk_ok ⟨h2.1, Nat.le_trans h2.2 hn.2⟩
  · rename_i c' he
    rw [he] at hn
    exact .mk_ok hn

theorem trimEndSpaces_spec (s : Str) : ∃ n, s = trimEndSpaces s ++ spaces n := by
  unfold trimEndSpaces
  obtain ⟨n, hn⟩ := spaces_takeWhile s.reverse
  refine ⟨n, ?_⟩
  have h := List.takeWhile_append_dropWhile (p := (· == ' ')) (l := s.reverse)
  have h2 := congrArg List.reverse h
  rw [List.reverse_append, List.reverse_reverse, hn] at h2
  conv => lhs; rw [← h2]
  simp [spaces]

theorem parseVersion_good (ovf : Bool) (input : Str) (pos : Pos) :
    Good input pos ovf (fun _ => True) (parseVersion ovf input pos) := by
  unfold parseVersion
  refine (parseInt_good (At.new input pos).eatWs.1 _).bind fun x h1 => ?_
  refine (expectDot_good h1.1.1 _).bind fun c2 h2 => ?_
  refine (parseInt_good h2.1 _).bind fun y h3 => ?_
  refine (expectDot_good h3.1.1 _).bind fun c4 h4 => ?_
  refine (parseInt_good h4.1 _).bind fun z h5 => ?_
  refine (optIdent_good h5.1.1 (by decide) _).bind fun p h6 => ?_
  refine (optIdent_good h6.1 (by decide) _).bind fun b h7 => ?_
  obtain ⟨bb, c7⟩ := b
  simp only at h7 ⊢
  have hw := h7.1.eatWs.1
  obtain ⟨n, r, hr, hns, he⟩ := eatWs_spec c7
  rw [he] at hw ⊢
  cases r with
  | nil => exact .mk_ok trivial
  | cons x cs =>
    simp only
    obtain ⟨hs, a, ha, hi⟩ := hw
    simp only at hs ha hi
    obtain ⟨k, hk⟩ := trimEndSpaces_spec (x :: cs)
    refine .mk_err (errorIn_mk a (trimEndSpaces (x :: cs)) (spaces k) (by rw [ha, ← hk]) ?_ ⟨rfl, ?_⟩)
    · simp [Error.span, Cur.pos, hs, hi]
    · intro h0
      rw [h0] at hk
      simp only [List.nil_append] at hk
      cases k with
      | zero => simp [spaces] at hk
      | succ k =>
        simp only [spaces, List.replicate_succ, List.cons.injEq] at hk
        simp [hk.1] at hns

/-! ## requirements -/

theorem eatWildcard_at' {c c' : Cur} {w : WlChar} (h : At input pos c)
    (he : eatWildcard c = some (w, c')) : Next input pos c.rest.length c' := by
  rw [eatWildcard_some_iff] at he
  have : c' = c.step c'.rest := by
    obtain ⟨a, b, d⟩ := c'
    simp only at he
    simp [Cur.step, he]
  rw [this]
  refine ⟨h.step he.1 (by cases w <;> decide), ?_⟩
  rw [he.1]; simp [Cur.step]

theorem compVersion_good {c : Cur} (h : At input pos c) (op : Op) :
    Good input pos ovf (fun r => Next input pos (c.rest.length - 1) r.2.2 ∧ c.rest ≠ [])
      (compVersion ovf c op) := by
  unfold compVersion
  refine (parseInt_good h _).bind ?_
  rintro ⟨M, c1⟩ ⟨h1, hne⟩
  have e1 := eatChar_at' h1.1 (ch := '.') (by decide)
  simp only at e1 ⊢
  split
  · rename_i c2 he; rw [he] at e1
    exact .mk_ok ⟨⟨e1.1, Nat.le_trans e1.2 h1.2⟩, hne⟩
  · rename_i c2 he; rw [he] at e1
    simp only at e1
    split
    · rename_i w1 c3 hw
      have e2 := eatWildcard_at' e1.1 hw
      have e3 := eatChar_at' e2.1 (ch := '.') (by decide)
      have l3 := e3.2; have l2 := e2.2; have l1 := e1.2; have l0 := h1.2
      simp only at l0
      split
      · rename_i c4 he2; rw [he2] at e3 l3
        exact .mk_ok ⟨⟨e3.1, by simp only at l3 ⊢; omega⟩, hne⟩
      · rename_i c4 he2; rw [he2] at e3 l3
        split
        · rename_i w2 c5 hw2
          have e4 := eatWildcard_at' e3.1 hw2
          have l4 := e4.2
          exact .mk_ok ⟨⟨e4.1, by simp only at l3 l4 ⊢; omega⟩, hne⟩
        · obtain ⟨hs, a, ha, hi⟩ := e3.1
          have hp := At.posEq (r := []) hs hi
          split
          · rename_i x xs hr
            exact .mk_err (errorIn_mk a [x] xs (by rw [ha]; simp only; rw [hr]; rfl)
              (by simp only at hp; simp [Error.span, hp]) rfl)
          · rename_i hr
            exact .mk_err (errorIn_empty a [] (by rw [ha]; simp only; rw [hr])
              (by simp only at hp; simp [Error.span, hp]) rfl)
    · refine (parseInt_good e1.1 _).bind ?_
      rintro ⟨m, c3⟩ ⟨h3, -⟩
      have e3 := eatChar_at' h3.1 (ch := '.') (by decide)
      have l3 := e3.2; have l2 := h3.2; have l1 := e1.2; have l0 := h1.2
      simp only at e3 l0 l1 l2 l3 ⊢
      split
      · rename_i c4 he2; rw [he2] at e3 l3
        exact .mk_ok ⟨⟨e3.1, by simp only at l3 ⊢; omega⟩, hne⟩
      · rename_i c4 he2; rw [he2] at e3 l3
        simp only at e3 l3
        split
        · rename_i w c5 hw
          have e4 := eatWildcard_at' e3.1 hw
          have l4 := e4.2
          exact .mk_ok ⟨⟨e4.1, by simp only; omega⟩, hne⟩
        · refine (parseInt_good e3.1 _).bind ?_
          rintro ⟨p, c5⟩ ⟨h5, -⟩
          refine (optIdent_good h5.1 (by decide) _).bind ?_
          rintro ⟨pre, c6⟩ h6
          refine (optIdent_good h6.1 (by decide) _).bind ?_
          rintro ⟨b, c7⟩ h7
          have l5 := h5.2; have l6 := h6.2; have l7 := h7.2
          simp only at l5 l6 l7 ⊢
          cases pre with
          | none => exact .mk_ok ⟨⟨h7.1, by simp only; omega⟩, hne⟩
          | some pre => exact .mk_ok ⟨⟨h7.1, by simp only; omega⟩, hne⟩

theorem parseOp_at {c c' : Cur} {b : Char} {cs : Str} {op : Op} (h : At input pos c)
    (hr : c.rest = b :: cs) (he : parseOp b cs c = some (op, c')) :
    Next input pos c.rest.length c' := by
  obtain ⟨o1, o2, o3, -, -⟩ := parseOp_sound b cs c c' op hr he
  have hb : blen (opWritten op) = (opWritten op).length := by cases op <;> decide
  have := h.advance (opWritten op) c'.rest o1 (n := c'.idx) (by rw [o3, hb])
  rw [← o2] at this
  exact ⟨this, by rw [o1]; simp⟩

/-- The comma remembered by the loop is a comma of the input. -/
def CommaAt (input : Str) (o : Option Nat) : Prop :=
  ∀ n, o = some n → ∃ a t, input = a ++ ',' :: t ∧ blen a = n

theorem wildcardArm_good {c : Cur} {w : WlChar} {cs : Str} (h : At input pos c)
    (hr : c.rest = w.char :: cs) (first : Bool) :
    Good input pos ovf (fun r => Next input pos (c.rest.length - 1) r.2 ∧ CommaAt input r.1.comma)
      (wildcardArm pos w first c cs) := by
  obtain ⟨hs, a, ha, hi⟩ := id h
  have sole : ErrorIn pos input (.wildcardNotTheSoleComparator w (pos.plus c.idx)) := by
    refine errorIn_mk a [w.char] cs (by rw [ha, hr]; rfl) ?_ rfl
    have : w.char.utf8Size = 1 := by cases w <;> decide
    simp [Error.span, Span.asciiChar, Span.fromPosLen, hi, this]
  have hst := h.step hr (show w.char.utf8Size = 1 by cases w <;> decide)
  have hw := hst.eatWs
  unfold wildcardArm
  simp only
  split
  · exact .mk_err sole
  · split
    · rename_i e he
      split at he
      · rename_i x xs
        split at he
        · cases he
        · cases he
          obtain ⟨hs', a', ha', hi'⟩ := hst
          have hp := At.posEq (r := []) hs' hi'
          exact .mk_err (errorIn_mk a' [x] xs (by rw [ha']; rfl) (by simp [Error.span, hp]) rfl)
      · cases he
    · obtain ⟨n, r, hrr, hns, hee⟩ := eatWs_spec (c.step cs)
      rw [hee] at hw ⊢
      cases r with
      | cons x xs =>
        simp only
        split
        · rename_i hx; subst hx
          split
          · obtain ⟨hs', a', ha', hi'⟩ := hw.1
            have hp := At.posEq (r := []) hs' hi'
            have hc : (',' : Char).utf8Size = 1 := by decide
            refine .mk_err (errorIn_mk a' [','] xs ha' ?_ rfl)
            simp [Error.span, hp, Span.asciiChar, Span.fromPosLen, hc]
          · exact .mk_err sole
        · exact .mk_err sole
      | nil =>
        refine (expectCommaOrEnd_good hw.1).bind ?_
        rintro ⟨comma, c'⟩ ⟨hn, hc⟩
        refine .mk_ok ⟨⟨hn.1, ?_⟩, hc⟩
        have := hn.2
        simp only [List.length_nil] at this ⊢
        omega

theorem comparatorStep_good {c : Cur} {b : Char} {cs : Str} (h : At input pos c)
    (hr : c.rest = b :: cs) (n : Nat) :
    Good input pos ovf (fun r => Next input pos (c.rest.length - 1) r.2 ∧ CommaAt input r.1.comma)
      (comparatorStep ovf pos n c b cs) := by
  obtain ⟨hs, a, ha, hi⟩ := id h
  have hp : c.pos = pos.plus (blen a) := At.posEq (r := []) hs hi
  unfold comparatorStep
  split
  · refine .mk_err (errorIn_mk a (b :: cs) [] (by rw [ha, hr]; simp) (by simp [Error.span, hp]) ?_)
    simp [ErrorCovers]
  · simp only
    split
    · rename_i w hw
      have := wlOf_some hw; subst this
      exact wildcardArm_good h hr _
    · split
      · exact .mk_err (errorIn_mk a [b] cs (by rw [ha, hr]; rfl) (by simp [Error.span, hp]) rfl)
      · rename_i op c1 ho
        have h1 := parseOp_at h hr ho
        have h2 := h1.1.eatWs
        refine (compVersion_good h2.1 op).bind ?_
        rintro ⟨v, op', c2⟩ ⟨h3, h3n⟩
        have h4 := h3.1.eatWs
        refine (expectCommaOrEnd_good h4.1).bind ?_
        rintro ⟨comma, c3⟩ ⟨h5, hc⟩
        refine .mk_ok ⟨⟨h5.1, ?_⟩, hc⟩
        have l1 := h1.2; have l2 := h2.2; have l3 := h3.2; have l4 := h4.2; have l5 := h5.2
        simp only at l3 l4 l5 ⊢
        omega

theorem reqLoop_good (fuel : Nat) (c : Cur) (comps : List Comparator) (lc : Option Nat)
    (h : At input pos c) (hf : c.rest.length < fuel) (hlc : CommaAt input lc) :
    Good input pos ovf (fun r => CommaAt input r.2) (reqLoop ovf pos fuel c comps lc) := by
  induction fuel generalizing c comps lc with
  | zero => omega
  | succ fuel ih =>
    have h2 := h.eatWs
    simp only [reqLoop]
    cases hr : (eatWs c).rest with
    | nil => exact .mk_ok hlc
    | cons b cs =>
      refine (comparatorStep_good h2.1 hr _).bind ?_
      rintro ⟨comp, c'⟩ ⟨hn, hc⟩
      have l1 := h2.2; have l2 := hn.2
      simp only at l2 ⊢
      rw [hr] at l1 l2
      simp at l1 l2
      exact ih c' _ _ hn.1 (by omega) hc

theorem parseRequirement_good (ovf : Bool) (input : Str) (pos : Pos) :
    Good input pos ovf (fun _ => True) (parseRequirement ovf input pos) := by
  unfold parseRequirement
  refine (reqLoop_good _ _ _ _ (At.new input pos) (by simp [Cur.new]) (by intro n h; cases h)).bind ?_
  rintro ⟨comps, lc⟩ hc
  simp only at hc ⊢
  cases lc with
  | some o =>
    obtain ⟨a, t, ha, hb⟩ := hc o rfl
    refine .mk_err (errorIn_mk a [','] t (by rw [ha]; rfl) ?_ rfl)
    have hcm : (',' : Char).utf8Size = 1 := by decide
    simp [Error.span, Span.asciiChar, Span.fromPosLen, hb, hcm]
  | none =>
    simp only
    split
    · exact .mk_err (errorIn_empty [] input rfl (by simp [Error.span, Pos.plus]) rfl)
    · exact .mk_ok trivial

end Verif.Semver
