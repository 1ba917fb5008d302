import Verif.Semver.Parse
import Verif.Semver.Display
import Verif.Semver.OrderLemmas
import Verif.Spec.SemverText

/-! # Helper lemmas for the semver parsers -/

namespace Verif.Semver
open Verif Verif.Spec Verif.Spec.Semver

/-- The next character satisfies `p`. -/
def startsWith (p : Char → Bool) (s : Str) : Bool := (s.head?.map p).getD false

@[simp] theorem startsWith_nil (p : Char → Bool) : startsWith p [] = false := rfl
@[simp] theorem startsWith_cons (p : Char → Bool) (c : Char) (cs : Str) :
    startsWith p (c :: cs) = p c := rfl

theorem takeWhile_append_of_stop {p : Char → Bool} {a b : Str} (ha : a.all p = true)
    (hb : startsWith p b = false) : (a ++ b).takeWhile p = a ∧ (a ++ b).dropWhile p = b := by
  induction a with
  | nil =>
    cases b with
    | nil => simp
    | cons x xs => simp at hb; simp [hb]
  | cons x xs ih =>
    simp only [List.all_cons, Bool.and_eq_true] at ha
    simp [ha.1, ih ha.2]

theorem startsWith_dropWhile (p : Char → Bool) (s : Str) :
    startsWith p (s.dropWhile p) = false := by
  induction s with
  | nil => rfl
  | cons c cs ih =>
    by_cases h : p c = true
    · simp [h, ih]
    · simp only [Bool.not_eq_true] at h; simp [h]

theorem takeWhile_all (p : Char → Bool) (s : Str) : (s.takeWhile p).all p = true := by
  induction s with
  | nil => rfl
  | cons c cs ih => by_cases h : p c = true <;> simp_all

/-! ## whitespace -/

theorem eatWsAux_spaces (start : Pos) (idx n : Nat) (r : Str)
    (h : startsWith (· == ' ') r = false) :
    eatWsAux start idx (spaces n ++ r) = ⟨start, idx + n, r⟩ := by
  induction n generalizing idx with
  | zero =>
    simp only [spaces, List.replicate_zero, List.nil_append]
    cases r with
    | nil => rfl
    | cons c cs => simp at h; simp [eatWsAux, h]
  | succ n ih =>
    simp only [spaces, List.replicate_succ, List.cons_append, eatWsAux, if_true]
    have := ih (idx + 1)
    simp only [spaces] at this
    rw [this]; congr 1; omega

theorem spaces_takeWhile (s : Str) :
    ∃ n, s.takeWhile (· == ' ') = spaces n := by
  induction s with
  | nil => exact ⟨0, rfl⟩
  | cons c cs ih =>
    by_cases h : c = ' '
    · obtain ⟨n, hn⟩ := ih
      exact ⟨n + 1, by simp [h, hn, spaces, List.replicate_succ]⟩
    · exact ⟨0, by simp [h, spaces]⟩

theorem eatWs_spec (c : Cur) : ∃ n r, c.rest = spaces n ++ r ∧ startsWith (· == ' ') r = false ∧
    eatWs c = ⟨c.start, c.idx + n, r⟩ := by
  obtain ⟨n, hn⟩ := spaces_takeWhile c.rest
  refine ⟨n, c.rest.dropWhile (· == ' '), ?_, startsWith_dropWhile _ _, ?_⟩
  · rw [← hn, List.takeWhile_append_dropWhile]
  · have h := eatWsAux_spaces c.start c.idx n (c.rest.dropWhile (· == ' '))
      (startsWith_dropWhile _ _)
    rw [← hn, List.takeWhile_append_dropWhile] at h
    exact h

theorem eatWs_eq {start : Pos} {idx n : Nat} {r : Str} (h : startsWith (· == ' ') r = false) :
    eatWs ⟨start, idx, spaces n ++ r⟩ = ⟨start, idx + n, r⟩ := eatWsAux_spaces _ _ _ _ h

theorem eatWs_eq' {start : Pos} {idx : Nat} {r : Str} (h : startsWith (· == ' ') r = false) :
    eatWs ⟨start, idx, r⟩ = ⟨start, idx, r⟩ := eatWsAux_spaces start idx 0 r h

/-! ## integers -/

/-- Value of digits read so far followed by the leading digits of `s`. -/
def runVal (a : Nat) (s : Str) : Nat :=
  (s.takeWhile isDigit).foldl (fun n c => 10 * n + digitVal c) a

theorem runVal_eq (a : Nat) (s : Str) :
    runVal a s = a * 10 ^ (s.takeWhile isDigit).length + decVal (s.takeWhile isDigit) :=
  decVal_foldl _ _

theorem runVal_ge (a : Nat) (s : Str) : a ≤ runVal a s := by
  rw [runVal_eq]
  have : a * 1 ≤ a * 10 ^ (s.takeWhile isDigit).length :=
    Nat.mul_le_mul_left _ (Nat.one_le_pow _ _ (by omega))
  omega

theorem runVal_cons_digit {a : Nat} {c : Char} {cs : Str} (h : isDigit c = true) :
    runVal a (c :: cs) = runVal (a * 10 + digitVal c) cs := by
  simp [runVal, h, Nat.mul_comm]

/-- The cursor after the leading digits. -/
def afterDigits (start : Pos) (idx : Nat) (s : Str) : Cur :=
  ⟨start, idx + (s.takeWhile isDigit).length, s.dropWhile isDigit⟩

theorem afterDigits_cons {start : Pos} {idx : Nat} {c : Char} {cs : Str} (h : isDigit c = true) :
    afterDigits start idx (c :: cs) = afterDigits start (idx + 1) cs := by
  simp [afterDigits, h]; omega

theorem intLoop_fits (ovf : Bool) (start : Pos) (a idx : Nat) (s : Str)
    (h : runVal a s < 2 ^ 32) :
    intLoop ovf start (some a) idx s = .ok (some (runVal a s), afterDigits start idx s) := by
  induction s generalizing a idx with
  | nil => simp [intLoop, runVal, afterDigits]
  | cons c cs ih =>
    by_cases hc : isDigit c = true
    · rw [runVal_cons_digit hc] at h ⊢
      rw [afterDigits_cons hc]
      have hge := runVal_ge (a * 10 + digitVal c) cs
      have h1 : a * 10 < 2 ^ 32 := by omega
      have h2 : a * 10 + digitVal c < 2 ^ 32 := by omega
      simp only [intLoop, hc, if_true]
      rw [if_pos h1, if_pos h2]
      exact ih _ _ h
    · simp only [Bool.not_eq_true] at hc
      simp [intLoop, runVal, afterDigits, hc]

theorem intLoop_none (ovf : Bool) (start : Pos) (idx : Nat) (s : Str) :
    intLoop ovf start none idx s = .ok (none, afterDigits start idx s) := by
  induction s generalizing idx with
  | nil => simp [intLoop, afterDigits]
  | cons c cs ih =>
    by_cases hc : isDigit c = true
    · simp only [intLoop, hc, if_true]; rw [ih, afterDigits_cons hc]
    · simp only [Bool.not_eq_true] at hc
      simp [intLoop, afterDigits, hc]

/-- With overflow checks, a too large number is an overflow error or the panic. -/
theorem intLoop_big (start : Pos) (a idx : Nat) (s : Str) (ha : a < 2 ^ 32)
    (h : 2 ^ 32 ≤ runVal a s) :
    intLoop true start (some a) idx s = .panic ∨
    intLoop true start (some a) idx s = .ok (none, afterDigits start idx s) := by
  induction s generalizing a idx with
  | nil => simp [runVal] at h; omega
  | cons c cs ih =>
    by_cases hc : isDigit c = true
    · rw [runVal_cons_digit hc] at h
      rw [afterDigits_cons hc]
      simp only [intLoop, hc, if_true]
      split
      · split
        · rename_i h2; exact ih _ _ h2 h
        · exact .inl rfl
      · right; exact intLoop_none ..
    · simp only [Bool.not_eq_true] at hc
      simp [runVal, hc] at h; omega

/-- `Res` refinement: the right side agrees unless the left side panics. -/
def Refines {ε α : Type} (x y : Res ε α) : Prop := x = .panic ∨ x = y

theorem Refines.rfl' {ε α : Type} (x : Res ε α) : Refines x x := .inr rfl

theorem Refines.bind {ε α β : Type} {x y : Res ε α} {f g : α → Res ε β} (h : Refines x y)
    (h' : ∀ a, Refines (f a) (g a)) : Refines (x >>= f) (y >>= g) := by
  rcases h with rfl | rfl
  · exact .inl rfl
  · cases x with
    | ok a => exact h' a
    | err e => exact .inr rfl
    | panic => exact .inr rfl

theorem intLoop_refines (start : Pos) (acc : Option Nat) (idx : Nat) (s : Str) :
    Refines (intLoop true start acc idx s) (intLoop false start acc idx s) := by
  induction s generalizing acc idx with
  | nil => exact .inr rfl
  | cons c cs ih =>
    simp only [intLoop]
    split
    · split
      · split
        · split
          · exact ih ..
          · exact .inl rfl
        · exact ih ..
      · exact ih ..
    · exact .inr rfl

theorem parseInt_refines (c : Cur) (f : NumField) :
    Refines (parseInt true c f) (parseInt false c f) := by
  unfold parseInt
  split
  · exact .inr rfl
  · split
    · exact .inr rfl
    · split
      · rcases intLoop_refines c.start (some (digitVal _)) (c.idx + 1) _ with h | h
        · rw [h]; exact .inl rfl
        · rw [h]; exact .inr rfl
      · exact .inr rfl

theorem isDigit_zero : isDigit '0' = true := by decide

/-- What a successful `parse_int` has read. -/
structure IntRead (n : Nat) (c c' : Cur) : Prop where
  text : c.rest = decimal n ++ c'.rest
  fits : n < 2 ^ 32
  start : c'.start = c.start
  idx : c'.idx = c.idx + (decimal n).length
  stop : startsWith isDigit c'.rest = false

theorem parseInt_complete (ovf : Bool) (c c' : Cur) (f : NumField) (n : Nat) (h : IntRead n c c') :
    parseInt ovf c f = .ok (n, c') := by
  obtain ⟨st, ix, rest⟩ := c
  obtain ⟨st', ix', r⟩ := c'
  obtain ⟨ht, hn, hs, hi, hr⟩ := h
  simp only at ht hs hi hr
  subst hs
  by_cases h0 : n = 0
  · subst h0
    rw [decimal_zero] at ht hi
    subst ht hi
    cases r with
    | nil => rfl
    | cons y ys => simp at hr; simp [parseInt, hr, Cur.step]
  · obtain ⟨d, ds, hd, hne⟩ := decimal_head n (by omega)
    have hall := decimal_all n
    have hv := decVal_decimal n
    rw [hd] at ht hi hall hv
    subst ht hi
    have hall' := hall
    simp only [List.all_cons, Bool.and_eq_true] at hall'
    have htw := takeWhile_append_of_stop hall'.2 hr
    have hrun : runVal (digitVal d) (ds ++ r) = n := by
      rw [runVal_eq, htw.1, ← decVal_cons, hv]
    have hl := intLoop_fits ovf st' (digitVal d) (ix + 1) (ds ++ r) (by rw [hrun]; exact hn)
    simp only [parseInt, List.cons_append, if_neg hne, hall'.1, if_true, hl, hrun, afterDigits,
      htw.1, htw.2]
    simp; omega

theorem parseInt_at (ovf : Bool) (st : Pos) (ix n : Nat) (r : Str) (f : NumField)
    (hn : n < 2 ^ 32) (hr : startsWith isDigit r = false) :
    parseInt ovf ⟨st, ix, decimal n ++ r⟩ f = .ok (n, ⟨st, ix + (decimal n).length, r⟩) :=
  parseInt_complete ovf _ _ f n ⟨rfl, hn, rfl, rfl, hr⟩

theorem parseInt_sound (c c' : Cur) (f : NumField) (n : Nat)
    (h : parseInt true c f = .ok (n, c')) : IntRead n c c' := by
  obtain ⟨st, ix, rest⟩ := c
  cases rest with
  | nil => simp [parseInt] at h
  | cons x cs =>
    simp only [parseInt] at h
    by_cases hx : x = '0'
    · subst hx
      simp only [if_true] at h
      cases cs with
      | nil =>
        simp [Cur.step] at h; obtain ⟨rfl, rfl⟩ := h
        exact ⟨by simp [decimal_zero], by decide, rfl, by simp [decimal_zero], rfl⟩
      | cons y ys =>
        by_cases hy : isDigit y = true
        · simp [hy] at h
        · simp only [Bool.not_eq_true] at hy
          simp [hy, Cur.step] at h; obtain ⟨rfl, rfl⟩ := h
          exact ⟨by simp [decimal_zero], by decide, rfl, by simp [decimal_zero], by simpa using hy⟩
    · rw [if_neg hx] at h
      by_cases hd : isDigit x = true
      · rw [if_pos hd] at h
        have hx10 := digitVal_lt hd
        have hall : (x :: cs.takeWhile isDigit).all isDigit = true := by
          simp only [List.all_cons, Bool.and_eq_true]; exact ⟨hd, takeWhile_all _ _⟩
        have hrun : runVal (digitVal x) cs = decVal (x :: cs.takeWhile isDigit) := by
          rw [runVal_eq, ← decVal_cons]
        by_cases hf : runVal (digitVal x) cs < 2 ^ 32
        · rw [intLoop_fits true st _ _ _ hf] at h
          simp only [Res.ok.injEq, Prod.mk.injEq] at h
          obtain ⟨rfl, rfl⟩ := h
          have hdec := decimal_decVal hall hx
          rw [← hrun] at hdec
          refine ⟨?_, hf, rfl, ?_, startsWith_dropWhile _ _⟩
          · simp only [hdec, afterDigits, List.cons_append, List.takeWhile_append_dropWhile]
          · simp only [hdec, afterDigits, List.length_cons]; omega
        · rcases intLoop_big st (digitVal x) (ix + 1) cs (by omega) (by omega) with h' | h'
          · rw [h'] at h; cases h
          · rw [h'] at h; cases h
      · rw [if_neg hd] at h; cases h

/-! ## identifiers -/

/-- Acceptance test of one dot-separated segment. -/
def SegOk (f : IdentField) (seg : Str) : Prop :=
  seg ≠ [] ∧ seg.all identChar = true ∧
    (f = .prerelease → ¬ (1 < seg.length ∧ seg.all isDigit = true ∧ seg.head? = some '0'))

def identOrDot (c : Char) : Bool := identChar c || c == '.'

theorem identChar_utf8 {c : Char} (h : identChar c = true) : c.utf8Size = 1 := by
  simp only [identChar, isAlpha, isDigit, Bool.or_eq_true, Bool.and_eq_true, decide_eq_true_eq,
    beq_iff_eq, Char.le_def, UInt32.le_iff_toNat_le] at h
  simp only [Char.utf8Size, UInt32.le_iff_toNat_le]
  rw [if_pos]
  have : c.val.toNat ≤ 127 := by
    rcases h with (h | h | h) | h
    · exact Nat.le_trans h.2 (by decide)
    · exact Nat.le_trans h.2 (by decide)
    · exact Nat.le_trans h.2 (by decide)
    · subst h; decide
  exact this

theorem blen_identChars {s : Str} (h : s.all identChar = true) : blen s = s.length := by
  induction s with
  | nil => rfl
  | cons c cs ih =>
    simp only [List.all_cons, Bool.and_eq_true] at h
    simp [ih h.2, identChar_utf8 h.1]; omega

theorem dot_not_mem_ident {s : Str} (h : s.all identChar = true) : '.' ∉ s := by
  intro hm
  have := List.all_eq_true.1 h _ hm
  rw [dot_not_identChar] at this; cases this

theorem identLoop_boundary (f : IdentField) (start : Pos) (taken seg : Str) (nd : Bool)
    (idx : Nat) (r : Str) (hseg : seg.all identChar = true) (hnd : nd = !seg.all isDigit)
    (s : Str) (c' : Cur) :
    identLoop.boundary f start taken seg nd idx r = .ok (s, c') ↔
      s = taken ∧ c' = ⟨start, idx, r⟩ ∧ SegOk f seg := by
  unfold identLoop.boundary SegOk
  rw [blen_identChars hseg, hnd]
  by_cases h0 : seg = []
  · subst h0; simp; split <;> simp
  · rw [if_neg h0]
    simp only [hseg, true_and, ne_eq, h0, not_false_eq_true, gt_iff_lt, Bool.not_eq_eq_eq_not, Bool.not_false]
    split
    · rename_i h
      constructor
      · intro hh; cases hh
      · rintro ⟨-, -, hh⟩; exact absurd h.2 (hh h.1)
    · rename_i h
      simp only [Res.ok.injEq, Prod.mk.injEq]
      constructor
      · rintro ⟨rfl, rfl⟩; exact ⟨rfl, rfl, fun hf hh => h ⟨hf, hh⟩⟩
      · rintro ⟨rfl, rfl, -⟩; exact ⟨rfl, rfl⟩

theorem identLoop_iff (f : IdentField) (start : Pos) (taken seg : Str) (nd : Bool) (idx : Nat)
    (rest : Str) (hseg : seg.all identChar = true) (hnd : nd = !seg.all isDigit) (s : Str)
    (c' : Cur) :
    identLoop f start taken seg nd idx rest = .ok (s, c') ↔
      s = taken ++ rest.takeWhile identOrDot ∧
      c' = ⟨start, idx + (rest.takeWhile identOrDot).length, rest.dropWhile identOrDot⟩ ∧
      ∀ x ∈ splitDot (seg ++ rest.takeWhile identOrDot), SegOk f x := by
  induction rest generalizing taken seg nd idx with
  | nil =>
    simp only [identLoop, identLoop_boundary f start taken seg nd idx [] hseg hnd,
      List.takeWhile_nil, List.append_nil, List.dropWhile_nil, List.length_nil, Nat.add_zero,
      splitDot_nodot seg (dot_not_mem_ident hseg), List.mem_singleton, forall_eq]
  | cons c cs ih =>
    simp only [identLoop]
    by_cases h1 : (isAlpha c || c == '-') = true
    · have hid : identChar c = true := by
        simp only [identChar, Bool.or_eq_true] at h1 ⊢; rcases h1 with h | h <;> simp [h]
      have hdig : isDigit c = false := by
        cases hd : isDigit c with
        | false => rfl
        | true =>
          exfalso
          rw [isDigit_iff] at hd
          simp only [isAlpha, Bool.or_eq_true, Bool.and_eq_true, decide_eq_true_eq,
            beq_iff_eq, Char.le_def, UInt32.le_iff_toNat_le] at h1
          rcases h1 with (h | h) | h
          · have h2 : ('a' : Char).val.toNat = 97 := rfl
            have := h.1; simp only [Char.toNat] at hd; omega
          · have h2 : ('A' : Char).val.toNat = 65 := rfl
            have := h.1; simp only [Char.toNat] at hd; omega
          · subst h; revert hd; decide
      rw [if_pos h1, ih (taken ++ [c]) (seg ++ [c]) true (idx + 1)
        (by simp only [List.all_append, hseg]; simpa using hid) (by simp [hdig])]
      have hod : identOrDot c = true := by simp [identOrDot, hid]
      simp [hod, Nat.add_assoc, Nat.add_comm 1]
    · rw [if_neg h1]
      by_cases h2 : isDigit c = true
      · have hid : identChar c = true := by simp [identChar, h2]
        have hod : identOrDot c = true := by simp [identOrDot, hid]
        rw [if_pos h2, ih (taken ++ [c]) (seg ++ [c]) nd (idx + 1)
          (by simp only [List.all_append, hseg]; simpa using hid) (by simp [h2, hnd])]
        simp [hod, Nat.add_assoc, Nat.add_comm 1]
      · rw [if_neg h2]
        by_cases h3 : c = '.'
        · subst h3
          have hod : identOrDot '.' = true := by decide
          simp only [if_true]
          rw [List.takeWhile_cons, List.dropWhile_cons]
          simp only [hod, if_true]
          rw [splitDot_append_dot _ _ (dot_not_mem_ident hseg)]
          simp only [List.mem_cons, forall_eq_or_imp]
          have hb := identLoop_boundary f start taken seg nd idx [] hseg hnd taken ⟨start, idx, []⟩
          simp only [true_and] at hb
          unfold identLoop.boundary at hb
          by_cases h0 : seg = []
          · have hns : ¬ SegOk f seg := fun hh => hh.1 h0
            simp [h0] at hns ⊢; simp [hns]
          · simp only [if_neg h0] at hb ⊢
            split
            · rename_i hz
              have hns : ¬ SegOk f seg := by
                rw [← hb, if_pos hz]; simp
              simp [hns]
            · rename_i hz
              have hs : SegOk f seg := by rw [← hb, if_neg hz]
              rw [ih (taken ++ ['.']) [] false (idx + 1) rfl rfl]
              simp [hs, Nat.add_assoc, Nat.add_comm 1]
        · rw [if_neg h3]
          have hod : identOrDot c = false := by
            simp only [identOrDot, identChar, Bool.or_eq_false_iff]
            simp only [Bool.or_eq_true, not_or, Bool.not_eq_true] at h1 h2
            exact ⟨⟨⟨h2, h1.1⟩, h1.2⟩, by simpa using h3⟩
          rw [identLoop_boundary f start taken seg nd idx (c :: cs) hseg hnd]
          simp [hod, splitDot_nodot seg (dot_not_mem_ident hseg)]

/-- What a successful `parse_ident` has read. -/
structure IdentRead (f : IdentField) (s : Str) (c c' : Cur) : Prop where
  text : c.rest = s ++ c'.rest
  segs : ∀ x ∈ splitDot s, SegOk f x
  start : c'.start = c.start
  idx : c'.idx = c.idx + s.length
  stop : startsWith identOrDot c'.rest = false

theorem splitDot_flatten_mem (s : Str) (c : Char) (h : c ∈ s) :
    c = '.' ∨ ∃ x ∈ splitDot s, c ∈ x := by
  induction s with
  | nil => cases h
  | cons d ds ih =>
    simp only [splitDot]
    by_cases hd : d = '.'
    · rw [if_pos hd]
      rcases List.mem_cons.1 h with rfl | h
      · exact .inl hd
      · rcases ih h with h | ⟨x, hx, hc⟩
        · exact .inl h
        · exact .inr ⟨x, by simp [hx], hc⟩
    · rw [if_neg hd]
      cases hs : splitDot ds with
      | nil => exact absurd hs (splitDot_ne_nil ds)
      | cons y ys =>
        rw [hs] at ih
        rcases List.mem_cons.1 h with rfl | h
        · exact .inr ⟨_, List.mem_cons_self, by simp⟩
        · rcases ih h with h | ⟨x, hx, hc⟩
          · exact .inl h
          · rcases List.mem_cons.1 hx with rfl | hx
            · exact .inr ⟨_, List.mem_cons_self, by simp [hc]⟩
            · exact .inr ⟨x, by simp [hx], hc⟩

theorem segs_identOrDot {f : IdentField} {s : Str} (h : ∀ x ∈ splitDot s, SegOk f x) :
    s.all identOrDot = true := by
  rw [List.all_eq_true]
  intro c hc
  rcases splitDot_flatten_mem s c hc with rfl | ⟨x, hx, hc⟩
  · decide
  · have := List.all_eq_true.1 (h x hx).2.1 c hc
    simp [identOrDot, this]

theorem parseIdent_iff (f : IdentField) (s : Str) (c c' : Cur) :
    parseIdent c f = .ok (s, c') ↔ IdentRead f s c c' := by
  unfold parseIdent
  rw [identLoop_iff f c.start [] [] false c.idx c.rest rfl rfl]
  simp only [List.nil_append]
  constructor
  · rintro ⟨rfl, rfl, h⟩
    exact ⟨by simp [List.takeWhile_append_dropWhile], h, rfl, rfl, startsWith_dropWhile _ _⟩
  · rintro ⟨ht, hs, hst, hi, hstop⟩
    have := takeWhile_append_of_stop (segs_identOrDot hs) hstop
    rw [ht, this.1, this.2]
    refine ⟨rfl, ?_, hs⟩
    cases c'; simp_all

/-! ## tags -/

theorem segOk_pre_iff (x : Str) : SegOk .prerelease x ↔ ∃ i : Ident, i.Valid ∧ x = i.text := by
  constructor
  · rintro ⟨h0, hid, hz⟩
    by_cases hd : x.all isDigit = true
    · cases x with
      | nil => exact absurd rfl h0
      | cons c cs =>
        by_cases hc : c = '0'
        · have : cs = [] := by
            have := hz rfl
            cases cs with
            | nil => rfl
            | cons _ _ => exact absurd ⟨by simp, hd, by simp [hc]⟩ this
          subst this hc
          exact ⟨.num 0, trivial, by simp [Ident.text, decimal_zero]⟩
        · exact ⟨.num (decVal (c :: cs)), trivial, by simp [Ident.text, decimal_decVal hd hc]⟩
    · simp only [Bool.not_eq_true] at hd
      refine ⟨.alnum x, ⟨List.all_eq_true.1 hid, ?_⟩, rfl⟩
      rw [List.all_eq_false] at hd
      obtain ⟨c, hc, h⟩ := hd
      exact ⟨c, hc, by simpa using h⟩
  · rintro ⟨i, hv, rfl⟩
    refine ⟨text_ne_nil hv, ?_, ?_⟩
    · cases i with
      | num n =>
        have := decimal_all n
        rw [List.all_eq_true] at this ⊢
        intro c hc; simp [identChar, this c hc]
      | alnum s => exact List.all_eq_true.2 hv.1
    · rintro - ⟨hl, hd, hh⟩
      cases i with
      | num n =>
        simp only [Ident.text] at hl hd hh
        by_cases h0 : n = 0
        · subst h0; rw [decimal_zero] at hl; simp at hl
        · obtain ⟨c, cs, hc, hne⟩ := decimal_head n (by omega)
          rw [hc] at hh; simp at hh; exact hne hh
      | alnum s => rw [Ident.text, not_all_digit_of_valid hv] at hd; cases hd

theorem preTag_iff (s : Str) : PreTag s ↔ ∀ x ∈ splitDot s, SegOk .prerelease x := by
  constructor
  · rintro ⟨ids, hne, hv, rfl⟩
    rw [splitDot_tagText hne hv]
    intro x hx
    obtain ⟨i, hi, rfl⟩ := List.mem_map.1 hx
    exact (segOk_pre_iff _).2 ⟨i, hv i hi, rfl⟩
  · intro h
    have key : ∀ l : List Str, (∀ x ∈ l, SegOk .prerelease x) →
        ∃ ids : List Ident, (∀ i ∈ ids, i.Valid) ∧ l = ids.map Ident.text := by
      intro l
      induction l with
      | nil => intro _; exact ⟨[], by simp, rfl⟩
      | cons x xs ih =>
        intro h
        obtain ⟨i, hi, rfl⟩ := (segOk_pre_iff _).1 (h x (by simp))
        obtain ⟨ids, h1, h2⟩ := ih (fun y hy => h y (by simp [hy]))
        exact ⟨i :: ids, by simpa using ⟨hi, h1⟩, by simp [h2]⟩
    obtain ⟨ids, h1, h2⟩ := key _ h
    refine ⟨ids, ?_, h1, ?_⟩
    · rintro rfl; exact splitDot_ne_nil s h2
    · rw [← dotted_splitDot s, h2]; rfl

theorem buildTag_iff (s : Str) : BuildTag s ↔ ∀ x ∈ splitDot s, SegOk .buildMetadata x := by
  constructor
  · rintro ⟨segs, hne, hv, rfl⟩
    rw [splitDot_dotted segs hne (fun x hx hm => by
      have := (hv x hx).2 _ hm; rw [dot_not_identChar] at this; cases this)]
    exact fun x hx => ⟨(hv x hx).1, List.all_eq_true.2 (hv x hx).2, fun h => by cases h⟩
  · intro h
    exact ⟨splitDot s, splitDot_ne_nil s, fun x hx => ⟨(h x hx).1, List.all_eq_true.1 (h x hx).2.1⟩,
      (dotted_splitDot s).symm⟩

theorem segs_ne_nil {f : IdentField} {s : Str} (h : ∀ x ∈ splitDot s, SegOk f x) : s ≠ [] := by
  rintro rfl
  exact (h [] (by simp [splitDot])).1 rfl

/-! ## optional tags -/

/-- What a successful optional tag has read: nothing, or the mark and a tag. -/
inductive OptRead (ch : Char) (f : IdentField) : Option Str → Cur → Cur → Prop
  | none {c : Cur} (h : startsWith (· == ch) c.rest = false) : OptRead ch f none c c
  | some {s : Str} {c c' : Cur} (r : Str) (h : c.rest = ch :: r)
      (hr : IdentRead f s ⟨c.start, c.idx + 1, r⟩ c') : OptRead ch f (some s) c c'

theorem optIdent_iff (ch : Char) (f : IdentField) (o : Option Str) (c c' : Cur) :
    optIdent ch f c = .ok (o, c') ↔ OptRead ch f o c c' := by
  obtain ⟨st, ix, rest⟩ := c
  unfold optIdent eatChar
  constructor
  · intro h
    cases rest with
    | nil =>
      simp at h
      obtain ⟨rfl, rfl⟩ := h
      exact .none rfl
    | cons x cs =>
      by_cases hx : x = ch
      · subst hx
        simp only [if_true, Res.bind_eq_ok] at h
        obtain ⟨⟨s, c1⟩, h1, h2⟩ := h
        simp at h2
        obtain ⟨rfl, rfl⟩ := h2
        exact .some cs rfl ((parseIdent_iff ..).1 h1)
      · simp [hx] at h
        obtain ⟨rfl, rfl⟩ := h
        exact .none (by simpa using hx)
  · intro h
    cases h with
    | none h =>
      cases rest with
      | nil => rfl
      | cons x cs => simp at h; simp [h]
    | some r h hr =>
      simp only at h
      subst h
      simp [Cur.step, (parseIdent_iff ..).2 hr]

/-! ## versions -/

theorem expectDot_iff (c c' : Cur) (f : NumField) :
    expectDot c f = .ok c' ↔ c.rest = '.' :: c'.rest ∧ c'.start = c.start ∧ c'.idx = c.idx + 1 := by
  obtain ⟨st, ix, rest⟩ := c
  obtain ⟨st', ix', rest'⟩ := c'
  unfold expectDot
  cases rest with
  | nil => simp
  | cons x cs =>
    by_cases hx : x = '.'
    · subst hx; simp [Cur.step]
      constructor
      · rintro ⟨rfl, rfl, rfl⟩; exact ⟨rfl, rfl, rfl⟩
      · rintro ⟨rfl, rfl, rfl⟩; exact ⟨rfl, rfl, rfl⟩
    · simp [hx]

theorem expectDot_at (st : Pos) (ix : Nat) (r : Str) (f : NumField) :
    expectDot ⟨st, ix, '.' :: r⟩ f = .ok ⟨st, ix + 1, r⟩ := rfl

theorem all_eq_false_startsWith {p q : Char → Bool} {s : Str} (h : ∀ c, p c = true → q c = true)
    (hs : startsWith q s = false) : startsWith p s = false := by
  cases s with
  | nil => rfl
  | cons c cs =>
    simp at hs ⊢
    cases hp : p c with
    | false => rfl
    | true => rw [h c hp] at hs; cases hs

/-- The optional tag as text. -/
def optText (ch : Char) : Option Str → Str
  | none => []
  | some s => ch :: s

theorem OptRead.text {ch : Char} {f : IdentField} {o : Option Str} {c c' : Cur}
    (h : OptRead ch f o c c') : c.rest = optText ch o ++ c'.rest := by
  cases h with
  | none h => rfl
  | some r h hr => rw [h]; simp [optText]; exact hr.text

theorem OptRead.segs {ch : Char} {f : IdentField} {s : Str} {c c' : Cur}
    (h : OptRead ch f (Option.some s) c c') : ∀ x ∈ splitDot s, SegOk f x := by
  cases h with
  | some r h hr => exact hr.segs

theorem OptRead.idx {ch : Char} {f : IdentField} {o : Option Str} {c c' : Cur}
    (h : OptRead ch f o c c') : c'.idx = c.idx + (optText ch o).length := by
  cases h with
  | none h => rfl
  | some r h hr => rw [hr.idx]; simp [optText]; omega

theorem OptRead.start_eq {ch : Char} {f : IdentField} {o : Option Str} {c c' : Cur}
    (h : OptRead ch f o c c') : c'.start = c.start := by
  cases h with
  | none h => rfl
  | some r h hr => exact hr.start

/-- Constructing an `OptRead` from text. -/
theorem optRead_mk {ch : Char} {f : IdentField} {o : Option Str} (st : Pos) (ix : Nat) (r : Str)
    (hs : ∀ s, o = some s → ∀ x ∈ splitDot s, SegOk f x)
    (h1 : o = none → startsWith (· == ch) r = false)
    (h2 : o ≠ none → startsWith identOrDot r = false) :
    OptRead ch f o ⟨st, ix, optText ch o ++ r⟩ ⟨st, ix + (optText ch o).length, r⟩ := by
  cases o with
  | none => exact .none (h1 rfl)
  | some s =>
    refine .some (s ++ r) rfl ⟨rfl, hs s rfl, rfl, ?_, h2 (by simp)⟩
    simp [optText]; omega

theorem startsWith_append_of_ne_nil {p : Char → Bool} {a b : Str} (h : a ≠ []) :
    startsWith p (a ++ b) = startsWith p a := by
  cases a with
  | nil => exact absurd rfl h
  | cons => rfl

/-- `Option` view of a tag: empty means absent. -/
def tagOpt (s : Str) : Option Str := if s = [] then none else some s

theorem versionText_eq (v : Version) : versionText v =
    decimal v.major ++ '.' :: (decimal v.minor ++ '.' :: (decimal v.patch ++
      (optText '-' (tagOpt v.pre) ++ optText '+' (tagOpt v.build)))) := by
  unfold versionText tagOpt
  split <;> split <;> simp [optText]

theorem startsWith_spaces {p : Char → Bool} (h : p ' ' = false) (n : Nat) :
    startsWith p (spaces n) = false := by
  cases n <;> simp [spaces, List.replicate_succ, h]

theorem spaces_append_nil_inj (n : Nat) (r : Str) (h : startsWith (· == ' ') r = false) (m : Nat)
    (e : spaces n = spaces m ++ r) : r = [] := by
  cases r with
  | nil => rfl
  | cons c cs =>
    have : c ∈ spaces n := by rw [e]; simp
    have : c = ' ' := by simp [spaces] at this; exact this.2
    subst this; simp at h

theorem parseVersion_complete (ovf : Bool) (input : Str) (pos : Pos) (v : Version)
    (h : VersionText input v) : parseVersion ovf input pos = .ok v := by
  obtain ⟨⟨hM, hm, hp, hpre, hbuild⟩, i, j, rfl⟩ := h
  rw [versionText_eq]
  -- name the intermediate texts
  have hd0 : ∀ n, startsWith (· == ' ') (decimal n) = false := by
    intro n
    have := decimal_all n
    cases hn : decimal n with
    | nil => rfl
    | cons c cs =>
      rw [hn] at this; simp only [List.all_cons, Bool.and_eq_true] at this
      have := this.1
      simp; rintro rfl; revert this; decide
  let t3 := optText '+' (tagOpt v.build) ++ spaces j
  let t2 := optText '-' (tagOpt v.pre) ++ t3
  let t1 := decimal v.minor ++ '.' :: (decimal v.patch ++ t2)
  have hin : spaces i ++ (decimal v.major ++ '.' :: (decimal v.minor ++ '.' :: (decimal v.patch ++
      (optText '-' (tagOpt v.pre) ++ optText '+' (tagOpt v.build))))) ++ spaces j =
      spaces i ++ (decimal v.major ++ '.' :: t1) := by simp [t1, t2, t3]
  rw [hin]
  have hws : eatWs (Cur.new pos (spaces i ++ (decimal v.major ++ '.' :: t1))) =
      ⟨pos, 0 + i, decimal v.major ++ '.' :: t1⟩ :=
    eatWs_eq (by rw [startsWith_append_of_ne_nil (decimal_ne_nil _)]; exact hd0 _)
  unfold parseVersion
  simp only [hws]
  rw [parseInt_at ovf _ _ _ _ _ hM (by rw [startsWith_cons]; decide)]
  simp only [Res.bind_ok]
  rw [expectDot_at]
  simp only [Res.bind_ok, t1]
  rw [parseInt_at ovf _ _ _ _ _ hm (by rw [startsWith_cons]; decide)]
  simp only [Res.bind_ok]
  rw [expectDot_at]
  simp only [Res.bind_ok]
  have ht3 : ∀ p : Char → Bool, p ' ' = false → p '+' = false → startsWith p t3 = false := by
    intro p h1 h2
    simp only [t3, tagOpt]; split
    · simpa [optText] using startsWith_spaces h1 j
    · simpa [optText] using h2
  have ht2 : startsWith isDigit t2 = false := by
    simp only [t2, tagOpt]; split
    · simpa [optText] using ht3 isDigit (by decide) (by decide)
    · simp [optText]; decide
  rw [parseInt_at ovf _ _ _ _ _ hp ht2]
  simp only [Res.bind_ok]
  have hopt1 : ∀ ix, optIdent '-' .prerelease ⟨pos, ix, t2⟩ =
      .ok (tagOpt v.pre, ⟨pos, ix + (optText '-' (tagOpt v.pre)).length, t3⟩) := by
    intro ix
    refine (optIdent_iff ..).2 (optRead_mk pos ix t3 ?_ ?_ ?_)
    · intro s hs
      simp only [tagOpt] at hs; split at hs
      · cases hs
      · rename_i hne; simp at hs; subst hs
        exact (preTag_iff _).1 (hpre.resolve_left hne)
    · intro _; exact ht3 _ (by decide) (by decide)
    · intro _; exact ht3 _ (by decide) (by decide)
  have hopt2 : ∀ ix, optIdent '+' .buildMetadata ⟨pos, ix, t3⟩ =
      .ok (tagOpt v.build, ⟨pos, ix + (optText '+' (tagOpt v.build)).length, spaces j⟩) := by
    intro ix
    refine (optIdent_iff ..).2 (optRead_mk pos ix (spaces j) ?_ ?_ ?_)
    · intro s hs
      simp only [tagOpt] at hs; split at hs
      · cases hs
      · rename_i hne; simp at hs; subst hs
        exact (buildTag_iff _).1 (hbuild.resolve_left hne)
    · intro _; exact startsWith_spaces (by decide) j
    · intro _; exact startsWith_spaces (by decide) j
  rw [hopt1]
  simp only [Res.bind_ok]
  rw [hopt2]
  simp only [Res.bind_ok]
  have hend : ∀ ix, eatWs ⟨pos, ix, spaces j⟩ = ⟨pos, ix + j, []⟩ := by
    intro ix
    have := eatWs_eq (start := pos) (idx := ix) (n := j) (r := []) rfl
    simpa using this
  rw [hend]
  have hg : ∀ s : Str, (tagOpt s).getD [] = s := by
    intro s; unfold tagOpt; split <;> simp_all
  simp [hg]

theorem parseVersion_sound (input : Str) (pos : Pos) (v : Version)
    (h : parseVersion true input pos = .ok v) : VersionText input v := by
  unfold parseVersion at h
  obtain ⟨i, r0, hin, -, hws⟩ := eatWs_spec (Cur.new pos input)
  simp only [hws, Res.bind_eq_ok] at h
  obtain ⟨⟨M, c1⟩, h1, c2, h2, ⟨m, c3⟩, h3, c4, h4, ⟨p, c5⟩, h5, ⟨opre, c6⟩, h6, ⟨obuild, c7⟩, h7, h8⟩ := h
  simp only at h2 h3 h4 h5 h6 h7 h8
  have e1 := parseInt_sound _ _ _ _ h1
  have e2 := (expectDot_iff _ _ _).1 h2
  have e3 := parseInt_sound _ _ _ _ h3
  have e4 := (expectDot_iff _ _ _).1 h4
  have e5 := parseInt_sound _ _ _ _ h5
  have e6 := (optIdent_iff _ _ _ _ _).1 h6
  have e7 := (optIdent_iff _ _ _ _ _).1 h7
  obtain ⟨j, r, hr, hrs, hws2⟩ := eatWs_spec c7
  rw [hws2] at h8
  cases r with
  | cons x xs => simp at h8
  | nil =>
    simp only [Res.ok.injEq] at h8
    subst h8
    have hopt : ∀ (ch : Char) (f : IdentField) (o : Option Str) (c c' : Cur), OptRead ch f o c c' →
        tagOpt (o.getD []) = o := by
      intro ch f o c c' h
      cases o with
      | none => rfl
      | some s => simp [tagOpt, segs_ne_nil h.segs]
    refine ⟨⟨e1.fits, e3.fits, e5.fits, ?_, ?_⟩, i, j, ?_⟩
    · cases opre with
      | none => exact .inl rfl
      | some s => exact .inr ((preTag_iff _).2 e6.segs)
    · cases obuild with
      | none => exact .inl rfl
      | some s => exact .inr ((buildTag_iff _).2 e7.segs)
    · rw [versionText_eq]
      simp only [hopt _ _ _ _ _ e6, hopt _ _ _ _ _ e7]
      have hin' : input = spaces i ++ r0 := hin
      have t1 := e1.text
      simp only at t1
      rw [hin', t1, e2.1, e3.text, e4.1, e5.text, e6.text, e7.text, hr]
      simp

theorem parseVersion_refines (input : Str) (pos : Pos) :
    Refines (parseVersion true input pos) (parseVersion false input pos) := by
  unfold parseVersion
  refine Refines.bind (parseInt_refines _ _) fun _ => ?_
  refine Refines.bind (Refines.rfl' _) fun _ => ?_
  refine Refines.bind (parseInt_refines _ _) fun _ => ?_
  refine Refines.bind (Refines.rfl' _) fun _ => ?_
  refine Refines.bind (parseInt_refines _ _) fun _ => ?_
  exact Refines.rfl' _

end Verif.Semver
