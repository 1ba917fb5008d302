import Verif.Spec.Decimal

/-! # Helper lemmas about decimal notation -/

namespace Verif
open Spec

theorem isDigit_iff (c : Char) : isDigit c = true ↔ 48 ≤ c.toNat ∧ c.toNat ≤ 57 := by
  simp [isDigit, Char.le_def, UInt32.le_iff_toNat_le]

theorem isDigit_utf8Size {c : Char} (h : isDigit c = true) : c.utf8Size = 1 := by
  rw [isDigit_iff] at h
  simp only [Char.utf8Size, UInt32.le_iff_toNat_le]
  rw [if_pos]
  have := h.2
  simp only [Char.toNat] at this
  exact Nat.le_trans this (by decide)

theorem blen_eq_length_of_digits {s : Str} (h : s.all isDigit = true) : blen s = s.length := by
  induction s with
  | nil => rfl
  | cons c cs ih =>
    simp only [List.all_cons, Bool.and_eq_true] at h
    simp [ih h.2, isDigit_utf8Size h.1]; omega

theorem digitChar_toNat {d : Nat} (h : d < 10) : (Nat.digitChar d).toNat = 48 + d := by
  have : ∀ d : Fin 10, (Nat.digitChar d.1).toNat = 48 + d.1 := by decide
  exact this ⟨d, h⟩

theorem isDigit_digitChar {d : Nat} (h : d < 10) : isDigit (Nat.digitChar d) = true := by
  rw [isDigit_iff, digitChar_toNat h]; omega

theorem digitVal_digitChar {d : Nat} (h : d < 10) : digitVal (Nat.digitChar d) = d := by
  simp only [digitVal, digitChar_toNat h]; show 48 + d - 48 = d; omega

theorem digitVal_lt {c : Char} (h : isDigit c = true) : digitVal c < 10 := by
  rw [isDigit_iff] at h; simp only [digitVal]; show c.toNat - 48 < 10; omega

theorem digitChar_digitVal {c : Char} (h : isDigit c = true) : Nat.digitChar (digitVal c) = c := by
  apply Char.toNat_inj.1
  rw [digitChar_toNat (digitVal_lt h)]
  rw [isDigit_iff] at h
  show 48 + (c.toNat - 48) = c.toNat
  omega

theorem decVal_append_singleton (s : Str) (c : Char) :
    decVal (s ++ [c]) = 10 * decVal s + digitVal c := by
  simp [decVal, List.foldl_append]

theorem decimal_lt {n : Nat} (h : n < 10) : decimal n = [Nat.digitChar n] :=
  Nat.toDigits_of_lt_base h

theorem decimal_ge {n : Nat} (h : 10 ≤ n) :
    decimal n = decimal (n / 10) ++ [Nat.digitChar (n % 10)] :=
  Nat.toDigits_of_base_le (by omega) h

theorem decimal_ne_nil (n : Nat) : decimal n ≠ [] := Nat.toDigits_ne_nil

/-- Induction principle following the last decimal digit. -/
theorem decInduction {P : Nat → Prop} (h1 : ∀ n, n < 10 → P n)
    (h2 : ∀ n, 10 ≤ n → P (n / 10) → P n) (n : Nat) : P n := by
  induction n using Nat.strongRecOn with
  | _ n ih =>
    by_cases h : n < 10
    · exact h1 n h
    · exact h2 n (by omega) (ih (n / 10) (by omega))

theorem decVal_decimal (n : Nat) : decVal (decimal n) = n := by
  induction n using decInduction with
  | h1 n h => rw [decimal_lt h]; simp [decVal, digitVal_digitChar h]
  | h2 n h ih =>
    rw [decimal_ge h, decVal_append_singleton, ih, digitVal_digitChar (by omega)]; omega

theorem decimal_inj {a b : Nat} (h : decimal a = decimal b) : a = b := by
  rw [← decVal_decimal a, ← decVal_decimal b, h]

theorem decimal_all (n : Nat) : (decimal n).all isDigit = true := by
  induction n using decInduction with
  | h1 n h => rw [decimal_lt h]; simp [isDigit_digitChar h]
  | h2 n h ih => rw [decimal_ge h, List.all_append, ih]; simp [isDigit_digitChar (show n % 10 < 10 by omega)]

/-- No leading zero, except for `0` itself. -/
theorem decimal_head (n : Nat) (h : 0 < n) : ∃ c cs, decimal n = c :: cs ∧ c ≠ '0' := by
  induction n using decInduction with
  | h1 n h' =>
    refine ⟨_, _, decimal_lt h', ?_⟩
    intro he
    have := congrArg digitVal he
    rw [digitVal_digitChar h'] at this
    simp [digitVal] at this; omega
  | h2 n h' ih =>
    obtain ⟨c, cs, hc, hne⟩ := ih (by omega)
    exact ⟨c, cs ++ [Nat.digitChar (n % 10)], by rw [decimal_ge h', hc]; rfl, hne⟩

theorem decimal_zero : decimal 0 = ['0'] := rfl

theorem digitVal_pos {c : Char} (h : isDigit c = true) (h0 : c ≠ '0') : 0 < digitVal c := by
  have hd := (isDigit_iff c).1 h
  have : c.toNat ≠ 48 := fun he => h0 (Char.toNat_inj.1 he)
  show 0 < c.toNat - 48; omega

/-- Value of a digit string started from an accumulator. -/
theorem decVal_foldl (acc : Nat) (s : Str) :
    s.foldl (fun n c => 10 * n + digitVal c) acc = acc * 10 ^ s.length + decVal s := by
  induction s generalizing acc with
  | nil => simp [decVal]
  | cons c cs ih =>
    simp only [List.foldl_cons, decVal, List.length_cons]
    rw [ih, ih (10 * 0 + digitVal c), Nat.pow_succ, Nat.add_mul]
    simp only [Nat.mul_zero, Nat.zero_add, Nat.mul_comm 10 acc, Nat.mul_assoc,
      Nat.mul_comm 10 (10 ^ cs.length)]
    omega

theorem decVal_cons (c : Char) (cs : Str) :
    decVal (c :: cs) = digitVal c * 10 ^ cs.length + decVal cs := by
  have := decVal_foldl (digitVal c) cs
  simpa [decVal] using this

theorem decVal_lt {s : Str} (h : s.all isDigit = true) : decVal s < 10 ^ s.length := by
  induction s with
  | nil => simp [decVal]
  | cons c cs ih =>
    simp only [List.all_cons, Bool.and_eq_true] at h
    rw [decVal_cons, List.length_cons, Nat.pow_succ]
    have h1 := ih h.2
    have h2 := digitVal_lt h.1
    have : digitVal c * 10 ^ cs.length ≤ 9 * 10 ^ cs.length := Nat.mul_le_mul_right _ (by omega)
    omega

theorem decVal_ge {c : Char} {cs : Str} (h : isDigit c = true) (h0 : c ≠ '0') :
    10 ^ cs.length ≤ decVal (c :: cs) := by
  rw [decVal_cons]
  have := Nat.mul_le_mul_right (10 ^ cs.length) (digitVal_pos h h0)
  omega

/-- A digit string without leading zeros is the decimal text of its value. -/
theorem decimal_decVal {c : Char} {cs : Str} (h : (c :: cs).all isDigit = true) (h0 : c ≠ '0') :
    decimal (decVal (c :: cs)) = c :: cs := by
  -- induct on the reversed tail
  suffices ∀ (n : Nat) (cs : Str), cs.length = n → (c :: cs).all isDigit = true →
      decimal (decVal (c :: cs)) = c :: cs from this _ cs rfl h
  intro n
  induction n with
  | zero =>
    intro cs hl hd
    have : cs = [] := List.length_eq_zero_iff.1 hl
    subst this
    have hc : isDigit c = true := by simpa using hd
    have : decVal [c] = digitVal c := by simp [decVal]
    rw [this, decimal_lt (digitVal_lt hc), digitChar_digitVal hc]
  | succ n ih =>
    intro cs hl hd
    obtain ⟨ds, d, rfl⟩ : ∃ ds d, cs = ds ++ [d] := by
      rcases List.eq_nil_or_concat cs with h | ⟨l, b, h⟩
      · subst h; simp at hl
      · exact ⟨l, b, by simpa using h⟩
    have hlen : ds.length = n := by simpa using hl
    have hd' : (c :: ds).all isDigit = true ∧ isDigit d = true := by
      simp only [List.all_cons, List.all_append, Bool.and_eq_true] at hd ⊢
      exact ⟨⟨hd.1, hd.2.1⟩, by simpa using hd.2.2⟩
    have hc : isDigit c = true := by
      have := hd'.1; simp only [List.all_cons, Bool.and_eq_true] at this; exact this.1
    have ih' := ih ds hlen hd'.1
    have hv : decVal (c :: (ds ++ [d])) = 10 * decVal (c :: ds) + digitVal d := by
      rw [← List.cons_append, decVal_append_singleton]
    have hpos : 1 ≤ decVal (c :: ds) :=
      Nat.le_trans (Nat.one_le_pow _ _ (by omega)) (decVal_ge hc h0)
    have hdl := digitVal_lt hd'.2
    rw [hv, decimal_ge (by omega)]
    have e1 : (10 * decVal (c :: ds) + digitVal d) / 10 = decVal (c :: ds) := by omega
    have e2 : (10 * decVal (c :: ds) + digitVal d) % 10 = digitVal d := by omega
    rw [e1, e2, ih', digitChar_digitVal hd'.2]; rfl

end Verif
