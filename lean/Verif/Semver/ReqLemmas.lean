import Verif.Semver.ParseLemmas
import Verif.Spec.ReqText

/-! # Helper lemmas for requirements -/

namespace Verif.Semver
open Verif Verif.Spec Verif.Spec.Semver

/-- The text ends, or goes on with a space or a comma. -/
def EndOk (r : Str) : Prop := r = [] ∨ ∃ x xs, r = x :: xs ∧ (x = ' ' ∨ x = ',')

theorem EndOk.startsWith {r : Str} (h : EndOk r) {p : Char → Bool} (h1 : p ' ' = false)
    (h2 : p ',' = false) : startsWith p r = false := by
  rcases h with rfl | ⟨x, xs, rfl, rfl | rfl⟩ <;> simp [*]

theorem eatChar_true_iff (ch : Char) (c c' : Cur) :
    eatChar ch c = (true, c') ↔ c.rest = ch :: c'.rest ∧ c'.start = c.start ∧ c'.idx = c.idx + 1 := by
  obtain ⟨st, ix, rest⟩ := c
  obtain ⟨st', ix', rest'⟩ := c'
  unfold eatChar
  cases rest with
  | nil => simp
  | cons x cs =>
    by_cases hx : x = ch
    · subst hx; simp [Cur.step]
      constructor
      · rintro ⟨rfl, rfl, rfl⟩; exact ⟨rfl, rfl, rfl⟩
      · rintro ⟨rfl, rfl, rfl⟩; exact ⟨rfl, rfl, rfl⟩
    · simp [hx]

theorem eatChar_false_iff (ch : Char) (c c' : Cur) :
    eatChar ch c = (false, c') ↔ c' = c ∧ startsWith (· == ch) c.rest = false := by
  obtain ⟨st, ix, rest⟩ := c
  unfold eatChar
  cases rest with
  | nil =>
    simp only [Prod.mk.injEq, true_and, startsWith_nil, and_true]
    exact ⟨fun h => h.symm, fun h => h.symm⟩
  | cons x cs =>
    by_cases hx : x = ch
    · subst hx; simp
    · show (if x = ch then _ else _) = _ ↔ _
      rw [if_neg hx]
      constructor
      · intro h; cases h; exact ⟨rfl, by simpa using hx⟩
      · rintro ⟨rfl, -⟩; rfl

theorem eatWildcard_some_iff (c c' : Cur) (w : WlChar) :
    eatWildcard c = some (w, c') ↔
      c.rest = w.char :: c'.rest ∧ c'.start = c.start ∧ c'.idx = c.idx + 1 := by
  obtain ⟨st, ix, rest⟩ := c
  obtain ⟨st', ix', rest'⟩ := c'
  unfold eatWildcard
  cases rest with
  | nil => simp
  | cons x cs =>
    by_cases h1 : x = '*'
    · subst h1; cases w <;> simp [Cur.step, WlChar.char]
      constructor
      · rintro ⟨rfl, rfl, rfl⟩; exact ⟨rfl, rfl, rfl⟩
      · rintro ⟨rfl, rfl, rfl⟩; exact ⟨rfl, rfl, rfl⟩
    · by_cases h2 : x = 'x'
      · subst h2; cases w <;> simp [Cur.step, WlChar.char]
        constructor
        · rintro ⟨rfl, rfl, rfl⟩; exact ⟨rfl, rfl, rfl⟩
        · rintro ⟨rfl, rfl, rfl⟩; exact ⟨rfl, rfl, rfl⟩
      · by_cases h3 : x = 'X'
        · subst h3; cases w <;> simp [Cur.step, WlChar.char]
          constructor
          · rintro ⟨rfl, rfl, rfl⟩; exact ⟨rfl, rfl, rfl⟩
          · rintro ⟨rfl, rfl, rfl⟩; exact ⟨rfl, rfl, rfl⟩
        · cases w <;> simp [h1, h2, h3, WlChar.char]

def isWl (c : Char) : Bool := c == '*' || c == 'x' || c == 'X'

theorem eatWildcard_none {c : Cur} (h : startsWith isWl c.rest = false) : eatWildcard c = none := by
  obtain ⟨st, ix, rest⟩ := c
  cases rest with
  | nil => rfl
  | cons x cs =>
    simp [isWl] at h
    simp [eatWildcard, h]

theorem decimal_startsWith {n : Nat} {r : Str} {p : Char → Bool}
    (h : ∀ c, isDigit c = true → p c = false) : startsWith p (decimal n ++ r) = false := by
  rw [startsWith_append_of_ne_nil (decimal_ne_nil n)]
  have := decimal_all n
  cases hn : decimal n with
  | nil => rfl
  | cons c cs =>
    rw [hn] at this; simp only [List.all_cons, Bool.and_eq_true] at this
    simpa using h c this.1

theorem digit_not_wl (c : Char) (h : isDigit c = true) : isWl c = false := by
  rw [isDigit_iff] at h
  simp only [isWl, Bool.or_eq_false_iff, beq_eq_false_iff_ne, ne_eq]
  refine ⟨⟨?_, ?_⟩, ?_⟩ <;> rintro rfl <;> revert h <;> decide

/-- Blank operators become wildcard operators. -/
def opAfter (cv : CompVersion) (op : Op) : Op :=
  match cv with
  | .major _ (some _) => if op = .bl then .wl else op
  | .minor _ _ (some _) => if op = .bl then .wl else op
  | _ => op

/-- What a successful `comp_version` has read. -/
structure CvRead (cv : CompVersion) (c c' : Cur) : Prop where
  text : c.rest = cvText cv ++ c'.rest
  start : c'.start = c.start
  idx : c'.idx = c.idx + (cvText cv).length
  valid : ValidCv cv
  notBare : ∀ w, cv ≠ .wl w

theorem compVersion_sound (c c' : Cur) (op op' : Op) (cv : CompVersion)
    (h : compVersion true c op = .ok (cv, op', c')) : CvRead cv c c' ∧ op' = opAfter cv op := by
  unfold compVersion at h
  rw [Res.bind_eq_ok] at h
  obtain ⟨⟨M, c1⟩, h1, h⟩ := h
  have e1 := parseInt_sound _ _ _ _ h1
  simp only at h
  cases hd1 : eatChar '.' c1 with
  | mk b1 c2 =>
    rw [hd1] at h
    cases b1 with
    | false =>
      rw [eatChar_false_iff] at hd1
      obtain ⟨rfl, -⟩ := hd1
      simp at h
      obtain ⟨rfl, rfl, rfl⟩ := h
      exact ⟨⟨e1.text, e1.start, e1.idx, e1.fits, by simp⟩, rfl⟩
    | true =>
      rw [eatChar_true_iff] at hd1
      simp only at h
      cases hw1 : eatWildcard c2 with
      | some wc =>
        obtain ⟨w1, c3⟩ := wc
        rw [hw1] at h
        rw [eatWildcard_some_iff] at hw1
        simp only at h
        cases hd2 : eatChar '.' c3 with
        | mk b2 c4 =>
          rw [hd2] at h
          cases b2 with
          | false =>
            rw [eatChar_false_iff] at hd2
            obtain ⟨rfl, -⟩ := hd2
            simp at h
            obtain ⟨rfl, rfl, rfl⟩ := h
            refine ⟨⟨?_, ?_, ?_, e1.fits, by simp⟩, rfl⟩
            · rw [e1.text, hd1.1, hw1.1]; simp [cvText]
            · rw [hw1.2.1, hd1.2.1, e1.start]
            · rw [hw1.2.2, hd1.2.2, e1.idx]; simp [cvText]; omega
          | true =>
            rw [eatChar_true_iff] at hd2
            simp only at h
            cases hw2 : eatWildcard c4 with
            | some wc2 =>
              obtain ⟨w2, c5⟩ := wc2
              rw [hw2] at h
              rw [eatWildcard_some_iff] at hw2
              simp at h
              obtain ⟨rfl, rfl, rfl⟩ := h
              refine ⟨⟨?_, ?_, ?_, e1.fits, by simp⟩, rfl⟩
              · rw [e1.text, hd1.1, hw1.1, hd2.1, hw2.1]; simp [cvText]
              · rw [hw2.2.1, hd2.2.1, hw1.2.1, hd1.2.1, e1.start]
              · rw [hw2.2.2, hd2.2.2, hw1.2.2, hd1.2.2, e1.idx]; simp [cvText]; omega
            | none =>
              rw [hw2] at h
              simp only at h
              split at h <;> cases h
      | none =>
        rw [hw1] at h
        simp only at h
        rw [Res.bind_eq_ok] at h
        obtain ⟨⟨m, c3⟩, h3, h⟩ := h
        have e3 := parseInt_sound _ _ _ _ h3
        simp only at h
        cases hd2 : eatChar '.' c3 with
        | mk b2 c4 =>
          rw [hd2] at h
          cases b2 with
          | false =>
            rw [eatChar_false_iff] at hd2
            obtain ⟨rfl, -⟩ := hd2
            simp at h
            obtain ⟨rfl, rfl, rfl⟩ := h
            refine ⟨⟨?_, ?_, ?_, ⟨e1.fits, e3.fits⟩, by simp⟩, rfl⟩
            · rw [e1.text, hd1.1, e3.text]; simp [cvText]
            · rw [e3.start, hd1.2.1, e1.start]
            · rw [e3.idx, hd1.2.2, e1.idx]; simp [cvText]; omega
          | true =>
            rw [eatChar_true_iff] at hd2
            simp only at h
            cases hw2 : eatWildcard c4 with
            | some wc2 =>
              obtain ⟨w2, c5⟩ := wc2
              rw [hw2] at h
              rw [eatWildcard_some_iff] at hw2
              simp at h
              obtain ⟨rfl, rfl, rfl⟩ := h
              refine ⟨⟨?_, ?_, ?_, ⟨e1.fits, e3.fits⟩, by simp⟩, rfl⟩
              · rw [e1.text, hd1.1, e3.text, hd2.1, hw2.1]; simp [cvText]
              · rw [hw2.2.1, hd2.2.1, e3.start, hd1.2.1, e1.start]
              · rw [hw2.2.2, hd2.2.2, e3.idx, hd1.2.2, e1.idx]; simp [cvText]; omega
            | none =>
              rw [hw2] at h
              simp only [Res.bind_eq_ok] at h
              obtain ⟨⟨p, c5⟩, h5, ⟨opre, c6⟩, h6, ⟨obuild, c7⟩, h7, h8⟩ := h
              simp only at h6 h7 h8
              have e5 := parseInt_sound _ _ _ _ h5
              have e6 := (optIdent_iff _ _ _ _ _).1 h6
              have e7 := (optIdent_iff _ _ _ _ _).1 h7
              have hbt : ∀ x, obuild = some x → BuildTag x := by
                rintro x rfl; exact (buildTag_iff _).2 e7.segs
              have htext : c.rest = decimal M ++ '.' :: (decimal m ++ '.' :: (decimal p ++
                  (optText '-' opre ++ (optText '+' obuild ++ c7.rest)))) := by
                rw [e1.text, hd1.1, e3.text, hd2.1, e5.text, e6.text, e7.text]
              have hst : c7.start = c.start := by
                rw [e7.start_eq, e6.start_eq, e5.start, hd2.2.1, e3.start, hd1.2.1, e1.start]
              have hix : c7.idx = c.idx + ((decimal M).length + (decimal m).length +
                  (decimal p).length + 2 + (optText '-' opre).length +
                  (optText '+' obuild).length) := by
                rw [e7.idx, e6.idx, e5.idx, hd2.2.2, e3.idx, hd1.2.2, e1.idx]; omega
              cases opre with
              | none =>
                simp at h8
                obtain ⟨rfl, rfl, rfl⟩ := h8
                refine ⟨⟨?_, hst, ?_, ⟨e1.fits, e3.fits, e5.fits, hbt⟩, by simp⟩, rfl⟩
                · rw [htext]; cases obuild <;> simp [cvText, optText]
                · rw [hix]; cases obuild <;> simp [cvText, optText] <;> omega
              | some s =>
                simp at h8
                obtain ⟨rfl, rfl, rfl⟩ := h8
                refine ⟨⟨?_, hst, ?_, ⟨e1.fits, e3.fits, e5.fits, (preTag_iff _).2 e6.segs, hbt⟩,
                  by simp⟩, rfl⟩
                · rw [htext]; cases obuild <;> simp [cvText, optText]
                · rw [hix]; cases obuild <;> simp [cvText, optText] <;> omega

theorem eatChar_at (ch : Char) (st : Pos) (ix : Nat) (r : Str) :
    eatChar ch ⟨st, ix, ch :: r⟩ = (true, ⟨st, ix + 1, r⟩) := by simp [eatChar, Cur.step]

theorem eatChar_not {ch : Char} {c : Cur} (h : startsWith (· == ch) c.rest = false) :
    eatChar ch c = (false, c) := (eatChar_false_iff ch c c).2 ⟨rfl, h⟩

theorem eatWildcard_at (w : WlChar) (st : Pos) (ix : Nat) (r : Str) :
    eatWildcard ⟨st, ix, w.char :: r⟩ = some (w, ⟨st, ix + 1, r⟩) :=
  (eatWildcard_some_iff _ _ _).2 ⟨rfl, rfl, rfl⟩

theorem compVersion_complete (ovf : Bool) (cv : CompVersion) (op : Op) (st : Pos) (ix : Nat)
    (r : Str) (hv : ValidCv cv) (hb : ∀ w, cv ≠ .wl w) (hr : EndOk r) :
    compVersion ovf ⟨st, ix, cvText cv ++ r⟩ op =
      .ok (cv, opAfter cv op, ⟨st, ix + (cvText cv).length, r⟩) := by
  have hdig : startsWith isDigit r = false := hr.startsWith (by decide) (by decide)
  have hdot : startsWith (· == '.') r = false := hr.startsWith (by decide) (by decide)
  have hplus : startsWith (· == '+') r = false := hr.startsWith (by decide) (by decide)
  have hhyp : startsWith (· == '-') r = false := hr.startsWith (by decide) (by decide)
  have hid : startsWith identOrDot r = false := hr.startsWith (by decide) (by decide)
  have hdd : ∀ s : Str, startsWith isDigit ('.' :: s) = false := fun s => by
    rw [startsWith_cons]; decide
  have hwd : ∀ (n : Nat) (s : Str), startsWith isWl (decimal n ++ s) = false := fun n s =>
    decimal_startsWith digit_not_wl
  have full : ∀ (a b p : Nat) (opre obuild : Option Str), a < 2 ^ 32 → b < 2 ^ 32 → p < 2 ^ 32 →
      (∀ x, opre = some x → PreTag x) → (∀ x, obuild = some x → BuildTag x) →
      compVersion ovf ⟨st, ix, decimal a ++ '.' :: (decimal b ++ '.' :: (decimal p ++
        (optText '-' opre ++ (optText '+' obuild ++ r))))⟩ op =
      .ok (match opre with
        | none => .patch a b p obuild
        | some pre => .pre a b p pre obuild, op,
        ⟨st, ix + (decimal a).length + 1 + (decimal b).length + 1 + (decimal p).length +
          (optText '-' opre).length + (optText '+' obuild).length, r⟩) := by
    intro a b p opre obuild ha hb hp hpre hbuild
    have s3 : ∀ q : Char → Bool, q ' ' = false → q ',' = false → q '+' = false →
        startsWith q (optText '+' obuild ++ r) = false := by
      intro q h1 h2 h3
      cases obuild with
      | none => exact hr.startsWith h1 h2
      | some x => simpa [optText] using h3
    have s2 : startsWith isDigit (optText '-' opre ++ (optText '+' obuild ++ r)) = false := by
      cases opre with
      | none => exact s3 _ (by decide) (by decide) (by decide)
      | some x => simp only [optText, List.cons_append, startsWith_cons]; decide
    unfold compVersion
    rw [parseInt_at ovf _ _ _ _ _ ha (hdd _)]
    simp only [Res.bind_ok]
    rw [eatChar_at]
    simp only
    rw [eatWildcard_none (hwd _ _)]
    simp only
    rw [parseInt_at ovf _ _ _ _ _ hb (hdd _)]
    simp only [Res.bind_ok]
    rw [eatChar_at]
    simp only
    rw [eatWildcard_none (hwd _ _)]
    simp only
    rw [parseInt_at ovf _ _ _ _ _ hp s2]
    simp only [Res.bind_ok]
    rw [(optIdent_iff ..).2 (optRead_mk st _ _ (o := opre)
      (fun x hx => (preTag_iff _).1 (hpre x hx))
      (fun _ => s3 _ (by decide) (by decide) (by decide))
      (fun _ => s3 _ (by decide) (by decide) (by decide)))]
    simp only [Res.bind_ok]
    rw [(optIdent_iff ..).2 (optRead_mk st _ _ (o := obuild)
      (fun x hx => (buildTag_iff _).1 (hbuild x hx)) (fun _ => hplus) (fun _ => hid))]
    cases opre <;> rfl
  cases cv with
  | wl w => exact absurd rfl (hb w)
  | major a w =>
    simp only [ValidCv] at hv
    cases w with
    | none =>
      simp only [cvText]
      unfold compVersion
      rw [parseInt_at ovf _ _ _ _ _ hv hdig]
      simp only [Res.bind_ok]
      rw [eatChar_not hdot]
      rfl
    | some ww =>
      obtain ⟨w1, w2⟩ := ww
      cases w2 with
      | none =>
        simp only [cvText, List.append_assoc, List.cons_append, List.nil_append]
        unfold compVersion
        rw [parseInt_at ovf _ _ _ _ _ hv (hdd _)]
        simp only [Res.bind_ok]
        rw [eatChar_at]
        simp only
        rw [eatWildcard_at]
        simp only
        rw [eatChar_not hdot]
        simp [opAfter]; omega
      | some w2 =>
        simp only [cvText, List.append_assoc, List.cons_append, List.nil_append]
        unfold compVersion
        rw [parseInt_at ovf _ _ _ _ _ hv (hdd _)]
        simp only [Res.bind_ok]
        rw [eatChar_at]
        simp only
        rw [eatWildcard_at]
        simp only
        rw [eatChar_at]
        simp only
        rw [eatWildcard_at]
        simp [opAfter]; omega
  | minor a b w =>
    simp only [ValidCv] at hv
    cases w with
    | none =>
      simp only [cvText, List.append_assoc, List.cons_append, List.nil_append]
      unfold compVersion
      rw [parseInt_at ovf _ _ _ _ _ hv.1 (hdd _)]
      simp only [Res.bind_ok]
      rw [eatChar_at]
      simp only
      rw [eatWildcard_none (hwd _ _)]
      simp only
      rw [parseInt_at ovf _ _ _ _ _ hv.2 hdig]
      simp only [Res.bind_ok]
      rw [eatChar_not hdot]
      simp [opAfter]; omega
    | some w =>
      simp only [cvText, List.append_assoc, List.cons_append, List.nil_append]
      unfold compVersion
      rw [parseInt_at ovf _ _ _ _ _ hv.1 (hdd _)]
      simp only [Res.bind_ok]
      rw [eatChar_at]
      simp only
      rw [eatWildcard_none (hwd _ _)]
      simp only
      rw [parseInt_at ovf _ _ _ _ _ hv.2 (hdd _)]
      simp only [Res.bind_ok]
      rw [eatChar_at]
      simp only
      rw [eatWildcard_at]
      simp [opAfter]; omega
  | patch a b p m =>
    simp only [ValidCv] at hv
    have := full a b p none m hv.1 hv.2.1 hv.2.2.1 (by simp) hv.2.2.2
    cases m <;> simp [optText] at this <;> simp [cvText, this, opAfter] <;> omega
  | pre a b p q m =>
    simp only [ValidCv] at hv
    have := full a b p (some q) m hv.1 hv.2.1 hv.2.2.1 (by rintro x hx; cases hx; exact hv.2.2.2.1)
      hv.2.2.2.2
    cases m <;> simp [optText] at this <;> simp [cvText, this, opAfter] <;> omega

end Verif.Semver
