import Verif.Toml.LitSafe

/-!
# Floats: the literal parser and the grammar
-/

namespace Verif.Toml
open Verif Verif.Spec.Toml

/-- The text without its underscores. -/
def clean (s : Str) : Str := s.filter (· != '_')

theorem parseFloat_ok {lit : Str} {span : Span} {v : FloatVal} :
    parseFloat lit span = .ok v ↔ stdF64Ok (clean lit) = true ∧ v = .parsed (clean lit) := by
  unfold parseFloat clean
  dsimp only
  split
  · rename_i h; simp [h, eq_comm]
  · rename_i h; simp [h]

/-- Behind the `e`: an optional sign and digits, or nothing. -/
def ExpLoose (s : Str) : Prop :=
  ∃ sign f body, s = sign ++ body ∧ SignText sign f ∧ (body = [] ∨ Digits 10 body)

theorem floatExpLoop_ok {ovf : Bool} {lit : Str} {span : Span} {s : Str} :
    ∀ {i : Nat} {first last : Bool} {v : FloatVal},
    floatExpLoop ovf lit span i s first last = .ok v ↔
      ((first = true ∧ last = false ∧ s = []) ∨ UTail 10 (first || last) s) ∧
        parseFloat lit span = .ok v := by
  induction s with
  | nil =>
    intro i first last v
    unfold floatExpLoop
    rw [utail_nil]
    cases last
    · cases first <;> simp
    · simp [Res.bind_eq_ok]
  | cons c cs ih =>
    intro i first last v
    unfold floatExpLoop
    rw [utail_cons (by omega)]
    by_cases hd : isDigit c = true
    · have hd10 := (isDigit_iff_digitOf c).1 hd
      have hu : c ≠ '_' := ne_under (by omega) hd10
      rw [if_pos hd, ih]
      simp [hd10, hu]
    · have hd10 : ¬ digitOf c < 10 := fun h => hd ((isDigit_iff_digitOf c).2 h)
      rw [if_neg hd]
      by_cases hu : c = '_'
      · subst hu
        rw [if_pos rfl]
        cases first
        · cases last
          · simp only [Bool.false_eq_true, if_false]
            rw [ih]; simp [hd10]
          · simp only [Bool.false_eq_true, if_false, if_true]
            simp [hd10, consec_ne_ok]
        · simp [hd10]
      · rw [if_neg hu]
        simp [hu, hd10]

theorem digits_ne_nil {b : Nat} : ¬ Digits b [] := by intro h; cases h

theorem validateFloatExponent_ok {ovf : Bool} {lit : Str} {span : Span} {cur : Cur}
    {v : FloatVal} :
    validateFloatExponent ovf cur lit span = .ok v ↔
      ExpLoose cur.rest ∧ parseFloat lit span = .ok v := by
  rcases cur with ⟨i, _ | ⟨c, cs⟩⟩
  · unfold validateFloatExponent
    simp only [floatExpLoop_ok, true_and, true_or]
    have : ExpLoose [] := ⟨[], _, [], rfl, .none, .inl rfl⟩
    simp [this]
  · unfold validateFloatExponent
    dsimp only
    split
    · rename_i hs
      rw [floatExpLoop_ok]
      simp only [true_and, Bool.or_false, utail_true (show 10 ≤ 16 by omega)]
      have : ExpLoose (c :: cs) ↔ cs = [] ∨ Digits 10 cs := by
        constructor
        · rintro ⟨sign, f, body, h, hsg, hb⟩
          cases hsg with
          | none =>
            simp only [List.nil_append] at h; subst h
            rcases hb with hb | hb
            · cases hb
            · rw [digits_cons (by omega)] at hb
              rcases hs with rfl | rfl <;> exact absurd hb.1 (by decide)
          | plus =>
            simp only [List.cons_append, List.nil_append, List.cons.injEq] at h
            obtain ⟨-, rfl⟩ := h; exact hb
          | minus =>
            simp only [List.cons_append, List.nil_append, List.cons.injEq] at h
            obtain ⟨-, rfl⟩ := h; exact hb
        · intro h
          rcases hs with rfl | rfl
          · exact ⟨['-'], _, cs, rfl, .minus, h⟩
          · exact ⟨['+'], _, cs, rfl, .plus, h⟩
      rw [this]
    · rename_i hs
      rw [floatExpLoop_ok]
      simp only [true_and, Bool.or_false, utail_true (show 10 ≤ 16 by omega), List.cons_ne_nil,
        false_or]
      have : ExpLoose (c :: cs) ↔ Digits 10 (c :: cs) := by
        constructor
        · rintro ⟨sign, f, body, h, hsg, hb⟩
          cases hsg with
          | none =>
            simp only [List.nil_append] at h; subst h
            rcases hb with hb | hb
            · cases hb
            · exact hb
          | plus =>
            simp only [List.cons_append, List.nil_append, List.cons.injEq] at h
            exact absurd (.inr h.1) hs
          | minus =>
            simp only [List.cons_append, List.nil_append, List.cons.injEq] at h
            exact absurd (.inl h.1) hs
        · intro h
          exact ⟨[], _, c :: cs, rfl, .none, .inr h⟩
      rw [this]

/-- `e` or `E`. -/
def IsE (c : Char) : Prop := c = 'e' ∨ c = 'E'

theorem IsE.ne {c : Char} (h : IsE c) : ¬ digitOf c < 10 ∧ c ≠ '_' ∧ c ≠ '.' := by
  rcases h with rfl | rfl <;> decide

/-- What may follow in the fractional part; the flag says that a digit has to come next. -/
inductive FracTail : Bool → Str → Prop
  | stop : FracTail false []
  | exp {e : Char} {s : Str} : IsE e → ExpLoose s → FracTail false (e :: s)
  | digit {c : Char} {s : Str} {l : Bool} : digitOf c < 10 → FracTail false s → FracTail l (c :: s)
  | under {s : Str} : FracTail true s → FracTail false ('_' :: s)

theorem fracTail_cons {l : Bool} {c : Char} {s : Str} :
    FracTail l (c :: s) ↔
      (digitOf c < 10 ∧ FracTail false s) ∨ (c = '_' ∧ l = false ∧ FracTail true s) ∨
        (IsE c ∧ l = false ∧ ExpLoose s) := by
  constructor
  · intro h
    cases h with
    | exp h1 h2 => exact .inr (.inr ⟨h1, rfl, h2⟩)
    | digit h1 h2 => exact .inl ⟨h1, h2⟩
    | under h => exact .inr (.inl ⟨rfl, rfl, h⟩)
  · rintro (⟨h1, h2⟩ | ⟨rfl, rfl, h⟩ | ⟨h1, rfl, h2⟩)
    · exact .digit h1 h2
    · exact .under h
    · exact .exp h1 h2

theorem fracTail_nil {l : Bool} : FracTail l [] ↔ l = false := by
  constructor
  · intro h; cases h; rfl
  · rintro rfl; exact .stop

theorem floatFractLoop_ok {ovf : Bool} {lit : Str} {span : Span} {start : Nat} {s : Str} :
    ∀ {i : Nat} {last : Bool} {v : FloatVal}, start ≤ i → (s = [] → start < i) →
    (floatFractLoop ovf lit span start i s last = .ok v ↔
      FracTail (decide (i = start) || last) s ∧ parseFloat lit span = .ok v) := by
  induction s with
  | nil =>
    intro i last v hi hs
    have := hs rfl
    unfold floatFractLoop
    rw [fracTail_nil]
    have hne : i ≠ start := by omega
    cases last
    · simp [hne]
    · simp [Res.bind_eq_ok]
  | cons c cs ih =>
    intro i last v hi _
    have hc := utf8Size_pos' c
    unfold floatFractLoop
    rw [fracTail_cons]
    have hne : i + c.utf8Size ≠ start := by omega
    by_cases hd : isDigit c = true
    · have hd10 := (isDigit_iff_digitOf c).1 hd
      have hu : c ≠ '_' := ne_under (by omega) hd10
      have he : ¬ IsE c := fun h => h.ne.1 hd10
      rw [if_pos hd, ih (by omega) (fun _ => by omega)]
      simp [hd10, hu, he, hne]
    · have hd10 : ¬ digitOf c < 10 := fun h => hd ((isDigit_iff_digitOf c).2 h)
      rw [if_neg hd]
      by_cases he : c = 'e' ∨ c = 'E'
      · have hE : IsE c := he
        rw [if_pos he]
        simp only [hd10, false_and, hE.ne.2.1, hE, true_and, false_or]
        by_cases hst : i = start
        · simp [hst]
        · rw [if_neg hst]
          cases last
          · simp only [Bool.false_eq_true, if_false, hst, decide_false, Bool.or_self, true_and]
            rw [validateFloatExponent_ok]; rfl
          · simp
      · have hE : ¬ IsE c := he
        rw [if_neg he]
        by_cases hu : c = '_'
        · subst hu
          rw [if_pos rfl]
          by_cases hst : i = start
          · simp [hst, hd10, hE]
          · rw [if_neg hst]
            cases last
            · simp only [Bool.false_eq_true, if_false]
              rw [ih (by omega) (fun _ => by omega)]
              simp [hd10, hst, hE]
            · simp [hd10, hE, consec_ne_ok]
        · rw [if_neg hu]
          simp [hu, hd10, hE]

theorem validateFract_ok {ovf : Bool} {lit : Str} {span : Span} {cur : Cur} {v : FloatVal} :
    validateFloatFractionalPart ovf cur lit span cur.i = .ok v ↔
      FracTail true cur.rest ∧ parseFloat lit span = .ok v := by
  unfold validateFloatFractionalPart
  rcases cur with ⟨i, _ | ⟨c, cs⟩⟩
  · simp [fracTail_nil]
  · dsimp only
    rw [floatFractLoop_ok (Nat.le_refl _) (by simp)]
    simp

/-- Behind the integer part: a fraction or an exponent. -/
inductive DecTail : Bool → Str → Prop
  | frac {s : Str} : FracTail true s → DecTail false ('.' :: s)
  | exp {e : Char} {s : Str} : IsE e → ExpLoose s → DecTail false (e :: s)
  | digit {c : Char} {s : Str} {l : Bool} : digitOf c < 10 → DecTail false s → DecTail l (c :: s)
  | under {s : Str} : DecTail true s → DecTail false ('_' :: s)

theorem decTail_nil {l : Bool} : ¬ DecTail l [] := by intro h; cases h

theorem decTail_cons {l : Bool} {c : Char} {s : Str} :
    DecTail l (c :: s) ↔
      (digitOf c < 10 ∧ DecTail false s) ∨ (c = '_' ∧ l = false ∧ DecTail true s) ∨
        (IsE c ∧ l = false ∧ ExpLoose s) ∨ (c = '.' ∧ l = false ∧ FracTail true s) := by
  constructor
  · intro h
    cases h with
    | exp h1 h2 => exact .inr (.inr (.inl ⟨h1, rfl, h2⟩))
    | digit h1 h2 => exact .inl ⟨h1, h2⟩
    | under h => exact .inr (.inl ⟨rfl, rfl, h⟩)
    | frac h => exact .inr (.inr (.inr ⟨rfl, rfl, h⟩))
  · rintro (⟨h1, h2⟩ | ⟨rfl, rfl, h⟩ | ⟨h1, rfl, h2⟩ | ⟨rfl, rfl, h⟩)
    · exact .digit h1 h2
    · exact .under h
    · exact .exp h1 h2
    · exact .frac h

theorem decimalLoop_float {ovf : Bool} {lit : Str} {span : Span} {sg : Option Sign} {s : Str} :
    ∀ {i : Nat} {acc : Int} {over last : Bool} {v : FloatVal},
    decimalLoop ovf lit span sg i s acc over last = .ok (.float v) ↔
      DecTail last s ∧ parseFloat lit span = .ok v := by
  induction s with
  | nil =>
    intro i acc over last v
    unfold decimalLoop
    simp only [decTail_nil, false_and, iff_false]
    split
    · simp [Res.bind_eq_ok]
    · split <;> simp
  | cons c cs ih =>
    intro i acc over last v
    unfold decimalLoop
    dsimp only
    rw [decTail_cons]
    by_cases hd : isDigit c = true
    · have hd10 := (isDigit_iff_digitOf c).1 hd
      have hu : c ≠ '_' := ne_under (by omega) hd10
      have he : ¬ IsE c := fun h => h.ne.1 hd10
      have hdot : c ≠ '.' := by rintro rfl; revert hd; decide
      rw [if_pos hd]
      have e : (digitOf c < 10 ∧ DecTail false cs ∨ c = '_' ∧ last = false ∧ DecTail true cs ∨
          IsE c ∧ last = false ∧ ExpLoose cs ∨ c = '.' ∧ last = false ∧ FracTail true cs) ↔
          DecTail false cs := by simp [hd10, hu, he, hdot]
      rw [e]
      split
      · exact ih
      · split <;> exact ih
    · have hd10 : ¬ digitOf c < 10 := fun h => hd ((isDigit_iff_digitOf c).2 h)
      rw [if_neg hd]
      simp only [hd10, false_and, false_or]
      by_cases h1 : c = '.'
      · subst h1
        have he : ¬ IsE '.' := by unfold IsE; decide
        simp only [if_true, he, false_and, false_or, true_and, show ¬ ('.' = '_') by decide]
        have := @validateFract_ok ovf lit span (Cur.adv i '.' cs) v
        rw [show (Cur.adv i '.' cs).i = i + 1 by simp [Cur.adv, show '.'.utf8Size = 1 by decide]]
          at this
        cases last
        · simp only [Bool.false_eq_true, if_false, Res.bind_eq_ok, Res.pure_eq, Res.ok.injEq,
            PartialValue.float.injEq, true_and]
          constructor
          · rintro ⟨w, h, rfl⟩; exact this.1 h
          · intro h; exact ⟨v, this.2 h, rfl⟩
        · simp [Res.bind_eq_ok]
      rw [if_neg h1]
      by_cases h2 : c = 'e' ∨ c = 'E'
      · rw [if_pos h2]
        have hE : IsE c := h2
        simp only [hE, hE.ne.2.1, h1, true_and, false_and, false_or, or_false]
        have := @validateFloatExponent_ok ovf lit span (Cur.adv i c cs) v
        cases last
        · simp only [Bool.false_eq_true, if_false, Res.bind_eq_ok, Res.pure_eq, Res.ok.injEq,
            PartialValue.float.injEq, true_and]
          constructor
          · rintro ⟨w, h, rfl⟩; exact this.1 h
          · intro h; exact ⟨v, this.2 h, rfl⟩
        · simp [Res.bind_eq_ok]
      rw [if_neg h2]
      have hE : ¬ IsE c := h2
      simp only [hE, h1, false_and, or_false]
      by_cases h3 : c = ':' ∧ sg = none ∧ i = 2
      · rw [if_pos h3]
        have : c ≠ '_' := by rintro rfl; revert h3; simp
        simp [this, Res.bind_eq_ok]
      rw [if_neg h3]
      by_cases h4 : c = '-' ∧ sg = none ∧ i = 4
      · rw [if_pos h4]
        have : c ≠ '_' := by rintro rfl; revert h4; simp
        simp only [this, false_and, iff_false]
        exact orInvalid_afterYear_ne.2.1 _
      rw [if_neg h4]
      by_cases h5 : c = ':' ∧ sg = none ∧ i ≤ 3
      · rw [if_pos h5]
        have : c ≠ '_' := by rintro rfl; revert h5; simp
        simp [this]
      rw [if_neg h5]
      by_cases h6 : c = '-' ∧ sg = none ∧ i ≤ 6
      · rw [if_pos h6]
        have : c ≠ '_' := by rintro rfl; revert h6; simp
        simp only [this, false_and, iff_false]
        split
        · simp
        · split <;> simp
      rw [if_neg h6]
      by_cases h7 : c = '_'
      · subst h7
        simp only [if_true, true_and]
        cases last
        · simp only [Bool.false_eq_true, if_false, true_and]
          exact ih
        · simp only [if_true, Bool.true_eq_false, false_and, iff_false]
          exact consec_ne_ok _ _ _
      · rw [if_neg h7]
        simp [h7]

/-! ## From the tails to the grammar -/

theorem fracTail_split {l : Bool} {s : Str} :
    FracTail l s ↔ ∃ u r, s = u ++ r ∧ UTail 10 l u ∧
      (r = [] ∨ ∃ e r', r = e :: r' ∧ IsE e ∧ ExpLoose r') := by
  constructor
  · intro h
    induction h with
    | stop => exact ⟨[], [], rfl, .nil, .inl rfl⟩
    | @exp e s he hs => exact ⟨[], e :: s, rfl, .nil, .inr ⟨e, s, rfl, he, hs⟩⟩
    | @digit c s l hc _ ih =>
      obtain ⟨u, r, rfl, hu, hr⟩ := ih
      exact ⟨c :: u, r, rfl, .digit hc hu, hr⟩
    | @under s _ ih =>
      obtain ⟨u, r, rfl, hu, hr⟩ := ih
      exact ⟨'_' :: u, r, rfl, .under hu, hr⟩
  · rintro ⟨u, r, rfl, hu, hr⟩
    induction hu with
    | nil =>
      rcases hr with rfl | ⟨e, r', rfl, he, hr⟩
      · exact .stop
      · exact .exp he hr
    | digit hc _ ih => exact .digit hc ih
    | under _ ih => exact .under ih

/-- Fraction or exponent, where the exponent may lack digits. -/
def FracExp (r : Str) : Prop :=
  (∃ b x, r = '.' :: (b ++ x) ∧ Digits 10 b ∧ (x = [] ∨ ∃ e x', x = e :: x' ∧ IsE e ∧ ExpLoose x')) ∨
  (∃ e x', r = e :: x' ∧ IsE e ∧ ExpLoose x')

theorem fracExp_frac {s : Str} : FracTail true s → FracExp ('.' :: s) := by
  intro h
  obtain ⟨u, r, rfl, hu, hr⟩ := fracTail_split.1 h
  exact .inl ⟨u, r, rfl, (utail_true (by omega)).1 hu, hr⟩

theorem decTail_split {l : Bool} {s : Str} :
    DecTail l s ↔ ∃ u r, s = u ++ r ∧ UTail 10 l u ∧ FracExp r := by
  constructor
  · intro h
    induction h with
    | @frac s h => exact ⟨[], '.' :: s, rfl, .nil, fracExp_frac h⟩
    | @exp e s he hs => exact ⟨[], e :: s, rfl, .nil, .inr ⟨e, s, rfl, he, hs⟩⟩
    | @digit c s l hc _ ih =>
      obtain ⟨u, r, rfl, hu, hr⟩ := ih
      exact ⟨c :: u, r, rfl, .digit hc hu, hr⟩
    | @under s _ ih =>
      obtain ⟨u, r, rfl, hu, hr⟩ := ih
      exact ⟨'_' :: u, r, rfl, .under hu, hr⟩
  · rintro ⟨u, r, rfl, hu, hr⟩
    induction hu with
    | nil =>
      rcases hr with ⟨b, x, rfl, hb, hx⟩ | ⟨e, x', rfl, he, hx⟩
      · exact .frac (fracTail_split.2 ⟨b, x, rfl, (utail_true (by omega)).2 hb, hx⟩)
      · exact .exp he hx
    | digit hc _ ih => exact .digit hc ih
    | under _ ih => exact .under ih

/-! ## The standard library's grammar -/

theorem clean_append (a b : Str) : clean (a ++ b) = clean a ++ clean b := by
  simp [clean, List.filter_append]

theorem clean_cons {c : Char} (h : c ≠ '_') (s : Str) : clean (c :: s) = c :: clean s := by
  simp [clean, h]

theorem clean_utail {l : Bool} {u : Str} (h : UTail 10 l u) : (clean u).all isDigit = true := by
  induction h with
  | nil => rfl
  | digit hc _ ih =>
    rw [clean_cons (ne_under (by omega) hc)]
    simp only [List.all_cons, ih, Bool.and_true]
    exact (isDigit_iff_digitOf _).2 hc
  | under _ ih =>
    simpa [clean] using ih

theorem clean_digits {u : Str} (h : Digits 10 u) :
    (clean u).all isDigit = true ∧ clean u ≠ [] := by
  refine ⟨clean_utail (utail_of_digits h false), ?_⟩
  cases h with
  | one hc => simp [clean_cons (ne_under (by omega) hc)]
  | digit hc _ => simp [clean_cons (ne_under (by omega) hc)]
  | under hc _ => simp [clean_cons (ne_under (by omega) hc)]

theorem spanDigits_append {a r : Str} (ha : a.all isDigit = true)
    (hr : ∀ c ∈ r.head?, isDigit c = false) : spanDigits (a ++ r) = (a, r) := by
  unfold spanDigits
  rw [List.all_eq_true] at ha
  rw [List.takeWhile_append_of_pos ha, List.dropWhile_append_of_pos ha]
  rcases r with _ | ⟨c, cs⟩
  · simp
  · have := hr c (by simp)
    simp [this]

theorem IsE.notDigit {e : Char} (h : IsE e) : isDigit e = false := by
  rcases h with rfl | rfl <;> decide

theorem stdExpOk_e {e : Char} (he : IsE e) {sign body : Str} {f : Int} (hs : SignText sign f)
    (hb : body.all isDigit = true) :
    stdExpOk (e :: (sign ++ body)) = !body.isEmpty := by
  have hcond : (e = 'e' || e = 'E') = true := by
    rcases he with rfl | rfl <;> decide
  unfold stdExpOk
  simp only [hcond, if_true]
  cases hs with
  | none =>
    rcases body with _ | ⟨d, ds⟩
    · rfl
    · have hd : isDigit d = true := by simp only [List.all_cons, Bool.and_eq_true] at hb; exact hb.1
      have : (d = '+' || d = '-') = false := by
        have h1 : d ≠ '+' := by rintro rfl; revert hd; decide
        have h2 : d ≠ '-' := by rintro rfl; revert hd; decide
        simp [h1, h2]
      simp only [List.nil_append, this, Bool.false_eq_true, if_false, hb, Bool.and_true]
  | plus => simp [hb]
  | minus => simp [hb]

/-- The exponent has digits. -/
def ExpTight (s : Str) : Prop :=
  ∃ sign f body, s = sign ++ body ∧ SignText sign f ∧ Digits 10 body

theorem clean_sign {sign : Str} {f : Int} (h : SignText sign f) : clean sign = sign := by
  cases h <;> rfl

theorem stdExpOk_loose {e : Char} {s : Str} (he : IsE e) (h : ExpLoose s) :
    stdExpOk (clean (e :: s)) = true ↔ ExpTight s := by
  obtain ⟨sign, f, body, rfl, hs, hb⟩ := h
  have hclean : clean (e :: (sign ++ body)) = e :: (sign ++ clean body) := by
    rw [clean_cons he.ne.2.1, clean_append, clean_sign hs]
  have hall : (clean body).all isDigit = true := by
    rcases hb with rfl | hb
    · rfl
    · exact (clean_digits hb).1
  rw [hclean, stdExpOk_e he hs hall]
  rcases hb with rfl | hb
  · have : ¬ ExpTight (sign ++ []) := by
      rintro ⟨sign', f', body', h, hs', hb'⟩
      rcases hb' with hc | ⟨hc, _⟩ | ⟨hc, _⟩
      all_goals
        cases hs <;> cases hs' <;> simp at h
      all_goals
        try (obtain ⟨rfl, -⟩ := h)
        try (subst h)
        try exact absurd hc (by decide)
    rw [List.append_nil] at this ⊢
    simp [clean, this]
  · have : ExpTight (sign ++ body) := ⟨sign, f, body, rfl, hs, hb⟩
    simp [this, (clean_digits hb).2]

theorem head_clean_e {e : Char} {s : Str} (he : IsE e) :
    ∀ c ∈ (clean (e :: s)).head?, isDigit c = false := by
  rw [clean_cons he.ne.2.1]
  intro c hc
  simp at hc; subst hc
  exact he.notDigit

/-- Fraction or exponent, as in the grammar. -/
def FracExpTight (r : Str) : Prop :=
  (∃ b x, r = '.' :: (b ++ x) ∧ Digits 10 b ∧ (x = [] ∨ ∃ e x', x = e :: x' ∧ IsE e ∧ ExpTight x')) ∨
  (∃ e x', r = e :: x' ∧ IsE e ∧ ExpTight x')

theorem ExpTight.loose {s : Str} (h : ExpTight s) : ExpLoose s := by
  obtain ⟨sign, f, body, h, hs, hb⟩ := h
  exact ⟨sign, f, body, h, hs, .inr hb⟩

theorem FracExpTight.loose {s : Str} (h : FracExpTight s) : FracExp s := by
  rcases h with ⟨b, x, h, hb, hx⟩ | ⟨e, x, h, he, hx⟩
  · refine .inl ⟨b, x, h, hb, ?_⟩
    rcases hx with hx | ⟨e, x', h, he, hx⟩
    · exact .inl hx
    · exact .inr ⟨e, x', h, he, hx.loose⟩
  · exact .inr ⟨e, x, h, he, hx.loose⟩

theorem stdNumberOk_dot {s a t b x : Str} (h1 : spanDigits s = (a, '.' :: t))
    (h2 : spanDigits t = (b, x)) :
    stdNumberOk s = ((!a.isEmpty || !b.isEmpty) && stdExpOk x) := by
  unfold stdNumberOk
  simp only [h1, h2]

theorem stdNumberOk_other {s a t : Str} (h1 : spanDigits s = (a, t)) (h2 : t.head? ≠ some '.') :
    stdNumberOk s = (!a.isEmpty && stdExpOk t) := by
  unfold stdNumberOk
  simp only [h1]
  split
  · simp at h2
  · rfl

theorem stdNumberOk_fracExp {a r : Str} (ha : a.all isDigit = true) (hne : a ≠ [])
    (hr : FracExp r) :
    stdNumberOk (a ++ clean r) = true ↔ FracExpTight r := by
  rcases hr with ⟨b, x, rfl, hb, hx⟩ | ⟨e, x, rfl, he, hx⟩
  · have hcl : clean ('.' :: (b ++ x)) = '.' :: (clean b ++ clean x) := by
      rw [clean_cons (by decide), clean_append]
    have hb' := clean_digits hb
    rw [hcl]
    have hhead : ∀ c ∈ (clean x).head?, isDigit c = false := by
      rcases hx with rfl | ⟨e, x', rfl, he, _⟩
      · simp [clean]
      · exact head_clean_e he
    rw [stdNumberOk_dot (spanDigits_append ha (by intro c hc; simp at hc; subst hc; decide))
      (spanDigits_append hb'.1 hhead)]
    have hor : (!a.isEmpty || !(clean b).isEmpty) = true := by simp [hne]
    simp only [hor, Bool.true_and]
    -- the decomposition is unique
    have huniq : FracExpTight ('.' :: (b ++ x)) ↔
        (x = [] ∨ ∃ e x', x = e :: x' ∧ IsE e ∧ ExpTight x') := by
      constructor
      · rintro (⟨b2, x2, h, hb2, hx2⟩ | ⟨e, x2, h, he, _⟩)
        · simp only [List.cons.injEq, true_and] at h
          have key : ∀ {u v x y : Str}, Digits 10 u → Digits 10 v → u ++ x = v ++ y →
              (∀ c ∈ x.head?, IsE c) → (∀ c ∈ y.head?, IsE c) → x = y := by
            intro u v x y hu hv h hx hy
            have e1 : ∀ {u : Str}, Digits 10 u → ∀ c ∈ u, (isDigit c || c == '_') = true := by
              intro u hu
              induction hu with
              | one hc => simp [(isDigit_iff_digitOf _).2 hc]
              | digit hc _ ih =>
                intro c' hc'
                simp only [List.mem_cons] at hc'
                rcases hc' with rfl | hc'
                · simp [(isDigit_iff_digitOf _).2 hc]
                · exact ih _ hc'
              | under hc _ ih =>
                intro c' hc'
                simp only [List.mem_cons] at hc'
                rcases hc' with rfl | rfl | hc'
                · simp [(isDigit_iff_digitOf _).2 hc]
                · simp
                · exact ih _ hc'
            have e2 : ∀ {x : Str}, (∀ c ∈ x.head?, IsE c) →
                x.dropWhile (fun c => isDigit c || c == '_') = x := by
              intro x hx
              rcases x with _ | ⟨c, cs⟩
              · rfl
              · have := hx c (by simp)
                simp [this.notDigit, this.ne.2.1]
            have := congrArg (List.dropWhile (fun c => isDigit c || c == '_')) h
            rw [List.dropWhile_append_of_pos (e1 hu), List.dropWhile_append_of_pos (e1 hv),
              e2 hx, e2 hy] at this
            exact this
          have : x = x2 := key hb hb2 h
            (by rcases hx with rfl | ⟨e, x', rfl, he, _⟩
                · simp
                · intro c hc; simp at hc; subst hc; exact he)
            (by rcases hx2 with rfl | ⟨e, x', rfl, he, _⟩
                · simp
                · intro c hc; simp at hc; subst hc; exact he)
          subst this
          exact hx2
        · simp only [List.cons.injEq] at h
          obtain ⟨rfl, -⟩ := h
          rcases he with he | he <;> exact absurd he (by decide)
      · intro h
        exact .inl ⟨b, x, rfl, hb, h⟩
    rw [huniq]
    rcases hx with rfl | ⟨e, x', rfl, he, hx⟩
    · simp [clean, stdExpOk]
    · rw [stdExpOk_loose he hx]
      simp only [reduceCtorEq, false_or]
      constructor
      · intro h; exact ⟨e, x', rfl, he, h⟩
      · rintro ⟨e2, x2, h, -, h2⟩
        simp only [List.cons.injEq] at h
        rw [h.2]; exact h2
  · rw [stdNumberOk_other (spanDigits_append ha (head_clean_e he))
      (by rw [clean_cons he.ne.2.1]; simpa using he.ne.2.2)]
    have hne' : (!a.isEmpty) = true := by simp [hne]
    rw [hne', Bool.true_and, stdExpOk_loose he hx]
    constructor
    · intro h; exact .inr ⟨e, x, rfl, he, h⟩
    · rintro (⟨b, x2, h, _⟩ | ⟨e2, x2, h, -, h2⟩)
      · simp only [List.cons.injEq] at h
        exact absurd h.1 he.ne.2.2
      · simp only [List.cons.injEq] at h
        rw [h.2]; exact h2


/-! ## Top level -/

theorem expTight_text {e : Char} {s : Str} : (IsE e ∧ ExpTight s) ↔ ExpText (e :: s) := by
  constructor
  · rintro ⟨he, sign, f, body, rfl, hs, hb⟩
    exact ⟨e, sign, f, body, rfl, he, hs, hb⟩
  · rintro ⟨e', sign, f, body, h, he, hs, hb⟩
    simp only [List.cons.injEq] at h
    obtain ⟨rfl, rfl⟩ := h
    exact ⟨he, sign, f, body, rfl, hs, hb⟩

theorem fracExpTight_iff {r : Str} :
    FracExpTight r ↔ ∃ frac exp, r = frac ++ exp ∧
      (FracText frac ∧ (exp = [] ∨ ExpText exp) ∨ frac = [] ∧ ExpText exp) := by
  constructor
  · rintro (⟨b, x, rfl, hb, hx⟩ | ⟨e, x, rfl, he, hx⟩)
    · refine ⟨'.' :: b, x, rfl, .inl ⟨⟨b, rfl, hb⟩, ?_⟩⟩
      rcases hx with rfl | ⟨e, x', rfl, he, hx⟩
      · exact .inl rfl
      · exact .inr (expTight_text.1 ⟨he, hx⟩)
    · exact ⟨[], e :: x, rfl, .inr ⟨rfl, expTight_text.1 ⟨he, hx⟩⟩⟩
  · have hE : ∀ {exp}, ExpText exp → ∃ e x, exp = e :: x ∧ IsE e ∧ ExpTight x := by
      intro exp h
      obtain ⟨e, sign, f, body, rfl, he, hs, hb⟩ := h
      exact ⟨e, _, rfl, he, sign, f, body, rfl, hs, hb⟩
    rintro ⟨frac, exp, rfl, ⟨⟨b, rfl, hb⟩, hx⟩ | ⟨rfl, hx⟩⟩
    · refine .inl ⟨b, exp, rfl, hb, ?_⟩
      rcases hx with rfl | hx
      · exact .inl rfl
      · exact .inr (hE hx)
    · obtain ⟨e, x, rfl, he, hx⟩ := hE hx
      exact .inr ⟨e, x, rfl, he, hx⟩

/-- The unsigned part of a float. -/
def UnsignedFloat (s : Str) : Prop := ∃ ip r, s = ip ++ r ∧ UnsignedDec ip ∧ FracExpTight r

theorem unsignedDec_clean {ip : Str} (h : UnsignedDec ip) :
    (clean ip).all isDigit = true ∧ clean ip ≠ [] := clean_digits h.1

theorem isDigit19_digit {c : Char} (h : isDigit19 c = true) : digitOf c < 10 ∧ c ≠ '0' :=
  (isDigit19_iff c).1 h

/-- The number behind an optional sign, in terms of `stdNumberOk`. -/
theorem unsignedFloat_iff {c : Char} {cs : Str} :
    UnsignedFloat (c :: cs) ↔
      ((c = '0' ∧ FracExp cs) ∨ (isDigit19 c = true ∧ DecTail false cs)) ∧
        stdNumberOk (clean (c :: cs)) = true := by
  constructor
  · rintro ⟨ip, r, h, hip, hr⟩
    have hcl := unsignedDec_clean hip
    refine ⟨?_, ?_⟩
    · rcases ip with _ | ⟨d, ds⟩
      · exact absurd hip unsignedDec_ne_nil
      simp only [List.cons_append, List.cons.injEq] at h
      obtain ⟨rfl, rfl⟩ := h
      rw [unsignedDec_cons] at hip
      rcases hip with ⟨rfl, rfl⟩ | ⟨h19, hu⟩
      · exact .inl ⟨rfl, hr.loose⟩
      · exact .inr ⟨h19, decTail_split.2 ⟨ds, r, rfl, hu, hr.loose⟩⟩
    · rw [h, clean_append]
      exact (stdNumberOk_fracExp hcl.1 hcl.2 hr.loose).2 hr
  · rintro ⟨h, hok⟩
    rcases h with ⟨rfl, hr⟩ | ⟨h19, hr⟩
    · have hip : UnsignedDec ['0'] := by rw [unsignedDec_cons]; exact .inl ⟨rfl, rfl⟩
      refine ⟨['0'], cs, rfl, hip, ?_⟩
      have hcl := unsignedDec_clean hip
      rw [show '0' :: cs = ['0'] ++ cs from rfl, clean_append] at hok
      exact (stdNumberOk_fracExp hcl.1 hcl.2 hr).1 hok
    · obtain ⟨u, r, rfl, hu, hr⟩ := decTail_split.1 hr
      have hip : UnsignedDec (c :: u) := by rw [unsignedDec_cons]; exact .inr ⟨h19, hu⟩
      refine ⟨c :: u, r, rfl, hip, ?_⟩
      have hcl := unsignedDec_clean hip
      rw [show c :: (u ++ r) = (c :: u) ++ r from rfl, clean_append] at hok
      exact (stdNumberOk_fracExp hcl.1 hcl.2 hr).1 hok

theorem floatText_iff {lit : Str} :
    FloatText lit ↔ ∃ sign f s, lit = sign ++ s ∧ SignText sign f ∧ UnsignedFloat s := by
  constructor
  · rintro ⟨n, ip, frac, exp, rfl, ⟨sign, f, body, rfl, hs, hu, -⟩, h⟩
    refine ⟨sign, f, body ++ (frac ++ exp), by simp, hs, body, frac ++ exp, rfl, hu, ?_⟩
    exact fracExpTight_iff.2 ⟨frac, exp, rfl, h⟩
  · rintro ⟨sign, f, s, rfl, hs, ip, r, rfl, hu, hr⟩
    obtain ⟨frac, exp, rfl, h⟩ := fracExpTight_iff.1 hr
    exact ⟨_, sign ++ ip, frac, exp, by simp, ⟨sign, f, ip, rfl, hs, hu, rfl⟩, h⟩

theorem unsignedFloat_ne_nil : ¬ UnsignedFloat [] := by
  rintro ⟨ip, r, h, hip, -⟩
  simp only [List.nil_eq, List.append_eq_nil_iff] at h
  rw [h.1] at hip
  exact unsignedDec_ne_nil hip

theorem unsignedFloat_head {c : Char} {cs : Str} (h : UnsignedFloat (c :: cs)) :
    c = '0' ∨ isDigit19 c = true := by
  rcases (unsignedFloat_iff.1 h).1 with ⟨h, -⟩ | ⟨h, -⟩
  · exact .inl h
  · exact .inr h

theorem floatText_cons {c : Char} {cs : Str} :
    FloatText (c :: cs) ↔
      ((c = '+' ∨ c = '-') ∧ UnsignedFloat cs) ∨ UnsignedFloat (c :: cs) := by
  rw [floatText_iff]
  constructor
  · rintro ⟨sign, f, s, h, hs, hu⟩
    cases hs with
    | none => simp only [List.nil_append] at h; subst h; exact .inr hu
    | plus =>
      simp only [List.cons_append, List.nil_append, List.cons.injEq] at h
      obtain ⟨rfl, rfl⟩ := h; exact .inl ⟨.inl rfl, hu⟩
    | minus =>
      simp only [List.cons_append, List.nil_append, List.cons.injEq] at h
      obtain ⟨rfl, rfl⟩ := h; exact .inl ⟨.inr rfl, hu⟩
  · rintro (⟨rfl | rfl, hu⟩ | hu)
    · exact ⟨['+'], _, cs, rfl, .plus, hu⟩
    · exact ⟨['-'], _, cs, rfl, .minus, hu⟩
    · exact ⟨[], _, c :: cs, rfl, .none, hu⟩

theorem fracExp_cons {c : Char} {cs : Str} :
    FracExp (c :: cs) ↔ (c = '.' ∧ FracTail true cs) ∨ (IsE c ∧ ExpLoose cs) := by
  constructor
  · rintro (⟨b, x, h, hb, hx⟩ | ⟨e, x, h, he, hx⟩)
    · simp only [List.cons.injEq] at h
      obtain ⟨rfl, rfl⟩ := h
      exact .inl ⟨rfl, fracTail_split.2 ⟨b, x, rfl, (utail_true (by omega)).2 hb, hx⟩⟩
    · simp only [List.cons.injEq] at h
      obtain ⟨rfl, rfl⟩ := h
      exact .inr ⟨he, hx⟩
  · rintro (⟨rfl, h⟩ | ⟨he, h⟩)
    · exact fracExp_frac h
    · exact .inr ⟨c, cs, rfl, he, h⟩

theorem fracExp_nil : ¬ FracExp [] := by
  rintro (⟨b, x, h, -⟩ | ⟨e, x, h, -⟩) <;> simp at h

theorem parsePrefixed_float {ovf : Bool} {cur : Cur} {lit : Str} {span : Span} {sg : Option Sign}
    {v : FloatVal} :
    parsePrefixedIntFloatOrDate ovf cur lit span sg = .ok (.float v) ↔
      FracExp cur.rest ∧ parseFloat lit span = .ok v := by
  unfold parsePrefixedIntFloatOrDate
  rcases cur with ⟨i, _ | ⟨c, cs⟩⟩
  · simp [fracExp_nil]
  dsimp only
  rw [fracExp_cons]
  cases hr : radixOf c with
  | some pre =>
    dsimp only
    have h1 : c ≠ '.' := by rintro rfl; revert hr; simp [radixOf]
    have h2 : ¬ IsE c := by rintro (rfl | rfl) <;> (revert hr; simp [radixOf])
    simp only [h1, h2, false_and, or_self, iff_false]
    split
    · simp
    split
    · simp
    · simp [Res.bind_eq_ok]
  | none =>
    dsimp only
    by_cases h1 : c = '.'
    · subst h1
      have he : ¬ IsE '.' := by unfold IsE; decide
      have := @validateFract_ok ovf lit span (Cur.adv i '.' cs) v
      rw [show (Cur.adv i '.' cs).i = i + 1 by simp [Cur.adv, show '.'.utf8Size = 1 by decide]]
        at this
      simp only [if_true, he, false_and, or_false, true_and, Res.bind_eq_ok, Res.pure_eq,
        Res.ok.injEq, PartialValue.float.injEq]
      constructor
      · rintro ⟨w, h, rfl⟩; exact this.1 h
      · intro h; exact ⟨v, this.2 h, rfl⟩
    rw [if_neg h1]
    by_cases h2 : c = 'e' ∨ c = 'E'
    · rw [if_pos h2]
      have hE : IsE c := h2
      have := @validateFloatExponent_ok ovf lit span (Cur.adv i c cs) v
      simp only [hE, h1, false_and, false_or, true_and, Res.bind_eq_ok, Res.pure_eq,
        Res.ok.injEq, PartialValue.float.injEq]
      constructor
      · rintro ⟨w, h, rfl⟩; exact this.1 h
      · intro h; exact ⟨v, this.2 h, rfl⟩
    rw [if_neg h2]
    have hE : ¬ IsE c := h2
    simp only [hE, h1, false_and, or_self, iff_false]
    split
    · exact continueParsingDateTime_ne.2.1 _
    split
    · simp
    split <;> simp

theorem parseDecimal_float {ovf : Bool} {cur : Cur} {lit : Str} {span : Span} {sg : Option Sign}
    {acc : Int} {v : FloatVal} :
    parseDecimalIntFloatOrDate ovf cur lit span acc sg = .ok (.float v) ↔
      DecTail false cur.rest ∧ parseFloat lit span = .ok v := by
  unfold parseDecimalIntFloatOrDate
  exact decimalLoop_float

theorem bareLoop_ok {span : Span} {ex : Str} {s : Str} : ∀ {i : Nat} {e : Str},
    bareLoop span ex i s e = .ok () ↔ s = e := by
  induction s with
  | nil => intro i e; rcases e with _ | ⟨d, ds⟩ <;> simp [bareLoop]
  | cons c cs ih =>
    intro i e
    rcases e with _ | ⟨d, ds⟩
    · simp [bareLoop]
    · unfold bareLoop
      by_cases h : c = d
      · rw [if_pos h, ih]; simp [h]
      · rw [if_neg h]
        split <;> simp [h]

theorem parseBareLiteral_ok {cur : Cur} {span : Span} {i : Nat} {first : Char} {ex : Str}
    {u : Unit} :
    parseBareLiteral cur span i first ex = .ok u ↔
      ¬ ('A' ≤ first ∧ first ≤ 'Z') ∧ cur.rest = ex.drop 1 := by
  unfold parseBareLiteral
  split
  · rename_i h; simp [h]
  · rename_i h; rw [bareLoop_ok]; simp [h]

theorem stdF64Ok_sign {c : Char} (hc : c = '+' ∨ c = '-') (cs : Str) :
    stdF64Ok (clean (c :: cs)) = stdNumberOk (clean cs) := by
  rcases hc with rfl | rfl
  · rw [clean_cons (by decide)]; rfl
  · rw [clean_cons (by decide)]; rfl

theorem stdF64Ok_digit {c : Char} (hc : digitOf c < 10) (cs : Str) :
    stdF64Ok (clean (c :: cs)) = stdNumberOk (clean (c :: cs)) := by
  rw [clean_cons (ne_under (by omega) hc)]
  have h1 : c ≠ '+' := by rintro rfl; revert hc; decide
  have h2 : c ≠ '-' := by rintro rfl; revert hc; decide
  unfold stdF64Ok
  split
  · rename_i h; simp only [List.cons.injEq] at h; exact absurd h.1 h1
  · rename_i h; simp only [List.cons.injEq] at h; exact absurd h.1 h2
  · rfl

theorem parseSigned_float {ovf : Bool} {cs : Str} {span : Span} {c : Char} {sign : Sign} {i : Nat}
    {v : FloatVal} (hc : c = '+' ∨ c = '-') :
    parseSigned ovf (c :: cs) span c sign ⟨i, cs⟩ = .ok (.float v) ↔
      (UnsignedFloat cs ∧ v = .parsed (clean (c :: cs))) ∨
      ((cs = "inf".toList ∨ cs = "Inf".toList) ∧ v = .inf (sign = .negative)) ∨
      ((cs = "nan".toList ∨ cs = "Nan".toList) ∧ v = .nan (sign = .negative)) := by
  unfold parseSigned
  rcases cs with _ | ⟨d, ds⟩
  · simp [unsignedFloat_ne_nil]
  dsimp only
  have hcu : ¬ ('A' ≤ c ∧ c ≤ 'Z') := by rcases hc with rfl | rfl <;> decide
  simp only [String.reduceToList, List.cons.injEq]
  by_cases h0 : d = '0'
  · subst h0
    rw [if_pos rfl, parsePrefixed_float, parseFloat_ok, stdF64Ok_sign hc, unsignedFloat_iff]
    simp [Cur.adv, isDigit19, and_assoc]
  rw [if_neg h0]
  by_cases h19 : isDigit19 d = true
  · rw [if_pos h19, parseDecimal_float, parseFloat_ok, stdF64Ok_sign hc, unsignedFloat_iff]
    have hd := (isDigit19_iff d).1 h19
    have h1 : d ≠ 'i' ∧ d ≠ 'I' ∧ d ≠ 'n' ∧ d ≠ 'N' := by
      refine ⟨?_, ?_, ?_, ?_⟩ <;> (rintro rfl; revert h19; decide)
    simp [Cur.adv, h0, h19, h1, and_assoc]
  rw [if_neg h19]
  have hu : ¬ UnsignedFloat (d :: ds) := by
    intro h
    rcases unsignedFloat_head h with h | h
    · exact h0 h
    · exact h19 h
  simp only [hu, false_and, false_or]
  by_cases hi : d = 'i' ∨ d = 'I'
  · rw [if_pos hi]
    simp only [Res.bind_eq_ok, parseBareLiteral_ok, hcu, not_false_eq_true, true_and, Cur.adv,
      Res.pure_eq, Res.ok.injEq, PartialValue.float.injEq, List.drop_one, List.tail_cons]
    have hn : d ≠ 'n' ∧ d ≠ 'N' := by rcases hi with rfl | rfl <;> decide
    constructor
    · rintro ⟨-, rfl, rfl⟩
      exact .inl ⟨by rcases hi with rfl | rfl <;> simp, rfl⟩
    · rintro (⟨h, rfl⟩ | ⟨h, -⟩)
      · exact ⟨(), by rcases h with h | h <;> exact h.2, rfl⟩
      · rcases h with h | h
        · exact absurd h.1 hn.1
        · exact absurd h.1 hn.2
  rw [if_neg hi]
  by_cases hn : d = 'n' ∨ d = 'N'
  · rw [if_pos hn]
    simp only [Res.bind_eq_ok, parseBareLiteral_ok, hcu, not_false_eq_true, true_and, Cur.adv,
      Res.pure_eq, Res.ok.injEq, PartialValue.float.injEq, List.drop_one, List.tail_cons]
    constructor
    · rintro ⟨-, rfl, rfl⟩
      exact .inr ⟨by rcases hn with rfl | rfl <;> simp, rfl⟩
    · rintro (⟨h, -⟩ | ⟨h, rfl⟩)
      · exact absurd (h.imp And.left And.left) hi
      · exact ⟨(), by rcases h with h | h <;> exact h.2, rfl⟩
  rw [if_neg hn]
  have : ¬ ((d = 'i' ∧ ds = ['n', 'f'] ∨ d = 'I' ∧ ds = ['n', 'f'])) :=
    fun h => hi (h.imp And.left And.left)
  have : ¬ ((d = 'n' ∧ ds = ['a', 'n'] ∨ d = 'N' ∧ ds = ['a', 'n'])) :=
    fun h => hn (h.imp And.left And.left)
  simp only [*, false_and, or_self, iff_false]
  split <;> simp

/-- **Floats**: exactly the float texts of the grammar, and the special values, among which the
code also accepts a capital first letter behind a sign. -/
theorem parseLiteral_float {ovf : Bool} {lit : Str} {span : Span} {v : FloatVal} :
    parseLiteral ovf lit span = .ok (.float v) ↔
      (FloatText lit ∧ v = .parsed (clean lit)) ∨
      (∃ f, SpecialFloat "inf".toList lit f ∧ v = .inf (f < 0)) ∨
      (∃ f, SpecialFloat "nan".toList lit f ∧ v = .nan (f < 0)) ∨
      (lit = "+Inf".toList ∧ v = .inf false) ∨ (lit = "-Inf".toList ∧ v = .inf true) ∨
      (lit = "+Nan".toList ∧ v = .nan false) ∨ (lit = "-Nan".toList ∧ v = .nan true) := by
  have hsp : ∀ (w : Str) (P : Bool → Prop), (∃ f, SpecialFloat w lit f ∧ P (f < 0)) ↔
      (lit = w ∧ P false) ∨ (lit = '+' :: w ∧ P false) ∨ (lit = '-' :: w ∧ P true) := by
    intro w P
    constructor
    · rintro ⟨f, ⟨sign, rfl, hs⟩, hp⟩
      cases hs with
      | none => exact .inl ⟨rfl, by simpa using hp⟩
      | plus => exact .inr (.inl ⟨rfl, by simpa using hp⟩)
      | minus => exact .inr (.inr ⟨rfl, by simpa using hp⟩)
    · rintro (⟨rfl, hp⟩ | ⟨rfl, hp⟩ | ⟨rfl, hp⟩)
      · exact ⟨1, ⟨[], rfl, .none⟩, by simpa using hp⟩
      · exact ⟨1, ⟨['+'], rfl, .plus⟩, by simpa using hp⟩
      · exact ⟨-1, ⟨['-'], rfl, .minus⟩, by simpa using hp⟩
  rw [hsp "inf".toList (fun b => v = .inf b), hsp "nan".toList (fun b => v = .nan b)]
  simp only [String.reduceToList]
  unfold parseLiteral
  rcases lit with _ | ⟨c, cs⟩
  · have : ¬ FloatText [] := by
      rw [floatText_iff]
      rintro ⟨sign, f, s, h, -, hu⟩
      simp only [List.nil_eq, List.append_eq_nil_iff] at h
      rw [h.2] at hu
      exact unsignedFloat_ne_nil hu
    simp [this]
  dsimp only
  rw [floatText_cons]
  simp only [List.cons.injEq]
  by_cases hp : c = '+'
  · subst hp
    rw [if_pos rfl]
    unfold Cur.adv
    rw [parseSigned_float (.inl rfl)]
    have h1 : ¬ UnsignedFloat ('+' :: cs) := fun h => by
      have := unsignedFloat_head h; revert this; decide
    simp only [h1, String.reduceToList, reduceCtorEq, decide_false, true_or, true_and, or_false,
      Char.reduceEq, false_and, false_or]
    constructor
    · rintro (h | ⟨h | h, rfl⟩ | ⟨h | h, rfl⟩) <;> simp [h]
    · rintro (h | h | h | h | h) <;> simp [h]
  rw [if_neg hp]
  by_cases hm : c = '-'
  · subst hm
    rw [if_pos rfl]
    unfold Cur.adv
    rw [parseSigned_float (.inr rfl)]
    have h1 : ¬ UnsignedFloat ('-' :: cs) := fun h => by
      have := unsignedFloat_head h; revert this; decide
    simp only [h1, String.reduceToList, decide_true, or_true, true_and, or_false,
      Char.reduceEq, false_and, false_or]
    constructor
    · rintro (h | ⟨h | h, rfl⟩ | ⟨h | h, rfl⟩) <;> simp [h]
    · rintro (h | h | h | h | h) <;> simp [h]
  rw [if_neg hm]
  simp only [hp, hm, false_and, false_or, or_false]
  by_cases h0 : c = '0'
  · subst h0
    rw [if_pos rfl, parsePrefixed_float, parseFloat_ok, stdF64Ok_digit (by decide),
      unsignedFloat_iff]
    simp [Cur.adv, isDigit19, and_assoc]
  rw [if_neg h0]
  by_cases h19 : isDigit19 c = true
  · have hd := (isDigit19_iff c).1 h19
    rw [if_pos h19, parseDecimal_float, parseFloat_ok, stdF64Ok_digit hd.1, unsignedFloat_iff]
    have h1 : c ≠ 'i' ∧ c ≠ 'n' := by
      refine ⟨?_, ?_⟩ <;> (rintro rfl; revert h19; decide)
    simp [Cur.adv, h0, h19, h1, and_assoc]
  rw [if_neg h19]
  have hu : ¬ UnsignedFloat (c :: cs) := by
    intro h
    rcases unsignedFloat_head h with h | h
    · exact h0 h
    · exact h19 h
  simp only [hu, false_and, false_or]
  by_cases h1 : c = 'f' ∨ c = 'F'
  · rw [if_pos h1]
    have : c ≠ 'i' ∧ c ≠ 'n' := by rcases h1 with rfl | rfl <;> decide
    simp [Res.bind_eq_ok, this]
  rw [if_neg h1]
  by_cases h2 : c = 't' ∨ c = 'T'
  · rw [if_pos h2]
    have : c ≠ 'i' ∧ c ≠ 'n' := by rcases h2 with rfl | rfl <;> decide
    simp [Res.bind_eq_ok, this]
  rw [if_neg h2]
  by_cases h3 : c = 'i' ∨ c = 'I'
  · rw [if_pos h3]
    simp only [Res.bind_eq_ok, parseBareLiteral_ok, Cur.adv,
      Res.pure_eq, Res.ok.injEq, PartialValue.float.injEq, List.drop_one, List.tail_cons]
    rcases h3 with rfl | rfl
    · simp [eq_comm, show ¬ ('i' : Char) ≤ 'Z' by decide]
    · simp [show ('A' : Char) ≤ 'I' by decide, show ('I' : Char) ≤ 'Z' by decide]
  rw [if_neg h3]
  by_cases h4 : c = 'n' ∨ c = 'N'
  · rw [if_pos h4]
    simp only [Res.bind_eq_ok, parseBareLiteral_ok, Cur.adv,
      Res.pure_eq, Res.ok.injEq, PartialValue.float.injEq, List.drop_one, List.tail_cons]
    rcases h4 with rfl | rfl
    · simp [eq_comm, show ¬ ('n' : Char) ≤ 'Z' by decide]
    · simp [show ('A' : Char) ≤ 'N' by decide, show ('N' : Char) ≤ 'Z' by decide]
  rw [if_neg h4]
  have hi : c ≠ 'i' := fun h => h3 (.inl h)
  have hn : c ≠ 'n' := fun h => h4 (.inl h)
  simp only [hi, hn, false_and, or_self, iff_false]
  split <;> simp

end Verif.Toml
