import Verif.Toml.LitTruth
import Verif.Toml.FloatLemmas
import Verif.Toml.OvfLemmas

/-!
# The diagnostics about numbers are right
-/

namespace Verif.Toml
open Verif Verif.Spec.Toml

variable {lit : Str} {p : Pos}

/-- The prefix `a` has the shape `S`, and `last` says if it ends with an underscore. -/
structure Und (S : Str → Prop) (a : Str) (last : Bool) : Prop where
  shape : S a
  no : last = false → a.getLast? ≠ some '_'
  yes : last = true → ∃ a', a = a' ++ ['_'] ∧ a'.getLast? ≠ some '_' ∧ S a'

theorem Und.digit {S : Str → Prop} {a : Str} {c : Char} (h : S (a ++ [c])) (hc : Dig c) :
    Und S (a ++ [c]) false := by
  refine ⟨h, fun _ => ?_, by simp⟩
  simp only [List.getLast?_concat, ne_eq, Option.some.injEq]
  rintro rfl
  revert hc; unfold Dig; decide

theorem Und.under {S : Str → Prop} {a : Str} (h : Und S a false) (hs : S (a ++ ['_'])) :
    Und S (a ++ ['_']) true := ⟨hs, by simp, fun _ => ⟨a, rfl, h.no rfl, h.shape⟩⟩

theorem leading_split (s : Str) : ∃ b, s = List.replicate (leadingUnderscores s) '_' ++ b ∧
    b.head? ≠ some '_' := by
  induction s with
  | nil => exact ⟨[], rfl, by simp⟩
  | cons c cs ih =>
    unfold leadingUnderscores
    split
    · rename_i hc
      subst hc
      obtain ⟨b, hb, hh⟩ := ih
      refine ⟨b, ?_, hh⟩
      rw [List.replicate_succ, List.cons_append, ← hb]
    · rename_i hc
      exact ⟨c :: cs, rfl, by simpa using hc⟩

theorem blen_unders (n : Nat) : blen (List.replicate n '_') = n := by
  induction n with
  | zero => rfl
  | succ n ih =>
    rw [List.replicate_succ, blen_cons, ih, show '_'.utf8Size = 1 by decide]; omega

theorem consec_right {α : Type} {S : Str → Prop} {a s : Str} (h : Und S a true)
    (hl : lit = a ++ '_' :: s) :
    Safe (Right lit p) (consecutiveUnderscoreError s
      ((Span.fromPosLen p (blen lit)).start.plus (blen a - 1)) : Res Error α) := by
  obtain ⟨a', rfl, hn, -⟩ := h.yes rfl
  obtain ⟨b, hb, hh⟩ := leading_split s
  unfold consecutiveUnderscoreError
  have e : ['_'] ++ '_' :: List.replicate (leadingUnderscores s) '_' =
      List.replicate (2 + leadingUnderscores s) '_' := by
    rw [Nat.add_comm]; rfl
  refine Safe.err ⟨a', 2 + leadingUnderscores s, b, ?_, by omega, hn, hh, ?_⟩
  · rw [← e, hl]
    conv => lhs; rw [hb]
    simp
  · have e1 : blen (a' ++ ['_']) - 1 = blen a' := by simp [show '_'.utf8Size = 1 by decide]
    rw [e1]
    simp [behind, Pos.plus, Span.fromPosLen, blen_unders]
    omega

theorem minus_right {ovf : Bool} {a : Str} {q : Pos} (hq : q = behind p (a ++ ['_'])) :
    posMinus ovf q 1 = .ok (behind p a) := by
  subst hq
  rw [posMinus_ok (by simp [behind, show '_'.utf8Size = 1 by decide]; omega)]
  simp [behind, Pos.minus, show '_'.utf8Size = 1 by decide]

/-! ### What is behind a digit -/

theorem digsU_snoc {s : Str} {c : Char} (h : DigsU s) (hc : Dig c ∨ c = '_') : DigsU (s ++ [c]) := by
  intro x hx
  rcases List.mem_append.1 hx with hx | hx
  · exact h x hx
  · rw [List.mem_singleton.1 hx]; exact hc

theorem intPart_snoc {a : Str} {c : Char} (h : IntPart a) (hc : Dig c ∨ c = '_') :
    IntPart (a ++ [c]) := by
  obtain ⟨sg, d, ds, rfl, h1, h2, h3⟩ := h
  exact ⟨sg, d, ds ++ [c], by simp, h1, h2, digsU_snoc h3 hc⟩

theorem clean_digsU {s : Str} (h : DigsU s) : (clean s).all isDigit = true := by
  rw [List.all_eq_true]
  intro c hc
  simp only [clean, List.mem_filter] at hc
  rcases h c hc.1 with h | rfl
  · exact h
  · simp at hc

theorem dig_ne_under {c : Char} (h : Dig c) : c ≠ '_' := by
  rintro rfl; revert h; unfold Dig; decide

theorem dig_ne_sign {c : Char} (h : Dig c) : c ≠ '+' ∧ c ≠ '-' := by
  constructor <;> (rintro rfl; revert h; unfold Dig; decide)

/-- The standard library reads the number if what follows the integer is fine. -/
theorem std_int {x r : Str} (hx : IntPart x) (hr : ∀ c ∈ (clean r).head?, isDigit c = false)
    (hok : (∃ fr ex, clean r = '.' :: (fr ++ ex) ∧ fr.all isDigit = true ∧
        (∀ c ∈ ex.head?, isDigit c = false) ∧ stdExpOk ex = true) ∨
      ((clean r).head? ≠ some '.' ∧ stdExpOk (clean r) = true)) :
    stdF64Ok (clean (x ++ r)) = true := by
  obtain ⟨sg, d, ds, rfl, h1, h2, h3⟩ := hx
  have key : stdNumberOk (d :: clean ds ++ clean r) = true := by
    have hall : (d :: clean ds).all isDigit = true := by
      rw [List.all_cons, clean_digsU h3, Bool.and_true]; exact h2
    unfold stdNumberOk
    rw [spanDigits_append hall hr]
    rcases hok with ⟨fr, ex, e, hf, he, ho⟩ | ⟨hne, ho⟩
    · simp only [e, spanDigits_append hf he, ho]; simp
    · dsimp only
      split
      · rename_i s heq
        exact absurd (by rw [heq]; rfl) hne
      · simp [ho]
  have hd := dig_ne_under h2
  have hs := dig_ne_sign h2
  rcases h1 with rfl | rfl | rfl
  · have e : clean ([] ++ d :: ds ++ r) = d :: clean ds ++ clean r := by
      rw [List.nil_append, List.cons_append, clean_cons hd, clean_append]; rfl
    rw [e]
    unfold stdF64Ok
    split
    · rename_i h; simp at h; exact absurd h.1 hs.1
    · rename_i h; simp at h; exact absurd h.1 hs.2
    · exact key
  · have e : clean (['+'] ++ d :: ds ++ r) = '+' :: (d :: clean ds ++ clean r) := by
      rw [List.append_assoc, List.cons_append, List.nil_append, clean_cons (by decide),
        List.cons_append, clean_cons hd, clean_append]; rfl
    rw [e]
    exact key
  · have e : clean (['-'] ++ d :: ds ++ r) = '-' :: (d :: clean ds ++ clean r) := by
      rw [List.append_assoc, List.cons_append, List.nil_append, clean_cons (by decide),
        List.cons_append, clean_cons hd, clean_append]; rfl
    rw [e]
    exact key

theorem std_fract {x y : Str} (hx : IntPart x) (hy : DigsU y) : stdF64Ok (clean (x ++ '.' :: y)) = true := by
  refine std_int hx ?_ (.inl ⟨clean y, [], ?_, clean_digsU hy, by simp, rfl⟩)
  · rw [clean_cons (by decide)]; intro c hc; simp at hc; subst hc; decide
  · rw [clean_cons (by decide)]; simp

theorem optSign_text {s : Str} (h : OptSign s) : ∃ f, SignText s f := by
  rcases h with rfl | rfl | rfl
  · exact ⟨_, .none⟩
  · exact ⟨_, .plus⟩
  · exact ⟨_, .minus⟩

theorem std_exp {x sg y : Str} {e d : Char} (hx : IntPart x ∨ FractPart x) (he : e = 'e' ∨ e = 'E')
    (hs : OptSign sg) (hd : Dig d) (hy : DigsU y) :
    stdF64Ok (clean (x ++ e :: (sg ++ d :: y))) = true := by
  obtain ⟨f, hf⟩ := optSign_text hs
  have hE : IsE e := he
  have ec : clean (e :: (sg ++ d :: y)) = e :: (sg ++ d :: clean y) := by
    rw [clean_cons hE.ne.2.1, clean_append, clean_sign hf, clean_cons (dig_ne_under hd)]
  have eok : stdExpOk (e :: (sg ++ d :: clean y)) = true := by
    rw [stdExpOk_e hE hf (by rw [List.all_cons, clean_digsU hy, Bool.and_true]; exact hd)]
    rfl
  rcases hx with hx | ⟨x, y', rfl, hx, hy'⟩
  · refine std_int hx (head_clean_e hE) (.inr ⟨?_, by rw [ec]; exact eok⟩)
    rw [ec]; simp [hE.ne.2.2]
  · rw [List.append_assoc, List.cons_append]
    refine std_int hx ?_ (.inl ⟨clean y', e :: (sg ++ d :: clean y), ?_, clean_digsU hy', ?_, eok⟩)
    · rw [clean_cons (by decide)]; intro c hc; simp at hc; subst hc; decide
    · rw [clean_cons (by decide), clean_append, ec]
    · intro c hc; simp at hc; subst hc; exact hE.notDigit

/-! ### Floats -/

theorem float_ok {t : Str} {span : Span} {P : Error → Prop} (h : stdF64Ok (clean t) = true) :
    Safe P (parseFloat t span) := by
  unfold parseFloat
  dsimp only
  rw [show t.filter (· != '_') = clean t from rfl, if_pos h]
  exact Safe.ok _

/-- The prefixes `x ++ e :: (sg ++ y)`. -/
def ExpShape (x : Str) (e : Char) (sg : Str) (a : Str) : Prop :=
  ∃ y, a = x ++ e :: (sg ++ y) ∧ (y = [] ∨ ∃ d y', y = d :: y' ∧ Dig d ∧ DigsU y')

theorem ExpShape.part {x sg a : Str} {e : Char} (hx : IntPart x ∨ FractPart x) (he : e = 'e' ∨ e = 'E')
    (hs : OptSign sg) (h : ExpShape x e sg a) : ExpPart a := by
  obtain ⟨y, rfl, hy⟩ := h
  refine ⟨x, e, sg, y, rfl, hx, he, hs, ?_⟩
  rcases hy with rfl | ⟨d, y', rfl, hd, hy'⟩
  · intro c hc; cases hc
  · intro c hc
    rcases List.mem_cons.1 hc with rfl | hc
    · exact .inl hd
    · exact hy' c hc

theorem ExpShape.snoc {x sg a : Str} {e c : Char} (h : ExpShape x e sg a)
    (hc : Dig c ∨ c = '_' ∧ a ≠ x ++ e :: sg) : ExpShape x e sg (a ++ [c]) := by
  obtain ⟨y, rfl, hy⟩ := h
  refine ⟨y ++ [c], by simp, .inr ?_⟩
  rcases hy with rfl | ⟨d, y', rfl, hd, hy'⟩
  · rcases hc with hc | ⟨-, hc⟩
    · exact ⟨c, [], rfl, hc, by intro _ h; cases h⟩
    · simp at hc
  · exact ⟨d, y' ++ [c], rfl, hd, digsU_snoc hy' (hc.imp id And.left)⟩

theorem expLoop_right {ovf : Bool} {x sg : Str} {e : Char} (hx : IntPart x ∨ FractPart x)
    (he : e = 'e' ∨ e = 'E') (hs : OptSign sg) : ∀ (s a : Str) (first last : Bool),
    lit = a ++ s → Und (ExpShape x e sg) a last → (first = true ↔ a = x ++ e :: sg) →
    (a = x ++ [e] → s.head? ≠ some '+' ∧ s.head? ≠ some '-') →
    Safe (Right lit p) (floatExpLoop ovf lit (Span.fromPosLen p (blen lit)) (blen a) s first last) := by
  intro s
  induction s with
  | nil =>
    intro a first last hl hu hfirst hsg
    rw [List.append_nil] at hl
    unfold floatExpLoop
    split
    · rename_i hlast
      obtain ⟨a', rfl, -, hS⟩ := hu.yes hlast
      rw [minus_right (a := a') (p := p) (by rw [behind_stop, hl])]
      exact Safe.err ⟨a', [], hl, rfl, hS.part hx he hs, rfl⟩
    · obtain ⟨y, rfl, hy⟩ := hu.shape
      rcases hy with rfl | ⟨d, y', rfl, hd, hy'⟩
      · unfold parseFloat
        dsimp only
        split
        · exact Safe.ok _
        · exact Safe.err ⟨rfl, x, e, sg, by simpa using hl, hx, he, hs⟩
      · exact float_ok (by rw [hl]; exact std_exp hx he hs hd hy')
  | cons c cs ih =>
    intro a first last hl hu hfirst hsg
    unfold floatExpLoop
    have hlen : blen a + c.utf8Size = blen (a ++ [c]) := by simp
    have hne : ∀ z, a ++ [c] = x ++ e :: sg → Dig z → z = c ∨ True := fun _ _ _ => .inr trivial
    rw [hlen]
    have hstep : ∀ last', Und (ExpShape x e sg) (a ++ [c]) last' → (Dig c ∨ c = '_' ∧ a ≠ x ++ e :: sg) →
        Safe (Right lit p) (floatExpLoop ovf lit (Span.fromPosLen p (blen lit)) (blen (a ++ [c])) cs
          false last') := by
      intro last' hu' hc
      have hnot : a ++ [c] ≠ x ++ e :: sg := by
        obtain ⟨y, hy, -⟩ := hu.shape
        rw [hy]
        intro h
        have := congrArg List.length h
        simp at this
      have hnot2 : a ++ [c] ≠ x ++ [e] := by
        obtain ⟨y, hy, -⟩ := hu.shape
        rw [hy]
        intro h
        have := congrArg List.length h
        simp at this
      exact ih _ _ _ (by simp [hl]) hu' (by simp [hnot]) (fun h => absurd h hnot2)
    split
    · rename_i hd
      exact hstep _ (Und.digit (hu.shape.snoc (.inl hd)) hd) (.inl hd)
    rename_i hd
    split
    · rename_i hc
      subst hc
      split
      · rename_i hf
        exact Safe.err ⟨a, cs, hl, behind_plus _ _ rfl, x, e, sg, hfirst.1 hf, hx, he, hs⟩
      rename_i hf
      have hf' : a ≠ x ++ e :: sg := fun h => hf (hfirst.2 h)
      split
      · rename_i hlast
        rw [hlast] at hu
        exact consec_right hu hl
      · rename_i hlast
        have hlast : last = false := by simpa using hlast
        subst hlast
        exact hstep _ (hu.under (hu.shape.snoc (.inr ⟨rfl, hf'⟩))) (.inr ⟨rfl, hf'⟩)
    · rename_i hc
      refine Safe.err ⟨a, cs, hl, behind_plus _ _ rfl, hd, hu.shape.part hx he hs, hc, ?_⟩
      intro hE
      obtain ⟨y, hy, hyd⟩ := hu.shape
      rcases hyd with rfl | ⟨d, y', rfl, hdd, hy'⟩
      · rcases hs with rfl | rfl | rfl
        · have := hsg (by simpa using hy)
          simpa using this
        · rw [hy] at hE; simp at hE
        · rw [hy] at hE; simp at hE
      · exfalso
        have hlast : ∀ z, a.getLast? = some z → Dig z ∨ z = '_' := by
          intro z hz
          rw [hy] at hz
          have hm : z ∈ d :: y' := by
            rw [show x ++ e :: (sg ++ d :: y') = (x ++ e :: sg) ++ (d :: y') by simp,
              List.getLast?_append, List.getLast?_cons, Option.some_or] at hz
            rw [← List.getLast?_cons] at hz; exact List.mem_of_getLast? hz
          rcases List.mem_cons.1 hm with rfl | hm
          · exact .inl hdd
          · exact hy' z hm
        rcases hE with hE | hE
        · have := hlast _ hE; revert this; unfold Dig; decide
        · have := hlast _ hE; revert this; unfold Dig; decide

theorem exponent_right {ovf : Bool} {x s : Str} {e : Char} (hx : IntPart x ∨ FractPart x)
    (he : e = 'e' ∨ e = 'E') (hl : lit = x ++ e :: s) :
    Safe (Right lit p) (validateFloatExponent ovf ⟨blen (x ++ [e]), s⟩ lit
      (Span.fromPosLen p (blen lit))) := by
  have hEu : e ≠ '_' := by rcases he with rfl | rfl <;> decide
  have base : ∀ sg, OptSign sg → Und (ExpShape x e sg) (x ++ e :: sg) false := by
    intro sg hs
    refine ⟨⟨[], by simp, .inl rfl⟩, fun _ => ?_, by simp⟩
    rcases hs with rfl | rfl | rfl
    · simpa using hEu
    · simp
    · simp
  have plain : (s.head? ≠ some '+' ∧ s.head? ≠ some '-') → Safe (Right lit p)
      (floatExpLoop ovf lit (Span.fromPosLen p (blen lit)) (blen (x ++ [e])) s true false) := fun h =>
    expLoop_right (sg := []) hx he (.inl rfl) s _ _ _ (by simp [hl]) (base [] (.inl rfl)) (by simp)
      (fun _ => h)
  unfold validateFloatExponent
  rcases s with _ | ⟨c, cs⟩
  · exact plain (by simp)
  dsimp only
  split
  · rename_i hc
    have hs : OptSign [c] := by rcases hc with rfl | rfl <;> simp [OptSign]
    have e1 : blen (x ++ [e]) + c.utf8Size = blen (x ++ e :: [c]) := by simp; omega
    rw [e1]
    exact expLoop_right hx he hs cs _ _ _ (by simp [hl]) (base [c] hs) (by simp)
      (fun h => absurd h (by simp))
  · rename_i hc
    refine plain ?_
    simp only [List.head?_cons, ne_eq, Option.some.injEq]
    exact ⟨fun h => hc (.inr h), fun h => hc (.inl h)⟩

/-- The prefixes `x ++ '.' :: y`. -/
def FractShape (x a : Str) : Prop := ∃ y, a = x ++ '.' :: y ∧ DigsU y

theorem FractShape.part {x a : Str} (hx : IntPart x) (h : FractShape x a) : FractPart a := by
  obtain ⟨y, h, hy⟩ := h
  exact ⟨x, y, h, hx, hy⟩

theorem FractShape.snoc {x a : Str} {c : Char} (h : FractShape x a) (hc : Dig c ∨ c = '_') :
    FractShape x (a ++ [c]) := by
  obtain ⟨y, rfl, hy⟩ := h
  exact ⟨y ++ [c], by simp, digsU_snoc hy hc⟩

theorem fractLoop_right {ovf : Bool} {x : Str} (hx : IntPart x) : ∀ (s a : Str) (last : Bool),
    lit = a ++ s → Und (FractShape x) a last → (s = [] → a ≠ x ++ ['.']) →
    Safe (Right lit p) (floatFractLoop ovf lit (Span.fromPosLen p (blen lit)) (blen (x ++ ['.']))
      (blen a) s last) := by
  intro s
  induction s with
  | nil =>
    intro a last hl hu hne
    rw [List.append_nil] at hl
    unfold floatFractLoop
    split
    · rename_i hlast
      obtain ⟨a', rfl, -, hS⟩ := hu.yes hlast
      rw [minus_right (a := a') (p := p) (by rw [behind_stop, hl])]
      exact Safe.err ⟨a', [], hl, rfl, hS.part hx, .inl rfl⟩
    · obtain ⟨y, rfl, hy⟩ := hu.shape
      exact float_ok (by rw [hl]; exact std_fract hx hy)
  | cons c cs ih =>
    intro a last hl hu hne
    unfold floatFractLoop
    have hlen : blen a + c.utf8Size = blen (a ++ [c]) := by simp
    rw [hlen]
    have hstart : blen a = blen (x ++ ['.']) ↔ a = x ++ ['.'] := by
      obtain ⟨y, rfl, hy⟩ := hu.shape
      constructor
      · intro h
        rcases y with _ | ⟨d, y⟩
        · rfl
        · have := utf8Size_pos' d
          simp at h; omega
      · intro h; rw [h]
    have hnot : a ++ [c] ≠ x ++ ['.'] := by
      obtain ⟨y, rfl, hy⟩ := hu.shape
      intro h
      have := congrArg List.length h
      simp at this
    split
    · rename_i hd
      exact ih _ _ (by simp [hl]) (Und.digit (hu.shape.snoc (.inl hd)) hd) (fun _ => hnot)
    rename_i hd
    split
    · rename_i hE
      split
      · rename_i hi
        have ha := hstart.1 hi
        subst ha
        refine Safe.err ⟨x, c :: cs, by simp [hl], hx, behind_plus _ _ rfl, .inr ?_⟩
        rcases hE with rfl | rfl <;> simp
      split
      · rename_i hlast
        obtain ⟨a', rfl, -, hS⟩ := hu.yes hlast
        refine Safe.err ⟨a', c :: cs, by simp [hl], ?_, hS.part hx, .inr ⟨c, cs, rfl, hE⟩⟩
        exact behind_plus _ _ (by simp [show '_'.utf8Size = 1 by decide])
      · unfold Cur.adv
        rw [hlen]
        exact exponent_right (.inr (hu.shape.part hx)) hE hl
    rename_i hE
    split
    · rename_i hc
      subst hc
      split
      · rename_i hi
        have ha := hstart.1 hi
        exact Safe.err ⟨a, cs, hl, behind_plus _ _ rfl, x, ha, hx⟩
      split
      · rename_i hlast
        rw [hlast] at hu
        exact consec_right hu hl
      · rename_i hlast
        have hlast : last = false := by simpa using hlast
        subst hlast
        exact ih _ _ (by simp [hl]) (hu.under (hu.shape.snoc (.inr rfl))) (fun _ => hnot)
    · rename_i hc
      exact Safe.err ⟨a, cs, hl, behind_plus _ _ rfl, hd, hu.shape.part hx, by
        simp only [List.mem_cons, List.not_mem_nil, or_false, not_or]
        exact ⟨fun h => hE (.inl h), fun h => hE (.inr h), hc⟩⟩

theorem fract_right {ovf : Bool} {x s : Str} (hx : IntPart x) (hl : lit = x ++ '.' :: s) :
    Safe (Right lit p) (validateFloatFractionalPart ovf ⟨blen (x ++ ['.']), s⟩ lit
      (Span.fromPosLen p (blen lit)) (blen (x ++ ['.']))) := by
  unfold validateFloatFractionalPart
  rcases s with _ | ⟨c, cs⟩
  · exact Safe.err ⟨x, [], hl, hx, by rw [behind_stop, hl], .inl rfl⟩
  · exact fractLoop_right hx _ _ _ (by simp [hl])
      ⟨⟨[], by simp, by intro _ h; cases h⟩, fun _ => by simp, by simp⟩ (by simp)

end Verif.Toml
