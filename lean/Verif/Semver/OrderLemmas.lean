import Verif.Semver.Order
import Verif.Common.Cmp
import Verif.Common.Dec
import Verif.Spec.Semver

/-! # Helper lemmas for the semver orderings -/

namespace Verif.Semver
open Verif Verif.Spec Verif.Spec.Semver

theorem strCmp_total : TotalOrder strCmp where
  eq_iff a b := by
    induction a generalizing b with
    | nil => cases b <;> simp [strCmp]
    | cons x xs ih =>
      cases b with
      | nil => simp [strCmp]
      | cons y ys =>
        simp only [strCmp, Ordering.then_eq_eq, ih, Nat.compare_eq_eq, List.cons.injEq]
        constructor
        · rintro ⟨h, rfl⟩; exact ⟨Char.toNat_inj.1 h, rfl⟩
        · rintro ⟨rfl, rfl⟩; exact ⟨rfl, rfl⟩
  swap a b := by
    induction a generalizing b with
    | nil => cases b <;> simp [strCmp]
    | cons x xs ih =>
      cases b with
      | nil => simp [strCmp]
      | cons y ys =>
        simp only [strCmp, TotalOrder.swap_then', ← ih, Nat.compare_swap]
  trans a b c := by
    induction a generalizing b c with
    | nil =>
      cases b with
      | nil => simp [strCmp]
      | cons y ys => cases c <;> simp [strCmp]
    | cons x xs ih =>
      cases b with
      | nil => simp [strCmp]
      | cons y ys =>
        cases c with
        | nil => simp [strCmp]
        | cons z zs =>
          simp only [strCmp, Ordering.then_eq_lt, Nat.compare_eq_lt, Nat.compare_eq_eq]
          rintro (h1 | ⟨h1, h1'⟩) (h2 | ⟨h2, h2'⟩)
          · exact .inl (by omega)
          · exact .inl (by omega)
          · exact .inl (by omega)
          · exact .inr ⟨by omega, ih _ _ h1' h2'⟩

theorem segLoop_cons (seg : Str → Str → Ordering) (l r : Str) (ls rs : List Str) :
    segLoop seg (l :: ls) (r :: rs) = (seg l r).then (segLoop seg ls rs) := by
  simp only [segLoop]; cases seg l r <;> rfl

theorem segLoop_total {seg : Str → Str → Ordering} (h : TotalOrder seg) :
    TotalOrder (segLoop seg) where
  eq_iff a b := by
    induction a generalizing b with
    | nil => cases b <;> simp [segLoop]
    | cons x xs ih =>
      cases b with
      | nil => simp [segLoop]
      | cons y ys => simp [segLoop_cons, Ordering.then_eq_eq, ih, h.eq_iff]
  swap a b := by
    induction a generalizing b with
    | nil => cases b <;> simp [segLoop]
    | cons x xs ih =>
      cases b with
      | nil => simp [segLoop]
      | cons y ys => simp only [segLoop_cons, TotalOrder.swap_then', ← ih, h.swap x y]
  trans a b c := by
    induction a generalizing b c with
    | nil =>
      cases b with
      | nil => simp [segLoop]
      | cons y ys => cases c <;> simp [segLoop]
    | cons x xs ih =>
      cases b with
      | nil => simp [segLoop]
      | cons y ys =>
        cases c with
        | nil => simp [segLoop]
        | cons z zs =>
          simp only [segLoop_cons, Ordering.then_eq_lt]
          rintro (h1 | ⟨h1, h1'⟩) (h2 | ⟨h2, h2'⟩)
          · exact .inl (h.trans _ _ _ h1 h2)
          · left; rw [← (h.eq_iff _ _).1 h2]; exact h1
          · left; rw [(h.eq_iff _ _).1 h1]; exact h2
          · right; rw [(h.eq_iff _ _).1 h1]; exact ⟨h2, ih _ _ h1' h2'⟩

theorem splitDot_ne_nil (s : Str) : splitDot s ≠ [] := by
  cases s with
  | nil => simp [splitDot]
  | cons c cs =>
    simp only [splitDot]; split
    · simp
    · split <;> simp

theorem dotted_splitDot (s : Str) : dotted (splitDot s) = s := by
  induction s with
  | nil => rfl
  | cons c cs ih =>
    simp only [splitDot]
    split
    · rename_i h
      cases hs : splitDot cs with
      | nil => exact absurd hs (splitDot_ne_nil cs)
      | cons x xs => rw [hs] at ih; simp [dotted, ih, h]
    · cases hs : splitDot cs with
      | nil => exact absurd hs (splitDot_ne_nil cs)
      | cons x xs =>
        rw [hs] at ih
        cases xs with
        | nil => simp [dotted] at ih ⊢; exact ih
        | cons y ys => simp [dotted] at ih ⊢; exact ih

theorem splitDot_inj (a b : Str) (h : splitDot a = splitDot b) : a = b := by
  rw [← dotted_splitDot a, ← dotted_splitDot b, h]

theorem preSegCmp_total : TotalOrder preSegCmp where
  eq_iff a b := by
    unfold preSegCmp
    by_cases ha : a.all isDigit <;> by_cases hb : b.all isDigit <;>
      simp only [ha, hb, Ordering.then_eq_eq, strCmp_total.eq_iff, Nat.compare_eq_eq]
    · constructor
      · exact fun h => h.2
      · rintro rfl; exact ⟨rfl, rfl⟩
    · simp; rintro rfl; exact hb ha
    · simp; rintro rfl; exact ha hb
  swap a b := by
    unfold preSegCmp
    by_cases ha : a.all isDigit <;> by_cases hb : b.all isDigit <;>
      simp only [ha, hb]
    · rw [TotalOrder.swap_then', ← strCmp_total.swap a b, Nat.compare_swap]
    · rfl
    · rfl
    · exact strCmp_total.swap a b
  trans a b c := by
    have key := (TotalOrder.prod TotalOrder.natCompare strCmp_total).trans
    unfold preSegCmp
    by_cases ha : a.all isDigit <;> by_cases hb : b.all isDigit <;> by_cases hc : c.all isDigit <;>
      simp only [ha, hb, hc] <;> try simp
    · exact key (blen a, a) (blen b, b) (blen c, c)
    · exact strCmp_total.trans _ _ _

theorem trimZeros_spec (s : Str) : ∃ n, s = List.replicate n '0' ++ trimZeros s := by
  induction s with
  | nil => exact ⟨0, rfl⟩
  | cons c cs ih =>
    by_cases hc : c = '0'
    · subst hc
      obtain ⟨n, hn⟩ := ih
      refine ⟨n + 1, ?_⟩
      simp only [trimZeros, List.replicate_succ, List.cons_append]
      rw [← hn]
    · refine ⟨0, ?_⟩
      unfold trimZeros
      split
      · rename_i h; simp at h; exact absurd h.1 hc
      · rfl

theorem blen_replicate_zero (n : Nat) : blen (List.replicate n '0') = n := by
  induction n with
  | zero => rfl
  | succ n ih => simp [List.replicate_succ, ih, show ('0' : Char).utf8Size = 1 from rfl]; omega

theorem metaKey_inj (a b : Str) (h : trimZeros a = trimZeros b) (hl : blen a = blen b) :
    a = b := by
  obtain ⟨n, hn⟩ := trimZeros_spec a
  obtain ⟨m, hm⟩ := trimZeros_spec b
  have ha : blen a = n + blen (trimZeros a) := by
    conv => lhs; rw [hn]
    simp [blen_replicate_zero]
  have hb : blen b = m + blen (trimZeros b) := by
    conv => lhs; rw [hm]
    simp [blen_replicate_zero]
  have : n = m := by rw [h] at ha; omega
  rw [hn, hm, h, this]

theorem metaNum_total : TotalOrder (fun a b : Str =>
    ((compare (blen (trimZeros a)) (blen (trimZeros b))).then
      (strCmp (trimZeros a) (trimZeros b))).then (compare (blen a) (blen b))) :=
  TotalOrder.comap
    (TotalOrder.prod (TotalOrder.prod TotalOrder.natCompare strCmp_total) TotalOrder.natCompare)
    (fun s => ((blen (trimZeros s), trimZeros s), blen s))
    (by intro a b h; simp at h; exact metaKey_inj a b h.1.2 h.2)

theorem metaSegCmp_total : TotalOrder metaSegCmp where
  eq_iff a b := by
    have key := metaNum_total.eq_iff a b
    unfold metaSegCmp
    by_cases ha : a.all isDigit <;> by_cases hb : b.all isDigit <;>
      simp only [ha, hb, strCmp_total.eq_iff]
    · exact key
    · simp; rintro rfl; exact hb ha
    · simp; rintro rfl; exact ha hb
  swap a b := by
    have key := metaNum_total.swap a b
    unfold metaSegCmp
    by_cases ha : a.all isDigit <;> by_cases hb : b.all isDigit <;>
      simp only [ha, hb]
    · exact key
    · rfl
    · rfl
    · exact strCmp_total.swap a b
  trans a b c := by
    have key := metaNum_total.trans a b c
    unfold metaSegCmp
    by_cases ha : a.all isDigit <;> by_cases hb : b.all isDigit <;> by_cases hc : c.all isDigit <;>
      simp only [ha, hb, hc] <;> try simp
    · exact key
    · exact strCmp_total.trans _ _ _

theorem metaCmp_total : TotalOrder metaCmp :=
  (segLoop_total metaSegCmp_total).comap splitDot splitDot_inj

theorem preCmp_total : TotalOrder preCmp where
  eq_iff a b := by
    have key := ((segLoop_total preSegCmp_total).comap splitDot splitDot_inj).eq_iff a b
    unfold preCmp
    cases a <;> cases b <;> simp only [List.isEmpty] <;> simp_all
  swap a b := by
    have key := ((segLoop_total preSegCmp_total).comap splitDot splitDot_inj).swap a b
    unfold preCmp
    cases a <;> cases b <;> simp only [List.isEmpty] <;> first | exact key | rfl
  trans a b c := by
    have key := ((segLoop_total preSegCmp_total).comap splitDot splitDot_inj).trans a b c
    unfold preCmp
    cases a <;> cases b <;> cases c <;> simp only [List.isEmpty] <;> first | exact key | simp

theorem versionCmp_total : TotalOrder versionCmp :=
  TotalOrder.comap
    (TotalOrder.prod TotalOrder.natCompare <| TotalOrder.prod TotalOrder.natCompare <|
      TotalOrder.prod TotalOrder.natCompare <| TotalOrder.prod preCmp_total metaCmp_total)
    (fun v : Version => (v.major, v.minor, v.patch, v.pre, v.build))
    (by intro a b h; cases a; cases b; simp_all)

/-! ## SemVer precedence -/

theorem strCmp_lt_iff (s t : Str) :
    strCmp s t = .lt ↔ s.map Char.toNat < t.map Char.toNat := by
  induction s generalizing t with
  | nil => cases t <;> simp [strCmp]
  | cons x xs ih =>
    cases t with
    | nil => simp [strCmp]
    | cons y ys =>
      simp only [strCmp, Ordering.then_eq_lt, Nat.compare_eq_lt, Nat.compare_eq_eq, ih,
        List.map_cons, List.cons_lt_cons_iff]

/-- On digit strings of equal length, string order is numeric order. -/
theorem strCmp_digits {s t : Str} (hl : s.length = t.length) (hs : s.all isDigit = true)
    (ht : t.all isDigit = true) : strCmp s t = compare (decVal s) (decVal t) := by
  induction s generalizing t with
  | nil => cases t with
    | nil => rfl
    | cons => simp at hl
  | cons x xs ih =>
    cases t with
    | nil => simp at hl
    | cons y ys =>
      simp only [List.all_cons, Bool.and_eq_true] at hs ht
      simp only [List.length_cons, Nat.add_right_cancel_iff] at hl
      simp only [strCmp, ih hl hs.2 ht.2, decVal_cons]
      have b1 := decVal_lt hs.2
      have b2 := decVal_lt ht.2
      rw [← hl] at b2
      have dx := (isDigit_iff x).1 hs.1
      have dy := (isDigit_iff y).1 ht.1
      have ex : digitVal x = x.toNat - 48 := rfl
      have ey : digitVal y = y.toNat - 48 := rfl
      rw [hl] at b1 b2
      rw [hl]
      rcases Nat.lt_trichotomy x.toNat y.toNat with h | h | h
      · rw [Nat.compare_eq_lt.2 h]
        have : (digitVal x + 1) * 10 ^ ys.length ≤ digitVal y * 10 ^ ys.length :=
          Nat.mul_le_mul_right _ (by omega)
        rw [Nat.add_mul] at this
        exact (Nat.compare_eq_lt.2 (by omega)).symm
      · rw [Nat.compare_eq_eq.2 h]
        have : digitVal x = digitVal y := by omega
        rw [this]
        show compare _ _ = _
        rcases Nat.lt_trichotomy (decVal xs) (decVal ys) with g | g | g
        · rw [Nat.compare_eq_lt.2 g]; exact (Nat.compare_eq_lt.2 (by omega)).symm
        · rw [g]; simp
        · rw [Nat.compare_eq_gt.2 g]; exact (Nat.compare_eq_gt.2 (by omega)).symm
      · rw [Nat.compare_eq_gt.2 h]
        have : (digitVal y + 1) * 10 ^ ys.length ≤ digitVal x * 10 ^ ys.length :=
          Nat.mul_le_mul_right _ (by omega)
        rw [Nat.add_mul] at this
        exact (Nat.compare_eq_gt.2 (by omega)).symm

/-- Longer decimal texts denote larger numbers. -/
theorem decimal_length_lt {a b : Nat} (h : (decimal a).length < (decimal b).length) : a < b := by
  have ha := decVal_lt (decimal_all a)
  rw [decVal_decimal] at ha
  by_cases hb : b = 0
  · subst hb
    have : 0 < (decimal a).length := List.length_pos_iff.2 (decimal_ne_nil a)
    rw [decimal_zero] at h; simp at h; exact absurd h (decimal_ne_nil a)
  · obtain ⟨c, cs, hc, h0⟩ := decimal_head b (by omega)
    have hall := decimal_all b
    rw [hc] at hall h
    simp only [List.all_cons, Bool.and_eq_true] at hall
    have := decVal_ge (cs := cs) hall.1 h0
    rw [← hc, decVal_decimal] at this
    have h10 : 10 ^ (decimal a).length ≤ 10 ^ cs.length :=
      Nat.pow_le_pow_right (by omega) (by simp at h; omega)
    omega

theorem preSegCmp_decimal (a b : Nat) : preSegCmp (decimal a) (decimal b) = compare a b := by
  unfold preSegCmp
  simp only [decimal_all, blen_eq_length_of_digits (decimal_all _)]
  rcases Nat.lt_trichotomy (decimal a).length (decimal b).length with h | h | h
  · rw [Nat.compare_eq_lt.2 h, Nat.compare_eq_lt.2 (decimal_length_lt h)]; rfl
  · rw [Nat.compare_eq_eq.2 h, strCmp_digits h (decimal_all a) (decimal_all b),
      decVal_decimal, decVal_decimal]; rfl
  · rw [Nat.compare_eq_gt.2 h, Nat.compare_eq_gt.2 (decimal_length_lt h)]; rfl

theorem not_all_digit_of_valid {s : Str} (h : (Ident.alnum s).Valid) : s.all isDigit = false := by
  obtain ⟨c, hc, hd⟩ := h.2
  rw [List.all_eq_false]; exact ⟨c, hc, by simp [hd]⟩

theorem preSegCmp_text_lt {x y : Ident} (hx : x.Valid) (hy : y.Valid) :
    preSegCmp x.text y.text = .lt ↔ Ident.Lt x y := by
  cases x with
  | num a =>
    cases y with
    | num b =>
      simp only [Ident.text, preSegCmp_decimal, Nat.compare_eq_lt]
      exact ⟨fun h => .num h, fun h => by cases h; assumption⟩
    | alnum t =>
      simp only [Ident.text, preSegCmp, decimal_all, not_all_digit_of_valid hy, true_iff]
      exact .numAlnum
  | alnum s =>
    cases y with
    | num b =>
      simp only [Ident.text, preSegCmp, decimal_all, not_all_digit_of_valid hx]
      constructor
      · intro h; cases h
      · intro h; cases h
    | alnum t =>
      simp only [Ident.text, preSegCmp, not_all_digit_of_valid hx, not_all_digit_of_valid hy,
        strCmp_lt_iff]
      exact ⟨fun h => .alnum h, fun h => by cases h; assumption⟩

theorem text_inj {x y : Ident} (hx : x.Valid) (hy : y.Valid) (h : x.text = y.text) : x = y := by
  cases x <;> cases y <;> simp only [Ident.text] at h
  · rw [decimal_inj h]
  · have := not_all_digit_of_valid hy; rw [← h, decimal_all] at this; cases this
  · have := not_all_digit_of_valid hx; rw [h, decimal_all] at this; cases this
  · rw [h]

theorem segLoop_text_lt (xs ys : List Ident) (hx : ∀ i ∈ xs, i.Valid) (hy : ∀ i ∈ ys, i.Valid) :
    segLoop preSegCmp (xs.map Ident.text) (ys.map Ident.text) = .lt ↔
      (∃ y t, ys = xs ++ y :: t) ∨
      ∃ p x y s t, xs = p ++ x :: s ∧ ys = p ++ y :: t ∧ Ident.Lt x y := by
  induction xs generalizing ys with
  | nil => cases ys <;> simp [segLoop]
  | cons x xs ih =>
    cases ys with
    | nil => simp [segLoop]
    | cons y ys =>
      have vx : x.Valid := hx x (by simp)
      have vy : y.Valid := hy y (by simp)
      simp only [List.map_cons, segLoop_cons, Ordering.then_eq_lt, preSegCmp_text_lt vx vy,
        preSegCmp_total.eq_iff, ih ys (fun i h => hx i (by simp [h])) (fun i h => hy i (by simp [h]))]
      constructor
      · rintro (h | ⟨he, h⟩)
        · exact .inr ⟨[], x, y, xs, ys, rfl, rfl, h⟩
        · have := text_inj vx vy he
          subst this
          rcases h with ⟨y', t, rfl⟩ | ⟨p, a, b, s, t, rfl, rfl, h⟩
          · exact .inl ⟨y', t, rfl⟩
          · exact .inr ⟨x :: p, a, b, s, t, rfl, rfl, h⟩
      · rintro (⟨y', t, h⟩ | ⟨p, a, b, s, t, h1, h2, h⟩)
        · simp at h; obtain ⟨rfl, rfl⟩ := h
          exact .inr ⟨rfl, .inl ⟨y', t, rfl⟩⟩
        · cases p with
          | nil => simp at h1 h2; obtain ⟨rfl, rfl⟩ := h1; obtain ⟨rfl, rfl⟩ := h2; exact .inl h
          | cons z p =>
            simp at h1 h2; obtain ⟨rfl, rfl⟩ := h1; obtain ⟨rfl, rfl⟩ := h2
            exact .inr ⟨rfl, .inr ⟨p, a, b, s, t, rfl, rfl, h⟩⟩

theorem splitDot_append_dot (s t : Str) (h : '.' ∉ s) :
    splitDot (s ++ '.' :: t) = s :: splitDot t := by
  induction s with
  | nil => simp [splitDot]
  | cons c cs ih =>
    simp at h
    have hc : c ≠ '.' := fun e => h.1 e.symm
    simp [splitDot, hc, ih h.2]

theorem splitDot_nodot (s : Str) (h : '.' ∉ s) : splitDot s = [s] := by
  induction s with
  | nil => rfl
  | cons c cs ih =>
    simp at h
    have hc : c ≠ '.' := fun e => h.1 e.symm
    simp [splitDot, hc, ih h.2]

theorem splitDot_dotted (ss : List Str) (hne : ss ≠ []) (h : ∀ s ∈ ss, '.' ∉ s) :
    splitDot (dotted ss) = ss := by
  induction ss with
  | nil => exact absurd rfl hne
  | cons s ss ih =>
    cases ss with
    | nil => exact splitDot_nodot s (h s (by simp))
    | cons t ss =>
      simp only [dotted]
      rw [splitDot_append_dot _ _ (h s (by simp)), ih (by simp) (fun x hx => h x (by simp [hx]))]

theorem dot_not_identChar : identChar '.' = false := by decide

theorem dot_not_mem_text {i : Ident} (h : i.Valid) : '.' ∉ i.text := by
  intro hm
  cases i with
  | num n =>
    have := List.all_eq_true.1 (decimal_all n) _ hm
    simp [isDigit] at this
  | alnum s =>
    have := h.1 _ hm
    rw [dot_not_identChar] at this; cases this

theorem text_ne_nil {i : Ident} (h : i.Valid) : i.text ≠ [] := by
  cases i with
  | num n => exact decimal_ne_nil n
  | alnum s => obtain ⟨c, hc, _⟩ := h.2; intro he; simp only [Ident.text] at he; rw [he] at hc; cases hc

theorem tagText_ne_nil {i : Ident} {is : List Ident} (h : i.Valid) : tagText (i :: is) ≠ [] := by
  cases is with
  | nil => exact text_ne_nil h
  | cons j js => simp [tagText, dotted]

theorem splitDot_tagText {t : List Ident} (hne : t ≠ []) (h : ∀ i ∈ t, i.Valid) :
    splitDot (tagText t) = t.map Ident.text :=
  splitDot_dotted _ (by simpa using hne) (by
    intro s hs; obtain ⟨i, hi, rfl⟩ := List.mem_map.1 hs; exact dot_not_mem_text (h i hi))

theorem preCmp_tagText_lt (a b : List Ident) (ha : ∀ i ∈ a, i.Valid) (hb : ∀ i ∈ b, i.Valid) :
    preCmp (tagText a) (tagText b) = .lt ↔ TagLt a b := by
  cases a with
  | nil =>
    have hn : ¬ TagLt [] b := by
      intro h
      generalize hx : ([] : List Ident) = x at h
      cases h with
      | release => cases hx
      | diff => simp at hx
      | longer hp => exact hp hx.symm
    simp only [hn, iff_false]
    cases b with
    | nil => decide
    | cons y ys =>
      have hne := tagText_ne_nil (is := ys) (hb y (by simp))
      unfold preCmp
      cases h : tagText (y :: ys) with
      | nil => exact absurd h hne
      | cons => simp [tagText, dotted]
  | cons x xs =>
    have hne := tagText_ne_nil (is := xs) (ha x (by simp))
    cases b with
    | nil =>
      have : TagLt (x :: xs) [] := .release
      simp only [this, iff_true]
      unfold preCmp
      cases h : tagText (x :: xs) with
      | nil => exact absurd h hne
      | cons => rfl
    | cons y ys =>
      have hne' := tagText_ne_nil (is := ys) (hb y (by simp))
      have e : preCmp (tagText (x :: xs)) (tagText (y :: ys)) =
          segLoop preSegCmp (splitDot (tagText (x :: xs))) (splitDot (tagText (y :: ys))) := by
        unfold preCmp
        rw [List.isEmpty_eq_false_iff.2 hne, List.isEmpty_eq_false_iff.2 hne']
      rw [e, splitDot_tagText (by simp) ha, splitDot_tagText (by simp) hb,
        segLoop_text_lt _ _ ha hb]
      constructor
      · rintro (⟨z, t, h⟩ | ⟨p, u, v, s, t, h1, h2, h⟩)
        · rw [h]; exact .longer (by simp)
        · rw [h1, h2]; exact .diff h
      · intro h
        generalize hA : x :: xs = A at h
        generalize hB : y :: ys = B at h
        cases h with
        | release => cases hB
        | diff h => exact .inr ⟨_, _, _, _, _, rfl, rfl, h⟩
        | longer => exact .inl ⟨_, _, rfl⟩

/-! ## Build metadata -/

theorem decVal_trimZeros (s : Str) : decVal (trimZeros s) = decVal s := by
  induction s with
  | nil => rfl
  | cons c cs ih =>
    by_cases hc : c = '0'
    · subst hc
      simp only [trimZeros, ih, decVal_cons]
      simp [digitVal]
    · unfold trimZeros; split
      · rename_i h; simp at h; exact absurd h.1 hc
      · rfl

theorem trimZeros_all {s : Str} (h : s.all isDigit = true) : (trimZeros s).all isDigit = true := by
  induction s with
  | nil => rfl
  | cons c cs ih =>
    by_cases hc : c = '0'
    · subst hc; simp only [trimZeros]; simp at h; exact ih (by simpa using h.2)
    · unfold trimZeros; split
      · rename_i h'; simp at h'; exact absurd h'.1 hc
      · exact h

theorem trimZeros_head (s : Str) : trimZeros s = [] ∨ ∃ c cs, trimZeros s = c :: cs ∧ c ≠ '0' := by
  induction s with
  | nil => exact .inl rfl
  | cons c cs ih =>
    by_cases hc : c = '0'
    · subst hc; simpa only [trimZeros] using ih
    · right; refine ⟨c, cs, ?_, hc⟩
      unfold trimZeros; split
      · rename_i h'; simp at h'; exact absurd h'.1 hc
      · rfl

theorem trimZeros_length_lt {s t : Str} (hs : s.all isDigit = true) (ht : t.all isDigit = true)
    (h : (trimZeros s).length < (trimZeros t).length) : decVal s < decVal t := by
  rw [← decVal_trimZeros s, ← decVal_trimZeros t]
  have h1 := decVal_lt (trimZeros_all hs)
  have hd := trimZeros_all ht
  rcases trimZeros_head t with h2 | ⟨c, cs, h2, h0⟩
  · rw [h2] at h; simp at h
  · rw [h2] at h hd ⊢
    simp only [List.all_cons, Bool.and_eq_true] at hd
    have := decVal_ge (cs := cs) hd.1 h0
    have h10 : 10 ^ (trimZeros s).length ≤ 10 ^ cs.length :=
      Nat.pow_le_pow_right (by omega) (by simp at h; omega)
    omega

theorem metaSegCmp_digits {s t : Str} (hs : s.all isDigit = true) (ht : t.all isDigit = true) :
    metaSegCmp s t = (compare (decVal s) (decVal t)).then (compare s.length t.length) := by
  unfold metaSegCmp
  simp only [hs, ht, blen_eq_length_of_digits hs, blen_eq_length_of_digits ht,
    blen_eq_length_of_digits (trimZeros_all hs), blen_eq_length_of_digits (trimZeros_all ht)]
  congr 1
  rcases Nat.lt_trichotomy (trimZeros s).length (trimZeros t).length with h | h | h
  · rw [Nat.compare_eq_lt.2 h, Nat.compare_eq_lt.2 (trimZeros_length_lt hs ht h)]; rfl
  · rw [Nat.compare_eq_eq.2 h, strCmp_digits h (trimZeros_all hs) (trimZeros_all ht),
      decVal_trimZeros, decVal_trimZeros]; rfl
  · rw [Nat.compare_eq_gt.2 h, Nat.compare_eq_gt.2 (trimZeros_length_lt ht hs h)]; rfl

theorem metaSegCmp_lt_iff (s t : Str) : metaSegCmp s t = .lt ↔ BuildIdentLt s t := by
  by_cases hs : s.all isDigit = true <;> by_cases ht : t.all isDigit = true
  · rw [metaSegCmp_digits hs ht, Ordering.then_eq_lt, Nat.compare_eq_lt, Nat.compare_eq_eq,
      Nat.compare_eq_lt]
    constructor
    · rintro (h | ⟨h1, h2⟩)
      · exact .value hs ht h
      · exact .zeros hs ht h1 h2
    · intro h
      cases h with
      | value _ _ h => exact .inl h
      | zeros _ _ h1 h2 => exact .inr ⟨h1, h2⟩
      | numAlnum _ h => rw [ht] at h; cases h
      | alnum h _ _ => rw [hs] at h; cases h
  · rw [Bool.not_eq_true] at ht
    unfold metaSegCmp; simp only [hs, ht, true_iff]; exact .numAlnum hs ht
  · rw [Bool.not_eq_true] at hs
    unfold metaSegCmp; simp only [hs, ht]
    constructor
    · intro h; cases h
    · intro h; cases h <;> simp_all
  · rw [Bool.not_eq_true] at hs ht
    unfold metaSegCmp; simp only [hs, ht, strCmp_lt_iff]
    constructor
    · exact .alnum hs ht
    · intro h; cases h <;> simp_all

theorem segLoop_meta_lt (xs ys : List Str) :
    segLoop metaSegCmp xs ys = .lt ↔ BuildLt xs ys := by
  constructor
  · induction xs generalizing ys with
    | nil =>
      cases ys with
      | nil => simp [segLoop]
      | cons y ys => intro _; exact .longer (p := [])
    | cons x xs ih =>
      cases ys with
      | nil => simp [segLoop]
      | cons y ys =>
        simp only [segLoop_cons, Ordering.then_eq_lt, metaSegCmp_lt_iff, metaSegCmp_total.eq_iff]
        rintro (h | ⟨rfl, h⟩)
        · exact .diff (p := []) h
        · cases ih ys h with
          | diff h' => exact .diff (p := x :: _) h'
          | longer => exact .longer (p := x :: _)
  · intro h
    cases h with
    | @diff p xs ys x y h =>
      induction p with
      | nil => simp [segLoop_cons, Ordering.then_eq_lt, metaSegCmp_lt_iff, h]
      | cons z p ih =>
        simp only [List.cons_append, segLoop_cons, Ordering.then_eq_lt, metaSegCmp_total.eq_iff,
          ih, and_true, or_true]
    | @longer ys y =>
      induction xs with
      | nil => simp [segLoop]
      | cons z p ih =>
        simp only [List.cons_append, segLoop_cons, Ordering.then_eq_lt, metaSegCmp_total.eq_iff,
          ih, and_true, or_true]

end Verif.Semver
