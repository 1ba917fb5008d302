import Verif.Toml.JunkLoop

/-! # Values with damaged entries -/

namespace Verif.Toml
open Verif Verif.Spec.Toml

variable {α β : Type} {E : Env} {s s' s1 s2 : PS} {pre : Str}

/-! ## Diagnostics in faults -/

/-- The diagnostics other than `es0` begin in the faults. -/
def FoundIn (fs : List Fault) (es0 : List Error) (s : PS) : Prop :=
  ∃ new, s.errors = es0 ++ new ∧ ∀ e ∈ new, ∃ f ∈ fs, InF f e.span.start

theorem FoundIn.same {fs : List Fault} {es0 : List Error} (h : FoundIn fs es0 s) (he : s'.errors = s.errors) :
    FoundIn fs es0 s' := by
  unfold FoundIn; rw [he]; exact h

theorem FoundIn.none {es0 : List Error} (he : s.errors = es0) : FoundIn [] es0 s := ⟨[], by simp [he], by simp⟩

theorem FoundIn.trans {fs fs' : List Fault} {es0 : List Error} (h : FoundIn fs es0 s) (h' : FoundIn fs' s.errors s') :
    FoundIn (fs ++ fs') es0 s' := by
  obtain ⟨n1, a1, a2⟩ := h
  obtain ⟨n2, b1, b2⟩ := h'
  refine ⟨n1 ++ n2, by rw [b1, a1, List.append_assoc], ?_⟩
  intro e he
  rcases List.mem_append.1 he with he | he
  · obtain ⟨f, h1, h2⟩ := a2 e he
    exact ⟨f, by simp [h1], h2⟩
  · obtain ⟨f, h1, h2⟩ := b2 e he
    exact ⟨f, by simp [h1], h2⟩

theorem FoundIn.err {fs : List Fault} {es0 : List Error} (h : FoundIn fs es0 s) {e : Error} {f : Fault}
    (he : InF f e.span.start) : FoundIn (fs ++ [f]) es0 (s.err e) :=
  h.trans (s' := s.err e) ⟨[e], rfl, fun e' he' => ⟨f, by simp, by rw [List.mem_singleton.1 he']; exact he⟩⟩

theorem ErrsIn.found {f : Fault} {es0 : List Error} (h : ErrsIn f es0 s) : FoundIn [f] es0 s := by
  obtain ⟨n, h1, h2⟩ := h
  exact ⟨n, h1, fun e he => ⟨f, by simp, h2 e he⟩⟩

/-! ## Reading a value -/

/-- `elem` reads the value written as `ts`, with faults. -/
def SoftReads (E : Env) (elem : M (Except Error Value)) (ts : List Tok) (P : Pat) (fs : List Fault) : Prop :=
  ∀ s r res s', Cx E s → V E s = ts ++ r → Follow r ∨ Apart ts r → elem s = .ok res s' →
    ∃ v, res = .ok v ∧ Fits P (valueOf v) ∧ Went E s ts s' ∧ FoundIn fs s.errors s' ∧ StopsAt E s v s'

theorem follow_of_gap {t : Tok} {r : List Tok} (h : isGap t.1 = true) : Follow (t :: r) := by
  intro v p r' he
  cases he
  cases v with
  | newline => exact .inl rfl
  | comment x => exact .inr (.inl ⟨x, rfl⟩)
  | _ => cases h

/-- The last token of a bare literal. -/
theorem pieces_last {p : Pos} {ts : List Tok} {x : Str} (h : Pieces p ts x) {a : List Tok} {v : View} {q : Pos}
    (he : ts = a ++ [(v, q)]) : isJunk v = true ∧ ∀ q lit txt, v ≠ .string q lit txt := by
  have hm : (v, q) ∈ ts := by rw [he]; simp
  clear he
  induction h with
  | nil => cases hm
  | dot _ ih =>
    rcases List.mem_cons.1 hm with h | h
    · cases h; exact ⟨rfl, by simp⟩
    · exact ih h
  | word _ ih =>
    rcases List.mem_cons.1 hm with h | h
    · cases h; exact ⟨rfl, by simp⟩
    · exact ih h

theorem bare_last {p : Pos} {ts : List Tok} {x : Str} (h : Bare p ts x) {a : List Tok} {v : View} {q : Pos}
    (he : ts = a ++ [(v, q)]) : ¬ ((∃ q lit txt, v = .string q lit txt) ∨ v = .punct ']' ∨ v = .punct '}') := by
  obtain ⟨w, ts', y, rfl, -, hp⟩ := h
  have key : isJunk v = true ∧ ∀ q lit txt, v ≠ .string q lit txt := by
    cases a with
    | nil =>
      simp only [List.nil_append, List.cons.injEq, Prod.mk.injEq] at he
      rw [← he.1.1]; exact ⟨rfl, by simp⟩
    | cons t a =>
      simp only [List.cons_append, List.cons.injEq] at he
      exact pieces_last hp he.2
  rintro (⟨q, lit, txt, h⟩ | h | h)
  · exact key.2 _ _ _ h
  · rw [h] at key; exact absurd key.1 (by decide)
  · rw [h] at key; exact absurd key.1 (by decide)

/-- A bare literal has no gap in it. -/
theorem pieces_cut {p : Pos} {a : List Tok} {y : Str} (ha : Pieces p a y) : ∀ {x : Str} {v : View} {q : Pos} {c : List Tok},
    Pieces p (a ++ (v, q) :: c) x → q = p.plus (blen y) := by
  induction ha with
  | nil =>
    intro x v q c h
    cases h <;> simp [Pos.plus, blen]
  | @dot p ts z _ ih =>
    intro x v q c h
    cases h with
    | dot h =>
      rw [ih h, plus_plus, blen_cons]
      rfl
  | @word p w ts z _ ih =>
    intro x v q c h
    cases h with
    | word h => rw [ih h, plus_plus, blen_append]

theorem bare_cut {p p' q : Pos} {a c : List Tok} {y z x : Str} (ha : Bare p a y) (hc : Bare q c z)
    (h : Bare p' (a ++ c) x) : q = p.plus (blen y) := by
  obtain ⟨w, ts, y', rfl, rfl, ha⟩ := ha
  obtain ⟨w', ts', y'', rfl, rfl, -⟩ := hc
  obtain ⟨w2, ts2, y2, h1, rfl, h⟩ := h
  simp only [List.cons_append, List.cons.injEq, Prod.mk.injEq, View.word.injEq] at h1
  obtain ⟨⟨rfl, rfl⟩, rfl⟩ := h1
  rw [pieces_cut ha h, plus_plus, blen_append]

theorem NextTok.stopsAt {g y : Str} (h : NextTok E pre s g y) {v : Value} (hv : v.stop = posOf (pre ++ g ++ y)) :
    StopsAt E s v s.adv := by
  refine ⟨_, h.ch, hv, ?_⟩
  rw [hv, h.tok.start]
  exact posOf_mono _ _

theorem softReads_scalar (hE : EnvEof E) {ts : List Tok} {tv : TVal} (hv : Val 0 ts tv) {d level : Nat} :
    SoftReads E (parseValue E d level) ts (.exact tv) [] := by
  intro s r res s' hC hV hf h
  cases d with
  | zero => cases h
  | succ d =>
    unfold parseValue at h
    cases hv with
    | string =>
      obtain ⟨⟨id, o, e, hty, hs, -⟩, -⟩ := hC.view hV
      rw [bind_peek, hty] at h
      dsimp only at h
      obtain ⟨v, s1, h1, h2⟩ := bind_inv h
      obtain ⟨rfl, rfl⟩ := pure_inv h2
      unfold parseStringValue getString at h1
      rw [bind_next, bind_lift _ _ hs] at h1
      obtain ⟨rfl, rfl⟩ := pure_inv h1
      have hw := hC.eat hV
      refine ⟨_, rfl, .exact, hw.toWent, .none hw.errs, ?_⟩
      obtain ⟨pre, hC⟩ := hC
      obtain ⟨g, y, hN⟩ := hC.next hE (by rw [hty]; simp)
      have ht := hN.tok.text
      rw [hty] at ht
      obtain ⟨q', txt', o', hs', -⟩ := ht
      rw [hs] at hs'
      cases hs'
      exact hN.stopsAt rfl
    | bare hb hs =>
      rename_i p x
      obtain ⟨id, hty, -⟩ := bare_ty hC hb hV
      rw [bind_peek, hty] at h
      dsimp only at h
      obtain ⟨v, s1, h1, h2⟩ := bind_inv h
      obtain ⟨rfl, rfl⟩ := pure_inv h2
      have key : NotAt (p.plus (blen x)) r ∧ ((∀ d, tv ≠ .dateTime d) ∨ Follow r) := by
        rcases hf with hf | ⟨a, v, q, he, hq⟩ | ⟨t, r', rfl, hg⟩ | ⟨p', x', v', hb', hs', hd, hn⟩
        · exact ⟨hf.notAt _, .inr hf⟩
        · exact absurd hq (bare_last hb he)
        · exact ⟨(follow_of_gap hg).notAt _, .inr (follow_of_gap hg)⟩
        · have hpx : p' = p ∧ x' = x := by
            obtain ⟨w, ts1, y, rfl, rfl, hp⟩ := hb
            obtain ⟨w', ts1', y', he, rfl, hp'⟩ := hb'
            simp only [List.cons.injEq, Prod.mk.injEq, View.word.injEq] at he
            obtain ⟨⟨rfl, rfl⟩, rfl⟩ := he
            have := pieces_unique (r := []) (r' := []) hp hp' rfl (by intro v r' h; cases h) (by intro v r' h; cases h)
            exact ⟨rfl, by rw [this.2]⟩
          obtain ⟨rfl, rfl⟩ := hpx
          have hvv : v' = tv := by
            obtain ⟨pv, g1, g2⟩ := parseLiteral_scalar (ovf := E.ovf) (span := ⟨⟨0, 0⟩, ⟨0, 0⟩⟩).1 hs
            obtain ⟨pv', g1', g2'⟩ := parseLiteral_scalar (ovf := E.ovf) (span := ⟨⟨0, 0⟩, ⟨0, 0⟩⟩).1 hs'
            rw [g1] at g1'
            cases g1'
            rw [g2] at g2'
            cases g2'; rfl
          subst hvv
          refine ⟨?_, .inl hd⟩
          rintro v r' rfl
          exact absurd rfl (hn _ _ rfl)
      obtain ⟨e1, e2, e3⟩ := parseLiteralValue_bare hE hC hb hs hV key.1 key.2 hty h1
      exact ⟨v, rfl, by rw [e1]; exact .exact, e2.toWent, .none e2.errs, e3⟩
    | spaced hb hb' hq hs =>
      rename_i p q ts ts' x y dt
      obtain ⟨id, hty, -⟩ := bare_ty hC hb (by rw [hV, List.append_assoc])
      rw [bind_peek, hty] at h
      dsimp only at h
      obtain ⟨v, s1, h1, h2⟩ := bind_inv h
      obtain ⟨rfl, rfl⟩ := pure_inv h2
      have key : Follow r := by
        rcases hf with hf | ⟨a, v, q', he, hq'⟩ | ⟨t, r', rfl, hg⟩ | ⟨p', x', v', hb2, hs', hd, hn⟩
        · exact hf
        · have hne : ts' ≠ [] := by obtain ⟨w, l, z, rfl, -⟩ := hb'; simp
          obtain ⟨b, t, rfl⟩ : ∃ b t, ts' = b ++ [t] := ⟨ts'.dropLast, ts'.getLast hne, (List.dropLast_concat_getLast hne).symm⟩
          obtain ⟨v0, q0⟩ := t
          rw [← List.append_assoc] at he
          have := List.append_inj_right' he rfl
          simp only [List.cons.injEq, Prod.mk.injEq, and_true] at this
          obtain ⟨rfl, rfl⟩ := this
          exact absurd hq' (bare_last hb' rfl)
        · exact follow_of_gap hg
        · have h1 := bare_cut hb hb' hb2
          rw [h1] at hq
          simp [Pos.plus] at hq
      obtain ⟨e1, e2, e3⟩ := parseLiteralValue_spaced hE hC hb hb' hq hs hV key hty h1
      exact ⟨v, rfl, by rw [e1]; exact .exact, e2.toWent, .none e2.errs, e3⟩

end Verif.Toml
