import Verif.Toml.SoundKey

/-! # Runs without diagnostics follow the grammar: literals -/

namespace Verif.Toml
open Verif Verif.Spec.Toml

variable {α β : Type} {E : Env} {s s' s1 s2 : PS} {pre : Str}

/-- No word or dot is at the place `p`. -/
def NotAt (p : Pos) (r : List Tok) : Prop :=
  ∀ v r', r = (v, p) :: r' → v ≠ .punct '.' ∧ ∀ w, v ≠ .word w

theorem bind_ok {m : M α} {f : α → M β} {a : α} (h : m s = .ok a s1) : (m >>= f) s = f a s1 := by
  show M.bind m f s = _
  unfold M.bind
  rw [h]

/-- The literal of the next token. -/
theorem NextTok.lit {g y : Str} (h : NextTok E pre s g y) {id : Nat} (hty : (pk E s).ty = .literalOrIdent id) :
    vw E (pk E s) = (.word y, posOf (pre ++ g)) ∧ '\n' ∉ y ∧
    E.literals[id]? = some y ∧
    literal E id (pk E s).start = (M.lift (some ⟨blen (pre ++ g), y⟩) : M Slice) ∧
    Lit E (pre ++ g) y ⟨blen (pre ++ g), y⟩ (Span.fromPosLen (pk E s).start (blen y)) := by
  have ht := h.tok.text
  rw [hty] at ht
  obtain ⟨ht, hn, -⟩ := ht
  refine ⟨by rw [vw_word hty ht, h.tok.start], hn, ht, ?_, rfl, ?_, hn, h.tok.ne, h.inp⟩
  · unfold literal
    rw [ht, Option.map_some, h.tok.start]
    obtain ⟨z, hz⟩ := h.inp
    rw [← hz, List.append_assoc, byteOff_posOf]
  · rw [posOf_plus hn, h.tok.start]; rfl

theorem rest_adv (h : s.rest = pk E s :: s.adv.rest) : s.rest.length = s.adv.rest.length + 1 := by
  rw [h]; rfl

/-- What `combine_adjacent_dot_and_lit` does. -/
structure Combined (E : Env) (x y : Str) (s : PS) (y' : Str) (us : List Tok) (s' : PS) : Prop where
  ch : Ch E (x ++ (y ++ y')) s'
  view : V E s = us ++ V E s'
  pieces : Pieces (posOf (x ++ y)) us y'
  errors : s'.errors = s.errors
  storage : s'.storage = s.storage
  stop : NotAt (posOf (x ++ (y ++ y'))) (V E s')

theorem combineLoop_exact (hE : EnvEof E) : ∀ (n : Nat) {x y : Str} {lit : Slice} {span : Span} {s : PS},
    Lit E x y lit span → Ch E (x ++ y) s → s.rest.length < n →
    ∃ l sp y' us s', combineLoop E n lit span s = .ok (l, sp) s' ∧ Lit E x (y ++ y') l sp ∧
      Combined E x y s y' us s' := by
  intro n
  induction n with
  | zero => intro x y lit span s _ _ hn; omega
  | succ n ih =>
    intro x y lit span s hL hC hn
    have hdone : NotAt (posOf (x ++ y)) (V E s) → ∃ l sp y' us s',
        (pure (lit, span) : M (Slice × Span)) s = .ok (l, sp) s' ∧ Lit E x (y ++ y') l sp ∧
        Combined E x y s y' us s' :=
      fun hst => ⟨lit, span, [], [], s, rfl, by simpa using hL, by simpa using hC, by simp, .nil, rfl, rfl,
        by simpa using hst⟩
    unfold combineLoop
    rw [bind_peek]
    split
    · rename_i hst
      refine hdone ?_
      intro v r' hv
      obtain ⟨-, h2, -⟩ := hC.cx.view hv
      rw [hL.span] at hst
      exact absurd h2 hst
    · rename_i hst
      have hst : (pk E s).start = posOf (x ++ y) := by
        have := Decidable.of_not_not hst
        rw [this, hL.span]
      have hadj : ∀ {g yy : Str}, TokAt E (pk E s) (x ++ y ++ g) yy → g = [] := by
        intro g yy ht
        by_cases hg : g = []
        · exact hg
        · exact absurd (hst.symm.trans ht.start) (posOf_ne hg)
      generalize hty : (pk E s).ty = ty
      split
      · obtain ⟨g, yy, hN⟩ := hC.next hE (by rw [hty]; simp)
        obtain rfl := hadj hN.tok
        have hy := hN.tok.text
        rw [hty] at hy
        simp only at hy
        subst hy
        have hp := hN.inp
        simp only [List.append_nil] at hp
        unfold extendStrBack
        have hlit : lit = ⟨blen x, y⟩ := hL.lit
        have hsl : (slice E.input lit.off (lit.off + (blen lit.text + 1))).map
            (fun t => (⟨lit.off, t⟩ : Slice)) = some ⟨blen x, y ++ ['.']⟩ := by
          rw [hlit]
          have := slice_prefix (input := E.input) (x := x) (y := y ++ ['.']) (z := [])
            (by simpa using hp)
          rw [blen_append, show blen ['.'] = 1 from by decide] at this
          simp only [this]
          rfl
        rw [bind_lift _ _ hsl, bind_next]
        have hL' : Lit E x (y ++ ['.']) ⟨blen x, y ++ ['.']⟩ ⟨span.start, span.stop.plus 1⟩ := by
          refine ⟨rfl, ?_, ?_, by simp, by simpa using hp⟩
          · rw [hL.span, ← List.append_assoc, posOf_plus (x := x ++ y) (y := ['.']) (by decide)]
            rfl
          · intro hh
            rcases List.mem_append.1 hh with hh | hh
            · exact hL.nonl hh
            · exact absurd hh (by decide)
        have hch := hN.ch
        have hch' : Ch E (x ++ (y ++ ['.'])) s.adv := by simpa using hch
        obtain ⟨l, sp, y', us, s', a1, a2, a3⟩ := ih hL' hch' (by have := rest_adv hN.rest; omega)
        refine ⟨l, sp, '.' :: y', (.punct '.', posOf (x ++ y)) :: us, s', a1, by simpa using a2,
          by simpa using a3.ch, ?_, ?_, ?_, ?_, by simpa using a3.stop⟩
        · rw [hN.view, a3.view, vw_dot hty, hst]; rfl
        · refine .dot ?_
          have := a3.pieces
          rw [← List.append_assoc, posOf_plus (x := x ++ y) (y := ['.']) (by decide)] at this
          exact this
        · rw [a3.errors, adv_errors]
        · rw [a3.storage, adv_storage]
      · rename_i id
        obtain ⟨g, yy, hN⟩ := hC.next hE (by rw [hty]; simp)
        obtain rfl := hadj hN.tok
        obtain ⟨b1, b2, b3, b4, b5⟩ := hN.lit hty
        rw [b4, bind_lift _ _ rfl]
        simp only [List.append_nil] at b1 b5
        have hp := hN.inp
        simp only [List.append_nil] at hp
        unfold concatStrs
        have hlit : lit = ⟨blen x, y⟩ := hL.lit
        have hsl : (slice E.input lit.off (blen (x ++ y ++ []) + blen yy)).map
            (fun t => (⟨lit.off, t⟩ : Slice)) = some ⟨blen x, y ++ yy⟩ := by
          rw [hlit]
          have := slice_prefix (input := E.input) (x := x) (y := y ++ yy) (z := [])
            (by simpa using hp)
          rw [blen_append] at this
          simp only [List.append_nil, blen_append, Nat.add_assoc, this]
          rfl
        rw [bind_lift _ _ hsl, bind_next]
        have hL' : Lit E x (y ++ yy) ⟨blen x, y ++ yy⟩ ⟨span.start, span.stop.plus (blen yy)⟩ := by
          refine ⟨rfl, ?_, ?_, by simp [hL.ne], by simpa using hp⟩
          · rw [hL.span, ← List.append_assoc, posOf_plus (x := x ++ y) (y := yy) b2]
          · intro hh
            rcases List.mem_append.1 hh with hh | hh
            · exact hL.nonl hh
            · exact b2 hh
        have hch := hN.ch
        have hch' : Ch E (x ++ (y ++ yy)) s.adv := by simpa using hch
        obtain ⟨l, sp, y', us, s', a1, a2, a3⟩ := ih hL' hch' (by have := rest_adv hN.rest; omega)
        refine ⟨l, sp, yy ++ y', (.word yy, posOf (x ++ y)) :: us, s', a1, by simpa using a2,
          by simpa using a3.ch, ?_, ?_, ?_, ?_, by simpa using a3.stop⟩
        · rw [hN.view, a3.view, b1]; rfl
        · refine .word ?_
          have := a3.pieces
          rw [← List.append_assoc, posOf_plus (x := x ++ y) (y := yy) b2] at this
          exact this
        · rw [a3.errors, adv_errors]
        · rw [a3.storage, adv_storage]
      · rename_i hn1 hn2
        refine hdone ?_
        intro v r' hv
        obtain ⟨h1, -, -⟩ := hC.cx.view hv
        rw [hty] at h1
        constructor
        · rintro rfl
          simp [TyOf] at h1
          exact hn1 h1
        · rintro w rfl
          obtain ⟨id, h1, -⟩ := h1
          exact hn2 id h1

/-- What reading a bare literal does. -/
structure Munched (E : Env) (s : PS) (x y : Str) (l : Slice) (sp : Span) (us : List Tok) (s' : PS) :
    Prop where
  lit : Lit E x y l sp
  ch : Ch E (x ++ y) s'
  view : V E s = us ++ V E s'
  bare : Bare (posOf x) us y
  errors : s'.errors = s.errors
  storage : s'.storage = s.storage
  stop : NotAt (posOf (x ++ y)) (V E s')

theorem Munched.went {x y : Str} {l : Slice} {sp : Span} {us : List Tok} (h : Munched E s x y l sp us s') :
    Went E s us s' := ⟨h.view, h.ch.cx⟩

/-- The start of `parseLiteralValue` and of `tryToParseTimePart`. -/
theorem munch (hE : EnvEof E) (hC : Ch E pre s) {id : Nat} (hty : (pk E s).ty = .literalOrIdent id)
    (k : Slice × Span → M β) :
    ∃ g y l sp us s', Munched E s (pre ++ g) y l sp us s' ∧ Blank g ∧
      (do let token ← next E
          let lit ← literal E id token.start
          let r ← combineAdjacentDotAndLit E lit (Span.fromPosLen token.start (blen lit.text))
          k r : M β) s = k (l, sp) s' := by
  obtain ⟨g, yy, hN⟩ := hC.next hE (by rw [hty]; simp)
  obtain ⟨b1, b2, b3, b4, b5⟩ := hN.lit hty
  obtain ⟨l, sp, y', us, s', a1, a2, a3⟩ := combineLoop_exact hE (s.adv.rest.length + 1) b5 hN.ch (by omega)
  refine ⟨g, yy ++ y', l, sp, (.word yy, posOf (pre ++ g)) :: us, s', ⟨a2, a3.ch, ?_, ?_, ?_, ?_, a3.stop⟩,
    hN.blank, ?_⟩
  · rw [hN.view, a3.view, b1]; rfl
  · refine ⟨yy, us, y', rfl, rfl, ?_⟩
    have := a3.pieces
    rwa [posOf_plus (x := pre ++ g) (y := yy) b2] at this
  · rw [a3.errors, adv_errors]
  · rw [a3.storage, adv_storage]
  · rw [bind_next, b4, bind_lift _ _ rfl]
    refine bind_ok (a := (l, sp)) ?_
    unfold combineAdjacentDotAndLit
    rw [bind_budget]
    exact a1

theorem blank_one {x g : Str} (hg : Blank g) (hne : g ≠ []) (hl : (posOf (x ++ g)).char ≤ (posOf x).char + 1) :
    posOf (x ++ g) = (posOf x).plus 1 := by
  rw [posOf_plus hg.nonl] at hl ⊢
  have h0 : 0 < blen g := by
    cases g with
    | nil => exact absurd rfl hne
    | cons c g => rw [blen_cons]; have := utf8Size_pos'' c; omega
  simp only [Pos.plus] at hl ⊢
  congr 1
  omega

/-- The time behind a date. -/
theorem tryTime_sound (hE : EnvEof E) {x y : Str} {l : Slice} {sp : Span} {d : Date} {v : Value}
    (hL : Lit E x y l sp) (hC : Ch E (x ++ y) s) (hst : NotAt (posOf (x ++ y)) (V E s))
    (hd : LooseDate d y) (h : tryToParseTimePart E l sp d s = .ok v s') (he : s'.errors = []) :
    (v = .dateTime y sp (.localDate d) ∧ s' = s) ∨
    ∃ us yy dt, Went E s us s' ∧ Bare ((posOf (x ++ y)).plus 1) us yy ∧ Spaced y yy dt ∧
      valueOf v = .dateTime dt := by
  unfold tryToParseTimePart at h
  rw [bind_peek] at h
  generalize hty : (pk E s).ty = ty at h
  split at h
  · rename_i id
    right
    obtain ⟨g, yy, l', sp', us, s1, hM, hB, hr⟩ := munch hE hC hty
      (fun r => timePart E l sp d r.1 r.2)
    have h : timePart E l sp d l' sp' s1 = .ok v s' := by
      rw [← hr]; exact h
    have hg : g ≠ [] := by
      rintro rfl
      obtain ⟨w, ts', yt, hb1, -⟩ := hM.bare
      rw [List.append_nil] at hb1
      exact (hst (.word w) _ (by rw [hM.view, hb1]; rfl)).2 w rfl
    unfold timePart at h
    split at h
    · exact absurd he (bind_error_dirty h (fun _ => by unfold concatStrs; dirty))
    · rename_i hnear
      dsimp only at h
      have hone : posOf (x ++ y ++ g) = (posOf (x ++ y)).plus 1 := by
        refine blank_one hB hg ?_
        have e1 := hL.span
        have e2 := hM.lit.span
        subst e1 e2
        simp only [gt_iff_lt] at hnear
        omega
      obtain ⟨-, hcat⟩ := Lit.across (β := Value) hL hM.lit rfl hB.nonl
      rw [hcat] at h
      dsimp only at h
      have htx : l'.text = yy := by rw [hM.lit.lit]
      rw [htx] at h
      generalize hp : parseTimeAndOffset ⟨0, yy⟩ sp' = res at h
      split at h
      · rename_i t o cur
        obtain ⟨rfl, rfl⟩ := pure_inv h
        refine ⟨us, yy, _, hM.went, ?_, spaced_iff hd ⟨_, hp⟩, rfl⟩
        have := hM.bare
        rwa [hone] at this
      · exact absurd he (bind_error_dirty h (fun _ => by dirty))
      · cases h
  · left
    obtain ⟨rfl, rfl⟩ := pure_inv h
    rw [hL.lit]
    exact ⟨rfl, rfl⟩

/-- A literal value. -/
theorem parseLiteralValue_sound (hE : EnvEof E) (hC : Cx E s) {id : Nat}
    (hty : (pk E s).ty = .literalOrIdent id) {v : Value} (n : Nat)
    (h : parseLiteralValue E id s = .ok v s') (he : s'.errors = []) :
    ∃ ts, Went E s ts s' ∧ Val n ts (valueOf v) := by
  obtain ⟨pre, hC⟩ := hC
  obtain ⟨g, y, l, sp, us, s1, hM, hB, hr⟩ := munch hE hC hty (fun r => literalValue E r.1 r.2)
  have h : literalValue E l sp s1 = .ok v s' := by rw [← hr]; exact h
  have htx : l.text = y := by rw [hM.lit.lit]
  unfold literalValue at h
  rw [htx] at h
  have hscal : ∀ {pv}, parseLiteral E.ovf y sp = .ok pv → ∀ {tv}, litMeaning pv = some tv →
      Val n us tv := fun h1 _ h2 => .bare hM.bare (parseLiteral_scalar.2 ⟨_, h1, h2⟩)
  generalize hp : parseLiteral E.ovf y sp = res at h
  split at h
  · obtain ⟨rfl, rfl⟩ := pure_inv h; exact ⟨us, hM.went, hscal hp rfl⟩
  · obtain ⟨rfl, rfl⟩ := pure_inv h; exact ⟨us, hM.went, hscal hp rfl⟩
  · obtain ⟨rfl, rfl⟩ := pure_inv h; exact ⟨us, hM.went, hscal hp rfl⟩
  · obtain ⟨rfl, rfl⟩ := pure_inv h; exact ⟨us, hM.went, hscal hp rfl⟩
  · rename_i d
    have hd : LooseDate d y := by
      cases parseLiteral_date.1 hp with
      | date h => exact h
    rcases tryTime_sound hE hM.lit hM.ch hM.stop hd h he with ⟨rfl, rfl⟩ | ⟨us', yy, dt, w1, w2, w3, w4⟩
    · exact ⟨us, hM.went, hscal hp rfl⟩
    · refine ⟨us ++ us', hM.went.trans w1, ?_⟩
      rw [w4]
      refine .spaced hM.bare w2 ?_ w3
      rw [posOf_plus (x := pre ++ g) (y := y) hM.lit.nonl]
  · refine absurd he (bind_error_dirty h (fun _ => ?_))
    dirty
    exact (quiet_tryCombine _ _).dirty
  · exact absurd he (bind_error_dirty h (fun _ => by dirty))
  · cases h

end Verif.Toml
