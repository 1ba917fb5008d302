import Verif.Spec.SemverTruth
import Verif.Semver.Trap
import Verif.Semver.Wrap

/-! # Helper lemmas: what the errors of the semver parsers say is true -/

namespace Verif.Semver
open Verif Verif.Spec Verif.Spec.Semver

/-- The cursor has gone over the text `s`. -/
structure Walk (s : Str) (c c' : Cur) : Prop where
  text : c.rest = s ++ c'.rest
  start : c'.start = c.start
  idx : c'.idx = c.idx + blen s

theorem Walk.refl (c : Cur) : Walk [] c c := ⟨rfl, rfl, rfl⟩

theorem Walk.trans {s r : Str} {c d e : Cur} (h : Walk s c d) (h' : Walk r d e) : Walk (s ++ r) c e :=
  ⟨by rw [h.text, h'.text, List.append_assoc], by rw [h'.start, h.start], by rw [h'.idx, h.idx, blen_append, Nat.add_assoc]⟩

theorem Walk.pos {s : Str} {c c' : Cur} (h : Walk s c c') : c'.pos = c.pos.plus (blen s) := by
  rw [Cur.pos, Cur.pos, plus_plus, h.start, h.idx]

/-- The error is true of the text behind the cursor. -/
def Rel (fault : Error → Str → Str → Str → Prop) (c : Cur) (e : Error) : Prop :=
  ∃ a b t, c.rest = a ++ b ++ t ∧ e.span = Span.fromPosLen (c.pos.plus (blen a)) (blen b) ∧ fault e a b t

theorem Rel.shift {F G : Error → Str → Str → Str → Prop} {s : Str} {c c' : Cur} {e : Error} (w : Walk s c c')
    (h : Rel F c' e) (hF : ∀ a b t, F e a b t → G e (s ++ a) b t) : Rel G c e := by
  obtain ⟨a, b, t, h1, h2, h3⟩ := h
  refine ⟨s ++ a, b, t, by rw [w.text, h1]; simp, ?_, hF a b t h3⟩
  rw [h2, w.pos, plus_plus, blen_append]

theorem Rel.mono {F G : Error → Str → Str → Str → Prop} {c : Cur} {e : Error}
    (h : Rel F c e) (hF : ∀ a b t, F e a b t → G e a b t) : Rel G c e :=
  h.shift (Walk.refl c) (fun a b t => by simpa using hF a b t)

theorem Rel.here {F : Error → Str → Str → Str → Prop} {c : Cur} {e : Error} (b t : Str) (h : c.rest = b ++ t)
    (hs : e.span = Span.fromPosLen c.pos (blen b)) (hF : F e [] b t) : Rel F c e :=
  ⟨[], b, t, by simpa using h, by simpa [Pos.plus] using hs, hF⟩

theorem Rel.atEnd {F : Error → Str → Str → Str → Prop} {s : Str} {c c' : Cur} {e : Error} (w : Walk s c c') (b t : Str)
    (h : c'.rest = b ++ t) (hs : e.span = Span.fromPosLen c'.pos (blen b)) (hF : F e s b t) : Rel F c e :=
  ⟨s, b, t, by rw [w.text, h]; simp, by rw [← w.pos]; exact hs, hF⟩

theorem bind_err {ε α β : Type} {x : Res ε α} {f : α → Res ε β} {e : ε} :
    (x >>= f) = .err e ↔ x = .err e ∨ ∃ a, x = .ok a ∧ f a = .err e := by
  cases x with
  | ok a => simp
  | err e => simp [Bind.bind, Res.bind]
  | panic => simp [Bind.bind, Res.bind]

theorem ofPos_eq (p : Pos) : Span.ofPos p = Span.fromPosLen p 0 := by
  simp [Span.ofPos, Span.fromPosLen, Pos.plus]

theorem noDigit_dropWhile (s : Str) : NoDigit (s.dropWhile isDigit) := by
  rw [noDigit_iff]; exact startsWith_dropWhile _ _

/-! ## numbers -/

theorem parseInt_err {ovf : Bool} {c : Cur} {f : NumField} {e : Error} (h : parseInt ovf c f = .err e) :
    Rel (fun e a b t => a = [] ∧ NumberFault f e b t) c e := by
  unfold parseInt at h
  cases hr : c.rest with
  | nil =>
    rw [hr] at h
    cases h
    exact .here [] [] (by simp [hr]) (ofPos_eq _) ⟨rfl, .missing⟩
  | cons x cs =>
    rw [hr] at h
    simp only at h
    split at h
    · rename_i hx
      subst hx
      cases cs with
      | nil => cases h
      | cons y ys =>
        simp only at h
        split at h
        · rename_i hy
          cases h
          refine .here ['0'] (y :: ys) hr ?_ ⟨rfl, .zero hy⟩
          have hz : blen ['0'] = 1 := by decide
          simp [Error.span, Span.asciiChar, Span.fromPosLen, Cur.pos, Cur.step, Pos.plus, Pos.minus, hz]
        · cases h
    · rename_i hx0
      split at h
      · rename_i hx
        rcases intLoop_shape (ovf := ovf) c.start (some (digitVal x)) (c.idx + 1) cs with ⟨-, hl⟩ | ⟨v, hl⟩
        · rw [hl] at h; cases h
        · rw [hl] at h
          cases v with
          | some v => cases h
          | none =>
            simp only [Res.err.injEq] at h
            subst h
            have hbig := intLoop_none_big c.start (digitVal x) (digitVal x) (c.idx + 1) cs _ (Nat.le_refl _) hl
            rw [runVal_eq, ← decVal_cons] at hbig
            refine .here (x :: cs.takeWhile isDigit) (cs.dropWhile isDigit) (by rw [hr]; simp) ?_
              ⟨rfl, .large (by simp [hx]) (by simpa using hx0) (noDigit_dropWhile _) hbig⟩
            simp only [Error.span]
            rw [blen_eq_length_of_digits (s := x :: cs.takeWhile isDigit) (by simp [hx]), Cur.pos]
            simp only [afterDigits, List.length_cons]
            congr 1; omega
      · rename_i hd
        cases h
        exact .here [x] cs hr (by simp [Error.span]) ⟨rfl, .char (by simpa using hd)⟩

theorem IntReadW.walk {ovf : Bool} {N : Nat} {c c' : Cur} (h : IntReadW ovf N c c') : Walk (decimal N) c c' :=
  ⟨h.text, h.start, by rw [h.idx, blen_eq_length_of_digits (decimal_all N)]⟩

theorem dot_walk {c c' : Cur} (h : c.rest = '.' :: c'.rest ∧ c'.start = c.start ∧ c'.idx = c.idx + 1) : Walk ['.'] c c' :=
  ⟨h.1, h.2.1, by rw [h.2.2]; rfl⟩

theorem char_walk {x : Char} {c c' : Cur} (hx : x.utf8Size = 1)
    (h : c.rest = x :: c'.rest ∧ c'.start = c.start ∧ c'.idx = c.idx + 1) : Walk [x] c c' :=
  ⟨h.1, h.2.1, by rw [h.2.2]; simp [hx]⟩

theorem ws_walk (c : Cur) : ∃ n r, Walk (spaces n) c ⟨c.start, c.idx + n, r⟩ ∧ startsWith (· == ' ') r = false ∧
    eatWs c = ⟨c.start, c.idx + n, r⟩ := by
  obtain ⟨n, r, h1, h2, h3⟩ := eatWs_spec c
  exact ⟨n, r, ⟨h1, rfl, by rw [blen_spaces]⟩, h2, h3⟩

theorem expectDot_err {c : Cur} {f : NumField} {e : Error} (h : expectDot c f = .err e) :
    Rel (fun e a b t => a = [] ∧ ((∃ x, b = [x] ∧ x ≠ '.' ∧ e = .expectedDot x f c.pos) ∨
      (b = [] ∧ t = [] ∧ e = .missingDot f c.pos))) c e := by
  unfold expectDot at h
  cases hr : c.rest with
  | nil => rw [hr] at h; cases h; exact .here [] [] hr (ofPos_eq _) ⟨rfl, .inr ⟨rfl, rfl, rfl⟩⟩
  | cons x cs =>
    rw [hr] at h
    simp only at h
    split at h
    · cases h
    · rename_i hx
      cases h
      exact .here [x] cs hr (by simp [Error.span]) ⟨rfl, .inl ⟨x, rfl, hx, rfl⟩⟩

/-! ## tags -/

theorem segment_iff (f : IdentField) (x : Str) : Segment f x ↔ SegOk f x := by
  cases f with
  | prerelease => exact (segOk_pre_iff x).symm
  | buildMetadata => simp [Segment, SegOk, List.all_eq_true]

theorem noIdent_of {c : Char} {cs : Str} (h : identChar c = false) : NoIdent (c :: cs) := by
  intro x hx; simp at hx; exact hx ▸ h

theorem noIdent_nil : NoIdent [] := by intro x hx; simp at hx

theorem zero_fault {f : IdentField} {c : Cur} {seg y r : Str} {p : Pos} {nd : Bool} (hc : c.rest = y ++ seg ++ r)
    (hp : p = c.pos.plus (blen y)) (hy : Segments f y) (hs : seg.all identChar = true) (hnd : nd = !seg.all isDigit)
    (hr : NoIdent r)
    (hz : f = .prerelease ∧ blen seg > 1 ∧ nd = false ∧ seg.head? = some '0') :
    Rel (TagFault f) c (.leadingZeroSegment f p) := by
  obtain ⟨rfl, h1, h2, h3⟩ := hz
  cases seg with
  | nil => simp at h3
  | cons x xs =>
    simp at h3; subst h3
    have hd : ('0' :: xs).all isDigit = true := by rw [h2] at hnd; simpa using hnd.symm
    refine ⟨y, ['0'], xs ++ r, by rw [hc]; simp, ?_, .zero hy ?_ ?_ hr⟩
    · have hz : blen ['0'] = 1 := by decide
      simp [Error.span, Span.asciiChar, Span.fromPosLen, hp, hz]
    · rintro rfl
      revert h1; decide
    · simp only [List.all_cons, Bool.and_eq_true] at hd; exact hd.2

theorem boundary_err (f : IdentField) {c : Cur} (y seg : Str) (nd : Bool) (idx : Nat) (rest : Str)
    (hc : c.rest = y ++ seg ++ rest) (hi : idx = c.idx + blen (y ++ seg)) (hy : Segments f y)
    (hseg : seg.all identChar = true) (hnd : nd = !seg.all isDigit) {e : Error}
    (hx : ∀ x, rest.head? = some x → identChar x = false ∧ x ≠ '.')
    (h : identLoop.boundary f c.start (y ++ seg) seg nd idx rest = .err e) : Rel (TagFault f) c e := by
  have hpos : c.start.plus (idx - blen seg) = c.pos.plus (blen y) := by
    rw [Cur.pos, plus_plus, hi, blen_append]; congr 1; omega
  have hno : NoIdent rest := fun x h => (hx x h).1
  unfold identLoop.boundary at h
  split at h
  · rename_i h0; subst h0
    rw [List.append_nil] at hc hi h
    split at h
    · rename_i h1; subst h1
      cases h
      refine .here [] rest hc ?_ (.empty hno fun hh => (hx _ hh).2 rfl)
      simp [Error.span, hi, ofPos_eq, Cur.pos]
    · rename_i h1
      cases h
      refine ⟨y, [], rest, by simpa using hc, ?_, .segment hy hno fun h => absurd h h1⟩
      simp [Error.span, hi, ofPos_eq, Cur.pos, plus_plus]
  · split at h
    · rename_i hz
      cases h
      exact zero_fault hc hpos hy hseg hnd hno hz
    · cases h

theorem alpha_not_digit {x : Char} (h : (isAlpha x || x == '-') = true) : isDigit x = false := by
  cases hd : isDigit x with
  | false => rfl
  | true =>
    exfalso
    rw [isDigit_iff] at hd
    simp only [isAlpha, Bool.or_eq_true, Bool.and_eq_true, decide_eq_true_eq,
      beq_iff_eq, Char.le_def, UInt32.le_iff_toNat_le] at h
    rcases h with (h | h) | h
    · have h2 : ('a' : Char).val.toNat = 97 := rfl
      have := h.1; simp only [Char.toNat] at hd; omega
    · have h2 : ('A' : Char).val.toNat = 65 := rfl
      have := h.1; simp only [Char.toNat] at hd; omega
    · subst h; revert hd; decide

theorem identLoop_err (f : IdentField) {c : Cur} (y seg : Str) (nd : Bool) (idx : Nat) (rest : Str)
    (hc : c.rest = y ++ seg ++ rest) (hi : idx = c.idx + blen (y ++ seg)) (hy : Segments f y)
    (hseg : seg.all identChar = true) (hnd : nd = !seg.all isDigit) {e : Error}
    (h : identLoop f c.start (y ++ seg) seg nd idx rest = .err e) : Rel (TagFault f) c e := by
  induction rest generalizing y seg nd idx with
  | nil => exact boundary_err f y seg nd idx [] hc hi hy hseg hnd (by simp) h
  | cons x cs ih =>
    simp only [identLoop] at h
    by_cases h1 : (isAlpha x || x == '-') = true
    · rw [if_pos h1, List.append_assoc] at h
      have hid : identChar x = true := by
        simp only [identChar, Bool.or_eq_true] at h1 ⊢; rcases h1 with h | h <;> simp [h]
      refine ih y (seg ++ [x]) true (idx + 1) (by rw [hc]; simp) ?_ hy
        (by simp only [List.all_append, hseg]; simpa using hid) (by simp [alpha_not_digit h1]) h
      rw [hi]; simp [identChar_utf8 hid]; omega
    · rw [if_neg h1] at h
      by_cases h2 : isDigit x = true
      · rw [if_pos h2, List.append_assoc] at h
        have hid : identChar x = true := by simp [identChar, h2]
        refine ih y (seg ++ [x]) nd (idx + 1) (by rw [hc]; simp) ?_ hy
          (by simp only [List.all_append, hseg]; simpa using hid) (by simp [h2, hnd]) h
        rw [hi]; simp [identChar_utf8 hid]; omega
      · rw [if_neg h2] at h
        by_cases h3 : x = '.'
        · subst h3
          have hno : NoIdent ('.' :: cs) := noIdent_of (by decide)
          have hpos : c.start.plus (idx - blen seg) = c.pos.plus (blen y) := by
            rw [Cur.pos, plus_plus, hi, blen_append]; congr 1; omega
          rw [if_pos rfl] at h
          split at h
          · rename_i h0; subst h0
            rw [List.append_nil] at hc hi
            cases h
            refine ⟨y, [], '.' :: cs, by simpa using hc, ?_, .segment hy hno fun _ => rfl⟩
            simp [Error.span, hi, ofPos_eq, Cur.pos, plus_plus]
          · rename_i h0
            split at h
            · rename_i hz
              cases h
              exact zero_fault hc hpos hy hseg hnd hno hz
            · rename_i hz
              have hok : SegOk f seg := by
                refine ⟨h0, hseg, fun hf hh => hz ⟨hf, ?_, ?_, hh.2.2⟩⟩
                · rw [blen_identChars hseg]; exact hh.1
                · rw [hnd, hh.2.1]; rfl
              have hy' : Segments f (y ++ seg ++ ['.']) := by
                obtain ⟨segs, g1, g2⟩ := hy
                refine ⟨segs ++ [seg], ?_, by rw [g2]; simp⟩
                intro z hz
                rcases List.mem_append.1 hz with hz | hz
                · exact g1 z hz
                · simp at hz; subst hz; exact (segment_iff f z).2 hok
              refine ih (y ++ seg ++ ['.']) [] false (idx + 1) (by rw [hc]; simp) ?_ hy' rfl rfl (by simpa using h)
              have : ('.' : Char).utf8Size = 1 := by decide
              rw [hi]; simp [this]; omega
        · rw [if_neg h3] at h
          refine boundary_err f y seg nd idx (x :: cs) hc hi hy hseg hnd ?_ h
          intro z hz
          simp at hz; subst hz
          simp only [Bool.or_eq_true, not_or, Bool.not_eq_true] at h1 h2
          exact ⟨by simp [identChar, h1, h2], h3⟩

theorem segments_nil (f : IdentField) : Segments f [] := ⟨[], by simp, rfl⟩

theorem parseIdent_err {f : IdentField} {c : Cur} {e : Error} (h : parseIdent c f = .err e) : Rel (TagFault f) c e :=
  identLoop_err f [] [] false c.idx c.rest rfl rfl (segments_nil f) rfl rfl h

theorem optIdent_err {ch : Char} (hch : ch.utf8Size = 1) {f : IdentField} {c : Cur} {e : Error}
    (h : optIdent ch f c = .err e) : ∃ c', Walk [ch] c c' ∧ Rel (TagFault f) c' e := by
  unfold optIdent at h
  split at h
  · rename_i c' he
    rw [bind_err] at h
    rcases h with h | ⟨a, -, h⟩
    · exact ⟨c', char_walk hch ((eatChar_true_iff _ _ _).1 he), parseIdent_err h⟩
    · cases h
  · cases h

theorem opt_ascii {ch : Char} (hch : ch.utf8Size = 1) {f : IdentField} {o : Option Str} {c c' : Cur}
    (h : OptRead ch f o c c') : Walk (optText ch o) c c' := by
  refine ⟨h.text, h.start_eq, ?_⟩
  rw [h.idx]
  cases o with
  | none => rfl
  | some s =>
    have : blen s = s.length := by
      have := segs_identOrDot h.segs
      clear h
      induction s with
      | nil => rfl
      | cons x xs ih =>
        simp only [List.all_cons, Bool.and_eq_true] at this
        have hx : x.utf8Size = 1 := by
          have h1 := this.1
          simp only [identOrDot, Bool.or_eq_true, beq_iff_eq] at h1
          rcases h1 with h1 | h1
          · exact identChar_utf8 h1
          · subst h1; decide
        simp [ih this.2, hx]; omega
    simp [optText, hch, this]; omega

/-! ## versions -/

theorem optPre {o : Option Str} {c c' : Cur} (h : OptRead '-' .prerelease o c c') (x : Str) (hx : o = some x) : PreTag x := by
  subst hx; exact (preTag_iff _).2 h.segs

theorem optBuild {o : Option Str} {c c' : Cur} (h : OptRead '+' .buildMetadata o c c') (x : Str) (hx : o = some x) : BuildTag x := by
  subst hx; exact (buildTag_iff _).2 h.segs

/-- The part behind the patch number. -/
theorem tags_err {ovf : Bool} {c c1 : Cur} {s : Str} {z : Nat} {e : Error} (hs : Before ovf .patch s)
    (hz : Accepted ovf z) (w : Walk (s ++ decimal z) c c1)
    (h : optIdent '-' .prerelease c1 = .err e ∨ ∃ o c2, OptRead '-' .prerelease o c1 c2 ∧
      optIdent '+' .buildMetadata c2 = .err e) : Rel (PartFault ovf) c e := by
  rcases h with h | ⟨o, c2, ho, h⟩
  · obtain ⟨c', w', r⟩ := optIdent_err (by decide) h
    exact r.shift (w.trans w') fun a b t hf => .tag (.pre hs hz) hf
  · obtain ⟨c', w', r⟩ := optIdent_err (by decide) h
    have w2 := opt_ascii (by decide) ho
    have w3 := (w.trans w2).trans w'
    cases o with
    | none =>
      simp only [optText, List.append_nil] at w3
      exact r.shift w3 fun a b t hf => .tag (.build hs hz) hf
    | some p =>
      have : s ++ decimal z ++ optText '-' (some p) ++ ['+'] = s ++ decimal z ++ ['-'] ++ p ++ ['+'] := by simp [optText]
      rw [this] at w3
      exact r.shift w3 fun a b t hf => .tag (.both hs hz (optPre ho p rfl)) hf

theorem number_err {ovf : Bool} {c c' : Cur} {s : Str} {f : NumField} {e : Error} (w : Walk s c c') (hs : Before ovf f s)
    (h : parseInt ovf c' f = .err e) : Rel (PartFault ovf) c e :=
  (parseInt_err h).shift w fun a b t hf => by
    obtain ⟨rfl, hf⟩ := hf
    rw [List.append_nil]
    exact .number hs hf

theorem dot_err {ovf : Bool} {c c0 c1 c2 : Cur} {i : Nat} {s : Str} {n : Nat} {f : NumField} {e : Error}
    (w0 : Walk (spaces i) c c0) (w : Walk s c0 c1) (hs : Before ovf f s) (hf : f ≠ .patch) (hi : IntReadW ovf n c1 c2)
    (h : expectDot c2 f = .err e) : Rel (VersionFault ovf) c e := by
  have w' := (w0.trans w).trans hi.walk
  have hst := hi.stop
  obtain ⟨a, b, t, g1, g2, rfl, g3⟩ := expectDot_err h
  refine Rel.shift (F := fun e a b t => VersionFault ovf e (spaces i ++ s ++ decimal n ++ a) b t) w' ⟨[], b, t, g1, g2, ?_⟩
    fun _ _ _ h => h
  simp only [List.append_nil]
  rcases g3 with ⟨x, rfl, hx, rfl⟩ | ⟨rfl, rfl, rfl⟩
  · refine .dot hs hf hi.fits hx ?_
    rw [g1] at hst
    simpa using hst
  · exact .noDot hs hf hi.fits

theorem trimEnd_last (s : Str) : (trimEndSpaces s).getLast? ≠ some ' ' := by
  unfold trimEndSpaces
  rw [List.getLast?_reverse]
  have := startsWith_dropWhile (· == ' ') s.reverse
  intro h
  cases hd : s.reverse.dropWhile (· == ' ') with
  | nil => rw [hd] at h; cases h
  | cons x xs => rw [hd] at h this; simp at h this; exact this h

theorem parseVersion_err (ovf : Bool) (input : Str) (pos : Pos) (e : Error) (h : parseVersion ovf input pos = .err e) :
    Rel (VersionFault ovf) (Cur.new pos input) e := by
  unfold parseVersion at h
  obtain ⟨i, r0, w0, -, hws⟩ := ws_walk (Cur.new pos input)
  simp only [hws] at h
  have lift : ∀ {e}, Rel (PartFault ovf) ⟨(Cur.new pos input).start, (Cur.new pos input).idx + i, r0⟩ e →
      Rel (VersionFault ovf) (Cur.new pos input) e := fun h => h.shift w0 fun a b t hf => .part hf
  rw [bind_err] at h
  rcases h with h | ⟨⟨M, c1⟩, h1, h⟩
  · exact lift (number_err (Walk.refl _) .major h)
  obtain ⟨N1, e1, -⟩ := (parseInt_wide _ _ _ _ _).1 h1
  simp only at h
  rw [bind_err] at h
  rcases h with h | ⟨c2, h2, h⟩
  · exact dot_err w0 (Walk.refl _) .major (by simp) e1 h
  have w2 := e1.walk.trans (dot_walk ((expectDot_iff _ _ _).1 h2))
  rw [bind_err] at h
  rcases h with h | ⟨⟨m, c3⟩, h3, h⟩
  · exact lift (number_err w2 (.minor e1.fits) h)
  obtain ⟨N3, e3, -⟩ := (parseInt_wide _ _ _ _ _).1 h3
  simp only at h
  rw [bind_err] at h
  rcases h with h | ⟨c4, h4, h⟩
  · exact dot_err w0 w2 (.minor e1.fits) (by simp) e3 h
  have w4 := (w2.trans e3.walk).trans (dot_walk ((expectDot_iff _ _ _).1 h4))
  rw [bind_err] at h
  rcases h with h | ⟨⟨p, c5⟩, h5, h⟩
  · exact lift (number_err w4 (.patch e1.fits e3.fits) h)
  obtain ⟨N5, e5, -⟩ := (parseInt_wide _ _ _ _ _).1 h5
  have w5 := w4.trans e5.walk
  simp only at h
  rw [bind_err] at h
  rcases h with h | ⟨⟨o, c6⟩, h6, h⟩
  · exact lift (tags_err (.patch e1.fits e3.fits) e5.fits w5 (.inl h))
  have e6 := (optIdent_iff _ _ _ _ _).1 h6
  simp only at h
  rw [bind_err] at h
  rcases h with h | ⟨⟨o', c7⟩, h7, h⟩
  · exact lift (tags_err (.patch e1.fits e3.fits) e5.fits w5 (.inr ⟨o, c6, e6, h⟩))
  have e7 := (optIdent_iff _ _ _ _ _).1 h7
  have w7 := (w5.trans (opt_ascii (by decide) e6)).trans (opt_ascii (by decide) e7)
  obtain ⟨k, r, w8, hns, hws2⟩ := ws_walk c7
  simp only [hws2] at h
  cases r with
  | nil => cases h
  | cons x xs =>
    simp only [Res.err.injEq] at h
    subst h
    obtain ⟨j, hj⟩ := trimEndSpaces_spec (x :: xs)
    have hsp : x ≠ ' ' := by simpa using hns
    have hne : trimEndSpaces (x :: xs) ≠ [] := by
      intro h0
      rw [h0] at hj
      cases j with
      | zero => simp [spaces] at hj
      | succ j => simp [spaces, List.replicate_succ] at hj; exact hsp hj.1
    have hhead : (trimEndSpaces (x :: xs)).head? ≠ some ' ' := by
      obtain ⟨y, ys, hy⟩ := List.exists_cons_of_ne_nil hne
      rw [hy] at hj ⊢
      simp at hj ⊢
      exact fun h => hsp (hj.1.trans h)
    have hv : WideVersion ovf ⟨N1, N3, N5, o.getD [], o'.getD []⟩ := by
      refine ⟨e1.fits, e3.fits, e5.fits, ?_, ?_⟩
      · cases o with
        | none => exact .inl rfl
        | some s => exact .inr (optPre e6 s rfl)
      · cases o' with
        | none => exact .inl rfl
        | some s => exact .inr (optBuild e7 s rfl)
    have hopt : ∀ (ch : Char) (f : IdentField) (o : Option Str) (c c' : Cur), OptRead ch f o c c' →
        tagOpt (o.getD []) = o := by
      intro ch f o c c' h
      cases o with
      | none => rfl
      | some s => simp [tagOpt, segs_ne_nil h.segs]
    have hvt : versionText ⟨N1, N3, N5, o.getD [], o'.getD []⟩ =
        decimal N1 ++ ['.'] ++ decimal N3 ++ ['.'] ++ decimal N5 ++ optText '-' o ++ optText '+' o' := by
      rw [versionText_eq]
      simp only [hopt _ _ _ _ _ e6, hopt _ _ _ _ _ e7]
      simp
    have w9 := (w0.trans w7).trans w8
    rw [← hvt] at w9
    refine Rel.shift (F := fun e a b t => VersionFault ovf e (spaces i ++ versionText _ ++ spaces k ++ a) b t) w9
      ⟨[], trimEndSpaces (x :: xs), spaces j, by simpa using hj, ?_, ?_⟩ fun _ _ _ h => h
    · simp [Error.span, Pos.plus]
    · simp only [List.append_nil]
      exact .trailing hv hne hhead (trimEnd_last _)

/-! ## requirements -/

theorem wl_utf8 (w : WlChar) : w.char.utf8Size = 1 := by cases w <;> decide

theorem eatWildcard_none_iff {c : Cur} (h : eatWildcard c = none) (x : Char) (cs : Str) (hr : c.rest = x :: cs) :
    x ∉ ['*', 'x', 'X'] := by
  unfold eatWildcard at h
  rw [hr] at h
  simp only at h
  split at h
  · cases h
  split at h
  · cases h
  split at h
  · cases h
  · simp_all

theorem compVersion_err {ovf : Bool} {c : Cur} {op : Op} {e : Error} (h : compVersion ovf c op = .err e) :
    Rel (ComparatorFault ovf) c e := by
  have lift : ∀ {e}, Rel (PartFault ovf) c e → Rel (ComparatorFault ovf) c e := fun h => h.mono fun a b t hf => .part hf
  unfold compVersion at h
  rw [bind_err] at h
  rcases h with h | ⟨⟨M, c1⟩, h1, h⟩
  · exact lift (number_err (Walk.refl _) .major h)
  obtain ⟨N1, e1, -⟩ := (parseInt_wide _ _ _ _ _).1 h1
  simp only at h
  cases hd1 : eatChar '.' c1 with
  | mk b1 c2 =>
    rw [hd1] at h
    cases b1 with
    | false => cases h
    | true =>
      have w2 := e1.walk.trans (dot_walk ((eatChar_true_iff _ _ _).1 hd1))
      simp only at h
      cases hw1 : eatWildcard c2 with
      | some wc =>
        obtain ⟨w1, c3⟩ := wc
        rw [hw1] at h
        simp only at h
        have w3 := w2.trans (char_walk (wl_utf8 w1) ((eatWildcard_some_iff _ _ _).1 hw1))
        cases hd2 : eatChar '.' c3 with
        | mk b2 c4 =>
          rw [hd2] at h
          cases b2 with
          | false => cases h
          | true =>
            have w4 := w3.trans (dot_walk ((eatChar_true_iff _ _ _).1 hd2))
            simp only [List.append_assoc, List.cons_append, List.nil_append] at w4
            simp only at h
            cases hw2 : eatWildcard c4 with
            | some wc2 => rw [hw2] at h; cases h
            | none =>
              rw [hw2] at h
              simp only at h
              cases hr : c4.rest with
              | nil =>
                rw [hr] at h
                cases h
                exact .atEnd w4 [] [] hr (ofPos_eq _) (.wildcardEnd e1.fits)
              | cons x cs =>
                rw [hr] at h
                cases h
                exact .atEnd w4 [x] cs hr (by simp [Error.span]) (.wildcard e1.fits (eatWildcard_none_iff hw2 x cs hr))
      | none =>
        rw [hw1] at h
        simp only at h
        rw [bind_err] at h
        rcases h with h | ⟨⟨m, c3⟩, h3, h⟩
        · exact lift (number_err w2 (.minor e1.fits) h)
        obtain ⟨N3, e3, -⟩ := (parseInt_wide _ _ _ _ _).1 h3
        simp only at h
        cases hd2 : eatChar '.' c3 with
        | mk b2 c4 =>
          rw [hd2] at h
          cases b2 with
          | false => cases h
          | true =>
            have w4 := (w2.trans e3.walk).trans (dot_walk ((eatChar_true_iff _ _ _).1 hd2))
            simp only at h
            cases hw2 : eatWildcard c4 with
            | some wc2 => rw [hw2] at h; cases h
            | none =>
              rw [hw2] at h
              simp only at h
              rw [bind_err] at h
              rcases h with h | ⟨⟨p, c5⟩, h5, h⟩
              · exact lift (number_err w4 (.patch e1.fits e3.fits) h)
              obtain ⟨N5, e5, -⟩ := (parseInt_wide _ _ _ _ _).1 h5
              have w5 := w4.trans e5.walk
              simp only at h
              rw [bind_err] at h
              rcases h with h | ⟨⟨o, c6⟩, h6, h⟩
              · exact lift (tags_err (.patch e1.fits e3.fits) e5.fits w5 (.inl h))
              have e6 := (optIdent_iff _ _ _ _ _).1 h6
              simp only at h
              rw [bind_err] at h
              rcases h with h | ⟨⟨o', c7⟩, h7, h⟩
              · exact lift (tags_err (.patch e1.fits e3.fits) e5.fits w5 (.inr ⟨o, c6, e6, h⟩))
              simp only at h
              split at h <;> cases h

theorem spaces_inj {i j : Nat} {r r' : Str} (h : startsWith (· == ' ') r = false) (h' : startsWith (· == ' ') r' = false)
    (e : spaces i ++ r = spaces j ++ r') : i = j ∧ r = r' := by
  induction i generalizing j with
  | zero =>
    cases j with
    | zero => exact ⟨rfl, by simpa [spaces] using e⟩
    | succ j =>
      have : r = ' ' :: (spaces j ++ r') := by simpa [spaces, List.replicate_succ] using e
      rw [this] at h; simp at h
  | succ i ih =>
    cases j with
    | zero =>
      have : r' = ' ' :: (spaces i ++ r) := by simpa [spaces, List.replicate_succ] using e.symm
      rw [this] at h'; simp at h'
    | succ j =>
      obtain ⟨rfl, h2⟩ := ih (j := j) (by simpa [spaces, List.replicate_succ] using e)
      exact ⟨rfl, h2⟩

theorem bare_wide {ovf : Bool} (i k : Nat) (w : WlChar) : WideItem ovf ⟨i, .wl, 0, .wl w, k⟩ :=
  ⟨trivial, fun _ => ⟨trivial, rfl⟩, by simp, by simp⟩

theorem items_nil {ovf : Bool} : Items ovf [] [] := ⟨by simp, rfl⟩

/-- The bare wildcard, as the first item. -/
theorem wildcardArm_err {ovf : Bool} {c0 c : Cur} {w : WlChar} {isFirst : Bool} {cs : Str} {e : Error} {its : List Item}
    {s : Str} {n : Nat} (h0 : c0.idx = 0) (hw : Walk (s ++ spaces n) c0 c) (hI : Items ovf its s) (hl : its.length ≤ 31)
    (hf : isFirst = true ↔ its = []) (hc : c.rest = w.char :: cs)
    (h : wildcardArm c0.start w isFirst c cs = .err e) : Rel (RequirementFault ovf) c0 e := by
  have hpos : c0.start.plus c.idx = c.pos := by rw [Cur.pos, hw.start]
  have hsp : (Error.wildcardNotTheSoleComparator w (c0.start.plus c.idx)).span = Span.fromPosLen c.pos (blen [w.char]) := by
    rw [hpos]; simp [Error.span, Span.asciiChar, Span.fromPosLen, wl_utf8 w]
  unfold wildcardArm at h
  simp only at h
  split at h
  · rename_i hn
    cases h
    refine .atEnd hw [w.char] cs hc hsp (.wildcardBehind hI (fun h => ?_) hl)
    rw [hf.2 h] at hn; cases hn
  rename_i hn
  have he : its = [] := hf.1 (by simpa using hn)
  subst he
  obtain ⟨-, rfl⟩ := hI
  simp only [List.flatMap_nil, List.nil_append] at hw
  have w1 := hw.trans (char_walk (wl_utf8 w) (c' := c.step cs) ⟨hc, rfl, rfl⟩)
  have front : ∀ (t : Str), cs = t → (t.head? = some ' ' ∨ t.head? = some ',') → (∀ j, t ≠ spaces j) →
      (∀ j k, t ≠ spaces j ++ [','] ++ spaces k) → Res.err (α := Comparator × Cur) (.wildcardNotTheSoleComparator w (c0.start.plus c.idx)) = .err e →
      Rel (RequirementFault ovf) c0 e := by
    intro t ht g1 g2 g3 h
    cases h
    subst ht
    exact .atEnd hw [w.char] cs hc hsp (.wildcardInFront g1 g2 g3)
  cases cs with
  | nil =>
    simp only at h
    obtain ⟨k, r, w2, hns, hws⟩ := ws_walk (c.step [])
    have : r = [] := by have := w2.text; simp [Cur.step] at this; exact this.2
    subst this
    rw [hws] at h
    simp only [expectCommaOrEnd, Res.bind_ok] at h
    cases h
  | cons x xs =>
    simp only at h
    by_cases hx : x = ',' ∨ x = ' '
    · rw [if_pos hx] at h
      simp only at h
      obtain ⟨k, r, w2, hns, hws⟩ := ws_walk (c.step (x :: xs))
      rw [hws] at h
      have ht : x :: xs = spaces k ++ r := w2.text
      have hh : (x :: xs).head? = some ' ' ∨ (x :: xs).head? = some ',' := by
        rcases hx with rfl | rfl
        · exact .inr rfl
        · exact .inl rfl
      have nil_ns : ∀ m, spaces m = spaces m ++ [] := by simp
      cases r with
      | nil =>
        simp only [expectCommaOrEnd, Res.bind_ok] at h
        cases h
      | cons y ys =>
        simp only at h
        have hnot : ∀ j, x :: xs ≠ spaces j := by
          intro j hj
          rw [ht, nil_ns j] at hj
          have := (spaces_inj hns rfl hj).2
          cases this
        split at h
        · rename_i hy
          subst hy
          obtain ⟨m, r2, w3, hns2, hws2⟩ := ws_walk (Cur.step ⟨(c.step (x :: xs)).start, (c.step (x :: xs)).idx + k, ',' :: ys⟩ ys)
          rw [hws2] at h
          split at h
          · rename_i hr
            simp only at hr
            subst hr
            cases h
            have w4 := w1.trans w2
            have hys : ys = spaces m := by have := w3.text; simpa [Cur.step] using this
            have hit : (Item.mk n .wl 0 (.wl w) k).text = spaces n ++ [w.char] ++ spaces k := by
              simp [Item.text, opWritten, cvText, spaces]
            rw [← hit] at w4
            refine .atEnd w4 [','] (spaces m) (by rw [hys]; rfl) ?_ (.trailing (its := []) (s := []) items_nil (by simp) (bare_wide n k w))
            have h1 : blen [','] = 1 := by decide
            simp [Error.span, Span.asciiChar, Span.fromPosLen, h1]
          · rename_i hr
            refine front _ rfl hh hnot ?_ h
            intro j l hj
            rw [ht, List.append_assoc] at hj
            obtain ⟨-, h2⟩ := spaces_inj hns (by simp) hj
            simp at h2
            have := w3.text
            simp only [Cur.step] at this
            rw [h2, nil_ns l] at this
            have := (spaces_inj rfl hns2 this).2
            exact hr this.symm
        · rename_i hy
          refine front _ rfl hh hnot ?_ h
          intro j l hj
          rw [ht, List.append_assoc] at hj
          obtain ⟨-, h2⟩ := spaces_inj hns (by simp) hj
          simp at h2
          exact hy h2.1
    · rw [if_neg hx] at h
      simp only at h
      cases h
      rw [not_or] at hx
      exact .atEnd w1 [x] xs rfl (by simp [Error.span]) (.wildcard hx.2 hx.1)

theorem parseOp_none {b : Char} {cs : Str} {c : Cur} (h : parseOp b cs c = none) :
    isDigit b = false ∧ b ∉ ['=', '<', '>', '^', '~'] := by
  unfold parseOp at h
  split at h
  · cases h
  split at h
  · cases h
  split at h
  · split at h <;> cases h
  split at h
  · split at h <;> cases h
  split at h
  · cases h
  split at h
  · cases h
  simp_all

theorem wlOf_none_iff {b : Char} (h : wlOf b = none) : b ∉ ['*', 'x', 'X'] := by
  unfold wlOf at h
  split at h
  · cases h
  split at h
  · cases h
  split at h
  · cases h
  simp_all

theorem comparatorStep_err {ovf : Bool} {c0 c : Cur} {e : Error} {its : List Item} {s : Str} {n : Nat} {b : Char} {cs : Str}
    (h0 : c0.idx = 0) (hw : Walk (s ++ spaces n) c0 c) (hI : Items ovf its s) (hl : its.length ≤ 32)
    (hc : c.rest = b :: cs) (hb : b ≠ ' ') (h : comparatorStep ovf c0.start its.length c b cs = .err e) :
    Rel (RequirementFault ovf) c0 e := by
  unfold comparatorStep at h
  split at h
  · rename_i hn
    cases h
    have : its.length = 32 := by simp [MAX_COMPARATORS] at hn; omega
    exact .atEnd hw (b :: cs) [] (by simp [hc]) rfl (.tooMany hI this (by simp) (by simpa using hb))
  rename_i hn
  have hn' : its.length ≤ 31 := by simp [MAX_COMPARATORS] at hn; omega
  simp only at h
  cases hwl : wlOf b with
  | some w =>
    rw [hwl] at h
    have := wlOf_some hwl
    subst this
    exact wildcardArm_err h0 hw hI hn' (by simp) hc h
  | none =>
    rw [hwl] at h
    simp only at h
    cases ho : parseOp b cs c with
    | none =>
      rw [ho] at h
      cases h
      obtain ⟨g1, g2⟩ := parseOp_none ho
      have g3 := wlOf_none_iff hwl
      refine .atEnd hw [b] cs hc (by simp [Error.span]) (.op hI hn' g1 ?_)
      simp at g2 g3 ⊢
      simp [g2, g3, hb]
    | some oc =>
      obtain ⟨op, c1⟩ := oc
      rw [ho] at h
      obtain ⟨o1, o2, o3, o4, o5⟩ := parseOp_sound b cs c c1 op hc ho
      have wop : Walk (opWritten op) c c1 := ⟨o1, o2, by rw [o3]; cases op <;> rfl⟩
      obtain ⟨k, r, w1, hns, hws⟩ := ws_walk c1
      simp only [hws] at h
      have hbk : op = .bl → k = 0 := by
        intro e
        have hd := o5 e
        subst e
        have e1 : c1.rest = b :: cs := by rw [← hc, o1]; rfl
        have := w1.text
        rw [e1] at this
        cases k with
        | zero => rfl
        | succ k =>
          simp [spaces, List.replicate_succ] at this
          exact absurd this.1 hb
      have w2 := (hw.trans wop).trans w1
      rw [bind_err] at h
      rcases h with h | ⟨⟨cv0, op', c2⟩, h2, h⟩
      · refine (compVersion_err h).shift w2 fun a b t hf => ?_
        exact .version hI hn' o4 hbk hf
      · obtain ⟨cv, ⟨v1, v2, v3, v4, v5⟩, -, rfl⟩ := compVersion_soundW _ _ _ _ _ _ h2
        simp only at h
        obtain ⟨k2, r2, w3, hns2, hws2⟩ := ws_walk c2
        rw [hws2] at h
        rw [bind_err] at h
        rcases h with h | ⟨a, -, h⟩
        · have wcv : Walk (cvText cv) ⟨c1.start, c1.idx + k, r⟩ c2 := ⟨v1, v2, by rw [v3, ascii_cvTextW v4]⟩
          have w4 := (w2.trans wcv).trans w3
          unfold expectCommaOrEnd at h
          simp only at h
          cases r2 with
          | nil => cases h
          | cons x xs =>
            simp only at h
            split at h
            · cases h
            · rename_i hx
              cases h
              have hopt : opWritten (opAfter cv op) = opWritten op := by
                unfold opAfter
                split
                · split
                  · rename_i e; rw [e]; rfl
                  · rfl
                · split
                  · rename_i e; rw [e]; rfl
                  · rfl
                · rfl
              have hit : s ++ (Item.mk n (opAfter cv op) k cv k2).text =
                  s ++ spaces n ++ opWritten op ++ spaces k ++ cvText cv ++ spaces k2 := by
                simp [Item.text, hopt]
              rw [← hit] at w4
              refine .atEnd w4 [] (x :: xs) rfl (ofPos_eq _) (.comma hI hn' ?_ (by simp) (by simpa using hx) (by simpa using hns2))
              refine ⟨v4, ?_, ?_, ?_⟩
              · intro e
                simp only at e
                have hwlbl : op = .bl ∧ HasWildcard cv := by
                  unfold opAfter at e
                  split at e
                  · split at e
                    · rename_i e'; exact ⟨e', by simp [HasWildcard]⟩
                    · exact absurd e o4
                  · split at e
                    · rename_i e'; exact ⟨e', by simp [HasWildcard]⟩
                    · exact absurd e o4
                  · exact absurd e o4
                exact ⟨hwlbl.2, hbk hwlbl.1⟩
              · intro e
                simp only at e
                have hbl : op = .bl ∧ ¬ HasWildcard cv := by
                  unfold opAfter at e
                  split at e
                  · split at e
                    · cases e
                    · rename_i e'; exact absurd e e'
                  · split at e
                    · cases e
                    · rename_i e'; exact absurd e e'
                  · rename_i g1 g2
                    refine ⟨e, ?_⟩
                    cases cv with
                    | wl w => exact absurd rfl (v5 w)
                    | major a w => cases w with
                      | none => simp [HasWildcard]
                      | some w => exact absurd rfl (g1 a w)
                    | minor a b w => cases w with
                      | none => simp [HasWildcard]
                      | some w => exact absurd rfl (g2 a b w)
                    | patch => simp [HasWildcard]
                    | pre => simp [HasWildcard]
                exact ⟨hbl.2, hbk hbl.1⟩
              · intro w e; exact absurd e (v5 w)
        · cases h

/-- The comma behind the last item. -/
def LastComma (ovf : Bool) (c0 : Cur) (its : List Item) (s : Str) (o : Nat) : Prop :=
  ∃ its' it s', Items ovf its' s' ∧ its = its' ++ [it] ∧ WideItem ovf it ∧ s = s' ++ it.text ++ [','] ∧ o = c0.idx + blen (s' ++ it.text)

theorem reqLoop_told {ovf : Bool} {c0 : Cur} (h0 : c0.idx = 0) (fuel : Nat) (c : Cur) (comps : List Comparator)
    (lc : Option Nat) (its : List Item) (s : Str) (hw : Walk s c0 c) (hI : Items ovf its s) (hl : its.length = comps.length)
    (hb : its.length ≤ 32) (hlc : ∀ o, lc = some o → LastComma ovf c0 its s o) :
    (∀ e, reqLoop ovf c0.start fuel c comps lc = .err e → Rel (RequirementFault ovf) c0 e) ∧
    (∀ comps' o, reqLoop ovf c0.start fuel c comps lc = .ok (comps', some o) →
      ∃ its s j, LastComma ovf c0 its s o ∧ its.length ≤ 32 ∧ c0.rest = s ++ spaces j) ∧
    (∀ o, reqLoop ovf c0.start fuel c comps lc = .ok ([], o) → ∃ j, c0.rest = s ++ spaces j ∧ its = []) := by
  induction fuel generalizing c comps lc its s with
  | zero => exact ⟨fun e h => (by cases h), fun _ _ h => (by cases h), fun _ h => (by cases h)⟩
  | succ fuel ih =>
    obtain ⟨n, r, w1, hns, hws⟩ := ws_walk c
    simp only [reqLoop, hws]
    cases r with
    | nil =>
      refine ⟨fun e h => (by cases h), fun comps' o h => ?_, fun o h => ?_⟩
      · simp only [Res.ok.injEq, Prod.mk.injEq] at h
        exact ⟨its, s, n, hlc o h.2, hb, by rw [(hw.trans w1).text]; simp⟩
      · simp only [Res.ok.injEq, Prod.mk.injEq] at h
        refine ⟨n, by rw [(hw.trans w1).text]; simp, ?_⟩
        rw [h.1] at hl; exact List.length_eq_zero_iff.1 hl
    | cons b cs =>
      simp only
      have hbs : b ≠ ' ' := by simpa using hns
      have w2 := hw.trans w1
      have step : ∀ comp c1, comparatorStep ovf c0.start comps.length ⟨c.start, c.idx + n, b :: cs⟩ b cs = .ok (comp, c1) →
          (c1.rest = [] ∧ comp.comma = none) ∨ ∃ it, Walk (s ++ (Item.text it ++ [','])) c0 c1 ∧ WideItem ovf it ∧
            (∀ w, it.cv ≠ .wl w) ∧ its.length < 32 ∧ comp.comma = some (c0.idx + blen (s ++ Item.text it)) := by
        intro comp c1 h1
        obtain ⟨it, st⟩ := comparatorStep_soundW _ _ _ _ _ _ _ rfl _ h1
        rcases st.text with ⟨t1, t2, -⟩ | ⟨t1, t2, t3⟩
        · exact .inl ⟨t2, t1⟩
        · right
          have hlead : (it.lead n).text = spaces n ++ it.text := by rw [Item.lead_text st.sp0]
          have has := ascii_itemW st.valid
          have w3 : Walk (it.text ++ [',']) ⟨c.start, c.idx + n, b :: cs⟩ c1 := by
            refine ⟨by rw [t2]; simp, st.start, ?_⟩
            have hcm : blen [','] = 1 := by decide
            rw [t3, blen_append, has, hcm]; simp only; omega
          have w4 := w2.trans w3
          refine ⟨it.lead n, ?_, wideItem_lead st.valid n, ?_, ?_, ?_⟩
          · rw [hlead]; simpa using w4
          · intro w hw
            have := (st.bare w hw).2
            rw [t1] at this; cases this
          · rw [hl]; exact st.bound
          · rw [t1, hlead, blen_append, blen_append, blen_spaces, has]
            have := w2.idx
            simp only [blen_append, blen_spaces] at this
            simp only; congr 1; omega
      have hnext : ∀ comp c1, comparatorStep ovf c0.start comps.length ⟨c.start, c.idx + n, b :: cs⟩ b cs = .ok (comp, c1) →
          (∀ e, reqLoop ovf c0.start fuel c1 (comps ++ [comp]) comp.comma = .err e → Rel (RequirementFault ovf) c0 e) ∧
          (∀ comps' o, reqLoop ovf c0.start fuel c1 (comps ++ [comp]) comp.comma = .ok (comps', some o) →
            ∃ its s j, LastComma ovf c0 its s o ∧ its.length ≤ 32 ∧ c0.rest = s ++ spaces j) ∧
          (∀ o, reqLoop ovf c0.start fuel c1 (comps ++ [comp]) comp.comma ≠ .ok ([], o)) := by
        intro comp c1 h1
        rcases step comp c1 h1 with ⟨g1, g2⟩ | ⟨it, g1, g2, g3, g4, g5⟩
        · have hend : reqLoop ovf c0.start fuel c1 (comps ++ [comp]) comp.comma = .panic ∨
              reqLoop ovf c0.start fuel c1 (comps ++ [comp]) comp.comma = .ok (comps ++ [comp], none) := by
            cases fuel with
            | zero => exact .inl rfl
            | succ fuel =>
              right
              obtain ⟨m, r, w5, hns5, hws5⟩ := ws_walk c1
              have := w5.text
              rw [g1] at this
              have hr : r = [] := by simp at this; exact this.2
              subst hr
              simp only [reqLoop, hws5, g2]
          refine ⟨fun e h => ?_, fun comps' o h => ?_, fun o h => ?_⟩
          · rcases hend with h' | h' <;> rw [h'] at h <;> cases h
          · rcases hend with h' | h' <;> rw [h'] at h <;> cases h
          · rcases hend with h' | h' <;> rw [h'] at h
            · cases h
            · simp at h
        · have hI' : Items ovf (its ++ [it]) (s ++ (it.text ++ [','])) := by
            refine ⟨?_, by rw [hI.2]; simp⟩
            intro x hx
            rcases List.mem_append.1 hx with hx | hx
            · exact hI.1 x hx
            · simp at hx; subst hx; exact ⟨g2, g3⟩
          obtain ⟨k1, k2, k3⟩ := ih c1 (comps ++ [comp]) comp.comma (its ++ [it]) _ g1 hI' (by simp [hl]) (by simp; omega)
            (fun o ho => by
              rw [g5] at ho
              cases ho
              exact ⟨its, it, s, hI, rfl, g2, by simp, rfl⟩)
          exact ⟨k1, k2, fun o ho => by have := (k3 o ho).choose_spec.2; simp at this⟩
      refine ⟨fun e h => ?_, fun comps' o h => ?_, fun o h => ?_⟩
      · rw [bind_err] at h
        rcases h with h | ⟨⟨comp, c1⟩, h1, h⟩
        · rw [← hl] at h
          exact comparatorStep_err h0 w2 hI hb rfl hbs h
        · exact (hnext comp c1 h1).1 e h
      · rw [Res.bind_eq_ok] at h
        obtain ⟨⟨comp, c1⟩, h1, h⟩ := h
        exact (hnext comp c1 h1).2.1 comps' o h
      · rw [Res.bind_eq_ok] at h
        obtain ⟨⟨comp, c1⟩, h1, h⟩ := h
        exact absurd h ((hnext comp c1 h1).2.2 o)

theorem parseRequirement_err (ovf : Bool) (input : Str) (pos : Pos) (e : Error)
    (h : parseRequirement ovf input pos = .err e) : Rel (RequirementFault ovf) (Cur.new pos input) e := by
  obtain ⟨k1, k2, k3⟩ := reqLoop_told (ovf := ovf) (c0 := Cur.new pos input) rfl (input.length + 1) (Cur.new pos input) [] none [] []
    (Walk.refl _) items_nil rfl (by simp) (by simp)
  unfold parseRequirement at h
  rw [bind_err] at h
  rcases h with h | ⟨⟨comps, lc⟩, h1, h⟩
  · exact k1 e h
  · simp only at h
    cases lc with
    | some o =>
      simp only [Res.err.injEq] at h
      subst h
      obtain ⟨its, s, j, ⟨its', it, s', g1, g2, g3, g4, g5⟩, hlen, hr⟩ := k2 comps o h1
      refine ⟨s' ++ it.text, [','], spaces j, by rw [hr, g4], ?_, .trailing g1 ?_ g3⟩
      · have hcm : blen [','] = 1 := by decide
        rw [g5]
        simp [Error.span, Span.asciiChar, Span.fromPosLen, hcm, Cur.pos, Cur.new, plus_plus, Pos.plus]
      · rw [g2] at hlen; simp at hlen; omega
    | none =>
      simp only at h
      split at h
      · rename_i hc
        subst hc
        cases h
        obtain ⟨j, hr, -⟩ := k3 none h1
        exact .here [] (spaces j) (by simpa using hr) (by rw [Error.span, ofPos_eq]; simp [Cur.pos, Cur.new, Pos.plus]) .empty
      · cases h

theorem Rel.told {F : Error → Str → Str → Str → Prop} {input : Str} {pos : Pos} {e : Error}
    (h : Rel F (Cur.new pos input) e) : Told F pos input e := by
  obtain ⟨a, b, t, h1, h2, h3⟩ := h
  refine ⟨a, b, t, h1, ?_, h3⟩
  rw [h2]
  simp [Span.fromPosLen, Cur.pos, Cur.new, plus_plus]

end Verif.Semver
