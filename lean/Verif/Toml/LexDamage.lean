import Verif.Toml.LexLine
import Verif.Toml.TokExt
import Verif.Toml.LineLoop

/-! # The tokenizer on right parts and damaged lines -/

namespace Verif.Toml
open Verif Verif.Spec.Toml

variable {L L' L1 Lf : Lexer} {R pre w rest : Str} {vs ts : List (View × Pos)}

/-- From `L`, the tokenizer ends with `Lf`. -/
def Fin' (L : Lexer) (rest : Str) (Lf : Lexer) : Prop :=
  ∀ n, rest.length < n → (lexLoop n L rest).bind endLiteral = some Lf

theorem Fin'.step {c : Char} {cs : Str} {r : Str} (h : lexStep L c cs = some (L1, r)) (hr : r.length ≤ cs.length)
    (hf : Fin' L1 r Lf) : Fin' L (c :: cs) Lf := by
  intro n hn
  obtain ⟨m, rfl⟩ : ∃ m, n = m + 1 := ⟨n - 1, by simp at hn; omega⟩
  simp only [lexLoop, Option.bind_eq_bind, h, Option.bind_some]
  exact hf m (by simp at hn; omega)

theorem suffix_of {a b c d : Str} (h : a ++ b = c ++ d) (hl : d.length ≤ b.length) : ∃ z, b = z ++ d := by
  rcases List.append_eq_append_iff.1 h with ⟨z, -, h2⟩ | ⟨z, -, h2⟩
  · exact ⟨z, h2⟩
  · refine ⟨[], ?_⟩
    have : z.length = 0 := by have := congrArg List.length h2; simp at this; omega
    rw [List.eq_nil_of_length_eq_zero this] at h2
    simpa using h2.symm

/-- The text left is the end `R`, or it still has the line break in front of `R`. -/
def BreakAhead (R rest w : Str) : Prop := (∃ x, rest = x ++ '\n' :: R) ∨ (rest = R ∧ w = [])

/-- A right part, up to its line break. -/
theorem right_chunk : ∀ (n : Nat) {L : Lexer} {pre w rest : Str} {vs ts : List (View × Pos)}, rest.length ≤ n →
    Main L pre w rest vs → TokTo R pre (w ++ rest) ts → BreakAhead R rest w →
    ∃ L' pre' T, (∀ Lf, Fin' L' R Lf → Fin' L rest Lf) ∧ L'.errors = L.errors ∧ L'.input = L.input ∧
      Main L' pre' [] R (vs ++ ts) ∧ Grown L L' [] T := by
  intro n
  induction n with
  | zero =>
    intro L pre w rest vs ts hn hM ht ha
    rcases ha with ⟨x, rfl⟩ | ⟨rfl, rfl⟩
    · simp at hn
    · rw [List.nil_append] at ht
      rw [tokTo_self ht]
      exact ⟨L, pre, [], fun _ h => h, rfl, rfl, by simpa using hM, .same rfl rfl⟩
  | succ n ih =>
    intro L pre w rest vs ts hn hM ht ha
    rcases ha with ⟨x, hx⟩ | ⟨rfl, rfl⟩
    rotate_left
    · rw [List.nil_append] at ht
      rw [tokTo_self ht]
      exact ⟨L, pre, [], fun _ h => h, rfl, rfl, by simpa using hM, .same rfl rfl⟩
    · obtain ⟨c, cs, rfl⟩ : ∃ c cs, rest = c :: cs := by
        cases rest with
        | nil => simp at hx
        | cons c cs => exact ⟨c, cs, rfl⟩
      obtain ⟨L1, pre1, w1, r1, vs1, e1, e2, e3, e4⟩ := lexStep_post hM
      obtain ⟨es, T, s1, s2, s3, s4, s5, s6⟩ := e2
      have hstop : Stop R (c :: cs) := .inr ⟨x, hx⟩
      rcases s6 with ⟨rfl, s6⟩ | ⟨-, s6⟩
      rotate_left
      · exact absurd ht (s6 R hstop ts)
      obtain ⟨t, rfl, ht'⟩ := (s6 R hstop ts).1 ht
      have hin : pre ++ w ++ c :: cs = pre1 ++ w1 ++ r1 := by
        rw [← hM.st.input, ← s5.st.input, s3]
      obtain ⟨z, hz⟩ := suffix_of hin (by simp; omega)
      have ha' : BreakAhead R r1 w1 := by
        by_cases hw : w1 = []
        · subst hw
          obtain ⟨y, hy⟩ := ht'.suffix
          rw [List.nil_append] at hy
          by_cases hy0 : y = []
          · subst hy0
            exact .inr ⟨hy, rfl⟩
          · left
            have e : (z ++ y) ++ R = (x ++ ['\n']) ++ R := by
              rw [List.append_assoc, ← hy, ← hz, hx]; simp
            have e' := List.append_cancel_right e
            obtain ⟨y0, hy1⟩ : ∃ y0, y = y0 ++ ['\n'] := by
              rw [← List.getLast?_eq_some_iff]
              rw [← lastApp (a := z) hy0, e']
              simp
            exact ⟨y0, by rw [hy, hy1]; simp⟩
        · have := e4 hw
          subst this
          cases x with
          | nil =>
            simp only [List.nil_append, List.cons.injEq] at hx
            obtain ⟨rfl, rfl⟩ := hx
            have e : (pre ++ w ++ ['\n']) ++ r1 = (pre1 ++ w1) ++ r1 := by rw [← hin]; simp
            have e' := List.append_cancel_right e
            obtain ⟨w0, hw1⟩ : ∃ w0, w1 = w0 ++ ['\n'] := by
              rw [← List.getLast?_eq_some_iff]
              rw [← lastApp (a := pre1) hw, ← e']
              simp
            have := s5.word w0 '\n' [] hw1
            have h2 := (startsWord_of this).2.2.2.1
            exact absurd rfl h2
          | cons d x =>
            simp only [List.cons_append, List.cons.injEq] at hx
            exact .inl ⟨x, hx.2⟩
      obtain ⟨L2, pre2, T2, g1, g2, g3, g4, g5⟩ := ih (by simp at hn; omega) s5 ht' ha'
      refine ⟨L2, pre2, T ++ T2, fun Lf hf => (g1 Lf hf).step e1 e3, by rw [g2, s1]; simp, g3.trans s3,
        by rw [← List.append_assoc]; exact g4, by simpa using s4.trans g5⟩

/-- A right part at the end of the document. -/
theorem right_end : ∀ (n : Nat) {L : Lexer} {pre w rest : Str} {vs ts : List (View × Pos)}, rest.length ≤ n →
    Main L pre w rest vs → TokTo [] pre (w ++ rest) ts →
    ∃ Lf pre' T, Fin' L rest Lf ∧ Lf.errors = L.errors ∧ Lf.input = L.input ∧
      Main Lf pre' [] [] (vs ++ ts) ∧ Grown L Lf [] T := by
  intro n
  induction n with
  | zero =>
    intro L pre w rest vs ts hn hM ht
    have : rest = [] := List.eq_nil_of_length_eq_zero (by omega)
    subst this
    have hA : Main (L.atNext []) pre w [] vs :=
      ⟨hM.st.atNext, hM.toks, hM.laid, hM.lit, hM.word, hM.strs, hM.com, hM.ended⟩
    obtain ⟨L2, vs2, a1, a2, a3, a4⟩ := endLiteral_step hA hM.st.atNext_bytePos rfl
    obtain ⟨es, T, s1, s2, s3, s4, s5, s6⟩ := a4
    rcases s6 with ⟨rfl, s6⟩ | ⟨-, s6⟩
    rotate_left
    · exact absurd ht (s6 [] (.inl rfl) ts)
    obtain ⟨t, rfl, ht'⟩ := (s6 [] (.inl rfl) ts).1 ht
    have : t = [] := by simpa [tok_nil] using ht'
    subst this
    refine ⟨L2, pre ++ w, T, ?_, by simpa [Lexer.atNext] using s1, s3, by simpa using s5, ⟨s4.tokens, s4.strings, s4.closed⟩⟩
    intro m hm
    obtain ⟨m, rfl⟩ : ∃ k, m = k + 1 := ⟨m - 1, by simp at hm; omega⟩
    simp only [lexLoop, Option.bind_some]
    exact a1
  | succ n ih =>
    intro L pre w rest vs ts hn hM ht
    cases rest with
    | nil => exact ih (by simp) hM ht
    | cons c cs =>
      obtain ⟨L1, pre1, w1, r1, vs1, e1, e2, e3, e4⟩ := lexStep_post hM
      obtain ⟨es, T, s1, s2, s3, s4, s5, s6⟩ := e2
      rcases s6 with ⟨rfl, s6⟩ | ⟨-, s6⟩
      rotate_left
      · exact absurd ht (s6 [] (.inl rfl) ts)
      obtain ⟨t, rfl, ht'⟩ := (s6 [] (.inl rfl) ts).1 ht
      obtain ⟨L2, pre2, T2, g1, g2, g3, g4, g5⟩ := ih (by simp at hn; omega) s5 ht'
      refine ⟨L2, pre2, T ++ T2, g1.step e1 e3, by rw [g2, s1]; simp, g3.trans s3,
        by rw [← List.append_assoc]; exact g4, by simpa using s4.trans g5⟩

/-! ## Damaged lines -/

/-- What is left of a damaged line; no `[` if `v`. -/
structure LineLeft (v : Bool) (u : Str) : Prop where
  oneLine : '\n' ∉ u
  noBasic : ¬ ∃ a b, u = a ++ '"' :: '"' :: '"' :: b
  noLiteral : ¬ ∃ a b, u = a ++ '\'' :: '\'' :: '\'' :: b
  noArray : ∀ a b, u = a ++ '=' :: b → '[' ∉ b
  val : v = true → '[' ∉ u

theorem LineLeft.drop {v : Bool} {c : Char} {x u : Str} (h : LineLeft v (c :: (x ++ u))) :
    LineLeft (v || decide (c = '=')) u := by
  refine ⟨fun hh => h.oneLine (by simp [hh]), ?_, ?_, ?_, ?_⟩
  · rintro ⟨a, b, rfl⟩
    exact h.noBasic ⟨c :: (x ++ a), b, by simp⟩
  · rintro ⟨a, b, rfl⟩
    exact h.noLiteral ⟨c :: (x ++ a), b, by simp⟩
  · rintro a b rfl
    exact h.noArray (c :: (x ++ a)) b (by simp)
  · intro hv hh
    simp only [Bool.or_eq_true, decide_eq_true_eq] at hv
    rcases hv with hv | rfl
    · exact h.val hv (by simp [hh])
    · exact h.noArray [] (x ++ u) rfl (by simp [hh])

theorem StepToks.arr {c : Char} {T a : List Token} {v : Bool} (h : StepToks c T) (hv : v = true → c ≠ '[')
    (ha : Arr (v || decide (c = '=')) a) : Arr v (T ++ a) := by
  have quiet : ∀ {W a : List Token}, QuietToks W → Arr v a → Arr v (W ++ a) := by
    intro W
    induction W with
    | nil => intro a _ h; exact h
    | cons t W ih =>
      intro a hW h
      obtain ⟨h1, h2, h3, h4⟩ := hW t (by simp)
      refine ⟨fun _ => h2, ?_⟩
      rw [decide_eq_false h3, Bool.or_false]
      exact ih (fun t ht => hW t (by simp [ht])) h
  rcases h with h | ⟨W, ty, p, h1, h2, rfl⟩
  · exact quiet h (ha.mono (by intro h; simp [h]))
  · rw [List.append_assoc]
    refine quiet h1 ⟨fun h => ?_, ha.mono ?_⟩
    · rintro rfl
      refine hv h ?_
      unfold punct at h2
      repeat' split at h2
      all_goals first | assumption | cases h2
    · intro h
      simp only [Bool.or_eq_true, decide_eq_true_eq] at h ⊢
      rcases h with h | rfl
      · exact .inl h
      · right
        unfold punct at h2
        repeat' split at h2
        all_goals first | assumption | cases h2

theorem QuietToks.curls {W : List Token} (h : QuietToks W) : curls W = 0 := by
  unfold Verif.Toml.curls
  rw [List.countP_eq_zero]
  intro t ht
  simpa using (h t ht).2.2.2

theorem StepToks.curls {c : Char} {T : List Token} (h : StepToks c T) (u : Str) (hc : punct c ≠ none → c ∈ u) :
    curls T ≤ [c].count '{' ∧ (curls T ≤ u.count '{') := by
  rcases h with h | ⟨W, ty, p, h1, h2, rfl⟩
  · rw [h.curls]; simp
  · have h0 := h1.curls
    unfold Verif.Toml.curls at h0 ⊢
    rw [List.countP_append, h0]
    by_cases hty : ty = .curlyLeft
    · have hc' : c = '{' := by
        subst hty
        unfold punct at h2
        repeat' split at h2
        all_goals first | assumption | cases h2
      subst hc'
      have : 0 < u.count '{' := List.count_pos_iff.2 (hc (by rw [h2]; simp))
      simp only [hty, List.countP_singleton, decide_true, if_true, List.count_singleton]
      exact ⟨by simp, by omega⟩
    · simp [hty]

theorem curls_append (a b : List Token) : curls (a ++ b) = curls a + curls b := by
  unfold curls; rw [List.countP_append]

theorem StepToks.nl {c : Char} {T : List Token} (h : StepToks c T) : ∀ t ∈ T, t.ty ≠ .newline := by
  rcases h with h | ⟨W, ty, p, h1, h2, rfl⟩
  · exact fun t ht => (h t ht).1
  · intro t ht
    rcases List.mem_append.1 ht with ht | ht
    · exact (h1 t ht).1
    · rw [List.mem_singleton.1 ht]
      rintro rfl
      unfold punct at h2
      repeat' split at h2
      all_goals cases h2

theorem cut_line : ∀ {x u r R : Str}, '\n' ∉ x → '\n' ∉ u → x ++ '\n' :: r = u ++ '\n' :: R → x = u ∧ r = R := by
  intro x
  induction x with
  | nil =>
    intro u r R _ hu h
    cases u with
    | nil => simpa using h
    | cons d u =>
      simp only [List.nil_append, List.cons_append, List.cons.injEq] at h
      exact absurd (by rw [h.1]; simp) hu
  | cons c x ih =>
    intro u r R hx hu h
    cases u with
    | nil =>
      simp only [List.nil_append, List.cons_append, List.cons.injEq] at h
      exact absurd (by rw [← h.1]; simp) hx
    | cons d u =>
      simp only [List.cons_append, List.cons.injEq] at h
      obtain ⟨rfl, h⟩ := h
      obtain ⟨rfl, rfl⟩ := ih (fun hh => hx (by simp [hh])) (fun hh => hu (by simp [hh])) h
      exact ⟨rfl, rfl⟩

theorem cut_inside : ∀ {x u r R : Str}, '\n' ∉ x → x ++ r = u ++ '\n' :: R → ∃ u', u = x ++ u' ∧ r = u' ++ '\n' :: R := by
  intro x
  induction x with
  | nil => intro u r R _ h; exact ⟨u, rfl, h⟩
  | cons c x ih =>
    intro u r R hx h
    cases u with
    | nil =>
      simp only [List.nil_append, List.cons_append, List.cons.injEq] at h
      exact absurd (by rw [← h.1]; simp) hx
    | cons d u =>
      simp only [List.cons_append, List.cons.injEq] at h
      obtain ⟨rfl, h⟩ := h
      obtain ⟨u', rfl, h'⟩ := ih (fun hh => hx (by simp [hh])) h
      exact ⟨u', rfl, h'⟩

/-- Three quotes at the head. -/
theorem LineLeft.triple {v : Bool} {u R cs : Str} {c : Char} (h : LineLeft v u) (hc : c = '"' ∨ c = '\'')
    (hr : c :: cs = u ++ R) (hR : R = [] ∨ ∃ R', R = '\n' :: R') : ¬ ∃ t, cs = c :: c :: t := by
  rintro ⟨t, rfl⟩
  have hcn : c ≠ '\n' := (quote_size hc).2
  have hlen : ∃ b, u = c :: c :: c :: b := by
    match u with
    | [] =>
      rcases hR with rfl | ⟨R', rfl⟩
      · cases hr
      · simp only [List.nil_append, List.cons.injEq] at hr; exact absurd hr.1 hcn
    | [_] =>
      rcases hR with rfl | ⟨R', rfl⟩
      · cases hr
      · simp only [List.cons_append, List.nil_append, List.cons.injEq] at hr; exact absurd hr.2.1 hcn
    | [_, _] =>
      rcases hR with rfl | ⟨R', rfl⟩
      · cases hr
      · simp only [List.cons_append, List.nil_append, List.cons.injEq] at hr; exact absurd hr.2.2.1 hcn
    | x :: y :: z :: b =>
      simp only [List.cons_append, List.cons.injEq] at hr
      obtain ⟨rfl, rfl, rfl, -⟩ := hr
      exact ⟨b, rfl⟩
  obtain ⟨b, rfl⟩ := hlen
  rcases hc with rfl | rfl
  · exact h.noBasic ⟨[], b, rfl⟩
  · exact h.noLiteral ⟨[], b, rfl⟩

/-- A damaged line, up to its line break. -/
theorem damaged_chunk {ℓ : Nat} : ∀ (n : Nat) {L : Lexer} {pre w u : Str} {vs : List (View × Pos)} {v : Bool},
    u.length ≤ n → Main L pre w (u ++ '\n' :: R) vs → LineLeft v u → L.lineIdx = ℓ →
    (L.inLit = true → L.litStart.line = ℓ) →
    ∃ L' pre' a nl vs', (∀ Lf, Fin' L' R Lf → Fin' L (u ++ '\n' :: R) Lf) ∧ L'.input = L.input ∧
      Main L' pre' [] R (vs ++ vs') ∧ LexOn ℓ L L' (a ++ [nl]) ∧ nl.ty = .newline ∧ (∀ t ∈ a, t.ty ≠ .newline) ∧
      Arr v a ∧ curls a ≤ u.count '{' := by
  intro n
  induction n with
  | zero =>
    intro L pre w u vs v hn hM hu hi hl
    have : u = [] := List.eq_nil_of_length_eq_zero (by omega)
    subst this
    rw [List.nil_append] at hM ⊢
    obtain ⟨L1, pre1, w1, r1, vs1, e1, e2, e3, e4⟩ := lexStep_post hM
    obtain ⟨es, T, s1, s2, s3, s4, s5, s6⟩ := e2
    obtain ⟨g1, g2⟩ := lexStep_line (ℓ := ℓ) e1 hi hl (fun h => by rcases h with h | h <;> cases h)
    cases g1 with
    | @inside x T' k1 k2 k3 k4 k5 =>
      cases x with
      | nil =>
        have := congrArg List.length k1
        simp at this; omega
      | cons d x =>
        simp only [List.cons_append, List.cons.injEq] at k1
        exact absurd (by rw [k1.1]; simp) k2
    | @across x T' nl k1 k2 k3 k4 k5 k6 =>
      obtain ⟨rfl, rfl⟩ := cut_line (u := []) k2 (by simp) k1.symm
      have hw : w1 = [] := by
        rcases s5.lit with ⟨h1, -⟩ | ⟨-, h1⟩
        · rw [k3] at h1; cases h1
        · exact h1
      subst hw
      refine ⟨L1, pre1, T', nl, vs1, fun Lf hf => hf.step e1 e3, s3, s5, k4, k5, k6.nl, ?_, ?_⟩
      · have := StepToks.arr (a := []) (v := v) k6 (fun _ => by decide) (by trivial)
        simpa using this
      · exact (k6.curls [] (fun h => absurd (by decide) h)).2
  | succ n ih =>
    intro L pre w u vs v hn hM hu hi hl
    cases u with
    | nil => exact ih (by simp) hM hu hi hl
    | cons c u =>
      rw [List.cons_append] at hM ⊢
      obtain ⟨L1, pre1, w1, r1, vs1, e1, e2, e3, e4⟩ := lexStep_post hM
      obtain ⟨es, T, s1, s2, s3, s4, s5, s6⟩ := e2
      obtain ⟨g1, g2⟩ := lexStep_line (ℓ := ℓ) e1 hi hl (fun h => hu.triple h (R := '\n' :: R) rfl (.inr ⟨R, rfl⟩))
      have hc : c ≠ '\n' := fun e => hu.oneLine (by rw [e]; simp)
      cases g1 with
      | @inside x T' k1 k2 k3 k4 k5 =>
        obtain ⟨d, x, rfl⟩ : ∃ d x', x = d :: x' := by
          cases x with
          | nil =>
            have := congrArg List.length k1
            simp at this e3; omega
          | cons d x => exact ⟨d, x, rfl⟩
        simp only [List.cons_append, List.cons.injEq] at k1
        obtain ⟨rfl, k1⟩ := k1
        obtain ⟨u', rfl, rfl⟩ := cut_inside (fun hh => k2 (by simp [hh])) k1.symm
        obtain ⟨L2, pre2, a, nl, vs2, f1, f2, f3, f4, f5, f6, f7, f8⟩ := ih (by simp at hn; omega) s5 hu.drop k3 g2
        refine ⟨L2, pre2, T' ++ a, nl, vs1 ++ vs2, fun Lf hf => (f1 Lf hf).step e1 e3, f2.trans s3,
          by rw [← List.append_assoc]; exact f3, by rw [List.append_assoc]; exact k4.trans f4, f5, ?_, ?_, ?_⟩
        · intro t ht
          rcases List.mem_append.1 ht with ht | ht
          · exact k5.nl t ht
          · exact f6 t ht
        · exact k5.arr (fun hv e => hu.val hv (by rw [e]; simp)) f7
        · have := (k5.curls [c] (by simp)).1
          rw [curls_append]
          rw [show c :: (x ++ u') = [c] ++ (x ++ u') from rfl, List.count_append, List.count_append]
          omega
      | @across x T' nl k1 k2 k3 k4 k5 k6 =>
        obtain ⟨rfl, rfl⟩ := cut_line (u := c :: u) k2 hu.oneLine k1.symm
        have hw : w1 = [] := by
          rcases s5.lit with ⟨h1, -⟩ | ⟨-, h1⟩
          · rw [k3] at h1; cases h1
          · exact h1
        subst hw
        refine ⟨L1, pre1, T', nl, vs1, fun Lf hf => hf.step e1 e3, s3, s5, k4, k5, k6.nl, ?_, ?_⟩
        · have := StepToks.arr (a := []) (v := v) k6 (fun hv e => hu.val hv (by rw [e]; simp)) (by trivial)
          simpa using this
        · exact (k6.curls (c :: u) (by simp)).2

/-- A damaged line at the end of the document. -/
theorem damaged_end {ℓ : Nat} : ∀ (n : Nat) {L : Lexer} {pre w u : Str} {vs : List (View × Pos)} {v : Bool},
    u.length ≤ n → Main L pre w u vs → LineLeft v u → L.lineIdx = ℓ →
    (L.inLit = true → L.litStart.line = ℓ) →
    ∃ Lf pre' a vs', Fin' L u Lf ∧ Lf.input = L.input ∧ Main Lf pre' [] [] (vs ++ vs') ∧ LexOn ℓ L Lf a ∧
      (∀ t ∈ a, t.ty ≠ .newline) ∧ Arr v a ∧ curls a ≤ u.count '{' ∧ Lf.lineIdx = ℓ := by
  intro n
  induction n with
  | zero =>
    intro L pre w u vs v hn hM hu hi hl
    have : u = [] := List.eq_nil_of_length_eq_zero (by omega)
    subst this
    have hA : Main (L.atNext []) pre w [] vs :=
      ⟨hM.st.atNext, hM.toks, hM.laid, hM.lit, hM.word, hM.strs, hM.com, hM.ended⟩
    obtain ⟨L2, vs2, a1, a2, a3, a4⟩ := endLiteral_step hA hM.st.atNext_bytePos rfl
    obtain ⟨es, T, s1, s2, s3, s4, s5, s6⟩ := a4
    obtain ⟨T', k1, k2, k3, k4⟩ := endLiteral_line (ℓ := ℓ) a1 hl
    refine ⟨L2, pre ++ w, T', vs2, ?_, s3, s5, k1.from rfl rfl rfl, fun t ht => (k2 t ht).1, ?_, by rw [k2.curls]; simp,
      k4.trans hi⟩
    · intro m hm
      obtain ⟨m, rfl⟩ : ∃ k, m = k + 1 := ⟨m - 1, by simp at hm; omega⟩
      simp only [lexLoop, Option.bind_some]
      exact a1
    · have := StepToks.arr (a := []) (c := 'x') (v := v) (.inl k2) (fun _ => by decide) (by trivial)
      simpa using this
  | succ n ih =>
    intro L pre w u vs v hn hM hu hi hl
    cases u with
    | nil => exact ih (by simp) hM hu hi hl
    | cons c u =>
      obtain ⟨L1, pre1, w1, r1, vs1, e1, e2, e3, e4⟩ := lexStep_post hM
      obtain ⟨es, T, s1, s2, s3, s4, s5, s6⟩ := e2
      obtain ⟨g1, g2⟩ := lexStep_line (ℓ := ℓ) e1 hi hl (fun h => hu.triple h (R := []) (by simp) (.inl rfl))
      have hc : c ≠ '\n' := fun e => hu.oneLine (by rw [e]; simp)
      cases g1 with
      | @inside x T' k1 k2 k3 k4 k5 =>
        obtain ⟨d, x, rfl⟩ : ∃ d x', x = d :: x' := by
          cases x with
          | nil =>
            have := congrArg List.length k1
            simp at this e3; omega
          | cons d x => exact ⟨d, x, rfl⟩
        simp only [List.cons_append, List.cons.injEq] at k1
        obtain ⟨rfl, rfl⟩ := k1
        obtain ⟨L2, pre2, a, vs2, f1, f2, f3, f4, f6, f7, f8, f9⟩ := ih (by simp at hn; omega) s5 hu.drop k3 g2
        refine ⟨L2, pre2, T' ++ a, vs1 ++ vs2, f1.step e1 e3, f2.trans s3,
          by rw [← List.append_assoc]; exact f3, k4.trans f4, ?_, ?_, ?_, f9⟩
        · intro t ht
          rcases List.mem_append.1 ht with ht | ht
          · exact k5.nl t ht
          · exact f6 t ht
        · exact k5.arr (fun hv e => hu.val hv (by rw [e]; simp)) f7
        · have := (k5.curls [c] (by simp)).1
          rw [curls_append]
          rw [show c :: (x ++ r1) = [c] ++ (x ++ r1) from rfl, List.count_append, List.count_append]
          omega
      | @across x T' nl k1 k2 k3 k4 k5 k6 =>
        exact absurd (by rw [k1]; simp) hu.oneLine

end Verif.Toml
