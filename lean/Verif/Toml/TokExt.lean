import Verif.Toml.TokInv

/-! # Lemmas: tokens do not depend on the following lines -/

namespace Verif.Toml
open Verif Verif.Spec.Toml

theorem lastApp {a s : Str} (h : s ≠ []) : (a ++ s).getLast? = s.getLast? := by
  rw [List.getLast?_append]
  cases hs : s.getLast? with
  | none => exact absurd (List.getLast?_eq_none_iff.1 hs) h
  | some => rfl

theorem strTail_end {q : Quote} {s txt rest : Str} (h : StrTail q s txt rest) :
    ∃ y, s = y ++ quoteChar q :: rest := by
  induction h with
  | close => exact ⟨[], rfl⟩
  | @closeMulti rest k _ _ _ =>
    refine ⟨List.replicate (k + 2) (quoteChar q), ?_⟩
    rw [show k + 3 = (k + 2) + 1 by omega, List.replicate_succ']
    simp
  | @plain c _ _ _ _ _ ih => obtain ⟨y, rfl⟩ := ih; exact ⟨c :: y, rfl⟩
  | newline _ _ ih => obtain ⟨y, rfl⟩ := ih; exact ⟨'\n' :: y, rfl⟩
  | crlf _ _ ih => obtain ⟨y, rfl⟩ := ih; exact ⟨'\r' :: '\n' :: y, rfl⟩
  | oneQuote _ _ _ ih => obtain ⟨y, rfl⟩ := ih; exact ⟨quoteChar q :: y, rfl⟩
  | twoQuotes _ _ _ ih => obtain ⟨y, rfl⟩ := ih; exact ⟨quoteChar q :: quoteChar q :: y, rfl⟩
  | @escape e _ _ _ _ _ _ _ ih => obtain ⟨y, rfl⟩ := ih; exact ⟨'\\' :: (e ++ y), by simp⟩
  | @lineEnding w _ _ _ _ _ _ _ _ ih => obtain ⟨y, rfl⟩ := ih; exact ⟨'\\' :: (w ++ y), by simp⟩

theorem head?_app {s R : Str} (h : s ≠ []) : (s ++ R).head? = s.head? := by
  cases s with
  | nil => exact absurd rfl h
  | cons => rfl

theorem strTail_ne {q : Quote} {s txt rest : Str} (h : StrTail q s txt rest) : s ≠ [] := by
  obtain ⟨y, rfl⟩ := strTail_end h
  simp

theorem strTail_ext {q : Quote} {s txt rest : Str} (R : Str) (h : StrTail q s txt rest) (hr : rest ≠ []) :
    StrTail q (s ++ R) txt (rest ++ R) := by
  induction h with
  | close h1 => exact .close h1
  | @closeMulti rest k h1 h2 h3 =>
    rw [List.append_assoc]
    exact .closeMulti h1 h2 (by rw [head?_app hr]; exact h3)
  | plain h1 _ ih => exact .plain h1 (ih hr)
  | newline h1 _ ih => exact .newline h1 (ih hr)
  | crlf h1 _ ih => exact .crlf h1 (ih hr)
  | oneQuote h1 h2 h3 ih => exact .oneQuote h1 ((head?_app (strTail_ne h3)).symm ▸ h2) (ih hr)
  | twoQuotes h1 h2 h3 ih => exact .twoQuotes h1 ((head?_app (strTail_ne h3)).symm ▸ h2) (ih hr)
  | @escape e _ src _ _ h1 h2 _ ih =>
    rw [List.cons_append, List.append_assoc]
    exact .escape h1 h2 (ih hr)
  | @lineEnding w src _ _ h1 h2 h3 h4 h5 ih =>
    rw [List.cons_append, List.append_assoc]
    exact .lineEnding h1 h2 h3 (by rw [head?_app (strTail_ne h5)]; exact h4) (ih hr)

theorem two_ext {s R t : Str} {a b : Char} (h2 : 2 ≤ s.length) (h : s ++ R = a :: b :: t) : ∃ t', s = a :: b :: t' := by
  match s, h2 with
  | [], h2 => simp at h2
  | [_], h2 => simp at h2
  | x :: y :: s, _ =>
    simp only [List.cons_append, List.cons.injEq] at h
    exact ⟨s, by rw [h.1, h.2.1]⟩

theorem strTail_two {q : Quote} {s txt rest : Str} (h : StrTail q s txt rest) (hr : rest ≠ []) : 2 ≤ s.length := by
  obtain ⟨y, rfl⟩ := strTail_end h
  have : 0 < rest.length := List.length_pos_iff.2 hr
  simp; omega

theorem stringAt_ext {q : Quote} {s lit txt rest : Str} (R : Str) (h : StringAt q s lit txt rest) (hr : rest ≠ []) :
    StringAt q (s ++ R) lit txt (rest ++ R) := by
  cases h with
  | single h1 h2 h3 h4 =>
    rw [List.cons_append]
    refine .single h1 ?_ (strTail_ext R h3 hr) (by rw [← List.cons_append, h4, List.append_assoc])
    rintro ⟨t, ht⟩
    exact h2 (two_ext (strTail_two h3 hr) ht)
  | multi h1 h2 h3 h4 =>
    simp only [List.cons_append]
    refine .multi h1 ?_ (strTail_ext R h3 hr) (by simp only [← List.cons_append]; rw [h4, List.append_assoc])
    cases h2 with
    | lf => exact .lf
    | crlf => exact .crlf
    | keep g1 g2 =>
      refine .keep (by rw [head?_app (strTail_ne h3)]; exact g1) ?_
      rintro ⟨t, ht⟩
      exact g2 (two_ext (strTail_two h3 hr) ht)

theorem stringAt_last {q : Quote} {s lit txt rest : Str} (h : StringAt q s lit txt rest) :
    lit.getLast? = some (quoteChar q) := by
  have key : ∀ {a y : Str}, a ++ (y ++ quoteChar q :: rest) = lit ++ rest → lit.getLast? = some (quoteChar q) := by
    intro a y h
    have : lit = a ++ y ++ [quoteChar q] := by
      refine (List.append_cancel_right (bs := rest) ?_).symm
      rw [← h]; simp
    rw [this]; simp
  cases h with
  | single h1 h2 h3 h4 =>
    obtain ⟨y, rfl⟩ := strTail_end h3
    exact key (a := [quoteChar q]) h4
  | multi h1 h2 h3 h4 =>
    obtain ⟨y, rfl⟩ := strTail_end h3
    cases h2 with
    | lf => exact key (a := [quoteChar q, quoteChar q, quoteChar q, '\n']) h4
    | crlf => exact key (a := [quoteChar q, quoteChar q, quoteChar q, '\r', '\n']) h4
    | keep g1 g2 => exact key (a := [quoteChar q, quoteChar q, quoteChar q]) h4

theorem startsWord_ext {s R : Str} (h : s.getLast? = some '\n') : startsWord (s ++ R) = startsWord s := by
  match s with
  | [] => cases h
  | [c] =>
    simp only [List.getLast?_singleton, Option.some.injEq] at h
    subst h
    rfl
  | c :: d :: s => rfl

/-- The tokens of a text that ends with a line break do not depend on what follows. -/
theorem tokTo_ext {pre p : Str} {ts : List (View × Pos)} (R : Str) (h : Tokenized pre p ts)
    (hl : p = [] ∨ p.getLast? = some '\n') : TokTo R pre (p ++ R) ts := by
  have hlast : ∀ {a s : Str}, (a ++ s = [] ∨ (a ++ s).getLast? = some '\n') → s = [] ∨ s.getLast? = some '\n' := by
    intro a s h
    by_cases hs : s = []
    · exact .inl hs
    · right
      rcases h with h | h
      · exact absurd (List.append_eq_nil_iff.1 h).2 hs
      · rwa [lastApp hs] at h
  induction h with
  | nil => exact .stop
  | @blank pre c s ts h1 _ ih =>
    exact .blank h1 (ih (hlast (a := [c]) (by simpa using hl)))
  | @newline pre nl s ts h1 _ ih =>
    rw [List.append_assoc]
    exact .newline h1 (ih (hlast hl))
  | @punct pre c s ts h1 _ ih =>
    exact .punct h1 (ih (hlast (a := [c]) (by simpa using hl)))
  | @word pre w s ts h1 h2 h3 _ ih =>
    have hs : s ≠ [] := by
      rintro rfl
      rcases hl with hl | hl
      · exact h1 (by simpa using hl)
      · rw [List.append_nil] at hl
        obtain ⟨a, ha⟩ : ∃ a, w = a ++ ['\n'] := by
          rw [List.getLast?_eq_some_iff] at hl; exact hl
        have := h2 a '\n' [] ha
        rw [show startsWord ('\n' :: ([] ++ [])) = false from by decide] at this
        cases this
    have hs' : s.getLast? = some '\n' := (hlast hl).resolve_left hs
    rw [List.append_assoc]
    refine .word h1 ?_ (by rw [startsWord_ext hs']; exact h3) (ih (.inr hs'))
    intro a c b e
    have e1 := h2 a c b e
    rw [← List.append_assoc, ← List.cons_append, startsWord_ext]
    · exact e1
    · rw [show c :: (b ++ s) = (c :: b) ++ s from rfl, lastApp hs]
      exact hs'
  | @comment pre txt s ts h1 h2 _ ih =>
    have hs : s ≠ [] := by
      rintro rfl
      rcases hl with hl | hl
      · simp at hl
      · rw [List.append_nil] at hl
        have hm := List.mem_of_getLast? hl
        rcases List.mem_cons.1 hm with hm | hm
        · exact absurd hm (by decide)
        · have := h1 _ hm
          revert this
          unfold Allowed
          decide
    rw [List.append_assoc]
    refine .comment h1 (.inr ?_) (ih (hlast hl))
    rcases h2 with h2 | ⟨nl, s', g1, g2⟩
    · exact absurd h2 hs
    · exact ⟨nl, s' ++ R, g1, by rw [g2, List.append_assoc]⟩
  | @string pre q s lit txt rest ts h1 _ ih =>
    have hsp := stringAt_split h1
    have hr : rest ≠ [] := by
      rintro rfl
      have hll := stringAt_last h1
      rw [List.append_nil] at hsp
      subst hsp
      rcases hl with hl | hl
      · rw [hl] at hll; cases hll
      · rw [hl] at hll
        have : quoteChar q = '\n' := by simpa using hll.symm
        revert this
        cases q <;> decide
    exact .string (stringAt_ext R h1 hr) (ih (by rw [hsp] at hl; exact hlast hl))

/-- Nothing is left to read. -/
theorem tokTo_self {R pre : Str} {ts : List (View × Pos)} (h : TokTo R pre R ts) : ts = [] := by
  have key : ∀ {pre s : Str} {ts : List (View × Pos)}, TokTo R pre s ts → s.length = R.length → ts = [] := by
    intro pre s ts h
    cases h with
    | stop => intro _; rfl
    | blank _ h2 => obtain ⟨x, rfl⟩ := h2.suffix; intro hl; simp at hl; omega
    | newline h1 h2 =>
      obtain ⟨x, rfl⟩ := h2.suffix
      intro hl
      rcases h1 with rfl | rfl <;> (simp at hl; omega)
    | punct _ h2 => obtain ⟨x, rfl⟩ := h2.suffix; intro hl; simp at hl; omega
    | word h1 _ _ h2 =>
      obtain ⟨x, rfl⟩ := h2.suffix
      have := List.length_pos_iff.2 h1
      intro hl; simp at hl; omega
    | comment _ _ h2 => obtain ⟨x, rfl⟩ := h2.suffix; intro hl; simp at hl; omega
    | @string _ _ _ lit _ _ _ h1 h2 =>
      obtain ⟨x, rfl⟩ := h2.suffix
      intro hl
      have hll := stringAt_last h1
      rw [stringAt_split h1] at hl
      have : 0 < lit.length := List.length_pos_iff.2 (fun e => by rw [e] at hll; cases hll)
      simp only [List.length_append] at hl
      omega
  exact key h rfl

end Verif.Toml
