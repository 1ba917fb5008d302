import Verif.Toml.AssocKindRoot
import Verif.Spec.AssocKind

/-! # Comments: which are at the end of a line; the text -/

namespace Verif.Toml
open Verif Verif.Spec.Toml

theorem fol_nil : FirstOnLine [] := ⟨[], [], rfl, by simp, .inl rfl⟩

theorem fol_blank {pre : Str} {c : Char} (hc : c = ' ' ∨ c = '\t') : FirstOnLine (pre ++ [c]) ↔ FirstOnLine pre := by
  constructor
  · rintro ⟨l, g, e, hg, hl⟩
    rcases List.eq_nil_or_concat g with rfl | ⟨g', d, rfl⟩
    · rw [List.append_nil] at e
      rcases hl with rfl | ⟨l', rfl⟩
      · simp at e
      · have := (List.append_inj' e rfl).2
        simp only [List.cons.injEq, and_true] at this
        subst this
        rcases hc with h | h <;> exact absurd h (by decide)
    · rw [List.concat_eq_append, ← List.append_assoc] at e
      exact ⟨l, g', (List.append_inj' e rfl).1, fun d hd => hg d (by simp [hd]), hl⟩
  · rintro ⟨l, g, rfl, hg, hl⟩
    refine ⟨l, g ++ [c], by simp, ?_, hl⟩
    intro d hd
    rcases List.mem_append.1 hd with hd | hd
    · exact hg d hd
    · rw [List.mem_singleton.1 hd]; exact hc

theorem fol_newline {pre nl : Str} (h : IsNewline nl) : FirstOnLine (pre ++ nl) := by
  refine ⟨pre ++ nl, [], by simp, by simp, .inr ?_⟩
  rcases h with rfl | rfl
  · exact ⟨pre, rfl⟩
  · exact ⟨pre ++ ['\r'], by simp⟩

theorem fol_not {pre a b : Str} {c : Char} (h1 : c ≠ ' ') (h2 : c ≠ '\t') (h3 : c ≠ '\n') (h4 : '\n' ∉ b) :
    ¬ FirstOnLine (pre ++ (a ++ c :: b)) := by
  rintro ⟨l, g, e, hg, hl⟩
  rw [← List.append_assoc] at e
  rcases List.append_eq_append_iff.1 e with ⟨x, rfl, h⟩ | ⟨x, h, rfl⟩
  · cases x with
    | nil =>
      rw [List.nil_append] at h
      subst h
      rcases hg c (by simp) with h | h
      · exact h1 h
      · exact h2 h
    | cons d x =>
      rw [List.cons_append, List.cons.injEq] at h
      obtain ⟨rfl, rfl⟩ := h
      rcases hl with hl | ⟨l', hl⟩
      · simp at hl
      · rcases List.eq_nil_or_concat x with rfl | ⟨x', d, rfl⟩
        · have := (List.append_inj' hl rfl).2
          simp only [List.cons.injEq, and_true] at this
          exact h3 this
        · rw [List.concat_eq_append, ← List.cons_append, ← List.append_assoc] at hl
          have := (List.append_inj' hl rfl).2
          simp only [List.cons.injEq, and_true] at this
          subst this
          exact h4 (by simp)
  · rcases hg c (by simp) with h | h
    · exact h1 h
    · exact h2 h

theorem quote_ne (q : Quote) : quoteChar q ≠ ' ' ∧ quoteChar q ≠ '\t' ∧ quoteChar q ≠ '\n' := by
  cases q <;> decide

theorem strTail_last {q : Quote} {src txt rest : Str} (h : StrTail q src txt rest) : ∃ u, src = u ++ quoteChar q :: rest := by
  induction h with
  | close _ => exact ⟨[], rfl⟩
  | @closeMulti rest k _ _ _ => exact ⟨List.replicate (k + 2) (quoteChar q), by rw [List.replicate_succ']; simp⟩
  | plain _ _ ih => obtain ⟨u, rfl⟩ := ih; exact ⟨_ :: u, rfl⟩
  | newline _ _ ih => obtain ⟨u, rfl⟩ := ih; exact ⟨_ :: u, rfl⟩
  | crlf _ _ ih => obtain ⟨u, rfl⟩ := ih; exact ⟨_ :: _ :: u, rfl⟩
  | oneQuote _ _ _ ih => obtain ⟨u, rfl⟩ := ih; exact ⟨_ :: u, rfl⟩
  | twoQuotes _ _ _ ih => obtain ⟨u, rfl⟩ := ih; exact ⟨_ :: _ :: u, rfl⟩
  | @escape e c _ _ _ _ _ _ ih => obtain ⟨u, rfl⟩ := ih; exact ⟨'\\' :: (e ++ u), by simp⟩
  | @lineEnding w _ _ _ _ _ _ _ _ ih => obtain ⟨u, rfl⟩ := ih; exact ⟨'\\' :: (w ++ u), by simp⟩

theorem trimmed_split {s s' : Str} (h : Trimmed s s') : ∃ u, s = u ++ s' := by
  cases h with
  | lf => exact ⟨['\n'], rfl⟩
  | crlf => exact ⟨['\r', '\n'], rfl⟩
  | keep _ _ => exact ⟨[], rfl⟩

theorem stringAt_quote {q : Quote} {s lit txt rest : Str} (h : StringAt q s lit txt rest) : (∃ u, lit = u ++ [quoteChar q]) ∧ s = lit ++ rest := by
  cases h with
  | single _ _ h1 h2 =>
    obtain ⟨u, hu⟩ := strTail_last h1
    refine ⟨⟨quoteChar q :: u, ?_⟩, h2⟩
    have : lit ++ rest = (quoteChar q :: u ++ [quoteChar q]) ++ rest := by rw [← h2, hu]; simp
    exact List.append_cancel_right this
  | multi _ ht h1 h2 =>
    obtain ⟨u, hu⟩ := strTail_last h1
    obtain ⟨w, hw⟩ := trimmed_split ht
    refine ⟨⟨quoteChar q :: quoteChar q :: quoteChar q :: (w ++ u), ?_⟩, h2⟩
    have : lit ++ rest = (quoteChar q :: quoteChar q :: quoteChar q :: (w ++ u) ++ [quoteChar q]) ++ rest := by rw [← h2, hw, hu]; simp
    exact List.append_cancel_right this

/-- Is nothing in front of the comment on its line: `a` are the tokens in front of it, behind the text `pre`. -/
def FreshLine (pre : Str) (a : List Tok) : Prop :=
  match a.getLast? with
  | none => FirstOnLine pre
  | some t => t.1 = .newline

theorem freshLine_cons {pre pre' : Str} {t : Tok} {a : List Tok} (h : FirstOnLine pre' ↔ t.1 = .newline) :
    FreshLine pre' a ↔ FreshLine pre (t :: a) := by
  unfold FreshLine
  cases a with
  | nil => exact h
  | cons u a =>
    rw [List.getLast?_cons_cons]
    generalize hl : (u :: a).getLast? = o
    cases o with
    | none => simp at hl
    | some x => exact Iff.rfl

/-- The text in front of a comment. -/
theorem comment_fresh {pre s : Str} {ts : List Tok} (h : Tokenized pre s ts) : ∀ {a b : List Tok} {x : Str} {p : Pos},
    ts = a ++ (.comment x, p) :: b → ∃ y z, s = y ++ z ∧ p = posOf (pre ++ y) ∧ (FirstOnLine (pre ++ y) ↔ FreshLine pre a) := by
  have step : ∀ {pre w s : Str} {ts a b : List Tok} {v : View} {x : Str} {p : Pos},
      (∀ {a b : List Tok} {x : Str} {p : Pos}, ts = a ++ (.comment x, p) :: b → ∃ y z, s = y ++ z ∧ p = posOf (pre ++ w ++ y) ∧
        (FirstOnLine (pre ++ w ++ y) ↔ FreshLine (pre ++ w) a)) →
      (FirstOnLine (pre ++ w) ↔ v = .newline) →
      (v, posOf pre) :: ts = a ++ (.comment x, p) :: b →
      ∃ y z, w ++ s = y ++ z ∧ p = posOf (pre ++ y) ∧ (FirstOnLine (pre ++ y) ↔ FreshLine pre a) := by
    intro pre w s ts a b v x p ih hv e
    cases a with
    | nil =>
      simp only [List.nil_append, List.cons.injEq, Prod.mk.injEq] at e
      exact ⟨[], w ++ s, rfl, by simp [e.1.2], by simp [FreshLine]⟩
    | cons t a =>
      simp only [List.cons_append, List.cons.injEq] at e
      obtain ⟨y, z, h1, h2, h3⟩ := ih e.2
      refine ⟨w ++ y, z, by simp [h1], by simpa using h2, ?_⟩
      rw [← List.append_assoc, h3]
      refine freshLine_cons ?_
      rw [← e.1]
      exact hv
  induction h with
  | nil => intro a b x p e; simp at e
  | @blank pre c s ts hc _ ih =>
    intro a b x p e
    obtain ⟨y, z, h1, h2, h3⟩ := ih e
    refine ⟨c :: y, z, by simp [h1], by simpa using h2, ?_⟩
    have : FreshLine (pre ++ [c]) a ↔ FreshLine pre a := by
      unfold FreshLine
      split
      · exact fol_blank hc
      · rfl
    rw [← this, ← h3]
    simp
  | @newline pre nl s ts hn _ ih =>
    intro a b x p e
    exact step ih (by simp [fol_newline hn]) e
  | @punct pre c s ts hc _ ih =>
    intro a b x p e
    have : ¬ FirstOnLine (pre ++ [c]) := fol_not (a := []) (b := []) (by rintro rfl; cases hc) (by rintro rfl; cases hc)
      (by rintro rfl; cases hc) (by simp)
    exact step (w := [c]) ih (by simp [this]) e
  | @word pre w s ts hw hc _ _ ih =>
    intro a b x p e
    rcases List.eq_nil_or_concat w with rfl | ⟨u, c, rfl⟩
    · exact absurd rfl hw
    · rw [List.concat_eq_append] at *
      have hs := hc u c [] rfl
      have hs : c ≠ ' ' ∧ c ≠ '\t' ∧ c ≠ '\n' := by
        refine ⟨?_, ?_, ?_⟩ <;> rintro rfl <;> simp [startsWord] at hs
      have : ¬ FirstOnLine (pre ++ (u ++ [c])) := fol_not hs.1 hs.2.1 hs.2.2 (by simp)
      exact step ih (by simp only [this, false_iff]; simp) e
  | @comment pre txt s ts hc _ _ ih =>
    intro a b x p e
    have hn : '\n' ∉ txt := by
      intro h
      rcases hc _ h with h | h
      · exact absurd h (by decide)
      · exact absurd h.1 (by decide)
    have : ¬ FirstOnLine (pre ++ '#' :: txt) := fol_not (a := []) (by decide) (by decide) (by decide) hn
    exact step (w := '#' :: txt) ih (by simp only [this, false_iff]; simp) e
  | @string pre q s lit txt rest ts hs _ ih =>
    intro a b x p e
    obtain ⟨⟨u, hu⟩, rfl⟩ := stringAt_quote hs
    obtain ⟨q1, q2, q3⟩ := quote_ne q
    have : ¬ FirstOnLine (pre ++ lit) := by
      rw [hu]
      exact fol_not q1 q2 q3 (by simp)
    exact step ih (by simp only [this, false_iff]; simp) e

theorem prefix_of_pos {input x y : Str} (h1 : x <+: input) (h2 : y <+: input) (h : posOf x = posOf y) : x = y := by
  have key : ∀ {x y : Str}, x <+: input → y <+: input → posOf x = posOf y → x.length ≤ y.length → x = y := by
    intro x y h1 h2 h hl
    obtain ⟨t, rfl⟩ := List.prefix_of_prefix_length_le h1 h2 hl
    by_cases ht : t = []
    · simp [ht]
    · exact absurd h (posOf_ne ht)
  rcases Nat.le_total x.length y.length with hl | hl
  · exact key h1 h2 h hl
  · exact (key h2 h1 h.symm hl).symm

/-- In the text: something is in front of the comment on its line exactly if the last token is not a line break. -/
theorem notFirst_text {input : Str} {vs : List Tok} (ht : Tokenized [] input vs) {x : Str} {p : Pos} (hm : (.comment x, p) ∈ vs) {pre : Str}
    (hp : InFrontOf input p pre) : NotFirst vs p ↔ ¬ FirstOnLine pre := by
  obtain ⟨a, b, e⟩ := List.append_of_mem hm
  obtain ⟨y, z, h1, h2, h3⟩ := comment_fresh ht e
  simp only [List.nil_append] at h2 h3
  have : pre = y := prefix_of_pos hp.1 ⟨z, h1.symm⟩ (by rw [hp.2, h2])
  subst this
  rw [h3]
  constructor
  · intro hf hl
    obtain ⟨a', t, rfl, ht'⟩ := notFirst_prev (tokenized_places ht).1 e hf
    simp [FreshLine] at hl
    exact ht' hl
  · intro hl
    rcases List.eq_nil_or_concat a with rfl | ⟨a', t, rfl⟩
    · exact absurd fol_nil hl
    · refine ⟨a', t, x, b, by rw [e]; simp, fun ht' => hl ?_⟩
      simp [FreshLine, ht']

end Verif.Toml
