import Verif.Spec.Assoc
import Verif.Spec.Parse

/-! # Comments and lines -/

namespace Verif.Toml
open Verif Verif.Spec.Toml

theorem snoc_split {α : Type} {xs xs1 ys : List α} {l e : α} (h : xs ++ [l] = xs1 ++ e :: ys) :
    (ys = [] ∧ xs = xs1 ∧ l = e) ∨ ∃ ys', ys = ys' ++ [l] ∧ xs = xs1 ++ e :: ys' := by
  rcases List.eq_nil_or_concat ys with rfl | ⟨ys', b, rfl⟩
  · have h' : xs ++ [l] = xs1 ++ [e] := h
    obtain ⟨h1, h2⟩ := List.append_inj' h' rfl
    cases h2
    exact .inl ⟨rfl, h1, rfl⟩
  · have h' : xs ++ [l] = (xs1 ++ e :: ys') ++ [b] := by rw [h]; simp
    obtain ⟨h1, h2⟩ := List.append_inj' h' rfl
    cases h2
    exact .inr ⟨ys', by simp, h1⟩

/-- The comments behind the last header or assignment. -/
def pendOf (xs : List Ln) : List Com := (xs.reverse.takeWhile (fun l => !l.isExpr)).reverse.flatMap Ln.coms

theorem coms_nonExpr : ∀ {l : Ln}, l.isExpr = false → l.coms = [] ∨ ∃ c, l = .comment c := by
  intro l h
  cases l with
  | blank => exact .inl rfl
  | comment c => exact .inr ⟨c, rfl⟩
  | header => cases h
  | keyVal => cases h

theorem pendOf_snoc (xs : List Ln) (l : Ln) : pendOf (xs ++ [l]) = if l.isExpr then [] else pendOf xs ++ l.coms := by
  unfold pendOf
  rw [List.reverse_append]
  cases h : l.isExpr <;> simp [List.takeWhile_cons, h]

theorem runAbove_snoc (xs : List Ln) (l : Ln) :
    runAbove (xs ++ [l]) = if l.isComment then runAbove xs ++ l.coms else [] := by
  unfold runAbove
  rw [List.reverse_append]
  cases h : l.isComment <;> simp [List.takeWhile_cons, h]

/-- The lines behind the last header or assignment: those not directly above the next line, and those directly above it. -/
theorem tail_lines (xs : List Ln) : ∃ X T1 T2, xs = X ++ T1 ++ T2 ∧ (∀ l ∈ T1, l.isExpr = false) ∧
    (∀ l ∈ T2, l.isComment = true) ∧ (T1 = [] ∨ ∃ T, T1 = T ++ [.blank]) ∧ (X = [] ∨ ∃ Y l, X = Y ++ [l] ∧ l.isExpr = true) ∧
    runAbove xs = T2.flatMap Ln.coms ∧ pendOf xs = T1.flatMap Ln.coms ++ T2.flatMap Ln.coms := by
  suffices h : ∀ ys : List Ln, ∃ X T1 T2, ys.reverse = X ++ T1 ++ T2 ∧ (∀ l ∈ T1, l.isExpr = false) ∧
    (∀ l ∈ T2, l.isComment = true) ∧ (T1 = [] ∨ ∃ T, T1 = T ++ [.blank]) ∧ (X = [] ∨ ∃ Y l, X = Y ++ [l] ∧ l.isExpr = true) ∧
    runAbove ys.reverse = T2.flatMap Ln.coms ∧ pendOf ys.reverse = T1.flatMap Ln.coms ++ T2.flatMap Ln.coms by
    simpa using h xs.reverse
  intro ys
  induction ys with
  | nil => exact ⟨[], [], [], rfl, by simp, by simp, .inl rfl, .inl rfl, rfl, rfl⟩
  | cons l ys ih =>
    obtain ⟨X, T1, T2, h1, h2, h3, h4, h5, h6, h7⟩ := ih
    rw [List.reverse_cons, runAbove_snoc, pendOf_snoc]
    cases l with
    | blank =>
      refine ⟨X, T1 ++ T2 ++ [.blank], [], by rw [h1]; simp, ?_, by simp, .inr ⟨_, rfl⟩, h5, rfl, ?_⟩
      · intro l hl
        simp only [List.mem_append, List.mem_singleton] at hl
        rcases hl with (hl | hl) | rfl
        · exact h2 l hl
        · have := h3 l hl
          cases l <;> first | rfl | cases this
        · rfl
      · simp [Ln.isExpr, Ln.coms, h7]
    | comment c =>
      refine ⟨X, T1, T2 ++ [.comment c], by rw [h1]; simp, h2, ?_, h4, h5, ?_, ?_⟩
      · intro l hl
        rcases List.mem_append.1 hl with hl | hl
        · exact h3 l hl
        · rw [List.mem_singleton.1 hl]; rfl
      · simp [Ln.isComment, Ln.coms, h6]
      · simp [Ln.isExpr, Ln.coms, h7]
    | header p o =>
      exact ⟨ys.reverse ++ [.header p o], [], [], by simp, by simp, by simp, .inl rfl, .inr ⟨_, _, rfl, rfl⟩, rfl, rfl⟩
    | keyVal p i o =>
      exact ⟨ys.reverse ++ [.keyVal p i o], [], [], by simp, by simp, by simp, .inl rfl, .inr ⟨_, _, rfl, rfl⟩, rfl, rfl⟩

/-! ## What a comment belongs to -/

theorem dropWhile_append_of_mem {α : Type} {p : α → Bool} : ∀ {ys : List α} {zs : List α} {e : α}, e ∈ ys → p e = false →
    (ys ++ zs).dropWhile p = ys.dropWhile p ++ zs := by
  intro ys
  induction ys with
  | nil => intro zs e h; cases h
  | cons y ys ih =>
    intro zs e h he
    rw [List.cons_append, List.dropWhile_cons, List.dropWhile_cons]
    cases hy : p y with
    | false => simp
    | true =>
      rcases List.mem_cons.1 h with rfl | h
      · rw [hy] at he; cases he
      · simpa [hy] using ih h he

theorem dropWhile_nil {α : Type} {p : α → Bool} : ∀ {l : List α}, l.dropWhile p = [] ↔ ∀ x ∈ l, p x = true := by
  intro l
  induction l with
  | nil => simp
  | cons a l ih =>
    rw [List.dropWhile_cons]
    cases h : p a <;> simp [h, ih]

theorem nextExpr_append {ys zs : List Ln} (h : nextExpr ys ≠ none) : nextExpr (ys ++ zs) = nextExpr ys := by
  unfold nextExpr at *
  rw [List.find?_append]
  cases hh : List.find? Ln.isExpr ys with
  | none => exact absurd hh h
  | some l => rfl

theorem nextExpr_mem {ys : List Ln} (h : nextExpr ys ≠ none) : ∃ e ∈ ys, e.isExpr = true := by
  unfold nextExpr at h
  cases hh : List.find? Ln.isExpr ys with
  | none => exact absurd hh h
  | some l => exact ⟨l, List.mem_of_find?_eq_some hh, List.find?_some hh⟩

theorem isComment_of_isExpr {l : Ln} (h : l.isExpr = true) : l.isComment = false := by
  cases l <;> first | rfl | cases h

/-- Further lines do not matter behind a header or an assignment. -/
theorem fate_append {xs ys zs : List Ln} (h : nextExpr ys ≠ none) : fate xs (ys ++ zs) = fate xs ys := by
  obtain ⟨e, he, hx⟩ := nextExpr_mem h
  unfold fate
  rw [nextExpr_append h, dropWhile_append_of_mem he (isComment_of_isExpr hx)]
  have : ys.dropWhile Ln.isComment ≠ [] := by
    intro hh
    have := dropWhile_nil.1 hh e he
    rw [isComment_of_isExpr hx] at this; cases this
  cases hd : ys.dropWhile Ln.isComment with
  | nil => exact absurd hd this
  | cons d ds => cases d <;> rfl

theorem nextExpr_none {ys : List Ln} (h : ∀ l ∈ ys, l.isExpr = false) : nextExpr ys = none := by
  unfold nextExpr
  rw [List.find?_eq_none]
  intro l hl
  simp [h l hl]

theorem nextExpr_snoc {ys : List Ln} {l : Ln} (h : ∀ l ∈ ys, l.isExpr = false) (hl : l.isExpr = true) :
    nextExpr (ys ++ [l]) = some l := by
  have h' := nextExpr_none h
  unfold nextExpr at *
  rw [List.find?_append, h']
  simp [hl]

/-- The lines between a comment and the next header or assignment are not all comments. -/
theorem fate_loose {xs ys : List Ln} {l : Ln} (h : ∀ l ∈ ys, l.isExpr = false) (hb : Ln.blank ∈ ys) (hl : l.isExpr = true) :
    fate xs (ys ++ [l]) = match openHeader xs, l with
      | some p, .keyVal _ _ _ => .inside p
      | _, _ => .free := by
  unfold fate
  rw [nextExpr_snoc h hl]
  have : ∃ ds, (ys ++ [l]).dropWhile Ln.isComment = .blank :: ds := by
    clear hl
    induction ys with
    | nil => cases hb
    | cons y ys ih =>
      cases y with
      | blank => exact ⟨ys ++ [l], rfl⟩
      | comment c =>
        obtain ⟨ds, hd⟩ := ih (fun l hl => h l (by simp [hl])) (by simpa using hb)
        exact ⟨ds, by simpa [List.dropWhile_cons, Ln.isComment] using hd⟩
      | header => have := h _ List.mem_cons_self; cases this
      | keyVal => have := h _ List.mem_cons_self; cases this
  obtain ⟨ds, hd⟩ := this
  rw [hd]
  cases openHeader xs <;> cases l <;> rfl

theorem fate_run {xs ys : List Ln} {l : Ln} (h : ∀ l ∈ ys, l.isComment = true) (hl : l.isExpr = true) :
    ∃ p, fate xs (ys ++ [l]) = .above p := by
  unfold fate
  have : (ys ++ [l]).dropWhile Ln.isComment = [l] := by
    rw [List.dropWhile_append, dropWhile_nil.2 h]
    simp [List.dropWhile_cons, isComment_of_isExpr hl]
  rw [this]
  cases l with
  | header p o => exact ⟨p, rfl⟩
  | keyVal p i o => exact ⟨p, rfl⟩
  | blank => cases hl
  | comment => cases hl

theorem openHeader_append : ∀ (xs ys : List Ln), openHeader (xs ++ ys) = (openHeader ys).or (openHeader xs)
  | [], ys => by simp [openHeader]
  | .header p o :: xs, ys => by
    rw [List.cons_append, openHeader, openHeader, openHeader_append xs ys]
    cases openHeader ys <;> simp
  | .blank :: xs, ys => by rw [List.cons_append, openHeader, openHeader, openHeader_append xs ys]; all_goals simp
  | .comment _ :: xs, ys => by rw [List.cons_append, openHeader, openHeader, openHeader_append xs ys]; all_goals simp
  | .keyVal _ _ _ :: xs, ys => by rw [List.cons_append, openHeader, openHeader, openHeader_append xs ys]; all_goals simp

theorem openHeader_none : ∀ {xs : List Ln}, xs.any Ln.isHeader = false → openHeader xs = none
  | [], _ => rfl
  | .header p o :: xs, h => by simp [Ln.isHeader] at h
  | .blank :: xs, h => by rw [openHeader]; exact openHeader_none (by simpa [Ln.isHeader] using h); all_goals simp
  | .comment _ :: xs, h => by rw [openHeader]; exact openHeader_none (by simpa [Ln.isHeader] using h); all_goals simp
  | .keyVal _ _ _ :: xs, h => by rw [openHeader]; exact openHeader_none (by simpa [Ln.isHeader] using h); all_goals simp

theorem openHeader_last {xs ys : List Ln} {p : Pos} {o : Option Com} (h : ys.any Ln.isHeader = false) :
    openHeader (xs ++ .header p o :: ys) = some p := by
  have e : xs ++ .header p o :: ys = xs ++ ([.header p o] ++ ys) := by simp
  rw [e, openHeader_append, openHeader_append, openHeader_none h]
  simp [openHeader]

/-- The last header. -/
theorem last_header {xs : List Ln} (h : xs.any Ln.isHeader = true) :
    ∃ xs1 p o ys, xs = xs1 ++ .header p o :: ys ∧ ys.any Ln.isHeader = false := by
  suffices hh : ∀ ys : List Ln, ys.any Ln.isHeader = true →
      ∃ xs1 p o zs, ys.reverse = xs1 ++ .header p o :: zs ∧ zs.any Ln.isHeader = false by
    simpa using hh xs.reverse (by simpa using h)
  intro ys
  induction ys with
  | nil => intro h; cases h
  | cons l ys ih =>
    intro h
    cases hl : l.isHeader with
    | true =>
      cases l with
      | header p o => exact ⟨ys.reverse, p, o, [], by simp, rfl⟩
      | blank => cases hl
      | comment => cases hl
      | keyVal => cases hl
    | false =>
      obtain ⟨xs1, p, o, zs, h1, h2⟩ := ih (by simpa [hl] using h)
      exact ⟨xs1, p, o, zs ++ [l], by rw [List.reverse_cons, h1]; simp, by simp only [List.any_append, h2]; simp [hl]⟩

end Verif.Toml
