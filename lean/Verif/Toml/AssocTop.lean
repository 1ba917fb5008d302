import Verif.Toml.AssocRoot
import Verif.Toml.AssocInv
import Verif.Toml.CompTop

/-! # Comments: whole documents -/

namespace Verif.Toml
open Verif Verif.Spec.Toml

/-! ## The lines of a document -/

theorem line_is {b : Bool} {ts : List Tok} {is : List Item} (h : Line b ts is) : ∃ l, LineIs b ts l ∧ l.isHeader = hasHeader is := by
  have he : ∀ {ts : List Tok} {i : Item} (o : Option Spec.Toml.Com), Expr b ts i →
      ∃ l, LineIs b (ts ++ tailTok o) l ∧ l.isHeader = hasHeader [i] := by
    intro ts i o h
    cases h with
    | keyVal h1 h2 => exact ⟨_, .keyVal h1 h2, rfl⟩
    | table h1 => exact ⟨_, .table h1, rfl⟩
    | arrayTable h1 => exact ⟨_, .arrayTable h1, rfl⟩
  cases h with
  | blank => exact ⟨_, .blank, rfl⟩
  | comment => exact ⟨_, .comment, rfl⟩
  | expr h => simpa [tailTok] using he none h
  | @exprComment ts i x p h => exact he (some (x, p)) h

/-- Every document has lines. -/
theorem doc_lines {b : Bool} {ts : List Tok} {is : List Item} (h : Doc b ts is) : ∃ ls, DocLines b ts ls := by
  induction h with
  | last h =>
    obtain ⟨l, h1, -⟩ := line_is h
    exact ⟨[l], .last h1⟩
  | more h _ ih =>
    obtain ⟨l, h1, h2⟩ := line_is h
    obtain ⟨ls, h3⟩ := ih
    exact ⟨l :: ls, .more h1 (by rw [h2]; exact h3)⟩

/-! ## Places -/

theorem line_place {b : Bool} {ts : List Tok} {l : Ln} (h : LineIs b ts l) : l.place.toList.Sublist (ts.map (·.2)) := by
  cases h with
  | blank => exact List.nil_sublist _
  | comment => exact List.nil_sublist _
  | keyVal => simp [Ln.place]
  | table => simp [Ln.place]
  | arrayTable => simp [Ln.place]

theorem lines_place {b : Bool} {ts : List Tok} {ls : List Ln} (h : DocLines b ts ls) : (ls.filterMap Ln.place).Sublist (ts.map (·.2)) := by
  induction h with
  | @last b ts l h =>
    have := line_place h
    cases hp : l.place with
    | none => simp [hp]
    | some p => rw [hp] at this; simpa [hp] using this
  | @more b ts l p ts' ls h _ ih =>
    have h1 := line_place h
    rw [List.map_append, List.map_cons]
    have : (l :: ls).filterMap Ln.place = l.place.toList ++ ls.filterMap Ln.place := by
      cases hp : l.place <;> simp [hp]
    rw [this]
    exact h1.append (ih.trans (List.sublist_cons_self _ _))

theorem strTail_len {q : Quote} {src txt rest : Str} (h : StrTail q src txt rest) : rest.length < src.length := by
  induction h with
  | close => simp
  | closeMulti => simp
  | plain _ _ ih | newline _ _ ih | crlf _ _ ih | oneQuote _ _ _ ih | twoQuotes _ _ _ ih | escape _ _ _ ih | lineEnding _ _ _ _ _ ih =>
    simp; omega

theorem stringAt_ne {q : Quote} {s lit txt rest : Str} (h : StringAt q s lit txt rest) : lit ≠ [] := by
  cases h with
  | single _ _ ht he =>
    rintro rfl
    have := strTail_len ht
    have := congrArg List.length he
    simp at this
    omega
  | multi _ h1 ht he =>
    rintro rfl
    have := strTail_len ht
    have : ∀ {a b : Str}, Trimmed a b → b.length ≤ a.length := by
      intro a b h
      cases h <;> simp
      omega
    have := this h1
    have := congrArg List.length he
    simp at this
    omega

theorem tokenized_places {pre s : Str} {ts : List Tok} (h : Tokenized pre s ts) :
    (ts.map (·.2)).Nodup ∧ ∀ t ∈ ts, ∃ x, t.2 = posOf (pre ++ x) := by
  have step : ∀ {pre w : Str} {ts : List Tok} {v : View}, w ≠ [] →
      ((ts.map (·.2)).Nodup ∧ ∀ t ∈ ts, ∃ x, t.2 = posOf (pre ++ w ++ x)) →
      ((((v, posOf pre) :: ts).map (·.2)).Nodup ∧ ∀ t ∈ (v, posOf pre) :: ts, ∃ x, t.2 = posOf (pre ++ x)) := by
    intro pre w ts v hw ⟨h1, h2⟩
    refine ⟨?_, ?_⟩
    · rw [List.map_cons, List.nodup_cons]
      refine ⟨?_, h1⟩
      intro hm
      obtain ⟨t, ht, he⟩ := List.mem_map.1 hm
      obtain ⟨x, hx⟩ := h2 t ht
      rw [hx, List.append_assoc] at he
      exact posOf_ne (s := pre) (t := w ++ x) (by simp [hw]) he.symm
    · intro t ht
      rcases List.mem_cons.1 ht with rfl | ht
      · exact ⟨[], by simp⟩
      · obtain ⟨x, hx⟩ := h2 t ht
        exact ⟨w ++ x, by rw [hx, List.append_assoc]⟩
  induction h with
  | nil => simp
  | @blank pre c s ts _ _ ih =>
    refine ⟨ih.1, fun t ht => ?_⟩
    obtain ⟨x, hx⟩ := ih.2 t ht
    exact ⟨[c] ++ x, by rw [hx, List.append_assoc]⟩
  | newline hn _ ih => exact step (by rintro rfl; rcases hn with h | h <;> cases h) ih
  | punct _ _ ih => exact step (by simp) ih
  | word hw _ _ _ ih => exact step hw ih
  | comment _ _ _ ih => exact step (by simp) ih
  | string hs _ ih => exact step (stringAt_ne hs) ih

/-- The headers and assignments of a tree, with the ranges of their comments. -/
def itemRanges (asts : List Ast) : List (Pos × CommentRange) :=
  asts.flatMap fun x => match x with
    | .assignment a => [(a.assignment.eq, a.comments)]
    | .table t => (t.header.lPar, t.comments) :: t.assignments.map fun a => (a.assignment.eq, a.comments)
    | .array t => (t.header.lPars.1, t.comments) :: t.assignments.map fun a => (a.assignment.eq, a.comments)
    | .comment _ => []

theorem itemRanges_append (a b : List Ast) : itemRanges (a ++ b) = itemRanges a ++ itemRanges b := List.flatMap_append

theorem itemRanges_comments (cs : List Comment) : itemRanges (cs.map .comment) = [] := by
  simp [itemRanges]

theorem itemRanges_tab {x : Ast} {p : Pos} {r : CommentRange} {as : List ToplevelAssignment} (h : tablePart x = some (p, r, as)) :
    itemRanges [x] = (p, r) :: as.map fun a => (a.assignment.eq, a.comments) := by
  cases x with
  | table t => cases h; simp [itemRanges]
  | array t => cases h; simp [itemRanges]
  | assignment a => cases h
  | comment a => cases h

theorem hasItem_mem {asts : List Ast} {p : Pos} {r : CommentRange} (h : HasItem asts p r) : (p, r) ∈ itemRanges asts := by
  have hx : ∀ {x : Ast}, x ∈ asts → ∀ {q}, q ∈ itemRanges [x] → q ∈ itemRanges asts := by
    intro x hx q hq
    obtain ⟨a, b, rfl⟩ := List.append_of_mem hx
    rw [show a ++ x :: b = a ++ ([x] ++ b) from rfl, itemRanges_append, itemRanges_append]
    simp [hq]
  cases h with
  | root h => exact hx h (by simp [itemRanges])
  | table h1 h2 => exact hx h1 (by rw [itemRanges_tab h2]; simp)
  | inTable h1 h2 h3 => exact hx h1 (by rw [itemRanges_tab h2]; exact List.mem_cons_of_mem _ (List.mem_map_of_mem (f := fun a : ToplevelAssignment => (a.assignment.eq, a.comments)) h3))

theorem Reach.places {xs : List Ln} {c : Cfg} (h : Reach xs c) : (itemRanges c.asts).map (·.1) = xs.filterMap Ln.place := by
  induction h with
  | nil => rfl
  | blank _ ih => rw [ih]; simp [Ln.place]
  | comment _ ih => simp only [ih]; simp [Ln.place]
  | header _ _ _ hx ih =>
    simp only [itemRanges_append, itemRanges_comments, List.map_append, ih, itemRanges_tab hx]
    simp [Ln.place]
  | root _ _ _ _ _ ih =>
    simp only [itemRanges_append, itemRanges_comments, List.map_append, ih]
    simp [Ln.place, itemRanges]
  | inTable _ ha hx _ _ hx' _ ih =>
    rw [ha, itemRanges_append, List.map_append, itemRanges_tab hx] at ih
    simp only [itemRanges_append, List.map_append, itemRanges_tab hx', List.filterMap_append, ← ih]
    simp [Ln.place]

theorem nodup_fst {α β : Type} : ∀ {l : List (α × β)}, (l.map (·.1)).Nodup → ∀ {p : α} {x y : β}, (p, x) ∈ l → (p, y) ∈ l → x = y
  | [], _, _, _, _, h, _ => by cases h
  | q :: l, hn, p, x, y, h1, h2 => by
    rw [List.map_cons, List.nodup_cons] at hn
    rcases List.mem_cons.1 h1 with h1 | h1 <;> rcases List.mem_cons.1 h2 with h2 | h2
    · rw [← h1] at h2; cases h2; rfl
    · exact absurd (List.mem_map_of_mem (f := (·.1)) h2) (by rw [← h1] at hn; exact hn.1)
    · exact absurd (List.mem_map_of_mem (f := (·.1)) h1) (by rw [← h2] at hn; exact hn.1)
    · exact nodup_fst hn.2 h1 h2

/-! ## The parser -/

theorem assoc_run {input : Str} {vs : List Tok} {ls : List Ln} (ht : Tokenized [] input vs) (hd : DocLines false vs ls) (ovf : Bool) :
    ∃ a s c, parseDocument ovf input = .ok a s ∧ s.errors = [] ∧ Reach ls c ∧ a.asts = c.asts ++ c.prev.map .comment ∧
      a.comments = c.storage := by
  obtain ⟨T, es, vs', h0, h1, h2, h3, h4, h5, -, h6, h7⟩ := lex_post input
  rcases h6 with ⟨rfl, h6⟩ | ⟨-, h6⟩
  case inr => exact absurd ht (h6 vs)
  have := (h6 vs).1 ht
  subst this
  have hG := good_start (ovf := ovf) (es := []) h1 h2 h3 h4 h5
  have hv : V (envOf ovf input T) ⟨[], T.tokens, [], []⟩ = vs := start_view h2 (h7 rfl)
  have hA : AtStart (envOf ovf input T) T.tokens [] false [] [] ⟨[], T.tokens, [], []⟩ ⟨[], [], false⟩ :=
    ⟨⟨hG, rootInv_start, RI.nil, by rw [hv]; exact tokenized_lines ht⟩, rfl, Reach.nil, Pend.nil _, fun _ h => by cases h⟩
  obtain ⟨r, s, e1, e2, e3⟩ := lines_run hd hA hv (n := T.tokens.length + 1) (by simp)
  refine ⟨⟨r.asts ++ r.prevComments.map Ast.comment, s.storage⟩, s, _, ?_, e2, by simpa using e3, rfl, rfl⟩
  unfold parseDocument
  rw [h0]
  dsimp only [parse]
  rw [bind_budget, bind_ok e1]
  rfl

end Verif.Toml
