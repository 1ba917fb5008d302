import Verif.Toml.AssocArrRoot
import Verif.Props.Assoc

/-! # Property C94: the comments of an array

`HasArray` and `between` are in `Spec/AssocArr.lean`, `storedIn` is in `Spec/Assoc.lean`, `viewComments` in `Spec/Parse.lean`. -/

namespace Verif.Props
open Verif Verif.Toml Verif.Spec.Toml

variable {input : Str} {ovf : Bool} {a : Asts} {s : PS} {arr : InlineArray} {q : Pos}

theorem sooner_of {x y z : Str} (hy : y ≠ []) : Sooner (posOf x) (posOf (x ++ y ++ z)) := by
  have h1 := posOf_mono x (y ++ z)
  have h2 := posOf_ne (s := x) (t := y ++ z) (by simp [hy])
  rw [← List.append_assoc] at h1 h2
  generalize posOf (x ++ y ++ z) = p at *
  generalize posOf x = r at *
  unfold Pos.le at h1
  unfold Sooner
  by_cases hl : r.line = p.line
  · by_cases hc : r.char = p.char
    · exact absurd (by cases r; cases p; simp_all) h2
    · omega
  · omega

theorem seg_sorted {E : Env} {x z : Str} {u : List Token} (h : Seg E x u z) :
    (rps u).Pairwise Sooner ∧ ∀ p ∈ rps u, ∃ w, p = posOf (x ++ w) := by
  induction h with
  | nil => exact ⟨.nil, by simp [rps]⟩
  | @cons pre g t y u pre' h1 h2 _ ih =>
    obtain ⟨i1, i2⟩ := ih
    refine ⟨List.pairwise_cons.2 ⟨fun p hp => ?_, i1⟩, fun p hp => ?_⟩
    · obtain ⟨w, rfl⟩ := i2 p hp
      show Sooner t.start _
      rw [h2.start]
      exact sooner_of h2.ne
    · rcases List.mem_cons.1 hp with rfl | hp
      · exact ⟨g, h2.start⟩
      · obtain ⟨w, rfl⟩ := i2 p hp
        exact ⟨g ++ y ++ w, by simp⟩

/-- What holds of the arrays of every document. -/
theorem arrays_run (h : parseDocument ovf input = .ok a s) : ∃ r : RootSt,
    JR s r ∧ a.asts = r.asts ++ r.prevComments.map .comment ∧ a.comments = s.storage := by
  obtain ⟨T, es, vs, h0, h1, h2, h3, h4, h5, -⟩ := lex_post input
  unfold parseDocument at h
  rw [h0] at h
  simp only [parse] at h
  have hG := good_start (ovf := ovf) (es := es) h1 h2 h3 h4 h5
  rw [bind_budget] at h
  obtain ⟨r, s1, hr, h'⟩ := bind_inv h
  have hE : EnvEof (envOf ovf input T) := ⟨hG.eofTy⟩
  obtain ⟨pre', g, hs, -⟩ := hG.chain
  have hj : JR ⟨[], T.tokens, es, []⟩ ⟨[], [], false⟩ :=
    ⟨by simpa [cps, cp] using (seg_sorted hs).1, by simp [vals], by simp [astComments], by simp⟩
  have hJ := rootLoop_arr hE _ hj hr
  cases h'
  exact ⟨r, hJ, rfl, rfl⟩

theorem array_range (h : parseDocument ovf input = .ok a s) (ha : HasArray a arr) (hq : arr.stop = .par q) :
    RangeOk (cps a.comments) arr.comments arr.lPar q := by
  obtain ⟨r, hJ, e1, e2⟩ := arrays_run h
  obtain ⟨x, hx, v, hv, har⟩ := ha
  rw [e1] at hx
  rcases List.mem_append.1 hx with hx | hx
  · rw [e2]
    exact (hJ.arr v (List.mem_flatMap.2 ⟨x, hx, hv⟩) arr q har hq).1
  · obtain ⟨c, -, rfl⟩ := List.mem_map.1 hx
    cases hv

/-- The elements of a list whose index is in a range are those of the range. -/
theorem filter_range {α : Type} (f : α → Bool) : ∀ (l : List α) (i n : Nat), i + n ≤ l.length →
    (∀ j x, l[j]? = some x → (f x = true ↔ i ≤ j ∧ j < i + n)) → (l.drop i).take n = l.filter f := by
  intro l
  induction l with
  | nil => intro i n h _; simp
  | cons x l ih =>
    intro i n h hf
    cases i with
    | zero =>
      cases n with
      | zero =>
        rw [List.take_zero, eq_comm, List.filter_eq_nil_iff]
        intro y hy
        obtain ⟨j, hj⟩ := List.mem_iff_getElem?.1 hy
        rw [hf j y hj]
        omega
      | succ n =>
        have := ih 0 n (by simpa using h) (fun j y hy => by
          have := hf (j + 1) y (by simpa using hy)
          rw [this]; omega)
        rw [List.filter_cons_of_pos ((hf 0 x rfl).2 (by omega)), ← this]
        rfl
    | succ i =>
      have := ih i n (by simp at h; omega) (fun j y hy => by
        have := hf (j + 1) y (by simpa using hy)
        rw [this]; omega)
      rw [List.filter_cons_of_neg (by rw [hf 0 x rfl]; omega), ← this]
      rfl

/-- C94: the comments an array has are exactly the associated comments that are between its brackets, in the order of the text. This holds for
every array with a closing bracket, in every document, also in documents with mistakes; the arrays in arrays and in inline tables are
included. -/
theorem C94_array (h : parseDocument ovf input = .ok a s) (ha : HasArray a arr) (hq : arr.stop = .par q) :
    storedIn a.comments arr.comments = a.comments.filter fun c => between arr.lPar q c.comment.span.start := by
  obtain ⟨h1, h2⟩ := array_range h ha hq
  refine filter_range _ _ _ _ (by simpa [cps] using h1) fun j x hx => ?_
  unfold between
  rw [decide_eq_true_iff]
  exact h2 j _ (by simp [cps, hx])

/-- C94: the associated comments are in the order of the text. -/
theorem C94_order (h : parseDocument ovf input = .ok a s) : a.comments.Pairwise fun c d => Sooner c.comment.span.start d.comment.span.start := by
  obtain ⟨r, hJ, -, e2⟩ := arrays_run h
  have := (List.pairwise_append.1 hJ.srt).1
  rw [e2]
  unfold cps at this
  exact List.pairwise_map.1 this

/-- C94: a comment that is on its own is not between the brackets of an array. -/
theorem C94_free (h : parseDocument ovf input = .ok a s) (ha : HasArray a arr) (hq : arr.stop = .par q) {c : Comment} (hc : .comment c ∈ a.asts) :
    between arr.lPar q c.span.start = false := by
  obtain ⟨r, hJ, e1, e2⟩ := arrays_run h
  have hmem : c ∈ astComments r.asts ∨ c ∈ r.prevComments := by
    rw [e1] at hc
    rcases List.mem_append.1 hc with hc | hc
    · left; exact List.mem_filterMap.2 ⟨_, hc, rfl⟩
    · right; obtain ⟨d, hd, he⟩ := List.mem_map.1 hc; cases he; exact hd
  obtain ⟨x, hx, v, hv, har⟩ := ha
  have hv' : v ∈ vals r.asts := by
    rw [e1] at hx
    rcases List.mem_append.1 hx with hx | hx
    · exact List.mem_flatMap.2 ⟨x, hx, hv⟩
    · obtain ⟨d, -, rfl⟩ := List.mem_map.1 hx
      cases hv
  unfold between
  rw [decide_eq_false_iff_not]
  rcases hmem with hm | hm
  · exact (hJ.free c hm).2 v hv' arr q har hq
  · intro hb
    have := (hJ.arr v hv' arr q har hq).2 c.span.start (by simp only [List.mem_append]; exact .inl (List.mem_map_of_mem hm))
    exact sooner_irrefl (sooner_trans hb.2 this)

theorem sorted_perm {α : Type} {R : α → α → Prop} (hR : ∀ x y, R x y → ¬ R y x) : ∀ {l l' : List α}, l.Pairwise R → l'.Pairwise R →
    l.Perm l' → l = l' := by
  intro l l' h h' hp
  exact List.Perm.eq_of_pairwise (fun x y _ _ h1 h2 => absurd h2 (hR _ _ h1)) h h' hp

theorem resolve_place {ss : List StringToken} {ls : List Str} {t : Token} {v : View × Pos} (h : resolve ss ls t = some v) : v.2 = t.start := by
  unfold resolve at h
  split at h <;> simp_all [Option.map_eq_some_iff] <;> (try (obtain ⟨_, _, rfl⟩ := h; rfl)) <;> (try (subst h; rfl))

theorem views_places {ss : List StringToken} {ls : List Str} : ∀ {ts : List Token} {vs : List (View × Pos)},
    ts.map (resolve ss ls) = vs.map some → rps ts = vs.map (·.2) := by
  intro ts
  induction ts with
  | nil => intro vs h; cases vs with
    | nil => rfl
    | cons => cases h
  | cons t ts ih =>
    intro vs h
    cases vs with
    | nil => cases h
    | cons v vs =>
      simp only [List.map_cons, List.cons.injEq] at h
      show t.start :: rps ts = v.2 :: vs.map (·.2)
      rw [ih h.2, resolve_place h.1]

theorem viewComments_places (vs : List (View × Pos)) : ((viewComments vs).map (·.span.start)).Sublist (vs.map (·.2)) := by
  induction vs with
  | nil => exact .slnil
  | cons v vs ih =>
    obtain ⟨v, p⟩ := v
    cases v with
    | comment t => exact List.Sublist.cons_cons _ ih
    | _ => exact List.Sublist.cons _ ih

theorem sooner_asymm {p r : Pos} (h : Sooner p r) : ¬ Sooner r p := fun h' => sooner_irrefl (sooner_trans h h')

/-- C94: in a text that is read without any diagnostic the comments an array has are exactly the comments of the text between its
brackets. -/
theorem C94_text {vs : List Tok} (ht : Tokenized [] input vs) (h : parseDocument ovf input = .ok a s) (he : s.errors = [])
    (ha : HasArray a arr) (hq : arr.stop = .par q) :
    (storedIn a.comments arr.comments).map (·.comment) = (viewComments vs).filter fun c => between arr.lPar q c.span.start := by
  obtain ⟨T, es, vs', h0, h1, h2⟩ := parse_post ovf input
  rw [h] at h2
  obtain ⟨-, -, ⟨new, hn, -⟩, -, -, hp, -⟩ := h2
  rw [he] at hn
  obtain rfl : es = [] := by
    cases es with
    | nil => rfl
    | cons => cases hn
  have hp := hp he
  have hv := (C33_tokens h0 vs).1 ht
  obtain rfl : vs' = vs := by
    rw [h1] at hv
    exact (List.map_inj_right (fun _ _ h => Option.some.inj h)).1 hv
  have hf : (astComments a.asts).filter (fun c => between arr.lPar q c.span.start) = [] := by
    rw [List.filter_eq_nil_iff]
    intro c hc
    obtain ⟨x, hx, hc⟩ := List.mem_filterMap.1 hc
    have : x = .comment c := by
      cases x with
      | comment => cases hc; rfl
      | _ => cases hc
    subst this
    simp [C94_free h ha hq hx]
  have hp := hp.filter fun c => between arr.lPar q c.span.start
  rw [List.filter_append, hf, List.append_nil] at hp
  have e1 : (storedIn a.comments arr.comments).map (·.comment) =
      (a.comments.map (·.comment)).filter fun c => between arr.lPar q c.span.start := by
    rw [C94_array h ha hq, List.filter_map]
    rfl
  rw [e1]
  refine sorted_perm (R := fun c d : Comment => Sooner c.span.start d.span.start) (fun _ _ => sooner_asymm) ?_ ?_ hp.symm
  · exact List.Pairwise.sublist List.filter_sublist (List.pairwise_map.2 (C94_order h))
  · refine List.Pairwise.sublist List.filter_sublist ?_
    rw [← List.pairwise_map (f := fun c : Comment => c.span.start) (R := Sooner)]
    refine List.Pairwise.sublist (viewComments_places vs') ?_
    rw [← views_places h1]
    obtain ⟨T', es', vs'', g0, g1, g2, g3, g4, g5, -⟩ := lex_post input
    rw [h0] at g0
    cases g0
    obtain ⟨pre', g, hs, -⟩ := (good_start (ovf := ovf) (es := []) g1 g2 g3 g4 g5).chain
    exact (seg_sorted hs).1

/-! ## An example -/

/-- A document with an array in an array and comments in both and outside, with a missing value at its end. -/
def nestToml : Str := ['#', 'a', '\n', 'x', '=', '[', '#', 'b', '\n', '[', '#', 'c', '\n', ']', ',', '#', 'd', '\n', ']', '#', 'e', '\n', 'y', '=']

/-- The arrays of a value: the brackets, and the lines of its comments. -/
def arraysOf (cs : List AssocComment) : Nat → Value → List (Pos × Option Pos × List Nat)
  | 0, _ => []
  | n + 1, .inlineArray r => (r.lPar, (match r.stop with | .par q => some q | _ => none),
      (storedIn cs r.comments).map (·.comment.span.start.line)) :: r.values.flatMap fun v => arraysOf cs n v.val
  | n + 1, .inlineTable t => t.assignments.flatMap fun v => arraysOf cs n v.assignment.val
  | _, _ => []

/-- The arrays of a result, the lines of the associated comments, and whether there are diagnostics. -/
def nestSeen : Run Asts → List (Pos × Option Pos × List Nat) × List Nat × Bool
  | .ok a s => ((a.asts.flatMap astValues).flatMap (arraysOf a.comments 4), a.comments.map (·.comment.span.start.line), s.errors.isEmpty)
  | _ => ([], [], true)

set_option maxRecDepth 100000 in
/-- The outer array is from line 1 to line 4 and has the comments `b`, `c` and `d`, the inner one has `c`; the document has a mistake. -/
example : nestSeen (parseDocument true nestToml) =
    ([(⟨1, 2⟩, some ⟨4, 0⟩, [1, 2, 3]), (⟨2, 0⟩, some ⟨3, 0⟩, [2])], [0, 1, 2, 3, 4], false) := by decide +kernel

end Verif.Props
