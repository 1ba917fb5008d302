import Verif.Toml.AssocOwnRoot
import Verif.Toml.AssocKindText
import Verif.Props.AssocArr

/-! # Property C96: comments at the end of a line, and comments above something

`FirstOnLine`, `InFrontOf` and `StartsOn` are in `Spec/AssocKind.lean`. -/

namespace Verif.Props
open Verif Verif.Toml Verif.Spec.Toml

variable {input : Str} {ovf : Bool} {a : Asts} {s : PS}

/-- What holds of the comments of a document without diagnostics. -/
theorem kinds_run (h : parseDocument ovf input = .ok a s) (he : s.errors = []) : ∃ vs, Tokenized [] input vs ∧
    KindOk vs a.comments ∧ (∀ c ∈ astComments a.asts, ¬ NotFirst vs c.span.start) ∧ AboveOk (WL a.asts) a.comments ∧
    (viewComments vs).Perm (a.comments.map (·.comment) ++ astComments a.asts) ∧
    ∃ r : RootSt, OR s r ∧ a.asts = r.asts ++ r.prevComments.map .comment ∧ a.comments = s.storage := by
  obtain ⟨T, es, vs, h0, h1, h2, h3, h4, h5, -, h6, h7⟩ := lex_post input
  obtain ⟨T', es', vs', h0', h2', hp⟩ := parse_post ovf input
  rw [h0] at h0'
  cases h0'
  have : vs = vs' := (List.map_inj_right (fun _ _ => Option.some.inj)).1 (h2.symm.trans h2')
  subst this
  rw [h] at hp
  obtain ⟨new, hn, -⟩ := hp.2.2.1
  have hes : es = [] := by
    rw [he] at hn
    exact (List.append_eq_nil_iff.1 hn.symm).1
  subst hes
  have htok : Tokenized [] input vs := by
    rcases h6 with ⟨-, h6⟩ | ⟨h6, -⟩
    · exact (h6 vs).2 rfl
    · exact absurd rfl h6
  refine ⟨vs, htok, ?_⟩
  have hperm := hp.2.2.2.2.2.1 he
  refine (fun (x : _ ∧ _ ∧ _ ∧ _) => ⟨x.1, x.2.1, x.2.2.1, hperm, x.2.2.2⟩) ?_
  unfold parseDocument at h
  rw [h0] at h
  dsimp only [parse] at h
  rw [bind_budget] at h
  obtain ⟨r, s1, hr, h⟩ := bind_inv h
  have hE : EnvOk (envOf ovf input T) := ⟨⟨by simp [envOf, h1]⟩, h7 rfl⟩
  have hG := good_start (ovf := ovf) (es := []) h1 h2 h3 h4 h5
  have hr' : (⟨r.asts ++ r.prevComments.map Ast.comment, s1.storage⟩ : Asts) = a ∧ s1 = s := by
    have : Run.ok (⟨r.asts ++ r.prevComments.map Ast.comment, s1.storage⟩ : Asts) s1 = .ok a s := h
    cases this
    exact ⟨rfl, rfl⟩
  obtain ⟨rfl, rfl⟩ := hr'
  have hd := (tokenized_places htok).1
  have hv := start_view (ovf := ovf) (es := []) h2 (h7 rfl) (input := input)
  have hK : KR (envOf ovf input T) vs ⟨[], T.tokens, [], []⟩ ⟨[], [], false⟩ := by
    refine ⟨⟨hG.cx, ⟨[], by simp [hv]⟩, by simp [KindOk]⟩, by simp, by simp [astComments], by simp, ?_, false, RI.nil⟩
    intro _ x p rest hc hN
    rw [hv] at hc
    obtain ⟨b, t, e, -⟩ := notFirst_prev hd (a := []) hc hN
    simp at e
  obtain ⟨k1, k2⟩ := rootLoop_above hd hE _ hK (by simp [AboveOk]) hr he
  obtain ⟨pre', g, hseg, -⟩ := hG.chain
  have hj : OR ⟨[], T.tokens, [], []⟩ ⟨[], [], false⟩ :=
    ⟨⟨⟨by simpa [cps, cp] using (seg_sorted hseg).1, by simp [vals], by simp [astComments], by simp⟩, by simp [RootEnt, vals]⟩, by simp [RootOwn, vals]⟩
  refine ⟨k1.ko.kind, ?_, k2.mono fun l hl => hl.app, r, rootLoop_own hd hE _ hK hj hr he, rfl, rfl⟩
  intro c hc
  rw [astComments_append', astComments_map] at hc
  rcases List.mem_append.1 hc with hc | hc
  · exact k1.free c hc
  · exact k1.prev c hc

theorem mem_viewComments {vs : List Tok} {c : Comment} (h : c ∈ viewComments vs) : (.comment c.text, c.span.start) ∈ vs := by
  obtain ⟨⟨v, p⟩, hv, h⟩ := List.mem_filterMap.1 h
  cases v with
  | comment t => cases h; exact hv
  | _ => cases h

/-- C96: in a text without diagnostics there is a place in the text in front of each comment. -/
theorem C96_place (h : parseDocument ovf input = .ok a s) (he : s.errors = []) {c : Comment}
    (hc : c ∈ a.comments.map (·.comment) ∨ c ∈ astComments a.asts) : ∃ pre, InFrontOf input c.span.start pre := by
  obtain ⟨vs, h1, -, -, -, h2, -⟩ := kinds_run h he
  have hm := mem_viewComments (h2.symm.subset (List.mem_append.2 hc))
  obtain ⟨x, y, e⟩ := List.append_of_mem hm
  obtain ⟨u, z, e1, e2, -⟩ := comment_fresh h1 e
  exact ⟨u, ⟨z, e1.symm⟩, e2.symm⟩

/-- C96: in a text without diagnostics a comment is marked as one at the end of a line exactly if something other than spaces and tabs
stands in front of it on its line. -/
theorem C96_line_end (h : parseDocument ovf input = .ok a s) (he : s.errors = []) {c : AssocComment} (hc : c ∈ a.comments) {pre : Str}
    (hp : InFrontOf input c.comment.span.start pre) : c.pos = .lineEnd ↔ ¬ FirstOnLine pre := by
  obtain ⟨vs, h1, h2, -, -, h3, -⟩ := kinds_run h he
  have hm := mem_viewComments (h3.symm.subset (List.mem_append_left _ (List.mem_map_of_mem hc)))
  rw [← notFirst_text h1 hm hp]
  have := h2 (lk c) (List.mem_map_of_mem hc)
  simpa [lk] using this

/-- C96: in a text without diagnostics a comment that belongs to nothing is the first on its line. -/
theorem C96_free (h : parseDocument ovf input = .ok a s) (he : s.errors = []) {c : Comment} (hc : .comment c ∈ a.asts) {pre : Str}
    (hp : InFrontOf input c.span.start pre) : FirstOnLine pre := by
  obtain ⟨vs, h1, -, h2, -, h3, -⟩ := kinds_run h he
  have hc : c ∈ astComments a.asts := List.mem_filterMap.2 ⟨_, hc, rfl⟩
  have hm := mem_viewComments (h3.symm.subset (List.mem_append_right _ hc))
  have := h2 c hc
  rw [notFirst_text h1 hm hp] at this
  exact Classical.not_not.1 this

/-- C96: in a text without diagnostics a comment that is marked as above something is above the line of a header, an assignment or an entry
of an array, and on every line in between is a comment that is the first on its line.

The full property says that the thing is not one behind the brackets around the comment, and that every comment directly above an entry is
marked.  Both are false: see the counterexamples. -/
theorem C96_above_partial (h : parseDocument ovf input = .ok a s) (he : s.errors = []) {c : AssocComment} (hc : c ∈ a.comments)
    (hp : c.pos = .above) : ∃ l, StartsOn a l ∧ c.comment.span.start.line < l ∧
      ∀ j, c.comment.span.start.line < j → j < l → ∃ d ∈ a.comments, d.comment.span.start.line = j ∧
        ∃ pre, InFrontOf input d.comment.span.start pre ∧ FirstOnLine pre := by
  obtain ⟨vs, -, -, -, h1, -⟩ := kinds_run h he
  obtain ⟨l, h2, h3, h4⟩ := h1 c hc hp
  refine ⟨l, h2.item, h3, fun j h5 h6 => ?_⟩
  obtain ⟨x, hx, h7, h8⟩ := h4 j h5 h6
  obtain ⟨d, hd, rfl⟩ := List.mem_map.1 hx
  obtain ⟨pre, h9⟩ := C96_place h he (.inl (List.mem_map_of_mem (f := (·.comment)) hd))
  refine ⟨d, hd, h7, pre, h9, ?_⟩
  have hk := C96_line_end h he hd h9
  have : ¬ d.pos = .lineEnd := by simpa [lk] using h8
  rw [hk] at this
  exact Classical.not_not.1 this

/-- C96: in a text without diagnostics a comment that is the first on its line, stands on the line above the start of an entry of an array,
and has no further comment behind it up to the end of that entry, is marked as above something. -/
theorem C96_entry (h : parseDocument ovf input = .ok a s) (he : s.errors = []) {arr : InlineArray} {x : InlineArrayValue} {c : AssocComment}
    (ha : HasArray a arr) (hx : x ∈ arr.values) (hc : c ∈ a.comments) (hl : c.comment.span.start.line + 1 = x.val.start.line)
    (hn : ∀ d ∈ a.comments, Sooner c.comment.span.start d.comment.span.start →
      ¬ Sooner d.comment.span.start x.val.start ∧ ¬ Sooner d.comment.span.start x.val.stop)
    {pre : Str} (hp : InFrontOf input c.comment.span.start pre) (hf : FirstOnLine pre) : c.pos = .above := by
  obtain ⟨vs, -, -, -, -, -, r, hR, e1, e2⟩ := kinds_run h he
  have h1 : c.pos ≠ .lineEnd := fun hq => (C96_line_end h he hc hp).1 hq hf
  obtain ⟨y, hy, v, hv, har⟩ := ha
  have hv' : v ∈ vals r.asts := by
    rw [e1] at hy
    rcases List.mem_append.1 hy with hy | hy
    · exact List.mem_flatMap.2 ⟨y, hy, hv⟩
    · obtain ⟨c, -, rfl⟩ := List.mem_map.1 hy
      cases hv
  obtain ⟨-, h2⟩ := hR.er.ent v hv' _ _ _ ⟨arr, x, har, hx, rfl, rfl, rfl⟩
  rw [e2] at hc hn
  obtain ⟨i, hi⟩ := List.getElem?_of_mem hc
  have h3 : c.pos ≠ .contained := by
    refine h2 i c hi hl fun j d hij hd => hn d (List.mem_of_getElem? hd) ?_
    have hs := (List.pairwise_append.1 hR.er.jr.srt).1
    have hj := (List.getElem?_eq_some_iff.1 hd).1
    have := List.pairwise_iff_getElem.1 hs i j (by simp [cps]; omega) (by simp [cps]; omega) hij
    have hi' := (List.getElem?_eq_some_iff.1 hi).2
    have hd' := (List.getElem?_eq_some_iff.1 hd).2
    simpa [cps, hi', hd'] using this
  cases hq : c.pos with
  | above => rfl
  | lineEnd => exact absurd hq h1
  | contained => exact absurd hq h3

/-! ## Examples -/

/-- The places of the first entry of the first assignment of a tree, and of the comments. -/
def entrySeen : Run Asts → Option (Pos × Pos) × List (Pos × AssocPos) × Bool
  | .ok ⟨.assignment ⟨_, ⟨_, _, .inlineArray ⟨_, _, x :: _, _⟩⟩⟩ :: _, cs⟩ s =>
    (some (x.val.start, x.val.stop), cs.map fun c => (c.comment.span.start, c.pos), s.errors.isEmpty)
  | _ => (none, [], false)

set_option maxRecDepth 100000 in
/-- `C96_entry` applies to `x=[`, a line with the comment `c`, a line with `1, #d` and `]`: the comment `c` is above the entry and no comment
is between it and the end of the entry. -/
example : entrySeen (parseDocument true ['x', '=', '[', '\n', '#', 'c', '\n', '1', ',', ' ', '#', 'd', '\n', ']']) =
    (some (⟨2, 0⟩, ⟨2, 1⟩), [(⟨1, 0⟩, .above), (⟨2, 3⟩, .lineEnd)], true) := by decide +kernel

/-- The stored comments of a result: the mark, the level and the line; the lines of the free comments; and whether there are no
diagnostics. -/
def kindSeen : Run Asts → List (AssocPos × Nat × Nat) × List Nat × Bool
  | .ok a s => (a.comments.map fun c => (c.pos, c.level, c.comment.span.start.line), (astComments a.asts).map (·.span.start.line), s.errors.isEmpty)
  | _ => ([], [], false)

/-- A document with free comments, comments above a header, an assignment and the entry of an array, comments at the end of a line and a
comment in an array. -/
def kindToml : Str := ['#', 'a', '\n', '\n', ' ', '#', 'b', '\n', '[', 't', ']', '#', 'c', '\n', '#', 'd', '\n', '#', 'e', '\n', 'x', '=', '[', ' ', '#', 'f', '\n',
  '#', 'g', '\n', '"', '#', '"', ' ', '#', 'h', '\n', '#', 'i', '\n', '\n', ']', '\n', '#', 'j']

set_option maxRecDepth 100000 in
/-- The comments `a` and `j` are free, `b`, `d`, `e` and `g` are above something, `c`, `f` and `h` are at the end of a line; there are no
diagnostics. -/
example : kindSeen (parseDocument true kindToml) =
    ([(.above, 0, 2), (.lineEnd, 0, 3), (.above, 1, 4), (.above, 1, 5), (.lineEnd, 1, 6), (.above, 2, 7), (.lineEnd, 2, 8), (.contained, 1, 9)],
      [0, 12], true) := by decide +kernel

/-- `x=[[`, a line with the comment `c`, and `],1]`. -/
def innerToml : Str := ['x', '=', '[', '[', '\n', '#', 'c', '\n', ']', ',', '1', ']']

set_option maxRecDepth 100000 in
/-- Counterexample to the full property: the comment `c` is in the brackets of the first entry of the outer array, and nothing is below it
there, but it is marked as above the second entry of the outer array. -/
theorem C96_counterexample_inner : kindSeen (parseDocument true innerToml) = ([(.above, 1, 1)], [], true) := by decide +kernel

/-- `x=[`, a line with the comment `c`, `[#d` and `1]]`. -/
def belowToml : Str := ['x', '=', '[', '\n', '#', 'c', '\n', '[', '#', 'd', '\n', '1', ']', ']']

set_option maxRecDepth 100000 in
/-- Counterexample to the full property: the comment `c` is directly above the entry that starts on line 2, but as there is a comment in that
entry it is not marked so. -/
theorem C96_counterexample_entry : kindSeen (parseDocument true belowToml) = ([(.contained, 0, 1), (.lineEnd, 1, 2)], [], true) := by
  decide +kernel

end Verif.Props
