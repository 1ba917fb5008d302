import Verif.Toml.DamageTop

/-! # Property C86: an error in one line does not affect the others

Documents with damaged lines are in `Spec/Damage.lean`. -/

namespace Verif.Props
open Verif Verif.Toml Verif.Spec.Toml

variable {input : Str} {ps : List (List Item ⊕ Nat)}

/-- C86: for a document in which some lines are damaged in any way, the tree has all items of the other lines, in their
order, and every diagnostic is in a damaged line. -/
theorem C86_damaged (h : Damaged [] input ps) (ovf : Bool) :
    ∃ a s, parseDocument ovf input = .ok a s ∧ Filled ps (a.asts.flatMap astItems) ∧
      ∀ e ∈ s.errors, .inr e.span.start.line ∈ ps := parse_damaged h ovf

/-- C86: in particular such a document does not make the parser panic. -/
theorem C86_no_panic (h : Damaged [] input ps) (ovf : Bool) : parseDocument ovf input ≠ .panic := by
  obtain ⟨a, s, h, -⟩ := parse_damaged h ovf
  rw [h]
  intro hh
  cases hh

/-! ## Example -/

/-- The second line has an unclosed string and two equal signs, the fourth one an unknown character and no closing
bracket, the last one is missing its value. -/
def brokenToml : Str := "a = 1\nb = = \"x\nc = 1\n[d ? e\nf =".toList

/-- The line `a = 1` behind any text. -/
theorem oneLine (pre : Str) (k : Char) (hk : k = 'a' ∨ k = 'c') : ∃ ts p,
    Tokenized pre ([k, ' ', '=', ' ', '1'] ++ ['\n']) (ts ++ [(View.newline, p)]) ∧
    Line true ts [.keyVal [[k]] (.int 1)] := by
  refine ⟨[(.word [k], posOf pre), (.punct '=', posOf (pre ++ [k] ++ [' '])),
    (.word ['1'], posOf (pre ++ [k] ++ [' '] ++ ['='] ++ [' ']))], posOf (pre ++ [k] ++ [' '] ++ ['='] ++ [' '] ++ ['1']), ?_, ?_⟩
  · have hw : ∀ (k : Char) (s : Str), startsWord (k :: s) = true →
        ∀ a c b, [k] = a ++ c :: b → startsWord (c :: (b ++ s)) = true := by
      intro k s hs a c b h
      cases a with
      | nil => cases h; exact hs
      | cons x a => cases a <;> cases h
    refine .word (w := [k]) (by simp) (hw _ _ ?_) (by decide) (.blank (.inl rfl) (.punct (by decide) (.blank (.inl rfl)
      (.word (w := ['1']) (by simp) (hw _ _ (by decide)) (by decide) (.newline (nl := ['\n']) (s := []) (.inl rfl) .nil)))))
    rcases hk with rfl | rfl <;> decide
  · refine .expr (.keyVal (kt := [_]) (.one (.bare ?_)) (.bare ⟨['1'], [], [], rfl, rfl, .nil⟩
      (.int ⟨[], 1, ['1'], rfl, .none, ⟨.one (by decide), .inr (by decide)⟩, by decide⟩ (by unfold InRange; omega))))
    intro c hc
    rw [List.mem_singleton.1 hc]
    unfold BareChar
    rcases hk with rfl | rfl <;> decide

/-- Lines with few quotes, and without an equal sign or without a bracket. -/
theorem anyLine_of {t : Str} (h1 : '\n' ∉ t) (h2 : t.count '"' ≤ 2) (h3 : t.count '\'' ≤ 2)
    (h4 : '=' ∉ t ∨ '[' ∉ t) (h5 : t.count '{' ≤ 99) : AnyLine t := by
  refine ⟨h1, ?_, ?_, ?_, h5⟩
  · rintro ⟨a, b, rfl⟩
    simp only [List.count_append, List.count_cons_self] at h2
    omega
  · rintro ⟨a, b, rfl⟩
    simp only [List.count_append, List.count_cons_self] at h3
    omega
  · rintro a b rfl hb
    rcases h4 with h4 | h4 <;> simp [hb] at h4

/-- The example meets the hypothesis of the theorems. -/
theorem broken_damaged : Damaged [] brokenToml
    [.inl [.keyVal [['a']] (.int 1)], .inr 1, .inl [.keyVal [['c']] (.int 1)], .inr 3, .inr 4] := by
  have hin : brokenToml = ['a', ' ', '=', ' ', '1'] ++ '\n' :: (['b', ' ', '=', ' ', '=', ' ', '"', 'x'] ++ '\n' ::
    (['c', ' ', '=', ' ', '1'] ++ '\n' :: (['[', 'd', ' ', '?', ' ', 'e'] ++ '\n' :: ['f', ' ', '=']))) := by
    decide +kernel
  rw [hin]
  obtain ⟨ts1, p1, h1, k1⟩ := oneLine [] 'a' (.inl rfl)
  refine .right h1 k1 ?_
  have e1 : (posOf ([] ++ ['a', ' ', '=', ' ', '1'] ++ ['\n'])).line = 1 := by decide +kernel
  have e3 : (posOf ([] ++ ['a', ' ', '=', ' ', '1'] ++ ['\n'] ++ ['b', ' ', '=', ' ', '=', ' ', '"', 'x'] ++ ['\n'] ++
    ['c', ' ', '=', ' ', '1'] ++ ['\n'])).line = 3 := by decide +kernel
  have e4 : (posOf ([] ++ ['a', ' ', '=', ' ', '1'] ++ ['\n'] ++ ['b', ' ', '=', ' ', '=', ' ', '"', 'x'] ++ ['\n'] ++
    ['c', ' ', '=', ' ', '1'] ++ ['\n'] ++ ['[', 'd', ' ', '?', ' ', 'e'] ++ ['\n'])).line = 4 := by decide +kernel
  rw [← e1, ← e3, ← e4]
  refine .damaged (anyLine_of (by decide) (by decide) (by decide) (by decide) (by decide)) ?_
  obtain ⟨ts2, p2, h2, k2⟩ := oneLine ([] ++ ['a', ' ', '=', ' ', '1'] ++ ['\n'] ++
    ['b', ' ', '=', ' ', '=', ' ', '"', 'x'] ++ ['\n']) 'c' (.inr rfl)
  refine .right h2 k2 ?_
  refine .damaged (anyLine_of (by decide) (by decide) (by decide) (by decide) (by decide)) ?_
  exact .damagedEnd (anyLine_of (by decide) (by decide) (by decide) (by decide) (by decide))

/-- The names of an item. -/
def itemNames : Item → List Str
  | .table k => k
  | .arrayTable k => k
  | .keyVal k _ => k

/-- The lines of the diagnostics, and the names of the items. -/
def linesAndNames : Run Asts → List Nat × List (List Str)
  | .ok a s => (s.errors.map fun e => e.span.start.line, (a.asts.flatMap astItems).map itemNames)
  | _ => ([], [])

/-- What the parser makes of the example: all items of the right lines, diagnostics in each of the others. -/
example : linesAndNames (parseDocument true brokenToml) =
    ([1, 1, 3, 3, 4], [["a".toList], ["c".toList], ["d".toList]]) := by decide +kernel

/-- ... and what `C86_damaged` says about it. -/
example : ∃ a s, parseDocument true brokenToml = .ok a s ∧
    ∀ e ∈ s.errors, e.span.start.line = 1 ∨ e.span.start.line = 3 ∨ e.span.start.line = 4 := by
  obtain ⟨a, s, h, -, he⟩ := C86_damaged broken_damaged true
  exact ⟨a, s, h, fun e hm => by simpa using he e hm⟩

/-- Without the condition on arrays: the line behind a bracket that is not closed is hidden, and the diagnostics
are in that line. -/
example : linesAndNames (parseDocument true "a = [\nb = 1".toList) = ([1, 1, 1, 1], [["a".toList]]) := by decide +kernel

end Verif.Props
