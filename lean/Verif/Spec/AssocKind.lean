import Verif.Spec.AssocArr

/-!
# Specification: comments at the end of a line and comments on their own line
-/

namespace Verif.Spec.Toml
open Verif Verif.Toml

/-- Behind the text `pre`, nothing but spaces and tabs stands on the line. -/
def FirstOnLine (pre : Str) : Prop :=
  ∃ l g, pre = l ++ g ∧ (∀ c ∈ g, c = ' ' ∨ c = '\t') ∧ (l = [] ∨ ∃ l', l = l' ++ ['\n'])

/-- The text in front of the place `p`. -/
def InFrontOf (input : Str) (p : Pos) (pre : Str) : Prop := pre <+: input ∧ posOf pre = p

/-- An entry of an array in the value `v` starts on line `l`. -/
def EntryOn (v : Value) (l : Nat) : Prop := ∃ arr x, ArrayIn arr v ∧ x ∈ arr.values ∧ x.val.start.line = l

/-- A header, an assignment or an entry of an array is on line `l`: the first bracket of the header, the `=` of the assignment, or the start
of the entry. -/
def StartsOn (a : Asts) (l : Nat) : Prop :=
  (∃ p r, HasItem a.asts p r ∧ p.line = l) ∨ ∃ x ∈ a.asts, ∃ v ∈ astValues x, EntryOn v l

end Verif.Spec.Toml
