import Verif.Spec.AssocLevel

/-!
# Specification: the comments of the entries of arrays
-/

namespace Verif.Spec.Toml
open Verif Verif.Toml

/-- The comment `c` is one of the entry `x` of the array `arr`: it is behind the start of the entry and in front of the next one, and it is behind
something on its line or in front of the comma of the entry. -/
def Belongs (arr : InlineArray) (x : InlineArrayValue) (c : AssocComment) : Prop :=
  Sooner x.val.start c.comment.span.start ∧ (∀ y ∈ arr.values, Sooner x.val.start y.val.start → Sooner c.comment.span.start y.val.start) ∧
    (c.pos = .lineEnd ∨ ∃ p, x.comma = some p ∧ Sooner c.comment.span.start p)

end Verif.Spec.Toml
