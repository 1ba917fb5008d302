import Verif.Common.Basic

/-!
# Specification: decimal notation

`decimal n` is the usual decimal text of `n` (no leading zero); `decVal s` is the number a string
of digits denotes.
-/

namespace Verif.Spec
open Verif

/-- The decimal text of a natural number, as printed by Rust's `Display` for `u32`. -/
def decimal (n : Nat) : Str := Nat.toDigits 10 n

/-- The number denoted by a string of decimal digits. -/
def decVal (s : Str) : Nat := s.foldl (fun n c => 10 * n + digitVal c) 0

end Verif.Spec
