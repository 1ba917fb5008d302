import Verif.Common.Basic

/-!
# Model of `OneVec` (crates/toml/src/onevec.rs)

`none` is undefined behaviour or a panic: an unchecked access out of bounds, `len - 1` below zero, an index out of
bounds.
-/

namespace Verif.Toml
open Verif

/-- `OneVec` (crates/toml/src/onevec.rs:4-6). -/
structure OneVec (α : Type) where
  inner : List α
  deriving DecidableEq

namespace OneVec
variable {α : Type}

/-- `OneVec::new` (crates/toml/src/onevec.rs:9-11). -/
def new (x : α) : OneVec α := ⟨[x]⟩

/-- `OneVec::from_vec_unchecked` (crates/toml/src/onevec.rs:13-19). -/
def fromVecUnchecked (xs : List α) : OneVec α := ⟨xs⟩

/-- `OneVec::len` (crates/toml/src/onevec.rs:21-23). -/
def len (v : OneVec α) : Nat := v.inner.length

/-- `OneVec::is_empty` (crates/toml/src/onevec.rs:25-27). -/
def isEmpty (v : OneVec α) : Bool := v.inner.isEmpty

/-- `OneVec::first` (crates/toml/src/onevec.rs:29-34). -/
def first (v : OneVec α) : Option α := v.inner[0]?

/-- `OneVec::last` (crates/toml/src/onevec.rs:43-48). -/
def last (v : OneVec α) : Option α :=
  if v.inner.length < 1 then none else v.inner[v.inner.length - 1]?

/-- `OneVec::push` (crates/toml/src/onevec.rs:58-60). -/
def push (v : OneVec α) (x : α) : OneVec α := ⟨v.inner ++ [x]⟩

/-- `OneVec::index` with a number (crates/toml/src/onevec.rs:76-83). -/
def index (v : OneVec α) (i : Nat) : Option α := v.inner[i]?

/-- An assignment through `OneVec::index_mut` with a number (crates/toml/src/onevec.rs:85-90). -/
def indexSet (v : OneVec α) (i : Nat) (x : α) : Option (OneVec α) :=
  if i < v.inner.length then some ⟨v.inner.set i x⟩ else none

/-- An assignment through `OneVec::first_mut` (crates/toml/src/onevec.rs:36-41). -/
def firstSet (v : OneVec α) (x : α) : Option (OneVec α) :=
  if 0 < v.inner.length then some ⟨v.inner.set 0 x⟩ else none

/-- An assignment through `OneVec::last_mut` (crates/toml/src/onevec.rs:50-56). -/
def lastSet (v : OneVec α) (x : α) : Option (OneVec α) :=
  if v.inner.length < 1 then none else some ⟨v.inner.set (v.inner.length - 1) x⟩

/-- A call that changes the vector. -/
inductive Call (α : Type)
  | push (x : α)
  | indexSet (i : Nat) (x : α)
  | firstSet (x : α)
  | lastSet (x : α)

/-- One call. -/
def call (v : OneVec α) : Call α → Option (OneVec α)
  | .push x => some (v.push x)
  | .indexSet i x => v.indexSet i x
  | .firstSet x => v.firstSet x
  | .lastSet x => v.lastSet x

/-- A history of calls. -/
def calls (v : OneVec α) : List (Call α) → Option (OneVec α)
  | [] => some v
  | c :: cs => (v.call c).bind fun v => calls v cs

end OneVec

end Verif.Toml
