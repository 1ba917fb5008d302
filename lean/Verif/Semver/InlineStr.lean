/-!
# Model of `InlineStr` (crates/semver/src/inlinestr.rs)

64-bit little-endian targets.  A machine word is a `Nat` below `2^64`, a byte a `Nat` below `256`,
a `&str` the list of its bytes.  The heap maps the base address of every live allocation to its
bytes; the code only ever accesses an allocation through its base pointer, at an offset.

`Mem α` is the outcome of a piece of code that touches memory: a value, a process abort
(`handle_alloc_error`), a panic, or undefined behaviour (access to a dead or too small allocation,
`dealloc` of a dead allocation or with a layout that differs from the one it was allocated with).
Provenance is not modelled: pointers are addresses.
-/

namespace Verif.InlineStr


abbrev Bytes := List Nat

/-- `PTR_SIZE` (crates/semver/src/inlinestr.rs:21) on 64-bit targets. -/
abbrev PTR_SIZE : Nat := 8
/-- `MIN_ALLOC_STR_LEN` (crates/semver/src/inlinestr.rs:22). -/
def MIN_ALLOC_STR_LEN : Nat := PTR_SIZE + 1
/-- `MAX_STR_LEN` (crates/semver/src/inlinestr.rs:23). -/
def MAX_STR_LEN : Nat := (2 ^ 63 - 1) - PTR_SIZE
/-- `usize::rotate_right(1)`. -/
def rotateRight1 (x : Nat) : Nat := x / 2 + (x % 2) * 2 ^ 63
/-- `EMPTY` (crates/semver/src/inlinestr.rs:24). -/
def EMPTY : Nat := rotateRight1 1

/-- `usize::wrapping_sub`. -/
def wrappingSub (a b : Nat) : Nat := (a + 2 ^ 64 - b) % 2 ^ 64
/-- `usize::wrapping_add`. -/
def wrappingAdd (a b : Nat) : Nat := (a + b) % 2 ^ 64
/-- `usize::leading_zeros`. -/
def leadingZeros (x : Nat) : Nat := if x = 0 then 64 else 63 - Nat.log2 x

/-- A word as bytes in memory, little endian. -/
def leBytes : Nat → Nat → Bytes
  | 0, _ => []
  | k + 1, x => x % 256 :: leBytes k (x / 256)

/-- Bytes in memory read as a word, little endian. -/
def fromLe : Bytes → Nat
  | [] => 0
  | b :: bs => b + 256 * fromLe bs

/-- Live allocations: base address to contents. -/
abbrev Heap := Nat → Option Bytes

/-- Outcome of code that touches memory. -/
inductive Mem (α : Type) where
  | ok (a : α)
  | abort
  | panic
  | ub
  deriving DecidableEq

namespace Mem
def bind {α β : Type} : Mem α → (α → Mem β) → Mem β
  | ok a, f => f a
  | abort, _ => abort
  | panic, _ => panic
  | ub, _ => ub
end Mem

instance : Monad Mem where
  pure := .ok
  bind := Mem.bind

/-- Read `n` bytes at offset `off` of the allocation at `p`. -/
def readBytes (h : Heap) (p off n : Nat) : Mem Bytes :=
  match h p with
  | some bs => if off + n ≤ bs.length then .ok ((bs.drop off).take n) else .ub
  | none => .ub

/-- Overwrite bytes at offset `off` of the allocation at `p`. -/
def writeBytes (h : Heap) (p off : Nat) (s : Bytes) : Mem Heap :=
  match h p with
  | some bs =>
    if off + s.length ≤ bs.length then
      .ok (fun q => if q = p then some (bs.take off ++ s ++ bs.drop (off + s.length)) else h q)
    else .ub
  | none => .ub

/-- The allocator, as seen at one call: the address it returns for a heap and a size (0 = null).
The contents of fresh memory are arbitrary: `junk`. -/
structure Allocator where
  addr : Heap → Nat → Nat
  junk : Nat → Bytes

/-- The contract of `std::alloc::alloc` with align 2: null, or an even address that is not the
base of a live allocation, for `size` bytes of arbitrary contents. -/
structure Allocator.Ok (A : Allocator) : Prop where
  null_or_fresh : ∀ h n, A.addr h n = 0 ∨
    (A.addr h n % 2 = 0 ∧ A.addr h n < 2 ^ 64 ∧ h (A.addr h n) = none)
  junk : ∀ n, (A.junk n).length = n

/-- `std::alloc::alloc(layout)` and the null check (crates/semver/src/inlinestr.rs:63-67 and 126-131). -/
def alloc (A : Allocator) (h : Heap) (size : Nat) : Mem (Nat × Heap) :=
  let p := A.addr h size
  if p = 0 then .abort
  else .ok (p, fun q => if q = p then some (A.junk size) else h q)

/-- `std::alloc::dealloc(ptr, layout)` (crates/semver/src/inlinestr.rs:157). -/
def dealloc (h : Heap) (p size : Nat) : Mem Heap :=
  match h p with
  | some bs => if bs.length = size then .ok (fun q => if q = p then none else h q) else .ub
  | none => .ub

/-- `std::ptr::read_unaligned(ptr as *const usize)` (crates/semver/src/inlinestr.rs:121, 150, 202). -/
def readLen (h : Heap) (p : Nat) : Mem Nat := do
  let bs ← readBytes h p 0 PTR_SIZE
  pure (fromLe bs)

/-- `repr_to_ptr` (crates/semver/src/inlinestr.rs:175-182). -/
def reprToPtr (repr : Nat) : Nat :=
  let rotated := repr
  let original := (rotated * 2) % 2 ^ 64
  let diff := wrappingSub original rotated
  wrappingAdd rotated diff

/-- `ptr_to_repr` (crates/semver/src/inlinestr.rs:184-194). -/
def ptrToRepr (ptr : Nat) : Nat :=
  let original := ptr
  let rotated := rotateRight1 (original ||| 1)
  let diff := wrappingSub rotated original
  wrappingAdd original diff

/-- `ptr_as_str` (crates/semver/src/inlinestr.rs:196-208). -/
def ptrAsStr (h : Heap) (repr : Nat) : Mem Bytes := do
  let ptr := reprToPtr repr
  let len ← readLen h ptr
  readBytes h ptr PTR_SIZE len

/-- `InlineStr::new_unchecked` (crates/semver/src/inlinestr.rs:42-81). -/
def newUnchecked (A : Allocator) (h : Heap) (str : Bytes) : Mem (Nat × Heap) :=
  let len := str.length
  if len = 0 then .ok (EMPTY, h)
  else if len ≤ PTR_SIZE then .ok (fromLe (str ++ List.replicate (PTR_SIZE - len) 0), h)
  else if len ≤ MAX_STR_LEN then do
    let allocSize := PTR_SIZE + len
    let (ptr, h) ← alloc A h allocSize
    let h ← writeBytes h ptr 0 (leBytes PTR_SIZE len)
    let h ← writeBytes h ptr PTR_SIZE str
    pure (ptrToRepr ptr, h)
  else .panic

/-- `is_inline` (crates/semver/src/inlinestr.rs:83-85). -/
def isInline (repr : Nat) : Bool := repr >>> (8 * PTR_SIZE - 1) == 0

/-- `is_empty` (crates/semver/src/inlinestr.rs:87-89). -/
def isEmpty (repr : Nat) : Bool := repr == EMPTY

/-- `as_str` (crates/semver/src/inlinestr.rs:91-110), little-endian branch. -/
def asStr (h : Heap) (repr : Nat) : Mem Bytes :=
  if isEmpty repr then .ok []
  else if isInline repr then
    let bits := leadingZeros repr
    let len := PTR_SIZE - bits / 8
    let bytes := leBytes PTR_SIZE repr
    .ok (bytes.take len)
  else ptrAsStr h repr

/-- `Clone::clone` (crates/semver/src/inlinestr.rs:113-139). -/
def clone (A : Allocator) (h : Heap) (repr : Nat) : Mem (Nat × Heap) :=
  if isInline repr || isEmpty repr then .ok (repr, h)
  else do
    let ptr := reprToPtr repr
    let len ← readLen h ptr
    let allocSize := PTR_SIZE + len
    let (c, h') ← alloc A h allocSize
    let bs ← readBytes h' ptr 0 allocSize
    let h' ← writeBytes h' c 0 bs
    pure (ptrToRepr c, h')

/-- `Drop::drop` (crates/semver/src/inlinestr.rs:141-159). -/
def drop (h : Heap) (repr : Nat) : Mem Heap :=
  if isEmpty repr || isInline repr then .ok h
  else do
    let ptr := reprToPtr repr
    let len ← readLen h ptr
    dealloc h ptr (PTR_SIZE + len)

/-- `PartialEq::eq` (crates/semver/src/inlinestr.rs:163-173). -/
def eq (h : Heap) (a b : Nat) : Mem Bool :=
  if isEmpty a || isInline a then .ok (a == b)
  else if isEmpty b || isInline b then .ok false
  else do
    let s ← ptrAsStr h a
    let t ← ptrAsStr h b
    pure (s == t)

/-! ## Histories

Rust's ownership rules (trusted) guarantee that a value is dropped at most once and not used
afterwards; the machine keeps its values in numbered slots and ignores operations on dead slots. -/

/-- One operation of a history. -/
inductive Cmd
  | new (s : Bytes)
  | clone (i : Nat)
  | drop (i : Nat)
  | read (i : Nat)
  | cmp (i j : Nat)

/-- What an operation returns to its caller. -/
inductive Obs
  | none
  | text (s : Bytes)
  | bool (b : Bool)
  deriving DecidableEq

/-- The values that have been created (`none` = dropped) and the heap. -/
structure State where
  slots : List (Option Nat)
  heap : Heap

/-- Nothing created, nothing allocated. -/
def State.init : State := ⟨[], fun _ => Option.none⟩

/-- The value in slot `i`, if it is live. -/
def slot {α : Type} (l : List (Option α)) (i : Nat) : Option α := (l[i]?).join

/-- Execute one operation. -/
def step (A : Allocator) (st : State) : Cmd → Mem (State × Obs)
  | .new s => do
    let (r, h) ← newUnchecked A st.heap s
    pure (⟨st.slots ++ [some r], h⟩, .none)
  | .clone i =>
    match slot st.slots i with
    | some r => do
      let (r', h) ← clone A st.heap r
      pure (⟨st.slots ++ [some r'], h⟩, .none)
    | none => pure (st, .none)
  | .drop i =>
    match slot st.slots i with
    | some r => do
      let h ← drop st.heap r
      pure (⟨st.slots.set i Option.none, h⟩, .none)
    | none => pure (st, .none)
  | .read i =>
    match slot st.slots i with
    | some r => do
      let s ← asStr st.heap r
      pure (st, .text s)
    | none => pure (st, .none)
  | .cmp i j =>
    match slot st.slots i, slot st.slots j with
    | some a, some b => do
      let e ← eq st.heap a b
      pure (st, .bool e)
    | _, _ => pure (st, .none)

/-- Execute a history; the allocator may behave differently at every step. -/
def run (A : Nat → Allocator) (st : State) : List Cmd → Mem (State × List Obs)
  | [] => pure (st, [])
  | c :: cs => do
    let (st, o) ← step (A 0) st c
    let (st, os) ← run (fun n => A (n + 1)) st cs
    pure (st, o :: os)

end Verif.InlineStr
