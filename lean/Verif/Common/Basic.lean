/-!
# Shared vocabulary of the model

* `Str`     : a Rust `&str`, as the list of its characters (Unicode scalar values).
* `blen`    : `str::len()`, the length in UTF-8 bytes.
* `Res`     : the outcome of a Rust function returning `Result`: a value, an error, or a panic.
* `Pos`, `Span` : source positions.
-/

namespace Verif

/-- A Rust `&str`/`String`: the list of its `char`s. Byte offsets are recovered with `blen`. -/
abbrev Str := List Char

/-- `str::len`: number of UTF-8 bytes. -/
def blen : Str → Nat
  | [] => 0
  | c :: cs => c.utf8Size + blen cs

@[simp] theorem blen_nil : blen [] = 0 := rfl
@[simp] theorem blen_cons (c : Char) (cs : Str) : blen (c :: cs) = c.utf8Size + blen cs := rfl
@[simp] theorem blen_append (a b : Str) : blen (a ++ b) = blen a + blen b := by
  induction a with
  | nil => simp
  | cons c cs ih => simp [ih, Nat.add_assoc]

/-- Outcome of a fallible Rust function.  `panic` stands for any unwinding or abort:
`unreachable!`, `expect`, out-of-bounds slicing, or arithmetic overflow in a build with overflow
checks. -/
inductive Res (ε α : Type) where
  | ok (a : α)
  | err (e : ε)
  | panic
  deriving DecidableEq, Repr

namespace Res
variable {ε α β : Type}

/-- The `?` operator. -/
def bind (x : Res ε α) (f : α → Res ε β) : Res ε β :=
  match x with
  | ok a => f a
  | err e => err e
  | panic => panic

instance : Monad (Res ε) where
  pure := ok
  bind := bind

@[simp] theorem bind_ok (a : α) (f : α → Res ε β) : (Res.ok a >>= f) = f a := rfl
@[simp] theorem bind_err (e : ε) (f : α → Res ε β) : ((Res.err e : Res ε α) >>= f) = .err e := rfl
@[simp] theorem bind_panic (f : α → Res ε β) : ((Res.panic : Res ε α) >>= f) = .panic := rfl
@[simp] theorem pure_eq (a : α) : (pure a : Res ε α) = .ok a := rfl

theorem bind_eq_ok {x : Res ε α} {f : α → Res ε β} {b : β} :
    (x >>= f) = .ok b ↔ ∃ a, x = .ok a ∧ f a = .ok b := by
  cases x <;> simp

theorem bind_eq_err {x : Res ε α} {f : α → Res ε β} {e : ε} :
    (x >>= f) = .err e ↔ x = .err e ∨ ∃ a, x = .ok a ∧ f a = .err e := by
  cases x <;> simp

theorem bind_eq_panic {x : Res ε α} {f : α → Res ε β} :
    (x >>= f) = .panic ↔ x = .panic ∨ ∃ a, x = .ok a ∧ f a = .panic := by
  cases x <;> simp

end Res

/-- `common::Pos` (crates/common/src/lib.rs:143-149): 0-based line and UTF-8 byte column.
Simplification: `u32` is modelled by `Nat` (documents shorter than 4 GiB). -/
structure Pos where
  line : Nat
  char : Nat
  deriving DecidableEq, Repr

namespace Pos

/-- `Pos::ZERO` (crates/common/src/lib.rs:152). -/
def ZERO : Pos := ⟨0, 0⟩

/-- `Pos::plus` (crates/common/src/lib.rs:167-173). -/
def plus (p : Pos) (n : Nat) : Pos := ⟨p.line, p.char + n⟩

/-- `Pos::minus` (crates/common/src/lib.rs:175-181).  Every call site is modelled so that the
subtraction does not underflow; where that is not evident the caller checks and panics. -/
def minus (p : Pos) (n : Nat) : Pos := ⟨p.line, p.char - n⟩

/-- `Pos::after` (crates/common/src/lib.rs:159-165). -/
def after (p : Pos) (c : Char) : Pos := ⟨p.line, p.char + c.utf8Size⟩

/-- `derive(PartialOrd, Ord)` on `Pos` (crates/common/src/lib.rs:143): line first, then column. -/
def le (p q : Pos) : Prop := p.line < q.line ∨ (p.line = q.line ∧ p.char ≤ q.char)

end Pos

/-- `common::Span` (crates/common/src/lib.rs:90-94). -/
structure Span where
  start : Pos
  stop : Pos
  deriving DecidableEq, Repr

namespace Span

/-- `Span::from_pos_len` (crates/common/src/lib.rs:102-108). -/
def fromPosLen (p : Pos) (n : Nat) : Span := ⟨p, p.plus n⟩
/-- `Span::pos` (crates/common/src/lib.rs:110-116). -/
def ofPos (p : Pos) : Span := ⟨p, p⟩
/-- `Span::ascii_char` (crates/common/src/lib.rs:118-124). -/
def asciiChar (p : Pos) : Span := ⟨p, p.plus 1⟩
/-- `Span::across` (crates/common/src/lib.rs:126-132). -/
def across (a b : Span) : Span := ⟨a.start, b.stop⟩
/-- `Span::between` (crates/common/src/lib.rs:134-140). -/
def between (a b : Span) : Span := ⟨a.stop, b.start⟩

end Span

/-! ## Character classes -/

/-- `b'0'..=b'9'` / `u8::is_ascii_digit`. -/
def isDigit (c : Char) : Bool := '0' ≤ c && c ≤ '9'

/-- `b'a'..=b'z' | b'A'..=b'Z'`. -/
def isAlpha (c : Char) : Bool := ('a' ≤ c && c ≤ 'z') || ('A' ≤ c && c ≤ 'Z')

/-- `char::is_ascii`. -/
def isAscii (c : Char) : Bool := c.toNat < 128

/-- `c as u32 - '0' as u32`. -/
def digitVal (c : Char) : Nat := c.toNat - '0'.toNat

end Verif
