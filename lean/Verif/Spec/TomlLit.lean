import Verif.Toml.Types

/-!
# Specification: bare TOML literals

The grammar of integers, floats and date-times of TOML 1.0 (its ABNF), with the value each text
denotes.  Nothing here refers to the parser.
-/

namespace Verif.Spec.Toml
open Verif Verif.Toml

/-- The value of a digit `0-9`, `a-f`, `A-F` (larger than 15 for every other character). -/
def digitOf (c : Char) : Nat :=
  if '0' ≤ c ∧ c ≤ '9' then c.toNat - 48
  else if 'a' ≤ c ∧ c ≤ 'f' then c.toNat - 87
  else if 'A' ≤ c ∧ c ≤ 'F' then c.toNat - 55
  else 16

/-- `D *( D / "_" D )`: digits of base `b` (at most 16), single underscores between digits only. -/
inductive Digits (b : Nat) : Str → Prop
  | one {c : Char} : digitOf c < b → Digits b [c]
  | digit {c : Char} {s : Str} : digitOf c < b → Digits b s → Digits b (c :: s)
  | under {c : Char} {s : Str} : digitOf c < b → Digits b s → Digits b (c :: '_' :: s)

/-- The number written by a digit string, ignoring underscores. -/
def numeral (b : Nat) (s : Str) : Nat :=
  s.foldl (fun n c => if c = '_' then n else n * b + digitOf c) 0

/-- `[ "-" / "+" ]` and the factor it stands for. -/
inductive SignText : Str → Int → Prop
  | none : SignText [] 1
  | plus : SignText ['+'] 1
  | minus : SignText ['-'] (-1)

/-- `unsigned-dec-int = DIGIT / digit1-9 1*( DIGIT / "_" DIGIT )`. -/
def UnsignedDec (s : Str) : Prop := Digits 10 s ∧ (s = ['0'] ∨ s.head? ≠ some '0')

/-- `dec-int`: the text `lit` denotes the integer `n`. -/
def DecInt (lit : Str) (n : Int) : Prop :=
  ∃ sign f body, lit = sign ++ body ∧ SignText sign f ∧ UnsignedDec body ∧ n = f * numeral 10 body

/-- `hex-int`, `oct-int`, `bin-int`: the text `lit` denotes the natural number `n`. -/
inductive PrefixedInt : Str → Nat → Prop
  | hex {s : Str} : Digits 16 s → PrefixedInt ('0' :: 'x' :: s) (numeral 16 s)
  | oct {s : Str} : Digits 8 s → PrefixedInt ('0' :: 'o' :: s) (numeral 8 s)
  | bin {s : Str} : Digits 2 s → PrefixedInt ('0' :: 'b' :: s) (numeral 2 s)

/-- The 64-bit signed range. -/
def InRange (n : Int) : Prop := -9223372036854775808 ≤ n ∧ n ≤ 9223372036854775807

/-- `exp = "e" [ "-" / "+" ] zero-prefixable-int` (`e` in either case). -/
def ExpText (s : Str) : Prop :=
  ∃ e sign f body, s = e :: (sign ++ body) ∧ (e = 'e' ∨ e = 'E') ∧ SignText sign f ∧ Digits 10 body

/-- `frac = "." zero-prefixable-int`. -/
def FracText (s : Str) : Prop := ∃ body, s = '.' :: body ∧ Digits 10 body

/-- `float = dec-int ( exp / frac [ exp ] )`. -/
def FloatText (lit : Str) : Prop :=
  ∃ n ip frac exp, lit = ip ++ frac ++ exp ∧ DecInt ip n ∧
    (FracText frac ∧ (exp = [] ∨ ExpText exp) ∨ frac = [] ∧ ExpText exp)

/-- `special-float = [ minus / plus ] ( inf / nan )`. -/
def SpecialFloat (word : Str) (lit : Str) (f : Int) : Prop :=
  ∃ sign, lit = sign ++ word ∧ SignText sign f

/-! ## Date-times (RFC 3339) -/

/-- Two decimal digits. -/
def two (n : Nat) : Str := [Nat.digitChar (n / 10), Nat.digitChar (n % 10)]

/-- Four decimal digits. -/
def four (n : Nat) : Str := two (n / 100) ++ two (n % 100)

/-- Days in a month of the Gregorian calendar. -/
def daysIn (year month : Nat) : Nat :=
  match month with
  | 2 => if year % 400 = 0 ∨ (year % 4 = 0 ∧ year % 100 ≠ 0) then 29 else 28
  | 4 | 6 | 9 | 11 => 30
  | _ => 31

/-- A day that exists. -/
def ValidDate (d : Date) : Prop :=
  d.year ≤ 9999 ∧ 1 ≤ d.month ∧ d.month ≤ 12 ∧ 1 ≤ d.day ∧ d.day ≤ daysIn d.year d.month

/-- A time of day (leap seconds are not accepted). -/
def ValidTime (t : Time) : Prop :=
  t.hour ≤ 23 ∧ t.minute ≤ 59 ∧ t.second ≤ 59 ∧ t.nanos < 1000000000

/-- An offset of less than a day. -/
def ValidOffset : Offset → Prop
  | .utc => True
  | .custom m => -1440 < m ∧ m < 1440

/-- All fields valid. -/
def ValidDateTime : DateTime → Prop
  | .offsetDateTime d t o => ValidDate d ∧ ValidTime t ∧ ValidOffset o
  | .localDateTime d t => ValidDate d ∧ ValidTime t
  | .localDate d => ValidDate d
  | .localTime t => ValidTime t

/-- `full-date`. -/
def dateText (d : Date) : Str := four d.year ++ '-' :: two d.month ++ '-' :: two d.day

/-- The optional `time-secfrac`: any number of digits, of which the first nine count. -/
def SecFrac (nanos : Nat) (s : Str) : Prop :=
  (s = [] ∧ nanos = 0) ∨
  ∃ ds : Str, s = '.' :: ds ∧ ds ≠ [] ∧ (∀ c ∈ ds, isDigit c = true) ∧
    nanos = numeral 10 ((ds ++ List.replicate 9 '0').take 9)

/-- `time-minute ":" time-second [time-secfrac]`. -/
def MinSecText (t : Time) (s : Str) : Prop :=
  ∃ frac, s = two t.minute ++ ':' :: two t.second ++ frac ∧ t.minute ≤ 59 ∧ t.second ≤ 59 ∧
    SecFrac t.nanos frac

/-- `partial-time`. -/
def TimeText (t : Time) (s : Str) : Prop :=
  ∃ rest, s = two t.hour ++ ':' :: rest ∧ t.hour ≤ 23 ∧ MinSecText t rest

/-- `time-offset`. -/
inductive OffsetText : Offset → Str → Prop
  | utc {z : Char} : z = 'Z' ∨ z = 'z' → OffsetText .utc [z]
  | east {h m : Nat} : h ≤ 23 → m ≤ 59 →
      OffsetText (.custom (60 * h + m)) ('+' :: two h ++ ':' :: two m)
  | west {h m : Nat} : h ≤ 23 → m ≤ 59 →
      OffsetText (.custom (-(60 * h + m))) ('-' :: two h ++ ':' :: two m)

/-- The text `s` is an RFC 3339 date-time (separator `T`) for the value. -/
inductive DateTimeText : DateTime → Str → Prop
  | offset {d t o} {sep : Char} {ts os : Str} : ValidDate d → (sep = 'T' ∨ sep = 't') →
      TimeText t ts → OffsetText o os →
      DateTimeText (.offsetDateTime d t o) (dateText d ++ sep :: ts ++ os)
  | loc {d t} {sep : Char} {ts : Str} : ValidDate d → (sep = 'T' ∨ sep = 't') → TimeText t ts →
      DateTimeText (.localDateTime d t) (dateText d ++ sep :: ts)
  | date {d} : ValidDate d → DateTimeText (.localDate d) (dateText d)
  | time {t ts} : TimeText t ts → DateTimeText (.localTime t) ts

/-! ### What the code accepts on top of RFC 3339

Two deviations of the code, found while proving: single underscores inside the year or the hour,
and any text behind an offset. -/

/-- `k` characters that write the number `n` in decimal, where single underscores may stand behind
any digit unless the number starts with `0`. -/
def LooseDigits (k n : Nat) (s : Str) : Prop :=
  s.length = k ∧ (∀ c ∈ s, isDigit c = true ∨ c = '_') ∧ (¬ ∃ a b, s = a ++ '_' :: '_' :: b) ∧
    s.head? ≠ some '_' ∧ (s.head? = some '0' → ∀ c ∈ s, isDigit c = true) ∧ n = numeral 10 s

/-- A date whose year is written loosely. -/
def LooseDate (d : Date) (s : Str) : Prop :=
  ∃ ys, s = ys ++ '-' :: two d.month ++ '-' :: two d.day ∧ LooseDigits 4 d.year ys ∧
    1 ≤ d.month ∧ d.month ≤ 12 ∧ 1 ≤ d.day ∧ d.day ≤ daysIn d.year d.month

/-- The texts the code takes for the value: as `DateTimeText`, with a loose year, a loose hour of a
local time, and arbitrary text behind an offset. -/
inductive LooseDateTime : DateTime → Str → Prop
  | offset {d t o} {sep : Char} {ds ts os junk : Str} : LooseDate d ds → (sep = 'T' ∨ sep = 't') →
      TimeText t ts → OffsetText o os →
      LooseDateTime (.offsetDateTime d t o) (ds ++ sep :: ts ++ os ++ junk)
  | loc {d t} {sep : Char} {ds ts : Str} : LooseDate d ds → (sep = 'T' ∨ sep = 't') →
      TimeText t ts → LooseDateTime (.localDateTime d t) (ds ++ sep :: ts)
  | date {d} {ds : Str} : LooseDate d ds → LooseDateTime (.localDate d) ds
  | time {t} {hs ms : Str} : LooseDigits 2 t.hour hs → t.hour ≤ 23 → MinSecText t ms →
      LooseDateTime (.localTime t) (hs ++ ':' :: ms)

/-- Nine digits of nanoseconds. -/
def nine (n : Nat) : Str := Nat.digitChar (n / 100000000 % 10) :: four (n / 10000 % 10000) ++ four (n % 10000)

/-- The canonical text of a time. -/
def showTime (t : Time) : Str :=
  two t.hour ++ ':' :: two t.minute ++ ':' :: two t.second ++ '.' :: nine t.nanos

/-- The canonical text of an offset. -/
def showOffset : Offset → Str
  | .utc => ['Z']
  | .custom m =>
    (if m < 0 then '-' else '+') :: two (m.natAbs / 60) ++ ':' :: two (m.natAbs % 60)

/-- The canonical text of a date-time. -/
def showDateTime : DateTime → Str
  | .offsetDateTime d t o => dateText d ++ 'T' :: showTime t ++ showOffset o
  | .localDateTime d t => dateText d ++ 'T' :: showTime t
  | .localDate d => dateText d
  | .localTime t => showTime t

end Verif.Spec.Toml
