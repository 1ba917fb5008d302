import Verif.Spec.TomlLit

/-!
# Specification: what the diagnostics about a bare literal claim

For each kind of diagnostic about a literal, what has to be true about the text of the literal and
about the reported place so that the message is right.  `lit` is the literal and `p` the place where
it starts.  Nothing here refers to the parser.
-/

namespace Verif.Spec.Toml
open Verif Verif.Toml

/-- The place behind the beginning `a` of a literal that starts at `p`. -/
def behind (p : Pos) (a : Str) : Pos := ⟨p.line, p.char + blen a⟩

/-- `0` to `9`. -/
def Dig (c : Char) : Prop := isDigit c = true

/-- Digits and underscores. -/
def DigsU (s : Str) : Prop := ∀ c ∈ s, Dig c ∨ c = '_'

/-- Nothing, or a sign. -/
def OptSign (s : Str) : Prop := s = [] ∨ s = ['+'] ∨ s = ['-']

/-- The beginning of an integer or float: an optional sign, a digit, and digits and underscores. -/
def IntPart (a : Str) : Prop :=
  ∃ sg d ds, a = sg ++ d :: ds ∧ OptSign sg ∧ Dig d ∧ DigsU ds

/-- The beginning of a float up to somewhere behind the decimal point. -/
def FractPart (a : Str) : Prop := ∃ x y, a = x ++ '.' :: y ∧ IntPart x ∧ DigsU y

/-- The beginning of a float up to somewhere behind the exponent letter. -/
def ExpPart (a : Str) : Prop :=
  ∃ x e sg y, a = x ++ e :: (sg ++ y) ∧ (IntPart x ∨ FractPart x) ∧ (e = 'e' ∨ e = 'E') ∧
    OptSign sg ∧ DigsU y

/-- The letter of a radix, and the radix. -/
def radixLetter : IntPrefix → Char
  | .binary => 'b'
  | .octal => 'o'
  | .hexadecimal => 'x'

/-- The radix. -/
def radix : IntPrefix → Nat
  | .binary => 2
  | .octal => 8
  | .hexadecimal => 16

/-- The beginning of an integer with a radix prefix. -/
def RadixPart (r : IntPrefix) (a : Str) : Prop :=
  ∃ ds, a = '0' :: radixLetter r :: ds ∧ ∀ c ∈ ds, digitOf c < radix r ∨ c = '_'

/-- `z`, `Z` or a sign. -/
def OffStart (c : Char) : Prop := c = 'Z' ∨ c = 'z' ∨ c = '+' ∨ c = '-'

/-- The separators that may follow a field of a date-time. -/
def sepAfter : DateTimeField → List Char
  | .year => ['-']
  | .month => ['-']
  | .day => ['T', 't']
  | .hour => [':']
  | .minute => [':']
  | .second => ['Z', 'z', '+', '-']
  | .offsetHour => [':']
  | .offsetMinute => []

/-- The fraction of a second that is behind a time, if there is one. -/
def OptFrac (s : Str) : Prop := s = [] ∨ ∃ ds, s = '.' :: ds ∧ ds ≠ [] ∧ ∀ c ∈ ds, Dig c

/-- The text `a` in front of a field of a date-time.  (The code also accepts underscores in the year of
a date and in the hour of a local time.) -/
inductive Before : DateTimeField → Str → Prop
  | year : Before .year []
  | month {y : Str} : y.length = 4 → DigsU y → Before .month (y ++ ['-'])
  | day {a : Str} {m : Nat} : Before .month a → m < 100 → Before .day (a ++ two m ++ ['-'])
  | localHour : Before .hour []
  | hour {a : Str} {d : Nat} {t : Char} : Before .day a → d < 100 → t = 'T' ∨ t = 't' →
      Before .hour (a ++ two d ++ [t])
  | localMinute {h : Str} : h.length = 2 → DigsU h → Before .minute (h ++ [':'])
  | minute {a : Str} {h : Nat} : Before .hour a → h < 100 → Before .minute (a ++ two h ++ [':'])
  | second {a : Str} {m : Nat} : Before .minute a → m < 100 → Before .second (a ++ two m ++ [':'])
  | offsetHour {a frac : Str} {s : Nat} {g : Char} : Before .second a → s < 100 → OptFrac frac →
      g = '+' ∨ g = '-' → Before .offsetHour (a ++ two s ++ frac ++ [g])
  | offsetMinute {a : Str} {h : Nat} : Before .offsetHour a → h < 100 →
      Before .offsetMinute (a ++ two h ++ [':'])

/-- The values a field may have; for the day, `a` is the text in front of it. -/
def FieldRange (f : DateTimeField) (a : Str) (lo hi : Nat) : Prop :=
  match f with
  | .year => False
  | .month => lo = 1 ∧ hi = 12
  | .day => ∃ y m, a = y ++ '-' :: two m ++ ['-'] ∧ y.length = 4 ∧ lo = 1 ∧
      hi = daysIn (numeral 10 y) m
  | .hour => lo = 0 ∧ hi = 23
  | .minute => lo = 0 ∧ hi = 59
  | .second => lo = 0 ∧ hi = 59
  | .offsetHour => lo = 0 ∧ hi = 23
  | .offsetMinute => lo = 0 ∧ hi = 59

/-- The character `c` behind `a` cannot be part of a date-time. -/
inductive StrayInDate : Str → Char → Prop
  | year {a : Str} {c : Char} : (a.length = 2 ∨ a.length = 3) → (∀ d ∈ a, Dig d) → ¬ Dig c →
      c ≠ '.' → c ≠ '_' → c ≠ '-' → (a.length = 2 → c ≠ ':') → StrayInDate a c
  | field {f : DateTimeField} {a ds : Str} {c : Char} : Before f a → f ≠ .year → ds.length ≤ 1 →
      (∀ d ∈ ds, Dig d) → ¬ Dig c → c ∉ sepAfter f → StrayInDate (a ++ ds) c
  | day {a : Str} {d : Nat} {c : Char} : Before .day a → d < 100 → ¬ Dig c → c ≠ 'T' → c ≠ 't' →
      StrayInDate (a ++ two d) c
  | second {a : Str} {s : Nat} {c : Char} : Before .second a → s < 100 → ¬ OffStart c → c ≠ '.' →
      StrayInDate (a ++ two s) c
  | fraction {a ds : Str} {s : Nat} {c : Char} : Before .second a → s < 100 → (∀ d ∈ ds, Dig d) →
      ¬ Dig c → ¬ OffStart c → StrayInDate (a ++ two s ++ '.' :: ds) c

/-- `w` is the beginning `x` of a keyword, up to the case of its first letter if a sign is in front of
it (the code accepts `+Inf`). -/
def WordPart (w x : Str) : Prop :=
  x ≠ [] ∧ (w = x ∨ ∃ g y z, (g = '+' ∨ g = '-') ∧ w = g :: y :: z ∧ y.toLower :: z = x)

/-- The words that are literals. -/
def Keyword (s : Str) : Prop :=
  s = "true".toList ∨ s = "false".toList ∨ s = "inf".toList ∨ s = "nan".toList

/-- The diagnostic is right about the literal `lit` at `p`. -/
def Right (lit : Str) (p : Pos) : Error → Prop
  | .unexpectedLiteralStart c q => ∃ b, lit = c :: b ∧ q = p ∧ ¬ Dig c ∧
      c ∉ ['+', '-', '_', 't', 'f', 'i', 'n', 'T', 'F', 'I', 'N']
  | .unexpectedLiteralChar part c q => ∃ a b, lit = a ++ c :: b ∧ q = behind p a ∧ ¬ Dig c ∧
      match part with
      | .intOrFloat => (a = ['+'] ∨ a = ['-']) ∧ c ∉ ['.', 'i', 'I', 'n', 'N'] ∨
          IntPart a ∧ c ∉ ['.', 'e', 'E', '_']
      | .floatFract => FractPart a ∧ c ∉ ['e', 'E', '_']
      | .floatExp => ExpPart a ∧ c ≠ '_' ∧
          (a.getLast? = some 'e' ∨ a.getLast? = some 'E' → c ≠ '+' ∧ c ≠ '-')
      | .prefixedInt r => RadixPart r a ∧ 16 ≤ digitOf c ∧ c ≠ '_' ∧
          (r = .hexadecimal → c.isAlpha = false)
      | _ => False
  | .litStartsWithUnderscore part q => ∃ a b, lit = a ++ '_' :: b ∧ q = behind p a ∧
      match part with
      | .generic => a = []
      | .floatFract => ∃ x, a = x ++ ['.'] ∧ IntPart x
      | .floatExp => ∃ x e sg, a = x ++ e :: sg ∧ (IntPart x ∨ FractPart x) ∧ (e = 'e' ∨ e = 'E') ∧
          OptSign sg
      | _ => False
  | .litEndsWithUnderscore part q => ∃ a b, lit = a ++ '_' :: b ∧ q = behind p a ∧
      match part with
      | .int => IntPart a ∧ b = []
      | .floatIntegral => IntPart a ∧ ∃ c b', b = c :: b' ∧ (c = '.' ∨ c = 'e' ∨ c = 'E')
      | .floatFract => FractPart a ∧ (b = [] ∨ ∃ c b', b = c :: b' ∧ (c = 'e' ∨ c = 'E'))
      | .floatExp => ExpPart a ∧ b = []
      | _ => False
  | .consecutiveUnderscoresInLiteral s => ∃ a n b, lit = a ++ List.replicate n '_' ++ b ∧ 2 ≤ n ∧
      a.getLast? ≠ some '_' ∧ b.head? ≠ some '_' ∧
      s = ⟨behind p a, behind p (a ++ List.replicate n '_')⟩
  | .missingNumDigitsAfterSign g q => ∃ c b, lit = c :: b ∧
      c = (match g with | .positive => '+' | .negative => '-') ∧
      q = behind p [c] ∧ (b = [] ∨ b.head? = some '.')
  | .invalidLeadingZero q => ∃ a c b, lit = a ++ '0' :: c :: b ∧ OptSign a ∧ q = behind p a ∧
      (Dig c ∨ c = '_')
  | .expectedRadixOrDateTime c q => ∃ b, lit = '0' :: c :: b ∧ q = behind p ['0'] ∧ ¬ Dig c ∧
      c ∉ ['b', 'o', 'x', 'B', 'O', 'X', '.', 'e', 'E', '_']
  | .unexpectedCharSignedLeadingZeroNum c q => ∃ g b, lit = g :: '0' :: c :: b ∧
      (g = '+' ∨ g = '-') ∧ q = behind p [g, '0'] ∧ ¬ Dig c ∧
      c ∉ ['b', 'o', 'x', 'B', 'O', 'X', '.', 'e', 'E', '_']
  | .uppercaseBareLitChar c ex q => ∃ a b x y, lit = a ++ c :: b ∧ q = behind p a ∧ Keyword ex ∧
      ex = x ++ c.toLower :: y ∧ c.isUpper = true ∧ (a = [] ∧ x = [] ∨ WordPart a x)
  | .unexpectedBareLitChar c ex q => ∃ a b x d y, lit = a ++ c :: b ∧ q = behind p a ∧ Keyword ex ∧
      ex = x ++ d :: y ∧ c.toLower ≠ d ∧ WordPart a x
  | .bareLitTrailingChars t ex s => ∃ w, lit = w ++ t ∧ t ≠ [] ∧ Keyword ex ∧ WordPart w ex ∧
      s = ⟨behind p w, behind p lit⟩
  | .bareLitMissingChars ex q => ∃ x y, Keyword ex ∧ ex = x ++ y ∧ y ≠ [] ∧ WordPart lit x ∧
      q = behind p lit
  | .missingFloatFractionalPart q => ∃ a b, lit = a ++ '.' :: b ∧ IntPart a ∧
      q = behind p (a ++ ['.']) ∧ (b = [] ∨ b.head? = some 'e' ∨ b.head? = some 'E')
  | .floatLiteralOverflow s => s = ⟨p, behind p lit⟩ ∧ ∃ a e sg, lit = a ++ e :: sg ∧
      (IntPart a ∨ FractPart a) ∧ (e = 'e' ∨ e = 'E') ∧ OptSign sg
  | .emptyPrefixedIntValue q => ∃ r, lit = ['0', radixLetter r] ∧ q = behind p lit
  | .prefixedIntSignNotAllowed q => ∃ g c b, lit = g :: '0' :: c :: b ∧ (g = '+' ∨ g = '-') ∧
      c ∈ ['b', 'o', 'x', 'B', 'O', 'X'] ∧ q = p
  | .uppercaseIntRadix r q => ∃ b, lit = '0' :: (radixLetter r).toUpper :: b ∧ q = behind p ['0']
  | .prefixedIntValueStartsWithUnderscore q => ∃ r b, lit = '0' :: radixLetter r :: '_' :: b ∧
      q = behind p ['0', radixLetter r]
  | .prefixedIntValueEndsWithUnderscore q => ∃ r a, lit = a ++ ['_'] ∧ RadixPart r a ∧ q = behind p a
  | .intDigitTooBig r c q => ∃ a b, lit = a ++ c :: b ∧ RadixPart r a ∧ q = behind p a ∧
      (Dig c ∨ c.isAlpha = true) ∧ radix r ≤ digitOf c
  | .intLiteralOverflow s => s = ⟨p, behind p lit⟩ ∧ ∃ n, DecInt lit n ∧ ¬ InRange n
  | .unexpectedCharInDateTime c q => ∃ a b, lit = a ++ c :: b ∧ q = behind p a ∧ StrayInDate a c
  | .dateTimeExpectedCharFound f ex c q => ∃ a ds b, lit = a ++ ds ++ c :: b ∧ Before f a ∧
      q = behind p (a ++ ds) ∧ DigsU ds ∧ ds.length = (if f = .year then 4 else 2) ∧
      sepAfter f = [ex] ∧ c ≠ ex
  | .dateTimeMissingChar f ex q => ∃ a ds b, lit = a ++ ds ++ b ∧ Before f a ∧
      q = behind p (a ++ ds) ∧ DigsU ds ∧ ds.length = (if f = .year then 4 else 2) ∧
      ex ∈ sepAfter f ∧ (b = [] ∨ f = .day ∧ ∃ d b', b = d :: b' ∧ Dig d)
  | .dateTimeIncomplete f q => ∃ a ds b, lit = a ++ ds ++ b ∧ Before f a ∧ q = behind p (a ++ ds) ∧
      DigsU ds ∧ ds ≠ [] ∧ (ds.length < (if f = .year then 4 else 2) ∨
        f = .hour ∧ a = [] ∧ ds.length = 3) ∧
      (b = [] ∨ ∃ d b', b = d :: b' ∧ d ∈ sepAfter f)
  | .dateTimeMissing f q => ∃ a b, lit = a ++ b ∧ Before f a ∧ q = behind p a ∧
      (b = [] ∨ ∃ d b', b = d :: b' ∧ d ∈ sepAfter f)
  | .dateTimeOutOfBounds f n lo hi s => ∃ a b, lit = a ++ two n ++ b ∧ n < 100 ∧ Before f a ∧
      s = ⟨behind p a, behind p (a ++ two n)⟩ ∧ FieldRange f a lo hi ∧ (n < lo ∨ hi < n)
  | .dateTimeMissingSubsec q => ∃ a n b, lit = a ++ two n ++ '.' :: b ∧ Before .second a ∧ n < 100 ∧
      q = behind p lit ∧ (b = [] ∨ ∃ c b', b = c :: b' ∧ OffStart c)
  | .localDateTimeOffset q => ∃ h m s frac c b, lit = h ++ ':' :: two m ++ ':' :: two s ++ frac ++ c :: b ∧
      h.length = 2 ∧ DigsU h ∧ m < 100 ∧ s < 100 ∧ OptFrac frac ∧ OffStart c ∧
      q = behind p (h ++ ':' :: two m ++ ':' :: two s ++ frac)
  | _ => False

end Verif.Spec.Toml
