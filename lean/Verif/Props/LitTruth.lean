import Verif.Toml.LitTruthTop
import Verif.Props.TomlLit

/-! # Property C88: what the diagnostics about a literal say is true

`Right lit p e` (in `Spec/LitTruth.lean`) says for each kind of diagnostic what the message claims about
the text `lit` of the literal that starts at `p`, and about the place it points to. -/

namespace Verif.Props
open Verif Verif.Toml Verif.Spec.Toml

/-- C88: whatever the literal is, the diagnostic about it is one of the kinds that are about literals, and
what it says about the text of the literal and about the place is true, in every build.  Partial, since
`Right` gives three kinds a weaker meaning than their message has, because the code gives them wrongly:
see the three counterexamples below. -/
theorem C88_right_partial {ovf : Bool} {lit : Str} {p : Pos} {e : Error} (hlit : lit ≠ [])
    (h : parseLiteral ovf lit (Span.fromPosLen p (blen lit)) = .err e ∨
      parseLiteral ovf lit (Span.fromPosLen p (blen lit)) = .ok (.invalidDateTime e)) :
    Right lit p e := literal_right_all hlit h

/-- C88: the reading of a literal never fails in any other way. -/
theorem C88_no_panic {ovf : Bool} {lit : Str} {p : Pos} (hlit : lit ≠ []) :
    parseLiteral ovf lit (Span.fromPosLen p (blen lit)) ≠ .panic :=
  (literal_right (p := p) hlit).1.1

/-- The diagnostic about a literal that starts at the beginning of line 4, for the examples. -/
def litDiag (lit : String) : Option Error :=
  match parseLiteral true lit.toList (Span.fromPosLen ⟨4, 0⟩ (blen lit.toList)) with
  | .err e => some e
  | .ok (.invalidDateTime e) => some e
  | _ => none

/-- The theorem is about such literals. -/
example : [litDiag "12x", litDiag "1_.5", litDiag "0xfg", litDiag "0b12", litDiag "1__0",
      litDiag "2024-13-01", litDiag "2023-02-29", litDiag "12:3", litDiag "trUe", litDiag "infx",
      litDiag "99999999999999999999", litDiag "2024-01-1T", litDiag "+0x1", litDiag "007"] =
    [some (.unexpectedLiteralChar .intOrFloat 'x' ⟨4, 2⟩), some (.litEndsWithUnderscore .floatIntegral ⟨4, 1⟩),
      some (.intDigitTooBig .hexadecimal 'g' ⟨4, 3⟩), some (.intDigitTooBig .binary '2' ⟨4, 3⟩),
      some (.consecutiveUnderscoresInLiteral ⟨⟨4, 1⟩, ⟨4, 3⟩⟩),
      some (.dateTimeOutOfBounds .month 13 1 12 ⟨⟨4, 5⟩, ⟨4, 7⟩⟩),
      some (.dateTimeOutOfBounds .day 29 1 28 ⟨⟨4, 8⟩, ⟨4, 10⟩⟩),
      some (.dateTimeIncomplete .minute ⟨4, 4⟩),
      some (.uppercaseBareLitChar 'U' "true".toList ⟨4, 2⟩),
      some (.bareLitTrailingChars "x".toList "inf".toList ⟨⟨4, 3⟩, ⟨4, 4⟩⟩),
      some (.intLiteralOverflow ⟨⟨4, 0⟩, ⟨4, 20⟩⟩), some (.dateTimeIncomplete .day ⟨4, 9⟩),
      some (.prefixedIntSignNotAllowed ⟨4, 0⟩), some (.dateTimeIncomplete .year ⟨4, 3⟩)] := by
  decide +kernel

/-- A float without digits in the exponent is reported as too large. -/
theorem C88_counterexample_exponent : litDiag "1e" = some (.floatLiteralOverflow ⟨⟨4, 0⟩, ⟨4, 2⟩⟩) ∧
    litDiag "1.5e+" = some (.floatLiteralOverflow ⟨⟨4, 0⟩, ⟨4, 5⟩⟩) := by decide +kernel

/-- An hour of three digits is reported as one that lacks digits. -/
theorem C88_counterexample_hour : litDiag "123:00" = some (.dateTimeIncomplete .hour ⟨4, 3⟩) := by
  decide +kernel

/-- The missing fraction of a second is reported at the end of the literal, not behind the point. -/
theorem C88_counterexample_fraction :
    litDiag "12:00:00.+01:00" = some (.dateTimeMissingSubsec ⟨4, 15⟩) := by decide +kernel

end Verif.Props
