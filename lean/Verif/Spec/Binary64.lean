import Mathlib.Algebra.Order.Ring.Rat
import Mathlib.Algebra.Field.Rat
import Mathlib.Algebra.Ring.Parity

/-!
# The binary64 numbers of IEEE 754

Stated without reference to how `Model/Binary64.lean` rounds.
-/

namespace Verif

/-- `f` is the value of a finite binary64 number: at most 53 binary digits, exponent of the last place
between -1074 and 971. -/
def IsB64 (f : ℚ) : Prop :=
  ∃ m e : ℤ, f = m * (2 : ℚ) ^ e ∧ |m| < 2 ^ 53 ∧ -1074 ≤ e ∧ e ≤ 971

/-- The digit string of `f` (normalised unless subnormal) ends in a zero. -/
def EvenB64 (f : ℚ) : Prop :=
  ∃ m e : ℤ, f = m * (2 : ℚ) ^ e ∧ Even m ∧ -1074 ≤ e ∧ (e = -1074 ∨ 2 ^ 52 ≤ |m|)

end Verif
