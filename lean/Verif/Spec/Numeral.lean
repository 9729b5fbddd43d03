import Verif.Spec.Syntax
import Verif.Spec.Binary64
import Verif.Model.Binary64

/-! # Numerals of a specification in binary64 -/

set_option exponentiation.threshold 1100

namespace Verif
namespace Spec

/-- The number has at most 15 significant decimal digits. -/
def Short (l : NumLit) : Prop := ∃ (m : ℕ) (k : ℤ), m < 10 ^ 15 ∧ (l.val : ℚ) = m * (10 : ℚ) ^ k

/-- The number of digits before the exponent. -/
def digitCount : NumLit → ℕ
  | .int n => n.all.length
  | .dec i f _ => i.all.length + f.all.length
  | .sci i _ _ => i.all.length

/-- Integers fit into `long`; the number is zero or in the normal range of binary64. -/
def Fits (l : NumLit) : Prop :=
  (∀ n, l = .int n → n.val < 2 ^ 63) ∧
  ((l.val : ℚ) = 0 ∨ (2 : ℚ) ^ (-1022 : ℤ) ≤ l.val) ∧ (l.val : ℚ) < 2 ^ 1024 - 2 ^ 970

/-- `strtod` reports an underflow only for numbers below the normal range. -/
def QuietStrtod [Strtod B64] : Prop :=
  ∀ q : ℚ, q = 0 ∨ (2 : ℚ) ^ (-1022 : ℤ) ≤ q → Strtod.underflow (K := B64) q = false

end Spec
end Verif
