import Verif.Model.Num
import Mathlib.Algebra.Order.Ring.Rat
import Mathlib.Algebra.Field.Rat
import Mathlib.Data.Rat.Floor

/-!
# IEEE-754 binary64 arithmetic

The arithmetic of a C++ `double`: the rounding is to the nearest binary64 number, ties to even, with
gradual underflow and overflow to infinity.  `B64` is a copy of `ℚ` (so that `ℚ` itself can carry the
ideal arithmetic of `Model/Exact.lean`).  `Proofs/Binary64.lean` proves that this is the rounding of the
standard.
-/

namespace Verif

/-- The rational numbers, as carrier of binary64 arithmetic. -/
def B64 : Type := ℚ

namespace B64

instance : Field B64 := inferInstanceAs (Field ℚ)
instance : LinearOrder B64 := inferInstanceAs (LinearOrder ℚ)
instance : IsStrictOrderedRing B64 := inferInstanceAs (IsStrictOrderedRing ℚ)

/-- The exponent `k` with `2^k <= q < 2^(k+1)`, for `q > 0`. -/
def ilog2 (q : ℚ) : ℤ :=
  let k : ℤ := (Nat.log2 q.num.natAbs : ℤ) - (Nat.log2 q.den : ℤ)
  if (2 : ℚ) ^ k ≤ q then k else k - 1

/-- The nearest integer, ties to even. -/
def roundEven (r : ℚ) : ℤ :=
  let f := ⌊r⌋
  if r - f < 1 / 2 then f
  else if 1 / 2 < r - f then f + 1
  else if f % 2 = 0 then f else f + 1

/-- The exponent of the last place of a number of the size of `q > 0`: 53 digits, but not below
`2^-1074`. -/
def ulpExp (q : ℚ) : ℤ := max (ilog2 q) (-1022) - 52

/-- The number `q > 0` rounded to 53 binary digits. -/
def rndPos (q : ℚ) : ℚ := roundEven (q / (2 : ℚ) ^ ulpExp q) * (2 : ℚ) ^ ulpExp q

/-- Rounding to binary64. -/
def rnd (q : ℚ) : D ℚ :=
  if q = 0 then .fin 0
  else if 0 < q then
    if rndPos q < 2 ^ 1024 then .fin (rndPos q) else .pinf
  else
    if rndPos (-q) < 2 ^ 1024 then .fin (-rndPos (-q)) else .ninf

instance : Arith B64 := ⟨rnd⟩

end B64
end Verif
