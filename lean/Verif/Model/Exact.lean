import Verif.Model.Num
import Mathlib.Algebra.Order.Ring.Rat
import Mathlib.Algebra.Field.Rat

/-!
# Ideal arithmetic over the rationals

The instance of the arithmetic used in concrete examples and counterexamples: every finite double is
a rational number, and `rnd` does not round.  (In all counterexamples the numbers are small integers
or halves, so IEEE arithmetic computes the same.)
-/

namespace Verif

instance : Arith ℚ := ⟨D.fin⟩
instance : ExactArith ℚ := ⟨fun _ => rfl⟩

end Verif
