import Verif.Model.Num
import Mathlib.Data.Real.Basic

/-!
# Ideal arithmetic over the real numbers

The instance of the arithmetic in which dense-time semantics are stated.
-/

namespace Verif

noncomputable instance : Arith ℝ := ⟨D.fin⟩
instance : ExactArith ℝ := ⟨fun _ => rfl⟩

end Verif
