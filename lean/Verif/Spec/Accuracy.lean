import Verif.Spec.Pwl
import Verif.Model.Binary64

/-! # Numbers away from overflow and underflow -/

namespace Verif
namespace Spec

/-- A number of magnitude at most `2^100` which is a multiple of `2^-150`, for example every binary64
number that is zero or of magnitude between `2^-98` and `2^100`. -/
def Moderate (q : ℚ) : Prop := (∃ n : ℤ, q = n * (2 : ℚ) ^ (-150 : ℤ)) ∧ |q| ≤ (2 : ℚ) ^ (100 : ℤ)

/-- All times and values of the points are moderate, the magnitude of the values is at most `V`, that of the
times at most `H`, and successive times are at least `d` apart. -/
def Tame (V H d : ℚ) (pts : List (ℚ × ℚ)) : Prop :=
  (∀ p ∈ pts, Moderate p.1 ∧ Moderate p.2 ∧ |p.1| ≤ H ∧ |p.2| ≤ V) ∧
  pts.IsChain fun p q => p.1 + d ≤ q.1

/-- A number of magnitude at most `2^40` which is a multiple of `2^-100`, for example every binary64
number that is zero or of magnitude between `2^-48` and `2^40`. -/
def Mild (q : ℚ) : Prop := (∃ n : ℤ, q = n * (2 : ℚ) ^ (-100 : ℤ)) ∧ |q| ≤ (2 : ℚ) ^ (40 : ℤ)

/-- All times and values of the points are mild, the magnitude of the values is at most `V` and that of the
times at most `H`. -/
def Gentle (V H : ℚ) (pts : List (ℚ × ℚ)) : Prop :=
  ∀ p ∈ pts, Mild p.1 ∧ Mild p.2 ∧ |p.1| ≤ H ∧ |p.2| ≤ V

/-- Different times of the two signals are at least `d` apart. -/
def Apart (d : ℚ) (xs ys : List (ℚ × ℚ)) : Prop :=
  ∀ s ∈ xs.map Prod.fst ++ ys.map Prod.fst, ∀ t ∈ xs.map Prod.fst ++ ys.map Prod.fst, s < t → s + d ≤ t

end Spec
end Verif
