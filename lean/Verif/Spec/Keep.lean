import Verif.Model.Signal

/-!
# Which timestamps a robustness signal has
-/

namespace Verif
namespace Spec

variable {K : Type} [Field K] [LinearOrder K] [Arith K]

/-- The timestamps of a signal. -/
def times (x : Signal K) : List (D K) := x.samples.map Sample.time

/-- The time is between the first and the last timestamp of the signal. -/
def InRange (t : D K) (x : Signal K) : Prop := x.beginTime.le t = true ∧ t.le x.endTime = true

/-- The signal `z` covers no time outside of `x`, and has a sample at every timestamp of `x` in its range. -/
def Keeps (x z : Signal K) : Prop :=
  (∀ t, InRange t z → InRange t x) ∧ ∀ t ∈ times x, InRange t z → t ∈ times z

end Spec
end Verif
