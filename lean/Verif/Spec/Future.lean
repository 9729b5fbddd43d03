import Verif.Model.Robustness

/-!
# The rest of a trace from a time on
-/

namespace Verif
namespace Spec

variable {K : Type} [Field K] [LinearOrder K]

/-- The samples of a signal from time `t` on. -/
def since (t : D K) (s : Signal K) : Signal K := ⟨s.samples.filter fun a => t.le a.time⟩

/-- The samples of all signals of a trace from time `t` on. -/
def sinceTrace (t : D K) (trace : Trace K) : Trace K := trace.map fun e => (e.1, since t e.2)

/-- The signal has a sample at time `t`. -/
def SampledAt (t : D K) (s : Signal K) : Prop := ∃ a ∈ s.samples, a.time = t

end Spec
end Verif
