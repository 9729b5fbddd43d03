import Verif.Spec.Rounding
import Verif.Model.Robustness

/-!
# The same trace with numbers of another kind

`ι` maps the numbers of the one kind to those of the other.
-/

namespace Verif
namespace Spec

variable {K L : Type}

/-- The same sample. -/
def castSample (ι : K → L) (s : Sample K) : Sample L :=
  ⟨castD ι s.time, castD ι s.value, castD ι s.derivative⟩

/-- The same signal. -/
def castSignal (ι : K → L) (x : Signal K) : Signal L := ⟨x.samples.map (castSample ι)⟩

/-- The same trace. -/
def castTrace (ι : K → L) (trace : Trace K) : Trace L := trace.map fun e => (e.1, castSignal ι e.2)

/-- Both kinds of numbers are rounded in the same way. -/
def SameRounding [Arith K] [Arith L] (ι : K → L) : Prop := ∀ q, Arith.rnd (ι q) = castD ι (Arith.rnd q)

end Spec
end Verif
