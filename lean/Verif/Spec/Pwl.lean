import Verif.Model.Signal
import Mathlib.Order.Interval.Set.Defs
import Mathlib.Order.Bounds.Defs

/-!
# Piecewise linear functions

What a `Signal` is supposed to denote, independent of the code: the linear interpolation of a list
of points `(time, value)`.
-/

namespace Verif
namespace Spec

variable {K : Type}

/-- The time and value of a sample. -/
def tv (s : Sample K) : D K × D K := (s.time, s.value)

/-- A point with finite coordinates. -/
def lift (p : K × K) : D K × D K := (.fin p.1, .fin p.2)

/-- Strictly increasing times. -/
def Increasing [LinearOrder K] (pts : List (K × K)) : Prop :=
  (pts.map Prod.fst).Pairwise (· < ·)

section
variable [Field K] [LinearOrder K]

/-- The value at `t` of the line through `(t₀, v₀)` and `(t₁, v₁)`. -/
def line (p q : K × K) (t : K) : K := p.2 + (q.2 - p.2) * ((t - p.1) / (q.1 - p.1))

/-- The piecewise linear function through the points, for `t` between the first and the last time.
(Outside of that interval the function is extended somehow; all statements are about times within
`dom`.) -/
def eval : List (K × K) → K → K
  | [], _ => 0
  | [p], _ => p.2
  | p :: q :: rest, t => if t ≤ q.1 then line p q t else eval (q :: rest) t

/-- The domain of the function: from the first to the last time. -/
def dom (pts : List (K × K)) : Set K :=
  {t | (∃ p ∈ pts, p.1 ≤ t) ∧ ∃ p ∈ pts, t ≤ p.1}

/-- The last derivative is 0, the others are the slopes towards the next sample. -/
def Slopes [Arith K] : List (Sample K) → Prop
  | [] => True
  | [a] => a.derivative = 0
  | a :: b :: rest =>
    a.derivative = (b.value - a.value) / (b.time - a.time) ∧ Slopes (b :: rest)

/-- No timestamp is `<=` its predecessor.  (For timestamps which are not NaN this means strictly
increasing.) -/
def Ordered : List (Sample K) → Prop
  | [] => True
  | [_] => True
  | a :: b :: rest => b.time.le a.time = false ∧ Ordered (b :: rest)

/-- A well formed signal: ordered timestamps and derivatives that are the slopes. -/
def WF [Arith K] (s : Signal K) : Prop := Ordered s.samples ∧ Slopes s.samples

/-- `s` is a well-formed signal through the finite points `pts`. -/
def Represents [Arith K] (s : Signal K) (pts : List (K × K)) : Prop :=
  WF s ∧ s.samples.map tv = pts.map lift

end
end Spec
end Verif
