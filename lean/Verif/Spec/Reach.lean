import Verif.Spec.Pwl
import Verif.Model.Robustness

/-! # Signals that a program can obtain -/

namespace Verif
namespace Spec

variable {K : Type} [Field K] [LinearOrder K] [Arith K]

/-- The signals that a program can obtain from the public members of `Signal` (signal.hpp:58-279), `synchronize` and
`compute_robustness`, if the arguments `dt` of `shift` and `resize_shift` satisfy `P`. -/
inductive Obtainable (P : D K → Prop) : Signal K → Prop
  | empty : Obtainable P Signal.empty
  | pushBack {s z : Signal K} (a : Sample K) : Obtainable P s → s.pushBack a = .ok z → Obtainable P z
  | ofSamples {l : List (Sample K)} {z : Signal K} : Signal.ofSamples l = .ok z → Obtainable P z
  | ofPoints {vs ts : List (D K)} {z : Signal K} : Signal.ofPoints vs ts = .ok z → Obtainable P z
  | simplify {s z : Signal K} : Obtainable P s → s.simplify = .ok z → Obtainable P z
  | resize {s z : Signal K} (a b fill : D K) : Obtainable P s → s.resize a b fill = .ok z → Obtainable P z
  | shift {s z : Signal K} {dt : D K} : P dt → Obtainable P s → s.shift dt = .ok z → Obtainable P z
  | resizeShift {s z : Signal K} {dt : D K} (a b fill : D K) : P dt → Obtainable P s →
      s.resizeShift a b fill dt = .ok z → Obtainable P z
  | synchronizeLeft {x y z z' : Signal K} : Obtainable P x → Obtainable P y → synchronize x y = .ok (z, z') →
      Obtainable P z
  | synchronizeRight {x y z z' : Signal K} : Obtainable P x → Obtainable P y → synchronize x y = .ok (z, z') →
      Obtainable P z'
  | robustness {nd : Bool} {fuel : Nat} {e : Expr K} {trace : Trace K} {sy : Bool} {z : Signal K} :
      (∀ n x, trace.lookup n = some x → Obtainable P x) → computeRobustness nd fuel e trace sy = .ok z →
      Obtainable P z

end Spec
end Verif
