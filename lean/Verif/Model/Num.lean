import Mathlib.Algebra.Order.Field.Basic
import Mathlib.Tactic.Linarith

/-!
# Doubles

The C++ code computes with `double` throughout.  We model a double as an element of a linearly
ordered field `K` (think `ℚ` or `ℝ`: every finite double is a rational number) or one of the three
special values `+inf`, `-inf`, `NaN`, with the IEEE-754 rules for the special values.

Rounding is a parameter: an operation on finite operands yields `Arith.rnd r` where `r` is the exact
result in `K`.  `rnd` is arbitrary (it may round, overflow to an infinity, ...).  `ExactArith` says
that there is no rounding.

Simplifications: there is a single zero (see Model/SignedZero.lean for `-0.0`), so `x / 0` has the sign of `x`; no FMA
contraction or excess precision.
-/

namespace Verif

/-- Model of a C++ `double` (used everywhere, e.g. `src/include/signal_tl/signal.hpp:20-22`). -/
inductive D (K : Type) where
  | fin (q : K)
  | pinf
  | ninf
  | nan
  deriving DecidableEq, Repr

/-- The rounding behaviour of the floating point arithmetic (a parameter of the model). -/
class Arith (K : Type) where
  rnd : K → D K

/-- Ideal arithmetic: results are not rounded. -/
class ExactArith (K : Type) [Arith K] : Prop where
  rnd_eq : ∀ q : K, Arith.rnd q = D.fin q

/-- Sign-symmetric rounding (true of IEEE round-to-nearest). -/
class OddArith (K : Type) [Field K] [Arith K] : Prop where
  rnd_neg : ∀ q : K, Arith.rnd (-q) =
    (match (Arith.rnd q : D K) with
     | .fin r => .fin (-r) | .pinf => .ninf | .ninf => .pinf | .nan => .nan)

namespace D

variable {K : Type}

section ops
variable [Field K] [LinearOrder K]

instance : Inhabited (D K) := ⟨.nan⟩

/-- The literal `0` / `0.0`. -/
instance : Zero (D K) := ⟨.fin 0⟩

/-- IEEE negation (exact). -/
def neg : D K → D K
  | .fin q => .fin (-q)
  | .pinf => .ninf
  | .ninf => .pinf
  | .nan => .nan

instance : Neg (D K) := ⟨neg⟩

/-- IEEE addition. -/
def add [Arith K] : D K → D K → D K
  | .nan, _ => .nan
  | _, .nan => .nan
  | .fin a, .fin b => Arith.rnd (a + b)
  | .fin _, .pinf => .pinf
  | .fin _, .ninf => .ninf
  | .pinf, .fin _ => .pinf
  | .ninf, .fin _ => .ninf
  | .pinf, .pinf => .pinf
  | .ninf, .ninf => .ninf
  | .pinf, .ninf => .nan
  | .ninf, .pinf => .nan

instance [Arith K] : Add (D K) := ⟨add⟩

/-- IEEE subtraction: `a - b` is `a + (-b)`. -/
def sub [Arith K] (a b : D K) : D K := a + (-b)

instance [Arith K] : Sub (D K) := ⟨sub⟩

/-- An infinity times a finite number: the sign rule, and NaN for zero. -/
def infMul (pos : Bool) (b : K) : D K :=
  if b = 0 then .nan
  else if 0 < b then (if pos then .pinf else .ninf)
  else (if pos then .ninf else .pinf)

/-- IEEE multiplication. -/
def mul [Arith K] : D K → D K → D K
  | .nan, _ => .nan
  | _, .nan => .nan
  | .fin a, .fin b => Arith.rnd (a * b)
  | .fin a, .pinf => infMul true a
  | .fin a, .ninf => infMul false a
  | .pinf, .fin b => infMul true b
  | .ninf, .fin b => infMul false b
  | .pinf, .pinf => .pinf
  | .ninf, .ninf => .pinf
  | .pinf, .ninf => .ninf
  | .ninf, .pinf => .ninf

instance [Arith K] : Mul (D K) := ⟨mul⟩

/-- IEEE division (zero is taken to be `+0`). -/
def div [Arith K] : D K → D K → D K
  | .nan, _ => .nan
  | _, .nan => .nan
  | .fin a, .fin b =>
      if b = 0 then (if a = 0 then .nan else if 0 < a then .pinf else .ninf)
      else Arith.rnd (a / b)
  | .fin _, .pinf => .fin 0
  | .fin _, .ninf => .fin 0
  | .pinf, .fin b => if b < 0 then .ninf else .pinf
  | .ninf, .fin b => if b < 0 then .pinf else .ninf
  | .pinf, .pinf => .nan
  | .ninf, .ninf => .nan
  | .pinf, .ninf => .nan
  | .ninf, .pinf => .nan

instance [Arith K] : Div (D K) := ⟨div⟩

end ops

section order
variable [LinearOrder K]

/-- IEEE `a < b` (false if one of them is NaN). -/
def lt : D K → D K → Bool
  | .nan, _ => false
  | _, .nan => false
  | .fin a, .fin b => decide (a < b)
  | .fin _, .pinf => true
  | .fin _, .ninf => false
  | .pinf, _ => false
  | .ninf, .fin _ => true
  | .ninf, .pinf => true
  | .ninf, .ninf => false

/-- IEEE `a == b` (NaN is not equal to itself). -/
def eq : D K → D K → Bool
  | .fin a, .fin b => decide (a = b)
  | .pinf, .pinf => true
  | .ninf, .ninf => true
  | _, _ => false

/-- IEEE `a <= b`. -/
def le (a b : D K) : Bool := lt a b || eq a b

/-- `std::isinf`. -/
def isinf : D K → Bool
  | .pinf => true
  | .ninf => true
  | _ => false

/-- `std::max(a, b)` is `(a < b) ? b : a`. -/
def max (a b : D K) : D K := if lt a b then b else a

/-- `std::min(a, b)` is `(b < a) ? b : a`. -/
def min (a b : D K) : D K := if lt b a then b else a

end order

end D

end Verif
