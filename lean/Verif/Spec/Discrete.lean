import Verif.Model.Robustness
import Verif.Spec.Pwl
import Verif.Spec.Formula

/-!
# The value of a formula at one instant, in the arithmetic of the machine

The value of a formula without temporal operators at an instant at which every signal has a sample, using
the rounded operations of the machine: no interpolation.
-/

namespace Verif
namespace Spec

variable {K : Type} [Field K] [LinearOrder K]

/-- The signal has a sample with this time and value, and no other sample with this time. -/
def HasSample (s : Signal K) (t v : D K) : Prop :=
  (t, v) ∈ s.samples.map tv ∧ ∀ w, (t, w) ∈ s.samples.map tv → w = v

/-- A formula of predicates (with any bounds), Not, And and Or. -/
inductive Static : Expr K → Prop
  | pred (n : String) (op : ComparisonOp) (c : D K) : Static (.pred n op c)
  | not {e : Expr K} : Static e → Static (.not e)
  | and {args : List (Expr K)} : args ≠ [] → (∀ e ∈ args, Static e) → Static (.and args)
  | or {args : List (Expr K)} : args ≠ [] → (∀ e ∈ args, Static e) → Static (.or args)

/-- The smaller of two doubles (the first one if they are equal or one is NaN). -/
def minOf (a b : D K) : D K := if b.lt a then b else a

/-- The greater of two doubles (the first one if they are equal or one is NaN). -/
def maxOf (a b : D K) : D K := if a.lt b then b else a

/-- The smallest element of a non-empty list. -/
def smallest : List (D K) → D K
  | [] => .nan
  | a :: l => l.foldl minOf a

/-- The greatest element of a non-empty list. -/
def greatest : List (D K) → D K
  | [] => .nan
  | a :: l => l.foldl maxOf a
mutual
/-- The value of a formula without temporal operators, if `v n` is the value of the signal `n`. -/
def pointwise [Arith K] (v : String → D K) : Expr K → D K
  | .pred n .GE c => v n - c
  | .pred n .GT c => v n - c
  | .pred n .LE c => c - v n
  | .pred n .LT c => c - v n
  | .not e => - pointwise v e
  | .and args => smallest (pointwises v args)
  | .or args => greatest (pointwises v args)
  | _ => .nan

/-- The values of the operands. -/
def pointwises [Arith K] (v : String → D K) : List (Expr K) → List (D K)
  | [] => []
  | e :: es => pointwise v e :: pointwises v es
end

/-- An upper bound of the number of samples of the minimum or maximum of signals with that many samples:
the samples of both signals and as many crossings, for every operand but the first. -/
def naryBound : List Nat → Nat
  | [] => 1
  | n :: l => l.foldl (fun m k => 2 * (m + k)) n

mutual
/-- An upper bound of the number of samples of the robustness of a formula, given the number of samples of
the signals. -/
def sampleBound (count : String → Nat) : Expr K → Nat
  | .const _ => 2
  | .pred n _ _ => count n
  | .not e => sampleBound count e
  | .and args => naryBound (sampleBounds count args)
  | .or args => naryBound (sampleBounds count args)
  | .always e _ => sampleBound count e
  | .eventually e _ => sampleBound count e
  | .untl e e' _ => sampleBound count e + sampleBound count e'

/-- The bounds of the operands. -/
def sampleBounds (count : String → Nat) : List (Expr K) → List Nat
  | [] => []
  | e :: es => sampleBound count e :: sampleBounds count es
end

/-- The rounding never returns NaN, and zero is not rounded (as in IEEE-754). -/
class SaneArith (K : Type) [Field K] [LinearOrder K] [Arith K] : Prop where
  rnd_zero : Arith.rnd (0 : K) = .fin 0
  rnd_ne_nan : ∀ q : K, Arith.rnd q ≠ .nan

end Spec
end Verif
