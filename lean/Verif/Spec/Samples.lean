import Verif.Model.Ast
import Mathlib.Data.Nat.Choose.Basic

/-!
# Numbers of predicates, of literals and of samples

Independent of the code: what the number of samples of a robustness signal is compared with.
-/

namespace Verif
namespace Spec

variable {K : Type}

mutual
/-- The number of occurrences of predicates (and constants). -/
def predCount : Expr K → Nat
  | .const _ => 1
  | .pred _ _ _ => 1
  | .not e => predCount e
  | .and args => predCounts args
  | .or args => predCounts args
  | .always e _ => predCount e
  | .eventually e _ => predCount e
  | .untl e e' _ => predCount e + predCount e'
/-- The sum over the operands. -/
def predCounts : List (Expr K) → Nat
  | [] => 0
  | e :: es => predCount e + predCounts es
end

mutual
/-- How deeply the temporal operators are nested. -/
def temporalDepth : Expr K → Nat
  | .const _ => 0
  | .pred _ _ _ => 0
  | .not e => temporalDepth e
  | .and args => temporalDepths args
  | .or args => temporalDepths args
  | .always e _ => temporalDepth e + 1
  | .eventually e _ => temporalDepth e + 1
  | .untl e e' _ => max (temporalDepth e) (temporalDepth e') + 1
/-- The maximum over the operands. -/
def temporalDepths : List (Expr K) → Nat
  | [] => 0
  | e :: es => max (temporalDepth e) (temporalDepths es)
end

mutual
/-- The number of predicates and temporal subformulas that are reached through Not, And and Or only. -/
def literalCount : Expr K → Nat
  | .const _ => 1
  | .pred _ _ _ => 1
  | .not e => literalCount e
  | .and args => literalCounts args
  | .or args => literalCounts args
  | .always _ _ => 1
  | .eventually _ _ => 1
  | .untl _ _ _ => 1
/-- The sum over the operands. -/
def literalCounts : List (Expr K) → Nat
  | [] => 0
  | e :: es => literalCount e + literalCounts es
end

mutual
/-- An upper bound of the number of samples of all those predicates and temporal subformulas together, if the
signal `n` has `count n` samples: a Boolean combination of `m` functions with `N` samples in all has at most
`N * (1 + m * (m - 1) / 2)` samples, Eventually and Always have as many samples as the operand, and Until as
many as both together. -/
def literalSamples (count : String → Nat) : Expr K → Nat
  | .const _ => 2
  | .pred n _ _ => count n
  | .not e => literalSamples count e
  | .and args => literalSamplesAll count args
  | .or args => literalSamplesAll count args
  | .always e _ => literalSamples count e * (1 + (literalCount e).choose 2)
  | .eventually e _ => literalSamples count e * (1 + (literalCount e).choose 2)
  | .untl e e' _ => literalSamples count e * (1 + (literalCount e).choose 2) +
      literalSamples count e' * (1 + (literalCount e').choose 2)
/-- The sum over the operands. -/
def literalSamplesAll (count : String → Nat) : List (Expr K) → Nat
  | [] => 0
  | e :: es => literalSamples count e + literalSamplesAll count es
end

/-- The bound for a formula. -/
def crossingBound (count : String → Nat) (e : Expr K) : Nat :=
  literalSamples count e * (1 + (literalCount e).choose 2)

end Spec
end Verif
