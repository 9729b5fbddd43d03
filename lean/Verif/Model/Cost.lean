import Verif.Model.Robustness

/-!
# Counting the calls of `compute` in `classic_robustness.cc`

`RobustnessOp.compute` of `Model/Robustness.lean` once more, returning in addition how often `compute`
(classic_robustness.cc:77-79) is called.  `Props/Size.lean` proves that the results are the same.
-/

namespace Verif
namespace RobustnessOp

variable {K : Type} [Field K] [LinearOrder K] [Arith K]

mutual

/-- `compute(phi, rob)`, classic_robustness.cc:77-79 and 107-212, and the number of calls. -/
def computeC (r : RobustnessOp K) : Expr K → Outcome (Signal K) × Nat
  | .const b => (r.const b, 1)
  | .pred name op rhs => (r.pred name op rhs, 1)
  | .not e =>
    let (o, n) := computeC r e
    (do let x ← o; negate x, n + 1)
  | .and args =>
    let (o, n) := computeArgsC r args
    (do
      let ys ← o
      assert_ r.ndebug (ys.length == args.length)
      elementwiseMin r.ndebug ys, n + 1)
  | .or args =>
    let (o, n) := computeArgsC r args
    (do
      let ys ← o
      assert_ r.ndebug (ys.length == args.length)
      elementwiseMax r.ndebug ys, n + 1)
  | .always e i =>
    let (o, n) := computeC r e
    (do let y ← o; temporal r Sample.le y i, n + 1)
  | .eventually e i =>
    let (o, n) := computeC r e
    (do let y ← o; temporal r Sample.ge y i, n + 1)
  | .untl e1 e2 i =>
    match computeC r e1 with
    | (.ok y1, n1) =>
      let (o, n2) := computeC r e2
      (do let y2 ← o; untilOp r y1 y2 i, n1 + n2 + 1)
    | (o, n1) => (do let y1 ← o; let y2 ← compute r e2; untilOp r y1 y2 i, n1 + 1)

/-- `std::transform` over the operands, classic_robustness.cc:144-147, 155-158, and the number of calls. -/
def computeArgsC (r : RobustnessOp K) : List (Expr K) → Outcome (List (Signal K)) × Nat
  | [] => (.ok [], 0)
  | e :: es =>
    match computeC r e with
    | (.ok y, n) =>
      let (o, m) := computeArgsC r es
      (do let ys ← o; return y :: ys, n + m)
    | (o, n) => (do let y ← o; let ys ← computeArgs r es; return y :: ys, n)

end

end RobustnessOp
end Verif
