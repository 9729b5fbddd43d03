import Verif.Model.MinMax
import Verif.Model.Ast

/-!
# Model of `src/robust_semantics/classic_robustness.cc`
-/

namespace Verif

variable {K : Type} [Field K] [LinearOrder K] [Arith K]

/-- `using Trace = std::map<std::string, SignalPtr>`, signal.hpp:263: an association list in key
order.  Pointers are assumed to be non-null. -/
abbrev Trace (K : Type) := List (String × Signal K)

/-- `trace.at(name)`: throws `std::out_of_range` if the key is missing. -/
def Trace.at_ (trace : Trace K) (name : String) : Outcome (Signal K) :=
  match trace.lookup name with
  | none => .throw .outOfRange
  | some x => .ok x

/-- The loop of the unbounded `compute_until`, classic_robustness.cc:44-50, over the reversed
samples; `prev`, `maxRight` are the running values; the result are the samples pushed. -/
def untilLoop : D K → D K → List (Sample K) → List (Sample K) → List (Sample K)
  | prev, maxRight, i :: is, j :: js =>
    let maxRight := D.max maxRight j.value
    -- std::max({a, b, c}) is the first largest element
    let prev := D.max (D.max j.value (D.min i.value prev)) (-maxRight)
    Sample.mk2 i.time prev :: untilLoop prev maxRight is js
  | _, _, _, _ => []

/-- `compute_until(x, y)`, classic_robustness.cc:31-54. -/
def computeUntil (ndebug : Bool) (inputX inputY : Signal K) : Outcome (Signal K) := do
  let (x, y) ← synchronize inputX inputY
  assert_ ndebug (x.size == y.size)
  assert_ ndebug (x.beginTime.eq y.beginTime)
  assert_ ndebug (x.endTime.eq y.endTime)
  Signal.ofSamples (untilLoop .pinf .ninf x.samples.reverse y.samples.reverse).reverse

/-- Bounded `compute_until`, classic_robustness.cc:56-58. -/
def computeUntilBounded (_ _ : Signal K) (_ _ : D K) : Outcome (Signal K) := .throw .notImplemented

/-- `struct RobustnessOp`, classic_robustness.cc:60-63 (plus the build flag and the fuel of the
windowed loop). -/
structure RobustnessOp (K : Type) where
  ndebug : Bool
  fuel : Nat
  minTime : D K
  maxTime : D K
  trace : Trace K

namespace RobustnessOp

/-- `RobustnessOp::operator()(Const)`, classic_robustness.cc:107-111. -/
def const (r : RobustnessOp K) (b : Bool) : Outcome (Signal K) :=
  let val : D K := if b then .pinf else .ninf
  Signal.ofSamples [⟨r.minTime, val, 0⟩, ⟨r.maxTime, val, 0⟩]

/-- The `switch` of classic_robustness.cc:119-128. -/
def predValue (op : ComparisonOp) (rhs v : D K) : D K :=
  match op with
  | .GE => v - rhs
  | .GT => v - rhs
  | .LE => rhs - v
  | .LT => rhs - v

/-- `RobustnessOp::operator()(Predicate)`, classic_robustness.cc:113-131. -/
def pred (r : RobustnessOp K) (name : String) (op : ComparisonOp) (rhs : D K) :
    Outcome (Signal K) := do
  let x ← r.trace.at_ name
  Signal.ofSamples (x.samples.map fun s => ⟨s.time, predValue op rhs s.value, 0⟩)

/-- classic_robustness.cc:134-138: negate all samples. -/
def negate (x : Signal K) : Outcome (Signal K) := Signal.ofSamples (x.samples.map Sample.neg)

/-- classic_robustness.cc:165-178 (Eventually) and 183-196 (Always): the choice of the algorithm
depending on the interval.  Note that line 165 calls the unbounded version if `has_value()` is
*false*. -/
def temporal (r : RobustnessOp K) (comp : Cmp K) (y : Signal K) (i : Interval K) :
    Outcome (Signal K) :=
  if !i.hasValue then minmaxSeq comp y
  else
    let (a, b) := i.asDouble
    if (b - a).lt 0 then .throw .logicError
    else if (b - a).eq 0 then .ok y
    else if (y.endTime - y.beginTime).le (b - a) then minmaxSeq comp y
    else minmaxSeqWindow r.fuel comp y a b

/-- classic_robustness.cc:202-211: the choice of the algorithm for Until. -/
def untilOp (r : RobustnessOp K) (y1 y2 : Signal K) (i : Interval K) : Outcome (Signal K) :=
  if !i.hasValue then computeUntil r.ndebug y1 y2
  else
    let (a, b) := i.asDouble
    if b.isinf && a.eq 0 then computeUntil r.ndebug y1 y2
    else computeUntilBounded y1 y2 a b

mutual

/-- `compute(phi, rob)`, classic_robustness.cc:77-79: dispatch on the node, with the bodies of
lines 107-212. -/
def compute (r : RobustnessOp K) : Expr K → Outcome (Signal K)
  | .const b => r.const b
  | .pred name op rhs => r.pred name op rhs
  | .not e => do
    let x ← compute r e
    negate x
  | .and args => do
    let ys ← computeArgs r args
    assert_ r.ndebug (ys.length == args.length)
    elementwiseMin r.ndebug ys
  | .or args => do
    let ys ← computeArgs r args
    assert_ r.ndebug (ys.length == args.length)
    elementwiseMax r.ndebug ys
  | .always e i => do
    let y ← compute r e
    temporal r Sample.le y i
  | .eventually e i => do
    let y ← compute r e
    temporal r Sample.ge y i
  | .untl e1 e2 i => do
    let y1 ← compute r e1
    let y2 ← compute r e2
    untilOp r y1 y2 i

/-- `std::transform` over the operands, classic_robustness.cc:144-147, 155-158. -/
def computeArgs (r : RobustnessOp K) : List (Expr K) → Outcome (List (Signal K))
  | [] => .ok []
  | e :: es => do
    let y ← compute r e
    let ys ← computeArgs r es
    return y :: ys

end

end RobustnessOp

/-- `MinMaxTime`, classic_robustness.cc:85-98: smallest begin time and largest end time. -/
def minMaxTime (trace : Trace K) : D K × D K :=
  trace.foldl (fun acc e => (D.min acc.1 e.2.beginTime, D.max acc.2 e.2.endTime)) (.pinf, .ninf)

/-- `compute_robustness(phi, trace, synchronized)`, classic_robustness.cc:83-105.  The flag is
ignored by the code.  `ndebug`: is `NDEBUG` defined; `fuel`: bound on the rounds of the windowed
loop. -/
def computeRobustness (ndebug : Bool) (fuel : Nat) (phi : Expr K) (trace : Trace K)
    (_synchronized : Bool) : Outcome (Signal K) :=
  let mm := minMaxTime trace
  RobustnessOp.compute ⟨ndebug, fuel, mm.1, mm.2, trace⟩ phi

end Verif
