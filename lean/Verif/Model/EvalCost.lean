import Verif.Model.Robustness
import Verif.Model.WedgeCost

/-!
# Counting the rounds of the loops of an evaluation

The functions of `Model/Signal.lean`, `Model/MinMax.lean` and `Model/Robustness.lean` that evaluate a formula
once more, returning in addition how many rounds their loops make: the calls of `push_back` in the constructors
and in `operator()(Predicate)`, the comparisons of `std::lower_bound`, the rounds of the loops of `synchronize`,
`compute_minmax_pair`, `compute_minmax_seq` and `compute_until`, the elements moved by `std::reverse` and
`std::transform`, and one for each call of `compute`.  Each of these takes constant (for `push_back`: amortised
constant) time.  `Props/EvalCost.lean` proves that the results are the same.  Not counted: the search in the
trace (`std::map::at`), and the loops of the windowed version of `compute_minmax_seq`, which is not reached if the
timestamps are finite: lines 165 and 183 test `has_value()`, which holds for the interval from 0 to infinity only.
-/

namespace Verif

/-- An outcome and the number of rounds until it is reached. -/
structure Steps (α : Type) where
  out : Outcome α
  count : Nat

namespace Steps
variable {α β : Type}

/-- One round. -/
def tick (n : Nat := 1) : Steps Unit := ⟨.ok (), n⟩

/-- Something without loops. -/
def lift (o : Outcome α) : Steps α := ⟨o, 0⟩

/-- The next statement is executed only if the previous one is successful. -/
def bind (x : Steps α) (f : α → Steps β) : Steps β :=
  match x.out with
  | .ok a => ⟨(f a).out, x.count + (f a).count⟩
  | .throw e => ⟨.throw e, x.count⟩
  | .abort => ⟨.abort, x.count⟩
  | .ub u => ⟨.ub u, x.count⟩
  | .diverge => ⟨.diverge, x.count⟩

instance : Monad Steps where
  pure a := ⟨.ok a, 0⟩
  bind := bind

end Steps
open Steps

variable {K : Type} [Field K] [LinearOrder K] [Arith K]

/-- `Signal.pushAll`: a sequence of `push_back`s. -/
def pushAllS (s : Signal K) : List (Sample K) → Steps (Signal K)
  | [] => pure s
  | x :: xs => do
    tick
    let s' ← lift (s.pushBack x)
    pushAllS s' xs

/-- `Signal(const T& data)`, signal.hpp:217-224. -/
def ofSamplesS (xs : List (Sample K)) : Steps (Signal K) := pushAllS Signal.empty xs

/-- `std::lower_bound`. -/
def lowerBoundS {α : Type} (p : α → Bool) (l : List α) : Steps Nat :=
  if isPartitioned p l then ⟨.ok (lowerBoundLoopC p l l.length 0 l.length).1, (lowerBoundLoopC p l l.length 0 l.length).2⟩
  else lift (.ub .unpartitioned)

/-- `consPair`. -/
def consPairS (a b : Sample K) (r : Steps (List (Sample K) × List (Sample K))) :
    Steps (List (Sample K) × List (Sample K)) := do
  tick
  let (xv, yv) ← r
  return (a :: xv, b :: yv)

/-- `syncInner`: rounds of the `while` loop of `synchronize` (signal.cc:143-162). -/
def syncInnerS (next : Option (Sample K) → List (Sample K) → Steps (List (Sample K) × List (Sample K)))
    (pi : Option (Sample K)) (i : Sample K) :
    Option (Sample K) → List (Sample K) → Steps (List (Sample K) × List (Sample K))
  | _, [] => pure ([], [])
  | pj, j :: js =>
    if i.time.eq j.time then
      consPairS i j (next (some j) js)
    else if i.time.lt j.time then do
      let p ← lift (derefPrev pj)
      consPairS i (.mk2 i.time (p.interpolate i.time)) (next pj (j :: js))
    else if j.time.lt i.time then do
      let p ← lift (derefPrev pi)
      consPairS (.mk2 j.time (p.interpolate j.time)) j (syncInnerS next pi i (some j) js)
    else lift .diverge

/-- `syncLoop`, signal.cc:143-162. -/
def syncLoopS : Option (Sample K) → List (Sample K) → Option (Sample K) → List (Sample K) →
    Steps (List (Sample K) × List (Sample K))
  | _, [], _, _ => pure ([], [])
  | pi, i :: is, pj, js => syncInnerS (fun pj' js' => syncLoopS (some i) is pj' js') pi i pj js

/-- `syncFinish`, signal.cc:164-172. -/
def syncFinishS (xv yv : List (Sample K)) : Steps (Signal K × Signal K) := do
  let xb ← lift (vback xv)
  let yb ← lift (vback yv)
  let yv := if yb.time.lt xb.time then yv ++ [.mk2 xb.time (yb.interpolate xb.time)] else yv
  let yb ← lift (vback yv)
  let xb ← lift (vback xv)
  let xv := if xb.time.lt yb.time then xv ++ [.mk2 yb.time (xb.interpolate yb.time)] else xv
  let sx ← ofSamplesS xv
  let sy ← ofSamplesS yv
  return (sx, sy)

/-- `synchronize(x, y)`, signal.cc:115-173. -/
def synchronizeS (x y : Signal K) : Steps (Signal K × Signal K) := do
  let beginTime := D.max x.beginTime y.beginTime
  let i ← lowerBoundS (fun a => a.time.lt beginTime) x.samples
  let pi := prevAt x.samples i
  let is := x.samples.drop i
  let xv0 ← lift (syncHead beginTime pi is pi)
  let j ← lowerBoundS (fun a => a.time.lt beginTime) y.samples
  let pj := prevAt y.samples j
  let js := y.samples.drop j
  let yv0 ← lift (syncHead beginTime pj js pi)
  let (xs, ys) ← syncLoopS pi is pj js
  syncFinishS (xv0 ++ xs) (yv0 ++ ys)

/-- `minmaxPairLoop`, minmax.cc:38-62. -/
def minmaxPairLoopS (comp : Cmp K) :
    Signal K → Chosen → Option (Sample K) → Option (Sample K) →
    List (Sample K) → List (Sample K) → Steps (Signal K)
  | out, last, pi, pj, i :: is, j :: js =>
    if comp i j then do
      tick
      let out ← lift (if last = .Y then insertCrossing out pj pi i.time else .ok out)
      let out ← lift (out.pushBack i)
      minmaxPairLoopS comp out .X (some i) (some j) is js
    else do
      tick
      let out ← lift (if last = .X then insertCrossing out pi pj j.time else .ok out)
      let out ← lift (out.pushBack j)
      minmaxPairLoopS comp out .Y (some i) (some j) is js
  | out, _, _, _, _, _ => pure out

/-- `compute_minmax_pair(input_x, input_y, comp, synchronized)`, minmax.cc:19-65. -/
def minmaxPairS (ndebug : Bool) (comp : Cmp K) (inputX inputY : Signal K) (synced : Bool) :
    Steps (Signal K) := do
  let (x, y) ← if synced then pure (inputX, inputY) else synchronizeS inputX inputY
  lift (assert_ ndebug (x.size == y.size))
  lift (assert_ ndebug (x.beginTime.eq y.beginTime))
  lift (assert_ ndebug (x.endTime.eq y.endTime))
  minmaxPairLoopS comp Signal.empty .NONE none none x.samples y.samples

/-- `minmaxFold`, minmax.cc:81-87. -/
def minmaxFoldS (ndebug : Bool) (comp : Cmp K) (synced : Bool) :
    Signal K → List (Signal K) → Steps (Signal K)
  | acc, [] => pure acc
  | acc, x :: xs => do
    let acc ← minmaxPairS ndebug comp acc x synced
    minmaxFoldS ndebug comp synced acc xs

/-- `compute_minmax_pair(xs, comp, synchronized)`, minmax.cc:67-89. -/
def minmaxVecS (ndebug : Bool) (comp : Cmp K) (xs : List (Signal K)) (synced : Bool) :
    Steps (Signal K) :=
  match xs with
  | [] => lift (Signal.empty.pushBackTV 0 .ninf)
  | [x] => pure x
  | [x, y] => minmaxPairS ndebug comp x y synced
  | x :: rest => minmaxFoldS ndebug comp synced x rest

/-- `minmaxSeqLoop`, minmax.cc:98-101. -/
def minmaxSeqLoopS (comp : Cmp K) : Sample K → List (Sample K) → Steps (List (Sample K))
  | _, [] => pure []
  | opt, i :: rest => do
    tick
    let opt' := if comp i opt then i else opt
    let z ← minmaxSeqLoopS comp opt' rest
    return Sample.mk2 i.time opt'.value :: z

/-- `std::reverse`. -/
def reverseS (z : List (Sample K)) : Steps (List (Sample K)) := do
  tick z.length
  return z.reverse

/-- `compute_minmax_seq(x, comp)`, minmax.cc:91-105. -/
def minmaxSeqS (comp : Cmp K) (x : Signal K) : Steps (Signal K) := do
  let b ← lift x.back
  let z ← minmaxSeqLoopS comp b x.samples.reverse.tail
  let z ← reverseS (b :: z)
  ofSamplesS z

/-- `untilLoop`, classic_robustness.cc:44-50. -/
def untilLoopS : D K → D K → List (Sample K) → List (Sample K) → Steps (List (Sample K))
  | prev, maxRight, i :: is, j :: js => do
    tick
    let maxRight := D.max maxRight j.value
    let prev := D.max (D.max j.value (D.min i.value prev)) (-maxRight)
    let z ← untilLoopS prev maxRight is js
    return Sample.mk2 i.time prev :: z
  | _, _, _, _ => pure []

/-- `compute_until(x, y)`, classic_robustness.cc:31-54. -/
def computeUntilS (ndebug : Bool) (inputX inputY : Signal K) : Steps (Signal K) := do
  let (x, y) ← synchronizeS inputX inputY
  lift (assert_ ndebug (x.size == y.size))
  lift (assert_ ndebug (x.beginTime.eq y.beginTime))
  lift (assert_ ndebug (x.endTime.eq y.endTime))
  let z ← untilLoopS .pinf .ninf x.samples.reverse y.samples.reverse
  let z ← reverseS z
  ofSamplesS z

namespace RobustnessOp

/-- `operator()(Const)`, classic_robustness.cc:107-111. -/
def constS (r : RobustnessOp K) (b : Bool) : Steps (Signal K) :=
  let val : D K := if b then .pinf else .ninf
  ofSamplesS [⟨r.minTime, val, 0⟩, ⟨r.maxTime, val, 0⟩]

/-- `operator()(Predicate)`, classic_robustness.cc:113-131. -/
def predS (r : RobustnessOp K) (name : String) (op : ComparisonOp) (rhs : D K) : Steps (Signal K) := do
  let x ← lift (r.trace.at_ name)
  ofSamplesS (x.samples.map fun s => ⟨s.time, predValue op rhs s.value, 0⟩)

/-- classic_robustness.cc:134-138: `std::transform`, then the constructor. -/
def negateS (x : Signal K) : Steps (Signal K) := do
  tick x.samples.length
  ofSamplesS (x.samples.map Sample.neg)

/-- classic_robustness.cc:165-178 (Eventually) and 183-196 (Always). -/
def temporalS (r : RobustnessOp K) (comp : Cmp K) (y : Signal K) (i : Interval K) : Steps (Signal K) :=
  if !i.hasValue then minmaxSeqS comp y
  else
    let (a, b) := i.asDouble
    if (b - a).lt 0 then lift (.throw .logicError)
    else if (b - a).eq 0 then pure y
    else if (y.endTime - y.beginTime).le (b - a) then minmaxSeqS comp y
    else lift (minmaxSeqWindow r.fuel comp y a b)

/-- classic_robustness.cc:202-211. -/
def untilOpS (r : RobustnessOp K) (y1 y2 : Signal K) (i : Interval K) : Steps (Signal K) :=
  if !i.hasValue then computeUntilS r.ndebug y1 y2
  else
    let (a, b) := i.asDouble
    if b.isinf && a.eq 0 then computeUntilS r.ndebug y1 y2
    else lift (computeUntilBounded y1 y2 a b)

mutual

/-- `compute(phi, rob)`, classic_robustness.cc:77-79, 107-212. -/
def computeS (r : RobustnessOp K) : Expr K → Steps (Signal K)
  | .const b => do
    tick
    r.constS b
  | .pred name op rhs => do
    tick
    r.predS name op rhs
  | .not e => do
    tick
    let x ← computeS r e
    negateS x
  | .and args => do
    tick
    let ys ← computeArgsS r args
    lift (assert_ r.ndebug (ys.length == args.length))
    minmaxVecS r.ndebug Sample.le ys false
  | .or args => do
    tick
    let ys ← computeArgsS r args
    lift (assert_ r.ndebug (ys.length == args.length))
    minmaxVecS r.ndebug Sample.ge ys false
  | .always e i => do
    tick
    let y ← computeS r e
    temporalS r Sample.le y i
  | .eventually e i => do
    tick
    let y ← computeS r e
    temporalS r Sample.ge y i
  | .untl e1 e2 i => do
    tick
    let y1 ← computeS r e1
    let y2 ← computeS r e2
    untilOpS r y1 y2 i

/-- `std::transform` over the operands, classic_robustness.cc:144-147, 155-158. -/
def computeArgsS (r : RobustnessOp K) : List (Expr K) → Steps (List (Signal K))
  | [] => pure []
  | e :: es => do
    let y ← computeS r e
    let ys ← computeArgsS r es
    return y :: ys

end

end RobustnessOp

/-- `minMaxTime`, classic_robustness.cc:85-98, makes one round for each signal; `compute_robustness(phi, trace)`,
classic_robustness.cc:83-105. -/
def computeRobustnessS (ndebug : Bool) (fuel : Nat) (phi : Expr K) (trace : Trace K) : Steps (Signal K) := do
  tick trace.length
  RobustnessOp.computeS ⟨ndebug, fuel, (minMaxTime trace).1, (minMaxTime trace).2, trace⟩ phi

end Verif
