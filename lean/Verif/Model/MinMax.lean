import Verif.Model.Signal
import Verif.Model.Wedge

/-!
# Model of `src/robust_semantics/minmax.cc`
-/

namespace Verif

variable {K : Type} [Field K] [LinearOrder K] [Arith K]

/-- A comparison of samples (`std::less_equal<>` or `std::greater_equal<>`). -/
abbrev Cmp (K : Type) := Sample K → Sample K → Bool

/-- `enum struct Chosen`, minmax.cc:33. -/
inductive Chosen where
  | X | Y | NONE
  deriving DecidableEq, Repr

/-- minmax.cc:42-48 (and, with `x` and `y` exchanged, 52-58): the crossing of the lines through
`*prev(a)` and `*prev(b)` is inserted if it is after the end of `out` and not at the time of the
current sample. `self` is the signal of the last winner. -/
def insertCrossing (out : Signal K) (self point : Option (Sample K)) (curTime : D K) :
    Outcome (Signal K) := do
  let s ← derefPrev self
  let p ← derefPrev point
  let t := s.timeIntersect p
  if out.endTime.lt t && !t.eq curTime then
    out.pushBack (.mk2 t (s.interpolate t))
  else return out

/-- The loop of `compute_minmax_pair`, minmax.cc:38-62. `pi`, `pj` are the elements before the
iterators. -/
def minmaxPairLoop (comp : Cmp K) :
    Signal K → Chosen → Option (Sample K) → Option (Sample K) →
    List (Sample K) → List (Sample K) → Outcome (Signal K)
  | out, last, pi, pj, i :: is, j :: js =>
    if comp i j then do
      let out ← if last = .Y then insertCrossing out pj pi i.time else .ok out
      let out ← out.pushBack i
      minmaxPairLoop comp out .X (some i) (some j) is js
    else do
      let out ← if last = .X then insertCrossing out pi pj j.time else .ok out
      let out ← out.pushBack j
      minmaxPairLoop comp out .Y (some i) (some j) is js
  | out, _, _, _, _, _ => .ok out

/-- `compute_minmax_pair(input_x, input_y, comp, synchronized)`, minmax.cc:19-65. -/
def minmaxPair (ndebug : Bool) (comp : Cmp K) (inputX inputY : Signal K) (synced : Bool) :
    Outcome (Signal K) := do
  let (x, y) ← if synced then .ok (inputX, inputY) else synchronize inputX inputY
  assert_ ndebug (x.size == y.size)
  assert_ ndebug (x.beginTime.eq y.beginTime)
  assert_ ndebug (x.endTime.eq y.endTime)
  minmaxPairLoop comp Signal.empty .NONE none none x.samples y.samples

/-- `std::accumulate(next(xs.begin()), xs.end(), xs[0], ...)`, minmax.cc:81-87. -/
def minmaxFold (ndebug : Bool) (comp : Cmp K) (synced : Bool) :
    Signal K → List (Signal K) → Outcome (Signal K)
  | acc, [] => .ok acc
  | acc, x :: xs => do
    let acc ← minmaxPair ndebug comp acc x synced
    minmaxFold ndebug comp synced acc xs

/-- `compute_minmax_pair(xs, comp, synchronized)`, minmax.cc:67-89. -/
def minmaxVec (ndebug : Bool) (comp : Cmp K) (xs : List (Signal K)) (synced : Bool) :
    Outcome (Signal K) :=
  match xs with
  | [] => Signal.empty.pushBackTV 0 .ninf
  | [x] => .ok x
  | [x, y] => minmaxPair ndebug comp x y synced
  | x :: rest => minmaxFold ndebug comp synced x rest

/-- The loop of the unbounded `compute_minmax_seq`, minmax.cc:98-101, over the reversed samples:
the samples appended to `z`. -/
def minmaxSeqLoop (comp : Cmp K) : Sample K → List (Sample K) → List (Sample K)
  | _, [] => []
  | opt, i :: rest =>
    let opt' := if comp i opt then i else opt
    Sample.mk2 i.time opt'.value :: minmaxSeqLoop comp opt' rest

/-- `compute_minmax_seq(x, comp)`, minmax.cc:91-105. -/
def minmaxSeq (comp : Cmp K) (x : Signal K) : Outcome (Signal K) := do
  let b ← x.back
  let z := b :: minmaxSeqLoop comp b x.samples.reverse.tail
  Signal.ofSamples z.reverse

/-- minmax.cc:122-126: read the samples before `limit` into the window.  The iterator is not
compared to `end()`.  Returns the iterator (previous element, rest) and the window. -/
def windowFill (comp : Cmp K) (limit : D K) :
    Option (Sample K) → List (Sample K) → List (Sample K) →
    Outcome (Option (Sample K) × List (Sample K) × List (Sample K))
  | _, [], _ => .ub .derefEnd
  | prev, i :: rest, w =>
    if i.time.lt limit then do
      let w ← monoWedgeUpdate comp w i
      windowFill comp limit (some i) rest w
    else .ok (prev, i :: rest, w)

/-- `while (window.front().time <= bound) { window.pop_front(); }`, minmax.cc:140; `front()` of an
empty deque is undefined behaviour. -/
def popExpired (bound : D K) : List (Sample K) → Outcome (List (Sample K))
  | [] => .ub .emptyAccess
  | f :: w => if f.time.le bound then popExpired bound w else .ok (f :: w)

/-- The second loop of the windowed `compute_minmax_seq`, minmax.cc:129-142.  A sample may be
inserted before the current one, so the list is not structurally decreasing: `fuel` bounds the
number of rounds. -/
def windowLoop (comp : Cmp K) (a : D K) :
    Nat → Option (Sample K) → List (Sample K) → List (Sample K) → Signal K → Outcome (Signal K)
  | _, _, [], _, z => .ok z
  | 0, _, _ :: _, _, _ => .diverge
  | fuel + 1, prev, i :: rest, w, z => do
    let f ← vback w.head?.toList
    let ins := f.time.lt (i.time - a)
    let i' ← if ins then
        (derefPrev prev).map' fun p => ⟨f.time + a, p.interpolate (f.time + a), 0⟩
      else .ok i
    let rest' := if ins then i :: rest else rest
    let w ← monoWedgeUpdate comp w i'
    let w ← popExpired (i'.time - a) w
    let z ← z.pushBackTV i'.time i'.value
    windowLoop comp a fuel (some i') rest' w z

/-- `compute_minmax_seq(x, a, b, comp)`, minmax.cc:107-145. -/
def minmaxSeqWindow (fuel : Nat) (comp : Cmp K) (x : Signal K) (a b : D K) :
    Outcome (Signal K) := do
  let width := b - a
  let beginTime := x.beginTime
  let endTime := x.endTime
  let x' ← if a.eq 0 then .ok x else do
    let back ← x.back
    x.resizeShift (beginTime + width) (endTime + width) back.value (-width)
  let (prev, rest, w) ← windowFill comp (x.beginTime + width) none x'.samples []
  let z ← windowLoop comp a fuel prev rest w Signal.empty
  z.simplify

/-- `compute_elementwise_min(xs)`, minmax.cc:157-159 (`synchronized` defaults to false). -/
def elementwiseMin (ndebug : Bool) (xs : List (Signal K)) : Outcome (Signal K) :=
  minmaxVec ndebug Sample.le xs false

/-- `compute_elementwise_max(xs)`, minmax.cc:161-163. -/
def elementwiseMax (ndebug : Bool) (xs : List (Signal K)) : Outcome (Signal K) :=
  minmaxVec ndebug Sample.ge xs false

/-- `compute_max_seq(x)`, minmax.cc:165-167. -/
def maxSeq (x : Signal K) : Outcome (Signal K) := minmaxSeq Sample.ge x

/-- `compute_min_seq(x)`, minmax.cc:169-171. -/
def minSeq (x : Signal K) : Outcome (Signal K) := minmaxSeq Sample.le x

/-- `compute_max_seq(x, a, b)`, minmax.cc:173-175. -/
def maxSeqWindow (fuel : Nat) (x : Signal K) (a b : D K) : Outcome (Signal K) :=
  minmaxSeqWindow fuel Sample.ge x a b

/-- `compute_min_seq(x, a, b)`, minmax.cc:177-179. -/
def minSeqWindow (fuel : Nat) (x : Signal K) (a b : D K) : Outcome (Signal K) :=
  minmaxSeqWindow fuel Sample.le x a b

/-- `compute_elementwise_min(x, y, synchronized)`, minmax.cc:147-150. -/
def elementwiseMin2 (ndebug : Bool) (x y : Signal K) (synced : Bool) : Outcome (Signal K) :=
  minmaxPair ndebug Sample.le x y synced

/-- `compute_elementwise_max(x, y, synchronized)`, minmax.cc:152-155. -/
def elementwiseMax2 (ndebug : Bool) (x y : Signal K) (synced : Bool) : Outcome (Signal K) :=
  minmaxPair ndebug Sample.ge x y synced

/-- `compute_elementwise_min(xs, synchronized)`, minmax.cc:157-159, with the flag as an argument. -/
def elementwiseMinFlag (ndebug : Bool) (xs : List (Signal K)) (synced : Bool) : Outcome (Signal K) :=
  minmaxVec ndebug Sample.le xs synced

/-- `compute_elementwise_max(xs, synchronized)`, minmax.cc:161-163, with the flag as an argument. -/
def elementwiseMaxFlag (ndebug : Bool) (xs : List (Signal K)) (synced : Bool) : Outcome (Signal K) :=
  minmaxVec ndebug Sample.ge xs synced

end Verif
