import Verif.Model.Robustness

/-!
# Signals and evaluation with signed zeros

The rest of the model has one zero.  Here a double is a `D K` with a sign bit, which matters only if the number is zero:
then it tells `+0.0` from `-0.0`.  The functions of signal.hpp, signal.cc, minmax.cc and classic_robustness.cc are those of
Model/Signal.lean, Model/MinMax.lean and Model/Robustness.lean, word for word, over these numbers.
-/

namespace Verif
namespace Signed

/-- Model of a C++ `double`, with the sign of zero. -/
structure SD (K : Type) where
  /-- The number, with one zero. -/
  val : D K
  /-- If the number is zero: is it `-0.0`? -/
  neg0 : Bool
  deriving DecidableEq, Repr

namespace SD
variable {K : Type} [Field K] [LinearOrder K]

/-- A number that is not zero, or `+0.0`. -/
def of (a : D K) : SD K := ⟨a, false⟩

instance : Zero (SD K) := ⟨of 0⟩

def pinf : SD K := of .pinf
def ninf : SD K := of .ninf

/-- `std::signbit` (of a NaN it is taken to be clear; it has no effect on results that are not NaN). -/
def signbit (a : SD K) : Bool :=
  match a.val with
  | .fin q => if q = 0 then a.neg0 else decide (q < 0)
  | .ninf => true
  | _ => false

/-- IEEE negation. -/
def neg (a : SD K) : SD K := ⟨-a.val, !a.neg0⟩

instance : Neg (SD K) := ⟨neg⟩

variable [Arith K]

/-- IEEE addition, rounding to nearest: an exact sum of zero is `+0.0` unless both summands are `-0.0`; a sum that
underflows has the sign of the exact sum. -/
def add (a b : SD K) : SD K :=
  ⟨a.val + b.val,
    match a.val, b.val with
    | .fin p, .fin q => if p + q = 0 then decide (p = 0) && a.neg0 && b.neg0 else decide (p + q < 0)
    | _, _ => false⟩

instance : Add (SD K) := ⟨add⟩

/-- IEEE subtraction. -/
def sub (a b : SD K) : SD K := a + (-b)

instance : Sub (SD K) := ⟨sub⟩

/-- IEEE multiplication: the sign is the product of the signs. -/
def mul (a b : SD K) : SD K := ⟨a.val * b.val, a.signbit != b.signbit⟩

instance : Mul (SD K) := ⟨mul⟩

/-- IEEE division: the sign is the quotient of the signs, also if the divisor is a zero. -/
def div (a b : SD K) : SD K :=
  ⟨if b.val = .fin 0 ∧ b.neg0 = true then -(a.val / .fin 0) else a.val / b.val, a.signbit != b.signbit⟩

instance : Div (SD K) := ⟨div⟩

omit [Field K] [Arith K]

/-- IEEE comparisons do not tell the zeros apart. -/
def lt (a b : SD K) : Bool := a.val.lt b.val

@[inherit_doc lt] def eq (a b : SD K) : Bool := a.val.eq b.val

@[inherit_doc lt] def le (a b : SD K) : Bool := a.val.le b.val

/-- `std::isinf`. -/
def isinf (a : SD K) : Bool := a.val.isinf

/-- `std::max(a, b)` is `(a < b) ? b : a`. -/
def max (a b : SD K) : SD K := if lt a b then b else a

/-- `std::min(a, b)` is `(b < a) ? b : a`. -/
def min (a b : SD K) : SD K := if lt b a then b else a

end SD

/-- `struct Sample`, signal.hpp:19-22. -/
structure Sample (K : Type) where
  time : SD K
  value : SD K
  derivative : SD K
  deriving DecidableEq, Repr

namespace Sample
variable {K : Type} [Field K] [LinearOrder K]

/-- `Sample{t, v}`: the derivative defaults to 0.0 (signal.hpp:22). -/
def mk2 (t v : SD K) : Sample K := ⟨t, v, 0⟩

/-- `Sample::interpolate`, signal.hpp:27-29. -/
def interpolate [Arith K] (s : Sample K) (t : SD K) : SD K :=
  s.value + s.derivative * (t - s.time)

/-- `Sample::time_intersect`, signal.hpp:35-39. -/
def timeIntersect [Arith K] (s point : Sample K) : SD K :=
  (s.value - point.value + (point.derivative * point.time) - (s.derivative * s.time)) /
    (point.derivative - s.derivative)

/-- `Sample::area`, signal.hpp:41-47. -/
def area [Arith K] (s : Sample K) (t : SD K) : SD K :=
  if s.time.lt t then (s.value + s.interpolate t) * (t - s.time) / .of (.fin 2) else 0

/-- `operator<`, signal.hpp:51-53: compares values. -/
def lt (a b : Sample K) : Bool := a.value.lt b.value
/-- `operator>`, signal.hpp:54-56. -/
def gt (a b : Sample K) : Bool := lt b a
/-- `operator<=`, signal.hpp:57-59: the negation of `>` (so true if one value is NaN). -/
def le (a b : Sample K) : Bool := !gt a b
/-- `operator>=`, signal.hpp:60-62: the negation of `<`. -/
def ge (a b : Sample K) : Bool := !lt a b
/-- Unary `operator-`, signal.hpp:64-66. -/
def neg (s : Sample K) : Sample K := ⟨s.time, -s.value, -s.derivative⟩

end Sample

/-- `struct Signal`, signal.hpp:71-73: a vector of samples. -/
structure Signal (K : Type) where
  samples : List (Sample K)
  deriving DecidableEq, Repr

namespace Signal
variable {K : Type} [Field K] [LinearOrder K]

/-- `Signal()`, signal.hpp:207. -/
def empty : Signal K := ⟨[]⟩

/-- `size()`, signal.hpp:172-174. -/
def size (s : Signal K) : Nat := s.samples.length

/-- `begin_time()`, signal.hpp:76-78. -/
def beginTime (s : Signal K) : SD K :=
  match s.samples.head? with
  | none => 0
  | some a => a.time

/-- `end_time()`, signal.hpp:80-82. -/
def endTime (s : Signal K) : SD K :=
  match s.samples.getLast? with
  | none => 0
  | some a => a.time

/-- `back()`, signal.hpp:100-102; `std::vector::back` of an empty vector is undefined. -/
def back (s : Signal K) : Outcome (Sample K) :=
  match s.samples.getLast? with
  | none => .ub .emptyAccess
  | some a => .ok a

/-- `front()`, signal.hpp:96-98. -/
def front (s : Signal K) : Outcome (Sample K) :=
  match s.samples.head? with
  | none => .ub .emptyAccess
  | some a => .ok a

/-- `at_idx(i)`, signal.hpp:104-106: `std::vector::at` checks bounds. -/
def atIdx (s : Signal K) (i : Nat) : Outcome (Sample K) :=
  match s.samples[i]? with
  | none => .throw .outOfRange
  | some a => .ok a

/-- `interpolate(t, idx)`, signal.hpp:84-86. -/
def interpolateIdx [Arith K] (s : Signal K) (t : SD K) (i : Nat) : Outcome (SD K) := do
  let a ← s.atIdx i
  return a.interpolate t

/-- `time_intersect(point, idx)`, signal.hpp:88-90. -/
def timeIntersectIdx [Arith K] (s : Signal K) (p : Sample K) (i : Nat) : Outcome (SD K) := do
  let a ← s.atIdx i
  return a.timeIntersect p

/-- `area(t, idx)`, signal.hpp:92-94. -/
def areaIdx [Arith K] (s : Signal K) (t : SD K) (i : Nat) : Outcome (SD K) := do
  let a ← s.atIdx i
  return a.area t

/-- `at(t)`, signal.cc:14-29.  The result of `lower_bound` is dereferenced without a check. -/
def at_ [Arith K] (s : Signal K) (t : SD K) : Outcome (Sample K) :=
  if t.lt s.beginTime && s.endTime.lt t then .throw .invalidArgument
  else do
    let i ← lowerBound (fun a => a.time.lt t) s.samples
    match s.samples[i]? with
    | none => .ub .derefEnd
    | some it =>
      if it.time.eq t then return it
      else return ⟨t, it.interpolate t, it.derivative⟩

/-- `begin_at(s)`, signal.hpp:133-141; an iterator is modelled by its index. -/
def beginAt (s : Signal K) (t : SD K) : Outcome Nat :=
  if t.le s.beginTime then .ok 0
  else lowerBound (fun a => a.time.lt t) s.samples

/-- `end_at(t)`, signal.hpp:147-156.  The loop starts at `end()` and evaluates `it->time` there, so
reaching it is undefined behaviour. -/
def endAt (s : Signal K) (t : SD K) : Outcome Nat :=
  if s.endTime.le t then .ok s.size
  else .ub .derefEnd

/-- `push_back(Sample)`, signal.cc:31-48. -/
def pushBack [Arith K] (s : Signal K) (x : Sample K) : Outcome (Signal K) :=
  match s.samples.getLast? with
  | none => .ok ⟨[⟨x.time, x.value, 0⟩]⟩
  | some last =>
    if x.time.le s.endTime then .throw .invalidArgument
    else
      let d := (x.value - last.value) / (x.time - last.time)
      .ok ⟨s.samples.dropLast ++ [⟨last.time, last.value, d⟩, ⟨x.time, x.value, 0⟩]⟩

/-- `push_back(time, value)`, signal.cc:50-52. -/
def pushBackTV [Arith K] (s : Signal K) (t v : SD K) : Outcome (Signal K) :=
  s.pushBack ⟨t, v, 0⟩

/-- A sequence of `push_back`s; the first exception ends it. -/
def pushAll [Arith K] (s : Signal K) : List (Sample K) → Outcome (Signal K)
  | [] => .ok s
  | x :: xs => do
    let s' ← s.pushBack x
    pushAll s' xs

/-- `Signal(const T& data)`, signal.hpp:217-224: push the samples one after the other. -/
def ofSamples [Arith K] (xs : List (Sample K)) : Outcome (Signal K) := pushAll empty xs

/-- `Signal(const Signal&)`, signal.hpp:209-212. -/
def copy [Arith K] (s : Signal K) : Outcome (Signal K) := ofSamples s.samples

/-- `Signal(points, times)`, signal.hpp:229-238. -/
def ofPoints [Arith K] (points times : List (SD K)) : Outcome (Signal K) :=
  if points.length ≠ times.length then .throw .invalidArgument
  else ofSamples ((times.zip points).map fun p => ⟨p.1, p.2, 0⟩)

/-- The loop of `simplify()`, signal.cc:56-62: `sig` is the result so far. -/
def simplifyLoop [Arith K] (sig : Signal K) : List (Sample K) → Outcome (Signal K)
  | [] => .ok sig
  | s :: rest => do
    match sig.samples.getLast? with
    | none =>
      let sig' ← sig.pushBack s
      simplifyLoop sig' rest
    | some b =>
      if !(b.interpolate s.time).eq s.value || !b.derivative.eq s.derivative then
        let sig' ← sig.pushBack s
        simplifyLoop sig' rest
      else simplifyLoop sig rest

/-- `simplify()`, signal.cc:54-67. -/
def simplify [Arith K] (s : Signal K) : Outcome (Signal K) := do
  let sig ← simplifyLoop empty s.samples
  if !s.endTime.eq sig.endTime then
    let b ← s.back
    sig.pushBack b
  else return sig

/-- The loop of `resize`, signal.cc:78-97.  `prev` is `std::prev(i)` (if `i` is not `begin()`), the
list starts at `*i`, so `std::next(i)` is the head of its tail. -/
def resizeLoop [Arith K] (start end_ : SD K) :
    Signal K → Option (Sample K) → List (Sample K) → Outcome (Signal K)
  | sig, _, [] => .ok sig
  | sig, prev, i :: rest =>
    let nextAfterStart := match rest with
      | [] => false
      | n :: _ => start.lt n.time
    if nextAfterStart then do
      let sig' ← sig.pushBack (.mk2 start (i.interpolate start))
      resizeLoop start end_ sig' (some i) rest
    else if start.le i.time && i.time.le end_ then do
      let sig' ← sig.pushBack i
      resizeLoop start end_ sig' (some i) rest
    else if end_.lt i.time then
      match prev with
      | some p =>
        if p.time.lt end_ then do
          let sig' ← sig.pushBack (.mk2 end_ (p.interpolate end_))
          resizeLoop start end_ sig' (some i) rest
        else .ok sig
      | none => .ok sig
    else resizeLoop start end_ sig (some i) rest

/-- `resize(start, end, fill)`, signal.cc:69-100. -/
def resize [Arith K] (s : Signal K) (start end_ fill : SD K) : Outcome (Signal K) := do
  let sig ← if start.lt s.beginTime then empty.pushBack ⟨start, fill, 0⟩ else .ok empty
  resizeLoop start end_ sig none s.samples

/-- `for (auto& s : sig->samples) { s.time += dt; }`, signal.cc:104, 111. -/
def addTime [Arith K] (s : Signal K) (dt : SD K) : Signal K :=
  ⟨s.samples.map fun a => ⟨a.time + dt, a.value, a.derivative⟩⟩

/-- `shift(dt)`, signal.cc:102-107: the samples are copied by the constructor, then moved. -/
def shift [Arith K] (s : Signal K) (dt : SD K) : Outcome (Signal K) := do
  let sig ← ofSamples s.samples
  return sig.addTime dt

/-- `resize_shift`, signal.cc:109-113. -/
def resizeShift [Arith K] (s : Signal K) (start end_ fill dt : SD K) : Outcome (Signal K) := do
  let out ← s.resize start end_ fill
  return out.addTime dt

end Signal

section synchronize
variable {K : Type} [Field K] [LinearOrder K] [Arith K]

/-- `*std::prev(it)` where `prev` is the element before the iterator, if there is one. -/
def derefPrev (prev : Option (Sample K)) : Outcome (Sample K) :=
  match prev with
  | none => .ub .prevBegin
  | some p => .ok p

/-- Prepend a pair of samples to the results of the rest of the loop. -/
def consPair (a b : Sample K) (r : Outcome (List (Sample K) × List (Sample K))) :
    Outcome (List (Sample K) × List (Sample K)) := do
  let (xv, yv) ← r
  return (a :: xv, b :: yv)

/-- One round of the `while` loop of `synchronize` (signal.cc:143-162) for a fixed `i`, as a
recursion over the rest of `y`; `next` is the rest of the loop after `i++`. -/
def syncInner (next : Option (Sample K) → List (Sample K) →
      Outcome (List (Sample K) × List (Sample K)))
    (pi : Option (Sample K)) (i : Sample K) :
    Option (Sample K) → List (Sample K) → Outcome (List (Sample K) × List (Sample K))
  | _, [] => .ok ([], [])
  | pj, j :: js =>
    if i.time.eq j.time then
      consPair i j (next (some j) js)
    else if i.time.lt j.time then do
      let p ← derefPrev pj
      consPair i (.mk2 i.time (p.interpolate i.time)) (next pj (j :: js))
    else if j.time.lt i.time then do
      let p ← derefPrev pi
      consPair (.mk2 j.time (p.interpolate j.time)) j (syncInner next pi i (some j) js)
    else .diverge

/-- The `while` loop of `synchronize`, signal.cc:143-162.  An iterator is modelled by the element
before it and the list of elements from it on.  The result are the samples appended to `xv`, `yv`.
If none of the three conditions holds (a NaN timestamp) the loop never ends. -/
def syncLoop : Option (Sample K) → List (Sample K) → Option (Sample K) → List (Sample K) →
    Outcome (List (Sample K) × List (Sample K))
  | _, [], _, _ => .ok ([], [])
  | pi, i :: is, pj, js => syncInner (fun pj' js' => syncLoop (some i) is pj' js') pi i pj js

/-- The element before index `n`, if there is one. -/
def prevAt (l : List (Sample K)) (n : Nat) : Option (Sample K) :=
  match n with
  | 0 => none
  | m + 1 => l[m]?

/-- `std::vector::back()` of the result vectors in `synchronize`. -/
def vback (l : List (Sample K)) : Outcome (Sample K) :=
  match l.getLast? with
  | none => .ub .emptyAccess
  | some a => .ok a

/-- The first sample of a result of `synchronize`, signal.cc:131-135 (`x`) and 136-140 (`y`): if the
iterator (`prev`, `rest`) is after `beginTime` and is not `begin()`, the value at `beginTime` is
interpolated.  The derivative is read from `*std::prev(i)` for both (`prevI`; line 139 says `i`, not
`j`).  The head of `rest` is dereferenced without a check. -/
def syncHead (beginTime : SD K) (prev : Option (Sample K)) (rest : List (Sample K))
    (prevI : Option (Sample K)) : Outcome (List (Sample K)) :=
  match rest with
  | [] => .ub .derefEnd
  | a :: _ =>
    if beginTime.lt a.time then
      match prev with
      | none => .ok []
      | some p => do
        let q ← derefPrev prevI
        return [⟨beginTime, p.interpolate beginTime, q.derivative⟩]
    else .ok []

/-- signal.cc:164-170: equalise the ends (`xv.back()`, `yv.back()` of an empty vector is undefined
behaviour), and 172: construct the two signals.  (The order in which the two constructors run is
unspecified in C++; both throw the same exception.) -/
def syncFinish (xv yv : List (Sample K)) : Outcome (Signal K × Signal K) := do
  let xb ← vback xv
  let yb ← vback yv
  let yv := if yb.time.lt xb.time then yv ++ [.mk2 xb.time (yb.interpolate xb.time)] else yv
  let yb ← vback yv
  let xb ← vback xv
  let xv := if xb.time.lt yb.time then xv ++ [.mk2 yb.time (xb.interpolate yb.time)] else xv
  let sx ← Signal.ofSamples xv
  let sy ← Signal.ofSamples yv
  return (sx, sy)

/-- `synchronize(x, y)`, signal.cc:115-173. -/
def synchronize (x y : Signal K) : Outcome (Signal K × Signal K) := do
  let beginTime := SD.max x.beginTime y.beginTime
  let i ← lowerBound (fun a => a.time.lt beginTime) x.samples
  let pi := prevAt x.samples i
  let is := x.samples.drop i
  let xv0 ← syncHead beginTime pi is pi
  let j ← lowerBound (fun a => a.time.lt beginTime) y.samples
  let pj := prevAt y.samples j
  let js := y.samples.drop j
  let yv0 ← syncHead beginTime pj js pi
  let (xs, ys) ← syncLoop pi is pj js
  syncFinish (xv0 ++ xs) (yv0 ++ ys)

end synchronize

variable {K : Type} [Field K] [LinearOrder K] [Arith K]

/-- A comparison of samples (`std::less_equal<>` or `std::greater_equal<>`). -/
abbrev Cmp (K : Type) := Sample K → Sample K → Bool

/-- minmax.cc:42-48 (and, with `x` and `y` exchanged, 52-58): the crossing of the lines through
`*prev(a)` and `*prev(b)` is inserted if it is after the end of `out` and not at the time of the
current sample. `self` is the signal of the last winner. -/
def insertCrossing (out : Signal K) (self point : Option (Sample K)) (curTime : SD K) :
    Outcome (Signal K) := do
  let s ← derefPrev self
  let p ← derefPrev point
  let t := s.timeIntersect p
  if out.endTime.lt t && !t.eq curTime then
    out.pushBack (.mk2 t (s.interpolate t))
  else return out

/-- The loop of `compute_minmax_pair`, minmax.cc:38-62. `pi`, `pj` are the elements before the
iterators. -/
def minmaxPairLoop (comp : Cmp K) :
    Signal K → Chosen → Option (Sample K) → Option (Sample K) →
    List (Sample K) → List (Sample K) → Outcome (Signal K)
  | out, last, pi, pj, i :: is, j :: js =>
    if comp i j then do
      let out ← if last = .Y then insertCrossing out pj pi i.time else .ok out
      let out ← out.pushBack i
      minmaxPairLoop comp out .X (some i) (some j) is js
    else do
      let out ← if last = .X then insertCrossing out pi pj j.time else .ok out
      let out ← out.pushBack j
      minmaxPairLoop comp out .Y (some i) (some j) is js
  | out, _, _, _, _, _ => .ok out

/-- `compute_minmax_pair(input_x, input_y, comp, synchronized)`, minmax.cc:19-65. -/
def minmaxPair (ndebug : Bool) (comp : Cmp K) (inputX inputY : Signal K) (synced : Bool) :
    Outcome (Signal K) := do
  let (x, y) ← if synced then .ok (inputX, inputY) else synchronize inputX inputY
  assert_ ndebug (x.size == y.size)
  assert_ ndebug (x.beginTime.eq y.beginTime)
  assert_ ndebug (x.endTime.eq y.endTime)
  minmaxPairLoop comp Signal.empty .NONE none none x.samples y.samples

/-- `std::accumulate(next(xs.begin()), xs.end(), xs[0], ...)`, minmax.cc:81-87. -/
def minmaxFold (ndebug : Bool) (comp : Cmp K) (synced : Bool) :
    Signal K → List (Signal K) → Outcome (Signal K)
  | acc, [] => .ok acc
  | acc, x :: xs => do
    let acc ← minmaxPair ndebug comp acc x synced
    minmaxFold ndebug comp synced acc xs

/-- `compute_minmax_pair(xs, comp, synchronized)`, minmax.cc:67-89. -/
def minmaxVec (ndebug : Bool) (comp : Cmp K) (xs : List (Signal K)) (synced : Bool) :
    Outcome (Signal K) :=
  match xs with
  | [] => Signal.empty.pushBackTV 0 .ninf
  | [x] => .ok x
  | [x, y] => minmaxPair ndebug comp x y synced
  | x :: rest => minmaxFold ndebug comp synced x rest

/-- The loop of the unbounded `compute_minmax_seq`, minmax.cc:98-101, over the reversed samples:
the samples appended to `z`. -/
def minmaxSeqLoop (comp : Cmp K) : Sample K → List (Sample K) → List (Sample K)
  | _, [] => []
  | opt, i :: rest =>
    let opt' := if comp i opt then i else opt
    Sample.mk2 i.time opt'.value :: minmaxSeqLoop comp opt' rest

/-- `compute_minmax_seq(x, comp)`, minmax.cc:91-105. -/
def minmaxSeq (comp : Cmp K) (x : Signal K) : Outcome (Signal K) := do
  let b ← x.back
  let z := b :: minmaxSeqLoop comp b x.samples.reverse.tail
  Signal.ofSamples z.reverse

/-- minmax.cc:122-126: read the samples before `limit` into the window.  The iterator is not
compared to `end()`.  Returns the iterator (previous element, rest) and the window. -/
def windowFill (comp : Cmp K) (limit : SD K) :
    Option (Sample K) → List (Sample K) → List (Sample K) →
    Outcome (Option (Sample K) × List (Sample K) × List (Sample K))
  | _, [], _ => .ub .derefEnd
  | prev, i :: rest, w =>
    if i.time.lt limit then do
      let w ← monoWedgeUpdate comp w i
      windowFill comp limit (some i) rest w
    else .ok (prev, i :: rest, w)

/-- `while (window.front().time <= bound) { window.pop_front(); }`, minmax.cc:140; `front()` of an
empty deque is undefined behaviour. -/
def popExpired (bound : SD K) : List (Sample K) → Outcome (List (Sample K))
  | [] => .ub .emptyAccess
  | f :: w => if f.time.le bound then popExpired bound w else .ok (f :: w)

/-- The second loop of the windowed `compute_minmax_seq`, minmax.cc:129-142.  A sample may be
inserted before the current one, so the list is not structurally decreasing: `fuel` bounds the
number of rounds. -/
def windowLoop (comp : Cmp K) (a : SD K) :
    Nat → Option (Sample K) → List (Sample K) → List (Sample K) → Signal K → Outcome (Signal K)
  | _, _, [], _, z => .ok z
  | 0, _, _ :: _, _, _ => .diverge
  | fuel + 1, prev, i :: rest, w, z => do
    let f ← vback w.head?.toList
    let ins := f.time.lt (i.time - a)
    let i' ← if ins then
        (derefPrev prev).map' fun p => ⟨f.time + a, p.interpolate (f.time + a), 0⟩
      else .ok i
    let rest' := if ins then i :: rest else rest
    let w ← monoWedgeUpdate comp w i'
    let w ← popExpired (i'.time - a) w
    let z ← z.pushBackTV i'.time i'.value
    windowLoop comp a fuel (some i') rest' w z

/-- `compute_minmax_seq(x, a, b, comp)`, minmax.cc:107-145. -/
def minmaxSeqWindow (fuel : Nat) (comp : Cmp K) (x : Signal K) (a b : SD K) :
    Outcome (Signal K) := do
  let width := b - a
  let beginTime := x.beginTime
  let endTime := x.endTime
  let x' ← if a.eq 0 then .ok x else do
    let back ← x.back
    x.resizeShift (beginTime + width) (endTime + width) back.value (-width)
  let (prev, rest, w) ← windowFill comp (x.beginTime + width) none x'.samples []
  let z ← windowLoop comp a fuel prev rest w Signal.empty
  z.simplify

/-- `compute_elementwise_min(xs)`, minmax.cc:157-159 (`synchronized` defaults to false). -/
def elementwiseMin (ndebug : Bool) (xs : List (Signal K)) : Outcome (Signal K) :=
  minmaxVec ndebug Sample.le xs false

/-- `compute_elementwise_max(xs)`, minmax.cc:161-163. -/
def elementwiseMax (ndebug : Bool) (xs : List (Signal K)) : Outcome (Signal K) :=
  minmaxVec ndebug Sample.ge xs false

/-- `compute_max_seq(x)`, minmax.cc:165-167. -/
def maxSeq (x : Signal K) : Outcome (Signal K) := minmaxSeq Sample.ge x

/-- `compute_min_seq(x)`, minmax.cc:169-171. -/
def minSeq (x : Signal K) : Outcome (Signal K) := minmaxSeq Sample.le x

/-- `compute_max_seq(x, a, b)`, minmax.cc:173-175. -/
def maxSeqWindow (fuel : Nat) (x : Signal K) (a b : SD K) : Outcome (Signal K) :=
  minmaxSeqWindow fuel Sample.ge x a b

/-- `compute_min_seq(x, a, b)`, minmax.cc:177-179. -/
def minSeqWindow (fuel : Nat) (x : Signal K) (a b : SD K) : Outcome (Signal K) :=
  minmaxSeqWindow fuel Sample.le x a b

/-- `Interval` with the sign bits of its bounds (if a bound is an integer the bit should be clear; nothing depends on
it). -/
structure Interval (K : Type) where
  bounds : Verif.Interval K
  lowNeg : Bool
  highNeg : Bool

/-- `as_double()`, ast.hpp:169-183. -/
def Interval.asDouble {K : Type} [Field K] [LinearOrder K] [Arith K] (i : Interval K) : SD K × SD K :=
  (⟨i.bounds.asDouble.1, i.lowNeg⟩, ⟨i.bounds.asDouble.2, i.highNeg⟩)

/-- `has_value()`, ast.hpp:198-200. -/
def Interval.hasValue {K : Type} [Field K] [LinearOrder K] [Arith K] (i : Interval K) : Bool := i.bounds.hasValue

/-- `ast::Expr`, ast.hpp:42-136, 203-232. -/
inductive Expr (K : Type) where
  | const (value : Bool)
  | pred (name : String) (op : ComparisonOp) (rhs : SD K)
  | not (arg : Expr K)
  | and (args : List (Expr K))
  | or (args : List (Expr K))
  | always (arg : Expr K) (interval : Interval K)
  | eventually (arg : Expr K) (interval : Interval K)
  | untl (arg0 arg1 : Expr K) (interval : Interval K)

/-- `using Trace = std::map<std::string, SignalPtr>`, signal.hpp:263: an association list in key
order.  Pointers are assumed to be non-null. -/
abbrev Trace (K : Type) := List (String × Signal K)

/-- `trace.at(name)`: throws `std::out_of_range` if the key is missing. -/
def Trace.at_ (trace : Trace K) (name : String) : Outcome (Signal K) :=
  match trace.lookup name with
  | none => .throw .outOfRange
  | some x => .ok x

/-- The loop of the unbounded `compute_until`, classic_robustness.cc:44-50, over the reversed
samples; `prev`, `maxRight` are the running values; the result are the samples pushed. -/
def untilLoop : SD K → SD K → List (Sample K) → List (Sample K) → List (Sample K)
  | prev, maxRight, i :: is, j :: js =>
    let maxRight := SD.max maxRight j.value
    -- std::max({a, b, c}) is the first largest element
    let prev := SD.max (SD.max j.value (SD.min i.value prev)) (-maxRight)
    Sample.mk2 i.time prev :: untilLoop prev maxRight is js
  | _, _, _, _ => []

/-- `compute_until(x, y)`, classic_robustness.cc:31-54. -/
def computeUntil (ndebug : Bool) (inputX inputY : Signal K) : Outcome (Signal K) := do
  let (x, y) ← synchronize inputX inputY
  assert_ ndebug (x.size == y.size)
  assert_ ndebug (x.beginTime.eq y.beginTime)
  assert_ ndebug (x.endTime.eq y.endTime)
  Signal.ofSamples (untilLoop .pinf .ninf x.samples.reverse y.samples.reverse).reverse

/-- Bounded `compute_until`, classic_robustness.cc:56-58. -/
def computeUntilBounded (_ _ : Signal K) (_ _ : SD K) : Outcome (Signal K) := .throw .notImplemented

/-- `struct RobustnessOp`, classic_robustness.cc:60-63 (plus the build flag and the fuel of the
windowed loop). -/
structure RobustnessOp (K : Type) where
  ndebug : Bool
  fuel : Nat
  minTime : SD K
  maxTime : SD K
  trace : Trace K

namespace RobustnessOp

/-- `RobustnessOp::operator()(Const)`, classic_robustness.cc:107-111. -/
def const (r : RobustnessOp K) (b : Bool) : Outcome (Signal K) :=
  let val : SD K := if b then .pinf else .ninf
  Signal.ofSamples [⟨r.minTime, val, 0⟩, ⟨r.maxTime, val, 0⟩]

/-- The `switch` of classic_robustness.cc:119-128. -/
def predValue (op : ComparisonOp) (rhs v : SD K) : SD K :=
  match op with
  | .GE => v - rhs
  | .GT => v - rhs
  | .LE => rhs - v
  | .LT => rhs - v

/-- `RobustnessOp::operator()(Predicate)`, classic_robustness.cc:113-131. -/
def pred (r : RobustnessOp K) (name : String) (op : ComparisonOp) (rhs : SD K) :
    Outcome (Signal K) := do
  let x ← r.trace.at_ name
  Signal.ofSamples (x.samples.map fun s => ⟨s.time, predValue op rhs s.value, 0⟩)

/-- classic_robustness.cc:134-138: negate all samples. -/
def negate (x : Signal K) : Outcome (Signal K) := Signal.ofSamples (x.samples.map Sample.neg)

/-- classic_robustness.cc:165-178 (Eventually) and 183-196 (Always): the choice of the algorithm
depending on the interval.  Note that line 165 calls the unbounded version if `has_value()` is
*false*. -/
def temporal (r : RobustnessOp K) (comp : Cmp K) (y : Signal K) (i : Interval K) :
    Outcome (Signal K) :=
  if !i.hasValue then minmaxSeq comp y
  else
    let (a, b) := i.asDouble
    if (b - a).lt 0 then .throw .logicError
    else if (b - a).eq 0 then .ok y
    else if (y.endTime - y.beginTime).le (b - a) then minmaxSeq comp y
    else minmaxSeqWindow r.fuel comp y a b

/-- classic_robustness.cc:202-211: the choice of the algorithm for Until. -/
def untilOp (r : RobustnessOp K) (y1 y2 : Signal K) (i : Interval K) : Outcome (Signal K) :=
  if !i.hasValue then computeUntil r.ndebug y1 y2
  else
    let (a, b) := i.asDouble
    if b.isinf && a.eq 0 then computeUntil r.ndebug y1 y2
    else computeUntilBounded y1 y2 a b

mutual

/-- `compute(phi, rob)`, classic_robustness.cc:77-79: dispatch on the node, with the bodies of
lines 107-212. -/
def compute (r : RobustnessOp K) : Expr K → Outcome (Signal K)
  | .const b => r.const b
  | .pred name op rhs => r.pred name op rhs
  | .not e => do
    let x ← compute r e
    negate x
  | .and args => do
    let ys ← computeArgs r args
    assert_ r.ndebug (ys.length == args.length)
    elementwiseMin r.ndebug ys
  | .or args => do
    let ys ← computeArgs r args
    assert_ r.ndebug (ys.length == args.length)
    elementwiseMax r.ndebug ys
  | .always e i => do
    let y ← compute r e
    temporal r Sample.le y i
  | .eventually e i => do
    let y ← compute r e
    temporal r Sample.ge y i
  | .untl e1 e2 i => do
    let y1 ← compute r e1
    let y2 ← compute r e2
    untilOp r y1 y2 i

/-- `std::transform` over the operands, classic_robustness.cc:144-147, 155-158. -/
def computeArgs (r : RobustnessOp K) : List (Expr K) → Outcome (List (Signal K))
  | [] => .ok []
  | e :: es => do
    let y ← compute r e
    let ys ← computeArgs r es
    return y :: ys

end

end RobustnessOp

/-- `MinMaxTime`, classic_robustness.cc:85-98: smallest begin time and largest end time. -/
def minMaxTime (trace : Trace K) : SD K × SD K :=
  trace.foldl (fun acc e => (SD.min acc.1 e.2.beginTime, SD.max acc.2 e.2.endTime)) (.pinf, .ninf)

/-- `compute_robustness(phi, trace, synchronized)`, classic_robustness.cc:83-105.  The flag is
ignored by the code.  `ndebug`: is `NDEBUG` defined; `fuel`: bound on the rounds of the windowed
loop. -/
def computeRobustness (ndebug : Bool) (fuel : Nat) (phi : Expr K) (trace : Trace K)
    (_synchronized : Bool) : Outcome (Signal K) :=
  let mm := minMaxTime trace
  RobustnessOp.compute ⟨ndebug, fuel, mm.1, mm.2, trace⟩ phi

end Signed
end Verif
