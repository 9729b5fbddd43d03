import Verif.Model.Num
import Verif.Model.Search

/-!
# Model of `src/include/signal_tl/signal.hpp` and `src/core/signal.cc`
-/

namespace Verif

/-- `struct Sample`, signal.hpp:19-22. -/
structure Sample (K : Type) where
  time : D K
  value : D K
  derivative : D K
  deriving DecidableEq, Repr

namespace Sample
variable {K : Type} [Field K] [LinearOrder K]

/-- `Sample{t, v}`: the derivative defaults to 0.0 (signal.hpp:22). -/
def mk2 (t v : D K) : Sample K := ⟨t, v, 0⟩

/-- `Sample::interpolate`, signal.hpp:27-29. -/
def interpolate [Arith K] (s : Sample K) (t : D K) : D K :=
  s.value + s.derivative * (t - s.time)

/-- `Sample::time_intersect`, signal.hpp:35-39. -/
def timeIntersect [Arith K] (s point : Sample K) : D K :=
  (s.value - point.value + (point.derivative * point.time) - (s.derivative * s.time)) /
    (point.derivative - s.derivative)

/-- `Sample::area`, signal.hpp:41-47. -/
def area [Arith K] (s : Sample K) (t : D K) : D K :=
  if s.time.lt t then (s.value + s.interpolate t) * (t - s.time) / .fin 2 else 0

/-- `operator<`, signal.hpp:51-53: compares values. -/
def lt (a b : Sample K) : Bool := a.value.lt b.value
/-- `operator>`, signal.hpp:54-56. -/
def gt (a b : Sample K) : Bool := lt b a
/-- `operator<=`, signal.hpp:57-59: the negation of `>` (so true if one value is NaN). -/
def le (a b : Sample K) : Bool := !gt a b
/-- `operator>=`, signal.hpp:60-62: the negation of `<`. -/
def ge (a b : Sample K) : Bool := !lt a b
/-- Unary `operator-`, signal.hpp:64-66. -/
def neg (s : Sample K) : Sample K := ⟨s.time, -s.value, -s.derivative⟩

end Sample

/-- `struct Signal`, signal.hpp:71-73: a vector of samples. -/
structure Signal (K : Type) where
  samples : List (Sample K)
  deriving DecidableEq, Repr

namespace Signal
variable {K : Type} [Field K] [LinearOrder K]

/-- `Signal()`, signal.hpp:207. -/
def empty : Signal K := ⟨[]⟩

/-- `size()`, signal.hpp:172-174. -/
def size (s : Signal K) : Nat := s.samples.length

/-- `begin_time()`, signal.hpp:76-78. -/
def beginTime (s : Signal K) : D K :=
  match s.samples.head? with
  | none => 0
  | some a => a.time

/-- `end_time()`, signal.hpp:80-82. -/
def endTime (s : Signal K) : D K :=
  match s.samples.getLast? with
  | none => 0
  | some a => a.time

/-- `back()`, signal.hpp:100-102; `std::vector::back` of an empty vector is undefined. -/
def back (s : Signal K) : Outcome (Sample K) :=
  match s.samples.getLast? with
  | none => .ub .emptyAccess
  | some a => .ok a

/-- `front()`, signal.hpp:96-98. -/
def front (s : Signal K) : Outcome (Sample K) :=
  match s.samples.head? with
  | none => .ub .emptyAccess
  | some a => .ok a

/-- `at_idx(i)`, signal.hpp:104-106: `std::vector::at` checks bounds. -/
def atIdx (s : Signal K) (i : Nat) : Outcome (Sample K) :=
  match s.samples[i]? with
  | none => .throw .outOfRange
  | some a => .ok a

/-- `interpolate(t, idx)`, signal.hpp:84-86. -/
def interpolateIdx [Arith K] (s : Signal K) (t : D K) (i : Nat) : Outcome (D K) := do
  let a ← s.atIdx i
  return a.interpolate t

/-- `time_intersect(point, idx)`, signal.hpp:88-90. -/
def timeIntersectIdx [Arith K] (s : Signal K) (p : Sample K) (i : Nat) : Outcome (D K) := do
  let a ← s.atIdx i
  return a.timeIntersect p

/-- `area(t, idx)`, signal.hpp:92-94. -/
def areaIdx [Arith K] (s : Signal K) (t : D K) (i : Nat) : Outcome (D K) := do
  let a ← s.atIdx i
  return a.area t

/-- `at(t)`, signal.cc:14-29.  The result of `lower_bound` is dereferenced without a check. -/
def at_ [Arith K] (s : Signal K) (t : D K) : Outcome (Sample K) :=
  if t.lt s.beginTime && s.endTime.lt t then .throw .invalidArgument
  else do
    let i ← lowerBound (fun a => a.time.lt t) s.samples
    match s.samples[i]? with
    | none => .ub .derefEnd
    | some it =>
      if it.time.eq t then return it
      else return ⟨t, it.interpolate t, it.derivative⟩

/-- `begin_at(s)`, signal.hpp:133-141; an iterator is modelled by its index. -/
def beginAt (s : Signal K) (t : D K) : Outcome Nat :=
  if t.le s.beginTime then .ok 0
  else lowerBound (fun a => a.time.lt t) s.samples

/-- `end_at(t)`, signal.hpp:147-156.  The loop starts at `end()` and evaluates `it->time` there, so
reaching it is undefined behaviour. -/
def endAt (s : Signal K) (t : D K) : Outcome Nat :=
  if s.endTime.le t then .ok s.size
  else .ub .derefEnd

/-- `push_back(Sample)`, signal.cc:31-48. -/
def pushBack [Arith K] (s : Signal K) (x : Sample K) : Outcome (Signal K) :=
  match s.samples.getLast? with
  | none => .ok ⟨[⟨x.time, x.value, 0⟩]⟩
  | some last =>
    if x.time.le s.endTime then .throw .invalidArgument
    else
      let d := (x.value - last.value) / (x.time - last.time)
      .ok ⟨s.samples.dropLast ++ [⟨last.time, last.value, d⟩, ⟨x.time, x.value, 0⟩]⟩

/-- `push_back(Sample)`, signal.cc:31-48, as a transformation of the object: the state of the signal
after the call, and how the call ended.  The statements are executed in the order of the source, each
on the state left by the previous one. -/
def pushBackStep [Arith K] (s : Signal K) (x : Sample K) : Signal K × Outcome Unit :=
  let append (s : Signal K) : Signal K := ⟨s.samples ++ [⟨x.time, x.value, 0⟩]⟩
  match s.samples.getLast? with
  | none => (append s, .ok ())
  | some last =>
    if x.time.le s.endTime then (s, .throw .invalidArgument)
    else
      let d := (x.value - last.value) / (x.time - last.time)
      let s' : Signal K := ⟨s.samples.dropLast ++ [{ last with derivative := d }]⟩
      (append s', .ok ())

/-- The signal after a sequence of `push_back(time, value)` calls by a client that catches the
exceptions. -/
def history [Arith K] (ops : List (D K × D K)) : Signal K :=
  ops.foldl (fun s p => (s.pushBackStep ⟨p.1, p.2, 0⟩).1) empty

/-- `push_back(time, value)`, signal.cc:50-52. -/
def pushBackTV [Arith K] (s : Signal K) (t v : D K) : Outcome (Signal K) :=
  s.pushBack ⟨t, v, 0⟩

/-- A sequence of `push_back`s; the first exception ends it. -/
def pushAll [Arith K] (s : Signal K) : List (Sample K) → Outcome (Signal K)
  | [] => .ok s
  | x :: xs => do
    let s' ← s.pushBack x
    pushAll s' xs

/-- `Signal(const T& data)`, signal.hpp:217-224: push the samples one after the other. -/
def ofSamples [Arith K] (xs : List (Sample K)) : Outcome (Signal K) := pushAll empty xs

/-- `Signal(const Signal&)`, signal.hpp:209-212. -/
def copy [Arith K] (s : Signal K) : Outcome (Signal K) := ofSamples s.samples

/-- `Signal(points, times)`, signal.hpp:229-238. -/
def ofPoints [Arith K] (points times : List (D K)) : Outcome (Signal K) :=
  if points.length ≠ times.length then .throw .invalidArgument
  else ofSamples ((times.zip points).map fun p => ⟨p.1, p.2, 0⟩)

/-- The loop of `simplify()`, signal.cc:56-62: `sig` is the result so far. -/
def simplifyLoop [Arith K] (sig : Signal K) : List (Sample K) → Outcome (Signal K)
  | [] => .ok sig
  | s :: rest => do
    match sig.samples.getLast? with
    | none =>
      let sig' ← sig.pushBack s
      simplifyLoop sig' rest
    | some b =>
      if !(b.interpolate s.time).eq s.value || !b.derivative.eq s.derivative then
        let sig' ← sig.pushBack s
        simplifyLoop sig' rest
      else simplifyLoop sig rest

/-- `simplify()`, signal.cc:54-67. -/
def simplify [Arith K] (s : Signal K) : Outcome (Signal K) := do
  let sig ← simplifyLoop empty s.samples
  if !s.endTime.eq sig.endTime then
    let b ← s.back
    sig.pushBack b
  else return sig

/-- The loop of `resize`, signal.cc:78-97.  `prev` is `std::prev(i)` (if `i` is not `begin()`), the
list starts at `*i`, so `std::next(i)` is the head of its tail. -/
def resizeLoop [Arith K] (start end_ : D K) :
    Signal K → Option (Sample K) → List (Sample K) → Outcome (Signal K)
  | sig, _, [] => .ok sig
  | sig, prev, i :: rest =>
    let nextAfterStart := match rest with
      | [] => false
      | n :: _ => start.lt n.time
    if nextAfterStart then do
      let sig' ← sig.pushBack (.mk2 start (i.interpolate start))
      resizeLoop start end_ sig' (some i) rest
    else if start.le i.time && i.time.le end_ then do
      let sig' ← sig.pushBack i
      resizeLoop start end_ sig' (some i) rest
    else if end_.lt i.time then
      match prev with
      | some p =>
        if p.time.lt end_ then do
          let sig' ← sig.pushBack (.mk2 end_ (p.interpolate end_))
          resizeLoop start end_ sig' (some i) rest
        else .ok sig
      | none => .ok sig
    else resizeLoop start end_ sig (some i) rest

/-- `resize(start, end, fill)`, signal.cc:69-100. -/
def resize [Arith K] (s : Signal K) (start end_ fill : D K) : Outcome (Signal K) := do
  let sig ← if start.lt s.beginTime then empty.pushBack ⟨start, fill, 0⟩ else .ok empty
  resizeLoop start end_ sig none s.samples

/-- `for (auto& s : sig->samples) { s.time += dt; }`, signal.cc:104, 111. -/
def addTime [Arith K] (s : Signal K) (dt : D K) : Signal K :=
  ⟨s.samples.map fun a => ⟨a.time + dt, a.value, a.derivative⟩⟩

/-- `shift(dt)`, signal.cc:102-107: the samples are copied by the constructor, then moved. -/
def shift [Arith K] (s : Signal K) (dt : D K) : Outcome (Signal K) := do
  let sig ← ofSamples s.samples
  return sig.addTime dt

/-- `resize_shift`, signal.cc:109-113. -/
def resizeShift [Arith K] (s : Signal K) (start end_ fill dt : D K) : Outcome (Signal K) := do
  let out ← s.resize start end_ fill
  return out.addTime dt

end Signal

section synchronize
variable {K : Type} [Field K] [LinearOrder K] [Arith K]

/-- `*std::prev(it)` where `prev` is the element before the iterator, if there is one. -/
def derefPrev (prev : Option (Sample K)) : Outcome (Sample K) :=
  match prev with
  | none => .ub .prevBegin
  | some p => .ok p

/-- Prepend a pair of samples to the results of the rest of the loop. -/
def consPair (a b : Sample K) (r : Outcome (List (Sample K) × List (Sample K))) :
    Outcome (List (Sample K) × List (Sample K)) := do
  let (xv, yv) ← r
  return (a :: xv, b :: yv)

/-- One round of the `while` loop of `synchronize` (signal.cc:143-162) for a fixed `i`, as a
recursion over the rest of `y`; `next` is the rest of the loop after `i++`. -/
def syncInner (next : Option (Sample K) → List (Sample K) →
      Outcome (List (Sample K) × List (Sample K)))
    (pi : Option (Sample K)) (i : Sample K) :
    Option (Sample K) → List (Sample K) → Outcome (List (Sample K) × List (Sample K))
  | _, [] => .ok ([], [])
  | pj, j :: js =>
    if i.time.eq j.time then
      consPair i j (next (some j) js)
    else if i.time.lt j.time then do
      let p ← derefPrev pj
      consPair i (.mk2 i.time (p.interpolate i.time)) (next pj (j :: js))
    else if j.time.lt i.time then do
      let p ← derefPrev pi
      consPair (.mk2 j.time (p.interpolate j.time)) j (syncInner next pi i (some j) js)
    else .diverge

/-- The `while` loop of `synchronize`, signal.cc:143-162.  An iterator is modelled by the element
before it and the list of elements from it on.  The result are the samples appended to `xv`, `yv`.
If none of the three conditions holds (a NaN timestamp) the loop never ends. -/
def syncLoop : Option (Sample K) → List (Sample K) → Option (Sample K) → List (Sample K) →
    Outcome (List (Sample K) × List (Sample K))
  | _, [], _, _ => .ok ([], [])
  | pi, i :: is, pj, js => syncInner (fun pj' js' => syncLoop (some i) is pj' js') pi i pj js

/-- The element before index `n`, if there is one. -/
def prevAt (l : List (Sample K)) (n : Nat) : Option (Sample K) :=
  match n with
  | 0 => none
  | m + 1 => l[m]?

/-- `std::vector::back()` of the result vectors in `synchronize`. -/
def vback (l : List (Sample K)) : Outcome (Sample K) :=
  match l.getLast? with
  | none => .ub .emptyAccess
  | some a => .ok a

/-- The first sample of a result of `synchronize`, signal.cc:131-135 (`x`) and 136-140 (`y`): if the
iterator (`prev`, `rest`) is after `beginTime` and is not `begin()`, the value at `beginTime` is
interpolated.  The derivative is read from `*std::prev(i)` for both (`prevI`; line 139 says `i`, not
`j`).  The head of `rest` is dereferenced without a check. -/
def syncHead (beginTime : D K) (prev : Option (Sample K)) (rest : List (Sample K))
    (prevI : Option (Sample K)) : Outcome (List (Sample K)) :=
  match rest with
  | [] => .ub .derefEnd
  | a :: _ =>
    if beginTime.lt a.time then
      match prev with
      | none => .ok []
      | some p => do
        let q ← derefPrev prevI
        return [⟨beginTime, p.interpolate beginTime, q.derivative⟩]
    else .ok []

/-- signal.cc:164-170: equalise the ends (`xv.back()`, `yv.back()` of an empty vector is undefined
behaviour), and 172: construct the two signals.  (The order in which the two constructors run is
unspecified in C++; both throw the same exception.) -/
def syncFinish (xv yv : List (Sample K)) : Outcome (Signal K × Signal K) := do
  let xb ← vback xv
  let yb ← vback yv
  let yv := if yb.time.lt xb.time then yv ++ [.mk2 xb.time (yb.interpolate xb.time)] else yv
  let yb ← vback yv
  let xb ← vback xv
  let xv := if xb.time.lt yb.time then xv ++ [.mk2 yb.time (xb.interpolate yb.time)] else xv
  let sx ← Signal.ofSamples xv
  let sy ← Signal.ofSamples yv
  return (sx, sy)

/-- `synchronize(x, y)`, signal.cc:115-173. -/
def synchronize (x y : Signal K) : Outcome (Signal K × Signal K) := do
  let beginTime := D.max x.beginTime y.beginTime
  let i ← lowerBound (fun a => a.time.lt beginTime) x.samples
  let pi := prevAt x.samples i
  let is := x.samples.drop i
  let xv0 ← syncHead beginTime pi is pi
  let j ← lowerBound (fun a => a.time.lt beginTime) y.samples
  let pj := prevAt y.samples j
  let js := y.samples.drop j
  let yv0 ← syncHead beginTime pj js pi
  let (xs, ys) ← syncLoop pi is pj js
  syncFinish (xv0 ++ xs) (yv0 ++ ys)

end synchronize

end Verif
