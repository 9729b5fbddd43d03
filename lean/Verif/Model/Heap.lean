import Verif.Model.Robustness

/-!
# Signals in memory: the operations on `SignalPtr`

In the other files a `SignalPtr` is the signal it points to.  Here it is an address (or null), signals are objects in a
memory, and the operations of `signal.cc`, `minmax.cc` and `classic_robustness.cc` create and change these objects.
The memory is part of the result of a call also if the call throws.

A loop that reads a signal and writes to another one holds iterators into the first; each use of an iterator is checked
(`still`): it is undefined behaviour if the signal it belongs to has been changed.  Local vectors and deques are values.
Objects are never freed (a `shared_ptr` keeps its object alive).
-/

namespace Verif

/-- `std::shared_ptr<Signal>`: null or an address. -/
abbrev Ptr := Option Nat

/-- The objects created so far; the address is the index. -/
abbrev Heap (K : Type) := List (Signal K)

/-- A computation with memory: how it ends, and the memory afterwards. -/
def Mem (K α : Type) := Heap K → Outcome α × Heap K

namespace Mem
variable {K α β : Type}

/-- Sequencing. -/
def bind (m : Mem K α) (f : α → Mem K β) : Mem K β := fun h =>
  match m h with
  | (.ok a, h') => f a h'
  | (.throw e, h') => (.throw e, h')
  | (.abort, h') => (.abort, h')
  | (.ub u, h') => (.ub u, h')
  | (.diverge, h') => (.diverge, h')

instance : Monad (Mem K) where
  pure a := fun h => (.ok a, h)
  bind := bind

/-- Something that does not touch the memory. -/
def lift (o : Outcome α) : Mem K α := fun h => (o, h)

section
variable [Field K] [LinearOrder K]

/-- `std::make_shared<Signal>()`. -/
def alloc : Mem K Ptr := fun h => (.ok (some h.length), h ++ [Signal.empty])

/-- `*p`. -/
def deref (p : Ptr) : Mem K (Signal K) := fun h =>
  match p with
  | none => (.ub .nullPointer, h)
  | some n =>
    match h[n]? with
    | none => (.ub .nullPointer, h)
    | some s => (.ok s, h)

/-- The use of an iterator into `*p` that was created when the signal was `s`. -/
def still (p : Ptr) (s : Signal K) : Mem K Unit := fun h =>
  match deref p h with
  | (.ok s', h') => if s' = s then (.ok (), h') else (.ub .invalidIterator, h')
  | (_, h') => (.ub .invalidIterator, h')

/-- `p->push_back(x)`, signal.cc:31-48. -/
def pushBack [Arith K] (p : Ptr) (x : Sample K) : Mem K Unit := fun h =>
  match p with
  | none => (.ub .nullPointer, h)
  | some n =>
    match h[n]? with
    | none => (.ub .nullPointer, h)
    | some s => ((s.pushBackStep x).2, h.set n (s.pushBackStep x).1)

/-- `p->push_back` for the samples of a local vector. -/
def pushAll [Arith K] (p : Ptr) : List (Sample K) → Mem K Unit
  | [] => pure ()
  | x :: xs => do
    pushBack p x
    pushAll p xs

/-- `std::make_shared<Signal>(v)` for a local vector `v`, signal.hpp:217-224.  (If a `push_back` throws, the unfinished
object is destroyed; here it stays in the memory, where no pointer leads to it.) -/
def make [Arith K] (v : List (Sample K)) : Mem K Ptr := do
  let p ← alloc
  pushAll p v
  return p

/-- `if (c) { m }`. -/
def onlyIf (c : Bool) (m : Mem K Unit) : Mem K Unit := if c then m else pure ()

/-- The loop of the copy constructor and of `Signal(const T&)` for `x->samples`, signal.hpp:209-224: an iterator runs
over `*x`. -/
def copyLoop [Arith K] (x : Ptr) (s : Signal K) (p : Ptr) : List (Sample K) → Mem K Unit
  | [] => pure ()
  | a :: rest => do
    still x s
    pushBack p a
    copyLoop x s p rest

/-- `std::make_shared<Signal>(x->samples)`, signal.cc:103, and the copy constructor. -/
def copy [Arith K] (x : Ptr) : Mem K Ptr := do
  let s ← deref x
  let p ← alloc
  copyLoop x s p s.samples
  return p

/-- The loop of `simplify`, signal.cc:56-62. -/
def simplifyLoop [Arith K] (x : Ptr) (s : Signal K) (sig : Ptr) : List (Sample K) → Mem K Unit
  | [] => pure ()
  | a :: rest => do
    still x s
    let cur ← deref sig
    match cur.samples.getLast? with
    | none => do
      pushBack sig a
      simplifyLoop x s sig rest
    | some b =>
      if !(b.interpolate a.time).eq a.value || !b.derivative.eq a.derivative then do
        pushBack sig a
        simplifyLoop x s sig rest
      else simplifyLoop x s sig rest

/-- `x->simplify()`, signal.cc:54-67. -/
def simplify [Arith K] (x : Ptr) : Mem K Ptr := do
  let s ← deref x
  let sig ← alloc
  simplifyLoop x s sig s.samples
  let cur ← deref sig
  onlyIf (!s.endTime.eq cur.endTime) do
    let b ← lift s.back
    pushBack sig b
  return sig

/-- The loop of `resize`, signal.cc:78-97. -/
def resizeLoop [Arith K] (x : Ptr) (s : Signal K) (start end_ : D K) (sig : Ptr) :
    Option (Sample K) → List (Sample K) → Mem K Unit
  | _, [] => pure ()
  | prev, i :: rest => do
    still x s
    let nextAfterStart := match rest with
      | [] => false
      | n :: _ => start.lt n.time
    if nextAfterStart then do
      pushBack sig (.mk2 start (i.interpolate start))
      resizeLoop x s start end_ sig (some i) rest
    else if start.le i.time && i.time.le end_ then do
      pushBack sig i
      resizeLoop x s start end_ sig (some i) rest
    else if end_.lt i.time then
      match prev with
      | some p =>
        if p.time.lt end_ then do
          pushBack sig (.mk2 end_ (p.interpolate end_))
          resizeLoop x s start end_ sig (some i) rest
        else pure ()
      | none => pure ()
    else resizeLoop x s start end_ sig (some i) rest

/-- `x->resize(start, end, fill)`, signal.cc:69-100. -/
def resize [Arith K] (x : Ptr) (start end_ fill : D K) : Mem K Ptr := do
  let s ← deref x
  let sig ← alloc
  onlyIf (start.lt s.beginTime) (pushBack sig ⟨start, fill, 0⟩)
  resizeLoop x s start end_ sig none s.samples
  return sig

/-- `for (auto& s : p->samples) { s.time += dt; }`, signal.cc:104, 111: changes the object. -/
def addTime [Arith K] (p : Ptr) (dt : D K) : Mem K Unit := fun h =>
  match p with
  | none => (.ub .nullPointer, h)
  | some n =>
    match h[n]? with
    | none => (.ub .nullPointer, h)
    | some s => (.ok (), h.set n (s.addTime dt))

/-- `x->shift(dt)`, signal.cc:102-107. -/
def shift [Arith K] (x : Ptr) (dt : D K) : Mem K Ptr := do
  let sig ← copy x
  addTime sig dt
  return sig

/-- `x->resize_shift(start, end, fill, dt)`, signal.cc:109-113. -/
def resizeShift [Arith K] (x : Ptr) (start end_ fill dt : D K) : Mem K Ptr := do
  let out ← resize x start end_ fill
  addTime out dt
  return out

/-- The vectors `xv` and `yv` of `synchronize`, signal.cc:116-170. -/
def syncVectors [Arith K] (x y : Signal K) : Outcome (List (Sample K) × List (Sample K)) := do
  let beginTime := D.max x.beginTime y.beginTime
  let i ← lowerBound (fun a => a.time.lt beginTime) x.samples
  let pi := prevAt x.samples i
  let is := x.samples.drop i
  let xv0 ← syncHead beginTime pi is pi
  let j ← lowerBound (fun a => a.time.lt beginTime) y.samples
  let pj := prevAt y.samples j
  let js := y.samples.drop j
  let yv0 ← syncHead beginTime pj js pi
  let (xs, ys) ← syncLoop pi is pj js
  let xv := xv0 ++ xs
  let yv := yv0 ++ ys
  let xb ← vback xv
  let yb ← vback yv
  let yv := if yb.time.lt xb.time then yv ++ [.mk2 xb.time (yb.interpolate xb.time)] else yv
  let yb ← vback yv
  let xb ← vback xv
  let xv := if xb.time.lt yb.time then xv ++ [.mk2 yb.time (xb.interpolate yb.time)] else xv
  return (xv, yv)

/-- `synchronize(x, y)`, signal.cc:115-173. -/
def synchronize [Arith K] (x y : Ptr) : Mem K (Ptr × Ptr) := do
  let sx ← deref x
  let sy ← deref y
  let (xv, yv) ← lift (syncVectors sx sy)
  let px ← make xv
  let py ← make yv
  return (px, py)

/-- minmax.cc:42-48, 52-58. -/
def insertCrossing [Arith K] (out : Ptr) (self point : Option (Sample K)) (curTime : D K) : Mem K Unit := do
  let s ← lift (derefPrev self)
  let p ← lift (derefPrev point)
  let t := s.timeIntersect p
  let cur ← deref out
  onlyIf (cur.endTime.lt t && !t.eq curTime) (pushBack out (.mk2 t (s.interpolate t)))

/-- The loop of `compute_minmax_pair`, minmax.cc:38-62. -/
def minmaxPairLoop [Arith K] (comp : Cmp K) (x y : Ptr) (sx sy : Signal K) (out : Ptr) :
    Chosen → Option (Sample K) → Option (Sample K) → List (Sample K) → List (Sample K) → Mem K Unit
  | last, pi, pj, i :: is, j :: js => do
    still x sx
    still y sy
    if comp i j then do
      onlyIf (last = .Y) (insertCrossing out pj pi i.time)
      pushBack out i
      minmaxPairLoop comp x y sx sy out .X (some i) (some j) is js
    else do
      onlyIf (last = .X) (insertCrossing out pi pj j.time)
      pushBack out j
      minmaxPairLoop comp x y sx sy out .Y (some i) (some j) is js
  | _, _, _, _, _ => pure ()

/-- `compute_minmax_pair(input_x, input_y, comp, synchronized)`, minmax.cc:19-65. -/
def minmaxPair [Arith K] (ndebug : Bool) (comp : Cmp K) (inputX inputY : Ptr) (synced : Bool) : Mem K Ptr := do
  let (x, y) ← (if synced then pure (inputX, inputY) else synchronize inputX inputY)
  let sx ← deref x
  let sy ← deref y
  lift (assert_ ndebug (sx.size == sy.size))
  lift (assert_ ndebug (sx.beginTime.eq sy.beginTime))
  lift (assert_ ndebug (sx.endTime.eq sy.endTime))
  let out ← alloc
  minmaxPairLoop comp x y sx sy out .NONE none none sx.samples sy.samples
  return out

/-- `std::accumulate`, minmax.cc:81-87. -/
def minmaxFold [Arith K] (ndebug : Bool) (comp : Cmp K) (synced : Bool) : Ptr → List Ptr → Mem K Ptr
  | acc, [] => pure acc
  | acc, x :: xs => do
    let acc ← minmaxPair ndebug comp acc x synced
    minmaxFold ndebug comp synced acc xs

/-- `compute_minmax_pair(xs, comp, synchronized)`, minmax.cc:67-89: a vector of one pointer gives that pointer. -/
def minmaxVec [Arith K] (ndebug : Bool) (comp : Cmp K) (xs : List Ptr) (synced : Bool) : Mem K Ptr :=
  match xs with
  | [] => do
    let out ← alloc
    pushBack out ⟨0, .ninf, 0⟩
    return out
  | [x] => pure x
  | [x, y] => minmaxPair ndebug comp x y synced
  | x :: rest => minmaxFold ndebug comp synced x rest

/-- `compute_minmax_seq(x, comp)`, minmax.cc:91-105. -/
def minmaxSeq [Arith K] (comp : Cmp K) (x : Ptr) : Mem K Ptr := do
  let s ← deref x
  let b ← lift s.back
  make (b :: minmaxSeqLoop comp b s.samples.reverse.tail).reverse

/-- The second loop of the windowed `compute_minmax_seq`, minmax.cc:129-142; `samples` and `window` are local. -/
def windowLoop [Arith K] (comp : Cmp K) (a : D K) (z : Ptr) :
    Nat → Option (Sample K) → List (Sample K) → List (Sample K) → Mem K Unit
  | _, _, [], _ => pure ()
  | 0, _, _ :: _, _ => lift .diverge
  | fuel + 1, prev, i :: rest, w => do
    let f ← lift (vback w.head?.toList)
    let ins := f.time.lt (i.time - a)
    let i' ← lift (if ins then
        (derefPrev prev).map' fun p => ⟨f.time + a, p.interpolate (f.time + a), 0⟩
      else .ok i)
    let rest' := if ins then i :: rest else rest
    let w ← lift (monoWedgeUpdate comp w i')
    let w ← lift (popExpired (i'.time - a) w)
    pushBack z ⟨i'.time, i'.value, 0⟩
    windowLoop comp a z fuel (some i') rest' w

/-- `compute_minmax_seq(x, a, b, comp)`, minmax.cc:107-145: `x_` is `x` itself if `a` is zero. -/
def minmaxSeqWindow [Arith K] (fuel : Nat) (comp : Cmp K) (x : Ptr) (a b : D K) : Mem K Ptr := do
  let width := b - a
  let s ← deref x
  let beginTime := s.beginTime
  let endTime := s.endTime
  let x' ← (if a.eq 0 then pure x else do
    let back ← lift s.back
    resizeShift x (beginTime + width) (endTime + width) back.value (-width))
  let z ← alloc
  let s' ← deref x'
  let (prev, rest, w) ← lift (windowFill comp (s.beginTime + width) none s'.samples [])
  windowLoop comp a z fuel prev rest w
  simplify z

/-- `compute_until(x, y)`, classic_robustness.cc:31-54. -/
def computeUntil [Arith K] (ndebug : Bool) (inputX inputY : Ptr) : Mem K Ptr := do
  let (x, y) ← synchronize inputX inputY
  let sx ← deref x
  let sy ← deref y
  lift (assert_ ndebug (sx.size == sy.size))
  lift (assert_ ndebug (sx.beginTime.eq sy.beginTime))
  lift (assert_ ndebug (sx.endTime.eq sy.endTime))
  make (untilLoop .pinf .ninf sx.samples.reverse sy.samples.reverse).reverse

end

/-- `Trace`, signal.hpp:263: names and pointers. -/
abbrev PTrace := List (String × Ptr)

/-- `trace.at(name)`. -/
def traceAt (trace : PTrace) (name : String) : Mem K Ptr :=
  match trace.lookup name with
  | none => lift (.throw .outOfRange)
  | some x => pure x

/-- `struct RobustnessOp`, classic_robustness.cc:60-63. -/
structure Op (K : Type) where
  ndebug : Bool
  fuel : Nat
  minTime : D K
  maxTime : D K
  trace : PTrace

section
variable [Field K] [LinearOrder K] [Arith K]

/-- `RobustnessOp::operator()(Const)`, classic_robustness.cc:107-111. -/
def const (r : Op K) (b : Bool) : Mem K Ptr :=
  let val : D K := if b then .pinf else .ninf
  make [⟨r.minTime, val, 0⟩, ⟨r.maxTime, val, 0⟩]

/-- The loop of the predicate, classic_robustness.cc:116-129. -/
def predLoop (x : Ptr) (s : Signal K) (op : ComparisonOp) (rhs : D K) (y : Ptr) : List (Sample K) → Mem K Unit
  | [] => pure ()
  | a :: rest => do
    still x s
    pushBack y ⟨a.time, RobustnessOp.predValue op rhs a.value, 0⟩
    predLoop x s op rhs y rest

/-- `RobustnessOp::operator()(Predicate)`, classic_robustness.cc:113-131. -/
def pred (r : Op K) (name : String) (op : ComparisonOp) (rhs : D K) : Mem K Ptr := do
  let x ← traceAt r.trace name
  let y ← alloc
  let s ← deref x
  predLoop x s op rhs y s.samples
  return y

/-- classic_robustness.cc:134-138. -/
def negate (x : Ptr) : Mem K Ptr := do
  let s ← deref x
  make (s.samples.map Sample.neg)

/-- classic_robustness.cc:165-178 and 183-196. -/
def temporal (r : Op K) (comp : Cmp K) (y : Ptr) (i : Interval K) : Mem K Ptr :=
  if !i.hasValue then minmaxSeq comp y
  else
    let (a, b) := i.asDouble
    if (b - a).lt 0 then lift (.throw .logicError)
    else if (b - a).eq 0 then pure y
    else do
      let s ← deref y
      if (s.endTime - s.beginTime).le (b - a) then minmaxSeq comp y
      else minmaxSeqWindow r.fuel comp y a b

/-- classic_robustness.cc:202-211. -/
def untilOp (r : Op K) (y1 y2 : Ptr) (i : Interval K) : Mem K Ptr :=
  if !i.hasValue then computeUntil r.ndebug y1 y2
  else
    let (a, b) := i.asDouble
    if b.isinf && a.eq 0 then computeUntil r.ndebug y1 y2
    else lift (.throw .notImplemented)

mutual

/-- `compute(phi, rob)`, classic_robustness.cc:77-79, 107-212. -/
def compute (r : Op K) : Expr K → Mem K Ptr
  | .const b => const r b
  | .pred name op rhs => pred r name op rhs
  | .not e => do
    let x ← compute r e
    negate x
  | .and args => do
    let ys ← computeArgs r args
    lift (assert_ r.ndebug (ys.length == args.length))
    minmaxVec r.ndebug Sample.le ys false
  | .or args => do
    let ys ← computeArgs r args
    lift (assert_ r.ndebug (ys.length == args.length))
    minmaxVec r.ndebug Sample.ge ys false
  | .always e i => do
    let y ← compute r e
    temporal r Sample.le y i
  | .eventually e i => do
    let y ← compute r e
    temporal r Sample.ge y i
  | .untl e1 e2 i => do
    let y1 ← compute r e1
    let y2 ← compute r e2
    untilOp r y1 y2 i

/-- `std::transform` over the operands, classic_robustness.cc:144-147, 155-158. -/
def computeArgs (r : Op K) : List (Expr K) → Mem K (List Ptr)
  | [] => pure []
  | e :: es => do
    let y ← compute r e
    let ys ← computeArgs r es
    return y :: ys

end

/-- `MinMaxTime`, classic_robustness.cc:85-98: every pointer of the trace is dereferenced. -/
def minMaxTime : PTrace → D K × D K → Mem K (D K × D K)
  | [], acc => pure acc
  | e :: rest, acc => do
    let s ← deref e.2
    minMaxTime rest (D.min acc.1 s.beginTime, D.max acc.2 s.endTime)

/-- `compute_robustness(phi, trace, synchronized)`, classic_robustness.cc:83-105. -/
def computeRobustness (ndebug : Bool) (fuel : Nat) (phi : Expr K) (trace : PTrace) (_synchronized : Bool) :
    Mem K Ptr := do
  let mm ← minMaxTime trace (.pinf, .ninf)
  compute ⟨ndebug, fuel, mm.1, mm.2, trace⟩ phi

/-- The calls of the public interface that take or return pointers to signals: signal.hpp:69-258, robustness.hpp:13-17.
(`Signal(points, times)` is modelled by the vector of samples it pushes.) -/
inductive Call (K : Type) where
  /-- A constructor from a vector. -/
  | make (v : List (Sample K))
  | copy (x : Ptr)
  | pushBack (x : Ptr) (a : Sample K)
  | simplify (x : Ptr)
  | resize (x : Ptr) (start end_ fill : D K)
  | shift (x : Ptr) (dt : D K)
  | resizeShift (x : Ptr) (start end_ fill dt : D K)
  | synchronize (x y : Ptr)
  | robustness (ndebug : Bool) (fuel : Nat) (phi : Expr K) (trace : PTrace) (synchronized : Bool)

/-- What a call does; the new pointers are the result. -/
def Call.run : Call K → Mem K (List Ptr)
  | .make v => do let p ← Mem.make v; return [p]
  | .copy x => do let p ← Mem.copy x; return [p]
  | .pushBack x a => do Mem.pushBack x a; return []
  | .simplify x => do let p ← Mem.simplify x; return [p]
  | .resize x start end_ fill => do let p ← Mem.resize x start end_ fill; return [p]
  | .shift x dt => do let p ← Mem.shift x dt; return [p]
  | .resizeShift x start end_ fill dt => do let p ← Mem.resizeShift x start end_ fill dt; return [p]
  | .synchronize x y => do let (p, q) ← Mem.synchronize x y; return [p, q]
  | .robustness nd fuel phi trace sync => do let p ← Mem.computeRobustness nd fuel phi trace sync; return [p]

/-- The memory after a sequence of calls by a program that catches all exceptions. -/
def Call.runAll (h : Heap K) : List (Call K) → Heap K
  | [] => h
  | c :: cs => Call.runAll (c.run h).2 cs

end
end Mem
end Verif
