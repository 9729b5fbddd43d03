import Verif.Spec.Wedge

/-!
# Counting the comparisons of `mono_wedge.h`

The functions of `Model/Search.lean` and `Model/Wedge.lean` once more, returning in addition how often the
comparison is called.  `Props/WedgeCost.lean` proves that the results are the same.
-/

namespace Verif

variable {α : Type}

/-- `lowerBoundLoop` (the loop of `std::lower_bound`) with the number of calls of `p`. -/
def lowerBoundLoopC (p : α → Bool) (l : List α) : Nat → Nat → Nat → Nat × Nat
  | 0, first, _ => (first, 0)
  | fuel + 1, first, len =>
    if len = 0 then (first, 0)
    else
      let half := len / 2
      match l[first + half]? with
      | none => (first, 0)
      | some mid =>
        let r := if p mid then lowerBoundLoopC p l fuel (first + half + 1) (len - half - 1)
          else lowerBoundLoopC p l fuel first half
        (r.1, r.2 + 1)

/-- `std::lower_bound` with the number of comparisons. -/
def lowerBoundC (p : α → Bool) (l : List α) : Outcome (Nat × Nat) :=
  if isPartitioned p l then .ok (lowerBoundLoopC p l l.length 0 l.length)
  else .ub .unpartitioned

/-- `monoWedgeSearchLoop` (mono_wedge.h:92-101) with the number of comparisons; `n` is their number so
far. -/
def monoWedgeSearchLoopC (comp : α → α → Bool) (w : List α) (value : α) :
    Nat → Nat → Nat → Outcome (Nat × Nat)
  | fuel, i, n =>
    let size := w.length
    let continue_ := decide (((size - i) >>> i) > 0)
    match fuel, continue_ with
    | fuel + 1, true =>
      match w[size - i]? with
      | none => .ub .derefEnd
      | some e =>
        if comp e value then .ok (size - i + 1, n + 1)
        else monoWedgeSearchLoopC comp w value fuel (i + 1) (n + 1)
    | 0, true => .diverge
    | _, false => do
      let r ← lowerBoundC (fun e => comp e value) (w.take (size - i + 1))
      return (r.1, n + r.2)

/-- `mono_wedge_search`, mono_wedge.h:85-102, with the number of comparisons. -/
def monoWedgeSearchC (comp : α → α → Bool) (w : List α) (value : α) : Outcome (Nat × Nat) :=
  if w.length = 0 then .ok (0, 0)
  else monoWedgeSearchLoopC comp w value w.length 1 0

/-- `mono_wedge_update`, mono_wedge.h:123-128 and 169-176, with the number of comparisons. -/
def monoWedgeUpdateC (comp : α → α → Bool) (w : List α) (value : α) : Outcome (List α × Nat) := do
  let r ← monoWedgeSearchC comp w value
  return (w.take r.1 ++ [value], r.2)

/-- The operations performed on a wedge (`Spec.wedgeAfter`) with the number of comparisons. -/
def wedgeAfterC (comp : α → α → Bool) : List α → List (Spec.WedgeOp α) → Outcome (List α × Nat)
  | w, [] => .ok (w, 0)
  | w, .push v :: ops => do
    let r ← monoWedgeUpdateC comp w v
    let r' ← wedgeAfterC comp r.1 ops
    return (r'.1, r.2 + r'.2)
  | [], .popFront :: _ => .ub .emptyAccess
  | _ :: w, .popFront :: ops => wedgeAfterC comp w ops

end Verif
