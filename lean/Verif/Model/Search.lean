import Verif.Model.Outcome

/-!
# `std::lower_bound`

Used by `Signal::at`, `Signal::begin_at`, `synchronize` and `mono_wedge_search`.
-/

namespace Verif

variable {α : Type}

/-- The loop of `std::lower_bound` (libstdc++ `bits/stl_algobase.h`, `__lower_bound`): binary search
in `l[first, first+len)` for the first element on which `p` (i.e. `comp(elem, value)`) is false.
`fuel` bounds the number of halvings; `len` halvings always suffice. -/
def lowerBoundLoop (p : α → Bool) (l : List α) : Nat → Nat → Nat → Nat
  | 0, first, _ => first
  | fuel + 1, first, len =>
    if len = 0 then first
    else
      let half := len / 2
      match l[first + half]? with
      | none => first
      | some mid =>
        if p mid then lowerBoundLoop p l fuel (first + half + 1) (len - half - 1)
        else lowerBoundLoop p l fuel first half

/-- The precondition of `std::lower_bound`: the range is partitioned with respect to `p`. -/
def isPartitioned (p : α → Bool) : List α → Bool
  | [] => true
  | a :: l => if p a then isPartitioned p l else l.all (fun b => !p b)

/-- `std::lower_bound(begin, end, value, comp)` with `p elem = comp(elem, value)`: the index of the
first element for which `p` is false.  On a range that is not partitioned the behaviour is
undefined. -/
def lowerBound (p : α → Bool) (l : List α) : Outcome Nat :=
  if isPartitioned p l then .ok (lowerBoundLoop p l l.length 0 l.length)
  else .ub .unpartitioned

end Verif
