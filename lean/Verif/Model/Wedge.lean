import Verif.Model.Search

/-!
# Model of `src/robust_semantics/mono_wedge.h`
-/

namespace Verif

variable {α : Type}

/-- The linear search of `mono_wedge_search`, mono_wedge.h:92-98, followed by the binary search of
line 101.  `search_pos` is at index `size - i`.  `fuel` bounds the number of rounds; `size` rounds
always suffice because the loop condition fails at `i = size`. -/
def monoWedgeSearchLoop (comp : α → α → Bool) (w : List α) (value : α) :
    Nat → Nat → Outcome Nat
  | fuel, i =>
    let size := w.length
    let continue_ := decide (((size - i) >>> i) > 0)
    match fuel, continue_ with
    | fuel + 1, true =>
      match w[size - i]? with
      | none => .ub .derefEnd
      | some e =>
        if comp e value then .ok (size - i + 1)
        else monoWedgeSearchLoop comp w value fuel (i + 1)
    | 0, true => .diverge
    | _, false => lowerBound (fun e => comp e value) (w.take (size - i + 1))

/-- `mono_wedge_search(begin, end, value, comp)`, mono_wedge.h:85-102. -/
def monoWedgeSearch (comp : α → α → Bool) (w : List α) (value : α) : Outcome Nat :=
  if w.length = 0 then .ok 0
  else monoWedgeSearchLoop comp w value w.length 1

/-- `mono_wedge_update(wedge, value, comp)`, mono_wedge.h:123-128 and 169-176 (both overloads do the
same): erase from the search position on, then append. -/
def monoWedgeUpdate (comp : α → α → Bool) (w : List α) (value : α) : Outcome (List α) := do
  let i ← monoWedgeSearch comp w value
  return w.take i ++ [value]

end Verif
