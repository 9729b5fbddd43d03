import Verif.Model.Wedge

/-!
# `mono_wedge.h` with 64-bit integers and iterators

`Model/Wedge.lean` computes the search position of `mono_wedge_search` from natural numbers.  Here the
variables are those of the code: `size` and `i` are `size_t` (arithmetic modulo 2^64), a shift by 64 or
more is undefined, `search_pos` is an iterator of its own which must not be decremented at `begin()`, and
the overload for rvalues erases by a loop of `pop_back`.  `Props/Machine.lean` proves that the results
are the same.
-/

namespace Verif

variable {α : Type}

/-- `--it`: the predecessor of an iterator; undefined for `begin()`. -/
def decr (pos : Nat) : Outcome Nat := if pos = 0 then .ub .prevBegin else .ok (pos - 1)

/-- `a >> n` for `size_t`: undefined if `n` is not less than the width. -/
def shiftRight64 (a n : UInt64) : Outcome UInt64 := if 64 ≤ n then .ub .shiftCount else .ok (a >>> n)

/-- The loop of `mono_wedge_search`, mono_wedge.h:94-101.  `rounds` bounds the number of evaluations of the
loop condition. -/
def monoWedgeSearchLoopM (comp : α → α → Bool) (w : List α) (value : α) (size : UInt64) :
    Nat → UInt64 → Nat → Outcome Nat
  | 0, _, _ => .diverge
  | rounds + 1, i, searchPos => do
    let c ← shiftRight64 (size - i) i
    if c > 0 then
      match w[searchPos]? with
      | none => .ub .derefEnd
      | some e =>
        if comp e value then .ok (searchPos + 1)
        else do
          let searchPos ← decr searchPos
          monoWedgeSearchLoopM comp w value size rounds (i + 1) searchPos
    else lowerBound (fun e => comp e value) (w.take (searchPos + 1))

/-- `mono_wedge_search(begin, end, value, comp)`, mono_wedge.h:85-102, with at most `rounds` evaluations of
the loop condition. -/
def monoWedgeSearchM (rounds : Nat) (comp : α → α → Bool) (w : List α) (value : α) : Outcome Nat :=
  let size := UInt64.ofNat w.length
  if size ≤ 0 then .ok w.length
  else do
    let searchPos ← decr w.length
    monoWedgeSearchLoopM comp w value size rounds 1 searchPos

/-- `wedge.pop_back()`; undefined for an empty wedge. -/
def popBack (w : List α) : Outcome (List α) := if w.isEmpty then .ub .emptyAccess else .ok w.dropLast

/-- `while (erase_count--) wedge.pop_back();`, mono_wedge.h:174.  The first argument bounds the number of
rounds. -/
def eraseLoop : Nat → UInt64 → List α → Outcome (List α)
  | 0, _, _ => .diverge
  | rounds + 1, eraseCount, w =>
    if eraseCount = 0 then .ok w
    else do
      let w ← popBack w
      eraseLoop rounds (eraseCount - 1) w

/-- `mono_wedge_update(wedge, T&& value, comp)`, mono_wedge.h:169-176. -/
def monoWedgeUpdateM (rounds : Nat) (comp : α → α → Bool) (w : List α) (value : α) : Outcome (List α) := do
  let i ← monoWedgeSearchM rounds comp w value
  let eraseCount := UInt64.ofNat (w.length - i)
  let w ← eraseLoop (w.length + 1) eraseCount w
  return w ++ [value]

/-- `mono_wedge_update(wedge, const T& value, comp)`, mono_wedge.h:123-128: `erase(i, end())`. -/
def monoWedgeUpdateErase (rounds : Nat) (comp : α → α → Bool) (w : List α) (value : α) : Outcome (List α) := do
  let i ← monoWedgeSearchM rounds comp w value
  return w.take i ++ [value]

end Verif
