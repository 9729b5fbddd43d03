import Verif.Model.Outcome

/-!
# The loop helpers `enumerate` and `reversed`

src/include/signal_tl/internal/utils.hpp:22-77.  The library itself does not use them.
-/

namespace Verif

/-- What a range-based `for` uses of a range whose iterators have type `ι`: `begin()`, `end()`, `!=`, `++` and `*`.
`*` gives the values of elements, or references to them (`refRange`). -/
structure LoopRange (ι α : Type) where
  first : ι
  last : ι
  ne : ι → ι → Bool
  next : ι → Outcome ι
  deref : ι → Outcome α

/-- `for (auto&& x : r) body`: the loop from the iterator `it` on, `s` being the variables changed by the body.  Without
fuel it counts as not terminating. -/
def rangeFor {ι α σ : Type} (r : LoopRange ι α) (body : σ → α → Outcome σ) : Nat → ι → σ → Outcome σ
  | 0, _, _ => .diverge
  | fuel + 1, it, s =>
    if r.ne it r.last then do
      let a ← r.deref it
      let s ← body s a
      let it ← r.next it
      rangeFor r body fuel it s
    else .ok s

/-- A `std::vector` with its random access iterators, given by their positions.  Incrementing or dereferencing `end()` is
undefined. -/
def vectorRange {α : Type} (v : List α) : LoopRange Nat α where
  first := 0
  last := v.length
  ne a b := a != b
  next i := if i < v.length then .ok (i + 1) else .ub .derefEnd
  deref i := match v[i]? with
    | some a => .ok a
    | none => .ub .derefEnd

/-- The same for loops that change the elements: `*` gives a reference, which is the position of the element. -/
def refRange {α : Type} (v : List α) : LoopRange Nat Nat := vectorRange (List.range v.length)

/-- `x = f(x)` for the reference `x` to the element at position `k`. -/
def assignAt {α : Type} (v : List α) (k : Nat) (f : α → α) : Outcome (List α) :=
  match v[k]? with
  | some a => .ok (v.set k (f a))
  | none => .ub .derefEnd

/-- src/include/signal_tl/internal/utils.hpp:58-77 `reversed` of a vector: reverse iterators, given by the positions of
their base iterators, which are one after the element. -/
def reversedRange {α : Type} (v : List α) : LoopRange Nat α where
  first := v.length
  last := 0
  ne a b := a != b
  next i := match i with
    | 0 => .ub .prevBegin
    | j + 1 => .ok j
  deref i := match i with
    | 0 => .ub .prevBegin
    | j + 1 => match v[j]? with
      | some a => .ok a
      | none => .ub .derefEnd

/-- src/include/signal_tl/internal/utils.hpp:27-56 `enumerate`: the iterators have an index of type `size_t`, which `!=`
does not compare; that of `end()` is zero. -/
def enumerateRange {ι α : Type} (r : LoopRange ι α) : LoopRange (Nat × ι) (Nat × α) where
  first := (0, r.first)
  last := (0, r.last)
  ne a b := r.ne a.2 b.2
  next it := do
    let j ← r.next it.2
    .ok ((it.1 + 1) % 2 ^ 64, j)
  deref it := do
    let a ← r.deref it.2
    .ok (it.1, a)

end Verif
