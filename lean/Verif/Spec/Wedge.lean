import Verif.Model.Wedge

/-!
# What a monotonic wedge is for
-/

namespace Verif
namespace Spec

variable {α : Type}

/-- The operations on a wedge (mono_wedge.h:51-68): feed a value, drop the front. -/
inductive WedgeOp (α : Type) where
  | push (v : α)
  | popFront

/-- The values that came after the first value that is related by `comp` to all later ones. -/
def afterOptimum (comp : α → α → Bool) : List α → List α
  | [] => []
  | a :: l => if l.all (comp a) then l else afterOptimum comp l

/-- The window, oldest value first: feeding appends a value; dropping the front means that the (first)
optimum of the window and everything older leaves the window. -/
def windowAfter (comp : α → α → Bool) : List α → List (WedgeOp α) → List α
  | win, [] => win
  | win, .push v :: ops => windowAfter comp (win ++ [v]) ops
  | win, .popFront :: ops => windowAfter comp (afterOptimum comp win) ops

/-- The operations performed on a wedge; `pop_front` of an empty container is undefined behaviour. -/
def wedgeAfter (comp : α → α → Bool) : List α → List (WedgeOp α) → Outcome (List α)
  | w, [] => .ok w
  | w, .push v :: ops => do
    let w ← monoWedgeUpdate comp w v
    wedgeAfter comp w ops
  | [], .popFront :: _ => .ub .emptyAccess
  | _ :: w, .popFront :: ops => wedgeAfter comp w ops

/-- The front is never dropped from an empty window. -/
def PopsOk (comp : α → α → Bool) : List α → List (WedgeOp α) → Prop
  | _, [] => True
  | win, .push v :: ops => PopsOk comp (win ++ [v]) ops
  | win, .popFront :: ops => win ≠ [] ∧ PopsOk comp (afterOptimum comp win) ops

end Spec
end Verif
