/-!
# Outcomes of C++ functions

A C++ call either returns a value, throws an exception, aborts in a failed `assert`, runs into
undefined behaviour, or does not return at all.  All of them are distinct values here.
-/

namespace Verif

/-- The exception types that occur in the code. -/
inductive Exn where
  | invalidArgument      -- std::invalid_argument
  | outOfRange           -- std::out_of_range
  | logicError           -- std::logic_error
  | notImplemented       -- signal_tl::not_implemented_error (src/include/signal_tl/exception.hpp:13)
  | parseError           -- tao::pegtl::parse_error
  | badOptionalAccess    -- std::bad_optional_access
  | badVariantAccess     -- std::bad_variant_access
  deriving DecidableEq, Repr

/-- The kinds of undefined behaviour that occur in the code. -/
inductive UB where
  | derefEnd             -- dereferencing `end()`
  | prevBegin            -- dereferencing `std::prev(begin())`
  | emptyAccess          -- `front()` / `back()` / `pop_*()` of an empty container
  | unpartitioned        -- `std::lower_bound` on a range which is not partitioned
  | shiftCount           -- shift by at least the width of the type
  | nullPointer          -- dereferencing a null `shared_ptr`
  | invalidIterator      -- using an iterator into a vector that was changed
  deriving DecidableEq, Repr

/-- Result of a call. -/
inductive Outcome (α : Type) where
  | ok (a : α)
  | throw (e : Exn)
  | abort                -- failed assert (debug builds)
  | ub (u : UB)
  | diverge              -- infinite loop
  deriving DecidableEq, Repr

namespace Outcome

/-- Sequencing: everything but `ok` ends the computation. -/
def bind {α β : Type} : Outcome α → (α → Outcome β) → Outcome β
  | ok a, f => f a
  | throw e, _ => throw e
  | abort, _ => abort
  | ub u, _ => ub u
  | diverge, _ => diverge

instance : Monad Outcome where
  pure := ok
  bind := bind

/-- Post-processing of a returned value. -/
def map' {α β : Type} (f : α → β) : Outcome α → Outcome β
  | ok a => ok (f a)
  | throw e => throw e
  | abort => abort
  | ub u => ub u
  | diverge => diverge

/-- The call returned a value. -/
def isOk {α : Type} : Outcome α → Bool
  | ok _ => true
  | _ => false

@[simp] theorem bind_ok {α β : Type} (a : α) (f : α → Outcome β) : (ok a >>= f) = f a := rfl
@[simp] theorem bind_throw {α β : Type} (e : Exn) (f : α → Outcome β) :
    ((throw e : Outcome α) >>= f) = throw e := rfl
@[simp] theorem bind_abort {α β : Type} (f : α → Outcome β) :
    ((abort : Outcome α) >>= f) = abort := rfl
@[simp] theorem bind_ub {α β : Type} (u : UB) (f : α → Outcome β) :
    ((ub u : Outcome α) >>= f) = ub u := rfl
@[simp] theorem bind_diverge {α β : Type} (f : α → Outcome β) :
    ((diverge : Outcome α) >>= f) = diverge := rfl
@[simp] theorem pure_eq_ok {α : Type} (a : α) : (pure a : Outcome α) = ok a := rfl

theorem bind_eq_ok {α β : Type} {x : Outcome α} {f : α → Outcome β} {b : β} :
    (x >>= f) = ok b ↔ ∃ a, x = ok a ∧ f a = ok b := by
  cases x <;> simp

theorem bind_assoc' {α β γ : Type} (x : Outcome α) (f : α → Outcome β) (g : β → Outcome γ) :
    ((x >>= f) >>= g) = (x >>= fun a => f a >>= g) := by
  cases x <;> simp

@[simp] theorem bind_ok_right {α : Type} (x : Outcome α) : (x >>= fun a => ok a) = x := by
  cases x <;> simp

end Outcome

/-- C++ `assert(c)`: checked unless `NDEBUG` is defined. -/
def assert_ (ndebug : Bool) (c : Bool) : Outcome Unit :=
  if ndebug || c then .ok () else .abort

end Verif
