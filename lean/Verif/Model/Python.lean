import Verif.Model.Robustness

/-!
# Model of `python_bindings/pysignal.cc` and `python_bindings/pyrobustness.cc`

The classes `Sample` and `Signal` and the function `compute_robustness` as Python sees them.  The bindings
of the expressions are in `Model/PyAst.lean`.  The translation of
exceptions and of integer arguments is pybind11's.
-/

namespace Verif
namespace Py

/-- The Python exceptions that occur. -/
inductive Err where
  | indexError
  | valueError
  | typeError
  | runtimeError
  /-- `FunctionNotImplemented`, registered in pysignal_tl.cc:10-11. -/
  | functionNotImplemented
  deriving DecidableEq, Repr

/-- Result of a call from Python. -/
inductive Result (α : Type) where
  | ok (a : α)
  | raise (e : Err)
  | abort
  | ub (u : UB)
  | diverge
  deriving DecidableEq, Repr

/-- pybind11's translation of C++ exceptions, and the one registered in pysignal_tl.cc:10-11. -/
def translate : Exn → Err
  | .invalidArgument => .valueError
  | .outOfRange => .indexError
  | .notImplemented => .functionNotImplemented
  | .logicError => .runtimeError
  | .parseError => .runtimeError
  | .badOptionalAccess => .runtimeError
  | .badVariantAccess => .runtimeError

/-- A C++ call. -/
def call {α : Type} : Outcome α → Result α
  | .ok a => .ok a
  | .throw e => .raise (translate e)
  | .abort => .abort
  | .ub u => .ub u
  | .diverge => .diverge

section
variable {K : Type} [Field K] [LinearOrder K]

/-- The attributes of a `Sample`, pysignal.cc:35-37: `derivative` is bound to `&Sample::value`. -/
def sampleAttr (s : Sample K) : String → Option (D K)
  | "time" => some s.time
  | "value" => some s.value
  | "derivative" => some s.value
  | _ => none

/-- `list(s)`, pysignal.cc:58-61: the samples from `begin()` to `end()`. -/
def iter (s : Signal K) : List (Sample K) := s.samples

/-- `len(s)`, pysignal.cc:65. -/
def len (s : Signal K) : Nat := s.size

/-- `s[i]`, pysignal.cc:62-64: the index is converted to `size_t` (64 bits), which fails for negative
integers. -/
def getitem (s : Signal K) (i : ℤ) : Result (D K) :=
  if i < 0 ∨ 2 ^ 64 ≤ i then .raise .typeError
  else call ((s.atIdx i.toNat).map' Sample.value)

/-- `s.at(t)`, pysignal.cc:66. -/
def at_ [Arith K] (s : Signal K) (t : D K) : Result (D K) := call ((s.at_ t).map' Sample.value)

/-- `Signal(points, times)`, pysignal.cc:48-51. -/
def signal [Arith K] (points times : List (D K)) : Result (Signal K) := call (Signal.ofPoints points times)

end
end Py
end Verif
