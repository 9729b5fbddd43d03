import Verif.Model.Robustness

/-!
# Units of measurement

What a signal, a formula and a trace become if time is measured in a unit `1/a` times and values in a unit
`1/c` times the old one (so the numbers are multiplied by `a` and `c`).
-/

namespace Verif
namespace Spec

variable {K : Type} [Field K] [LinearOrder K]

/-- The number in the new unit; infinities and NaN stay. -/
def inUnit (c : K) : D K → D K
  | .fin q => .fin (c * q)
  | .pinf => .pinf
  | .ninf => .ninf
  | .nan => .nan

/-- A signal: the slopes are values per time. -/
def signalUnits (a c : K) (x : Signal K) : Signal K :=
  ⟨x.samples.map fun s => ⟨inUnit a s.time, inUnit c s.value, inUnit (c / a) s.derivative⟩⟩

/-- A trace. -/
def traceUnits (a c : K) (trace : Trace K) : Trace K := trace.map fun e => (e.1, signalUnits a c e.2)

/-- A bound of an interval; the result is a `double`. -/
def boundUnits (a : K) : INum K → INum K
  | .ull n => .dbl (.fin (a * (n.toNat : K)))
  | .dbl d => .dbl (inUnit a d)

def intervalUnits (a : K) (i : Interval K) : Interval K := ⟨boundUnits a i.low, boundUnits a i.high⟩

mutual
/-- A formula: the constants of the predicates are values, the intervals are times. -/
def exprUnits (a c : K) : Expr K → Expr K
  | .const b => .const b
  | .pred n op rhs => .pred n op (inUnit c rhs)
  | .not e => .not (exprUnits a c e)
  | .and args => .and (argsUnits a c args)
  | .or args => .or (argsUnits a c args)
  | .always e i => .always (exprUnits a c e) (intervalUnits a i)
  | .eventually e i => .eventually (exprUnits a c e) (intervalUnits a i)
  | .untl e e' i => .untl (exprUnits a c e) (exprUnits a c e') (intervalUnits a i)

def argsUnits (a c : K) : List (Expr K) → List (Expr K)
  | [] => []
  | e :: es => exprUnits a c e :: argsUnits a c es
end

end Spec
end Verif
