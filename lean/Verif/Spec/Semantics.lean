import Verif.Model.Reals
import Verif.Model.Ast
import Mathlib.Data.EReal.Operations

/-!
# Dense-time semantics of Signal Temporal Logic

The textbook semantics on a trace over the real time interval up to `T`: Boolean satisfaction (`Sat`)
and quantitative semantics (`rob`, robust satisfaction, Donzé and Maler 2010), independent of the code.
`x n t` is the value of the signal with name `n` at time `t`.
-/

namespace Verif
namespace Spec

/-- The instants `t'` up to `T` with `t' - t` in the interval. -/
def window (T : ℝ) (i : Interval ℝ) (t : ℝ) : Set ℝ :=
  {t' | i.asDouble.1.le (.fin (t' - t)) = true ∧ (D.fin (t' - t)).le i.asDouble.2 = true ∧ t' ≤ T}

/-- The margin of a comparison; the margin of a comparison with NaN, which never holds, is `-inf`. -/
noncomputable def margin (op : ComparisonOp) (v : ℝ) : D ℝ → EReal
  | .nan => ⊥
  | .fin c => match op with
    | .GE | .GT => ((v - c : ℝ) : EReal)
    | .LE | .LT => ((c - v : ℝ) : EReal)
  | .pinf => match op with
    | .GE | .GT => ⊥
    | .LE | .LT => ⊤
  | .ninf => match op with
    | .GE | .GT => ⊤
    | .LE | .LT => ⊥

/-- Does the comparison hold? -/
def holds (op : ComparisonOp) (v : ℝ) (c : D ℝ) : Prop :=
  match op with
  | .GE => c.le (.fin v) = true
  | .GT => c.lt (.fin v) = true
  | .LE => (D.fin v).le c = true
  | .LT => (D.fin v).lt c = true

mutual
/-- Quantitative semantics. -/
noncomputable def rob (T : ℝ) (x : String → ℝ → ℝ) : Expr ℝ → ℝ → EReal
  | .const b, _ => if b then ⊤ else ⊥
  | .pred n op c, t => margin op (x n t) c
  | .not e, t => - rob T x e t
  | .and args, t => robAll T x args t
  | .or args, t => robAny T x args t
  | .always e i, t => ⨅ t' ∈ window T i t, rob T x e t'
  | .eventually e i, t => ⨆ t' ∈ window T i t, rob T x e t'
  | .untl e e' i, t => ⨆ t' ∈ window T i t, (rob T x e' t' ⊓ ⨅ u ∈ Set.Icc t t', rob T x e u)

/-- The smallest value of the operands of a conjunction. -/
noncomputable def robAll (T : ℝ) (x : String → ℝ → ℝ) : List (Expr ℝ) → ℝ → EReal
  | [], _ => ⊤
  | e :: es, t => rob T x e t ⊓ robAll T x es t

/-- The greatest value of the operands of a disjunction. -/
noncomputable def robAny (T : ℝ) (x : String → ℝ → ℝ) : List (Expr ℝ) → ℝ → EReal
  | [], _ => ⊥
  | e :: es, t => rob T x e t ⊔ robAny T x es t
end

mutual
/-- Boolean semantics. -/
def Sat (T : ℝ) (x : String → ℝ → ℝ) : Expr ℝ → ℝ → Prop
  | .const b, _ => b = true
  | .pred n op c, t => holds op (x n t) c
  | .not e, t => ¬ Sat T x e t
  | .and args, t => SatAll T x args t
  | .or args, t => SatAny T x args t
  | .always e i, t => ∀ t' ∈ window T i t, Sat T x e t'
  | .eventually e i, t => ∃ t' ∈ window T i t, Sat T x e t'
  | .untl e e' i, t => ∃ t' ∈ window T i t, Sat T x e' t' ∧ ∀ u ∈ Set.Icc t t', Sat T x e u

/-- All operands are satisfied. -/
def SatAll (T : ℝ) (x : String → ℝ → ℝ) : List (Expr ℝ) → ℝ → Prop
  | [], _ => True
  | e :: es, t => Sat T x e t ∧ SatAll T x es t

/-- Some operand is satisfied. -/
def SatAny (T : ℝ) (x : String → ℝ → ℝ) : List (Expr ℝ) → ℝ → Prop
  | [], _ => False
  | e :: es, t => Sat T x e t ∨ SatAny T x es t
end

end Spec
end Verif
