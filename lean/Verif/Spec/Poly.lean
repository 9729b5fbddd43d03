import Verif.Model.Ast

/-!
# Terms of negation, minimum and maximum

The value of a term in an ordered field, and the formula that it stands for.  Independent of the code.
-/

namespace Verif
namespace Spec

/-- A term over the variables 0, 1, 2, ...; minima and maxima have at least one operand. -/
inductive Poly where
  | var (i : ℕ)
  | not (F : Poly)
  | and (F : Poly) (l : List Poly)
  | or (F : Poly) (l : List Poly)

namespace Poly

/-- Induction over terms. -/
theorem ind {P : Poly → Prop} (var : ∀ i, P (.var i)) (not : ∀ F, P F → P (.not F))
    (and : ∀ F l, P F → (∀ G ∈ l, P G) → P (.and F l)) (or : ∀ F l, P F → (∀ G ∈ l, P G) → P (.or F l)) :
    ∀ F, P F
  | .var i => var i
  | .not F => not F (ind var not and or F)
  | .and F l => and F l (ind var not and or F) fun G _ => ind var not and or G
  | .or F l => or F l (ind var not and or F) fun G _ => ind var not and or G

/-- The variable `i` occurs in the term. -/
inductive Occurs (i : ℕ) : Poly → Prop
  | var : Occurs i (.var i)
  | not {F : Poly} : Occurs i F → Occurs i (.not F)
  | and_head {F : Poly} {l : List Poly} : Occurs i F → Occurs i (.and F l)
  | and_tail {F G : Poly} {l : List Poly} : G ∈ l → Occurs i G → Occurs i (.and F l)
  | or_head {F : Poly} {l : List Poly} : Occurs i F → Occurs i (.or F l)
  | or_tail {F G : Poly} {l : List Poly} : G ∈ l → Occurs i G → Occurs i (.or F l)

variable {K : Type}

mutual
/-- The value if the variable `i` has the value `f i`. -/
def val [Neg K] [LinearOrder K] (f : ℕ → K) : Poly → K
  | .var i => f i
  | .not F => - val f F
  | .and F l => (vals f l).foldl min (val f F)
  | .or F l => (vals f l).foldl max (val f F)

/-- The values of the operands. -/
def vals [Neg K] [LinearOrder K] (f : ℕ → K) : List Poly → List K
  | [] => []
  | F :: l => val f F :: vals f l
end

mutual
/-- The formula: And for minimum, Or for maximum, Not for the negation, `σ i` for the variable `i`. -/
def subst (σ : ℕ → Expr K) : Poly → Expr K
  | .var i => σ i
  | .not F => .not (subst σ F)
  | .and F l => .and (subst σ F :: substs σ l)
  | .or F l => .or (subst σ F :: substs σ l)

/-- The formulas of the operands. -/
def substs (σ : ℕ → Expr K) : List Poly → List (Expr K)
  | [] => []
  | F :: l => subst σ F :: substs σ l
end

end Poly
end Spec
end Verif
