import Verif.Spec.Grammar

/-!
# The size of formulas and of specifications
-/

namespace Verif

variable {K : Type}

mutual
/-- The number of nodes of a formula as a tree. -/
def Expr.nodes : Expr K → Nat
  | .const _ => 1
  | .pred _ _ _ => 1
  | .not e => e.nodes + 1
  | .and es => Expr.nodesAll es + 1
  | .or es => Expr.nodesAll es + 1
  | .always e _ => e.nodes + 1
  | .eventually e _ => e.nodes + 1
  | .untl a b _ => a.nodes + b.nodes + 1
/-- The number of nodes of several formulas. -/
def Expr.nodesAll : List (Expr K) → Nat
  | [] => 0
  | e :: es => e.nodes + Expr.nodesAll es
end

namespace Spec

mutual
/-- No formula is referred to, and there is no `iff` and no `xor`. -/
def Raw.plain : Raw → Bool
  | .tru => true
  | .fls => true
  | .ref _ => false
  | .paren is => Item.plainAll is
/-- The same for several terms. -/
def Raw.plainAll : List Raw → Bool
  | [] => true
  | t :: ts => Raw.plain t && Raw.plainAll ts
/-- The same for expressions. -/
def Item.plain : Item → Bool
  | .cmp _ _ _ => true
  | .un _ t => Raw.plain t
  | .nary _ ts => Raw.plainAll ts
  | .bin o a b => (o == .implies || o == .untl) && (Raw.plain a && Raw.plain b)
  | .term t => Raw.plain t
/-- The same for several expressions. -/
def Item.plainAll : List Item → Bool
  | [] => true
  | i :: is => Item.plain i && Item.plainAll is
end

/-- Formulas are defined without reference to others; an assertion can be a reference. -/
def RawCmd.plain : RawCmd → Bool
  | .define _ t => t.plain
  | .assert _ (.ref _) => true
  | .assert _ t => t.plain

end Spec
end Verif
