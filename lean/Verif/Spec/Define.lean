import Verif.Spec.Grammar

/-! # Definitions in a text -/

namespace Verif
namespace Spec

mutual
/-- The formulas that a term refers to. -/
def Raw.names : Raw → List String
  | .tru => []
  | .fls => []
  | .ref n => [n]
  | .paren is => Item.namesAll is
/-- Several terms. -/
def Raw.namesAll : List Raw → List String
  | [] => []
  | t :: ts => Raw.names t ++ Raw.namesAll ts
/-- An expression. -/
def Item.names : Item → List String
  | .cmp _ _ _ => []
  | .un _ t => Raw.names t
  | .nary _ ts => Raw.namesAll ts
  | .bin _ a b => Raw.names a ++ Raw.names b
  | .term t => Raw.names t
/-- Several expressions. -/
def Item.namesAll : List Item → List String
  | [] => []
  | i :: is => Item.names i ++ Item.namesAll is
end

mutual
/-- Replace the references to formulas by terms. -/
def Raw.subst (f : String → Raw) : Raw → Raw
  | .tru => .tru
  | .fls => .fls
  | .ref n => f n
  | .paren is => .paren (Item.substAll f is)
/-- Several terms. -/
def Raw.substAll (f : String → Raw) : List Raw → List Raw
  | [] => []
  | t :: ts => Raw.subst f t :: Raw.substAll f ts
/-- An expression. -/
def Item.subst (f : String → Raw) : Item → Item
  | .cmp o n c => .cmp o n c
  | .un o t => .un o (Raw.subst f t)
  | .nary o ts => .nary o (Raw.substAll f ts)
  | .bin o a b => .bin o (Raw.subst f a) (Raw.subst f b)
  | .term t => .term (Raw.subst f t)
/-- Several expressions. -/
def Item.substAll (f : String → Raw) : List Item → List Item
  | [] => []
  | i :: is => Item.subst f i :: Item.substAll f is
end

/-- The term of a command. -/
def RawCmd.term : RawCmd → Raw
  | .define _ t => t
  | .assert _ t => t

/-- The formula that a command defines. -/
def RawCmd.defines : RawCmd → Option String
  | .define n _ => some n
  | .assert _ _ => none

/-- Write the term `d` for the formula `n`. -/
def RawCmd.inline (n : String) (d : Raw) : RawCmd → RawCmd
  | .define m t => .define m (t.subst fun k => if k = n then d else .ref k)
  | .assert m t => .assert m (t.subst fun k => if k = n then d else .ref k)

/-- Rename the formulas by `f` and the assertions by `g`. -/
def RawCmd.rename (f g : String → String) : RawCmd → RawCmd
  | .define m t => .define (f m) (t.subst fun k => .ref (f k))
  | .assert m t => .assert (g m) (t.subst fun k => .ref (f k))

/-- Rename the formulas by `f` and the assertions by `g`. -/
def renameSpec {K : Type} (f g : String → String) (sp : Specification K) : Specification K :=
  ⟨sp.formulas.map fun p => (f p.1, p.2), sp.assertions.map fun p => (g p.1, p.2)⟩

end Spec
end Verif
