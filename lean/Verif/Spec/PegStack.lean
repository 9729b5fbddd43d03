import Verif.Model.PegStack
import Verif.Spec.Peg

/-!
# Nesting of parentheses
-/

namespace Verif
namespace Peg

variable {N S : Type}

/-- How deep parentheses are nested in a text; `true` inside a comment. -/
def nestFrom : Bool → List Char → Nat
  | _, [] => 0
  | true, c :: cs => nestFrom (c != '\n') cs
  | false, c :: cs =>
    if c = '(' then nestFrom false cs + 1
    else if c = ')' then nestFrom false cs - 1
    else nestFrom (c == ';') cs

/-- How deep parentheses are nested in a text, comments aside. -/
def nesting (text : List Char) : Nat := nestFrom false text

/-- `( not ( not ... true ) )`, with `n` negations. -/
def nots : Nat → List Char
  | 0 => "true ".toList
  | n + 1 => "( not ".toList ++ (nots n ++ ") ".toList)

/-- `( define-formula p ( not ( not ... true ) ) )`, with `n` negations. -/
def deepText (n : Nat) : List Char := "( define-formula p ".toList ++ (nots n ++ ") ".toList)

end Peg
end Verif
