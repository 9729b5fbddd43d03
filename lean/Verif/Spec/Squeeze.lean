import Verif.Spec.Syntax

/-!
# Texts without superfluous layout
-/

namespace Verif
namespace Spec

instance (c : Char) : Decidable (IsSpace c) := inferInstanceAs (Decidable (c ∈ _))

mutual
/-- The text with every stretch of white space and comments replaced by one space, or by nothing next to a
parenthesis and at both ends.  `p`: at the beginning or after a parenthesis; `s`: after layout. -/
def squeeze (p s : Bool) : List Char → List Char
  | [] => []
  | c :: cs =>
    if IsSpace c then squeeze p true cs
    else if c = ';' then squeezeComment p cs
    else if c = '(' ∨ c = ')' then c :: squeeze true false cs
    else if s = true ∧ p = false then ' ' :: c :: squeeze false false cs
    else c :: squeeze false false cs
/-- The rest of a comment. -/
def squeezeComment (p : Bool) : List Char → List Char
  | [] => []
  | c :: cs => if c = '\n' then squeeze p true cs else squeezeComment p cs
end

/-- Whether a text ends inside a comment; `b`: it begins inside of one. -/
def inComment (b : Bool) : List Char → Bool
  | [] => b
  | c :: cs => inComment (if b then c != '\n' else c == ';') cs

end Spec
end Verif
