import Verif.Spec.Messages

/-!
# How far the parser looks ahead

Two continuations of a text are the same *ahead* if they agree on the next word and on two more characters; and what
a parse error has to do with that.
-/

namespace Verif
namespace Spec

/-- A character of a word in the widest sense: of a name, of a keyword or of a number. -/
def WordChar (c : Char) : Prop := NameChar c ∨ c = '.' ∨ c = '+' ∨ c = '-'

/-- The texts are equal, or they begin with the same word (possibly empty) and the same two characters after it; what
comes then may be different. -/
def SameAhead (p p' : List Char) : Prop :=
  p = p' ∨ ∃ (w : List Char) (a b : Char) (m m' : List Char), (∀ c ∈ w, WordChar c) ∧ ¬ WordChar a ∧
    p = w ++ a :: b :: m ∧ p' = w ++ a :: b :: m'

/-- The message is one of the grammar, not of an action. -/
def OfGrammar : Msg → Prop
  | .tooFew _ => False
  | .assertionAgain _ => False
  | .formulaAgain _ => False
  | _ => True

/-- How much of the text `x ++ e` at the reported place the parser has read before it looked at `e`: nothing, or a name
after a comparison symbol. -/
def ReadOn (m : Msg) (x e : List Char) : Prop :=
  x = [] ∨ m = .predicateForm ∧ ∃ (n : String) (g : List Char), IsName n ∧ Gap g e ∧ x = n.toList ++ g

end Spec
end Verif
