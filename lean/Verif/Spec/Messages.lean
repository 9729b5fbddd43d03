import Verif.Model.ParserMessages
import Verif.Spec.Syntax

/-!
# What the messages of parse errors claim

For every message: where the rule began that had to match, where the parser stood, and what is not there.
-/

namespace Verif
namespace Spec

/-- A character a name can begin with. -/
def NameStart (c : Char) : Prop := c.isAlpha = true ∨ c = '_'

/-- A character of a name. -/
def NameChar (c : Char) : Prop := c.isAlphanum = true ∨ c = '_'

/-- `g` is all the layout between something and `rest`. -/
def Gap (g rest : List Char) : Prop := Layout g ∨ rest = [] ∧ FinalLayout g

/-- Before `rest` the text has one of these words, and layout. -/
def After (ks : List String) (text rest : List Char) : Prop :=
  ∃ k ∈ ks, ∃ p g, text = p ++ (k.toList ++ (g ++ rest)) ∧ Gap g rest

/-- The text begins with one of these words, and layout; then there is `rest`. -/
def Begins (ks : List String) (w rest : List Char) : Prop := ∃ k ∈ ks, ∃ g, w = k.toList ++ (g ++ rest) ∧ Gap g rest

/-- No name begins here. -/
def NoName (w : List Char) : Prop := ∀ c cs, w = c :: cs → ¬ NameStart c

/-- No term begins here. -/
def NoTerm (w : List Char) : Prop := ∀ c cs, w = c :: cs → c ≠ '(' ∧ ¬ NameStart c

/-- No number begins here. -/
def NoNumber (w : List Char) : Prop := ∀ c cs, w = c :: cs → c.isDigit = false

/-- This character does not follow. -/
def NoChar (d : Char) (w : List Char) : Prop := ∀ c cs, w = c :: cs → c ≠ d

/-- The word `k` does not follow (it does not, or it is only the beginning of a longer word). -/
def NoWord (k : String) (w : List Char) : Prop := ∀ r, w = k.toList ++ r → ∃ c cs, r = c :: cs ∧ NameChar c

/-- No comparison symbol follows: the characters `<` and `>` only if they are doubled. -/
def NoComparison (w : List Char) : Prop := ∀ c cs, w = c :: cs → c = '<' ∨ c = '>' → ∃ ds, cs = c :: ds

/-- No name with a number after it follows. -/
def NoNameNumber (w : List Char) : Prop := ∀ (n : String) (g : List Char) (d : Char) (r : List Char), IsName n → Layout g → g ≠ [] →
  d.isDigit = true → w ≠ n.toList ++ (g ++ d :: r)

/-- The message is true of the text: it is said about what begins at `s`, and the parser stands at `p`. -/
def Sound (text : List Char) : Msg → (s p : List Char) → Prop
  | .identifier, s, p => After ["assert", "define-formula"] text s ∧ p = s ∧ NoName p
  | .exponent, s, p => (∃ q d e, text = q ++ d :: e :: s ∧ (d.isDigit = true ∨ d = '.') ∧ (e = 'e' ∨ e = 'E')) ∧
      (p = s ∨ s = '+' :: p ∨ s = '-' :: p) ∧ NoNumber p
  | .predicateForm, s, p => After ["<", "<=", ">", ">="] text s ∧
      (p = s ∧ NoNumber p ∧ NoNameNumber p ∨ (∃ (l : NumLit) (g : List Char), s = l.chars ++ (g ++ p) ∧ Gap g p) ∧ NoName p)
  | .naryTail, s, p => After ["and", "or"] text s ∧ p = s ∧ NoTerm p
  | .binaryTail, s, p => After ["implies", "iff", "xor"] text s ∧ p <:+ s ∧ NoTerm p
  | .termTail, s, p => After ["("] text s ∧ p <:+ s ∧ NoTerm p ∧ NoChar ')' p ∧ NoComparison p
  | .term, s, p => (After ["not", "always", "eventually", "until"] text s ∨
      (∃ j, After ["until"] text j ∧ s <:+ j ∧ s ≠ j) ∨
      ∃ j n, After ["assert", "define-formula"] text j ∧ IsName n ∧ Begins [n] j s) ∧ p = s ∧ NoTerm p
  | .allowedCommands, s, p => (∃ j, After ["("] text j ∧ s <:+ j) ∧ p = s ∧ NoWord "assert" p ∧
      NoWord "define-formula" p ∧ NoChar ')' p
  | .statementList, s, p => s = text ∧ p <:+ text ∧ p ≠ [] ∧ NoChar '(' p
  | .tooFew n, s, p => n = 1 ∧ s <:+ text ∧ p = s ∧ ∃ r, Begins ["and", "or"] s r
  | .assertionAgain id, s, p => s <:+ text ∧ p = s ∧ IsName id ∧ ∃ j r, Begins ["assert"] s j ∧ Begins [id] j r
  | .formulaAgain id, s, p => s <:+ text ∧ p = s ∧ IsName id ∧ ∃ j r, Begins ["define-formula"] s j ∧ Begins [id] j r
  | .skip, _, _ => False
  | .anyCommandTail, _, _ => False

end Spec
end Verif
