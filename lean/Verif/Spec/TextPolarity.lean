import Verif.Spec.Meaning

/-! # Safety and co-safety of a text -/

namespace Verif
namespace Spec

mutual
/-- `synPolarity env t true`: in the term Always occurs only under an even number of negations and Eventually only under an
odd number, and there are no Until and no constants; `synPolarity env t false`: the other way round.  The left side of an
implication is negated, those of Iff and Xor are both negated and not. -/
def synPolarity (env : String → Bool → Prop) : Syn → Bool → Prop
  | .tru, _ => False
  | .fls, _ => False
  | .ref n, b => env n b
  | .cmp _ _ _, _ => True
  | .rcmp _ _ _, _ => True
  | .not a, b => synPolarity env a (!b)
  | .and ts, b => synPolarityAll env ts b
  | .or ts, b => synPolarityAll env ts b
  | .implies a a', b => synPolarity env a (!b) ∧ synPolarity env a' b
  | .iff a a', b => (synPolarity env a b ∧ synPolarity env a' b) ∧ synPolarity env a (!b) ∧ synPolarity env a' (!b)
  | .xor a a', b => (synPolarity env a b ∧ synPolarity env a' b) ∧ synPolarity env a (!b) ∧ synPolarity env a' (!b)
  | .always a, b => b = true ∧ synPolarity env a true
  | .eventually a, b => b = false ∧ synPolarity env a false
  | .untl _ _, _ => False
/-- The same for several terms. -/
def synPolarityAll (env : String → Bool → Prop) : List Syn → Bool → Prop
  | [], _ => True
  | a :: as, b => synPolarity env a b ∧ synPolarityAll env as b
end

/-- The polarity of the assertions of a text, with the formulas defined above them. -/
def textPolarity (cs : List Cmd) : List (String × (Bool → Prop)) := asserted synPolarity (fun _ _ => False) cs

end Spec
end Verif
