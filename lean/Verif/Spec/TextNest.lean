import Verif.Spec.Meaning

/-! # Nesting of temporal operators in a text -/

namespace Verif
namespace Spec

/-- The greater of two numbers, if both are there. -/
def joinNest : Option Nat → Option Nat → Option Nat
  | some a, some b => some (max a b)
  | _, _ => none

mutual
/-- How deep Always and Eventually are nested in a term without Until and constants. -/
def synNest (env : String → Option Nat) : Syn → Option Nat
  | .tru => none
  | .fls => none
  | .ref n => env n
  | .cmp _ _ _ => some 0
  | .rcmp _ _ _ => some 0
  | .not a => synNest env a
  | .and ts => synNestAll env ts
  | .or ts => synNestAll env ts
  | .implies a b => joinNest (synNest env a) (synNest env b)
  | .iff a b => joinNest (synNest env a) (synNest env b)
  | .xor a b => joinNest (synNest env a) (synNest env b)
  | .always a => (synNest env a).map (· + 1)
  | .eventually a => (synNest env a).map (· + 1)
  | .untl _ _ => none
/-- The greatest number for several terms. -/
def synNestAll (env : String → Option Nat) : List Syn → Option Nat
  | [] => some 0
  | a :: as => joinNest (synNest env a) (synNestAll env as)
end

/-- The nesting in the assertions of a text, with the formulas defined above them. -/
def textNest (cs : List Cmd) : List (String × Option Nat) := asserted synNest (fun _ => none) cs

end Spec
end Verif
