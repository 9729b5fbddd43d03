import Verif.Spec.TextNest

/-! # The translation of C131 for texts -/

namespace Verif
namespace Spec

mutual
/-- The term with every `(until a b)` replaced by `(or c (until a c) (always a))`, where `c` is
`(or b (always (not b)))`. -/
def synActual : Syn → Syn
  | .tru => .tru
  | .fls => .fls
  | .ref n => .ref n
  | .cmp o n c => .cmp o n c
  | .rcmp o c n => .rcmp o c n
  | .not a => .not (synActual a)
  | .and ts => .and (synActuals ts)
  | .or ts => .or (synActuals ts)
  | .implies a b => .implies (synActual a) (synActual b)
  | .iff a b => .iff (synActual a) (synActual b)
  | .xor a b => .xor (synActual a) (synActual b)
  | .always a => .always (synActual a)
  | .eventually a => .eventually (synActual a)
  | .untl a b =>
    .or [.or [synActual b, .always (.not (synActual b))],
      .untl (synActual a) (.or [synActual b, .always (.not (synActual b))]),
      .always (synActual a)]
/-- Several terms. -/
def synActuals : List Syn → List Syn
  | [] => []
  | a :: as => synActual a :: synActuals as
end

/-- The same in a definition or an assertion. -/
def cmdActual : Cmd → Cmd
  | .define n t => .define n (synActual t)
  | .assert n t => .assert n (synActual t)

mutual
/-- How deep temporal operators are nested in a term without constants, Until counting four. -/
def synLevels (env : String → Option Nat) : Syn → Option Nat
  | .tru => none
  | .fls => none
  | .ref n => env n
  | .cmp _ _ _ => some 0
  | .rcmp _ _ _ => some 0
  | .not a => synLevels env a
  | .and ts => synLevelsAll env ts
  | .or ts => synLevelsAll env ts
  | .implies a b => joinNest (synLevels env a) (synLevels env b)
  | .iff a b => joinNest (synLevels env a) (synLevels env b)
  | .xor a b => joinNest (synLevels env a) (synLevels env b)
  | .always a => (synLevels env a).map (· + 1)
  | .eventually a => (synLevels env a).map (· + 1)
  | .untl a b => (joinNest (synLevels env a) (synLevels env b)).map (· + 4)
/-- The greatest number for several terms. -/
def synLevelsAll (env : String → Option Nat) : List Syn → Option Nat
  | [] => some 0
  | a :: as => joinNest (synLevels env a) (synLevelsAll env as)
end

/-- The nesting in the assertions of a text, with the formulas defined above them. -/
def textLevels (cs : List Cmd) : List (String × Option Nat) := asserted synLevels (fun _ => none) cs

end Spec
end Verif
