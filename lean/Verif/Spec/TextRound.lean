import Verif.Spec.Meaning

/-! # Texts whose assertions are Boolean combinations of temporal operators on predicates -/

namespace Verif
namespace Spec

/-- Shapes of terms. -/
inductive Layer where
  /-- A predicate below Not, Always and Eventually. -/
  | chain
  /-- Boolean operators on top of such terms. -/
  | mixed
  /-- Anything else. -/
  | other
  deriving DecidableEq

/-- Boolean operators. -/
def Layer.join : Layer → Layer → Layer
  | .other, _ => .other
  | _, .other => .other
  | _, _ => .mixed

/-- Always and Eventually. -/
def Layer.temporal : Layer → Layer
  | .chain => .chain
  | _ => .other

mutual
/-- The shape of a term. -/
def layer (env : String → Layer) : Syn → Layer
  | .tru => .other
  | .fls => .other
  | .ref n => env n
  | .cmp _ _ _ => .chain
  | .rcmp _ _ _ => .chain
  | .not a => layer env a
  | .and ts => layerAll env ts
  | .or ts => layerAll env ts
  | .implies a b => (layer env a).join (layer env b)
  | .iff a b => (layer env a).join (layer env b)
  | .xor a b => (layer env a).join (layer env b)
  | .always a => (layer env a).temporal
  | .eventually a => (layer env a).temporal
  | .untl _ _ => .other
/-- The shape of a Boolean operator applied to terms. -/
def layerAll (env : String → Layer) : List Syn → Layer
  | [] => .mixed
  | a :: as => (layer env a).join (layerAll env as)
end

/-- The shapes of the assertions of a text. -/
def textLayer (cs : List Cmd) : List (String × Layer) := asserted layer (fun _ => .other) cs

end Spec
end Verif
