import Verif.Model.Peg

/-!
# The number of rules that the parser tries

PEGTL does not remember what a rule did at a position: after backtracking the same rule is matched once
more.  `Grammar.calls` counts how often a rule is tried while `Grammar.run` works, the combinators included:
one for each call of a template function `match` (PEGTL is not in the repository), one for each round of a
loop, and one for each call of a rule that fails as well as for one that matches.  Not counted are the actions and the
characters that `str` compares, at most 14.
-/

namespace Verif
namespace Peg

variable {N S : Type}

/-- What is counted after a rule has come back: `f` if it has matched, `h` if it has failed locally, and
nothing if it has thrown. -/
def after (o : Outcome (Option (List Char) × S)) (f : List Char → S → Nat) (h : S → Nat) : Nat :=
  match o with
  | .ok (some rest, st) => f rest st
  | .ok (none, st) => h st
  | _ => 0

/-- The state in which the body of a rule runs: `match` of actions.hpp:383-448 has a state of its own. -/
def Action.enter : Action S → S → S
  | .fresh enter _ _, st => enter st
  | _, st => st

/-- The rules tried by `Grammar.run`. -/
def Grammar.calls (g : Grammar N S) : Nat → Bool → Exp N → List Char → S → Nat
  | 0, _, _ => fun _ _ => 0
  | _ + 1, _, .one _ => fun _ _ => 1
  | _ + 1, _, .ranges _ => fun _ _ => 1
  | _ + 1, _, .str _ => fun _ _ => 1
  | _ + 1, _, .eof => fun _ _ => 1
  | _ + 1, _, .eolf => fun _ _ => 1
  | n + 1, a, .seq x y => fun inp st =>
    1 + g.calls n a x inp st + after (g.run n a x inp st) (g.calls n a y) fun _ => 0
  | n + 1, a, .sor x y => fun inp st =>
    1 + g.calls n a x inp st + after (g.run n a x inp st) (fun _ _ => 0) (g.calls n a y inp)
  | n + 1, a, .star x => fun inp st =>
    1 + g.calls n a x inp st + after (g.run n a x inp st) (g.calls n a (.star x)) fun _ => 0
  | n + 1, a, .plus x => fun inp st =>
    1 + g.calls n a x inp st + after (g.run n a x inp st) (g.calls n a (.star x)) fun _ => 0
  | n + 1, a, .opt x => fun inp st => 1 + g.calls n a x inp st
  | n + 1, _, .notAt x => fun inp st => 1 + g.calls n false x inp st
  | n + 1, a, .untilAny c => fun inp st =>
    1 + g.calls n a c inp st + after (g.run n a c inp st) (fun _ _ => 0) fun st' =>
      1 + after (anyR inp st') (g.calls n a (.untilAny c)) fun _ => 0
  | n + 1, a, .untl c x => fun inp st =>
    1 + g.calls n a c inp st + after (g.run n a c inp st) (fun _ _ => 0) fun st' =>
      g.calls n a x inp st' + after (g.run n a x inp st') (g.calls n a (.untl c x)) fun _ => 0
  | n + 1, a, .must x => fun inp st => 1 + g.calls n a x inp st
  | n + 1, _, .disable x => fun inp st => 1 + g.calls n false x inp st
  | n + 1, a, .nt x => fun inp st => 1 + g.calls n a (g.rules x) inp ((g.action x).enter st)

/-- The rules tried by `_parse`, parser.cc:21-42. -/
def parseCalls (K : Type) [Field K] [LinearOrder K] [Arith K] [Strtod K] (nd : Bool) (fuel : Nat)
    (input : List Char) : Nat :=
  (grammar (K := K) nd).calls fuel true (.nt .SpecificationFile) input {}

end Peg
end Verif
