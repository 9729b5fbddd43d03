import Verif.Model.Peg

/-!
# The depth of recursion of the parser

The same machine as `Grammar.run`, but for a stack of limited depth.  A rule is matched by a call of a
template function, which calls those of the rules it consists of; `star`, `plus` and `until` are loops in
PEGTL (its include/tao/pegtl/internal/star.hpp, plus.hpp, until.hpp; PEGTL is not in the repository), so
their iterations take turns on the stack.  `depth` is the number of rules that may be open at the same time, the
combinators included; each takes a few stack frames of C++.  `rounds` limits the rounds of each loop, and
is only there to have a total function.
-/

namespace Verif
namespace Peg

variable {N S : Type}

/-- `star<x>` as a loop. -/
def loopR (x : Run S) : Nat → Run S
  | 0 => fun _ _ => .diverge
  | n + 1 => starR x (loopR x n)

/-- `until<c, x>` as a loop. -/
def untilR (c x : Run S) : Nat → Run S
  | 0 => fun _ _ => .diverge
  | n + 1 => elseR c (thenR x (untilR c x n))

/-- The machine with a stack; `.diverge` if the stack is too small. -/
def Grammar.stack (g : Grammar N S) (rounds : Nat) : Nat → Bool → Exp N → Run S
  | 0, _, _ => fun _ _ => .diverge
  | _ + 1, _, .one cs => char fun c => cs.contains c
  | _ + 1, _, .ranges rs => char fun c => rs.any fun r => r.1 ≤ c && c ≤ r.2
  | _ + 1, _, .str s => fun inp st =>
    .ok (if s.isPrefixOf inp then some (inp.drop s.length) else none, st)
  | _ + 1, _, .eof => fun inp st => .ok (if inp.isEmpty then some inp else none, st)
  | _ + 1, _, .eolf => fun inp st => .ok (eolf inp, st)
  | d + 1, a, .seq x y => thenR (g.stack rounds d a x) (g.stack rounds d a y)
  | d + 1, a, .sor x y => elseR (g.stack rounds d a x) (g.stack rounds d a y)
  | d + 1, a, .star x => loopR (g.stack rounds d a x) rounds
  | d + 1, a, .plus x => thenR (g.stack rounds d a x) (loopR (g.stack rounds d a x) rounds)
  | d + 1, a, .opt x => optR (g.stack rounds d a x)
  | d + 1, _, .notAt x => notAtR (g.stack rounds d false x)
  | d + 1, a, .untilAny c => untilR (g.stack rounds d a c) anyR rounds
  | d + 1, a, .untl c x => untilR (g.stack rounds d a c) (g.stack rounds d a x) rounds
  | d + 1, a, .must x => mustR (g.stack rounds d a x)
  | d + 1, _, .disable x => g.stack rounds d false x
  | d + 1, a, .nt x => (g.action x).wrap a (g.stack rounds d a (g.rules x))

/-- `_parse`, parser.cc:21-42, with a stack of this depth. -/
def parseStack {K : Type} [Field K] [LinearOrder K] [Arith K] [Strtod K] (nd : Bool) (rounds depth : Nat)
    (input : List Char) : Outcome (Specification K) := do
  match ← (grammar nd).stack rounds depth true (.nt .SpecificationFile) input {} with
  | (some _, st) => return st.g
  | (none, _) => .throw .logicError

end Peg
end Verif
