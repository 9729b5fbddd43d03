import Verif.Proofs.ParserCost
import Verif.Props.Parser

/-! # Parsing takes linear time: C107 -/

namespace Verif

variable {K : Type} [Field K] [LinearOrder K] [Arith K] [Strtod K]

/-- **C107.** The parser that counts the characters it examines is the parser. -/
theorem C107_same (nd : Bool) (fuel : Nat) (input : List Char) :
    (fromStringC (K := K) nd fuel input).1 = fromString nd fuel input := fromStringC_fst nd fuel input

/-- **C107.** Parsing a text of `n` characters examines at most `300 n + 3` characters, whatever the outcome: although
the grammar is tried alternative by alternative and the alternatives of a predicate are read twice, there is no
exponential (or even quadratic) backtracking. -/
theorem C107_linear (nd : Bool) (fuel : Nat) (input : List Char) :
    (fromStringC (K := K) nd fuel input).2 ≤ 300 * input.length + 3 := fromStringC_cost nd fuel input

example : (fromStringC (K := ℚ) true 50 "(assert f (and (> x 1) (not (< y 2.5))))".toList).2 = 109 := by decide +kernel

end Verif
