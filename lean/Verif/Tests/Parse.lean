import Verif.Props.Parser

/-!
# The test `tests/test_parser.cc` of the repository, run on the model

The files of `tests/formulas` and the two strings of `test_parser.cc`.  This is a test of the *model*, not a
property.
-/

namespace Verif
namespace Tests

/-- The parse, with the fuel that C52 proves to be enough, in exact arithmetic (the only number in the
files that is not an integer is `10.0`). -/
def parse (s : String) : Outcome (Specification ℚ) := fromString false (s.toList.length + 1) s.toList

/-- `tests/formulas/formula0.stl-spec` -/
def formula0 : String :=
  "; Comment\n" ++
  "\n"

/-- `tests/formulas/formula1.stl-spec` -/
def formula1 : String :=
  "; vim: ft=lisp\n" ++
  "\n" ++
  "; Here, `phi1` is the name of the formula (which should be fetchable from some\n" ++
  "; hash table or something) and `x` is some signal value. Here we are defining\n" ++
  "; `always (x > 0)`.\n" ++
  "(define-formula phi1 (always (> x 0)))\n" ++
  "\n" ++
  "\n" ++
  "; Now we will define some regular formulas.\n" ++
  "(define-formula phi2 (< p 0))\n" ++
  "(define-formula phi3 (> q 0))\n" ++
  "(define-formula phi4 (and phi2 phi3))\n" ++
  "(define-formula phi5 (eventually phi4))\n" ++
  "(define-formula phi6 (always phi5))\n" ++
  "\n" ++
  "(assert monitor phi6)\n" ++
  "\n" ++
  "; alwas\n"

/-- `tests/formulas/formula2.stl-spec` -/
def formula2 : String :=
  "; vim: set ft=lisp\n" ++
  "\n" ++
  "(define-formula phi0 (< p 10.0))\n" ++
  "(define-formula phi1 true)\n" ++
  "(define-formula phi2 (not phi1))\n" ++
  "(define-formula phi3 (and phi1 phi2 phi0))\n"

/-- `tests/formulas/formula3.stl-spec` -/
def formula3 : String :=
  "; vim: set ft=lisp\n" ++
  "\n" ++
  "(define-formula phi0 (implies (< p 0) (> s 10)))\n" ++
  "; (define-formula phi1 (or (< p 0) (and (> q 0) (< r 0))))\n"

/-- `tests/formulas/formulafail1.stl-spec` -/
def formulafail1 : String :=
  "; vim: ft=lisp\n" ++
  "; Here, `phi1` is the name of the formula (which should be fetchable from some\n" ++
  "; hash table or something) and `x` is some signal value. Here we are defining\n" ++
  "; `always (x > 0)`.\n" ++
  "(define-formula phi1 (always (> x 0)))\n" ++
  "\n" ++
  "; It should fail here\n" ++
  "alwas\n" ++
  "\n"

/-- `tests/formulas/formulafail2.stl-spec` -/
def formulafail2 : String :=
  "; vim: ft=lisp\n" ++
  "; It should fail here\n" ++
  ";                 ↓\n" ++
  "(define-formulaphi1)\n"

/-- `tests/formulas/formulafail3.stl-spec` -/
def formulafail3 : String :=
  "; vim: ft=lisp\n" ++
  "\n" ++
  "; It should fail here\n" ++
  ";                                ↓\n" ++
  "(define-formula phi1 (and (< x 0)))\n" ++
  "\n"

mutual
/-- Equality of formulas. -/
def same : Expr ℚ → Expr ℚ → Bool
  | .const b, .const b' => b == b'
  | .pred n op c, .pred n' op' c' => n == n' && op == op' && c == c'
  | .not e, .not e' => same e e'
  | .and es, .and es' => sameList es es'
  | .or es, .or es' => sameList es es'
  | .always e i, .always e' i' => same e e' && i == i'
  | .eventually e i, .eventually e' i' => same e e' && i == i'
  | .untl a b i, .untl a' b' i' => same a a' && same b b' && i == i'
  | _, _ => false
def sameList : List (Expr ℚ) → List (Expr ℚ) → Bool
  | [], [] => true
  | e :: es, e' :: es' => same e e' && sameList es es'
  | _, _ => false
end

/-- The formulas and the assertions with the given names and meanings, in this order, and nothing else. -/
def parsesTo (s : String) (formulas assertions : List (String × Expr ℚ)) : Bool :=
  match parse s with
  | .ok sp =>
    sp.formulas.map Prod.fst == formulas.map Prod.fst &&
    sp.assertions.map Prod.fst == assertions.map Prod.fst &&
    sameList (sp.formulas.map Prod.snd) (formulas.map Prod.snd) &&
    sameList (sp.assertions.map Prod.snd) (assertions.map Prod.snd)
  | _ => false

/-- The text is rejected by the grammar. -/
def rejected (s : String) : Bool :=
  match parse s with
  | .throw .parseError => true
  | _ => false

/-- First string of test_parser.cc:24-25. -/
def string1 : String :=
  "(define-formula phi1 (< p 0))\n" ++
  "(assert monitor phi1)\n"

def x : Expr ℚ := .pred "x" .GT 0
def p : Expr ℚ := .pred "p" .LT 0
def q : Expr ℚ := .pred "q" .GT 0
def phi5 : Expr ℚ := .Eventually (.and [p, q])

example : parsesTo formula0 [] [] = true := by decide +kernel
/-- The second string of test_parser.cc:26-36 has the same commands. -/
example : parsesTo formula1
    [("phi1", .Always x), ("phi2", p), ("phi3", q), ("phi4", .and [p, q]), ("phi5", phi5), ("phi6", .Always phi5)]
    [("monitor", .Always phi5)] = true := by decide +kernel
example : parsesTo formula2
    [("phi0", .pred "p" .LT (.fin 10)), ("phi1", .const true), ("phi2", .const false),
      ("phi3", .and [.const true, .const false, .pred "p" .LT (.fin 10)])] [] = true := by decide +kernel
example : parsesTo formula3 [("phi0", .or [.not p, .pred "s" .GT (.fin 10)])] [] = true := by decide +kernel
example : parsesTo string1 [("phi1", p)] [("monitor", p)] = true := by decide +kernel
/-- `REQUIRE_THROWS` -/
example : rejected formulafail1 = true ∧ rejected formulafail2 = true ∧ rejected formulafail3 = true := by
  decide +kernel

end Tests
end Verif
