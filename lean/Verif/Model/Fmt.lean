import Verif.Model.Ast
import Verif.Model.Signal

/-!
# Model of `src/include/signal_tl/fmt.hpp`

How formulas and signals are printed.  The text of a double (the replacement field `{}` of the fmt
library) is the parameter `num`.  `format_to` through `fmt::formatter<Expr>` (fmt.hpp:149-167), which is used
for the operands, and `operator<<` (fmt.hpp:136-147) print the same.
-/

namespace Verif
namespace Fmt

variable {K : Type} [Field K] [LinearOrder K] [Arith K]

/-- The text of a comparison, fmt.hpp:41-55. -/
def op : ComparisonOp → List Char
  | .GE => ['>', '=']
  | .GT => ['>']
  | .LE => ['<', '=']
  | .LT => ['<']

/-- A replacement field for a `bool`, fmt.hpp:32. -/
def bool (b : Bool) : List Char := if b then ['t', 'r', 'u', 'e'] else ['f', 'a', 'l', 's', 'e']

variable (num : D K → List Char)

/-- The interval of Always, fmt.hpp:92-99.  (`int` is what the code prints.) -/
def alwaysHead (i : Interval K) : List Char :=
  if i.hasValue then
    if i.asDouble.2.isinf then 'G' :: '[' :: (num i.asDouble.1 ++ [',', ' ', 'i', 'n', 't', ')', ' '])
    else 'G' :: '[' :: (num i.asDouble.1 ++ ',' :: (num i.asDouble.2 ++ [']', ' ']))
  else ['G', ' ']

/-- The interval of Eventually, fmt.hpp:108-115. -/
def eventuallyHead (i : Interval K) : List Char :=
  if i.hasValue then
    if i.asDouble.2.isinf then 'F' :: '[' :: (num i.asDouble.1 ++ [',', ' ', 'i', 'n', 'f', ']', ' '])
    else 'F' :: '[' :: (num i.asDouble.1 ++ ',' :: (num i.asDouble.2 ++ [']', ' ']))
  else ['F', ' ']

/-- The interval of Until, fmt.hpp:125-132. -/
def untilMid (i : Interval K) : List Char :=
  if i.hasValue then
    if i.asDouble.2.isinf then ' ' :: 'U' :: '[' :: (num i.asDouble.1 ++ [',', ' ', 'i', 'n', 'f', ')', ' '])
    else ' ' :: 'U' :: '[' :: (num i.asDouble.1 ++ ',' :: (num i.asDouble.2 ++ [']', ' ']))
  else [' ', 'U', ' ']

mutual
/-- `formatter<Const>` (fmt.hpp:27-34), `<Predicate>` (36-58), `<Not>` (60-67), `<And>` (69-76), `<Or>` (78-85),
`<Always>` (87-101), `<Eventually>` (103-117), `<Until>` (119-134). -/
def expr : Expr K → List Char
  | .const b => bool b
  | .pred n o c => '(' :: (n.toList ++ ' ' :: (op o ++ ' ' :: (num c ++ [')'])))
  | .not e => '~' :: expr e
  | .and es => '(' :: (join [' ', '&', ' '] es ++ [')'])
  | .or es => '(' :: (join [' ', '|', ' '] es ++ [')'])
  | .always e i => alwaysHead num i ++ expr e
  | .eventually e i => eventuallyHead num i ++ expr e
  | .untl a b i => expr a ++ (untilMid num i ++ expr b)
/-- `fmt::join`. -/
def join (sep : List Char) : List (Expr K) → List Char
  | [] => []
  | [e] => expr e
  | e :: e' :: es => expr e ++ (sep ++ join sep (e' :: es))
end

/-- `formatter<Sample>`, fmt.hpp:169-179. -/
def sample (s : Sample K) : List Char :=
  '(' :: (num s.time ++ ',' :: ' ' :: (num s.value ++ [')']))

/-- `fmt::join` for samples. -/
def samples : List (Sample K) → List Char
  | [] => []
  | [s] => sample num s
  | s :: s' :: l => sample num s ++ ',' :: ' ' :: samples (s' :: l)

/-- `formatter<Signal>`, fmt.hpp:181-191. -/
def signal (l : List (Sample K)) : List Char := '[' :: (samples num l ++ [']'])

end Fmt
end Verif
