import Verif.Model.Fmt
import Verif.Model.Position
import Mathlib.Data.String.Basic
import Mathlib.Data.List.Sort

/-!
# Model of `from_file`, `trace_from_file` and `examples/basic_parsing.cc`

The functions of PEGTL that are used here (`file_input`, `line_at`) are not in the repository; this is their documented
behaviour.  Characters are bytes.
-/

namespace Verif

/-- The contents of the files that can be read. -/
abbrev Files := String → Option (List Char)

section
variable {K : Type} [Field K] [LinearOrder K] [Arith K] [Strtod K]

/-- `from_file(path)`, parser.cc:52-55; `none` is the exception of `file_input` for a file that cannot be read. -/
def fromFile (nd : Bool) (fuel : Nat) (fs : Files) (path : String) : Option (Outcome (Specification K)) :=
  (fs path).map (fromString nd fuel)

/-- `trace_from_file(path)`, parser.cc:66-73: the same states and actions as in `_parse`; the trace is not modelled. -/
def traceFromFile (K : Type) [Field K] [LinearOrder K] [Arith K] [Strtod K] (nd : Bool) (fuel : Nat) (fs : Files)
    (path : String) : Option (Outcome Bool) :=
  (fs path).map fun text => do
    match ← Rule.specificationFile (K := K) nd fuel text {} with
    | (some _, _) => return true
    | (none, _) => return false

end

/-- `parse_error::what()` for an error in the input with the name `source`. -/
def whatIn (source : String) (text : List Char) (m : Msg) (place : List Char) : String :=
  let p := posOf text place
  source ++ ":" ++ toString p.line ++ ":" ++ toString p.column ++ ": " ++ m.text

/-- What `until< at< eolf > >` consumes: up to the end of line (`\n` or `\r\n`) or of the input. -/
def toEol : List Char → List Char
  | [] => []
  | '\n' :: _ => []
  | '\r' :: '\n' :: _ => []
  | c :: cs => c :: toEol cs

/-- `memory_input::line_at(p)`: from `p.column - 1` characters before `p.byte` to the end of line. -/
def lineAt (text : List Char) (p : Pos) : List Char :=
  (text.drop (p.byte - (p.column - 1))).take (p.column - 1 + (toEol (text.drop p.byte)).length)

/-- `std::setw(n) << '^'`. -/
def caret (n : Nat) : List Char := List.replicate (n - 1) ' ' ++ ['^']

/-- How a program ends. -/
inductive Ends where
  | exit (code : Nat)
  | uncaught (e : Exn)   -- std::terminate
  | fileError            -- std::terminate, by the exception of `file_input`
  | abort
  | ub (u : UB)
  | diverge
  deriving DecidableEq, Repr

/-- What a program does. -/
structure Proc where
  out : List Char := []
  err : List Char := []
  ends : Ends
  deriving DecidableEq

section
variable {K : Type} [Field K] [LinearOrder K] [Arith K] [Strtod K]

/-- The pairs of a `std::map` in the order of iteration. -/
def byName (m : List (String × Expr K)) : List (String × Expr K) := m.mergeSort fun p q => decide (p.1 ≤ q.1)

/-- basic_parsing.cc:28-31. -/
def listing (num : D K → List Char) (m : List (String × Expr K)) : List Char :=
  "Parsed formulas are:\n".toList ++
    (byName m).flatMap fun p => '\t' :: (p.1.toList ++ (" := ".toList ++ (Fmt.expr num p.2 ++ ['\n'])))

/-- `main` of examples/basic_parsing.cc, 17-41; `args` are the arguments without the name of the program.  Line 23 reads
the file outside the `try` block. -/
def basicParsing (num : D K → List Char) (nd : Bool) (fuel : Nat) (fs : Files) (args : List String) : Proc :=
  match args with
  | [path] =>
    match fs path with
    | none => { ends := .fileError }
    | some text =>
      match fromStringM (K := K) nd fuel text with
      | .does (.ok sp) => { out := listing num sp.formulas, ends := .exit 0 }
      | .does (.throw e) => { ends := .uncaught e }
      | .does .abort => { ends := .abort }
      | .does (.ub u) => { ends := .ub u }
      | .does .diverge => { ends := .diverge }
      | .error m _ place =>
        let p := posOf text place
        { err := (whatIn path text m place).toList ++ '\n' :: (lineAt text p ++ '\n' :: (caret p.column ++ ['\n'])),
          ends := .exit 1 }
  | _ => { err := "Invalid number of arguments. Need input file\n".toList, ends := .exit 1 }

end
end Verif
