import Verif.Model.ParserMessages

/-!
# Positions of parse errors

`peg::parse_error` carries a position: line, column and byte (PEGTL 3, `position.hpp`).  The inputs of
parser.cc:48 and 53 track it *eagerly* (the default): with every character that is consumed the position
is moved on (`internal/bump.hpp`).  PEGTL is not in the repository; this is its documented behaviour, with
the end of line `lf_crlf` (the default), whose last character is `\n`.
-/

namespace Verif

/-- `peg::position`; line and column begin with 1. -/
structure Pos where
  line : Nat := 1
  column : Nat := 1
  byte : Nat := 0
  deriving DecidableEq, Repr

/-- `internal::bump`, for one character. -/
def Pos.bump (p : Pos) (c : Char) : Pos :=
  if c = '\n' then ⟨p.line + 1, 1, p.byte + 1⟩ else ⟨p.line, p.column + 1, p.byte + 1⟩

/-- The position of `place` in `text`, after the characters before it have been consumed. -/
def posOf (text place : List Char) : Pos := (text.take (text.length - place.length)).foldl Pos.bump {}

/-- `parse_error::what()` for an error of `from_string`, parser.cc:48. -/
def whatText (text : List Char) (m : Msg) (place : List Char) : String :=
  let p := posOf text place
  "from_content:" ++ toString p.line ++ ":" ++ toString p.column ++ ": " ++ m.text

end Verif
