import Verif.Model.ParserMessages
import Mathlib.Data.List.Nodup

/-! # The texts of the messages are different -/

namespace Verif

/-- The number of the message. -/
def Msg.number : Msg → Nat
  | .skip => 0
  | .identifier => 1
  | .exponent => 2
  | .predicateForm => 3
  | .naryTail => 4
  | .binaryTail => 5
  | .termTail => 6
  | .term => 7
  | .allowedCommands => 8
  | .anyCommandTail => 9
  | .statementList => 10
  | .tooFew _ => 11
  | .assertionAgain _ => 12
  | .formulaAgain _ => 13

/-- The first letters of the texts. -/
def heads : List (List Char) :=
  [Msg.skip, .identifier, .exponent, .predicateForm, .naryTail, .binaryTail, .termTail, .term, .allowedCommands,
    .anyCommandTail, .statementList, .tooFew 0, .assertionAgain "", .formulaAgain ""].map fun m => m.text.toList.take 30

theorem heads_nodup : heads.Nodup := by decide +kernel

theorem Msg.head (m : Msg) : heads[m.number]? = some (m.text.toList.take 30) := by
  cases m with
  | tooFew n =>
    show some (List.take 30 ("expected at least 2 terms, got " ++ toString 0).toList) =
      some (List.take 30 ("expected at least 2 terms, got " ++ toString n).toList)
    rw [String.toList_append, String.toList_append, List.take_append_of_le_length (by decide),
      List.take_append_of_le_length (by decide)]
  | assertionAgain id =>
    show some (List.take 30 ("possible redefinition of Assertion with id: \"" ++ "" ++ "\"").toList) =
      some (List.take 30 ("possible redefinition of Assertion with id: \"" ++ id ++ "\"").toList)
    rw [String.toList_append, String.toList_append, String.toList_append, String.toList_append, List.append_assoc,
      List.append_assoc, List.take_append_of_le_length (by decide),
      List.take_append_of_le_length (by decide)]
  | formulaAgain id =>
    show some (List.take 30 ("possible redefinition of Formula with id: \"" ++ "" ++ "\"").toList) =
      some (List.take 30 ("possible redefinition of Formula with id: \"" ++ id ++ "\"").toList)
    rw [String.toList_append, String.toList_append, String.toList_append, String.toList_append, List.append_assoc,
      List.append_assoc, List.take_append_of_le_length (by decide),
      List.take_append_of_le_length (by decide)]
  | _ => rfl

end Verif
