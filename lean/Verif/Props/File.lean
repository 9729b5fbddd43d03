import Verif.Proofs.File
import Verif.Props.ParserErrors
import Verif.Props.PrintParsed

/-!
# Files, and the example program that parses one (C122, C123)
-/

set_option linter.unusedSectionVars false

namespace Verif
open Spec Fmt

section
variable {K : Type} [Field K] [LinearOrder K] [IsStrictOrderedRing K] [Arith K] [Strtod K]

/-! ## C122 -/

/-- **C122.** A file is parsed as its contents are, and `trace_from_file` returns true for exactly the files that are
accepted; it never returns false. -/
theorem C122_file (nd : Bool) (fuel : Nat) (fs : Files) (path : String) (text : List Char) (h : fs path = some text) :
    fromFile (K := K) nd fuel fs path = some (fromString nd fuel text) ∧
    (traceFromFile K nd fuel fs path = some (.ok true) ↔ ∃ sp : Specification K, fromString nd fuel text = .ok sp) ∧
    traceFromFile K nd fuel fs path ≠ some (.ok false) ∧
    ∀ e, traceFromFile K nd fuel fs path = some (.throw e) ↔ fromString (K := K) nd fuel text = .throw e := by
  simp only [fromFile, traceFromFile, h, Option.map_some, Option.some.injEq, ne_eq, true_and]
  have hl := C94_local_partial (K := K) nd fuel text
  unfold fromString
  rcases hr : Rule.specificationFile (K := K) nd fuel text {} with ⟨_ | rest, st⟩ | e | _ | _ | _
  · exact absurd hr (hl st)
  all_goals simp [bind, Outcome.bind]

/-- **C122.** The message of an error differs only in the name of the source. -/
theorem C122_what (path : String) (text : List Char) (m : Msg) (place : List Char) :
    ∃ rest, whatText text m place = "from_content" ++ rest ∧ whatIn path text m place = path ++ rest := by
  refine ⟨":" ++ (toString (posOf text place).line ++ (":" ++ (toString (posOf text place).column ++ (": " ++
    m.text)))), ?_, ?_⟩
  · have : "from_content:" = "from_content" ++ ":" := by decide
    simp only [whatText, this, String.append_assoc]
  · simp only [whatIn, String.append_assoc]

/-- **C122.** For a file with a parse error the example program shows the message, the whole line of the error, and a
caret below the character at which the error is: `part` is the part of the line before it. -/
theorem C122_reports (num : D K → List Char) (nd : Bool) (fuel : Nat) (fs : Files) (path : String) (text : List Char)
    (h : fs path = some text) (hp : fromString (K := K) nd fuel text = .throw .parseError) :
    ∃ m s place pre part rest post, fromStringM (K := K) nd fuel text = .error m s place ∧ place = rest ++ post ∧
      text = pre ++ (part ++ rest) ++ post ∧ (pre = [] ∨ ∃ q, pre = q ++ ['\n']) ∧ '\n' ∉ part ++ rest ∧
      (post = [] ∨ (∃ q, post = '\n' :: q) ∨ ∃ q, post = '\r' :: '\n' :: q) ∧
      basicParsing num nd fuel fs [path] =
        { out := [],
          err := (whatIn path text m place).toList ++ '\n' :: (part ++ rest) ++
            '\n' :: (List.replicate part.length ' ' ++ ['^', '\n']),
          ends := .exit 1 } := by
  obtain ⟨m, s, place, e⟩ := C110_always nd fuel text hp
  obtain ⟨i1, i2⟩ := C110_inside nd fuel text e
  obtain ⟨before, rfl⟩ := i1.trans i2
  obtain ⟨pre, part, rest, post, h1, h2, h3, h4, h5, h6, h7⟩ := lineAt_spec before place
  refine ⟨m, s, place, pre, part, rest, post, e, h2, ?_, h5, h6, h7, ?_⟩
  · rw [h1, h2]; simp
  · simp only [basicParsing, h, e, h3, h4]
    simp

/-- **C122.** The exit status is 0 exactly for an accepted file, and 1 exactly for a parse error or a wrong number of
arguments. -/
theorem C122_status (num : D K → List Char) (nd : Bool) (fuel : Nat) (fs : Files) (args : List String) :
    ((basicParsing num nd fuel fs args).ends = .exit 0 ↔
      ∃ path text sp, args = [path] ∧ fs path = some text ∧ fromString (K := K) nd fuel text = .ok sp) ∧
    ((basicParsing num nd fuel fs args).ends = .exit 1 ↔ args.length ≠ 1 ∨
      ∃ path text, args = [path] ∧ fs path = some text ∧ fromString (K := K) nd fuel text = .throw .parseError) := by
  match args with
  | [] => simp [basicParsing]
  | a :: b :: l => simp [basicParsing]
  | [path] =>
    rcases h : fs path with _ | text
    · simp [basicParsing, h]
    · have hf := fromStringM_forget (K := K) nd fuel text
      rcases h1 : fromStringM (K := K) nd fuel text with ⟨m, s, p⟩ | (sp | e | _ | _ | _)
      all_goals
        rw [h1] at hf
        simp only [Said.forget] at hf
        simp [basicParsing, h, h1, ← hf]
      rintro rfl
      exact fromStringM_never nd fuel text h1

/-- **C122.** The output for an accepted file: one line for each formula, in the order of the names. -/
theorem C122_output (num : D K → List Char) (nd : Bool) (fuel : Nat) (fs : Files) (path : String) (text : List Char)
    (h : fs path = some text) {sp : Specification K} (hp : fromString nd fuel text = .ok sp) :
    ∃ l : List (String × Expr K), l.Perm sp.formulas ∧ (l.Pairwise fun p q => p.1 < q.1) ∧
      basicParsing num nd fuel fs [path] =
        { out := "Parsed formulas are:\n".toList ++
            l.flatMap fun p => '\t' :: (p.1.toList ++ (" := ".toList ++ (expr num p.2 ++ ['\n']))),
          err := [], ends := .exit 0 } := by
  refine ⟨byName sp.formulas, byName_perm _, byName_strict (C55_distinct hp).1, ?_⟩
  have hf := fromStringM_forget (K := K) nd fuel text
  rw [hp] at hf
  rcases h1 : fromStringM (K := K) nd fuel text with ⟨m, s, p⟩ | (sp' | e | _ | _ | _)
  all_goals
    rw [h1] at hf
    simp only [Said.forget] at hf
    cases hf
  simp only [basicParsing, h, h1]
  rfl

/-- **C122.** The output tells which formulas have been defined, but not in which order: two accepted files have the
same output exactly if they define the same formulas, up to what the text of a formula does not show (C59). -/
theorem C122_listing {num : D K → List Char} (hn : Faithful num) {nd nd' : Bool} {fuel fuel' : Nat} {fs : Files}
    {path path' : String} {text text' : List Char} (h : fs path = some text) (h' : fs path' = some text')
    (hf : text.length < fuel) (hf' : text'.length < fuel') {sp sp' : Specification K}
    (hp : fromString nd fuel text = .ok sp) (hp' : fromString nd' fuel' text' = .ok sp') :
    (basicParsing num nd fuel fs [path]).out = (basicParsing num nd' fuel' fs [path']).out ↔
      (sp.formulas.map fun p => (p.1, rebracket p.2)).Perm (sp'.formulas.map fun p => (p.1, rebracket p.2)) := by
  obtain ⟨l, l1, l2, l3⟩ := C122_output num nd fuel fs path text h hp
  obtain ⟨l', l1', l2', l3'⟩ := C122_output num nd' fuel' fs path' text' h' hp'
  have g : ∀ {nd : Bool} {fuel : Nat} {text : List Char} {sp : Specification K} {l : List (String × Expr K)},
      text.length < fuel → fromString nd fuel text = .ok sp → l.Perm sp.formulas →
      ∀ p ∈ l, PlainName p.1 ∧ PrintableU p.2 := fun hf hp hl p hm =>
    ⟨plain_of_name ((parsed_keys hf hp).1 p (hl.mem_iff.1 hm)),
      (C59_parsed_partial hn hf hp).1 p (List.mem_append_left _ (hl.mem_iff.1 hm))⟩
  rw [l3, l3']
  constructor
  · intro he
    have he := lines_inj hn l l' (g hf hp l1) (g hf' hp' l1') (List.append_cancel_left he)
    exact (l1.map shown).symm.trans ((List.Perm.of_eq he).trans (l1'.map shown))
  · intro he
    have e1 : (l.map shown).Perm (l'.map shown) := (l1.map shown).trans (he.trans (l1'.map shown).symm)
    have e2 : l.map shown = l'.map shown :=
      e1.eq_of_pairwise (le := fun p q => p.1 < q.1) (fun a b _ _ h1 h2 => absurd (lt_trans h1 h2) (lt_irrefl _))
        (by rw [List.pairwise_map]; exact l2) (by rw [List.pairwise_map]; exact l2')
    have e3 : ∀ l : List (String × Expr K), l.flatMap (defLine num) = (l.map shown).flatMap (defLine num) := by
      intro l
      rw [List.flatMap_map]
      exact congrArg (l.flatMap ·) (funext fun p => (defLine_shown p).symm)
    change "Parsed formulas are:\n".toList ++ l.flatMap (defLine num) =
      "Parsed formulas are:\n".toList ++ l'.flatMap (defLine num)
    rw [e3 l, e3 l', e2]

/-! ## C123 -/

/-- **C123**, exactly how the program can end, if it does not end with status 0 or 1. -/
theorem C123_ends_partial (num : D K → List Char) (nd : Bool) (fuel : Nat) (fs : Files) (path : String)
    (hfuel : ∀ text, fs path = some text → text.length < fuel) (r : Ends) (h0 : r ≠ .exit 0) (h1 : r ≠ .exit 1)
    (h : (basicParsing (K := K) num nd fuel fs [path]).ends = r) :
    (r = .fileError ∧ fs path = none) ∨
    (∃ text, fs path = some text ∧ r = .abort ∧ nd = false ∧ fromString (K := K) nd fuel text = .abort) ∨
    ∃ text e, fs path = some text ∧ r = .uncaught e ∧ fromString (K := K) nd fuel text = .throw e ∧
      (e = .outOfRange ∨ e = .logicError ∨ e = .invalidArgument ∨ e = .badOptionalAccess) := by
  subst h
  rcases hfs : fs path with _ | text
  · exact .inl ⟨by simp [basicParsing, hfs], rfl⟩
  · right
    have hf := fromStringM_forget (K := K) nd fuel text
    obtain ⟨r, hr, hr'⟩ := C52_terminates (K := K) nd text
    have hr := hr fuel (hfuel text hfs)
    rcases h2 : fromStringM (K := K) nd fuel text with ⟨m, s, p⟩ | (sp | e | _ | _ | _)
    · exact absurd (by simp [basicParsing, hfs, h2]) h1
    · exact absurd (by simp [basicParsing, hfs, h2]) h0
    all_goals
      rw [h2] at hf
      simp only [Said.forget] at hf
    · refine .inr ⟨text, e, rfl, by simp [basicParsing, hfs, h2], hf.symm, ?_⟩
      rcases C94_exceptions_partial nd fuel text e hf.symm with rfl | h | h | h | h
      · exact absurd h2 (fromStringM_never nd fuel text)
      all_goals tauto
    all_goals
      rw [hr] at hf
      rcases hr' with ⟨sp, rfl⟩ | ⟨e, rfl⟩ | ⟨hnd, rfl⟩ <;> cases hf
    exact .inl ⟨text, rfl, by simp [basicParsing, hfs, h2], hnd, hr⟩

/-- **C123**, nothing is shown in these cases. -/
theorem C123_silent_partial (num : D K → List Char) (nd : Bool) (fuel : Nat) (fs : Files) (path : String)
    (h0 : (basicParsing (K := K) num nd fuel fs [path]).ends ≠ .exit 0)
    (h1 : (basicParsing (K := K) num nd fuel fs [path]).ends ≠ .exit 1) :
    (basicParsing (K := K) num nd fuel fs [path]).out = [] ∧
      (basicParsing (K := K) num nd fuel fs [path]).err = [] := by
  rcases hfs : fs path with _ | text
  · simp [basicParsing, hfs]
  · rcases h2 : fromStringM (K := K) nd fuel text with ⟨m, s, p⟩ | (sp | e | _ | _ | _)
    · exact absurd (by simp [basicParsing, hfs, h2]) h1
    · exact absurd (by simp [basicParsing, hfs, h2]) h0
    all_goals simp [basicParsing, hfs, h2]

end

/-- One file. -/
def oneFile (text : String) : Files := fun path => if path = "f" then some text.toList else none

theorem ends_uncaught {num : D ℚ → List Char} {nd : Bool} {text : String} {e : Exn} (he : e ≠ .parseError)
    (h : fromString (K := ℚ) nd 99 text.toList = .throw e) :
    basicParsing num nd 99 (oneFile text) ["f"] = { ends := .uncaught e } := by
  have hf := fromStringM_forget (K := ℚ) nd 99 text.toList
  rw [h] at hf
  rcases h1 : fromStringM (K := ℚ) nd 99 text.toList with ⟨m, s, p⟩ | (sp' | e | _ | _ | _)
  all_goals
    rw [h1] at hf
    simp only [Said.forget] at hf
    cases hf
  · exact absurd rfl he
  · simp [basicParsing, oneFile, h1]

/-- **C123 is false**: the program is terminated by an exception, without any message of its own, for a file that does
not exist, a use of an undefined formula, an empty term, a numeral that is too large, a reversed predicate, and a mixture
of operators that the constructors reject. -/
theorem C123_refuted (num : D ℚ → List Char) (nd : Bool) :
    basicParsing num nd 99 (fun _ => none) ["f"] = { ends := .fileError } ∧
    basicParsing num nd 99 (oneFile "(define-formula p q)") ["f"] = { ends := .uncaught .outOfRange } ∧
    basicParsing num nd 99 (oneFile "(define-formula p ())") ["f"] = { ends := .uncaught .logicError } ∧
    basicParsing num nd 99 (oneFile "(define-formula p (> x 9223372036854775808))") ["f"] =
      { ends := .uncaught .outOfRange } ∧
    basicParsing num nd 99 (oneFile "(define-formula p (> 0 x))") ["f"] = { ends := .uncaught .badOptionalAccess } ∧
    basicParsing num nd 99 (oneFile "(define-formula p (> x 0)) (define-formula q (xor (or p p) true))") ["f"] =
      { ends := .uncaught .invalidArgument } := by
  obtain ⟨h1, h2, h3, h4, h5, -⟩ := C94_refuted_exceptions nd
  exact ⟨rfl, ends_uncaught (by decide) h2, ends_uncaught (by decide) h1, ends_uncaught (by decide) h3,
    ends_uncaught (by decide) h4, ends_uncaught (by decide) h5⟩

/-- **C123 is false** also for an assertion that fails in debug builds. -/
theorem C123_refuted_debug (num : D ℚ → List Char) : basicParsing num false 99
    (oneFile "( define-formula p true ) ( define-formula q ( p not p ) ) ") ["f"] = { ends := .abort } := by
  have hf := fromStringM_forget (K := ℚ) false 99
    "( define-formula p true ) ( define-formula q ( p not p ) ) ".toList
  rw [C94_refuted_builds.1] at hf
  rcases h1 : fromStringM (K := ℚ) false 99 "( define-formula p true ) ( define-formula q ( p not p ) ) ".toList with
    ⟨m, s, p⟩ | (sp' | e | _ | _ | _)
  all_goals
    rw [h1] at hf
    simp only [Said.forget] at hf
    cases hf
  have h2 : oneFile "( define-formula p true ) ( define-formula q ( p not p ) ) " "f" =
    some "( define-formula p true ) ( define-formula q ( p not p ) ) ".toList := if_pos rfl
  simp only [basicParsing, h2, h1]

/-! ## Concrete cases -/

/-- An error in the second of three lines. -/
example : lineAt "; one\n(assert 1 p)\r\n; three".toList
      (posOf "; one\n(assert 1 p)\r\n; three".toList "1 p)\r\n; three".toList) = "(assert 1 p)".toList ∧
    caret (posOf "; one\n(assert 1 p)\r\n; three".toList "1 p)\r\n; three".toList).column = "        ^".toList ∧
    whatIn "f" "; one\n(assert 1 p)\r\n; three".toList .identifier "1 p)\r\n; three".toList =
      "f:2:9: expected an identifier" := by decide +kernel

/-- The hypotheses of `C122_reports` hold for this file. -/
example : fromString (K := ℚ) true 40 "(assert 1 p)".toList = .throw .parseError ∧
    oneFile "(assert 1 p)" "f" = some "(assert 1 p)".toList := by
  exact ⟨isThrow_eq (by decide +kernel), by simp [oneFile]⟩

/-- The two orders of two definitions. -/
def swapFiles : Files := fun path =>
  if path = "f" then some "(define-formula a true)(define-formula b false)".toList
  else if path = "g" then some "(define-formula b false)(define-formula a true)".toList
  else if path = "h" then some "(define-formula b true)(define-formula a true)".toList else none

/-- Definitions of constants. -/
def consts : List (String × Expr ℚ) → Option (List (String × Bool))
  | [] => some []
  | (n, .const b) :: l => (consts l).map ((n, b) :: ·)
  | _ :: _ => none

theorem consts_eq : ∀ {m : List (String × Expr ℚ)} {l : List (String × Bool)}, consts m = some l →
    m = l.map fun p => (p.1, .const p.2)
  | [], l, h => by simp [consts] at h; simp [← h]
  | (n, .const b) :: m, l, h => by
    rw [consts] at h
    obtain ⟨l', h1, rfl⟩ := Option.map_eq_some_iff.1 h
    rw [consts_eq h1]; rfl
  | (n, .pred _ _ _) :: m, l, h => by simp [consts] at h
  | (n, .not _) :: m, l, h => by simp [consts] at h
  | (n, .and _) :: m, l, h => by simp [consts] at h
  | (n, .or _) :: m, l, h => by simp [consts] at h
  | (n, .always _ _) :: m, l, h => by simp [consts] at h
  | (n, .eventually _ _) :: m, l, h => by simp [consts] at h
  | (n, .untl _ _ _) :: m, l, h => by simp [consts] at h

theorem consts_ok {o : Outcome (Specification ℚ)} {l : List (String × Bool)}
    (h : (o.map' fun sp => (consts sp.formulas, sp.assertions.length)) = .ok (some l, 0)) :
    o = .ok ⟨l.map fun p => (p.1, .const p.2), []⟩ := by
  rcases o with ⟨fs, as⟩ | _ | _ | _ | _
  · simp only [Outcome.map', Outcome.ok.injEq, Prod.mk.injEq, List.length_eq_zero_iff] at h
    rw [consts_eq h.1, h.2]
  all_goals cases h

theorem swap_f : fromString (K := ℚ) true 99 "(define-formula a true)(define-formula b false)".toList =
    .ok ⟨[("a", .const true), ("b", .const false)], []⟩ := consts_ok (l := [("a", true), ("b", false)]) (by decide +kernel)
theorem swap_g : fromString (K := ℚ) true 99 "(define-formula b false)(define-formula a true)".toList =
    .ok ⟨[("b", .const false), ("a", .const true)], []⟩ := consts_ok (l := [("b", false), ("a", true)]) (by decide +kernel)
theorem swap_h : fromString (K := ℚ) true 99 "(define-formula b true)(define-formula a true)".toList =
    .ok ⟨[("b", .const true), ("a", .const true)], []⟩ := consts_ok (l := [("b", true), ("a", true)]) (by decide +kernel)

/-- Both sides of `C122_listing` can hold and can fail. -/
example :
    (basicParsing exNum true 99 swapFiles ["f"]).out = (basicParsing exNum true 99 swapFiles ["g"]).out ∧
    (basicParsing exNum true 99 swapFiles ["f"]).out ≠ (basicParsing exNum true 99 swapFiles ["h"]).out := by
  constructor
  · rw [C122_listing exNum_faithful (h := rfl) (h' := rfl) (by decide) (by decide) swap_f swap_g]
    exact .swap _ _ _
  · rw [Ne, C122_listing exNum_faithful (h := rfl) (h' := rfl) (by decide) (by decide) swap_f swap_h]
    intro h
    have := h.mem_iff.1 (List.mem_cons_of_mem _ (List.mem_cons_self ..))
    simp [rebracket] at this

end Verif
