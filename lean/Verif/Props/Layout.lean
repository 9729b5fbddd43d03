import Verif.Proofs.Squeeze

/-!
# White space and comments: C92
-/

set_option linter.unusedSectionVars false

namespace Verif
open Spec

section layout
variable {K : Type} [Field K] [LinearOrder K] [Arith K] [Strtod K]

/-- **C92.** The parser does with every text, whether it accepts it or not, what it does with the text without
superfluous layout. -/
theorem C92_squeezed (nd : Bool) (fuel : Nat) (w : List Char) :
    fromString (K := K) nd fuel (squeeze true false w) = fromString nd fuel w :=
  fromString_squeeze nd fuel true false w

/-- **C92.** Texts that differ in layout only have the same result. -/
theorem C92_same (nd : Bool) (fuel : Nat) {w w' : List Char} (h : squeeze true false w = squeeze true false w') :
    fromString (K := K) nd fuel w = fromString nd fuel w' := by
  rw [← C92_squeezed, h, C92_squeezed]

/-- **C92.** White space and comments can be replaced by other white space and comments. -/
theorem C92_replace (nd : Bool) (fuel : Nat) {a g g' : List Char} (b : List Char) (ha : inComment false a = false)
    (hg : Layout g) (hg' : Layout g') (hne : g ≠ []) (hne' : g' ≠ []) :
    fromString (K := K) nd fuel (a ++ (g ++ b)) = fromString nd fuel (a ++ (g' ++ b)) := by
  obtain ⟨out, p, s, h⟩ := (squeeze_append a).1 true false ha
  apply C92_same
  rw [h, h, squeeze_layout hg hne, squeeze_layout hg' hne']

/-- **C92.** Before a parenthesis they can be left out. -/
theorem C92_before (nd : Bool) (fuel : Nat) {a g : List Char} {c : Char} (b : List Char) (ha : inComment false a = false)
    (hg : Layout g) (hc : c = '(' ∨ c = ')') :
    fromString (K := K) nd fuel (a ++ (g ++ c :: b)) = fromString nd fuel (a ++ c :: b) := by
  obtain ⟨out, p, s, h⟩ := (squeeze_append a).1 true false ha
  apply C92_same
  have h1 : ¬ IsSpace c := by rcases hc with rfl | rfl <;> decide
  have h2 : c ≠ ';' := by rcases hc with rfl | rfl <;> decide
  rw [h, h]
  by_cases hne : g = []
  · subst hne; rfl
  · rw [squeeze_layout hg hne]
    simp only [squeeze, h1, h2, hc, if_false, if_true]

/-- **C92.** And after a parenthesis. -/
theorem C92_after (nd : Bool) (fuel : Nat) {a g : List Char} {c : Char} (b : List Char) (ha : inComment false a = false)
    (hg : Layout g) (hc : c = '(' ∨ c = ')') :
    fromString (K := K) nd fuel (a ++ c :: (g ++ b)) = fromString nd fuel (a ++ c :: b) := by
  obtain ⟨out, p, s, h⟩ := (squeeze_append a).1 true false ha
  apply C92_same
  have h1 : ¬ IsSpace c := by rcases hc with rfl | rfl <;> decide
  have h2 : c ≠ ';' := by rcases hc with rfl | rfl <;> decide
  rw [h, h]
  simp only [squeeze, h1, h2, hc, if_false, if_true]
  by_cases hne : g = []
  · subst hne; rfl
  · rw [squeeze_layout hg hne, squeeze_true true false]

/-- **C92.** And at both ends of the text, where the last comment need not be closed. -/
theorem C92_ends (nd : Bool) (fuel : Nat) {g a g' : List Char} (hg : Layout g) (ha : inComment false a = false)
    (hg' : FinalLayout g') :
    fromString (K := K) nd fuel (g ++ (a ++ g')) = fromString nd fuel a := by
  have hfin : ∀ p s, squeeze p s g' = [] := by
    intro p s
    have aux : ∀ {w : List Char} (hw : Layout w) (p s : Bool), squeeze p s w = [] := by
      intro w hw p s
      by_cases hne : w = []
      · subst hne; rfl
      · have := squeeze_layout hw hne p s []
        rw [List.append_nil] at this; rw [this]; rfl
    cases hg' with
    | closed h => exact aux h p s
    | @«open» w body h hb =>
      have hc : ∀ p, squeezeComment p body = [] := by
        intro p
        induction body with
        | nil => rfl
        | cons c cs ih =>
          have hc : c ≠ '\n' := by rintro rfl; simp at hb
          rw [squeezeComment, if_neg hc, ih (by simp at hb; exact hb.2)]
      have h1 : ¬ IsSpace ';' := by decide
      by_cases hne : w = []
      · subst hne; rw [List.nil_append, squeeze, if_neg h1, if_pos rfl, hc]
      · rw [squeeze_layout h hne, squeeze, if_neg h1, if_pos rfl, hc]
  apply C92_same
  have h1 : squeeze true false (g ++ (a ++ g')) = squeeze true false (a ++ g') := by
    by_cases hne : g = []
    · subst hne; rfl
    · rw [squeeze_layout hg hne, squeeze_true true false]
  obtain ⟨out, p, s, h⟩ := (squeeze_append a).1 true false ha
  have h2 := h []
  rw [List.append_nil] at h2
  rw [h1, h, hfin, h2]; rfl

end layout

/-! Examples. -/

/-- A text and the same without superfluous layout. -/
example : squeeze true false " ( assert a ; safety\n  (  >= x\t\t3 ) )\n; end".toList = "(assert a(>= x 3))".toList := by
  decide +kernel

/-- Layout inside of a token is not superfluous. -/
example : squeeze true false "(assert a (> = x 3))".toList ≠ squeeze true false "(assert a (>= x 3))".toList := by
  decide +kernel

/-- The conditions of `C92_replace`: a comment instead of a space. -/
example : inComment false "(assert a (>=".toList = false ∧ Layout " ".toList ∧ Layout "; at least\n".toList := by
  refine ⟨by decide, .space (by decide) .nil, ?_⟩
  have : Layout (';' :: (" at least".toList ++ '\n' :: [])) := .comment (by decide) .nil
  exact this

/-- Inside of a comment a line feed may not be replaced by a space. -/
example : inComment false "(assert ; name".toList = true ∧
    squeeze true false ("(assert ; name".toList ++ ("\n".toList ++ "a true)".toList)) ≠
      squeeze true false ("(assert ; name".toList ++ (" ".toList ++ "a true)".toList)) := by
  decide +kernel

end Verif
