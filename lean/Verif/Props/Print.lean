import Verif.Proofs.Print
import Verif.Proofs.WF
import Verif.Model.Exact
import Mathlib.Logic.Encodable.Basic
import Mathlib.Data.Rat.Encodable

/-!
# Printing: C59, C60
-/

set_option linter.unusedSectionVars false

namespace Verif
open Spec Fmt

section
variable {K : Type} [Field K] [LinearOrder K] [IsStrictOrderedRing K] [Arith K]

/-! ## C59 -/

/-- **C59 is false**: whatever the text of numbers is, Always over `[1, 2]` and Always over `[3, 4]` print the
same. -/
theorem C59_refuted_interval (num : D K → List Char) (e : Expr K) :
    ∃ i j : Interval K, Interval.ofDouble (.fin 1) (.fin 2) = .ok i ∧ Interval.ofDouble (.fin 3) (.fin 4) = .ok j ∧
      Expr.AlwaysI e i ≠ Expr.AlwaysI e j ∧ expr num (Expr.AlwaysI e i) = expr num (Expr.AlwaysI e j) := by
  refine ⟨⟨.dbl (.fin 1), .dbl (.fin 2)⟩, ⟨.dbl (.fin 3), .dbl (.fin 4)⟩, ?_, ?_, ?_, ?_⟩
  · simp [Interval.ofDouble, D.lt, D.le]
  · have h3 : ¬ (3 : K) < 0 := by norm_num
    have h4 : ¬ (4 : K) < 0 := by norm_num
    have h5 : (3 : K) ≤ 4 := by norm_num
    simp [Interval.ofDouble, D.lt, D.le, h3, h4, h5]
  · simp [Expr.AlwaysI]
  · simp [Expr.AlwaysI, expr, alwaysHead, Interval.hasValue, Interval.isZeroToInf, Interval.numAsDouble, D.isinf]

/-- **C59 is false** for unbounded intervals too: Until is not parenthesised. -/
theorem C59_refuted_until (num : D K → List Char) (a b c : Expr K) :
    Expr.Until (.Until a b) c ≠ Expr.Until a (.Until b c) ∧
      expr num (Expr.Until (.Until a b) c) = expr num (Expr.Until a (.Until b c)) := by
  constructor
  · intro h
    simp only [Expr.Until, Expr.untl.injEq] at h
    have := congrArg sizeOf h.1
    simp at this
    omega
  · simp only [Expr.Until, expr, List.append_assoc]

/-- **C59**, what is printed: an interval that does not begin at 0 or does not end at infinity is not
printed; so bounds that restrict anything never are. -/
theorem C59_interval_partial (num : D K → List Char) (e a b : Expr K) (i : Interval K)
    (h : Interval.numIsZero i.low = false ∨ (Interval.numAsDouble i.high).isinf = false) :
    expr num (.always e i) = 'G' :: ' ' :: expr num e ∧ expr num (.eventually e i) = 'F' :: ' ' :: expr num e ∧
      expr num (.untl a b i) = expr num a ++ (' ' :: 'U' :: ' ' :: expr num b) := by
  have : i.hasValue = false := by
    simp only [Interval.hasValue, Interval.isZeroToInf, Bool.and_eq_false_iff]
    exact h
  simp [expr, alwaysHead, eventuallyHead, untilMid, this]

/-- **C59** for the formulas that the parser can return, except Until: different formulas print differently
(if different numbers do). -/
theorem C59_injective_partial {num : D K → List Char} (hf : Faithful num) {e e' : Expr K} (he : Printable e)
    (he' : Printable e') (h : expr num e = expr num e') : e = e' :=
  (reads hf he e' he' [] [] (by simpa using h)).1

/-! ## C60 -/

/-- **C60**: the printed text of a signal determines its times and values. -/
theorem C60_signal_points {num : D K → List Char} (hf : Faithful num) {s s' : Signal K}
    (h : signal num s.samples = signal num s'.samples) : s.samples.map tv = s'.samples.map tv := by
  simp only [signal, List.cons.injEq, true_and] at h
  exact samples_inj hf _ _ (List.append_cancel_right h)

theorem slopes_det : ∀ l l' : List (Sample K), Slopes l → Slopes l' → l.map tv = l'.map tv → l = l'
  | [], [], _, _, _ => rfl
  | [], _ :: _, _, _, h => by simp at h
  | _ :: _, [], _, _, h => by simp at h
  | [s], [s'], h1, h2, h => by
    simp [tv] at h
    cases s; cases s'
    simp_all [Slopes]
  | [_], _ :: _ :: _, _, _, h => by simp at h
  | _ :: _ :: _, [_], _, _, h => by simp at h
  | s :: s2 :: l, s' :: s2' :: l', h1, h2, h => by
    rw [List.map_cons (l := s2 :: l), List.map_cons (l := s2' :: l'), List.cons.injEq] at h
    have ih := slopes_det (s2 :: l) (s2' :: l') h1.2 h2.2 h.2
    rw [ih]
    simp only [List.cons.injEq] at ih
    have h3 := h1.1; have h4 := h2.1
    rw [ih.1] at h3
    simp [tv] at h
    cases s; cases s'
    simp_all

/-- **C60**: signals made by the constructors or by `push_back` (`C05`) that print the same are the same, with
their derivatives. -/
theorem C60_signal {num : D K → List Char} (hf : Faithful num) {s s' : Signal K} (hs : WF s) (hs' : WF s')
    (h : signal num s.samples = signal num s'.samples) : s = s' := by
  cases s; cases s'
  congr
  exact slopes_det _ _ hs.2 hs'.2 (C60_signal_points hf h)

end

/-! ## Concrete cases -/

/-- A text of numbers as required. -/
def exNum (d : D ℚ) : List Char :=
  match d with
  | .fin q => 'q' :: List.replicate (Encodable.encode q) '1'
  | .pinf => ['i', 'n', 'f']
  | .ninf => ['-', 'i', 'n', 'f']
  | .nan => ['n', 'a', 'n']

theorem exNum_faithful : Faithful exNum where
  inj := by
    intro a b h
    cases a <;> cases b <;> simp_all [exNum]
  clean := by
    intro d
    cases d <;> simp [exNum]

example : Printable (.and [.pred "x" .GE 0, .not (.always (.const true) ⟨.dbl 0, .dbl .pinf⟩)] : Expr ℚ) :=
  .and (by simp) (by
    simp only [List.mem_cons, List.not_mem_nil, or_false]
    rintro e (rfl | rfl)
    · exact .pred (by simp [PlainName])
    · exact .not (.always (.const true)))

example : expr (fun _ => ['0']) (.and [.pred "x" .GE 0, .not (.always (.const true) ⟨.dbl 0, .dbl .pinf⟩)] : Expr ℚ)
    = "((x >= 0) & ~G[0, int) true)".toList := by
  simp only [expr, join, alwaysHead_unbounded]
  decide

example : signal (fun _ => ['0']) [⟨0, 0, 0⟩, (⟨0, 0, 0⟩ : Sample ℚ)] = "[(0, 0), (0, 0)]".toList := by decide

end Verif
