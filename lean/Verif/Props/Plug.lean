import Verif.Proofs.Plug
import Verif.Proofs.Binary64
import Verif.Props.AnyRound
import Verif.Model.Exact

/-!
# Evaluating a subformula separately: C95
-/

set_option linter.unusedSectionVars false

namespace Verif
open Spec

instance {K : Type} [Field K] [LinearOrder K] [Arith K] [ExactArith K] : IdemArith K where
  rnd_rnd q r _ := ExactArith.rnd_eq r

instance : IdemArith B64 := ⟨fun _ _ h => B64.rnd_self (B64.rnd_fin h).1⟩

section any
variable {K : Type} [Field K] [LinearOrder K] [IsStrictOrderedRing K] [Arith K] [SaneArith K] [OddArith K] [IdemArith K]

/-- **C95.** A subformula can be evaluated on its own: put the robustness signal `s` of `psi` into the trace
under a new name `n`; then a formula in which `n >= 0` stands for `psi` (and `n <= 0` for its negation) has the
outcome (the same samples, or the same failure) of the formula in which `psi` is written out.  With any
rounding that is odd and idempotent, as that of doubles. -/
theorem C95_separately (nd : Bool) (fuel : Nat) (n : String) (phi psi : Expr K) (trace₁ trace₂ : Trace K) (sy : Bool)
    (ht : FiniteTimes (trace₁ ++ trace₂)) (hn : ∀ e ∈ trace₁ ++ trace₂, e.1 ≠ n) (ha : Arity psi) (hs : Slot n phi)
    (s : Signal K) (h : computeRobustness nd fuel psi (trace₁ ++ trace₂) sy = .ok s) :
    computeRobustness nd fuel phi (trace₁ ++ (n, s) :: trace₂) sy =
      computeRobustness nd fuel (plug n psi phi) (trace₁ ++ trace₂) sy := by
  have hf := allFin (nd := nd) (fuel := fuel) ht
  have hw := minMaxTime_within (n := n) (hf _ _ h) (compute_within hf (trace_within ht) psi s ha h)
  have hl := lookup_insert (z := s) hn
  unfold computeRobustness
  simp only
  rw [hw]
  exact compute_plug (r' := ⟨nd, fuel, _, _, trace₁ ++ (n, s) :: trace₂⟩) (compute_wf _ _ _ h) (compute_vals closed_zero hf psi s h)
    hl.1 h hl.2 rfl rfl rfl rfl phi hs

/-- **C95.** Reading a robustness signal back does not change it: the predicate `n >= 0` on the robustness
signal of a formula is that signal. -/
theorem C95_read_back (nd nd' : Bool) (fuel fuel' : Nat) (n : String) (psi : Expr K) (trace : Trace K) (sy sy' : Bool)
    (ht : FiniteTimes trace) (s : Signal K) (h : computeRobustness nd fuel psi trace sy = .ok s) :
    computeRobustness nd' fuel' (.pred n .GE 0) [(n, s)] sy' = .ok s := by
  have hf := allFin (nd := nd) (fuel := fuel) ht
  have := pred_slot (r := ⟨nd, fuel, (minMaxTime trace).1, (minMaxTime trace).2, trace⟩)
    (r' := ⟨nd', fuel', (minMaxTime [(n, s)]).1, (minMaxTime [(n, s)]).2, [(n, s)]⟩) (n := n)
    (compute_wf _ _ _ h) (compute_vals closed_zero hf psi s h) (by simp) h .GE
  unfold computeRobustness
  simp only
  rw [this]; exact h

end any

-- the subformula is And(x >= 1, y >= 2)
example : let x : Signal ℚ := ofPts [(0, 0), (2, 4)]
    let y : Signal ℚ := ofPts [(0, 3), (2, 1)]
    let psi : Expr ℚ := .and [.pred "x" .GE (.fin 1), .pred "y" .GE (.fin 2)]
    let phi : Expr ℚ := .or [.always (.pred "s" .GE 0) Interval.default, .pred "s" .LT 0, .const false]
    let s : Signal ℚ := ofPts [(0, -1), (2 / 3, 1 / 3), (2, -1)]
    computeRobustness false 9 psi [("x", x), ("y", y)] false = .ok s ∧ Arity psi ∧ Slot "s" phi ∧
    computeRobustness false 9 phi [("s", s), ("x", x), ("y", y)] false =
      computeRobustness false 9 (.or [.always psi Interval.default, .not psi, .const false]) [("x", x), ("y", y)] false := by
  refine ⟨by decide +kernel, .and (by simp) ?_, .or ?_, ?_⟩
  · simp only [List.mem_cons, List.not_mem_nil, or_false]
    rintro e (rfl | rfl) <;> constructor
  · simp only [List.mem_cons, List.not_mem_nil, or_false]
    rintro e (rfl | rfl | rfl)
    · exact .always (.pred _ _ _ fun _ => rfl)
    · exact .pred _ _ _ fun _ => rfl
    · exact .const _
  · decide +kernel

-- without the arity: the signal of an And without operands has a sample at time zero, and extends the range
example : let x : Signal ℚ := ofPts [(1, 0), (2, 4)]
    ∃ s : Signal ℚ, computeRobustness false 9 (.and []) [("x", x)] false = .ok s ∧
      computeRobustness false 9 (.const true) [("s", s), ("x", x)] false ≠
        computeRobustness false 9 (plug "s" (.and []) (.const true)) [("x", x)] false :=
  ⟨⟨[⟨0, .ninf, 0⟩]⟩, by decide +kernel, by decide +kernel⟩

end Verif
