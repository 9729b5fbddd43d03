import Verif.Proofs.Crossing
import Verif.Props.AnyRound
import Verif.Props.Rewrite

/-!
# Which timestamps a robustness signal has: C88
-/

set_option linter.unusedSectionVars false

namespace Verif
open Spec

section any
variable {K : Type} [Field K] [LinearOrder K] [IsStrictOrderedRing K] [Arith K] [SaneArith K]

/-- **C88.** Evaluation loses no sample: every timestamp of a signal that the formula refers to is a
timestamp of the robustness, as far as the robustness reaches; and the robustness covers no time outside
of the signals.  With any rounding of the arithmetic. -/
theorem C88_samples_kept (nd : Bool) (fuel : Nat) (phi : Expr K) (trace : Trace K) (sy : Bool)
    (ht : FiniteTimes trace) (z : Signal K) (h : computeRobustness nd fuel phi trace sy = .ok z)
    (n : String) (x : Signal K) (hu : Uses n phi) (hx : trace.lookup n = some x) :
    (∀ t, InRange t z → InRange t x) ∧ ∀ t ∈ times x, InRange t z → t ∈ times z :=
  compute_keeps (allFin ht) phi z h n x hu hx

/-- **C88.** Without constants the robustness covers exactly the times that all signals of the formula
cover. -/
theorem C88_range (nd : Bool) (fuel : Nat) (phi : Expr K) (trace : Trace K) (sy : Bool)
    (hc : ConstFree phi) (ha : Arity phi) (ht : FiniteTimes trace) (z : Signal K)
    (h : computeRobustness nd fuel phi trace sy = .ok z) (t : D K) :
    InRange t z ↔ ∀ n x, Uses n phi → trace.lookup n = some x → InRange t x :=
  ⟨fun hz n x hu hx => (compute_keeps (allFin ht) phi z h n x hu hx).1 t hz,
    fun hz => compute_range (allFin ht) phi z hc ha hz h⟩

end any

section exact
variable {K : Type} [Field K] [LinearOrder K] [IsStrictOrderedRing K] [Arith K] [ExactArith K]

/-- **C88.** And and Or of two operands add a sample only where the operands cross: a timestamp of the
result that is a timestamp of neither operand is an instant at which both have the same value. -/
theorem C88_crossings (nd : Bool) (fuel : Nat) (phi psi : Expr K) (trace : Trace K) (sy : Bool)
    (x y z : Signal K) (xs ys zs : List (K × K))
    (hx : computeRobustness nd fuel phi trace sy = .ok x) (rx : Represents x xs)
    (hy : computeRobustness nd fuel psi trace sy = .ok y) (ry : Represents y ys)
    (h : computeRobustness nd fuel (.and [phi, psi]) trace sy = .ok z ∨
      computeRobustness nd fuel (.or [phi, psi]) trace sy = .ok z) (rz : Represents z zs)
    (t : K) (ht : t ∈ zs.map Prod.fst) (hnx : t ∉ xs.map Prod.fst) (hny : t ∉ ys.map Prod.fst) :
    t ∈ dom xs ∧ t ∈ dom ys ∧ eval xs t = eval ys t := by
  obtain ⟨ix, rfl⟩ := (represents_iff _ _).1 rx
  obtain ⟨iy, rfl⟩ := (represents_iff _ _).1 ry
  obtain ⟨iz, rfl⟩ := (represents_iff _ _).1 rz
  have hz : ∃ comp op, PairOp nd comp op ∧ minmaxPair nd comp (ofPts xs) (ofPts ys) false = .ok (ofPts zs) := by
    rcases h with h | h
    · refine ⟨_, _, pairOp_le nd, ?_⟩
      simp only [computeRobustness, RobustnessOp.compute, RobustnessOp.computeArgs] at h hx hy
      rw [hx, hy] at h
      simp only [Outcome.bind_ok, Outcome.bind_eq_ok] at h
      obtain ⟨ys, ⟨w, h1, h2⟩, -, -, h⟩ := h
      simp only [Outcome.pure_eq_ok, Outcome.ok.injEq] at h1 h2; subst h1; subst h2
      exact h
    · refine ⟨_, _, pairOp_ge nd, ?_⟩
      simp only [computeRobustness, RobustnessOp.compute, RobustnessOp.computeArgs] at h hx hy
      rw [hx, hy] at h
      simp only [Outcome.bind_ok, Outcome.bind_eq_ok] at h
      obtain ⟨ys, ⟨w, h1, h2⟩, -, -, h⟩ := h
      simp only [Outcome.pure_eq_ok, Outcome.ok.injEq] at h1 h2; subst h1; subst h2
      exact h
  obtain ⟨comp, op, hop, hz⟩ := hz
  obtain ⟨b, hbx, hby, hm⟩ := minmaxPair_ok_common ix iy hz
  obtain ⟨zs', e, iz', hd, -⟩ := hop ix iy b hbx hby hm
  rw [e, Outcome.ok.injEq] at hz
  have : zs' = zs := represents_inj (represents_ofPts iz') (hz ▸ represents_ofPts iz)
  subst this
  obtain ⟨hdx, hdy⟩ := (hd t).1 (mem_dom_of_mem ht)
  refine ⟨hdx, hdy, ?_⟩
  have hmem : D.fin t ∈ times (ofPts zs') := by
    unfold times
    rw [ofPts_times]
    obtain ⟨p, hp, rfl⟩ := List.mem_map.1 ht
    exact List.mem_map.2 ⟨p, hp, rfl⟩
  obtain ⟨k, hk, h⟩ := pair_crossings ix iy e _ hmem
  simp only [D.fin.injEq] at hk; subst hk
  rcases h with h | h | h
  · exact absurd h hnx
  · exact absurd h hny
  · exact h

end exact

/-- A signal on [0, 4] and a shorter one. -/
def keepTrace : Trace ℚ :=
  [("x", ofPts [(0, 0), (2, 4), (4, 0)]), ("y", ofPts [(0, 3), (1, 0), (3, 2)])]

/-- The hypotheses of `C88_samples_kept` and `C88_range` hold; the result covers [0, 3], has the timestamps
1 and 2 of the signals and further ones at the crossings. -/
example : FiniteTimes keepTrace ∧
    ConstFree (.and [.pred "x" .GE (.fin (1 : ℚ)), .eventually (.pred "y" .GE 0) ⟨.dbl 0, .dbl .pinf⟩]) ∧
    Arity (.and [.pred "x" .GE (.fin (1 : ℚ)), .eventually (.pred "y" .GE 0) ⟨.dbl 0, .dbl .pinf⟩]) ∧
    computeRobustness false 100
      (.and [.pred "x" .GE (.fin (1 : ℚ)), .eventually (.pred "y" .GE 0) ⟨.dbl 0, .dbl .pinf⟩]) keepTrace false =
    .ok (ofPts [(0, -1), (1, 1), (3/2, 2), (2, 2), (5/2, 2), (3, 1)]) := by
  refine ⟨?_, ?_, ?_, ?_⟩
  · intro e he a ha
    simp only [keepTrace, List.mem_cons, List.not_mem_nil, or_false] at he
    rcases he with rfl | rfl <;>
    · simp [ofPts, build, lift] at ha
      rcases ha with rfl | rfl | rfl <;> exact ⟨_, rfl⟩
  · exact .and (by
      intro e he
      simp only [List.mem_cons, List.not_mem_nil, or_false] at he
      rcases he with rfl | rfl
      · exact .pred _ _ _
      · exact .eventually (.pred _ _ _))
  · exact .and (by simp) (by
      intro e he
      simp only [List.mem_cons, List.not_mem_nil, or_false] at he
      rcases he with rfl | rfl
      · exact .pred _ _ _
      · exact .eventually (.pred _ _ _))
  · decide +kernel

/-- The operands of that conjunction for `C88_crossings`: at 3/2 and 5/2 both are 2. -/
example : computeRobustness false 100 (.pred "x" .GE (.fin (1 : ℚ))) keepTrace false =
      .ok (ofPts [(0, -1), (2, 3), (4, -1)]) ∧
    computeRobustness false 100 (.eventually (.pred "y" .GE 0) ⟨.dbl 0, .dbl .pinf⟩) keepTrace false =
      .ok (ofPts [(0, 3), (1, 2), (3, 2)]) ∧
    eval [((0 : ℚ), (-1 : ℚ)), (2, 3), (4, -1)] (3/2) = eval [((0 : ℚ), (3 : ℚ)), (1, 2), (3, 2)] (3/2) ∧
    eval [((0 : ℚ), (-1 : ℚ)), (2, 3), (4, -1)] (5/2) = eval [((0 : ℚ), (3 : ℚ)), (1, 2), (3, 2)] (5/2) := by
  decide +kernel

end Verif
