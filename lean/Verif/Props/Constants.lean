import Verif.Proofs.Const
import Verif.Proofs.Temporal
import Verif.Props.Boolean

/-!
# Boolean constants: C37
-/

set_option linter.unusedSectionVars false

namespace Verif
open Spec

/-! ## C37 -/

/-- **C37 is false.**  The trace has one signal `x` with three positive samples.  `And(true, x >= 0)` and
`Or(false, x >= 0)` are NaN at the second sample.  (And `And(x >= 0, false)` has the robustness of
`x >= 0` there.) -/
theorem C37_refuted :
    ∃ (trace : Trace ℚ) (phi : Expr ℚ) (z : Signal ℚ) (s : Sample ℚ),
      computeRobustness false 0 phi trace false = .ok (ofPts [(0, 1), (1, 5), (2, 3)]) ∧
      (computeRobustness false 0 (.and [.const true, phi]) trace false = .ok z ∧ s ∈ z.samples ∧
        s.time = .fin 1 ∧ s.value = .nan) ∧
      computeRobustness false 0 (.or [.const false, phi]) trace false = .ok z ∧
      ∃ (z' : Signal ℚ) (s' : Sample ℚ),
        computeRobustness false 0 (.and [phi, .const false]) trace false = .ok z' ∧ s' ∈ z'.samples ∧
        s'.time = .fin 1 ∧ s'.value = .fin 5 :=
  ⟨[("x", ofPts [(0, 1), (1, 5), (2, 3)])], .pred "x" .GE 0,
    ⟨[⟨.fin 0, .fin 1, .nan⟩, ⟨.fin 1, .nan, .nan⟩, ⟨.fin 2, .fin 3, .fin 0⟩]⟩, ⟨.fin 1, .nan, .nan⟩,
    by decide +kernel, ⟨by decide +kernel, by simp, rfl, rfl⟩, by decide +kernel,
    ⟨[⟨.fin 0, .ninf, .pinf⟩, ⟨.fin 1, .fin 5, .ninf⟩, ⟨.fin 2, .ninf, .fin 0⟩]⟩,
    ⟨.fin 1, .fin 5, .ninf⟩, by decide +kernel, by simp, rfl, rfl⟩

section any
variable {K : Type} [Field K] [LinearOrder K] [IsStrictOrderedRing K] [Arith K]

theorem minMaxTime_common {trace : Trace K} {t0 t1 : K} (hne : trace ≠ [])
    (h : ∀ e ∈ trace, e.2.beginTime = .fin t0 ∧ e.2.endTime = .fin t1) :
    minMaxTime trace = (.fin t0, .fin t1) := by
  unfold minMaxTime
  have H : ∀ (l : Trace K) (acc : D K × D K), (∀ e ∈ l, e.2.beginTime = .fin t0 ∧ e.2.endTime = .fin t1) →
      acc = (.fin t0, .fin t1) →
      l.foldl (fun acc e => (D.min acc.1 e.2.beginTime, D.max acc.2 e.2.endTime)) acc =
        (.fin t0, .fin t1) := by
    intro l
    induction l with
    | nil => intro acc _ h; exact h
    | cons e l ih =>
      rintro acc hl rfl
      rw [List.foldl_cons]
      apply ih _ fun e' he' => hl e' (by simp [he'])
      obtain ⟨h1, h2⟩ := hl e (by simp)
      rw [h1, h2]; simp [D.min, D.max]
  cases trace with
  | nil => exact absurd rfl hne
  | cons e l =>
    rw [List.foldl_cons]
    apply H l _ fun e' he' => h e' (by simp [he'])
    obtain ⟨h1, h2⟩ := h e (by simp)
    rw [h1, h2]; simp [D.min, D.max, D.lt]

theorem compute_and_two {r : RobustnessOp K} {phi psi : Expr K} {x y : Signal K}
    (h1 : r.compute phi = .ok x) (h2 : r.compute psi = .ok y) :
    r.compute (.and [phi, psi]) = minmaxPair r.ndebug Sample.le x y false := by
  rw [RobustnessOp.compute]
  simp [RobustnessOp.computeArgs, h1, h2, assert_, elementwiseMin, minmaxVec]

theorem compute_or_two {r : RobustnessOp K} {phi psi : Expr K} {x y : Signal K}
    (h1 : r.compute phi = .ok x) (h2 : r.compute psi = .ok y) :
    r.compute (.or [phi, psi]) = minmaxPair r.ndebug Sample.ge x y false := by
  rw [RobustnessOp.compute]
  simp [RobustnessOp.computeArgs, h1, h2, assert_, elementwiseMax, minmaxVec]

/-- What C37 claims, for a conjunction or disjunction of `phi` with a constant in some order. -/
def C37Claim (nd : Bool) (fuel : Nat) (trace : Trace K) (sy : Bool) (phi both : Expr K) : Prop :=
  computeRobustness nd fuel both trace sy = computeRobustness nd fuel phi trace sy

/-- **C37, partial.**  All signals of the trace begin at `t0` and end at `t1`, and the robustness of `phi`
is a well-formed signal `x` with finite timestamps from `t0` to `t1`, with any values.

* A neutral constant as the *second* operand has no effect.  This is the claim of C37 for that order.
* A neutral constant as the *first* operand: the values at `t0` and `t1` are right (if they are not NaN),
  all the others are NaN.  So the claim of C37 holds if `x` has just two samples.
* An absorbing constant: as second operand it is ignored except at `t0` and `t1`; as first operand the
  result is NaN except at `t0` and `t1`.

Any rounding.  Missing from the full statement: the neutral constant as first operand for signals with
more than two samples, for which it is false. -/
theorem C37_constants_partial (nd : Bool) (fuel : Nat) (trace : Trace K) (sy : Bool) (phi : Expr K)
    (x : Signal K) (t0 t1 : K) (v w : D K) (mid : List (D K × D K))
    (hne : trace ≠ []) (htr : ∀ e ∈ trace, e.2.beginTime = .fin t0 ∧ e.2.endTime = .fin t1)
    (hphi : computeRobustness nd fuel phi trace sy = .ok x)
    (hfin : ∀ s ∈ x.samples, ∃ t : K, s.time = .fin t)
    (hx : x.samples.map tv = (.fin t0, v) :: (mid ++ [(.fin t1, w)]))
    (hv : v ≠ .nan) (hw : w ≠ .nan) :
    C37Claim nd fuel trace sy phi (.and [phi, .const true]) ∧
    C37Claim nd fuel trace sy phi (.or [phi, .const false]) ∧
    (mid = [] → C37Claim nd fuel trace sy phi (.and [.const true, phi]) ∧
      C37Claim nd fuel trace sy phi (.or [.const false, phi])) ∧
    (∃ z, computeRobustness nd fuel (.and [.const true, phi]) trace sy = .ok z ∧
      computeRobustness nd fuel (.or [.const false, phi]) trace sy = .ok z ∧
      z.samples.map tv = (.fin t0, v) :: (mid.map (fun p => (p.1, .nan)) ++ [(.fin t1, w)])) ∧
    (∃ z, computeRobustness nd fuel (.and [phi, .const false]) trace sy = .ok z ∧
      z.samples.map tv = (.fin t0, .ninf) :: (mid ++ [(.fin t1, .ninf)])) ∧
    (∃ z, computeRobustness nd fuel (.or [phi, .const true]) trace sy = .ok z ∧
      z.samples.map tv = (.fin t0, .pinf) :: (mid ++ [(.fin t1, .pinf)])) ∧
    (∃ z, computeRobustness nd fuel (.and [.const false, phi]) trace sy = .ok z ∧
      z.samples.map tv = (.fin t0, .ninf) :: (mid.map (fun p => (p.1, .nan)) ++ [(.fin t1, .ninf)])) ∧
    (∃ z, computeRobustness nd fuel (.or [.const true, phi]) trace sy = .ok z ∧
      z.samples.map tv = (.fin t0, .pinf) :: (mid.map (fun p => (p.1, .nan)) ++ [(.fin t1, .pinf)])) := by
  have hwf : FinT x := ⟨C42_robustness_well_formed nd fuel phi trace sy x hphi, hfin⟩
  obtain ⟨-, -, hlt, -, -, -⟩ := sync_const_aux hwf hx
  have hmm := minMaxTime_common hne htr
  unfold C37Claim
  rw [hphi]
  unfold computeRobustness at hphi ⊢
  simp only [hmm] at hphi ⊢
  set r : RobustnessOp K := ⟨nd, fuel, .fin t0, .fin t1, trace⟩ with hr
  have hcst : ∀ b : Bool, r.compute (.const b) =
      .ok ⟨build [(.fin t0, if b then .pinf else .ninf), (.fin t1, if b then .pinf else .ninf)]⟩ := by
    intro b
    rw [RobustnessOp.compute, RobustnessOp.const]
    exact const_ok _ (by show (D.fin t0).lt (.fin t1) = true; simpa using hlt)
  have hct := hcst true
  have hcf := hcst false
  simp only [if_true, Bool.false_eq_true, if_false] at hct hcf
  have hxb : x = ⟨build ((.fin t0, v) :: (mid ++ [(.fin t1, w)]))⟩ := by
    have := (slopes_iff x.samples).1 hwf.1.2
    rw [hx] at this
    cases x; simp only at this; rw [this]
  have l1 : ∀ v : D K, D.lt .pinf v = false := by intro v; cases v <;> rfl
  have l2 : ∀ v : D K, v.lt .ninf = false := by intro v; cases v <;> rfl
  have l3 : ∀ v : D K, v ≠ .nan → (if !(v.lt .pinf) then D.pinf else v) = v := by
    intro v hv; cases v <;> simp_all [D.lt]
  have l4 : ∀ v : D K, v ≠ .nan → (if !(D.lt .ninf v) then D.ninf else v) = v := by
    intro v hv; cases v <;> simp_all [D.lt]
  have l5 : ∀ v : D K, v ≠ .nan → (if !(D.lt .ninf v) then v else D.ninf) = .ninf := by
    intro v hv; cases v <;> simp_all [D.lt]
  have l6 : ∀ v : D K, v ≠ .nan → (if !(v.lt .pinf) then v else D.pinf) = .pinf := by
    intro v hv; cases v <;> simp_all [D.lt]
  have a1 := compute_and_two hphi hct
  have a2 := compute_or_two hphi hcf
  have a3 := compute_and_two hct hphi
  have a4 := compute_or_two hcf hphi
  have a5 := compute_and_two hphi hcf
  have a6 := compute_or_two hphi hct
  have a7 := compute_and_two hcf hphi
  have a8 := compute_or_two hct hphi
  rw [minmaxPair_const_right _ _ hwf (.inl rfl) hx _ valCmp_le] at a1
  rw [minmaxPair_const_right _ _ hwf (.inr rfl) hx _ valCmp_ge] at a2
  rw [minmaxPair_const_left _ _ hwf (.inl rfl) hx _ valCmp_le] at a3
  rw [minmaxPair_const_left _ _ hwf (.inr rfl) hx _ valCmp_ge] at a4
  rw [minmaxPair_const_right _ _ hwf (.inr rfl) hx _ valCmp_le] at a5
  rw [minmaxPair_const_right _ _ hwf (.inl rfl) hx _ valCmp_ge] at a6
  rw [minmaxPair_const_left _ _ hwf (.inr rfl) hx _ valCmp_le] at a7
  rw [minmaxPair_const_left _ _ hwf (.inl rfl) hx _ valCmp_ge] at a8
  simp only [l1, l2, l3 v hv, l3 w hw, l4 v hv, l4 w hw, l5 v hv, l5 w hw, l6 v hv, l6 w hw,
    Bool.not_false, if_true] at a1 a2 a3 a4 a5 a6 a7 a8
  refine ⟨a1.trans (by rw [← hxb]), a2.trans (by rw [← hxb]), ?_, ⟨_, a3, a4, by simp⟩, ⟨_, a5, by simp⟩,
    ⟨_, a6, by simp⟩, ⟨_, a7, by simp⟩, ⟨_, a8, by simp⟩⟩
  rintro rfl
  exact ⟨a3.trans (by rw [hxb]; rfl), a4.trans (by rw [hxb]; rfl)⟩

end any

/-! A concrete case: the trace of `C37_refuted`. -/
example : computeRobustness false 0 (.and [.pred "x" .GE 0, .const true])
      ([("x", ofPts [(0, 1), (1, 5), (2, 3)])] : Trace ℚ) false =
    .ok (ofPts [(0, 1), (1, 5), (2, 3)]) :=
  (C37_constants_partial (K := ℚ) false 0 [("x", ofPts [(0, 1), (1, 5), (2, 3)])] false (.pred "x" .GE 0)
    (ofPts [(0, 1), (1, 5), (2, 3)]) 0 2 (.fin 1) (.fin 3) [(.fin 1, .fin 5)] (by simp)
    (by simp; exact ⟨rfl, rfl⟩) (by decide +kernel) (by simp [ofPts, lift]) rfl (by simp) (by simp)).1.trans
      (by decide +kernel)

end Verif
