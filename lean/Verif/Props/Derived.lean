import Verif.Proofs.Derived

/-! # Implies, Xor and Iff as numbers: C105 -/

set_option linter.unusedSectionVars false

namespace Verif
open Spec

variable {K : Type} [Field K] [LinearOrder K] [IsStrictOrderedRing K] [Arith K] [ExactArith K]

theorem xor_num (x y : K) : |min (max x y) (max (-x) (-y))| = min |x| |y| ∧
    (0 < min (max x y) (max (-x) (-y)) ↔ x * y < 0) ∧ (min (max x y) (max (-x) (-y)) < 0 ↔ 0 < x * y) ∧
    max (min x y) (min (-x) (-y)) = -min (max x y) (max (-x) (-y)) := by
  have h4 : max (min x y) (min (-x) (-y)) = -min (max x y) (max (-x) (-y)) := by
    rw [← max_neg_neg, ← min_neg_neg, ← min_neg_neg, neg_neg, neg_neg, max_comm]
  refine ⟨?_, ?_, ?_, h4⟩
  · rcases le_total 0 x with hx | hx <;> rcases le_total 0 y with hy | hy
    · rw [abs_of_nonneg hx, abs_of_nonneg hy, max_neg_neg, min_eq_right (by
        exact (neg_nonpos.2 (le_min hx hy)).trans (hx.trans (le_max_left _ _))), abs_neg,
        abs_of_nonneg (le_min hx hy)]
    · rw [abs_of_nonneg hx, abs_of_nonpos hy, max_eq_left (hy.trans hx),
        max_eq_right ((neg_nonpos.2 hx).trans (neg_nonneg.2 hy)), abs_of_nonneg (le_min hx (neg_nonneg.2 hy))]
    · rw [abs_of_nonpos hx, abs_of_nonneg hy, max_eq_right (hx.trans hy),
        max_eq_left ((neg_nonpos.2 hy).trans (neg_nonneg.2 hx)), abs_of_nonneg (le_min hy (neg_nonneg.2 hx)), min_comm]
    · rw [abs_of_nonpos hx, abs_of_nonpos hy, min_eq_left (by
        exact (max_le hx hy).trans ((neg_nonneg.2 hx).trans (le_max_left _ _))), abs_of_nonpos (max_le hx hy),
        min_neg_neg]
  · simp only [lt_min_iff, lt_max_iff, neg_pos, mul_neg_iff]
    constructor
    · rintro ⟨h | h, h' | h'⟩
      · exact absurd h h'.le.not_gt
      · exact .inl ⟨h, h'⟩
      · exact .inr ⟨h', h⟩
      · exact absurd h h'.le.not_gt
    · rintro (⟨h, h'⟩ | ⟨h, h'⟩)
      · exact ⟨.inl h, .inr h'⟩
      · exact ⟨.inr h', .inl h⟩
  · simp only [min_lt_iff, max_lt_iff, neg_neg_iff_pos, mul_pos_iff]
    exact or_comm

/-- **C105.** `Implies(a, b)`, `Xor(a, b)` and `Iff(a, b)` can be built of formulas without Boolean constants, and on
traces whose signals start together their robustness at every time at which `a` and `b` are defined, is, in terms of
the numbers `x` and `y` for `a` and `b`: for Implies the maximum of `-x` and `y`; for Xor and Iff `min(|x|, |y|)` up to the
sign; Xor is positive exactly if `x` and `y` have different signs; Iff is the negation of Xor. -/
theorem C105_values (nd : Bool) (fuel : Nat) (trace : Trace K) (sy : Bool) (t0 : K) (a b : Expr K)
    (ha : Plain a) (hb : Plain b)
    (hs : ∀ n, Uses n a ∨ Uses n b → ∃ x pts, trace.lookup n = some x ∧ Represents x pts ∧ ∃ v r, pts = (t0, v) :: r) :
    ∃ xa xb pa pb, computeRobustness nd fuel a trace sy = .ok xa ∧ Represents xa pa ∧
      computeRobustness nd fuel b trace sy = .ok xb ∧ Represents xb pb ∧
      ∃ imp xor iff zi zx zf si sx sf, Expr.Implies a b = .ok imp ∧ Expr.Xor a b = .ok xor ∧ Expr.Iff a b = .ok iff ∧
        computeRobustness nd fuel imp trace sy = .ok zi ∧ Represents zi si ∧
        computeRobustness nd fuel xor trace sy = .ok zx ∧ Represents zx sx ∧
        computeRobustness nd fuel iff trace sy = .ok zf ∧ Represents zf sf ∧
        dom si = dom pa ∩ dom pb ∧ dom sx = dom pa ∩ dom pb ∧ dom sf = dom pa ∩ dom pb ∧
        ∀ t ∈ dom pa ∩ dom pb,
          eval si t = max (-eval pa t) (eval pb t) ∧
          |eval sx t| = min |eval pa t| |eval pb t| ∧ (0 < eval sx t ↔ eval pa t * eval pb t < 0) ∧
          (eval sx t < 0 ↔ 0 < eval pa t * eval pb t) ∧
          eval sf t = -eval sx t := by
  have na : Nice trace t0 a := ⟨ha, fun n hn => hs n (.inl hn)⟩
  have nb : Nice trace t0 b := ⟨hb, fun n hn => hs n (.inr hn)⟩
  have na' := na.not
  have nb' := nb.not
  obtain ⟨xa, a1, a2, -⟩ := ptsOf_evals (nd := nd) (fuel := fuel) (sy := sy) na
  obtain ⟨xb, b1, b2, -⟩ := ptsOf_evals (nd := nd) (fuel := fuel) (sy := sy) nb
  obtain ⟨da, va⟩ := not_val (nd := nd) (fuel := fuel) (sy := sy) na
  obtain ⟨db, vb⟩ := not_val (nd := nd) (fuel := fuel) (sy := sy) nb
  -- Implies
  obtain ⟨imp, hi⟩ := orOp_plain na'.1 nb.1
  obtain ⟨ni, di, vi⟩ := orOp_val (nd := nd) (fuel := fuel) (sy := sy) na' nb hi
  obtain ⟨zi, i1, i2, -⟩ := ptsOf_evals (nd := nd) (fuel := fuel) (sy := sy) ni
  -- Xor
  obtain ⟨p, hp⟩ := orOp_plain na.1 nb.1
  obtain ⟨np, dp, vp⟩ := orOp_val (nd := nd) (fuel := fuel) (sy := sy) na nb hp
  obtain ⟨q, hq⟩ := orOp_plain na'.1 nb'.1
  obtain ⟨nq, dq, vq⟩ := orOp_val (nd := nd) (fuel := fuel) (sy := sy) na' nb' hq
  obtain ⟨xor, hx⟩ := andOp_plain np.1 nq.1
  obtain ⟨nx, dx, vx⟩ := andOp_val (nd := nd) (fuel := fuel) (sy := sy) np nq hx
  obtain ⟨zx, x1, x2, -⟩ := ptsOf_evals (nd := nd) (fuel := fuel) (sy := sy) nx
  -- Iff
  obtain ⟨u, hu⟩ := andOp_plain na.1 nb.1
  obtain ⟨nu, du, vu⟩ := andOp_val (nd := nd) (fuel := fuel) (sy := sy) na nb hu
  obtain ⟨v, hv⟩ := andOp_plain na'.1 nb'.1
  obtain ⟨nv, dv, vv⟩ := andOp_val (nd := nd) (fuel := fuel) (sy := sy) na' nb' hv
  obtain ⟨iff, hf⟩ := orOp_plain nu.1 nv.1
  obtain ⟨nf, df, vf⟩ := orOp_val (nd := nd) (fuel := fuel) (sy := sy) nu nv hf
  obtain ⟨zf, f1, f2, -⟩ := ptsOf_evals (nd := nd) (fuel := fuel) (sy := sy) nf
  rw [da] at di
  rw [da, db] at dq dv
  rw [dp, dq, Set.inter_self] at dx
  rw [du, dv, Set.inter_self] at df
  refine ⟨xa, xb, _, _, a1, a2, b1, b2, imp, xor, iff, zi, zx, zf, _, _, _, ?_, ?_, ?_, i1, i2, x1, x2, f1, f2, di, dx, df, ?_⟩
  · unfold Expr.Implies; rw [plain_not ha]; exact hi
  · unfold Expr.Xor; rw [plain_not ha, plain_not hb, hp, hq]; exact hx
  · unfold Expr.Iff; rw [plain_not ha, plain_not hb, hu, hv]; exact hf
  · intro t ht
    have e1 := vx t (dx ▸ ht)
    rw [vp t (dp ▸ ht), vq t (dq ▸ ht), va, vb] at e1
    have e2 := vf t (df ▸ ht)
    rw [vu t (du ▸ ht), vv t (dv ▸ ht), va, vb] at e2
    obtain ⟨n1, n2, n3, n4⟩ := xor_num (eval (ptsOf nd fuel trace sy t0 a) t) (eval (ptsOf nd fuel trace sy t0 b) t)
    rw [← e1] at n1 n2 n3 n4
    refine ⟨by rw [vi t (di ▸ ht), va], n1, n2, n3, e2.trans n4⟩

section examples

def dvA : Expr ℚ := .pred "x" .GE (.fin 0)
def dvB : Expr ℚ := .pred "y" .GE (.fin 0)
def dvTrace : Trace ℚ := [("x", ofPts [(0, 1), (2, -1)]), ("y", ofPts [(0, 2), (2, 4)])]

/-- The hypotheses of C105 hold of this trace … -/
example : Plain dvA ∧ Plain dvB ∧ ∀ n, Uses n dvA ∨ Uses n dvB →
    ∃ x pts, dvTrace.lookup n = some x ∧ Represents x pts ∧ ∃ v r, pts = ((0 : ℚ), v) :: r := by
  refine ⟨.pred _ _ _, .pred _ _ _, ?_⟩
  rintro n (h | h) <;> cases h
  · exact ⟨_, [(0, 1), (2, -1)], rfl, represents_ofPts (by simp [Increasing]), _, _, rfl⟩
  · exact ⟨_, [(0, 2), (2, 4)], rfl, represents_ofPts (by simp [Increasing]), _, _, rfl⟩

/-- … and Xor, which is `min(|x|, |y|)` up to the sign, changes its sign where `x` does. -/
example : (Expr.Xor dvA dvB).bind (fun e => computeRobustness true 9 e dvTrace false) = .ok (ofPts [(0, -1), (2, 1)]) := by
  decide +kernel
example : (Expr.Iff dvA dvB).bind (fun e => computeRobustness true 9 e dvTrace false) = .ok (ofPts [(0, 1), (2, -1)]) := by
  decide +kernel
example : (Expr.Implies dvA dvB).bind (fun e => computeRobustness true 9 e dvTrace false) = .ok (ofPts [(0, 2), (2, 4)]) := by
  decide +kernel

end examples

end Verif
