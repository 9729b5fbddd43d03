import Verif.Proofs.Rounding
import Mathlib.Topology.Order.DenselyOrdered
import Mathlib.Topology.Instances.Rat
import Mathlib.Topology.Algebra.Order.Field
import Mathlib.Topology.Order.OrderClosed

/-! # Piecewise linear functions with rational points, over the real numbers -/

set_option linter.unusedSectionVars false

namespace Verif
open Spec

theorem line_continuous (p q : ℝ × ℝ) : Continuous (line p q) := by
  unfold line
  fun_prop

theorem eval_continuous : ∀ {pts : List (ℝ × ℝ)}, Increasing pts → Continuous (eval pts)
  | [], _ => by simpa [eval] using continuous_const
  | [p], _ => by simpa [eval] using continuous_const
  | p :: q :: l, h => by
    have h' : Increasing (q :: l) := (increasing_cons.1 h).2
    have hpq : p.1 < q.1 := (increasing_cons.1 h).1 q (by simp)
    have ih := eval_continuous h'
    have : eval (p :: q :: l) = fun t => if t ≤ q.1 then line p q t else eval (q :: l) t := rfl
    rw [this]
    refine Continuous.if_le (line_continuous p q) ih continuous_id continuous_const fun t ht => ?_
    rw [ht, eval_head q l h']
    have : q.1 - p.1 ≠ 0 := by linarith
    simp [line, this]

theorem eval_castPts {K : Type} [Field K] [LinearOrder K] (ι : K →+* ℝ) (hι : StrictMono ι) :
    ∀ (pts : List (K × K)) (t : K), eval (castPts ι pts) (ι t) = ι (eval pts t)
  | [], _ => by simp [castPts, eval]
  | [p], _ => rfl
  | p :: q :: l, t => by
    have ih := eval_castPts ι hι (q :: l) t
    simp only [castPts, List.map_cons] at ih ⊢
    rw [eval, eval]
    simp only [hι.le_iff_le]
    split
    · simp [line]
    · exact ih

/-- A bound that holds at the rational times holds at all times. -/
theorem dense_bound {a b : ℚ} (hab : a ≤ b) {f : ℝ → ℝ} (hf : Continuous f) {B : ℝ}
    (h : ∀ t : ℚ, a ≤ t → t ≤ b → f t ≤ B) (t : ℝ) (h0 : (a : ℝ) ≤ t) (h1 : t ≤ b) : f t ≤ B := by
  rcases hab.eq_or_lt with rfl | hab
  · have := le_antisymm h1 h0
    subst this
    exact h a le_rfl le_rfl
  have hd : Dense (Set.range ((↑) : ℚ → ℝ)) := Rat.denseRange_cast
  have h2 : Set.Ioo (a : ℝ) b ⊆ closure (Set.Ioo (a : ℝ) b ∩ Set.range ((↑) : ℚ → ℝ)) :=
    hd.open_subset_closure_inter isOpen_Ioo
  have h3 : Set.Icc (a : ℝ) b ⊆ closure (Set.Ioo (a : ℝ) b ∩ Set.range ((↑) : ℚ → ℝ)) := by
    have hne : (a : ℝ) ≠ b := by exact_mod_cast hab.ne
    rw [← closure_Ioo hne]
    exact closure_minimal h2 isClosed_closure
  have hcl : IsClosed {s : ℝ | f s ≤ B} := isClosed_le hf continuous_const
  refine closure_minimal ?_ hcl (h3 ⟨h0, h1⟩)
  rintro _ ⟨⟨g0, g1⟩, s, rfl⟩
  exact h s (by exact_mod_cast g0.le) (by exact_mod_cast g1.le)

/-- Points with the same times and close values. -/
theorem eval_near {K : Type} [Field K] [LinearOrder K] [IsStrictOrderedRing K] {f g : K → K} {e : K} :
    ∀ {l : List (K × K)}, Increasing l → l ≠ [] → (∀ p ∈ l, |f p.2 - g p.2| ≤ e) → ∀ t, (∃ p ∈ l, p.1 ≤ t) →
    (∃ p ∈ l, t ≤ p.1) →
      |eval (l.map fun p => (p.1, f p.2)) t - eval (l.map fun p => (p.1, g p.2)) t| ≤ e
  | [], _, h, _, _, _, _ => absurd rfl h
  | [p], _, _, h, t, _, _ => h p (by simp)
  | p :: q :: l, hi, _, h, t, h0, h1 => by
    have hi' := (increasing_cons.1 hi).2
    have hpq : p.1 < q.1 := (increasing_cons.1 hi).1 q (by simp)
    simp only [List.map_cons]
    rw [eval, eval]
    simp only
    split
    · rename_i htq
      have hpt : p.1 ≤ t := by
        obtain ⟨r, hr, hrt⟩ := h0
        rcases List.mem_cons.1 hr with rfl | hr
        · exact hrt
        · exact ((increasing_cons.1 hi).1 r hr).le.trans hrt
      have hp := h p (by simp)
      have hq := h q (by simp)
      have hw : 0 < q.1 - p.1 := by linarith
      set a := (t - p.1) / (q.1 - p.1) with ha
      have a0 : 0 ≤ a := div_nonneg (by linarith) hw.le
      have a1 : a ≤ 1 := (div_le_one hw).2 (by linarith)
      simp only [line, ← ha]
      have : f p.2 + (f q.2 - f p.2) * a - (g p.2 + (g q.2 - g p.2) * a) =
          (1 - a) * (f p.2 - g p.2) + a * (f q.2 - g q.2) := by ring
      rw [this]
      rw [abs_le] at hp hq ⊢
      constructor <;> nlinarith
    · rename_i htq
      rw [not_le] at htq
      refine eval_near hi' (by simp) (fun p hp => h p (by simp [hp])) t ⟨q, by simp, htq.le⟩ ?_
      obtain ⟨r, hr, hrt⟩ := h1
      rcases List.mem_cons.1 hr with rfl | hr
      · exact absurd (htq.trans_le hrt) (by linarith)
      · exact ⟨r, hr, hrt⟩

end Verif
