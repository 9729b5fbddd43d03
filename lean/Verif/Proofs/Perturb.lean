import Verif.Proofs.Semantics
import Verif.Spec.Formula

/-!
# The quantitative semantics of perturbed traces
-/

namespace Verif
open Spec

theorem sub_le_iff (a b : EReal) (d : ℝ) : a - d ≤ b ↔ a ≤ b + d :=
  EReal.sub_le_iff_le_add (.inl (EReal.coe_ne_bot d)) (.inl (EReal.coe_ne_top d))

theorem sub_mono {a b : EReal} (d : ℝ) (h : a ≤ b) : a - d ≤ b - d := EReal.sub_le_sub h le_rfl

theorem add_mono' {a b : EReal} (d : ℝ) (h : a ≤ b) : a + d ≤ b + d := add_le_add_left h _

theorem neg_shift {a b : EReal} {d : ℝ} (h : b ≤ a + d) : -a ≤ -b + d := by
  rw [← sub_le_iff] at h
  have := EReal.neg_le_neg_iff.2 h
  rwa [EReal.neg_sub (.inr (EReal.coe_ne_bot d)) (.inr (EReal.coe_ne_top d))] at this

theorem margin_close (op : ComparisonOp) (c : ℝ) {u v d : ℝ} (h : |u - v| ≤ d) :
    margin op u (.fin c) ≤ margin op v (.fin c) + d := by
  rw [abs_le] at h
  cases op <;> simp only [margin, ← EReal.coe_add, EReal.coe_le_coe_iff] <;> linarith

/-- The semantics changes by at most `d` when the signals do. -/
theorem rob_close {d t0 T : ℝ} {e : Expr ℝ} (hp : Plain e)
    (hw : ∀ i t t', IntervalBuilt i → t' ∈ window T i t → t ≤ t' ∧ t' ≤ T) :
    ∀ {x y : String → ℝ → ℝ}, (∀ n, Uses n e → ∀ t ∈ Set.Icc t0 T, |x n t - y n t| ≤ d) →
      ∀ t ∈ Set.Icc t0 T, rob T x e t ≤ rob T y e t + d := by
  induction hp with
  | pred n op c =>
    intro x y h t ht
    exact margin_close op c (h n (.pred op _) t ht)
  | not _ ih =>
    intro x y h t ht
    simp only [rob]
    exact neg_shift (ih (fun n hn t ht => by rw [abs_sub_comm]; exact h n (.not hn) t ht) t ht)
  | and _ _ ih =>
    intro x y h t ht
    simp only [rob]
    rw [← sub_le_iff, le_robAll]
    intro e he
    rw [sub_le_iff]
    exact (robAll_le he).trans (ih e he (fun n hn => h n (.and he hn)) t ht)
  | or _ _ ih =>
    intro x y h t ht
    simp only [rob]
    rw [robAny_le]
    intro e he
    exact (ih e he (fun n hn => h n (.or he hn)) t ht).trans (add_mono' d (le_robAny he))
  | always hi _ ih =>
    intro x y h t ht
    simp only [rob]
    rw [← sub_le_iff]
    refine le_iInf₂ fun t' ht' => ?_
    obtain ⟨h1, h2⟩ := hw _ _ _ hi ht'
    rw [sub_le_iff]
    exact (iInf₂_le (f := fun t' _ => rob T x _ t') t' ht').trans
      (ih (fun n hn => h n (.always hn)) t' ⟨ht.1.trans h1, h2⟩)
  | eventually hi _ ih =>
    intro x y h t ht
    simp only [rob]
    refine iSup₂_le fun t' ht' => ?_
    obtain ⟨h1, h2⟩ := hw _ _ _ hi ht'
    exact (ih (fun n hn => h n (.eventually hn)) t' ⟨ht.1.trans h1, h2⟩).trans
      (add_mono' d (le_iSup₂ (f := fun t' _ => rob T y _ t') t' ht'))
  | @untl e e' i hi _ _ ih ih' =>
    intro x y h t ht
    simp only [rob]
    refine iSup₂_le fun t' ht' => ?_
    obtain ⟨h1, h2⟩ := hw _ _ _ hi ht'
    refine le_trans ?_ (add_mono' d (le_iSup₂
      (f := fun t' _ => rob T y e' t' ⊓ ⨅ u ∈ Set.Icc t t', rob T y e u) t' ht'))
    rw [← sub_le_iff]
    refine le_inf ?_ (le_iInf₂ fun u hu => ?_)
    · rw [sub_le_iff]
      exact inf_le_left.trans (ih' (fun n hn => h n (.untl_right hn)) t' ⟨ht.1.trans h1, h2⟩)
    · rw [sub_le_iff]
      refine inf_le_right.trans ((iInf₂_le (f := fun u _ => rob T x e u) u hu).trans
        (ih (fun n hn => h n (.untl_left hn)) u ⟨ht.1.trans hu.1, hu.2.trans h2⟩))

end Verif
