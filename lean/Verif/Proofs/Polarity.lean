import Verif.Proofs.Semantics
import Verif.Spec.Formula
import Verif.Spec.Polarity

/-!
# The quantitative semantics is monotone
-/

namespace Verif
open Spec

theorem margin_mono (op : ComparisonOp) (c : D ℝ) {u v : ℝ} (h : u ≤ v) :
    ((op = .GE ∨ op = .GT) → margin op u c ≤ margin op v c) ∧
    ((op = .LE ∨ op = .LT) → margin op v c ≤ margin op u c) := by
  cases op <;> cases c <;> simp [margin] <;> exact EReal.coe_le_coe_iff.2 (by linarith)

/-- The signals `y` are at least as good as `x` on `[t0, T]`. -/
def Improves (up : String → Bool) (t0 T : ℝ) (e : Expr ℝ) (x y : String → ℝ → ℝ) : Prop :=
  ∀ n, Uses n e → ∀ t ∈ Set.Icc t0 T, (up n = true → x n t ≤ y n t) ∧ (up n = false → y n t ≤ x n t)

theorem rob_mono {up : String → Bool} {t0 T : ℝ} {x y : String → ℝ → ℝ} {e : Expr ℝ} (hp : Plain e)
    (hw : ∀ i t t', IntervalBuilt i → t' ∈ window T i t → t ≤ t' ∧ t' ≤ T) :
    ∀ {pol : Bool}, Polar up pol e → Improves up t0 T e x y →
      ∀ t ∈ Set.Icc t0 T, (pol = true → rob T x e t ≤ rob T y e t) ∧
        (pol = false → rob T y e t ≤ rob T x e t) := by
  induction hp with
  | pred n op c =>
    intro pol hpol h t ht
    have hn := h n (.pred op _) t ht
    simp only [rob]
    cases hpol <;> cases hu : up n <;> simp only [hu, Bool.not_true, Bool.not_false] at * <;>
      simp only [reduceCtorEq, false_implies, true_implies, and_true, true_and] at * <;>
      first
        | exact (margin_mono _ _ hn).1 (by simp)
        | exact (margin_mono _ _ hn).2 (by simp)
  | not _ ih =>
    intro pol hpol h t ht
    cases hpol with | not hpol =>
    have := ih hpol (fun n hn => h n (.not hn)) t ht
    simp only [rob, EReal.neg_le_neg_iff]
    cases pol <;> simpa using this
  | and _ _ ih =>
    intro pol hpol h t ht
    cases hpol with | and hpol =>
    have h' := fun e he => ih e he (hpol e he) (fun n hn => h n (.and he hn)) t ht
    simp only [rob, le_robAll]
    exact ⟨fun hb e he => (robAll_le he).trans ((h' e he).1 hb), fun hb e he => (robAll_le he).trans ((h' e he).2 hb)⟩
  | or _ _ ih =>
    intro pol hpol h t ht
    cases hpol with | or hpol =>
    have h' := fun e he => ih e he (hpol e he) (fun n hn => h n (.or he hn)) t ht
    simp only [rob, robAny_le]
    exact ⟨fun hb e he => ((h' e he).1 hb).trans (le_robAny he), fun hb e he => ((h' e he).2 hb).trans (le_robAny he)⟩
  | always hi _ ih =>
    intro pol hpol h t ht
    cases hpol with | always hpol =>
    have h' := ih hpol (fun n hn => h n (.always hn))
    have hw' := fun t' ht' => hw _ t t' hi ht'
    simp only [rob]
    exact ⟨fun hb => iInf₂_mono fun t' ht' => (h' t' ⟨ht.1.trans (hw' t' ht').1, (hw' t' ht').2⟩).1 hb,
      fun hb => iInf₂_mono fun t' ht' => (h' t' ⟨ht.1.trans (hw' t' ht').1, (hw' t' ht').2⟩).2 hb⟩
  | eventually hi _ ih =>
    intro pol hpol h t ht
    cases hpol with | eventually hpol =>
    have h' := ih hpol (fun n hn => h n (.eventually hn))
    have hw' := fun t' ht' => hw _ t t' hi ht'
    simp only [rob]
    exact ⟨fun hb => iSup₂_mono fun t' ht' => (h' t' ⟨ht.1.trans (hw' t' ht').1, (hw' t' ht').2⟩).1 hb,
      fun hb => iSup₂_mono fun t' ht' => (h' t' ⟨ht.1.trans (hw' t' ht').1, (hw' t' ht').2⟩).2 hb⟩
  | untl hi _ _ ih ih' =>
    intro pol hpol h t ht
    cases hpol with | untl hpol hpol' =>
    have h1 := ih hpol (fun n hn => h n (.untl_left hn))
    have h2 := ih' hpol' (fun n hn => h n (.untl_right hn))
    have hw' := fun t' ht' => hw _ t t' hi ht'
    simp only [rob]
    refine ⟨fun hb => iSup₂_mono fun t' ht' => inf_le_inf
        ((h2 t' ⟨ht.1.trans (hw' t' ht').1, (hw' t' ht').2⟩).1 hb)
        (iInf₂_mono fun u hu => (h1 u ⟨ht.1.trans hu.1, hu.2.trans (hw' t' ht').2⟩).1 hb),
      fun hb => iSup₂_mono fun t' ht' => inf_le_inf
        ((h2 t' ⟨ht.1.trans (hw' t' ht').1, (hw' t' ht').2⟩).2 hb)
        (iInf₂_mono fun u hu => (h1 u ⟨ht.1.trans hu.1, hu.2.trans (hw' t' ht').2⟩).2 hb)⟩

end Verif
