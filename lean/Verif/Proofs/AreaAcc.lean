import Verif.Proofs.SyncAcc
import Verif.Proofs.Future

/-! # The rounding errors of `area` -/

set_option linter.unusedSectionVars false
set_option exponentiation.threshold 1100

namespace Verif
open Spec
namespace B64

theorem line_bound {t0 t1 s0 s1 t V : ℚ} (h : t0 < t1) (h0 : t0 ≤ t) (h1 : t ≤ t1) (v0 : |s0| ≤ V) (v1 : |s1| ≤ V) :
    |line (t0, s0) (t1, s1) t| ≤ V := by
  obtain ⟨l0, l1⟩ := frac01 h h0 h1
  simp only [line]
  set m := (t - t0) / (t1 - t0)
  have e : s0 + (s1 - s0) * m = s0 * (1 - m) + s1 * m := by ring
  rw [e, abs_le]
  rw [abs_le] at v0 v1
  constructor <;> nlinarith

/-- The errors of the operations. -/
theorem area_err {s0 l v s τ h m a V : ℚ} (hh : 0 < h) (hs : |s0| ≤ V) (hl : |l| ≤ V)
    (hv : |v - l| ≤ 1 / 2 ^ 53 * (15 * V)) (e1 : Near s (s0 + v)) (e2 : Near τ h) (e3 : Near m (s * τ)) (e4 : Near a (m / 2)) :
    |a - (s0 + l) * h / 2| ≤ 1 / 2 ^ 49 * V * h := by
  have V0 : 0 ≤ V := (abs_nonneg _).trans hs
  unfold Near at e1 e2 e3 e4
  rw [abs_of_pos hh] at e2
  have a1 : |s0 + v| ≤ 2 * V + 1 / 2 ^ 53 * (15 * V) := by
    have e : s0 + v = s0 + l + (v - l) := by ring
    rw [e]
    have := abs_add_le (s0 + l) (v - l)
    have := abs_add_le s0 l
    linarith
  have a2 : |s - (s0 + l)| ≤ 1 / 2 ^ 53 * (18 * V) := by
    have e : s - (s0 + l) = (s - (s0 + v)) + (v - l) := by ring
    rw [e]
    have := abs_add_le (s - (s0 + v)) (v - l)
    have : (1 : ℚ) / 2 ^ 53 * |s0 + v| ≤ 1 / 2 ^ 53 * (2 * V + 1 / 2 ^ 53 * (15 * V)) :=
      mul_le_mul_of_nonneg_left a1 (by norm_num)
    linarith
  have a3 : |s| ≤ 201 / 100 * V := by
    have e : s = (s - (s0 + l)) + (s0 + l) := by ring
    rw [e]
    have := abs_add_le (s - (s0 + l)) (s0 + l)
    have := abs_add_le s0 l
    linarith
  have b1 : |s * τ - (s0 + l) * h| ≤ 1 / 2 ^ 53 * (201 / 10 * V * h) := by
    have e : s * τ - (s0 + l) * h = s * (τ - h) + (s - (s0 + l)) * h := by ring
    rw [e]
    have c := abs_add_le (s * (τ - h)) ((s - (s0 + l)) * h)
    have c1 : |s * (τ - h)| ≤ 201 / 100 * V * (1 / 2 ^ 53 * h) := by
      rw [abs_mul]; exact mul_le_mul a3 e2 (abs_nonneg _) (by positivity)
    have c2 : |(s - (s0 + l)) * h| ≤ 1 / 2 ^ 53 * (18 * V) * h := by
      rw [abs_mul, abs_of_pos hh]; exact mul_le_mul_of_nonneg_right a2 hh.le
    have : 0 ≤ V * h := by positivity
    linarith
  have b2 : |s * τ| ≤ 202 / 100 * V * h := by
    have : |τ| ≤ (1 + 1 / 2 ^ 53) * h := by
      have := abs_add_le (τ - h) h
      rw [sub_add_cancel, abs_of_pos hh] at this
      linarith
    rw [abs_mul]
    calc |s| * |τ| ≤ 201 / 100 * V * ((1 + 1 / 2 ^ 53) * h) := mul_le_mul a3 this (abs_nonneg _) (by positivity)
      _ ≤ _ := by have : 0 ≤ V * h := by positivity
                  linarith
  have b3 : |m - (s0 + l) * h| ≤ 1 / 2 ^ 53 * (23 * V * h) := by
    have e : m - (s0 + l) * h = (m - s * τ) + (s * τ - (s0 + l) * h) := by ring
    rw [e]
    have c := abs_add_le (m - s * τ) (s * τ - (s0 + l) * h)
    have : (1 : ℚ) / 2 ^ 53 * |s * τ| ≤ 1 / 2 ^ 53 * (202 / 100 * V * h) := mul_le_mul_of_nonneg_left b2 (by norm_num)
    have : 0 ≤ V * h := by positivity
    linarith
  have b4 : |m| ≤ 203 / 100 * V * h := by
    have c := abs_add_le (m - s * τ) (s * τ)
    rw [sub_add_cancel] at c
    have : (1 : ℚ) / 2 ^ 53 * |s * τ| ≤ 1 / 2 ^ 53 * (202 / 100 * V * h) := mul_le_mul_of_nonneg_left b2 (by norm_num)
    have : 0 ≤ V * h := by positivity
    linarith
  have e : a - (s0 + l) * h / 2 = (a - m / 2) + (m - (s0 + l) * h) / 2 := by ring
  rw [e]
  have c := abs_add_le (a - m / 2) ((m - (s0 + l) * h) / 2)
  rw [abs_div (m - (s0 + l) * h) 2, abs_of_pos (by norm_num : (0 : ℚ) < 2)] at c
  rw [abs_div m 2, abs_of_pos (by norm_num : (0 : ℚ) < 2)] at e4
  have : (1 : ℚ) / 2 ^ 53 * (|m| / 2) ≤ 1 / 2 ^ 53 * (203 / 100 * V * h / 2) :=
    mul_le_mul_of_nonneg_left (by linarith) (by norm_num)
  have : 0 ≤ V * h := by positivity
  linarith

theorem area_spec {t0 t1 s0 s1 t V : ℚ} (h : t0 < t1) (m0 : Mild t0) (m1 : Mild t1) (n0 : Mild s0) (n1 : Mild s1)
    (mt : Mild t) (v0 : |s0| ≤ V) (v1 : |s1| ≤ V) (h0 : t0 < t) (h1 : t ≤ t1) :
    ∃ a : ℚ, (smp t0 t1 s0 s1).area (fq t) = fq a ∧
      |a - (s0 + line (t0, s0) (t1, s1) t) * (t - t0) / 2| ≤ 1 / 2 ^ 49 * V * (t - t0) := by
  set W : ℚ := max |s0| |s1| with hW
  have w0 : |s0| ≤ W := le_max_left _ _
  have w1 : |s1| ≤ W := le_max_right _ _
  have hWV : W ≤ V := max_le v0 v1
  have hW40 : W ≤ 2 ^ 40 := max_le (by exact_mod_cast n0.2) (by exact_mod_cast n1.2)
  obtain ⟨v, i1, i2, i3⟩ := interp_at syncBudget_mild h m0 m1 n0 n1 w0 w1 mt h0.le h1
  have hl := line_bound h h0.le h1 w0 w1
  have hv : |v| ≤ 2 ^ 41 := by
    have e : v = (v - line (t0, s0) (t1, s1) t) + line (t0, s0) (t1, s1) t := by ring
    rw [e]
    have := abs_add_le (v - line (t0, s0) (t1, s1) t) (line (t0, s0) (t1, s1) t)
    linarith
  have fv : Fx (-293) 41 v := ⟨i3, by exact_mod_cast hv⟩
  have f0 : Fx (-100) 40 s0 := n0
  obtain ⟨s, e11, e12, e13⟩ := rnd_fx (Fx.add (f0.mono (k' := -293) (l' := 41) (by norm_num) (by norm_num)) fv)
    (by norm_num) (by norm_num) (by norm_num)
  have ft : Fx (-100) 41 (t - t0) := by
    rw [sub_eq_add_neg]
    exact Fx.add (l := 40) mt (Fx.neg m0)
  obtain ⟨τ, e21, e22, e23⟩ := rnd_fx ft (by norm_num) (by norm_num) (by norm_num)
  obtain ⟨m, e31, e32, e33⟩ := rnd_fx (Fx.mul e13 e23) (by norm_num) (by norm_num) (by norm_num)
  have fm : Fx (-394) 82 (m / 2) := by
    have := Fx.mul e33 (b := 1 / 2) (k' := -1) (l' := -1) ⟨⟨1, by norm_num⟩, by norm_num [abs_of_pos]⟩
    rw [div_eq_mul_one_div]
    exact this.mono (by norm_num) (by norm_num)
  obtain ⟨a, e41, e42, -⟩ := rnd_fx fm (by norm_num) (by norm_num) (by norm_num)
  refine ⟨a, ?_, ?_⟩
  · have hlt : (smp t0 t1 s0 s1).time.lt (fq t) = true := ltT h0
    rw [Sample.area, hlt, if_pos rfl]
    have h2 : (2 : ℚ) ≠ 0 := by norm_num
    exact div_fin (b := (2 : ℚ)) (mul_fin (add_fin rfl i1 e11) (sub_fin rfl rfl e21) e31) rfl h2 e41
  · refine (area_err (sub_pos.2 h0) w0 hl i2 e12 e22 e32 e42).trans ?_
    have : 0 ≤ t - t0 := by linarith
    exact mul_le_mul_of_nonneg_right (mul_le_mul_of_nonneg_left hWV (by norm_num)) this

end B64
end Verif
