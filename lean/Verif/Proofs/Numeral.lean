import Verif.Spec.Numeral
import Verif.Proofs.RelErr
import Verif.Props.Rounding

/-! # The value of a numeral in binary64 -/

set_option linter.unusedSectionVars false
set_option exponentiation.threshold 1100

namespace Verif
namespace B64
open Spec

/-- Two different decimal numbers with at most 15 significant digits differ by more than `10^-15` of the larger
one. -/
theorem decimal_gap {m n : ℕ} {k j : ℤ} (hm : m < 10 ^ 15) (hn : n < 10 ^ 15)
    (h : (m : ℚ) * 10 ^ k < n * 10 ^ j) :
    1 / 10 ^ 15 * ((n : ℚ) * 10 ^ j) ≤ n * 10 ^ j - m * 10 ^ k := by
  have hp : ∀ i : ℤ, (0 : ℚ) < 10 ^ i := fun i => zpow_pos (by norm_num) i
  have hm' : (m : ℚ) + 1 ≤ 10 ^ 15 := by exact_mod_cast hm
  have hn' : (n : ℚ) + 1 ≤ 10 ^ 15 := by exact_mod_cast hn
  rcases le_total k j with hkj | hkj
  · obtain ⟨d, hd⟩ := Int.eq_ofNat_of_zero_le (sub_nonneg.2 hkj)
    have hj : (10 : ℚ) ^ j = 10 ^ d * 10 ^ k := by
      rw [← zpow_natCast, ← zpow_add₀ (by norm_num)]; congr 1; omega
    rw [hj, ← mul_assoc] at h ⊢
    have h1 : (m : ℚ) < n * 10 ^ d := lt_of_mul_lt_mul_right h (hp k).le
    have h2 : (m : ℚ) + 1 ≤ n * 10 ^ d := by exact_mod_cast h1
    have h3 : 1 / 10 ^ 15 * ((n : ℚ) * 10 ^ d) ≤ n * 10 ^ d - m := by
      generalize (n : ℚ) * 10 ^ d = N at *
      rcases le_total N (10 ^ 15) with h4 | h4
      · have : 1 / 10 ^ 15 * N ≤ 1 := by
          rw [one_div, inv_mul_le_iff₀ (by positivity)]; linarith
        linarith
      · have : (1 - 1 / 10 ^ 15 : ℚ) * 10 ^ 15 ≤ (1 - 1 / 10 ^ 15) * N :=
          mul_le_mul_of_nonneg_left h4 (by norm_num)
        have : (1 - 1 / 10 ^ 15 : ℚ) * 10 ^ 15 = 10 ^ 15 - 1 := by norm_num
        linarith
    have := mul_le_mul_of_nonneg_right h3 (hp k).le
    linarith
  · obtain ⟨d, hd⟩ := Int.eq_ofNat_of_zero_le (sub_nonneg.2 hkj)
    have hk : (10 : ℚ) ^ k = 10 ^ d * 10 ^ j := by
      rw [← zpow_natCast, ← zpow_add₀ (by norm_num)]; congr 1; omega
    rw [hk, ← mul_assoc] at h ⊢
    have h1 : (m : ℚ) * 10 ^ d < n := lt_of_mul_lt_mul_right h (hp j).le
    have h2 : (m : ℚ) * 10 ^ d + 1 ≤ n := by exact_mod_cast h1
    have h3 : 1 / 10 ^ 15 * (n : ℚ) ≤ n - m * 10 ^ d := by
      have : 1 / 10 ^ 15 * (n : ℚ) ≤ 1 := by
        rw [one_div, inv_mul_le_iff₀ (by positivity)]; linarith
      linarith
    have := mul_le_mul_of_nonneg_right h3 (hp j).le
    linarith

/-- Rounding a number which is zero or in the normal range. -/
theorem rnd_normal {q : ℚ} (h : q = 0 ∨ (2 : ℚ) ^ (-1022 : ℤ) ≤ q) (h' : q < 2 ^ 1024 - 2 ^ 970) :
    ∃ c, rnd q = .fin c ∧ Near c q := by
  rcases h with rfl | h
  · exact ⟨0, by simp [rnd], Near.refl 0⟩
  · have hq : 0 < q := lt_of_lt_of_le (two_zpow_pos _) h
    refine ⟨rndPos q, ?_, rndPos_near hq (.inr h)⟩
    rw [rnd_pos hq, if_pos]
    by_contra hc
    have := (rndPos_overflow hq).1 (not_lt.1 hc)
    linarith

theorem near_lt {a b c d : ℚ} (h0 : 0 ≤ a) (h : a < b) (hg : 1 / 10 ^ 15 * b ≤ b - a) (hc : Near c a)
    (hd : Near d b) : c < d := by
  unfold Near at hc hd
  rw [abs_of_nonneg h0] at hc
  rw [abs_of_pos (lt_of_le_of_lt h0 h)] at hd
  have h1 := (abs_le.1 hc).2
  have h2 := (abs_le.1 hd).1
  have hb : 0 < b := lt_of_le_of_lt h0 h
  norm_num at h1 h2 hg
  linarith

theorem NumLit.val_nonneg (l : NumLit) : (0 : ℚ) ≤ l.val := by
  cases l with
  | int n => simp only [NumLit.val]; positivity
  | dec i f e => exact mul_nonneg (by positivity) (zpow_nonneg (by norm_num) _)
  | sci i d e => exact mul_nonneg (by positivity) (zpow_nonneg (by norm_num) _)

theorem val_lq (l : NumLit) : (l.val : B64) = (l.val : ℚ) := rfl

variable [Strtod B64]

theorem numeral_eval (hs : QuietStrtod) {l : NumLit} (h : Fits l) :
    ∃ c : ℚ, l.eval (K := B64) = .ok (.fin c) ∧ rnd l.val = .fin c ∧ Near c l.val := by
  obtain ⟨c, hc, hn⟩ := rnd_normal h.2.1 h.2.2
  refine ⟨c, ?_, hc, hn⟩
  have hc' : (Arith.rnd (l.val : B64) : D B64) = .fin c := hc
  cases l with
  | int n =>
    have h1 := h.1 n rfl
    simp only [NumLit.eval, if_pos h1]
    exact congrArg Outcome.ok hc
  | dec i f e =>
    have hu : Strtod.underflow (K := B64) (NumLit.val (.dec i f e)) = false := hs _ h.2.1
    simp only [NumLit.eval, hc', hu]
    rfl
  | sci i d e =>
    have hu : Strtod.underflow (K := B64) (NumLit.val (.sci i d e)) = false := hs _ h.2.1
    simp only [NumLit.eval, hc', hu]
    rfl

end B64
end Verif
