import Verif.Proofs.Binary64

/-! # The relative error of rounding to binary64 away from overflow and underflow -/

set_option exponentiation.threshold 1100

namespace Verif
namespace B64

/-- A multiple of `2^k` of magnitude at most `2^l`. -/
def Fx (k l : ℤ) (q : ℚ) : Prop := (∃ n : ℤ, q = n * (2 : ℚ) ^ k) ∧ |q| ≤ (2 : ℚ) ^ l

/-- `r` is `q` up to a relative error of half a unit in the last of 53 places. -/
def Near (r q : ℚ) : Prop := |r - q| ≤ 1 / 2 ^ 53 * |q|

theorem Near.refl (q : ℚ) : Near q q := by
  simp only [Near, sub_self, abs_zero]; positivity

theorem Near.neg {r q : ℚ} (h : Near r q) : Near (-r) (-q) := by
  unfold Near at *
  rw [abs_neg, ← abs_neg]
  have : -(-r - -q) = r - q := by ring
  rwa [this]

theorem Near.zero_iff {r q : ℚ} (h : Near r q) : r = 0 ↔ q = 0 := by
  constructor
  · rintro rfl
    unfold Near at h
    by_contra hq
    have : 0 < |q| := abs_pos.2 hq
    rw [zero_sub, abs_neg] at h
    linarith
  · rintro rfl
    unfold Near at h
    simpa using h

theorem multiple_mono {k k' : ℤ} (h : k' ≤ k) {q : ℚ} (hq : ∃ n : ℤ, q = n * (2 : ℚ) ^ k) :
    ∃ n : ℤ, q = n * (2 : ℚ) ^ k' := by
  obtain ⟨n, rfl⟩ := hq
  obtain ⟨d, hd⟩ := Int.eq_ofNat_of_zero_le (sub_nonneg.2 h)
  refine ⟨n * 2 ^ d, ?_⟩
  have : k = d + k' := by omega
  rw [this, zpow_add₀ (by norm_num)]
  push_cast
  rw [zpow_natCast]; ring

theorem Fx.mono {k l k' l' : ℤ} {q : ℚ} (h : Fx k l q) (hk : k' ≤ k) (hl : l ≤ l') : Fx k' l' q :=
  ⟨multiple_mono hk h.1, h.2.trans (zpow_mono hl)⟩

theorem Fx.neg {k l : ℤ} {q : ℚ} (h : Fx k l q) : Fx k l (-q) := by
  obtain ⟨⟨n, hn⟩, h2⟩ := h
  exact ⟨⟨-n, by rw [hn]; push_cast; ring⟩, by rwa [abs_neg]⟩

theorem Fx.add {k l : ℤ} {a b : ℚ} (ha : Fx k l a) (hb : Fx k l b) : Fx k (l + 1) (a + b) := by
  obtain ⟨⟨n, hn⟩, h1⟩ := ha
  obtain ⟨⟨m, hm⟩, h2⟩ := hb
  refine ⟨⟨n + m, by rw [hn, hm]; push_cast; ring⟩, (abs_add_le a b).trans ?_⟩
  rw [zpow_add₀ (by norm_num), zpow_one]
  linarith

theorem Fx.mul {k l k' l' : ℤ} {a b : ℚ} (ha : Fx k l a) (hb : Fx k' l' b) :
    Fx (k + k') (l + l') (a * b) := by
  obtain ⟨⟨n, hn⟩, h1⟩ := ha
  obtain ⟨⟨m, hm⟩, h2⟩ := hb
  refine ⟨⟨n * m, ?_⟩, ?_⟩
  · rw [zpow_add₀ (by norm_num)]; rw [hn, hm]; push_cast; ring
  · rw [zpow_add₀ (by norm_num), abs_mul]
    exact mul_le_mul h1 h2 (abs_nonneg _) (two_zpow_pos _).le

theorem isB64_two_zpow {l : ℤ} (h1 : -1074 ≤ l) (h2 : l ≤ 1023) : IsB64 ((2 : ℚ) ^ l) := by
  by_cases h : l ≤ 971
  · exact ⟨1, l, by simp, by norm_num, h1, h⟩
  · refine ⟨2 ^ (l - 971).toNat, 971, ?_, ?_, by norm_num, le_refl _⟩
    · rw [Int.cast_pow, Int.cast_ofNat, ← zpow_natCast, ← zpow_add₀ (by norm_num)]
      congr 1
      omega
    · rw [abs_of_pos (by positivity)]
      exact pow_lt_pow_right₀ (by norm_num) (by omega)

/-- The rounding of a number which is a multiple of `2^k` for some `k ≥ -1074`, or at least `2^-1022`. -/
theorem rndPos_near {q : ℚ} (hq : 0 < q) (h : (∃ n : ℤ, q = n * (2 : ℚ) ^ (-1074 : ℤ)) ∨ (2 : ℚ) ^ (-1022 : ℤ) ≤ q) :
    Near (rndPos q) q := by
  have habs : |rndPos q - q| ≤ 1 / 2 * 2 ^ ulpExp q := by
    have hp := two_zpow_pos (ulpExp q)
    have := roundEven_abs (q / 2 ^ ulpExp q)
    have e : rndPos q - q = (roundEven (q / 2 ^ ulpExp q) - q / 2 ^ ulpExp q) * 2 ^ ulpExp q := by
      rw [rndPos, sub_mul, div_mul_cancel₀ _ hp.ne']
    rw [e, abs_mul, abs_of_pos hp]
    exact mul_le_mul_of_nonneg_right this hp.le
  have main : (2 : ℚ) ^ (ulpExp q + 52) ≤ q → Near (rndPos q) q := by
    intro hb
    rw [zpow_add₀ (by norm_num)] at hb
    unfold Near
    rw [abs_of_pos hq]
    have : (2 : ℚ) ^ (52 : ℤ) = 2 ^ 52 := by norm_num
    rw [this] at hb
    have h3 : (1 : ℚ) / 2 ^ 53 * (2 ^ ulpExp q * 2 ^ 52) = 1 / 2 * 2 ^ ulpExp q := by
      rw [show (53 : ℕ) = 52 + 1 from rfl, pow_succ]; field_simp
    calc _ ≤ _ := habs
      _ = _ := h3.symm
      _ ≤ _ := mul_le_mul_of_nonneg_left hb (by positivity)
  by_cases hu : -1074 < ulpExp q
  · exact main (binade_le hq hu)
  have hu : ulpExp q = -1074 := le_antisymm (not_lt.1 hu) (ulpExp_ge q)
  rcases h with ⟨n, hn⟩ | h
  · have : rndPos q = q := by
      unfold rndPos
      rw [hu]
      have h1 : q / 2 ^ (-1074 : ℤ) = n := by
        rw [hn, mul_div_assoc, div_self (two_zpow_pos _).ne', mul_one]
      rw [h1]
      have := roundEven_le (n : ℚ) n
      simp only [sub_self, abs_zero] at this
      have h2 : (roundEven (n : ℚ) : ℚ) = n := sub_eq_zero.1 (abs_eq_zero.1 (le_antisymm this (abs_nonneg _)))
      rw [h2, ← hn]
    rw [this]; exact Near.refl _
  · apply main
    rw [hu]; exact h

theorem rndPos_le_two_zpow {q : ℚ} (hq : 0 < q) {l : ℤ} (h1 : -1074 ≤ l) (h2 : l ≤ 1023) (h : q ≤ 2 ^ l) :
    rndPos q ≤ 2 ^ l := by
  have := rndPos_nearest hq (isB64_two_zpow h1 h2)
  rw [abs_of_nonneg (sub_nonneg.2 h)] at this
  have := le_abs_self (rndPos q - q)
  linarith

theorem rndPos_multiple {q : ℚ} {k : ℤ} (h : (∃ n : ℤ, q = n * (2 : ℚ) ^ k) ∨ k ≤ ulpExp q) :
    ∃ n : ℤ, rndPos q = n * (2 : ℚ) ^ k := by
  by_cases hk : k ≤ ulpExp q
  · exact multiple_mono hk ⟨_, rndPos_eq q⟩
  · rcases h with h | h
    · obtain ⟨n, hn⟩ := multiple_mono (not_le.1 hk).le h
      have hr := roundEven_le (n : ℚ) n
      simp only [sub_self, abs_zero] at hr
      have h2 : (roundEven (n : ℚ) : ℚ) = n := sub_eq_zero.1 (abs_eq_zero.1 (le_antisymm hr (abs_nonneg _)))
      have : rndPos q = q := by
        unfold rndPos
        have h1 : q / 2 ^ ulpExp q = n := by
          rw [div_eq_iff (two_zpow_pos _).ne']; exact hn
        rw [h1, h2, ← hn]
      rw [this]; exact h
    · exact absurd h hk

theorem two_zpow_lt {l : ℤ} (h2 : l ≤ 1023) : (2 : ℚ) ^ l < 2 ^ 1024 := by
  have : (2 : ℚ) ^ (1024 : ℤ) = 2 ^ 1024 := by rw [← zpow_natCast]; norm_num
  rw [← this]
  exact zpow_lt_zpow_right₀ (by norm_num) (by omega)

/-- Sums, differences and products of moderate numbers. -/
theorem rnd_fx {k l : ℤ} {q : ℚ} (h : Fx k l q) (hk : -1074 ≤ k) (h1 : -1074 ≤ l) (h2 : l ≤ 1023) :
    ∃ r, rnd q = .fin r ∧ Near r q ∧ Fx k l r := by
  have pos : ∀ q, 0 < q → Fx k l q → ∃ r, rnd q = .fin r ∧ Near r q ∧ Fx k l r := by
    intro q hq h
    have hle : q ≤ 2 ^ l := (le_abs_self q).trans h.2
    have hr := rndPos_le_two_zpow hq h1 h2 hle
    refine ⟨rndPos q, ?_, rndPos_near hq (.inl (multiple_mono hk h.1)), rndPos_multiple (.inl h.1), ?_⟩
    · rw [rnd_pos hq, if_pos (hr.trans_lt (two_zpow_lt h2))]
    · rwa [abs_of_nonneg (rndPos_nonneg hq)]
  rcases lt_trichotomy q 0 with hq | hq | hq
  · obtain ⟨r, e1, e2, e3⟩ := pos (-q) (by linarith) h.neg
    refine ⟨-r, ?_, ?_, e3.neg⟩
    · rw [← neg_neg q, rnd_neg, e1]; rfl
    · simpa using e2.neg
  · subst hq
    exact ⟨0, by simp [rnd], Near.refl _, h⟩
  · exact pos q hq h

/-- Quotients of moderate numbers. -/
theorem rnd_quot {i a j b : ℤ} {x y : ℚ} (hx : Fx i a x) (hy : Fx j b y) (hy0 : y ≠ 0)
    (h1 : -1022 ≤ i - b) (h2 : a - j ≤ 1023) (h3 : -1074 ≤ a - j) :
    ∃ r, rnd (x / y) = .fin r ∧ Near r (x / y) ∧ Fx (i - b - 52) (a - j) r := by
  have ybig : (2 : ℚ) ^ j ≤ |y| := by
    obtain ⟨⟨n, hn⟩, _⟩ := hy
    have hn0 : n ≠ 0 := by rintro rfl; simp at hn; exact hy0 hn
    rw [hn, abs_mul, abs_of_pos (two_zpow_pos j)]
    have : (1 : ℚ) ≤ |(n : ℚ)| := by exact_mod_cast Int.one_le_abs hn0
    nlinarith [two_zpow_pos j]
  have hup : |x / y| ≤ 2 ^ (a - j) := by
    rw [abs_div, zpow_sub₀ (by norm_num)]
    exact div_le_div₀ (two_zpow_pos _).le hx.2 (two_zpow_pos _) ybig
  have hlow : x ≠ 0 → (2 : ℚ) ^ (i - b) ≤ |x / y| := by
    intro hx0
    obtain ⟨⟨n, hn⟩, _⟩ := hx
    have hn0 : n ≠ 0 := by rintro rfl; simp at hn; exact hx0 hn
    have xbig : (2 : ℚ) ^ i ≤ |x| := by
      rw [hn, abs_mul, abs_of_pos (two_zpow_pos i)]
      have : (1 : ℚ) ≤ |(n : ℚ)| := by exact_mod_cast Int.one_le_abs hn0
      nlinarith [two_zpow_pos i]
    rw [abs_div, zpow_sub₀ (by norm_num)]
    exact div_le_div₀ (abs_nonneg _) xbig (abs_pos.2 hy0) hy.2
  have pos : ∀ q, 0 < q → q ≤ (2 : ℚ) ^ (a - j) → (2 : ℚ) ^ (i - b) ≤ q →
      ∃ r, rnd q = .fin r ∧ Near r q ∧ Fx (i - b - 52) (a - j) r := by
    intro q hq hle hge
    have hr := rndPos_le_two_zpow hq h3 h2 hle
    have hu : i - b - 52 ≤ ulpExp q := by
      have h4 : i - b ≤ ilog2 q := by
        have := hge.trans_lt (ilog2_spec hq).2
        have := (zpow_lt_zpow_iff_right₀ (a := (2 : ℚ)) (by norm_num)).1 this
        omega
      unfold ulpExp; omega
    refine ⟨rndPos q, ?_, rndPos_near hq (.inr ((zpow_mono h1).trans hge)), rndPos_multiple (.inr hu), ?_⟩
    · rw [rnd_pos hq, if_pos (hr.trans_lt (two_zpow_lt h2))]
    · rwa [abs_of_nonneg (rndPos_nonneg hq)]
  rcases lt_trichotomy (x / y) 0 with hq | hq | hq
  · have hx0 : x ≠ 0 := by rintro rfl; simp at hq
    rw [abs_of_neg hq] at hup hlow
    obtain ⟨r, e1, e2, e3⟩ := pos _ (by linarith) hup (hlow hx0)
    refine ⟨-r, ?_, ?_, e3.neg⟩
    · rw [← neg_neg (x / y), rnd_neg, e1]; rfl
    · simpa using e2.neg
  · refine ⟨0, by simp [hq, rnd], by rw [hq]; exact Near.refl _, ⟨0, by simp⟩, ?_⟩
    rw [abs_zero]; exact (two_zpow_pos _).le
  · have hx0 : x ≠ 0 := by rintro rfl; simp at hq
    rw [abs_of_pos hq] at hup hlow
    exact pos _ hq hup (hlow hx0)

end B64
end Verif
