import Verif.Model.Binary64
import Verif.Spec.Binary64
import Mathlib.Tactic.Linarith
import Mathlib.Tactic.Positivity
import Mathlib.Tactic.FieldSimp
import Mathlib.Tactic.Ring
import Mathlib.Tactic.NormNum
import Mathlib.Data.Nat.Log

/-!
# `B64.rnd` is the rounding of IEEE 754

To the nearest representable number, ties to even, overflow from `2^1024 - 2^970` on.
-/

namespace Verif.B64

set_option exponentiation.threshold 1100

/-! ## The nearest integer -/

theorem roundEven_abs (r : ℚ) : |(roundEven r : ℚ) - r| ≤ 1 / 2 := by
  have h0 := Int.floor_le r
  have h1 := Int.lt_floor_add_one r
  unfold roundEven
  simp only
  split_ifs <;> push_cast <;> rw [abs_le] <;> constructor <;> linarith

theorem roundEven_le (r : ℚ) (n : ℤ) : |(roundEven r : ℚ) - r| ≤ |(n : ℚ) - r| := by
  have h := roundEven_abs r
  by_contra hc
  rw [not_le] at hc
  have h2 : |((roundEven r - n : ℤ) : ℚ)| < 1 := by
    have : ((roundEven r - n : ℤ) : ℚ) = ((roundEven r : ℚ) - r) - ((n : ℚ) - r) := by push_cast; ring
    rw [this]
    have := abs_sub ((roundEven r : ℚ) - r) ((n : ℚ) - r)
    linarith
  have h3 : |roundEven r - n| < 1 := by exact_mod_cast h2
  rw [Int.abs_lt_one_iff] at h3
  have : roundEven r = n := by omega
  rw [this] at hc
  exact lt_irrefl _ hc

theorem roundEven_tie (r : ℚ) (n : ℤ) (hne : n ≠ roundEven r)
    (h : |(n : ℚ) - r| = |(roundEven r : ℚ) - r|) : Even (roundEven r) := by
  have h0 := Int.floor_le r
  have h1 := Int.lt_floor_add_one r
  have hge : 1 ≤ |((roundEven r - n : ℤ) : ℚ)| := by
    have : 1 ≤ |roundEven r - n| := Int.one_le_abs (by omega)
    exact_mod_cast this
  have hr := roundEven_abs r
  have htri : |((roundEven r - n : ℤ) : ℚ)| ≤ |(roundEven r : ℚ) - r| + |(n : ℚ) - r| := by
    have : ((roundEven r - n : ℤ) : ℚ) = ((roundEven r : ℚ) - r) - ((n : ℚ) - r) := by push_cast; ring
    rw [this]; exact abs_sub _ _
  have heq : |(roundEven r : ℚ) - r| = 1 / 2 := by linarith
  unfold roundEven at heq ⊢
  simp only at heq ⊢
  split_ifs at heq ⊢ with c1 c2 c3
  · exfalso
    rw [abs_of_nonpos (by linarith)] at heq; linarith
  · exfalso
    push_cast at heq
    rw [abs_of_nonneg (by linarith)] at heq; linarith
  · exact Int.even_iff.2 c3
  · exact Int.even_iff.2 (by omega)

theorem roundEven_ge {r : ℚ} {n : ℤ} (h : (n : ℚ) ≤ r) : n ≤ roundEven r := by
  by_contra hc
  have h1 : roundEven r + 1 ≤ n := by omega
  have h2 : ((roundEven r : ℤ) : ℚ) + 1 ≤ n := by exact_mod_cast h1
  have := abs_le.1 (roundEven_abs r)
  linarith [this.1]

theorem roundEven_le_int {r : ℚ} {n : ℤ} (h : r ≤ (n : ℚ)) : roundEven r ≤ n := by
  by_contra hc
  have h1 : n + 1 ≤ roundEven r := by omega
  have h2 : ((n : ℤ) : ℚ) + 1 ≤ roundEven r := by exact_mod_cast h1
  have := abs_le.1 (roundEven_abs r)
  linarith [this.2]

/-! ## The binary exponent -/

theorem two_zpow_pos (k : ℤ) : (0 : ℚ) < 2 ^ k := zpow_pos (by norm_num) k

theorem zpow_mono {a b : ℤ} (h : a ≤ b) : (2 : ℚ) ^ a ≤ 2 ^ b := zpow_le_zpow_right₀ (by norm_num) h

theorem ilog2_spec {q : ℚ} (hq : 0 < q) : (2 : ℚ) ^ ilog2 q ≤ q ∧ q < 2 ^ (ilog2 q + 1) := by
  have hn : 0 < q.num := Rat.num_pos.2 hq
  have hna : q.num.natAbs ≠ 0 := by omega
  have hd : q.den ≠ 0 := q.den_nz
  set n := q.num.natAbs with hnd
  set d := q.den with hdd
  have hqe : q = (n : ℚ) / d := by
    have h1 : ((n : ℤ)) = q.num := by rw [hnd]; omega
    have h2 : (n : ℚ) = (q.num : ℚ) := by rw [← h1]; push_cast; rfl
    rw [h2, hdd, Rat.num_div_den]
  have hdpos : (0 : ℚ) < d := by have : 0 < d := Nat.pos_of_ne_zero hd
                                 exact_mod_cast this
  have a1 : (2 : ℚ) ^ (Nat.log2 n : ℤ) ≤ n := by
    have := Nat.log2_self_le hna
    rw [zpow_natCast]; exact_mod_cast this
  have a2 : (n : ℚ) < 2 ^ ((Nat.log2 n : ℤ) + 1) := by
    have := Nat.lt_log2_self (n := n)
    have h : ((Nat.log2 n : ℤ) + 1) = ((Nat.log2 n + 1 : ℕ) : ℤ) := by push_cast; rfl
    rw [h, zpow_natCast]; exact_mod_cast this
  have b1 : (2 : ℚ) ^ (Nat.log2 d : ℤ) ≤ d := by
    have := Nat.log2_self_le hd
    rw [zpow_natCast]; exact_mod_cast this
  have b2 : (d : ℚ) < 2 ^ ((Nat.log2 d : ℤ) + 1) := by
    have := Nat.lt_log2_self (n := d)
    have h : ((Nat.log2 d : ℤ) + 1) = ((Nat.log2 d + 1 : ℕ) : ℤ) := by push_cast; rfl
    rw [h, zpow_natCast]; exact_mod_cast this
  set a : ℤ := ((Nat.log2 n : ℕ) : ℤ)
  set b : ℤ := ((Nat.log2 d : ℕ) : ℤ)
  have up : q < 2 ^ (a - b + 1) := by
    rw [hqe, div_lt_iff₀ hdpos]
    calc (n : ℚ) < 2 ^ (a + 1) := a2
      _ = 2 ^ (a - b + 1) * 2 ^ b := by rw [← zpow_add₀ (by norm_num)]; congr 1; ring
      _ ≤ 2 ^ (a - b + 1) * d := mul_le_mul_of_nonneg_left b1 (two_zpow_pos _).le
  have lo : 2 ^ (a - b - 1) ≤ q := by
    rw [hqe, le_div_iff₀ hdpos]
    calc (2 : ℚ) ^ (a - b - 1) * d ≤ 2 ^ (a - b - 1) * 2 ^ (b + 1) :=
          mul_le_mul_of_nonneg_left b2.le (two_zpow_pos _).le
      _ = 2 ^ a := by rw [← zpow_add₀ (by norm_num)]; congr 1; ring
      _ ≤ n := a1
  unfold ilog2
  simp only
  split_ifs with h
  · exact ⟨h, up⟩
  · refine ⟨lo, ?_⟩
    rw [sub_add_cancel]; exact not_le.1 h

/-! ## Rounding a positive number -/

theorem ulpExp_ge (q : ℚ) : -1074 ≤ ulpExp q := by unfold ulpExp; omega

theorem scaled_lt {q : ℚ} (hq : 0 < q) : q / 2 ^ ulpExp q < 2 ^ 53 := by
  rw [div_lt_iff₀ (two_zpow_pos _)]
  have h : (2 : ℚ) ^ (53 : ℕ) * 2 ^ ulpExp q = 2 ^ (ulpExp q + 53) := by
    rw [zpow_add₀ (by norm_num), mul_comm]; norm_cast
  rw [h]
  exact lt_of_lt_of_le (ilog2_spec hq).2 (zpow_mono (by unfold ulpExp; omega))

theorem scaled_ge {q : ℚ} (hq : 0 < q) (h : -1074 < ulpExp q) : 2 ^ 52 ≤ q / 2 ^ ulpExp q := by
  rw [le_div_iff₀ (two_zpow_pos _)]
  have h2 : (2 : ℚ) ^ (52 : ℕ) * 2 ^ ulpExp q = 2 ^ (ulpExp q + 52) := by
    rw [zpow_add₀ (by norm_num), mul_comm]; norm_cast
  rw [h2]
  have : ulpExp q + 52 = ilog2 q := by unfold ulpExp at *; omega
  rw [this]
  exact (ilog2_spec hq).1

/-- The integer significand computed for `q`. -/
def sig (q : ℚ) : ℤ := roundEven (q / (2 : ℚ) ^ ulpExp q)

theorem rndPos_eq (q : ℚ) : rndPos q = sig q * 2 ^ ulpExp q := rfl

theorem sig_nonneg {q : ℚ} (hq : 0 < q) : 0 ≤ sig q :=
  roundEven_ge (by push_cast; exact (div_pos hq (two_zpow_pos _)).le)

theorem sig_le {q : ℚ} (hq : 0 < q) : sig q ≤ 2 ^ 53 :=
  roundEven_le_int (by push_cast; exact (scaled_lt hq).le)

theorem sig_ge {q : ℚ} (hq : 0 < q) (h : -1074 < ulpExp q) : 2 ^ 52 ≤ sig q :=
  roundEven_ge (by push_cast; exact scaled_ge hq h)

theorem rndPos_nonneg {q : ℚ} (hq : 0 < q) : 0 ≤ rndPos q := by
  rw [rndPos_eq]
  have : (0 : ℚ) ≤ sig q := by exact_mod_cast sig_nonneg hq
  exact mul_nonneg this (two_zpow_pos _).le

theorem pow_split (n : ℕ) (e : ℤ) : (2 : ℚ) ^ n * 2 ^ e = 2 ^ (e + n) := by
  rw [zpow_add₀ (by norm_num), mul_comm, zpow_natCast]

theorem ulpExp_lt_of_rndPos {q : ℚ} (hq : 0 < q) (h : rndPos q < 2 ^ 1024) :
    ulpExp q ≤ 971 ∧ (sig q = 2 ^ 53 → ulpExp q + 1 ≤ 971) := by
  have key : ∀ (n : ℕ), (2 ^ n : ℤ) ≤ sig q → ulpExp q + n < 1024 := by
    intro n hn
    by_contra hc
    have h1 : ((2 : ℚ) ^ n) ≤ sig q := by exact_mod_cast hn
    have h2 : (2 : ℚ) ^ (1024 : ℤ) ≤ 2 ^ (ulpExp q + n) := zpow_mono (by omega)
    rw [← pow_split] at h2
    have h3 := mul_le_mul_of_nonneg_right h1 (two_zpow_pos (ulpExp q)).le
    rw [← rndPos_eq] at h3
    have h4 : (2 : ℚ) ^ (1024 : ℤ) = 2 ^ (1024 : ℕ) := by norm_cast
    rw [h4] at h2
    exact absurd h (not_lt.2 (h2.trans h3))
  constructor
  · by_contra hc
    have := key 52 (sig_ge hq (by omega))
    omega
  · intro he
    have := key 53 (by rw [he])
    omega

theorem rndPos_isB64 {q : ℚ} (hq : 0 < q) (h : rndPos q < 2 ^ 1024) : IsB64 (rndPos q) := by
  obtain ⟨h1, h2⟩ := ulpExp_lt_of_rndPos hq h
  rcases lt_or_eq_of_le (sig_le hq) with hs | hs
  · exact ⟨sig q, ulpExp q, rndPos_eq q, by rw [abs_of_nonneg (sig_nonneg hq)]; exact hs, ulpExp_ge q, h1⟩
  · refine ⟨2 ^ 52, ulpExp q + 1, ?_, by norm_num, by have := ulpExp_ge q; omega, h2 hs⟩
    rw [rndPos_eq, hs, zpow_add₀ (by norm_num)]
    push_cast; ring

theorem rndPos_nearest_mul {q : ℚ} (n : ℤ) :
    |rndPos q - q| ≤ |(n : ℚ) * 2 ^ ulpExp q - q| := by
  have hu := two_zpow_pos (ulpExp q)
  have e : ∀ m : ℤ, |(m : ℚ) * 2 ^ ulpExp q - q| = |(m : ℚ) - q / 2 ^ ulpExp q| * 2 ^ ulpExp q := by
    intro m
    rw [← abs_of_pos hu, ← abs_mul, abs_of_pos hu, sub_mul, div_mul_cancel₀ _ hu.ne']
  rw [rndPos_eq, e, e]
  exact mul_le_mul_of_nonneg_right (roundEven_le _ n) hu.le

/-- A number with 53 digits is a multiple of the last place of `q`, or smaller than `q`'s binade. -/
theorem isB64_cases {q f : ℚ} (hf : IsB64 f) :
    (∃ n : ℤ, f = n * 2 ^ ulpExp q) ∨ (-1074 < ulpExp q ∧ f < 2 ^ (ulpExp q + 52)) := by
  obtain ⟨m, e, rfl, hm, h1, h2⟩ := hf
  rcases le_or_gt (ulpExp q) e with h | h
  · left
    obtain ⟨k, hk⟩ := Int.eq_ofNat_of_zero_le (sub_nonneg.2 h)
    refine ⟨m * 2 ^ k, ?_⟩
    have : e = ulpExp q + k := by omega
    rw [this, zpow_add₀ (by norm_num), zpow_natCast]
    push_cast; ring
  · right
    refine ⟨by omega, ?_⟩
    have h3 : (m : ℚ) < 2 ^ 53 := by
      have := lt_of_le_of_lt (le_abs_self m) hm
      exact_mod_cast this
    calc (m : ℚ) * 2 ^ e < 2 ^ 53 * 2 ^ e := mul_lt_mul_of_pos_right h3 (two_zpow_pos _)
      _ = 2 ^ (e + (53 : ℕ)) := pow_split 53 e
      _ ≤ 2 ^ (ulpExp q + 52) := zpow_mono (by push_cast; omega)

theorem binade_le {q : ℚ} (hq : 0 < q) (h : -1074 < ulpExp q) : (2 : ℚ) ^ (ulpExp q + 52) ≤ q := by
  have : ulpExp q + 52 = ilog2 q := by unfold ulpExp at *; omega
  rw [this]; exact (ilog2_spec hq).1

theorem below_binade {q f : ℚ} (hq : 0 < q) (h : -1074 < ulpExp q) (hf : f < 2 ^ (ulpExp q + 52)) :
    |rndPos q - q| < |f - q| := by
  have hb := binade_le hq h
  have h1 := rndPos_nearest_mul (q := q) (2 ^ 52)
  have h2 : ((2 ^ 52 : ℤ) : ℚ) * 2 ^ ulpExp q = 2 ^ (ulpExp q + 52) := by
    have := pow_split 52 (ulpExp q)
    push_cast at this ⊢; exact this
  rw [h2, abs_of_nonpos (by linarith : (2 : ℚ) ^ (ulpExp q + 52) - q ≤ 0)] at h1
  rw [abs_of_neg (by linarith : f - q < 0)]
  linarith

theorem rndPos_nearest {q f : ℚ} (hq : 0 < q) (hf : IsB64 f) : |rndPos q - q| ≤ |f - q| := by
  rcases isB64_cases (q := q) hf with ⟨n, rfl⟩ | ⟨h1, h2⟩
  · exact rndPos_nearest_mul n
  · exact (below_binade hq h1 h2).le

theorem rndPos_tie {q f : ℚ} (hq : 0 < q) (hf : IsB64 f) (hne : f ≠ rndPos q)
    (h : |f - q| = |rndPos q - q|) : EvenB64 (rndPos q) := by
  rcases isB64_cases (q := q) hf with ⟨n, rfl⟩ | ⟨h1, h2⟩
  · have hu := two_zpow_pos (ulpExp q)
    have e : ∀ m : ℤ, |(m : ℚ) * 2 ^ ulpExp q - q| = |(m : ℚ) - q / 2 ^ ulpExp q| * 2 ^ ulpExp q := by
      intro m
      rw [← abs_of_pos hu, ← abs_mul, abs_of_pos hu, sub_mul, div_mul_cancel₀ _ hu.ne']
    rw [rndPos_eq, e, e] at h
    have h' := mul_right_cancel₀ hu.ne' h
    have hne' : n ≠ roundEven (q / 2 ^ ulpExp q) := by
      rintro rfl; exact hne rfl
    have hev := roundEven_tie _ n hne' h'
    refine ⟨sig q, ulpExp q, rndPos_eq q, hev, ulpExp_ge q, ?_⟩
    rcases eq_or_lt_of_le (ulpExp_ge q) with h0 | h0
    · left; exact h0.symm
    · right; exact (sig_ge hq h0).trans (le_abs_self _)
  · exact absurd h (ne_of_gt (below_binade hq h1 h2))

theorem rndPos_overflow {q : ℚ} (hq : 0 < q) : 2 ^ 1024 ≤ rndPos q ↔ 2 ^ 1024 - 2 ^ 970 ≤ q := by
  obtain ⟨hl, hu⟩ := ilog2_spec hq
  have c1 : (2 : ℚ) ^ (1024 : ℕ) = 2 ^ (1024 : ℤ) := by norm_cast
  have c2 : (2 : ℚ) ^ (970 : ℕ) = 2 ^ (970 : ℤ) := by norm_cast
  rcases lt_trichotomy (ilog2 q) 1023 with h | h | h
  · -- below 2^1023: both sides are false
    constructor
    · intro hr
      exfalso
      have hE : ulpExp q + 53 ≤ 1023 := by unfold ulpExp; omega
      have h1 : rndPos q ≤ 2 ^ 53 * 2 ^ ulpExp q := by
        rw [rndPos_eq]
        have : (sig q : ℚ) ≤ 2 ^ 53 := by exact_mod_cast sig_le hq
        exact mul_le_mul_of_nonneg_right this (two_zpow_pos _).le
      rw [pow_split 53] at h1
      have h2 : (2 : ℚ) ^ (ulpExp q + (53 : ℕ)) ≤ 2 ^ (1023 : ℤ) := zpow_mono (by push_cast; omega)
      have h3 : (2 : ℚ) ^ (1023 : ℤ) < 2 ^ (1024 : ℤ) := zpow_lt_zpow_right₀ (by norm_num) (by norm_num)
      rw [c1] at hr
      linarith
    · intro hr
      exfalso
      have h2 : (2 : ℚ) ^ (ilog2 q + 1) ≤ 2 ^ (1023 : ℤ) := zpow_mono (by omega)
      have h3 : (2 : ℚ) ^ (1024 : ℤ) = 2 * 2 ^ (1023 : ℤ) := by
        rw [show (1024 : ℤ) = 1 + 1023 by norm_num, zpow_add₀ (by norm_num)]; norm_num
      have h4 : (2 : ℚ) ^ (970 : ℤ) < 2 ^ (1023 : ℤ) := zpow_lt_zpow_right₀ (by norm_num) (by norm_num)
      rw [c1, c2] at hr
      linarith
  · have hE : ulpExp q = 971 := by unfold ulpExp; omega
    have hsplit : (2 : ℚ) ^ (1024 : ℤ) = 2 ^ 53 * 2 ^ (971 : ℤ) := by rw [pow_split 53]; norm_num
    have h970 : (2 : ℚ) ^ (970 : ℤ) = 1 / 2 * 2 ^ (971 : ℤ) := by
      rw [show (971 : ℤ) = 1 + 970 by norm_num, zpow_add₀ (by norm_num)]; norm_num
    have hp := two_zpow_pos 971
    rw [rndPos_eq, hE, c1, c2, hsplit, h970, mul_le_mul_iff_left₀ hp, ← sub_mul, ← le_div_iff₀ hp]
    set r := q / 2 ^ (971 : ℤ) with hr
    have hsig : sig q = roundEven r := by unfold sig; rw [hE]
    rw [hsig]
    constructor
    · intro hs
      have := abs_le.1 (roundEven_abs r)
      linarith [this.2]
    · intro hs
      by_contra hc
      have h1 : roundEven r < 2 ^ 53 := by
        rw [not_le] at hc; exact_mod_cast hc
      have h2 : roundEven r ≤ 2 ^ 53 - 1 := by omega
      have h2q : (roundEven r : ℚ) ≤ 2 ^ 53 - 1 := by exact_mod_cast h2
      have hab := abs_le.1 (roundEven_abs r)
      have hreq : r = 2 ^ 53 - 1 / 2 := by linarith [hab.1]
      have hre : (roundEven r : ℚ) = 2 ^ 53 - 1 := by linarith [hab.1]
      have hre' : roundEven r = 2 ^ 53 - 1 := by exact_mod_cast hre
      have hev := roundEven_tie r (2 ^ 53) (by rw [hre']; norm_num)
        (by rw [hre, hreq]; push_cast; norm_num [abs_of_pos])
      rw [hre'] at hev
      exact absurd hev (by decide)
  · have h1 : (2 : ℚ) ^ (1024 : ℤ) ≤ q := le_trans (zpow_mono (by omega)) hl
    constructor
    · intro _
      have := two_zpow_pos 970
      rw [c1, c2]; linarith
    · intro _
      have hE : ulpExp q + 52 = ilog2 q := by unfold ulpExp; omega
      have h3 : (2 : ℚ) ^ 52 ≤ sig q := by exact_mod_cast sig_ge hq (by omega)
      have h4 := mul_le_mul_of_nonneg_right h3 (two_zpow_pos (ulpExp q)).le
      rw [← rndPos_eq, pow_split 52] at h4
      rw [c1]
      refine le_trans (zpow_mono ?_) h4
      push_cast; omega

/-! ## The rounding function -/

theorem isB64_neg {f : ℚ} (h : IsB64 f) : IsB64 (-f) := by
  obtain ⟨m, e, rfl, h1, h2, h3⟩ := h
  exact ⟨-m, e, by push_cast; ring, by rwa [abs_neg], h2, h3⟩

theorem evenB64_neg {f : ℚ} (h : EvenB64 f) : EvenB64 (-f) := by
  obtain ⟨m, e, rfl, h1, h2, h3⟩ := h
  exact ⟨-m, e, by push_cast; ring, h1.neg, h2, by rwa [abs_neg]⟩

theorem rnd_neg (q : ℚ) : rnd (-q) = (rnd q).neg := by
  unfold rnd
  rcases lt_trichotomy q 0 with h | rfl | h
  · have h1 : ¬ 0 < q := by linarith
    have h2 : 0 < -q := by linarith
    simp only [neg_eq_zero, h.ne, if_false, h1, h2, if_true]
    split_ifs <;> simp [D.neg]
  · simp [D.neg]
  · have h1 : ¬ 0 < -q := by linarith
    simp only [neg_eq_zero, h.ne', if_false, h1, h, if_true, neg_neg]
    split_ifs <;> simp [D.neg]

theorem rnd_pos {q : ℚ} (h : 0 < q) :
    rnd q = if rndPos q < 2 ^ 1024 then .fin (rndPos q) else .pinf := by
  unfold rnd; rw [if_neg h.ne', if_pos h]

/-- A finite result is representable, nearest, and even in case of a tie. -/
theorem rnd_fin {q r : ℚ} (h : rnd q = .fin r) :
    IsB64 r ∧ (∀ f, IsB64 f → |r - q| ≤ |f - q|) ∧
    ∀ f, IsB64 f → f ≠ r → |f - q| = |r - q| → EvenB64 r := by
  have pos : ∀ {q r : ℚ}, 0 < q → rnd q = .fin r →
      IsB64 r ∧ (∀ f, IsB64 f → |r - q| ≤ |f - q|) ∧
      ∀ f, IsB64 f → f ≠ r → |f - q| = |r - q| → EvenB64 r := by
    intro q r hq h
    rw [rnd_pos hq] at h
    split_ifs at h with hlt
    cases h
    exact ⟨rndPos_isB64 hq hlt, fun f hf => rndPos_nearest hq hf, fun f hf hne he => rndPos_tie hq hf hne he⟩
  rcases lt_trichotomy q 0 with hq | rfl | hq
  · have h' : rnd (-q) = .fin (-r) := by rw [rnd_neg, h]; rfl
    obtain ⟨h1, h2, h3⟩ := pos (by linarith) h'
    have e : ∀ f : ℚ, |f - q| = |-f - -q| := fun f => by rw [← abs_neg]; congr 1; ring
    refine ⟨by simpa using isB64_neg h1, fun f hf => ?_, fun f hf hne he => ?_⟩
    · rw [e r, e f]; exact h2 _ (isB64_neg hf)
    · rw [e r, e f] at he
      simpa using evenB64_neg (h3 _ (isB64_neg hf) (by simpa using hne) he)
  · have : r = 0 := by simpa [rnd] using h.symm
    subst this
    exact ⟨⟨0, 0, by norm_num, by norm_num, by norm_num, by norm_num⟩, fun f _ => by simp,
      fun f _ hne he => absurd (by simpa using he) hne⟩
  · exact pos hq h

/-- Overflow to plus infinity. -/
theorem rnd_pinf {q : ℚ} : rnd q = .pinf ↔ 2 ^ 1024 - 2 ^ 970 ≤ q := by
  have c : (0 : ℚ) < 2 ^ 1024 - 2 ^ 970 := by
    have : (2 : ℚ) ^ 970 < 2 ^ 1024 := pow_lt_pow_right₀ (by norm_num) (by norm_num)
    linarith
  constructor
  · intro h
    have hq : 0 < q := by
      by_contra hq
      unfold rnd at h
      rw [if_neg hq] at h
      split_ifs at h
    rw [rnd_pos hq] at h
    split_ifs at h with h1
    exact (rndPos_overflow hq).1 (not_lt.1 h1)
  · intro h
    have hq : 0 < q := by linarith
    rw [rnd_pos hq, if_neg (not_lt.2 ((rndPos_overflow hq).2 h))]

/-- Overflow to minus infinity. -/
theorem rnd_ninf {q : ℚ} : rnd q = .ninf ↔ q ≤ -(2 ^ 1024 - 2 ^ 970) := by
  have h := rnd_pinf (q := -q)
  rw [rnd_neg] at h
  constructor
  · intro h1; rw [h1] at h; have := h.1 rfl; linarith
  · intro h1
    have h2 := h.2 (by linarith)
    cases hr : rnd q <;> simp [hr, D.neg] at h2 ⊢

theorem rnd_ne_nan (q : ℚ) : rnd q ≠ .nan := by
  unfold rnd; split_ifs <;> simp

/-- Representable numbers are not changed. -/
theorem rnd_self {f : ℚ} (hf : IsB64 f) : rnd f = .fin f := by
  have hb : |f| < 2 ^ 1024 - 2 ^ 970 := by
    obtain ⟨m, e, rfl, hm, _, he⟩ := hf
    rw [abs_mul, abs_of_pos (two_zpow_pos e)]
    have h1 : (|(m : ℚ)|) ≤ 2 ^ 53 - 1 := by
      have : |m| ≤ 2 ^ 53 - 1 := by omega
      exact_mod_cast this
    have h2 : (2 : ℚ) ^ e ≤ 2 ^ (971 : ℤ) := zpow_mono he
    have h3 : |(m : ℚ)| * 2 ^ e ≤ (2 ^ 53 - 1) * 2 ^ (971 : ℤ) :=
      mul_le_mul h1 h2 (two_zpow_pos e).le (by norm_num)
    have h4 : ((2 : ℚ) ^ 53 - 1) * 2 ^ (971 : ℤ) = 2 ^ 1024 - 2 ^ (971 : ℤ) := by
      rw [sub_mul, pow_split 53, one_mul]; norm_cast
    have h5 : (2 : ℚ) ^ (970 : ℕ) < 2 ^ (971 : ℤ) := by
      have : (2 : ℚ) ^ (971 : ℤ) = 2 ^ (971 : ℕ) := by norm_cast
      rw [this]; exact pow_lt_pow_right₀ (by norm_num) (by norm_num)
    linarith
  obtain ⟨h1, h2⟩ := abs_lt.1 hb
  cases hr : rnd f with
  | fin r =>
    have := (rnd_fin hr).2.1 f hf
    rw [sub_self, abs_zero] at this
    have := abs_eq_zero.1 (le_antisymm this (abs_nonneg _))
    rw [sub_eq_zero.1 this]
  | pinf => have := rnd_pinf.1 hr; linarith
  | ninf => have := rnd_ninf.1 hr; linarith
  | nan => exact absurd hr (rnd_ne_nan f)

theorem arith_rnd (q : B64) : (Arith.rnd q : D B64) = rnd q := rfl

instance : OddArith B64 := ⟨fun q => by
  rw [arith_rnd, arith_rnd]
  have h := rnd_neg q
  cases hr : rnd q <;> rw [hr] at h <;> exact h⟩

end Verif.B64
