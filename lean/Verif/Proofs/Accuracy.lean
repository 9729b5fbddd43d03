import Verif.Proofs.RelErr
import Verif.Model.MinMax
import Verif.Proofs.Pwl
import Verif.Proofs.Sync
import Mathlib.Tactic.NormNum

/-! # The rounding errors of `compute_minmax_pair` on one segment -/

set_option linter.unusedSectionVars false

namespace Verif
open Spec

/-! ## Exact arithmetic: how far the result is from the maximum on a segment -/

section exact
variable {K : Type} [Field K] [LinearOrder K] [IsStrictOrderedRing K]

theorem frac01 {t0 t1 t : K} (h : t0 < t1) (h0 : t0 ≤ t) (h1 : t ≤ t1) :
    0 ≤ (t - t0) / (t1 - t0) ∧ (t - t0) / (t1 - t0) ≤ 1 :=
  ⟨div_nonneg (by linarith) (by linarith), (div_le_one (by linarith)).2 (by linarith)⟩

/-- One operand is the larger one on both ends. -/
theorem seg_same {t0 t1 a0 a1 b0 b1 t : K} (h : t0 < t1) (h0 : t0 ≤ t) (h1 : t ≤ t1) (g0 : b0 ≤ a0)
    (g1 : b1 ≤ a1) : max (line (t0, a0) (t1, a1) t) (line (t0, b0) (t1, b1) t) = line (t0, a0) (t1, a1) t := by
  obtain ⟨l0, l1⟩ := frac01 h h0 h1
  apply max_eq_left
  simp only [line]
  nlinarith

/-- The larger operand changes, and no crossing is inserted. -/
theorem seg_chord {t0 t1 s0 s1 p0 p1 t e : K} (h : t0 < t1) (h0 : t0 ≤ t) (h1 : t ≤ t1) (g0 : p0 ≤ s0)
    (g1 : s1 ≤ p1) (he : |s0 - p0| ≤ e ∨ |p1 - s1| ≤ e) :
    |line (t0, s0) (t1, p1) t - max (line (t0, s0) (t1, s1) t) (line (t0, p0) (t1, p1) t)| ≤ e := by
  obtain ⟨l0, l1⟩ := frac01 h h0 h1
  rw [abs_of_nonneg (by linarith : 0 ≤ s0 - p0), abs_of_nonneg (by linarith : 0 ≤ p1 - s1)] at he
  simp only [line]
  set m := (t - t0) / (t1 - t0) with hm
  have e1 : 0 ≤ (p1 - s1) * m := mul_nonneg (by linarith) l0
  have e2 : 0 ≤ (s0 - p0) * (1 - m) := mul_nonneg (by linarith) (by linarith)
  have e3 : (p1 - s1) * m ≤ p1 - s1 := by nlinarith
  have e4 : (s0 - p0) * (1 - m) ≤ s0 - p0 := by nlinarith
  rw [abs_le]
  rcases max_cases (s0 + (s1 - s0) * m) (p0 + (p1 - p0) * m) with ⟨h2, h3⟩ | ⟨h2, h3⟩ <;> rw [h2] <;>
    rcases he with he | he <;> constructor <;> nlinarith

/-- The larger operand changes, and a sample is inserted at `q`: up to `q`. -/
theorem seg_before {t0 t1 s0 s1 p0 p1 q v t : K} (hq0 : t0 < q) (h0 : t0 ≤ t) (h1 : t ≤ q)
    (g0 : p0 ≤ s0) :
    |line (t0, s0) (q, v) t - max (line (t0, s0) (t1, s1) t) (line (t0, p0) (t1, p1) t)| ≤
      |v - line (t0, s0) (t1, s1) q| + |line (t0, s0) (t1, s1) q - line (t0, p0) (t1, p1) q| := by
  obtain ⟨l0, l1⟩ := frac01 hq0 h0 h1
  have hk : (t - t0) / (t1 - t0) = (t - t0) / (q - t0) * ((q - t0) / (t1 - t0)) := by
    have : q - t0 ≠ 0 := by linarith
    field_simp
  simp only [line, hk]
  set m := (t - t0) / (q - t0)
  set k := (q - t0) / (t1 - t0)
  set e := v - (s0 + (s1 - s0) * k) with he
  set g := s0 + (s1 - s0) * k - (p0 + (p1 - p0) * k) with hg
  have z1 : s0 + (v - s0) * m = s0 + (s1 - s0) * (m * k) + e * m := by rw [he]; ring
  have z2 : p0 + (p1 - p0) * (m * k) = s0 + (s1 - s0) * (m * k) - ((s0 - p0) * (1 - m) + g * m) := by
    rw [hg]; ring
  have e1 : |e * m| ≤ |e| := by rw [abs_mul, abs_of_nonneg l0]; exact mul_le_of_le_one_right (abs_nonneg _) l1
  have e2 : |g * m| ≤ |g| := by rw [abs_mul, abs_of_nonneg l0]; exact mul_le_of_le_one_right (abs_nonneg _) l1
  have e3 : 0 ≤ (s0 - p0) * (1 - m) := mul_nonneg (by linarith) (by linarith)
  rw [z1, z2]
  have := abs_le.1 e1
  have := abs_le.1 e2
  have := abs_nonneg g
  rw [abs_le]
  rcases max_cases (s0 + (s1 - s0) * (m * k))
    (s0 + (s1 - s0) * (m * k) - ((s0 - p0) * (1 - m) + g * m)) with ⟨h2, h3⟩ | ⟨h2, h3⟩ <;> rw [h2] <;>
    constructor <;> linarith

/-- The larger operand changes, and a sample is inserted at `q`: from `q` on. -/
theorem seg_after {t0 t1 s0 s1 p0 p1 q v t : K} (hq0 : t0 < q) (hq1 : q < t1) (h0 : q ≤ t) (h1 : t ≤ t1)
    (g1 : s1 ≤ p1) :
    |line (q, v) (t1, p1) t - max (line (t0, s0) (t1, s1) t) (line (t0, p0) (t1, p1) t)| ≤
      |v - line (t0, s0) (t1, s1) q| + |line (t0, s0) (t1, s1) q - line (t0, p0) (t1, p1) q| := by
  obtain ⟨l0, l1⟩ := frac01 hq1 h0 h1
  have hk : (t - t0) / (t1 - t0) = (t - q) / (t1 - q) * (1 - (q - t0) / (t1 - t0)) + (q - t0) / (t1 - t0) := by
    have : t1 - q ≠ 0 := by linarith
    have : t1 - t0 ≠ 0 := by linarith
    field_simp
    ring
  simp only [line, hk]
  set m := (t - q) / (t1 - q)
  set k := (q - t0) / (t1 - t0)
  set e := v - (s0 + (s1 - s0) * k) with he
  set g := s0 + (s1 - s0) * k - (p0 + (p1 - p0) * k) with hg
  have z1 : v + (p1 - v) * m = p0 + (p1 - p0) * (m * (1 - k) + k) + (e * (1 - m) + g * (1 - m)) := by
    rw [he, hg]; ring
  have z2 : s0 + (s1 - s0) * (m * (1 - k) + k) = p0 + (p1 - p0) * (m * (1 - k) + k) +
      (g * (1 - m) - (p1 - s1) * m) := by
    rw [hg]; ring
  have e1 : |e * (1 - m)| ≤ |e| := by
    rw [abs_mul, abs_of_nonneg (by linarith : 0 ≤ 1 - m)]
    exact mul_le_of_le_one_right (abs_nonneg _) (by linarith)
  have e2 : |g * (1 - m)| ≤ |g| := by
    rw [abs_mul, abs_of_nonneg (by linarith : 0 ≤ 1 - m)]
    exact mul_le_of_le_one_right (abs_nonneg _) (by linarith)
  have e3 : 0 ≤ (p1 - s1) * m := mul_nonneg (by linarith) l0
  rw [z1, z2]
  have := abs_le.1 e1
  have := abs_le.1 e2
  have := abs_nonneg g
  rw [abs_le]
  rcases max_cases (p0 + (p1 - p0) * (m * (1 - k) + k) + (g * (1 - m) - (p1 - s1) * m))
    (p0 + (p1 - p0) * (m * (1 - k) + k)) with ⟨h2, h3⟩ | ⟨h2, h3⟩ <;> rw [h2] <;>
    constructor <;> linarith

/-- One of the two operations: `op` is the maximum and `r` is `≥`, or `op` is the minimum and `r` is `≤`. -/
structure Side (K : Type) [Field K] [LinearOrder K] where
  comp : Cmp K
  op : K → K → K
  r : K → K → Prop
  compT : ∀ {t t' a b : K} {d d' : D K}, r a b → comp ⟨.fin t, .fin a, d⟩ ⟨.fin t', .fin b, d'⟩ = true
  compF : ∀ {t t' a b : K} {d d' : D K}, ¬ r a b → comp ⟨.fin t, .fin a, d⟩ ⟨.fin t', .fin b, d'⟩ = false
  total : ∀ {a b : K}, ¬ r a b → r b a
  comm : ∀ a b, op a b = op b a
  left : ∀ {a b}, r a b → op a b = a
  same : ∀ {t0 t1 a0 a1 b0 b1 t : K}, t0 < t1 → t0 ≤ t → t ≤ t1 → r a0 b0 → r a1 b1 →
    op (line (t0, a0) (t1, a1) t) (line (t0, b0) (t1, b1) t) = line (t0, a0) (t1, a1) t
  chord : ∀ {t0 t1 s0 s1 p0 p1 t e : K}, t0 < t1 → t0 ≤ t → t ≤ t1 → r s0 p0 → r p1 s1 →
    |s0 - p0| ≤ e ∨ |p1 - s1| ≤ e →
    |line (t0, s0) (t1, p1) t - op (line (t0, s0) (t1, s1) t) (line (t0, p0) (t1, p1) t)| ≤ e
  before : ∀ {t0 t1 s0 s1 p0 p1 q v t : K}, t0 < q → t0 ≤ t → t ≤ q → r s0 p0 →
    |line (t0, s0) (q, v) t - op (line (t0, s0) (t1, s1) t) (line (t0, p0) (t1, p1) t)| ≤
      |v - line (t0, s0) (t1, s1) q| + |line (t0, s0) (t1, s1) q - line (t0, p0) (t1, p1) q|
  after : ∀ {t0 t1 s0 s1 p0 p1 q v t : K}, t0 < q → q < t1 → q ≤ t → t ≤ t1 → r p1 s1 →
    |line (q, v) (t1, p1) t - op (line (t0, s0) (t1, s1) t) (line (t0, p0) (t1, p1) t)| ≤
      |v - line (t0, s0) (t1, s1) q| + |line (t0, s0) (t1, s1) q - line (t0, p0) (t1, p1) q|
  sign : (∀ a b, r a b ↔ b ≤ a) ∨ ∀ a b, r a b ↔ a ≤ b

/-- The maximum. -/
def Side.max : Side K where
  comp := Sample.ge
  op := fun a b => Max.max a b
  r := fun a b => b ≤ a
  compT := fun h => by simp [Sample.ge, Sample.lt, h]
  compF := fun h => by simp [Sample.ge, Sample.lt, not_le.1 h]
  total := fun h => (not_le.1 h).le
  comm := max_comm
  left := max_eq_left
  same := seg_same
  chord := seg_chord
  before := seg_before
  after := seg_after
  sign := .inl fun _ _ => Iff.rfl

theorem lineNeg (t0 t1 a b t : K) : line (t0, -a) (t1, -b) t = -line (t0, a) (t1, b) t := by
  simp only [line]; ring

theorem neg_min_neg (a b : K) : -Min.min a b = Max.max (-a) (-b) := by
  rcases le_total a b with h | h
  · rw [min_eq_left h, max_eq_left (neg_le_neg h)]
  · rw [min_eq_right h, max_eq_right (neg_le_neg h)]

theorem abs_neg_sub (a b : K) : |a - b| = |-a - -b| := by
  rw [← abs_neg]; congr 1; ring

/-- The minimum. -/
def Side.min : Side K where
  comp := Sample.le
  op := fun a b => Min.min a b
  r := fun a b => a ≤ b
  compT := fun h => by simp [Sample.le, Sample.gt, Sample.lt, h]
  compF := fun h => by simp [Sample.le, Sample.gt, Sample.lt, not_le.1 h]
  total := fun h => (not_le.1 h).le
  comm := min_comm
  left := min_eq_left
  same := fun h h0 h1 g0 g1 => by
    have := seg_same h h0 h1 (neg_le_neg g0) (neg_le_neg g1)
    rw [lineNeg, lineNeg, ← neg_min_neg] at this
    exact neg_injective this
  chord := fun h h0 h1 g0 g1 he => by
    rw [abs_neg_sub, neg_min_neg, ← lineNeg, ← lineNeg, ← lineNeg]
    exact seg_chord h h0 h1 (neg_le_neg g0) (neg_le_neg g1) (by rwa [← abs_neg_sub, ← abs_neg_sub])
  before := fun {t0 t1 s0 s1 p0 p1 q v t} h h0 h1 g0 => by
    have := seg_before (t1 := t1) (s1 := -s1) (p1 := -p1) (v := -v) h h0 h1 (neg_le_neg g0)
    simp only [lineNeg, ← neg_min_neg, ← abs_neg_sub] at this
    exact this
  after := fun {t0 t1 s0 s1 p0 p1 q v t} h h0 h1 h2 g1 => by
    have := seg_after (s0 := -s0) (p0 := -p0) (v := -v) h h0 h1 h2 (neg_le_neg g1)
    simp only [lineNeg, ← neg_min_neg, ← abs_neg_sub] at this
    exact this
  sign := .inr fun _ _ => Iff.rfl

end exact

/-! ## Rounding errors -/

namespace B64

theorem Near.abs_le' {r q : ℚ} (h : Near r q) : |r| ≤ (1 + 1 / 2 ^ 53) * |q| := by
  have h1 : |r| ≤ |r - q| + |q| := by
    have := abs_add_le (r - q) q
    simpa using this
  unfold Near at h
  linarith

theorem Near.pos {r q : ℚ} (h : Near r q) (hq : 0 < q) : (1 - 1 / 2 ^ 53) * q ≤ r := by
  unfold Near at h
  rw [abs_of_pos hq] at h
  have := (abs_le.1 h).1
  linarith

/-- The computed slope. -/
theorem slope_err {n h n' h' d V : ℚ} (hh : 0 < h) (e1 : Near n' n) (e2 : Near h' h) (e3 : Near d (n' / h'))
    (hn : |n| ≤ 2 * V) : |d * h - n| ≤ 7 * (1 / 2 ^ 53) * V := by
  have hpos := e2.pos hh
  have hh' : 0 < h' := lt_of_lt_of_le (by positivity) hpos
  have n1 := e1.abs_le'
  set w := |n' / h'| * h with hw
  have w0 : 0 ≤ w := by positivity
  have w1 : w * h' = |n'| * h := by
    rw [hw, abs_div, abs_of_pos hh']; field_simp
  have w2 : w * (1 - 1 / 2 ^ 53) ≤ |n'| := by
    have : w * ((1 - 1 / 2 ^ 53) * h) ≤ |n'| * h := by
      rw [← w1]; exact mul_le_mul_of_nonneg_left hpos w0
    have : (w * (1 - 1 / 2 ^ 53)) * h ≤ |n'| * h := by linarith
    exact le_of_mul_le_mul_right this hh
  have a1 : |(d - n' / h') * h| ≤ 1 / 2 ^ 53 * w := by
    rw [abs_mul, abs_of_pos hh, hw]
    unfold Near at e3
    calc _ ≤ (1 / 2 ^ 53 * |n' / h'|) * h := mul_le_mul_of_nonneg_right e3 hh.le
      _ = _ := by ring
  have a2 : |(n' / h') * (h - h')| ≤ 1 / 2 ^ 53 * w := by
    rw [abs_mul, hw]
    unfold Near at e2
    rw [abs_of_pos hh, abs_sub_comm] at e2
    calc _ ≤ |n' / h'| * (1 / 2 ^ 53 * h) := mul_le_mul_of_nonneg_left e2 (abs_nonneg _)
      _ = _ := by ring
  have a3 : |n' - n| ≤ 1 / 2 ^ 53 * |n| := e1
  have e : d * h - n = (d - n' / h') * h + (n' / h') * (h - h') + (n' - n) := by
    field_simp; ring
  have : |d * h - n| ≤ |(d - n' / h') * h| + |(n' / h') * (h - h')| + |n' - n| := by
    rw [e]; exact (abs_add_le _ _).trans (add_le_add_left (abs_add_le _ _) _)
  have := abs_nonneg n
  linarith

/-- The computed numerator of `time_intersect`. -/
theorem numer_err {a b c a1 b1 a2 b2 N V R : ℚ} (ha : |a| ≤ 2 * V) (hb : |b| ≤ 21 / 10 * R)
    (hc : |c| ≤ 21 / 10 * R) (e1 : Near a1 a) (e2 : Near b1 b) (e3 : Near a2 (a1 + b1)) (e4 : Near b2 c)
    (e5 : Near N (a2 - b2)) :
    |N - (a + b - c)| ≤ 1 / 2 ^ 53 * (61 / 10 * V + 106 / 10 * R) ∧ |N| ≤ 21 / 10 * V + 43 / 10 * R := by
  have f1 := e1.abs_le'
  have f2 := e2.abs_le'
  have f3 := e3.abs_le'
  have f4 := e4.abs_le'
  have f5 := e5.abs_le'
  have h1 := abs_add_le a1 b1
  have h2 : |a2 - b2| ≤ |a2| + |b2| := abs_sub a2 b2
  unfold Near at *
  have e : N - (a + b - c) = (N - (a2 - b2)) + (a2 - (a1 + b1)) - (b2 - c) + (a1 - a) + (b1 - b) := by ring
  have h3 : |N - (a + b - c)| ≤ |N - (a2 - b2)| + |a2 - (a1 + b1)| + |b2 - c| + |a1 - a| + |b1 - b| := by
    rw [e]
    refine (abs_add_le _ _).trans (add_le_add_left ?_ _)
    refine (abs_add_le _ _).trans (add_le_add_left ?_ _)
    refine (abs_sub _ _).trans (add_le_add_left ?_ _)
    exact abs_add_le _ _
  constructor <;> linarith [abs_nonneg a, abs_nonneg b, abs_nonneg c]

/-- What is known about the numbers computed by `time_intersect`: `ds`, `dp` are the computed slopes,
`g0`, `g1` the differences of the two lines at the ends, `N / D` the computed quotient. -/
structure Crossing (t0 h g0 g1 ds dp N D V R : ℚ) : Prop where
  hh : 0 < h
  hR : |t0| * V ≤ R * h
  hdiff : |(dp - ds) * h - (g0 - g1)| ≤ 14 * (1 / 2 ^ 53) * V
  hsum : |g0 - g1| ≤ 4 * V
  hN : |N - (g0 + dp * t0 - ds * t0)| ≤ 1 / 2 ^ 53 * (61 / 10 * V + 106 / 10 * R)
  hNb : |N| ≤ 21 / 10 * V + 43 / 10 * R
  hD : Near D (dp - ds)

theorem Crossing.V0 {t0 h g0 g1 ds dp N D V R : ℚ} (c : Crossing t0 h g0 g1 ds dp N D V R) : 0 ≤ V := by
  have := c.hsum
  have := abs_nonneg (g0 - g1)
  linarith

theorem Crossing.R0 {t0 h g0 g1 ds dp N D V R : ℚ} (c : Crossing t0 h g0 g1 ds dp N D V R) : 0 ≤ R := by
  have h1 := c.hR
  have h2 := mul_nonneg (abs_nonneg t0) c.V0
  by_contra hR
  have := mul_neg_of_neg_of_pos (not_le.1 hR) c.hh
  linarith

theorem Crossing.dbound {t0 h g0 g1 ds dp N D V R : ℚ} (c : Crossing t0 h g0 g1 ds dp N D V R) :
    |dp - ds| * h ≤ 401 / 100 * V ∧ |dp - ds| * |t0| ≤ 401 / 100 * R := by
  have h1 : |dp - ds| * h ≤ 401 / 100 * V := by
    have e : |dp - ds| * h = |(dp - ds) * h| := by rw [abs_mul, abs_of_pos c.hh]
    have h2 : |(dp - ds) * h| ≤ |(dp - ds) * h - (g0 - g1)| + |g0 - g1| := by
      have := abs_add_le ((dp - ds) * h - (g0 - g1)) (g0 - g1)
      simpa using this
    have := c.hdiff
    have := c.hsum
    have := c.V0
    rw [e]; linarith
  refine ⟨h1, ?_⟩
  have h2 : (|dp - ds| * |t0|) * h ≤ (401 / 100 * R) * h := by
    calc (|dp - ds| * |t0|) * h = (|dp - ds| * h) * |t0| := by ring
      _ ≤ (401 / 100 * V) * |t0| := mul_le_mul_of_nonneg_right h1 (abs_nonneg _)
      _ = 401 / 100 * (|t0| * V) := by ring
      _ ≤ 401 / 100 * (R * h) := mul_le_mul_of_nonneg_left c.hR (by norm_num)
      _ = _ := by ring
  exact le_of_mul_le_mul_right h2 c.hh

theorem Crossing.mul {t0 h g0 g1 ds dp N D V R T : ℚ} (_ : Crossing t0 h g0 g1 ds dp N D V R) (hD0 : D ≠ 0)
    (hT : Near T (N / D)) : |T * D - N| ≤ 1 / 2 ^ 53 * |N| := by
  have e : T * D - N = (T - N / D) * D := by field_simp
  rw [e, abs_mul]
  unfold Near at hT
  calc _ ≤ (1 / 2 ^ 53 * |N / D|) * |D| := mul_le_mul_of_nonneg_right hT (abs_nonneg _)
    _ = _ := by rw [abs_div]; have := abs_pos.2 hD0; field_simp

/-- If the computed time is within the segment, the two lines are close to each other there. -/
theorem Crossing.inside {t0 h g0 g1 ds dp N D V R T : ℚ} (c : Crossing t0 h g0 g1 ds dp N D V R) (hD0 : D ≠ 0)
    (hT : Near T (N / D)) (h0 : t0 ≤ T) (h1 : T ≤ t0 + h) :
    |g0 - (g0 - g1) * ((T - t0) / h)| ≤ 1 / 2 ^ 53 * (27 * V + 20 * R) := by
  have hm := c.mul hD0 hT
  obtain ⟨d1, d2⟩ := c.dbound
  have l0 : 0 ≤ (T - t0) / h := div_nonneg (by linarith) c.hh.le
  have l1 : (T - t0) / h ≤ 1 := (div_le_one c.hh).2 (by linarith)
  have hTa : |T| ≤ |t0| + h := by
    have := abs_add_le t0 (T - t0)
    rw [abs_of_nonneg (by linarith : 0 ≤ T - t0)] at this
    simp only [add_sub_cancel] at this
    linarith
  have b1 : |(D - (dp - ds)) * T| ≤ 1 / 2 ^ 53 * (401 / 100 * R + 401 / 100 * V) := by
    rw [abs_mul]
    have hD := c.hD
    unfold Near at hD
    calc _ ≤ (1 / 2 ^ 53 * |dp - ds|) * (|t0| + h) := mul_le_mul hD hTa (abs_nonneg _) (by positivity)
      _ = 1 / 2 ^ 53 * (|dp - ds| * |t0| + |dp - ds| * h) := by ring
      _ ≤ _ := mul_le_mul_of_nonneg_left (add_le_add d2 d1) (by norm_num)
  have b2 : |((dp - ds) * h - (g0 - g1)) * ((T - t0) / h)| ≤ 14 * (1 / 2 ^ 53) * V := by
    rw [abs_mul, abs_of_nonneg l0]
    have := c.hdiff
    exact (mul_le_of_le_one_right (abs_nonneg _) l1).trans this
  have e : g0 - (g0 - g1) * ((T - t0) / h) = -(N - (g0 + dp * t0 - ds * t0)) - (T * D - N) +
      (D - (dp - ds)) * T + ((dp - ds) * h - (g0 - g1)) * ((T - t0) / h) := by
    have := c.hh.ne'
    field_simp
    ring
  have h3 : |g0 - (g0 - g1) * ((T - t0) / h)| ≤ |N - (g0 + dp * t0 - ds * t0)| + |T * D - N| +
      |(D - (dp - ds)) * T| + |((dp - ds) * h - (g0 - g1)) * ((T - t0) / h)| := by
    rw [e]
    refine (abs_add_le _ _).trans (add_le_add_left ?_ _)
    refine (abs_add_le _ _).trans (add_le_add_left ?_ _)
    refine (abs_sub _ _).trans (add_le_add_left ?_ _)
    rw [abs_neg]
  have := c.hN
  have := c.hNb
  have := c.V0
  have := c.R0
  linarith

/-- If the computed slopes are not in the order of the exact ones, the lines are close to each other. -/
theorem Crossing.flat {t0 h g0 g1 ds dp N D V R : ℚ} (c : Crossing t0 h g0 g1 ds dp N D V R) (hg1 : g1 ≤ 0)
    (hD0 : D ≤ 0) : g0 ≤ 1 / 2 ^ 53 * (27 * V + 20 * R) := by
  have hx : dp - ds ≤ 0 := by
    by_contra hc
    have := c.hD.pos (not_le.1 hc)
    linarith
  have h1 : (dp - ds) * h ≤ 0 := mul_nonpos_of_nonpos_of_nonneg hx c.hh.le
  have := (abs_le.1 c.hdiff).1
  have := c.V0
  have := c.R0
  linarith

/-- If the computed time is before the segment, the lines are close to each other at its start. -/
theorem Crossing.before {t0 h g0 g1 ds dp N D V R T : ℚ} (c : Crossing t0 h g0 g1 ds dp N D V R) (hg1 : g1 ≤ 0)
    (hD0 : D ≠ 0) (hT : Near T (N / D)) (h0 : T ≤ t0) : g0 ≤ 1 / 2 ^ 53 * (27 * V + 20 * R) := by
  rcases le_or_gt D 0 with hD | hD
  · exact c.flat hg1 hD
  have hm := c.mul hD0 hT
  obtain ⟨d1, d2⟩ := c.dbound
  have h1 : T * D ≤ t0 * D := mul_le_mul_of_nonneg_right h0 hD.le
  have b1 : |(D - (dp - ds)) * t0| ≤ 1 / 2 ^ 53 * (401 / 100 * R) := by
    rw [abs_mul]
    have hD := c.hD
    unfold Near at hD
    calc _ ≤ (1 / 2 ^ 53 * |dp - ds|) * |t0| := mul_le_mul_of_nonneg_right hD (abs_nonneg _)
      _ = 1 / 2 ^ 53 * (|dp - ds| * |t0|) := by ring
      _ ≤ _ := mul_le_mul_of_nonneg_left d2 (by norm_num)
  have h2 := (abs_le.1 hm).1
  have h3 := (abs_le.1 c.hN).1
  have h4 := (abs_le.1 b1).2
  have := c.hNb
  have := c.V0
  have := c.R0
  linarith

/-- The same at the end of the segment. -/
theorem Crossing.flat' {t0 h g0 g1 ds dp N D V R : ℚ} (c : Crossing t0 h g0 g1 ds dp N D V R) (hg0 : 0 ≤ g0)
    (hD0 : D ≤ 0) : -g1 ≤ 1 / 2 ^ 53 * (27 * V + 20 * R) := by
  have hx : dp - ds ≤ 0 := by
    by_contra hc
    have := c.hD.pos (not_le.1 hc)
    linarith
  have h1 : (dp - ds) * h ≤ 0 := mul_nonpos_of_nonpos_of_nonneg hx c.hh.le
  have := (abs_le.1 c.hdiff).1
  have := c.V0
  have := c.R0
  linarith

/-- If the computed time is after the segment, the lines are close to each other at its end. -/
theorem Crossing.after {t0 h g0 g1 ds dp N D V R T : ℚ} (c : Crossing t0 h g0 g1 ds dp N D V R) (hg0 : 0 ≤ g0)
    (hD0 : D ≠ 0) (hT : Near T (N / D)) (h0 : t0 + h ≤ T) : -g1 ≤ 1 / 2 ^ 53 * (27 * V + 20 * R) := by
  rcases le_or_gt D 0 with hD | hD
  · exact c.flat' hg0 hD
  have hm := c.mul hD0 hT
  obtain ⟨d1, d2⟩ := c.dbound
  have h1 : (t0 + h) * D ≤ T * D := mul_le_mul_of_nonneg_right h0 hD.le
  have hTa : |t0 + h| ≤ |t0| + h := by
    have := abs_add_le t0 h
    rwa [abs_of_pos c.hh] at this
  have b1 : |(D - (dp - ds)) * (t0 + h)| ≤ 1 / 2 ^ 53 * (401 / 100 * R + 401 / 100 * V) := by
    rw [abs_mul]
    have hD := c.hD
    unfold Near at hD
    calc _ ≤ (1 / 2 ^ 53 * |dp - ds|) * (|t0| + h) := mul_le_mul hD hTa (abs_nonneg _) (by positivity)
      _ = 1 / 2 ^ 53 * (|dp - ds| * |t0| + |dp - ds| * h) := by ring
      _ ≤ _ := mul_le_mul_of_nonneg_left (add_le_add d2 d1) (by norm_num)
  have h2 := (abs_le.1 hm).2
  have h3 := (abs_le.1 c.hN).2
  have h4 := (abs_le.1 b1).1
  have h5 := (abs_le.1 c.hdiff).1
  have := c.hNb
  have := c.V0
  have := c.R0
  linarith

/-- The same with the roles of the lines exchanged. -/
theorem Crossing.neg {t0 h g0 g1 ds dp N D V R : ℚ} (c : Crossing t0 h g0 g1 ds dp N D V R) :
    Crossing t0 h (-g0) (-g1) (-ds) (-dp) (-N) (-D) V R := by
  refine ⟨c.hh, c.hR, ?_, ?_, ?_, ?_, ?_⟩
  · have e : (-dp - -ds) * h - (-g0 - -g1) = -((dp - ds) * h - (g0 - g1)) := by ring
    rw [e, abs_neg]; exact c.hdiff
  · have e : -g0 - -g1 = -(g0 - g1) := by ring
    rw [e, abs_neg]; exact c.hsum
  · have e : -N - (-g0 + -dp * t0 - -ds * t0) = -(N - (g0 + dp * t0 - ds * t0)) := by ring
    rw [e, abs_neg]; exact c.hN
  · rw [abs_neg]; exact c.hNb
  · have e : -dp - -ds = -(dp - ds) := by ring
    rw [e]; exact c.hD.neg

/-- The computed value of the last winner. -/
theorem value_err {h s0 n d τ τ' m v V : ℚ} (hh : 0 < h) (h0 : 0 ≤ τ) (h1 : τ ≤ h) (hs : |s0| ≤ V)
    (hn : |n| ≤ 2 * V) (hd : |d * h - n| ≤ 7 * (1 / 2 ^ 53) * V) (e1 : Near τ' τ) (e2 : Near m (d * τ'))
    (e3 : Near v (s0 + m)) : |v - (s0 + n * (τ / h))| ≤ 1 / 2 ^ 53 * (15 * V) := by
  have V0 : 0 ≤ V := (abs_nonneg _).trans hs
  have l0 : 0 ≤ τ / h := div_nonneg h0 hh.le
  have l1 : τ / h ≤ 1 := (div_le_one hh).2 h1
  have dh : |d| * h ≤ 201 / 100 * V := by
    have e : |d| * h = |d * h| := by rw [abs_mul, abs_of_pos hh]
    have : |d * h| ≤ |d * h - n| + |n| := by
      have := abs_add_le (d * h - n) n
      simpa using this
    rw [e]; linarith
  have f1 := e1.abs_le'
  have f2 := e2.abs_le'
  rw [abs_of_nonneg h0] at f1
  have b1 : |d * τ'| ≤ 202 / 100 * V := by
    rw [abs_mul]
    calc |d| * |τ'| ≤ |d| * ((1 + 1 / 2 ^ 53) * h) :=
          mul_le_mul_of_nonneg_left (f1.trans (mul_le_mul_of_nonneg_left h1 (by norm_num))) (abs_nonneg _)
      _ = (1 + 1 / 2 ^ 53) * (|d| * h) := by ring
      _ ≤ (1 + 1 / 2 ^ 53) * (201 / 100 * V) := mul_le_mul_of_nonneg_left dh (by norm_num)
      _ ≤ _ := by linarith
  have b2 : |d * (τ' - τ)| ≤ 1 / 2 ^ 53 * (201 / 100 * V) := by
    rw [abs_mul]
    unfold Near at e1
    rw [abs_of_nonneg h0] at e1
    calc |d| * |τ' - τ| ≤ |d| * (1 / 2 ^ 53 * h) :=
          mul_le_mul_of_nonneg_left (e1.trans (mul_le_mul_of_nonneg_left h1 (by norm_num))) (abs_nonneg _)
      _ = 1 / 2 ^ 53 * (|d| * h) := by ring
      _ ≤ _ := mul_le_mul_of_nonneg_left dh (by norm_num)
  have b3 : |(d * h - n) * (τ / h)| ≤ 7 * (1 / 2 ^ 53) * V := by
    rw [abs_mul, abs_of_nonneg l0]
    exact (mul_le_of_le_one_right (abs_nonneg _) l1).trans hd
  have b4 := abs_add_le s0 m
  unfold Near at e2 e3
  have e : v - (s0 + n * (τ / h)) = (v - (s0 + m)) + (m - d * τ') + d * (τ' - τ) + (d * h - n) * (τ / h) := by
    have := hh.ne'
    field_simp
    ring
  have h3 : |v - (s0 + n * (τ / h))| ≤ |v - (s0 + m)| + |m - d * τ'| + |d * (τ' - τ)| +
      |(d * h - n) * (τ / h)| := by
    rw [e]
    refine (abs_add_le _ _).trans (add_le_add_left ?_ _)
    refine (abs_add_le _ _).trans (add_le_add_left ?_ _)
    exact abs_add_le _ _
  linarith

end B64
end Verif
