import Verif.Proofs.Accuracy
import Verif.Spec.Accuracy
import Verif.Props.Binary64

/-! # The rounding errors of `compute_minmax_pair` -/

set_option linter.unusedSectionVars false

namespace Verif
open Spec Classical
namespace B64

/-- Exponents of the binary digits: times are multiples of `2^-ka` of magnitude at most `2^kb`, values multiples of
`2^-kg` of magnitude at most `2^kc`, such that no operation of `compute_minmax_pair` underflows or overflows. -/
structure Budget (ka kb kg kc : ℤ) : Prop where
  a0 : 0 ≤ ka
  b0 : 0 ≤ kb
  g0 : 0 ≤ kg
  c0 : 0 ≤ kc
  interp : 2 * kg + 2 * kb + 2 * ka + kc ≤ 914
  quot : kg + kb + 2 * ka + kc ≤ 967
  range : kc + ka + 2 * kb + kg ≤ 967

/-- `Tame`, with the exponents as parameters. -/
def TameFx (ka kb kg kc : ℤ) (V H d : ℚ) (pts : List (ℚ × ℚ)) : Prop :=
  (∀ p ∈ pts, Fx (-ka) kb p.1 ∧ Fx (-kg) kc p.2 ∧ |p.1| ≤ H ∧ |p.2| ≤ V) ∧
  pts.IsChain fun p q => p.1 + d ≤ q.1

/-- The exponents of `Moderate`. -/
theorem budget_moderate : Budget 150 100 150 100 := by constructor <;> norm_num

variable {ka kb kg kc : ℤ}

/-- A finite number as a double. -/
def fq (q : ℚ) : D B64 := D.fin (K := B64) q

/-- A point with finite coordinates. -/
def lq (p : ℚ × ℚ) : D B64 × D B64 := (fq p.1, fq p.2)

theorem add_fin {x y : D B64} {a b : ℚ} {r : D ℚ} (hx : x = fq a) (hy : y = fq b)
    (h : rnd (a + b) = r) : x + y = r := by subst hx hy; exact h

theorem sub_fin {x y : D B64} {a b : ℚ} {r : D ℚ} (hx : x = fq a) (hy : y = fq b)
    (h : rnd (a - b) = r) : x - y = r := by
  subst hx hy
  rw [sub_eq_add_neg] at h
  exact h

theorem mul_fin {x y : D B64} {a b : ℚ} {r : D ℚ} (hx : x = fq a) (hy : y = fq b)
    (h : rnd (a * b) = r) : x * y = r := by subst hx hy; exact h

theorem div_fin {x y : D B64} {a b : ℚ} {r : D ℚ} (hx : x = fq a) (hy : y = fq b)
    (hb : b ≠ 0) (h : rnd (a / b) = r) : x / y = r := by
  subst hx hy
  exact (if_neg hb).trans h

theorem div_zero_ne {a q : ℚ} : (fq a / fq (0 : ℚ) : D B64) ≠ fq q := by
  have : ∀ a : B64, (D.fin a / D.fin 0 : D B64) ≠ fq q := by
    intro a
    show D.div _ _ ≠ _
    simp only [D.div]
    split_ifs with h1 h2 h3
    · simp [fq]
    · simp [fq]
    · simp [fq]
    · exact absurd rfl h1
  exact this a

theorem ltT {a b : ℚ} (h : a < b) : D.lt (fq a) (fq b) = true := by
  have : ∀ {a b : B64}, a < b → D.lt (.fin a) (.fin b) = true := fun h => by simp [h]
  exact this h

theorem ltF {a b : ℚ} (h : b ≤ a) : D.lt (fq a) (fq b) = false := by
  have : ∀ {a b : B64}, b ≤ a → D.lt (.fin a) (.fin b) = false := fun h => by simp [h]
  exact this h

theorem eqT (a : ℚ) : D.eq (fq a) (fq a) = true := by
  have : ∀ a : B64, D.eq (.fin a) (.fin a) = true := fun a => by simp
  exact this a

theorem eqF {a b : ℚ} (h : a ≠ b) : D.eq (fq a) (fq b) = false := by
  have : ∀ {a b : B64}, a ≠ b → D.eq (.fin a) (.fin b) = false := fun h => by simp [h]
  exact this h

/-- The comparison, for binary64. -/
def scomp (sd : Side ℚ) : Cmp B64 := sd.comp

/-- The sample of a line from `(t0, s0)` to `(t1, s1)`. -/
def smp (t0 t1 s0 s1 : ℚ) : Sample B64 := ⟨fq t0, fq s0, (fq s1 - fq s0) / (fq t1 - fq t0)⟩

theorem slope_spec (B : Budget ka kb kg kc) {t0 t1 s0 s1 V : ℚ} (h : t0 < t1) (m0 : Fx (-ka) kb t0) (m1 : Fx (-ka) kb t1) (n0 : Fx (-kg) kc s0)
    (n1 : Fx (-kg) kc s1) (v0 : |s0| ≤ V) (v1 : |s1| ≤ V) :
    ∃ d : ℚ, (fq s1 - fq s0) / (fq t1 - fq t0) = fq d ∧ Fx (-kg - kb - 53) (kc + ka + 1) d ∧
      |d * (t1 - t0) - (s1 - s0)| ≤ 7 * (1 / 2 ^ 53) * V := by
  have ⟨hB1, hB2, hB3, hB4, hB5, hB6, hB7⟩ := B
  have a1 : Fx (-kg) (kc + 1) (s1 - s0) := by
    rw [sub_eq_add_neg]; exact Fx.add (l := kc) n1 (Fx.neg n0)
  have a2 : Fx (-ka) (kb + 1) (t1 - t0) := by
    rw [sub_eq_add_neg]; exact Fx.add (l := kb) m1 (Fx.neg m0)
  obtain ⟨n, e1, e2, e3⟩ := rnd_fx a1 (by omega) (by omega) (by omega)
  obtain ⟨h', f1, f2, f3⟩ := rnd_fx a2 (by omega) (by omega) (by omega)
  have hh : 0 < t1 - t0 := by linarith
  have h0 : h' ≠ 0 := fun e => by
    have := (f2.zero_iff).1 e
    linarith
  obtain ⟨d, g1, g2, g3⟩ := rnd_quot e3 f3 h0 (by omega) (by omega) (by omega)
  refine ⟨d, ?_, g3.mono (by omega) (by omega), slope_err hh e2 f2 g2 ?_⟩
  · exact div_fin (sub_fin rfl rfl e1) (sub_fin rfl rfl f1) h0 g1
  · have := abs_sub s1 s0
    linarith

/-- The numbers that `time_intersect` computes. -/
theorem cross_core (B : Budget ka kb kg kc) {t0 t1 s0 s1 p0 p1 V R : ℚ} (h : t0 < t1) (m0 : Fx (-ka) kb t0) (m1 : Fx (-ka) kb t1)
    (ns0 : Fx (-kg) kc s0) (ns1 : Fx (-kg) kc s1) (np0 : Fx (-kg) kc p0) (np1 : Fx (-kg) kc p1)
    (vs0 : |s0| ≤ V) (vs1 : |s1| ≤ V) (vp0 : |p0| ≤ V) (vp1 : |p1| ≤ V) (hR : |t0| * V ≤ R * (t1 - t0)) :
    ∃ ds dp N M : ℚ, (smp t0 t1 s0 s1).timeIntersect (smp t0 t1 p0 p1) = (fq N / fq M : D B64) ∧
      Crossing t0 (t1 - t0) (s0 - p0) (s1 - p1) ds dp N M V R ∧
      (M ≠ 0 → ∃ q : ℚ, (fq N / fq M : D B64) = fq q ∧ Near q (N / M) ∧
        Fx (-kg - kb - 2 * ka - kc - 107) (kc + ka + 2 * kb + kg + 56) q) := by
  have ⟨hB1, hB2, hB3, hB4, hB5, hB6, hB7⟩ := B
  obtain ⟨ds, ds1, ds2, ds3⟩ := slope_spec B h m0 m1 ns0 ns1 vs0 vs1
  obtain ⟨dp, dp1, dp2, dp3⟩ := slope_spec B h m0 m1 np0 np1 vp0 vp1
  have hh : 0 < t1 - t0 := by linarith
  have V0 : 0 ≤ V := (abs_nonneg _).trans vs0
  have dbound : ∀ {d a b : ℚ}, |a| ≤ V → |b| ≤ V → |d * (t1 - t0) - (b - a)| ≤ 7 * (1 / 2 ^ 53) * V →
      |d * t0| ≤ 21 / 10 * R := by
    intro d a b ha hb hd
    have h1 : |d| * (t1 - t0) ≤ 21 / 10 * V := by
      have e : |d| * (t1 - t0) = |d * (t1 - t0)| := by rw [abs_mul, abs_of_pos hh]
      have h2 : |d * (t1 - t0)| ≤ |d * (t1 - t0) - (b - a)| + |b - a| := by
        have := abs_add_le (d * (t1 - t0) - (b - a)) (b - a)
        simpa using this
      have := abs_sub b a
      rw [e]; linarith
    have h2 : |d * t0| * (t1 - t0) ≤ (21 / 10 * R) * (t1 - t0) := by
      rw [abs_mul]
      calc (|d| * |t0|) * (t1 - t0) = (|d| * (t1 - t0)) * |t0| := by ring
        _ ≤ (21 / 10 * V) * |t0| := mul_le_mul_of_nonneg_right h1 (abs_nonneg _)
        _ = 21 / 10 * (|t0| * V) := by ring
        _ ≤ 21 / 10 * (R * (t1 - t0)) := mul_le_mul_of_nonneg_left hR (by norm_num)
        _ = _ := by ring
    exact le_of_mul_le_mul_right h2 hh
  -- the numerator
  have x1 : Fx (-kg) (kc + 1) (s0 - p0) := by
    rw [sub_eq_add_neg]; exact Fx.add (l := kc) ns0 (Fx.neg np0)
  obtain ⟨a1, e11, e12, e13⟩ := rnd_fx x1 (by omega) (by omega) (by omega)
  have x2 : Fx (-kg - kb - 53 - ka) (kc + ka + 1 + kb) (dp * t0) :=
    (Fx.mul dp2 m0).mono (by omega) (by omega)
  obtain ⟨b1, e21, e22, e23⟩ := rnd_fx x2 (by omega) (by omega) (by omega)
  have x3 : Fx (-kg - kb - 53 - ka) (kc + ka + 1 + kb + 1) (a1 + b1) :=
    Fx.add (l := kc + ka + 1 + kb) (e13.mono (by omega) (by omega)) e23
  obtain ⟨a2, e31, e32, e33⟩ := rnd_fx x3 (by omega) (by omega) (by omega)
  have x4 : Fx (-kg - kb - 53 - ka) (kc + ka + 1 + kb) (ds * t0) :=
    (Fx.mul ds2 m0).mono (by omega) (by omega)
  obtain ⟨b2, e41, e42, e43⟩ := rnd_fx x4 (by omega) (by omega) (by omega)
  have x5 : Fx (-kg - kb - 53 - ka) (kc + ka + 1 + kb + 1 + 1) (a2 - b2) := by
    rw [sub_eq_add_neg a2 b2]
    exact Fx.add (l := kc + ka + 1 + kb + 1) e33 (e43.mono (le_refl _) (by omega)).neg
  obtain ⟨N, e51, e52, e53⟩ := rnd_fx x5 (by omega) (by omega) (by omega)
  have x6 : Fx (-kg - kb - 53) (kc + ka + 2) (dp - ds) := by
    rw [sub_eq_add_neg dp ds]; exact (Fx.add (l := kc + ka + 1) dp2 ds2.neg).mono (by omega) (by omega)
  obtain ⟨M, e61, e62, e63⟩ := rnd_fx x6 (by omega) (by omega) (by omega)
  have hg0 : |s0 - p0| ≤ 2 * V := by have := abs_sub s0 p0; linarith
  obtain ⟨hN, hNb⟩ := numer_err hg0 (dbound vp0 vp1 dp3) (dbound vs0 vs1 ds3) e12 e22 e32 e42 e52
  have hti : (smp t0 t1 s0 s1).timeIntersect (smp t0 t1 p0 p1) = (fq N / fq M : D B64) := by
    simp only [Sample.timeIntersect, smp]
    rw [sub_fin (add_fin (sub_fin rfl rfl e11) (mul_fin dp1 rfl e21) e31) (mul_fin ds1 rfl e41) e51,
      sub_fin dp1 ds1 e61]
    rfl
  have c : Crossing t0 (t1 - t0) (s0 - p0) (s1 - p1) ds dp N M V R := by
    refine ⟨hh, hR, ?_, ?_, hN, hNb, e62⟩
    · have e : (dp - ds) * (t1 - t0) - (s0 - p0 - (s1 - p1)) =
          (dp * (t1 - t0) - (p1 - p0)) - (ds * (t1 - t0) - (s1 - s0)) := by ring
      rw [e]
      refine (abs_sub _ _).trans ?_
      linarith
    · have h1 : |s1 - p1| ≤ 2 * V := by have := abs_sub s1 p1; linarith
      have := abs_sub (s0 - p0) (s1 - p1)
      linarith
  refine ⟨ds, dp, N, M, hti, c, fun hD => ?_⟩
  obtain ⟨q, f1, f2, f3⟩ := rnd_quot e53 e63 hD (by omega) (by omega) (by omega)
  exact ⟨q, div_fin rfl rfl hD f1, f2, f3.mono (by omega) (by omega)⟩

/-- What `time_intersect` computes if the larger operand changes. -/
theorem cross_spec (B : Budget ka kb kg kc) (sd : Side ℚ) {t0 t1 s0 s1 p0 p1 V R : ℚ} (h : t0 < t1) (m0 : Fx (-ka) kb t0) (m1 : Fx (-ka) kb t1)
    (ns0 : Fx (-kg) kc s0) (ns1 : Fx (-kg) kc s1) (np0 : Fx (-kg) kc p0) (np1 : Fx (-kg) kc p1)
    (vs0 : |s0| ≤ V) (vs1 : |s1| ≤ V) (vp0 : |p0| ≤ V) (vp1 : |p1| ≤ V) (g0 : sd.r s0 p0)
    (g1 : sd.r p1 s1) (hR : |t0| * V ≤ R * (t1 - t0)) :
    (∃ q : ℚ, (smp t0 t1 s0 s1).timeIntersect (smp t0 t1 p0 p1) = fq q ∧ Fx (-kg - kb - 2 * ka - kc - 107) (kc + ka + 2 * kb + kg + 56) q ∧
      (t0 ≤ q → q ≤ t1 → |line (t0, s0) (t1, s1) q - line (t0, p0) (t1, p1) q| ≤ 1 / 2 ^ 53 * (27 * V + 20 * R)) ∧
      (q ≤ t0 → |s0 - p0| ≤ 1 / 2 ^ 53 * (27 * V + 20 * R))) ∨
    ((∀ q, (smp t0 t1 s0 s1).timeIntersect (smp t0 t1 p0 p1) ≠ fq q) ∧
      |s0 - p0| ≤ 1 / 2 ^ 53 * (27 * V + 20 * R)) := by
  obtain ⟨ds, dp, N, M, hti, c, hq⟩ := cross_core B h m0 m1 ns0 ns1 np0 np1 vs0 vs1 vp0 vp1 hR
  rw [hti]
  by_cases hD : M = 0
  · right
    subst hD
    refine ⟨fun q => div_zero_ne, ?_⟩
    rcases sd.sign with hs | hs
    · have h0 := (hs _ _).1 g0
      rw [abs_of_nonneg (by linarith)]
      exact c.flat (by linarith [(hs _ _).1 g1]) le_rfl
    · have h0 := (hs _ _).1 g0
      rw [abs_of_nonpos (by linarith)]
      exact c.neg.flat (by linarith [(hs _ _).1 g1]) (by simp)
  · left
    obtain ⟨q, f1, f2, f3⟩ := hq hD
    refine ⟨q, f1, f3, fun h0 h1 => ?_, fun h0 => ?_⟩
    swap
    · rcases sd.sign with hs | hs
      · have h1 := (hs _ _).1 g0
        rw [abs_of_nonneg (by linarith)]
        exact c.before (by linarith [(hs _ _).1 g1]) hD f2 h0
      · have h1 := (hs _ _).1 g0
        rw [abs_of_nonpos (by linarith)]
        exact c.neg.before (by linarith [(hs _ _).1 g1]) (neg_ne_zero.2 hD) (by rwa [neg_div_neg_eq]) h0
    have := c.inside hD f2 h0 (by linarith)
    have e : line (t0, s0) (t1, s1) q - line (t0, p0) (t1, p1) q =
        (s0 - p0) - ((s0 - p0) - (s1 - p1)) * ((q - t0) / (t1 - t0)) := by
      simp only [line]; ring
    rw [e]; exact this

/-- The value inserted at a computed crossing. -/
theorem interp_spec (B : Budget ka kb kg kc) {t0 t1 s0 s1 q V : ℚ} (h : t0 < t1) (m0 : Fx (-ka) kb t0) (m1 : Fx (-ka) kb t1)
    (ns0 : Fx (-kg) kc s0) (ns1 : Fx (-kg) kc s1) (vs0 : |s0| ≤ V) (vs1 : |s1| ≤ V) (hq : Fx (-kg - kb - 2 * ka - kc - 107) (kc + ka + 2 * kb + kg + 56) q)
    (h0 : t0 ≤ q) (h1 : q ≤ t1) :
    ∃ v : ℚ, (smp t0 t1 s0 s1).interpolate (fq q) = fq v ∧
      |v - line (t0, s0) (t1, s1) q| ≤ 1 / 2 ^ 53 * (15 * V) := by
  have ⟨hB1, hB2, hB3, hB4, hB5, hB6, hB7⟩ := B
  obtain ⟨ds, ds1, ds2, ds3⟩ := slope_spec B h m0 m1 ns0 ns1 vs0 vs1
  have hqb : Fx (-kg - kb - 2 * ka - kc - 107) kb q := by
    refine ⟨hq.1, abs_le.2 ⟨?_, ?_⟩⟩
    · have := (abs_le.1 m0.2).1; linarith
    · have := (abs_le.1 m1.2).2; linarith
  have x1 : Fx (-kg - kb - 2 * ka - kc - 107) (kb + 1) (q - t0) := by
    rw [sub_eq_add_neg q t0]
    exact Fx.add (l := kb) hqb (Fx.mono (Fx.neg m0) (by omega) (le_refl _))
  obtain ⟨τ, e11, e12, e13⟩ := rnd_fx x1 (by omega) (by omega) (by omega)
  have x2 : Fx (-2 * kg - 2 * kb - 2 * ka - kc - 160) (kc + ka + kb + 2) (ds * τ) :=
    (Fx.mul ds2 e13).mono (by omega) (by omega)
  obtain ⟨m, e21, e22, e23⟩ := rnd_fx x2 (by omega) (by omega) (by omega)
  have x3 : Fx (-2 * kg - 2 * kb - 2 * ka - kc - 160) (kc + ka + kb + 2 + 1) (s0 + m) :=
    Fx.add (l := kc + ka + kb + 2) (Fx.mono ns0 (by omega) (by omega)) e23
  obtain ⟨v, e31, e32, e33⟩ := rnd_fx x3 (by omega) (by omega) (by omega)
  refine ⟨v, ?_, ?_⟩
  · simp only [Sample.interpolate, smp]
    exact add_fin rfl (mul_fin ds1 (sub_fin rfl rfl e11) e21) e31
  · have hn : |s1 - s0| ≤ 2 * V := by have := abs_sub s1 s0; linarith
    simp only [line]
    exact value_err (by linarith) (by linarith) (by linarith) vs0 hn ds3 e12 e22 e32

/-! ## The loop -/

/-- The error bound. -/
def bound (V H d : ℚ) : ℚ := 1 / 2 ^ 47 * V * (1 + H / d)

theorem pushBack_lift (L : List (D B64 × D B64)) (p q : ℚ × ℚ) (d : D B64) (h : p.1 < q.1) :
    Signal.pushBack ⟨build (L ++ [lq p])⟩ ⟨fq q.1, fq q.2, d⟩ = .ok ⟨build (L ++ [lq p] ++ [lq q])⟩ := by
  rw [pushBack_build, if_pos]
  · rfl
  · intro e he
    simp only [List.getLast?_append, List.getLast?_singleton, Option.some_or, Option.some.injEq] at he
    subst he
    show D.le (fq q.1) (fq p.1) = false
    unfold D.le
    rw [ltF h.le, eqF h.ne']; rfl

/-- One step in which the larger operand changes from the line `s` to the line `p`. -/
theorem switch_step (B : Budget ka kb kg kc) (sd : Side ℚ) {t0 t1 s0 s1 p0 p1 V H d : ℚ} (hd : 0 < d) (h : t0 + d ≤ t1) (m0 : Fx (-ka) kb t0)
    (m1 : Fx (-ka) kb t1) (ns0 : Fx (-kg) kc s0) (ns1 : Fx (-kg) kc s1) (np0 : Fx (-kg) kc p0) (np1 : Fx (-kg) kc p1)
    (hH : |t0| ≤ H) (vs0 : |s0| ≤ V) (vs1 : |s1| ≤ V) (vp0 : |p0| ≤ V) (vp1 : |p1| ≤ V) (g0 : sd.r s0 p0)
    (g1 : sd.r p1 s1) (L : List (D B64 × D B64)) (dd : D B64) {z : Signal B64}
    (hz : (do
      let out ← insertCrossing ⟨build (L ++ [lq (t0, s0)])⟩ (some (smp t0 t1 s0 s1))
        (some (smp t0 t1 p0 p1)) (fq t1)
      out.pushBack ⟨fq t1, fq p1, dd⟩) = .ok z) :
    ∃ mid : List (ℚ × ℚ), z = ⟨build (L ++ [lq (t0, s0)] ++ mid.map lq ++
        [lq (t1, p1)])⟩ ∧
      (mid = [] ∨ ∃ q v, mid = [(q, v)] ∧ t0 < q ∧ q < t1) ∧
      ∀ t, t0 ≤ t → t ≤ t1 → ∀ rest,
        |eval ((t0, s0) :: (mid ++ (t1, p1) :: rest)) t -
          sd.op (line (t0, s0) (t1, s1) t) (line (t0, p0) (t1, p1) t)| ≤ bound V H d := by
  have hlt : t0 < t1 := by linarith
  have V0 : 0 ≤ V := (abs_nonneg _).trans vs0
  have H0 : 0 ≤ H := (abs_nonneg _).trans hH
  have hR : |t0| * V ≤ (V * (H / d)) * (t1 - t0) := by
    have e : (V * (H / d)) * d = H * V := by field_simp
    have h1 : |t0| * V ≤ H * V := mul_le_mul_of_nonneg_right hH V0
    have h2 : (V * (H / d)) * d ≤ (V * (H / d)) * (t1 - t0) :=
      mul_le_mul_of_nonneg_left (by linarith) (by positivity)
    linarith
  have R0 : 0 ≤ V * (H / d) := by positivity
  have hb : 1 / 2 ^ 53 * (27 * V + 20 * (V * (H / d))) + 1 / 2 ^ 53 * (15 * V) ≤ bound V H d := by
    unfold bound; linarith
  have hb' : 1 / 2 ^ 53 * (27 * V + 20 * (V * (H / d))) ≤ bound V H d := by
    unfold bound; linarith
  have hend : (⟨build (L ++ [lq (t0, s0)])⟩ : Signal B64).endTime = fq t0 :=
    endTime_build _ _
  -- no crossing inserted
  have plain : (|s0 - p0| ≤ bound V H d ∨ |p1 - s1| ≤ bound V H d) →
      ∃ mid : List (ℚ × ℚ), (⟨build (L ++ [lq (t0, s0)] ++ [lq (t1, p1)])⟩ : Signal B64) =
        ⟨build (L ++ [lq (t0, s0)] ++ mid.map lq ++ [lq (t1, p1)])⟩ ∧
      (mid = [] ∨ ∃ q v, mid = [(q, v)] ∧ t0 < q ∧ q < t1) ∧
      ∀ t, t0 ≤ t → t ≤ t1 → ∀ rest,
        |eval ((t0, s0) :: (mid ++ (t1, p1) :: rest)) t -
          sd.op (line (t0, s0) (t1, s1) t) (line (t0, p0) (t1, p1) t)| ≤ bound V H d := by
    intro he
    refine ⟨[], congrArg (fun l => Signal.mk (build (l ++ _))) (List.append_nil _).symm, .inl rfl, fun t h0 h1 rest => ?_⟩
    simp only [List.nil_append, eval, h1, if_true]
    exact sd.chord hlt h0 h1 g0 g1 he
  have hpush := pushBack_lift L (t0, s0) (t1, p1) dd hlt
  have hc := cross_spec B sd hlt m0 m1 ns0 ns1 np0 np1 vs0 vs1 vp0 vp1 g0 g1 hR
  simp only [insertCrossing, derefPrev, Outcome.bind_ok, hend] at hz
  rcases hc with ⟨q, c1, c2, c3, c4⟩ | ⟨c1, c2⟩
  · rw [c1] at hz
    rcases le_or_gt q t0 with hq | hq
    · have : (D.lt (fq t0) (fq q)) = false := ltF hq
      rw [this] at hz
      simp only [Bool.false_and, Bool.false_eq_true, if_false, Outcome.pure_eq_ok, Outcome.bind_ok] at hz
      have e : z = _ := (Outcome.ok.inj (hz.symm.trans hpush))
      rw [e]
      exact plain (.inl ((c4 hq).trans hb'))
    · have l1 : (D.lt (fq t0) (fq q)) = true := ltT hq
      rw [l1] at hz
      by_cases hq1 : q = t1
      · subst hq1
        have : (D.eq (fq q) (fq q)) = true := eqT q
        rw [this] at hz
        simp only [Bool.not_true, Bool.and_false, Bool.false_eq_true, if_false, Outcome.pure_eq_ok,
          Outcome.bind_ok] at hz
        have e : z = _ := (Outcome.ok.inj (hz.symm.trans hpush))
        rw [e]
        refine plain (.inr ?_)
        have := c3 hq.le le_rfl
        have h1 : q - t0 ≠ 0 := by linarith
        simp only [line, div_self h1, mul_one] at this
        rw [abs_sub_comm]
        have e : s0 + (s1 - s0) - (p0 + (p1 - p0)) = s1 - p1 := by ring
        rw [e] at this
        linarith
      · have l2 : (D.eq (fq q) (fq t1)) = false := eqF hq1
        rw [l2] at hz
        simp only [Bool.not_false, Bool.and_true, if_true] at hz
        rcases lt_or_gt_of_ne hq1 with hlt1 | hgt
        · obtain ⟨v, v1, v2⟩ := interp_spec B hlt m0 m1 ns0 ns1 vs0 vs1 c2 hq.le hlt1.le
          rw [v1] at hz
          have p1' := pushBack_lift L (t0, s0) (q, v) 0 hq
          have p2' := pushBack_lift (L ++ [lq (t0, s0)]) (q, v) (t1, p1) dd hlt1
          have hz' := hz
          simp only [Sample.mk2] at hz'
          rw [show Signal.pushBack _ _ = _ from p1', Outcome.bind_ok] at hz'
          have e : z = _ := (Outcome.ok.inj (hz'.symm.trans p2'))
          refine ⟨[(q, v)], by rw [e]; rfl, .inr ⟨q, v, rfl, hq, hlt1⟩, fun t h0 h1 rest => ?_⟩
          have c3' := c3 hq.le hlt1.le
          simp only [List.cons_append, List.nil_append, eval]
          split_ifs with hle
          · exact (sd.before hq h0 hle g0).trans (by linarith)
          · exact (sd.after hq hlt1 (not_le.1 hle).le h1 g1).trans (by linarith)
        · exfalso
          have := (insert_push (L ++ [lq (t0, s0)]) (lq (t0, s0)) (smp t0 t1 s0 s1)
            (smp t0 t1 p0 p1) ⟨fq t1, fq p1, dd⟩ (by simp)
            (ltT hlt)).2 (by rw [c1]; exact ltT hgt)
          simp only [insertCrossing, derefPrev, Outcome.bind_ok, hend] at this
          rw [c1, l1, l2] at this
          simp only [Bool.not_false, Bool.and_true, if_true] at this
          rw [this] at hz
          cases hz
  · have key : (insertCrossing ⟨build (L ++ [lq (t0, s0)])⟩ (some (smp t0 t1 s0 s1))
        (some (smp t0 t1 p0 p1)) (fq t1)) = .ok ⟨build (L ++ [lq (t0, s0)])⟩ ∨
        D.lt (fq t1) ((smp t0 t1 s0 s1).timeIntersect (smp t0 t1 p0 p1)) = true := by
      simp only [insertCrossing, derefPrev, Outcome.bind_ok, hend]
      generalize hT : (smp t0 t1 s0 s1).timeIntersect (smp t0 t1 p0 p1) = T at c1 ⊢
      cases T with
      | fin q => exact absurd rfl (c1 q)
      | pinf => right; rfl
      | ninf => left; rfl
      | nan => left; simp
    rcases key with k | k
    · simp only [insertCrossing, derefPrev, Outcome.bind_ok, hend] at k
      rw [k, Outcome.bind_ok] at hz
      have e : z = _ := (Outcome.ok.inj (hz.symm.trans hpush))
      rw [e]
      exact plain (.inl (c2.trans hb'))
    · exfalso
      have := (insert_push (L ++ [lq (t0, s0)]) (lq (t0, s0)) (smp t0 t1 s0 s1)
        (smp t0 t1 p0 p1) ⟨fq t1, fq p1, dd⟩ (by simp)
        (ltT hlt)).2 k
      simp only [insertCrossing, derefPrev, Outcome.bind_ok, hend] at this
      rw [this] at hz
      cases hz

/-- The conditions on the points, as they are needed by the induction. -/
theorem tameFx_cons {V H d : ℚ} {p q : ℚ × ℚ} {l : List (ℚ × ℚ)} (h : TameFx ka kb kg kc V H d (p :: q :: l)) :
    p.1 + d ≤ q.1 ∧ TameFx ka kb kg kc V H d (q :: l) := by
  obtain ⟨h1, h2⟩ := h
  rw [List.isChain_cons_cons] at h2
  exact ⟨h2.1, fun a ha => h1 a (by simp [ha]), h2.2⟩

theorem eval_cons_le {p q : ℚ × ℚ} {l : List (ℚ × ℚ)} {t : ℚ} (h : t ≤ q.1) :
    eval (p :: q :: l) t = line p q t := by simp [eval, h]

theorem eval_cons_gt {p q : ℚ × ℚ} {l : List (ℚ × ℚ)} {t : ℚ} (h : q.1 < t) :
    eval (p :: q :: l) t = eval (q :: l) t := by simp [eval, not_le.2 h]

theorem build_smp (p q : ℚ × ℚ) (l : List (ℚ × ℚ)) :
    build ((p :: q :: l).map lq) = smp p.1 q.1 p.2 q.2 :: build ((q :: l).map lq) := rfl

theorem compT (sd : Side ℚ) {t t' a b : ℚ} {d d' : D B64} (h : sd.r a b) :
    (scomp sd) ⟨fq t, fq a, d⟩ ⟨fq t', fq b, d'⟩ = true := sd.compT h

theorem compF (sd : Side ℚ) {t t' a b : ℚ} {d d' : D B64} (h : ¬ sd.r a b) :
    (scomp sd) ⟨fq t, fq a, d⟩ ⟨fq t', fq b, d'⟩ = false := sd.compF h

/-- The loop, after the samples `p` and `q` at the time `t0`. -/
theorem loop_acc (B : Budget ka kb kg kc) (sd : Side ℚ) {V H d : ℚ} (hd : 0 < d) : ∀ (xs ys : List (ℚ × ℚ)) (t0 a0 b0 : ℚ) (p q : Sample B64)
    (is js : List (Sample B64)) (L : List (D B64 × D B64)) (z : Signal B64),
    build (((t0, a0) :: xs).map lq) = p :: is →
    build (((t0, b0) :: ys).map lq) = q :: js →
    TameFx ka kb kg kc V H d ((t0, a0) :: xs) → TameFx ka kb kg kc V H d ((t0, b0) :: ys) →
    xs.map Prod.fst = ys.map Prod.fst →
    minmaxPairLoop (scomp sd) ⟨build (L ++ [lq (t0, sd.op a0 b0)])⟩ (if sd.r a0 b0 then .X else .Y)
      (some p) (some q) is js = .ok z →
    ∃ zs : List (ℚ × ℚ), z = ⟨build (L ++ ((t0, sd.op a0 b0) :: zs).map lq)⟩ ∧
      Increasing ((t0, sd.op a0 b0) :: zs) ∧
      (∀ t, (∃ p ∈ (t0, sd.op a0 b0) :: zs, t ≤ p.1) ↔ ∃ p ∈ (t0, a0) :: xs, t ≤ p.1) ∧
      ∀ t, t0 ≤ t → |eval ((t0, sd.op a0 b0) :: zs) t -
        sd.op (eval ((t0, a0) :: xs) t) (eval ((t0, b0) :: ys) t)| ≤ bound V H d := by
  have b0' : ∀ {V H d : ℚ} {l : List (ℚ × ℚ)} {p : ℚ × ℚ}, 0 < d → TameFx ka kb kg kc V H d (p :: l) → 0 ≤ bound V H d := by
    intro V H d l p hd ht
    obtain ⟨_, _, h1, h2⟩ := ht.1 p (by simp)
    have := (abs_nonneg _).trans h1
    have := (abs_nonneg _).trans h2
    unfold bound; positivity
  intro xs
  induction xs with
  | nil =>
    intro ys t0 a0 b0 p q is js L z hx hy tx ty hm hz
    cases ys with
    | cons y ys => simp at hm
    | nil =>
    have h1 : is = [] := (List.cons.inj hx).2.symm
    have h2 : js = [] := (List.cons.inj hy).2.symm
    subst h1 h2
    rw [minmaxPairLoop] at hz
    · refine ⟨[], (Outcome.ok.inj hz).symm, by simp [Increasing], fun t => by simp, fun t ht => ?_⟩
      simp only [eval, sub_self, abs_zero]
      exact b0' hd tx
    · intro _ _ _ _ h; cases h
  | cons x xs ih =>
    intro ys t0 a0 b0 p q is js L z hx hy tx ty hm hz
    cases ys with
    | nil => simp at hm
    | cons y ys =>
    obtain ⟨t1, a1⟩ := x
    obtain ⟨t1', b1⟩ := y
    simp only [List.map_cons, List.cons.injEq] at hm
    obtain ⟨rfl, hm⟩ := hm
    rw [build_smp] at hx hy
    obtain ⟨hp, his⟩ := List.cons.inj hx
    obtain ⟨hq, hjs⟩ := List.cons.inj hy
    obtain ⟨cx, tx'⟩ := tameFx_cons tx
    obtain ⟨cy, ty'⟩ := tameFx_cons ty
    simp only at cx cy
    have hlt : t0 < t1 := by linarith
    obtain ⟨mt0, ma0, hH, va0⟩ := tx.1 (t0, a0) (by simp)
    obtain ⟨_, mb0, _, vb0⟩ := ty.1 (t0, b0) (by simp)
    obtain ⟨mt1, ma1, _, va1⟩ := tx.1 (t1, a1) (by simp)
    obtain ⟨_, mb1, _, vb1⟩ := ty.1 (t1, b1) (by simp)
    simp only at mt0 ma0 hH va0 mb0 vb0 mt1 ma1 va1 mb1 vb1
    obtain ⟨dx, is', hi⟩ : ∃ dx is', is = ⟨fq t1, fq a1, dx⟩ :: is' := by
      rw [← his, List.map_cons]
      obtain ⟨dx, h⟩ := build_cons (lq (t1, a1)) (xs.map lq)
      exact ⟨dx, _, h⟩
    obtain ⟨dy, js', hj⟩ : ∃ dy js', js = ⟨fq t1, fq b1, dy⟩ :: js' := by
      rw [← hjs, List.map_cons]
      obtain ⟨dx, h⟩ := build_cons (lq (t1, b1)) (ys.map lq)
      exact ⟨dx, _, h⟩
    -- the rest of the loop
    have next : ∀ (mid : List (ℚ × ℚ)) (L' : List (D B64 × D B64)),
        L' = L ++ [lq (t0, sd.op a0 b0)] ++ mid.map lq →
        (mid = [] ∨ ∃ q v, mid = [(q, v)] ∧ t0 < q ∧ q < t1) →
        (∀ t, t0 ≤ t → t ≤ t1 → ∀ rest, |eval ((t0, sd.op a0 b0) :: (mid ++ (t1, sd.op a1 b1) :: rest)) t -
          sd.op (line (t0, a0) (t1, a1) t) (line (t0, b0) (t1, b1) t)| ≤ bound V H d) →
        minmaxPairLoop (scomp sd) ⟨build (L' ++ [lq (t1, sd.op a1 b1)])⟩ (if sd.r a1 b1 then .X else .Y)
          (some ⟨fq t1, fq a1, dx⟩) (some ⟨fq t1, fq b1, dy⟩)
          is' js' = .ok z →
        ∃ zs : List (ℚ × ℚ), z = ⟨build (L ++ ((t0, sd.op a0 b0) :: zs).map lq)⟩ ∧
          Increasing ((t0, sd.op a0 b0) :: zs) ∧
          (∀ t, (∃ p ∈ (t0, sd.op a0 b0) :: zs, t ≤ p.1) ↔ ∃ p ∈ (t0, a0) :: (t1, a1) :: xs, t ≤ p.1) ∧
          ∀ t, t0 ≤ t → |eval ((t0, sd.op a0 b0) :: zs) t -
            sd.op (eval ((t0, a0) :: (t1, a1) :: xs) t) (eval ((t0, b0) :: (t1, b1) :: ys) t)| ≤ bound V H d := by
      intro mid L' hL hmid hseg hloop
      obtain ⟨zs, z1, z2, z3, z4⟩ := ih ys t1 a1 b1 _ _ is' js' L' z (his.trans hi) (hjs.trans hj) tx' ty' hm hloop
      have hge : ∀ p ∈ (t1, sd.op a1 b1) :: zs, t1 ≤ p.1 := by
        intro p hp
        rcases List.mem_cons.1 hp with rfl | hp
        · exact le_rfl
        · simp only [Increasing, List.map_cons, List.pairwise_cons] at z2
          exact (z2.1 _ (List.mem_map_of_mem hp)).le
      refine ⟨mid ++ (t1, sd.op a1 b1) :: zs, ?_, ?_, fun t => ?_, fun t ht => ?_⟩
      · rw [z1, hL]
        simp only [List.map_cons, List.map_append, List.append_assoc, List.cons_append, List.nil_append]
      · have hz2 : Increasing ((t0, sd.op a0 b0) :: (t1, sd.op a1 b1) :: zs) := by
          simp only [Increasing, List.map_cons] at z2 ⊢
          refine List.pairwise_cons.2 ⟨fun a ha => ?_, z2⟩
          obtain ⟨p, hp, rfl⟩ := List.mem_map.1 (by simpa using ha : a ∈ ((t1, sd.op a1 b1) :: zs).map Prod.fst)
          exact hlt.trans_le (hge p hp)
        rcases hmid with rfl | ⟨q, v, rfl, h1, h2⟩
        · exact hz2
        · simp only [Increasing, List.cons_append, List.nil_append, List.map_cons] at z2 hz2 ⊢
          obtain ⟨y1, y2⟩ := List.pairwise_cons.1 hz2
          refine List.pairwise_cons.2 ⟨fun a ha => ?_, List.pairwise_cons.2 ⟨fun a ha => ?_, z2⟩⟩
          · rcases List.mem_cons.1 ha with rfl | ha
            · exact h1
            · exact y1 a ha
          · obtain ⟨p, hp, rfl⟩ := List.mem_map.1 (by simpa using ha : a ∈ ((t1, sd.op a1 b1) :: zs).map Prod.fst)
            exact h2.trans_le (hge p hp)
      · have z3' := z3 t
        have hmem : ∀ p ∈ mid, p.1 ≤ t1 := by
          rcases hmid with rfl | ⟨q, v, rfl, h1, h2⟩
          · simp
          · intro p hp
            simp only [List.mem_singleton] at hp
            subst hp; exact h2.le
        constructor
        · rintro ⟨p, hp, h⟩
          simp only [List.mem_cons, List.mem_append] at hp
          rcases hp with rfl | hp | hp
          · exact ⟨(t0, a0), by simp, h⟩
          · exact ⟨(t1, a1), by simp, h.trans (hmem p hp)⟩
          · obtain ⟨p', hp', h'⟩ := z3'.1 ⟨p, List.mem_cons.2 hp, h⟩
            exact ⟨p', List.mem_cons_of_mem _ hp', h'⟩
        · rintro ⟨p, hp, h⟩
          rcases List.mem_cons.1 hp with rfl | hp
          · exact ⟨(t0, sd.op a0 b0), by simp, h⟩
          · obtain ⟨p', hp', h'⟩ := z3'.2 ⟨p, hp, h⟩
            exact ⟨p', List.mem_cons_of_mem _ (List.mem_append_right _ hp'), h'⟩
      · rcases le_or_gt t t1 with h | h
        · rw [eval_cons_le (p := (t0, a0)) (q := (t1, a1)) h, eval_cons_le (p := (t0, b0)) (q := (t1, b1)) h]
          exact hseg t ht h zs
        · rw [eval_cons_gt (p := (t0, a0)) (q := (t1, a1)) h, eval_cons_gt (p := (t0, b0)) (q := (t1, b1)) h]
          have : eval ((t0, sd.op a0 b0) :: (mid ++ (t1, sd.op a1 b1) :: zs)) t = eval ((t1, sd.op a1 b1) :: zs) t := by
            rcases hmid with rfl | ⟨q, v, rfl, h1, h2⟩
            · exact eval_cons_gt h
            · show eval ((t0, sd.op a0 b0) :: (q, v) :: (t1, sd.op a1 b1) :: zs) t = _
              rw [eval_cons_gt (h2.trans h), eval_cons_gt h]
          rw [this]
          exact z4 t h.le
    rw [hi, hj] at hz
    rw [minmaxPairLoop] at hz
    have hbp := b0' hd tx
    by_cases h1 : sd.r a1 b1
    · rw [compT sd h1] at hz
      have m1 : sd.op a1 b1 = a1 := sd.left h1
      simp only [if_true] at hz
      have next' := next
      simp only [m1, h1, if_true] at next'
      by_cases h0 : sd.r a0 b0
      · have m0 : sd.op a0 b0 = a0 := sd.left h0
        simp only [h0, if_true, reduceCtorEq, if_false, Outcome.bind_ok, m0] at hz next' ⊢
        rw [show Signal.pushBack _ _ = _ from pushBack_lift L (t0, a0) (t1, a1) dx hlt, Outcome.bind_ok] at hz
        refine next' [] _ (List.append_nil _).symm (.inl rfl) (fun t ht ht1 rest => ?_) hz
        simp only [List.nil_append]
        rw [eval_cons_le (q := (t1, a1)) ht1, sd.same hlt ht ht1 h0 h1, sub_self, abs_zero]
        exact hbp
      · have m0 : sd.op a0 b0 = b0 := by rw [sd.comm]; exact sd.left (sd.total h0)
        simp only [h0, if_false, if_true, m0] at hz next' ⊢
        rw [← Outcome.bind_assoc', Outcome.bind_eq_ok] at hz
        obtain ⟨out, ho, hz⟩ := hz
        rw [← hp, ← hq] at ho
        obtain ⟨mid, e1, e2, e3⟩ := switch_step B sd hd cx mt0 mt1 mb0 mb1 ma0 ma1 hH vb0 vb1 va0 va1 (sd.total h0) h1
          L dx ho
        rw [e1] at hz
        refine next' mid _ rfl e2 (fun t ht ht1 rest => ?_) hz
        rw [sd.comm]; exact e3 t ht ht1 rest
    · rw [compF sd h1] at hz
      have m1 : sd.op a1 b1 = b1 := by rw [sd.comm]; exact sd.left (sd.total h1)
      simp only [Bool.false_eq_true, if_false] at hz
      have next' := next
      simp only [m1, h1, if_false] at next'
      by_cases h0 : sd.r a0 b0
      · have m0 : sd.op a0 b0 = a0 := sd.left h0
        simp only [h0, if_true, m0] at hz next' ⊢
        rw [← Outcome.bind_assoc', Outcome.bind_eq_ok] at hz
        obtain ⟨out, ho, hz⟩ := hz
        rw [← hp, ← hq] at ho
        obtain ⟨mid, e1, e2, e3⟩ := switch_step B sd hd cx mt0 mt1 ma0 ma1 mb0 mb1 hH va0 va1 vb0 vb1 h0 (sd.total h1)
          L dy ho
        rw [e1] at hz
        exact next' mid _ rfl e2 (fun t ht ht1 rest => e3 t ht ht1 rest) hz
      · have m0 : sd.op a0 b0 = b0 := by rw [sd.comm]; exact sd.left (sd.total h0)
        simp only [h0, if_false, reduceCtorEq, Outcome.bind_ok, m0] at hz next' ⊢
        rw [show Signal.pushBack _ _ = _ from pushBack_lift L (t0, b0) (t1, b1) dy hlt, Outcome.bind_ok] at hz
        refine next' [] _ (List.append_nil _).symm (.inl rfl) (fun t ht ht1 rest => ?_) hz
        simp only [List.nil_append]
        rw [eval_cons_le (q := (t1, b1)) ht1, sd.comm, sd.same hlt ht ht1 (sd.total h0) (sd.total h1), sub_self,
          abs_zero]
        exact hbp

/-! ## The whole call -/

/-- `Represents` for rational points. -/
theorem represents_lq {x : Signal B64} {xs : List (ℚ × ℚ)} :
    Represents (K := B64) x xs ↔ Increasing xs ∧ x = ⟨build (xs.map lq)⟩ := represents_iff (K := B64) x xs

/-- The loop on two signals with the same timestamps. -/
theorem start_acc (B : Budget ka kb kg kc) (sd : Side ℚ) {x y z : Signal B64} {xs ys : List (ℚ × ℚ)} {V H d : ℚ}
    (hd : 0 < d) (rx : Represents (K := B64) x xs) (ry : Represents (K := B64) y ys)
    (ht : xs.map Prod.fst = ys.map Prod.fst) (tx : TameFx ka kb kg kc V H d xs)
    (ty : TameFx ka kb kg kc V H d ys) (hne : xs ≠ [])
    (hz : minmaxPairLoop (scomp sd) Signal.empty .NONE none none x.samples y.samples = .ok z) :
    ∃ zs : List (ℚ × ℚ), Represents (K := B64) z zs ∧ dom zs = dom xs ∧
      ∀ t ∈ dom xs, |eval zs t - sd.op (eval xs t) (eval ys t)| ≤ bound V H d := by
  obtain ⟨ix, ex⟩ := represents_lq.1 rx
  obtain ⟨iy, ey⟩ := represents_lq.1 ry
  cases xs with
  | nil => exact absurd rfl hne
  | cons p xs =>
  cases ys with
  | nil => simp at ht
  | cons q ys =>
  obtain ⟨t0, a0⟩ := p
  obtain ⟨t0', b0⟩ := q
  simp only [List.map_cons, List.cons.injEq] at ht
  obtain ⟨rfl, ht⟩ := ht
  obtain ⟨dx, hbx⟩ := build_cons (lq (t0, a0)) (xs.map lq)
  obtain ⟨dy, hby⟩ := build_cons (lq (t0, b0)) (ys.map lq)
  have sx : x.samples = ⟨fq t0, fq a0, dx⟩ :: build (xs.map lq) := by rw [ex]; exact hbx
  have sy : y.samples = ⟨fq t0, fq b0, dy⟩ :: build (ys.map lq) := by rw [ey]; exact hby
  rw [sx, sy, minmaxPairLoop] at hz
  have first : ∀ (v : ℚ) (dd : D B64), Signal.pushBack Signal.empty ⟨fq t0, fq v, dd⟩ =
      .ok ⟨build ([] ++ [lq (t0, v)])⟩ := by
    intro w dd; simp [Signal.pushBack, Signal.empty, lq]
  have main : minmaxPairLoop (scomp sd) ⟨build ([] ++ [lq (t0, sd.op a0 b0)])⟩ (if sd.r a0 b0 then .X else .Y)
      (some ⟨fq t0, fq a0, dx⟩) (some ⟨fq t0, fq b0, dy⟩) (build (xs.map lq)) (build (ys.map lq)) = .ok z := by
    by_cases h : sd.r a0 b0
    · rw [compT sd h] at hz
      simp only [if_true, reduceCtorEq, if_false, Outcome.bind_ok, first] at hz
      rw [sd.left h, if_pos h]; exact hz
    · rw [compF sd h] at hz
      simp only [Bool.false_eq_true, reduceCtorEq, if_false, Outcome.bind_ok, first] at hz
      rw [sd.comm, sd.left (sd.total h), if_neg h]; exact hz
  obtain ⟨zs, z1, z2, z3, z4⟩ := loop_acc B sd hd xs ys t0 a0 b0 _ _ _ _ [] z hbx hby tx ty ht main
  refine ⟨(t0, sd.op a0 b0) :: zs, represents_lq.2 ⟨z2, z1⟩, ?_, fun t h => z4 t ?_⟩
  · ext t
    rw [dom_cons z2, dom_cons (K := ℚ) ix, z3 t]
  · exact ((dom_cons (K := ℚ) ix).1 h).1

theorem pair_acc (sd : Side ℚ) {nd : Bool} {x y z : Signal B64} {xs ys : List (ℚ × ℚ)} {V H d : ℚ} (hd : 0 < d)
    (rx : Represents (K := B64) x xs) (ry : Represents (K := B64) y ys)
    (ht : xs.map Prod.fst = ys.map Prod.fst) (tx : Tame V H d xs) (ty : Tame V H d ys) (hne : xs ≠ [])
    (hz : minmaxPair nd (scomp sd) x y false = .ok z) :
    ∃ zs : List (ℚ × ℚ), Represents (K := B64) z zs ∧ dom zs = dom xs ∧
      ∀ t ∈ dom xs, |eval zs t - sd.op (eval xs t) (eval ys t)| ≤ bound V H d := by
  have wx := rx.1
  have wy := ry.1
  obtain ⟨ix, ex⟩ := represents_lq.1 rx
  obtain ⟨iy, ey⟩ := represents_lq.1 ry
  have htv : x.samples.map tv = xs.map lq := by rw [ex]; exact build_map_tv _
  have htv' : y.samples.map tv = ys.map lq := by rw [ey]; exact build_map_tv _
  have times : ∀ (s : Signal B64) (pts : List (ℚ × ℚ)), s.samples.map tv = pts.map lq →
      s.samples.map Sample.time = (pts.map Prod.fst).map fq := by
    intro s pts h
    have := congrArg (List.map Prod.fst) h
    simpa [List.map_map, Function.comp_def, tv, lq] using this
  have hxy : x.samples.map Sample.time = y.samples.map Sample.time := by
    rw [times x xs htv, times y ys htv', ht]
  have hn : NoNaNT x.samples := by
    intro a ha e
    have : a.time ∈ x.samples.map Sample.time := List.mem_map_of_mem ha
    rw [times x xs htv] at this
    obtain ⟨q, _, hq⟩ := List.mem_map.1 this
    rw [e] at hq; cases hq
  have hsne : x.samples ≠ [] := by
    intro h
    rw [h] at htv
    exact hne (List.map_eq_nil_iff.1 htv.symm)
  unfold minmaxPair at hz
  simp only [Bool.false_eq_true, if_false] at hz
  rw [synchronize_same_times wx wy hsne hn hxy] at hz
  simp only [Outcome.bind_ok] at hz
  obtain ⟨_, _, hz⟩ := Outcome.bind_eq_ok.1 hz
  obtain ⟨_, _, hz⟩ := Outcome.bind_eq_ok.1 hz
  obtain ⟨_, _, hz⟩ := Outcome.bind_eq_ok.1 hz
  exact start_acc budget_moderate sd hd rx ry ht tx ty hne hz

end B64
end Verif
