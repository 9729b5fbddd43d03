import Verif.Proofs.Rounding

/-!
# Correctly rounded robustness: C86
-/

set_option linter.unusedSectionVars false
set_option exponentiation.threshold 1100

namespace Verif
open Spec

/-! ## Rounding to binary64 is monotone and keeps the sign of differences -/

theorem b64_mono (a b : ℚ) (h : a ≤ b) : (B64.rnd a).le (B64.rnd b) = true := by
  have hc : (0 : ℚ) < 2 ^ 1024 - 2 ^ 970 := by
    have : (2 : ℚ) ^ 970 < 2 ^ 1024 := pow_lt_pow_right₀ (by norm_num) (by norm_num)
    linarith
  cases ha : B64.rnd a with
  | nan => exact absurd ha (B64.rnd_ne_nan a)
  | ninf =>
    cases hb : B64.rnd b with
    | nan => exact absurd hb (B64.rnd_ne_nan b)
    | _ => rfl
  | pinf =>
    have : B64.rnd b = .pinf := B64.rnd_pinf.2 ((B64.rnd_pinf.1 ha).trans h)
    rw [this]; rfl
  | fin r =>
    cases hb : B64.rnd b with
    | nan => exact absurd hb (B64.rnd_ne_nan b)
    | pinf => rfl
    | ninf =>
      have : B64.rnd a = .ninf := B64.rnd_ninf.2 (h.trans (B64.rnd_ninf.1 hb))
      rw [ha] at this; cases this
    | fin s =>
      rw [D.le_fin, decide_eq_true_eq]
      by_contra hrs
      rw [not_le] at hrs
      obtain ⟨f1, n1, -⟩ := B64.rnd_fin ha
      obtain ⟨f2, n2, -⟩ := B64.rnd_fin hb
      have e1 := n1 s f2
      have e2 := n2 r f1
      have e3 := sq_le_sq.2 e1
      have e4 := sq_le_sq.2 e2
      have g1 : (r - s) * (r + s - 2 * a) ≤ 0 := by nlinarith
      have g2 : 0 ≤ (r - s) * (r + s - 2 * b) := by nlinarith
      have p : 0 < r - s := by linarith
      have g1' : r + s - 2 * a ≤ 0 := by
        by_contra hh; rw [not_le] at hh; have := mul_pos p hh; linarith
      have g2' : 0 ≤ r + s - 2 * b := by
        by_contra hh; rw [not_le] at hh; have := mul_neg_of_pos_of_neg p hh; linarith
      have : a = b := by linarith
      subst this
      rw [ha] at hb
      simp only [D.fin.injEq] at hb
      linarith

instance : MonoArith B64 := ⟨fun a b h => b64_mono a b h⟩

/-- Multiples of the smallest positive binary64 number. -/
def TinyMultiple (q : ℚ) : Prop := ∃ m : ℤ, q = m * (2 : ℚ) ^ (-1074 : ℤ)

theorem tinyMultiple_of_isB64 {f : ℚ} (h : IsB64 f) : TinyMultiple f := by
  obtain ⟨m, e, rfl, -, h1, -⟩ := h
  obtain ⟨k, hk⟩ := Int.eq_ofNat_of_zero_le (by linarith : 0 ≤ e - -1074)
  refine ⟨m * 2 ^ k, ?_⟩
  have : e = -1074 + k := by omega
  rw [this, zpow_add₀ (by norm_num), zpow_natCast]
  push_cast; ring

theorem tinyMultiple_neg {q : ℚ} (h : TinyMultiple q) : TinyMultiple (-q) := by
  obtain ⟨m, rfl⟩ := h
  exact ⟨-m, by push_cast; rw [neg_mul]⟩

theorem tinyMultiple_sub {q r : ℚ} (h : TinyMultiple q) (h' : TinyMultiple r) : TinyMultiple (q - r) := by
  obtain ⟨m, rfl⟩ := h
  obtain ⟨n, rfl⟩ := h'
  exact ⟨m - n, by push_cast; rw [sub_mul]⟩

theorem rnd_zero_iff {q : ℚ} (h : TinyMultiple q) : B64.rnd q = .fin 0 ↔ q = 0 := by
  constructor
  · intro hr
    obtain ⟨m, rfl⟩ := h
    obtain ⟨-, hn, -⟩ := B64.rnd_fin hr
    have hp := B64.two_zpow_pos (-1074)
    set d : ℚ := (2 : ℚ) ^ (-1074 : ℤ)
    have hd : ∀ s : ℤ, |s| < 2 ^ 53 → IsB64 (s * d) := fun s hs => ⟨s, -1074, rfl, hs, le_rfl, by norm_num⟩
    rcases lt_trichotomy m 0 with hm | rfl | hm
    · have := hn _ (hd (-1) (by norm_num))
      have hm' : (m : ℚ) ≤ -1 := by exact_mod_cast (by omega : m ≤ -1)
      have h1 : (m : ℚ) * d ≤ -d := by nlinarith
      rw [abs_of_nonneg (by linarith), abs_of_nonneg (by push_cast; linarith)] at this
      push_cast at this; linarith
    · simp
    · have := hn _ (hd 1 (by norm_num))
      have hm' : (1 : ℚ) ≤ m := by exact_mod_cast (by omega : 1 ≤ m)
      have h1 : d ≤ (m : ℚ) * d := by nlinarith
      rw [abs_of_nonpos (by linarith), abs_of_nonpos (by push_cast; linarith)] at this
      push_cast at this; linarith
  · rintro rfl; simp [B64.rnd]

theorem rnd_sign {q : ℚ} (h3 : B64.rnd q = .fin 0 ↔ q = 0) :
    ((D.fin 0).lt (B64.rnd q) = true ↔ 0 < q) ∧ ((B64.rnd q).lt (.fin 0) = true ↔ q < 0) := by
  have z0 : B64.rnd 0 = .fin 0 := by simp [B64.rnd]
  have hnn := B64.rnd_ne_nan q
  have pos : D.lt (.fin 0) (B64.rnd q) = true ↔ 0 < q := by
    constructor
    · intro hlt
      by_contra hq
      have := b64_mono q 0 (not_lt.1 hq)
      rw [z0] at this
      have h4 := D.lt_of_lt_of_le hlt this
      exact absurd h4 (by simp)
    · intro hq
      have h4 := b64_mono 0 q hq.le
      rw [z0] at h4
      have h5 : B64.rnd q ≠ .fin 0 := fun e => hq.ne' (h3.1 e)
      cases hr : B64.rnd q with
      | nan => exact absurd hr hnn
      | fin r =>
        rw [hr, D.le_fin, decide_eq_true_eq] at h4
        rw [hr] at h5
        rw [D.lt_fin, decide_eq_true_eq]
        exact lt_of_le_of_ne h4 fun e => h5 (by rw [← e])
      | pinf => rfl
      | ninf => rw [hr] at h4; exact absurd h4 (by decide)
  have neg : D.lt (B64.rnd q) (.fin 0) = true ↔ q < 0 := by
    constructor
    · intro hlt
      by_contra hq
      have := b64_mono 0 q (not_lt.1 hq)
      rw [z0] at this
      have h4 := D.lt_of_le_of_lt this hlt
      exact absurd h4 (by simp)
    · intro hq
      have h4 := b64_mono q 0 hq.le
      rw [z0] at h4
      have h5 : B64.rnd q ≠ .fin 0 := fun e => hq.ne (h3.1 e)
      cases hr : B64.rnd q with
      | nan => exact absurd hr hnn
      | fin r =>
        rw [hr, D.le_fin, decide_eq_true_eq] at h4
        rw [hr] at h5
        rw [D.lt_fin, decide_eq_true_eq]
        exact lt_of_le_of_ne h4 fun e => h5 (by rw [e])
      | ninf => rfl
      | pinf => rw [hr] at h4; exact absurd h4 (by decide)
  exact ⟨pos, neg⟩

/-- The inclusion of the binary64 carrier into the real numbers. -/
noncomputable def b64Cast : B64 →+* ℝ := Rat.castHom ℝ

theorem b64Cast_strictMono : StrictMono b64Cast := Rat.cast_strictMono (K := ℝ)

/-! ## C86 -/

/-- **C86.** In binary64 arithmetic: if the trace consists of finite doubles, the bounds of the predicates
are finite doubles and all signals end at the same time, then at each instant at which all signals used have
a sample, the computed robustness (if any is returned) has exactly one sample, and its value is the
dense-time robustness over the real numbers, correctly rounded.  It is zero only if the robustness is. -/
theorem C86_correctly_rounded (nd : Bool) (fuel : Nat) (phi : Expr B64) (trace : Trace B64) (sy : Bool)
    (hp : Layered (fun c : B64 => IsB64 c) phi) (ht : FiniteTimes trace) (T t : B64)
    (sig : String → List (B64 × B64))
    (hs : ∀ n, Uses n phi → (∃ x, trace.lookup n = some x ∧ Represents x (sig n)) ∧
      (∃ v, (sig n).getLast? = some (T, v)) ∧ (∀ p ∈ sig n, IsB64 p.2) ∧ t ∈ (sig n).map Prod.fst)
    (z : Signal B64) (h : computeRobustness nd fuel phi trace sy = .ok z) :
    ∃ q : ℚ, ((q : ℝ) : EReal) =
        rob (b64Cast T) (fun n => eval (castPts b64Cast (sig n))) (castExpr b64Cast phi) (b64Cast t) ∧
      HasSample z (.fin t) (B64.rnd q) ∧ (B64.rnd q = .fin 0 ↔ q = 0) := by
  obtain ⟨q, h1, h2, h3⟩ := layered_rounded b64Cast_strictMono (P := fun q : B64 => TinyMultiple q) (fun _ => tinyMultiple_neg)
    ⟨nd, fuel, (minMaxTime trace).1, (minMaxTime trace).2, trace⟩ ht (minMaxTime_fin ht) T t sig phi hp
    (fun n hn => by
      obtain ⟨⟨x, h1, h2⟩, h3, h4, h5⟩ := hs n hn
      refine ⟨⟨x, h1, h2⟩, ?_, h3, fun p hp c hc => ?_, h5⟩
      · obtain ⟨hw, he⟩ := h2
        have := (ordered_iff _).1 hw.1
        rw [he] at this
        exact (incr_lift _).1 this
      · have h6 := tinyMultiple_of_isB64 (h4 p hp)
        have h7 := tinyMultiple_of_isB64 hc
        exact ⟨tinyMultiple_sub h6 h7, tinyMultiple_sub h7 h6⟩) z h
  exact ⟨q, h3, h2, rnd_zero_iff h1⟩

/-- **C86.** For Not, Always and Eventually around a predicate the robustness is always returned, has the
timestamps of the signal, and all its samples are correctly rounded. -/
theorem C86_chain (nd : Bool) (fuel : Nat) (phi : Expr B64) (trace : Trace B64) (sy : Bool)
    (hp : Chain (fun c : B64 => IsB64 c) phi) (T : B64) (sig : String → List (B64 × B64))
    (hs : ∀ n, Uses n phi → (∃ x, trace.lookup n = some x ∧ Represents x (sig n)) ∧
      ∃ v, (sig n).getLast? = some (T, v)) :
    ∃ (z : Signal B64) (n : String) (zs : List (B64 × B64)),
      computeRobustness nd fuel phi trace sy = .ok z ∧ Uses n phi ∧
      zs.map Prod.fst = (sig n).map Prod.fst ∧
      z.samples.map tv = zs.map (fun p => (.fin p.1, B64.rnd p.2)) ∧
      ∀ p ∈ zs, ((b64Cast p.2 : ℝ) : EReal) =
        rob (b64Cast T) (fun n => eval (castPts b64Cast (sig n))) (castExpr b64Cast phi) (b64Cast p.1) := by
  obtain ⟨z, -, h1, -⟩ := chain_total ⟨nd, fuel, (minMaxTime trace).1, (minMaxTime trace).2, trace⟩ sig phi hp
    fun n hn => ⟨(hs n hn).1, fun h => by obtain ⟨v, hv⟩ := (hs n hn).2; rw [h] at hv; simp at hv⟩
  obtain ⟨n, zs, h2, h3, h4, h5, -⟩ := chain_rounded b64Cast_strictMono (C := fun c : B64 => IsB64 c)
    (P := fun _ => True) (fun _ _ => trivial) ⟨nd, fuel, (minMaxTime trace).1, (minMaxTime trace).2, trace⟩ T sig
    phi hp (fun n hn => by
      obtain ⟨⟨x, h1, h2⟩, h3⟩ := hs n hn
      refine ⟨⟨x, h1, h2⟩, ?_, h3, fun _ _ _ _ => ⟨trivial, trivial⟩⟩
      have := (ordered_iff _).1 h2.1.1
      rw [h2.2] at this
      exact (incr_lift _).1 this) z h1
  exact ⟨z, n, zs, h1, h2, h3, h4, fun p hp => h5.1 (b64Cast p.1, b64Cast p.2) (List.mem_map.2 ⟨p, hp, rfl⟩)⟩

/-- **C86.** So both verdicts are right in binary64: at such an instant a positive value means that the
formula is satisfied by the piecewise linear signals over the real numbers, a negative value that it is
not. -/
theorem C86_verdicts (nd : Bool) (fuel : Nat) (phi : Expr B64) (trace : Trace B64) (sy : Bool)
    (hp : Layered (fun c : B64 => IsB64 c) phi) (ht : FiniteTimes trace) (T t : B64)
    (sig : String → List (B64 × B64))
    (hs : ∀ n, Uses n phi → (∃ x, trace.lookup n = some x ∧ Represents x (sig n)) ∧
      (∃ v, (sig n).getLast? = some (T, v)) ∧ (∀ p ∈ sig n, IsB64 p.2) ∧ t ∈ (sig n).map Prod.fst)
    (z : Signal B64) (h : computeRobustness nd fuel phi trace sy = .ok z) :
    ∃ v : D B64, HasSample z (.fin t) v ∧ v ≠ .nan ∧
      (D.lt 0 v = true ↔ 0 <
        rob (b64Cast T) (fun n => eval (castPts b64Cast (sig n))) (castExpr b64Cast phi) (b64Cast t)) ∧
      (v.lt 0 = true ↔
        rob (b64Cast T) (fun n => eval (castPts b64Cast (sig n))) (castExpr b64Cast phi) (b64Cast t) < 0) ∧
      (D.lt 0 v = true →
        Sat (b64Cast T) (fun n => eval (castPts b64Cast (sig n))) (castExpr b64Cast phi) (b64Cast t)) ∧
      (v.lt 0 = true →
        ¬ Sat (b64Cast T) (fun n => eval (castPts b64Cast (sig n))) (castExpr b64Cast phi) (b64Cast t)) := by
  obtain ⟨q, h1, h2, h3⟩ := C86_correctly_rounded nd fuel phi trace sy hp ht T t sig hs z h
  have hnn := B64.rnd_ne_nan q
  obtain ⟨pos, neg⟩ := rnd_sign h3
  have hpos : 0 < q ↔ (0 : EReal) < ((q : ℝ) : EReal) := by
    rw [EReal.coe_pos]; exact Rat.cast_pos.symm
  have hneg : q < 0 ↔ ((q : ℝ) : EReal) < 0 := by
    rw [EReal.coe_neg']; exact Rat.cast_lt_zero.symm
  refine ⟨B64.rnd q, h2, hnn, ?_, ?_, fun h => ?_, fun h => ?_⟩
  · rw [← h1, ← hpos]; exact pos
  · rw [← h1, ← hneg]; exact neg
  · exact (rob_sat _ _ _ _).1 (by rw [← h1, ← hpos]; exact pos.1 h)
  · exact (rob_sat _ _ _ _).2 (by rw [← h1, ← hneg]; exact neg.1 h)

/-! Concrete cases meeting the hypotheses: the trace of C64 and the formula
`G (x >= -4) and not F (x >= 0.1)`, where 0.1 is the double `3602879701896397 * 2^-55`. -/

def exRounded : Expr B64 :=
  .and [.Always (.pred "x" .GE (.fin (-4 : ℚ))),
    .not (.Eventually (.pred "x" .GE (.fin (3602879701896397 / 2 ^ 55 : ℚ))))]

theorem isB64_tenth : IsB64 (3602879701896397 / 2 ^ 55) :=
  ⟨3602879701896397, -55, by rw [zpow_neg, div_eq_mul_inv]; norm_cast, by norm_num, by norm_num, by norm_num⟩

theorem isB64_int (n : ℤ) (h : |n| < 2 ^ 53) : IsB64 n :=
  ⟨n, 0, by simp, h, by norm_num, by norm_num⟩

example : Layered (fun c : B64 => IsB64 c) exRounded := by
  refine .and (by simp) fun e he => ?_
  simp only [List.mem_cons, List.not_mem_nil, or_false] at he
  rcases he with rfl | rfl
  · exact .chain (.always (.pred _ _ (by exact_mod_cast isB64_int (-4) (by norm_num))))
  · exact .not (.chain (.eventually (.pred _ _ isB64_tenth)))
example : Represents (ofPts (K := B64) [((0 : ℚ), (1 : ℚ)), (1, 3602879701896397 / 2 ^ 55), (2, -3)])
    [((0 : ℚ), (1 : ℚ)), (1, 3602879701896397 / 2 ^ 55), (2, -3)] := by
  constructor
  · rw [wf_iff]; exact ⟨_, (incr_lift _).2 (by unfold Increasing; decide +kernel), rfl⟩
  · exact build_map_tv _
/-- The robustness at time 0 is `0.1 - 1`, which is not a double; the computed value is its rounding. -/
example : (computeRobustness (K := B64) false 0 exRounded exB64 false).map'
      (fun z => z.samples.head?.map tv) =
      .ok (some (.fin (0 : ℚ), B64.rnd (3602879701896397 / 2 ^ 55 - 1))) ∧
    B64.rnd (3602879701896397 / 2 ^ 55 - 1) = .fin (-8106479329266893 / 2 ^ 53) ∧
    (-8106479329266893 / 2 ^ 53 : ℚ) ≠ 3602879701896397 / 2 ^ 55 - 1 := by decide +kernel

end Verif
