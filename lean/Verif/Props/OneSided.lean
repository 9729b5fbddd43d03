import Verif.Proofs.OneSided
import Verif.Props.UntilB64
import Verif.Props.Rounding

/-!
# C128: violations of Until are reported rightly

The value that the code computes for Until is not the robustness (C32), and a positive value means nothing (it may be
computed although the second operand is never satisfied).  A negative value can be trusted: for formulas of predicates,
Not, Eventually and Until, nested in any way, with Eventually and Until below an even number of negations (and Always
below an odd number; without an interval Always and Eventually may be anywhere), and signals with the same timestamps, a
negative value at a sample means that the formula is
violated at this time, and negative values at two successive samples that it is violated in between.  The intervals are
arbitrary.  The same holds in binary64 for values below a small negative bound.
-/

namespace Verif
open Spec

section
variable {K : Type} [Field K] [LinearOrder K] [IsStrictOrderedRing K] [Arith K] [ExactArith K]

/-- **C128, upper bounds.**  The computed robustness is at least the dense-time robustness at all samples; between two
samples the dense-time robustness is at most the greater one of the values at these. -/
theorem C128_upper {ι : K →+* ℝ} (hι : StrictMono ι) (nd : Bool) (fuel : Nat) (trace : Trace K) (sy : Bool) (T : K)
    (ts : List K) (hT : ts.getLast? = some T) (sig : String → List (K × K)) (phi : Expr K) (hp : OneSided false phi)
    (hs : ∀ n, Uses n phi → ∃ x, trace.lookup n = some x ∧ Represents x (sig n) ∧ (sig n).map Prod.fst = ts) :
    ∃ z zs, computeRobustness nd fuel phi trace sy = .ok z ∧ Represents z zs ∧ zs.map Prod.fst = ts ∧
      (∀ p ∈ zs, rob (ι T) (fun n => eval (castPts ι (sig n))) (castExpr ι phi) (ι p.1) ≤ ((ι p.2 : ℝ) : EReal)) ∧
      ∀ l p q r, zs = l ++ p :: q :: r → ∀ t : ℝ, ι p.1 ≤ t → t ≤ ι q.1 →
        rob (ι T) (fun n => eval (castPts ι (sig n))) (castExpr ι phi) t ≤ ((max (ι p.2) (ι q.2) : ℝ) : EReal) := by
  obtain ⟨z, zs, h1, h2, h3, h4⟩ := oneSided_core hι nd fuel trace sy T ts hT sig hp hs
  unfold SideOf at h4
  simp only [Bool.false_eq_true, if_false] at h4
  have hi := ((represents_iff _ _).1 h2).1
  have hm : ∀ p ∈ zs, p.1 ∈ ts := fun p hp => h3 ▸ List.mem_map_of_mem hp
  refine ⟨z, zs, h1, h2, h3, fun p hp => ?_, ?_⟩
  · have := h4.at (hm p hp)
    rwa [eval_mem hi hp] at this
  · rintro l p q r rfl t g1 g2
    have hpp : p ∈ l ++ p :: q :: r := by simp
    have hqq : q ∈ l ++ p :: q :: r := by simp
    obtain ⟨i1, i2, i3⟩ := increasing_append.1 hi
    have hpq : p.1 < q.1 := (increasing_cons.1 i2).1 q (by simp)
    have := h4 p.1 (hm p hpp) q.1 (hm q hqq) hpq.le (by
      intro c hc
      rw [← h3] at hc
      obtain ⟨u, hu, rfl⟩ := List.mem_map.1 hc
      rcases List.mem_append.1 hu with hu | hu
      · exact .inl (i3 u hu p (by simp)).le
      · rcases List.mem_cons.1 hu with rfl | hu
        · exact .inl le_rfl
        · rcases List.mem_cons.1 hu with rfl | hu
          · exact .inr le_rfl
          · exact .inr ((increasing_cons.1 (increasing_cons.1 i2).2).1 u hu).le) t g1 g2
    rwa [eval_mem hi hpp, eval_mem hi hqq] at this

/-- **C128.**  A negative value at a sample means that the formula is violated at this time, and negative values at two
successive samples that it is violated between them. -/
theorem C128_violated {ι : K →+* ℝ} (hι : StrictMono ι) (nd : Bool) (fuel : Nat) (trace : Trace K) (sy : Bool) (T : K)
    (ts : List K) (hT : ts.getLast? = some T) (sig : String → List (K × K)) (phi : Expr K) (hp : OneSided false phi)
    (hs : ∀ n, Uses n phi → ∃ x, trace.lookup n = some x ∧ Represents x (sig n) ∧ (sig n).map Prod.fst = ts) :
    ∃ z zs, computeRobustness nd fuel phi trace sy = .ok z ∧ Represents z zs ∧ zs.map Prod.fst = ts ∧
      (∀ p ∈ zs, p.2 < 0 → ¬ Sat (ι T) (fun n => eval (castPts ι (sig n))) (castExpr ι phi) (ι p.1)) ∧
      ∀ l p q r, zs = l ++ p :: q :: r → p.2 < 0 → q.2 < 0 → ∀ t : ℝ, ι p.1 ≤ t → t ≤ ι q.1 →
        ¬ Sat (ι T) (fun n => eval (castPts ι (sig n))) (castExpr ι phi) t := by
  obtain ⟨z, zs, h1, h2, h3, h4, h5⟩ := C128_upper hι nd fuel trace sy T ts hT sig phi hp hs
  have neg : ∀ v : K, v < 0 → ι v < 0 := fun v hv => by simpa using hι hv
  refine ⟨z, zs, h1, h2, h3, fun p hp hn => ?_, fun l p q r e hn hn' t g1 g2 => ?_⟩
  · exact (rob_sat _ _ _ _).2 ((h4 p hp).trans_lt (EReal.coe_lt_coe_iff.2 (neg _ hn)))
  · exact (rob_sat _ _ _ _).2 ((h5 l p q r e t g1 g2).trans_lt
      (EReal.coe_lt_coe_iff.2 (max_lt (neg _ hn) (neg _ hn'))))

/-- **C128, the mirror image**: with the other parities a positive value means that the formula is satisfied, for
instance Not Until. -/
theorem C128_satisfied {ι : K →+* ℝ} (hι : StrictMono ι) (nd : Bool) (fuel : Nat) (trace : Trace K) (sy : Bool) (T : K)
    (ts : List K) (hT : ts.getLast? = some T) (sig : String → List (K × K)) (phi : Expr K) (hp : OneSided true phi)
    (hs : ∀ n, Uses n phi → ∃ x, trace.lookup n = some x ∧ Represents x (sig n) ∧ (sig n).map Prod.fst = ts) :
    ∃ z zs, computeRobustness nd fuel phi trace sy = .ok z ∧ Represents z zs ∧ zs.map Prod.fst = ts ∧
      ∀ p ∈ zs, ((ι p.2 : ℝ) : EReal) ≤ rob (ι T) (fun n => eval (castPts ι (sig n))) (castExpr ι phi) (ι p.1) ∧
        (0 < p.2 → Sat (ι T) (fun n => eval (castPts ι (sig n))) (castExpr ι phi) (ι p.1)) := by
  obtain ⟨z, zs, h1, h2, h3, h4⟩ := oneSided_core hι nd fuel trace sy T ts hT sig hp hs
  unfold SideOf at h4
  rw [if_pos rfl] at h4
  have hi := ((represents_iff _ _).1 h2).1
  refine ⟨z, zs, h1, h2, h3, fun p hp => ?_⟩
  have h5 := h4.at (h3 ▸ List.mem_map_of_mem hp)
  rw [eval_mem hi hp, map_neg, EReal.coe_neg, EReal.neg_le_neg_iff] at h5
  refine ⟨h5, fun h0 => (rob_sat _ _ _ _).1 (lt_of_lt_of_le ?_ h5)⟩
  exact EReal.coe_lt_coe_iff.2 (by simpa using hι h0)

end

/-- **C128 in binary64.**  The robustness is computed, and a value below `-(n + 1) 2^-48 (V + C)` at a sample means that
the formula is violated at this time (`V` bounds the values, `C` the constants, `n` is the nesting of Until). -/
theorem C128_binary64 (nd : Bool) (fuel : Nat) (phi : Expr ℚ) (sy : Bool) (tr : List (String × List (ℚ × ℚ))) (V C : ℚ)
    (n : ℕ) (ht : Steady V tr) (hphi : UntilOnly C n phi) (h0 : 1 / 2 ^ 900 ≤ V + C) (h1 : V + C ≤ 2 ^ 899)
    (hn : n < 2 ^ 48) (hp : OneSided false phi) (T : ℚ) (ts : List ℚ) (hT : ts.getLast? = some T)
    (sig : String → List (ℚ × ℚ)) (hs : ∀ m, Uses m phi → tr.lookup m = some (sig m) ∧ (sig m).map Prod.fst = ts) :
    ∃ (z : Signal B64) (zs : List (ℚ × ℚ)),
      computeRobustness (K := B64) nd fuel phi (tr.map fun e => (e.1, ofPts (K := B64) e.2)) sy = .ok z ∧
      Represents (K := B64) z zs ∧ zs.map Prod.fst = ts ∧
      ∀ t v : ℚ, (t, v) ∈ zs → v < -((n + 1) / 2 ^ 48 * (V + C)) →
        ¬ Sat T (fun m => eval (castPts (Rat.castHom ℝ) (sig m))) (castExpr (Rat.castHom ℝ) phi) t := by
  have hlook : ∀ (l : List (String × List (ℚ × ℚ))) (m : String) (pts : List (ℚ × ℚ)), l.lookup m = some pts →
      (l.map fun e => (e.1, ofPts e.2)).lookup m = some (ofPts pts) := by
    intro l m pts h
    induction l with
    | nil => simp at h
    | cons e l ih =>
      obtain ⟨a, b⟩ := e
      rw [List.lookup_cons] at h
      rw [List.map_cons, List.lookup_cons]
      cases hm : m == a with
      | true =>
        simp only [hm, Option.some.injEq] at h ⊢
        rw [h]
      | false =>
        simp only [hm] at h ⊢
        exact ih h
  have hmem : ∀ (l : List (String × List (ℚ × ℚ))) (m : String) (pts : List (ℚ × ℚ)), l.lookup m = some pts →
      ∃ e ∈ l, e.2 = pts := by
    intro l m pts h
    induction l with
    | nil => simp at h
    | cons e l ih =>
      obtain ⟨a, b⟩ := e
      rw [List.lookup_cons] at h
      cases hm : m == a with
      | true =>
        simp only [hm, Option.some.injEq] at h
        exact ⟨(a, b), by simp, h⟩
      | false =>
        simp only [hm] at h
        obtain ⟨e', h1, h2⟩ := ih h
        exact ⟨e', by simp [h1], h2⟩
  have hι : StrictMono (Rat.castHom ℝ) := Rat.cast_strictMono
  obtain ⟨w, ws, g1, g2, g3, g4, -⟩ := C128_upper hι nd fuel (tr.map fun e => (e.1, ofPts e.2)) sy T ts hT sig phi hp (by
    intro m hm
    obtain ⟨e1, e2⟩ := hs m hm
    obtain ⟨e, e3, e4⟩ := hmem _ _ _ e1
    exact ⟨_, hlook _ _ _ e1, represents_ofPts (e4 ▸ (ht e e3).1), e2⟩)
  have hpow : (V + C) * (1 + 1 / 2 ^ 49) ^ (n + 1) ≤ 2 ^ 900 := pow_bound h0 h1 hn
  obtain ⟨z, hz⟩ := (C127_ok nd fuel phi sy tr V C n ht hphi h0 hpow).2 ⟨w, g1⟩
  obtain ⟨w', zs, ws', k1, k2, k3, k4, k5⟩ := C127_linear nd fuel phi sy tr V C n ht hphi h0 h1 hn z hz
  rw [g1] at k1
  simp only [Outcome.ok.injEq] at k1; subst k1
  obtain rfl := represents_unique' k3 g2
  refine ⟨z, zs, hz, k2, k4.trans g3, fun t v hm hv => ?_⟩
  have iz : Increasing zs := ((represents_iff (K := B64) z zs).1 k2).1
  have iw : Increasing ws' := ((represents_iff _ _).1 g2).1
  have ht' : t ∈ ws'.map Prod.fst := k4 ▸ List.mem_map_of_mem hm
  obtain ⟨⟨t', u⟩, hu, rfl⟩ := List.mem_map.1 ht'
  have k6 := k5 _ (mem_dom_of_mem' hm)
  have e1 : eval zs t' = v := eval_mem (p := (t', v)) iz hm
  have e2 : eval ws' t' = u := eval_mem (p := (t', u)) iw hu
  simp only at k6 hm
  rw [e1, e2, abs_le] at k6
  have hu0 : u < 0 := by linarith [k6.1]
  exact (rob_sat _ _ _ _).2 ((g4 _ hu).trans_lt (EReal.coe_lt_coe_iff.2 (by simpa using hι hu0)))

/-! ## Cases meeting the hypotheses -/

/-- Three signals with the same timestamps. -/
def sideTrace : List (String × List (ℚ × ℚ)) :=
  [("x", [(0, -4), (1, -3), (5, -99)]), ("y", [(0, -99), (1, -5), (5, 1)]), ("z", [(0, -9), (1, -2), (5, 2)])]

/-- `always ((z >= 0) until ((x >= 0) until (y >= 0)))` -/
def sidePhi : Expr ℚ := .always (.untl (.pred "z" .GE (.fin 0))
  (.untl (.pred "x" .GE (.fin 0)) (.pred "y" .GE (.fin 0)) Interval.default) Interval.default) Interval.default

theorem sidePhi_side : OneSided false sidePhi :=
  .globally (.untl (.inl rfl) (.pred _ "z" .GE 0) (.untl (.inl rfl) (.pred _ "x" .GE 0) (.pred _ "y" .GE 0)))

/-- The signals of the trace. -/
def sideSig (n : String) : List (ℚ × ℚ) := (sideTrace.lookup n).getD []

theorem sideUses {n : String} (h : Uses n sidePhi) : n = "x" ∨ n = "y" ∨ n = "z" := by
  unfold sidePhi at h
  cases h with
  | always h =>
    cases h with
    | untl_left h => cases h; simp
    | untl_right h =>
      cases h with
      | untl_left h => cases h; simp
      | untl_right h => cases h; simp

/-- The computed values are `-1` at the first two samples, so the formula is violated up to the second one. -/
example (t : ℝ) (h0 : 0 ≤ t) (h1 : t ≤ 1) :
    ¬ Sat 5 (fun n => eval (castPts (Rat.castHom ℝ) (sideSig n))) (castExpr (Rat.castHom ℝ) sidePhi) t := by
  obtain ⟨z, zs, g1, g2, -, -, g5⟩ := C128_violated (ι := Rat.castHom ℝ) Rat.cast_strictMono false 0
    (sideTrace.map fun e => (e.1, ofPts e.2)) false 5 [0, 1, 5] rfl sideSig sidePhi sidePhi_side (by
      intro n hn
      rcases sideUses hn with rfl | rfl | rfl
      · exact ⟨_, rfl, represents_ofPts (by simp [Increasing, sideSig, sideTrace]), rfl⟩
      · refine ⟨_, rfl, represents_ofPts ?_, rfl⟩
        change Increasing [((0 : ℚ), (-99 : ℚ)), (1, -5), (5, 1)]
        simp [Increasing]
      · refine ⟨_, rfl, represents_ofPts ?_, rfl⟩
        change Increasing [((0 : ℚ), (-9 : ℚ)), (1, -2), (5, 2)]
        simp [Increasing])
  have e : computeRobustness false 0 sidePhi (sideTrace.map fun e => (e.1, ofPts e.2)) false =
      .ok (ofPts [(0, -1), (1, -1), (5, 2)]) := by decide +kernel
  rw [e] at g1
  simp only [Outcome.ok.injEq] at g1
  subst g1
  obtain rfl := represents_unique' g2 (represents_ofPts (by simp [Increasing]))
  have := g5 [] (0, -1) (1, -1) [(5, 2)] rfl (by norm_num) (by norm_num) t (by simpa using h0) (by simpa using h1)
  simpa using this

theorem sideTrace_steady : Steady 99 sideTrace := by
  have t : ∀ n : ℤ, ∃ m : ℤ, (n : ℚ) = m / 2 ^ 100 := fun n => ⟨n * 2 ^ 100, by push_cast; norm_num⟩
  have b : ∀ n : ℤ, |n| < 2 ^ 53 → IsB64 (n : ℚ) := fun n h => ⟨n, 0, by simp, h, by norm_num, by norm_num⟩
  have key : ∀ x y z : ℤ, |x| ≤ 99 → |y| ≤ 99 → |z| ≤ 99 →
      Increasing ([(0, (x : ℚ)), (1, (y : ℚ)), (5, (z : ℚ))] : List (ℚ × ℚ)) ∧
        ∀ p ∈ ([(0, (x : ℚ)), (1, (y : ℚ)), (5, (z : ℚ))] : List (ℚ × ℚ)),
          (∃ m : ℤ, p.1 = m / 2 ^ 100) ∧ |p.1| ≤ 2 ^ 100 ∧ IsB64 p.2 ∧ |p.2| ≤ 99 := by
    intro x y z hx hy hz
    have c : ∀ v : ℤ, |v| ≤ 99 → |(v : ℚ)| ≤ 99 := fun v hv => by exact_mod_cast hv
    refine ⟨by norm_num [Increasing], ?_⟩
    have t0 := t 0
    have t1 := t 1
    have t5 := t 5
    push_cast at t0 t1 t5
    simp only [List.mem_cons, List.not_mem_nil, or_false, forall_eq_or_imp, forall_eq]
    exact ⟨⟨t0, by norm_num, b x (hx.trans_lt (by norm_num)), c x hx⟩,
      ⟨t1, by norm_num, b y (hy.trans_lt (by norm_num)), c y hy⟩,
      t5, by norm_num, b z (hz.trans_lt (by norm_num)), c z hz⟩
  intro e he
  simp only [sideTrace, List.mem_cons, List.not_mem_nil, or_false] at he
  rcases he with rfl | rfl | rfl
  · have := key (-4) (-3) (-99) (by norm_num) (by norm_num) (by norm_num)
    push_cast at this; exact this
  · have := key (-99) (-5) 1 (by norm_num) (by norm_num) (by norm_num)
    push_cast at this; exact this
  · have := key (-9) (-2) 2 (by norm_num) (by norm_num) (by norm_num)
    push_cast at this; exact this

/-- The values computed in binary64 are the same, and are far below the bound. -/
example : ¬ Sat (5 : ℚ) (fun n => eval (castPts (Rat.castHom ℝ) (sideSig n))) (castExpr (Rat.castHom ℝ) sidePhi) (1 : ℚ) := by
  have b0 : IsB64 (0 : ℚ) := ⟨0, 0, by simp, by norm_num, by norm_num, by norm_num⟩
  obtain ⟨z, zs, g1, g2, -, g4⟩ := C128_binary64 false 0 sidePhi false sideTrace 99 0 2 sideTrace_steady
    (.always (.untl (.pred "z" .GE b0 (by norm_num))
      (.untl (.pred "x" .GE b0 (by norm_num)) (.pred "y" .GE b0 (by norm_num)))))
    (by rw [add_zero]; exact (div_le_one₀ (by positivity)).2 (one_le_pow₀ (by norm_num)) |>.trans (by norm_num))
    (by rw [add_zero]; exact (show (99 : ℚ) ≤ 2 ^ 7 by norm_num).trans (pow_le_pow_right₀ (by norm_num) (by norm_num)))
    (by norm_num) sidePhi_side 5 [0, 1, 5] rfl sideSig (by
      intro n hn
      rcases sideUses hn with rfl | rfl | rfl <;> exact ⟨rfl, rfl⟩)
  have e : computeRobustness (K := B64) false 0 sidePhi (sideTrace.map fun e => (e.1, ofPts (K := B64) e.2)) false =
      .ok (ofPts (K := B64) [(0, -1), (1, -1), (5, 2)]) := by decide +kernel
  rw [e] at g1
  simp only [Outcome.ok.injEq] at g1
  subst g1
  have hi : Increasing ([(0, -1), (1, -1), (5, 2)] : List (ℚ × ℚ)) := by simp [Increasing]
  have hr : Represents (K := B64) (ofPts (K := B64) [(0, -1), (1, -1), (5, 2)]) [(0, -1), (1, -1), (5, 2)] :=
    B64.represents_lq.2 ⟨hi, by decide +kernel⟩
  have hu : zs = ([(0, -1), (1, -1), (5, 2)] : List (ℚ × ℚ)) :=
    (List.map_injective_iff.2 (lift_injective (K := B64))) (g2.2.symm.trans hr.2)
  subst hu
  exact g4 1 (-1) (by simp) (by norm_num)

/-! ## The hypotheses are needed -/

/-- Signals with the same timestamps and an Until that is computed as `-1, 1, 0` at `0, 4, 5`. -/
def gapTrace : Trace ℚ := [("x", ofPts [(0, -4), (4, 36), (5, -99)]), ("y", ofPts [(0, -99), (4, 1), (5, 0)]),
  ("z", ofPts [(0, -99), (1, 1), (3 / 2, -99), (5, -99)])]

/-- The same signals over the reals. -/
noncomputable def gapSig (n : String) : List (ℝ × ℝ) :=
  if n = "x" then [(0, -4), (4, 36), (5, -99)]
  else if n = "y" then [(0, -99), (4, 1), (5, 0)]
  else [(0, -99), (1, 1), (3 / 2, -99), (5, -99)]

/-- `(x >= 0) until (y >= 0)` -/
def gapPhi (K : Type) [Field K] [LinearOrder K] : Expr K :=
  .untl (.pred "x" .GE (.fin 0)) (.pred "y" .GE (.fin 0)) Interval.default

/-- The Until holds at the time 1. -/
theorem gap_sat : Sat 5 (fun n => eval (gapSig n)) (gapPhi ℝ) 1 := by
  unfold gapPhi
  simp only [Sat]
  refine ⟨4, by rw [show (Interval.default : Interval ℝ) = ⟨.dbl 0, .dbl .pinf⟩ from rfl, window_default]; norm_num, ?_, fun u hu => ?_⟩
  · have : eval (gapSig "y") 4 = 1 := by
      rw [gapSig, if_neg (by decide), if_pos rfl]; norm_num [eval, line]
    simp [holds, this]
  · have h1 := hu.1
    have h2 := hu.2
    have : eval (gapSig "x") u = -4 + 10 * u := by
      norm_num [gapSig, eval, line, h2]; ring
    simp only [holds, this, D.le_fin, decide_eq_true_eq]
    linarith

/-- **C128: between two samples of different sign the sign of the interpolated value means nothing.**  The computed
value at the time 1 is `-1/2`, but the formula is satisfied there. -/
theorem C128_between_needed (nd : Bool) : ∃ zs : List (ℚ × ℚ),
    computeRobustness nd 0 (gapPhi ℚ) gapTrace false = .ok (ofPts zs) ∧ Increasing zs ∧ eval zs 1 < 0 ∧
    Sat 5 (fun n => eval (gapSig n)) (gapPhi ℝ) 1 := by
  refine ⟨[(0, -1), (4, 1), (5, 0)], by cases nd <;> decide +kernel, by norm_num [Increasing], ?_, gap_sat⟩
  norm_num [eval, line]

/-- **C128: the timestamps have to be the same.**  With another signal that has a sample at 1 the computed value of
`(z >= 0) until ((x >= 0) until (y >= 0))` is negative at this sample, but the formula is satisfied. -/
theorem C128_grid_needed (nd : Bool) : ∃ zs : List (ℚ × ℚ),
    computeRobustness nd 0 (.untl (.pred "z" .GE (.fin 0)) (gapPhi ℚ) Interval.default) gapTrace false = .ok (ofPts zs) ∧
    (1, -1 / 4) ∈ zs ∧
    Sat 5 (fun n => eval (gapSig n)) (.untl (.pred "z" .GE (.fin 0)) (gapPhi ℝ) Interval.default) 1 := by
  refine ⟨[(0, -1), (1, -1 / 4), (3 / 2, -1 / 4), (4, 1), (5, 0)], by cases nd <;> decide +kernel, by simp, ?_⟩
  rw [Sat]
  refine ⟨1, by rw [show (Interval.default : Interval ℝ) = ⟨.dbl 0, .dbl .pinf⟩ from rfl, window_default]; norm_num, gap_sat, fun u hu => ?_⟩
  obtain rfl : u = 1 := le_antisymm hu.2 hu.1
  have : eval (gapSig "z") 1 = 1 := by
    rw [gapSig, if_neg (by decide), if_neg (by decide)]; norm_num [eval, line]
  simp [Sat, holds, this]

end Verif
