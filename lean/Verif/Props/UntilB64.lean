import Verif.Proofs.UntilLock
import Verif.Props.AccuracySync

/-!
# C127: formulas without And and Or in binary64

Predicates, Not, Always, Eventually and Until, nested in any way.  The same formula is evaluated on the same trace with
the arithmetic of doubles and with exact arithmetic: one evaluation succeeds exactly if the other one does, the
timestamps of the results are the same, and the results differ by at most `(V + C) ((1 + 2^-49)^(n + 1) - 1)`, where `V`
bounds the values, `C` bounds the constants, and `n` is the number of operators Until that are nested.  The length of
the signals, the distances of the timestamps and the number of the other operators do not matter.
-/

namespace Verif
open Spec

/-- **C127, success.**  Rounding does not decide whether the robustness is computed. -/
theorem C127_ok (nd : Bool) (fuel : Nat) (phi : Expr ℚ) (sy : Bool) (tr : List (String × List (ℚ × ℚ))) (V C : ℚ) (n : ℕ)
    (ht : Steady V tr) (hphi : UntilOnly C n phi) (h0 : 1 / 2 ^ 900 ≤ V + C)
    (h1 : (V + C) * (1 + 1 / 2 ^ 49) ^ (n + 1) ≤ 2 ^ 900) :
    (∃ z : Signal B64, computeRobustness (K := B64) nd fuel phi (tr.map fun e => (e.1, ofPts (K := B64) e.2)) sy = .ok z) ↔
      ∃ w : Signal ℚ, computeRobustness nd fuel phi (tr.map fun e => (e.1, ofPts e.2)) sy = .ok w := by
  have h0' : (2 : ℚ) ^ (-900 : ℤ) ≤ V + C := (B64.two_neg 900).le.trans h0
  have h1' : (V + C) * (1 + 1 / 2 ^ 49) ^ (n + 1) ≤ (2 : ℚ) ^ (900 : ℤ) := by exact_mod_cast h1
  have h := fun a b c d => B64.lock rfl h0' ht ⟨nd, fuel, a, b, tr.map fun e => (e.1, ofPts (K := B64) e.2)⟩
    ⟨nd, fuel, c, d, tr.map fun e => (e.1, ofPts e.2)⟩ rfl rfl rfl hphi h1'
  rcases h _ _ _ _ with ⟨zs, ws, e1, e2, _⟩ | ⟨e1, e2⟩
  · exact ⟨fun _ => ⟨_, e2⟩, fun _ => ⟨_, e1⟩⟩
  · exact ⟨fun ⟨z, hz⟩ => absurd hz (e1 z), fun ⟨z, hz⟩ => absurd hz (e2 z)⟩

/-- **C127, accuracy.** -/
theorem C127_error (nd : Bool) (fuel : Nat) (phi : Expr ℚ) (sy : Bool) (tr : List (String × List (ℚ × ℚ))) (V C : ℚ) (n : ℕ)
    (ht : Steady V tr) (hphi : UntilOnly C n phi) (h0 : 1 / 2 ^ 900 ≤ V + C)
    (h1 : (V + C) * (1 + 1 / 2 ^ 49) ^ (n + 1) ≤ 2 ^ 900) (z : Signal B64) (w : Signal ℚ)
    (hz : computeRobustness (K := B64) nd fuel phi (tr.map fun e => (e.1, ofPts (K := B64) e.2)) sy = .ok z)
    (hw : computeRobustness nd fuel phi (tr.map fun e => (e.1, ofPts e.2)) sy = .ok w) :
    ∃ zs ws : List (ℚ × ℚ), Represents (K := B64) z zs ∧ Represents w ws ∧ zs.map Prod.fst = ws.map Prod.fst ∧
      dom zs = dom ws ∧ ∀ t ∈ dom zs, |eval zs t - eval ws t| ≤ (V + C) * ((1 + 1 / 2 ^ 49) ^ (n + 1) - 1) := by
  have h0' : (2 : ℚ) ^ (-900 : ℤ) ≤ V + C := (B64.two_neg 900).le.trans h0
  have h1' : (V + C) * (1 + 1 / 2 ^ 49) ^ (n + 1) ≤ (2 : ℚ) ^ (900 : ℤ) := by exact_mod_cast h1
  have h := fun a b c d => B64.lock rfl h0' ht ⟨nd, fuel, a, b, tr.map fun e => (e.1, ofPts (K := B64) e.2)⟩
    ⟨nd, fuel, c, d, tr.map fun e => (e.1, ofPts e.2)⟩ rfl rfl rfl hphi h1'
  rcases h _ _ _ _ with ⟨zs, ws, e1, e2, e3⟩ | ⟨e1, e2⟩
  · have ez : z = ofPts (K := B64) zs := Outcome.ok.inj (hz.symm.trans e1)
    have ew : w = ofPts ws := Outcome.ok.inj (hw.symm.trans e2)
    refine ⟨zs, ws, ?_, ?_, e3.close.times, dom_of_fst (K := ℚ) e3.close.times, fun t ht => e3.close.eval e3.inc ht⟩
    · exact (represents_iff (K := B64) z zs).2 ⟨e3.inc, ez⟩
    · exact (represents_iff w ws).2 ⟨e3.inc', ew⟩
  · exact absurd hz (e1 z)

theorem pow_linear : ∀ m : ℕ, m ≤ 2 ^ 48 → (1 + 1 / 2 ^ 49 : ℚ) ^ m - 1 ≤ m / 2 ^ 48 := by
  intro m
  induction m with
  | zero => intro _; norm_num
  | succ m ih =>
    intro hm
    have h1 := ih (by omega)
    have h2 : (m : ℚ) ≤ 2 ^ 48 := by exact_mod_cast (by omega : m ≤ 2 ^ 48)
    rw [pow_succ]
    push_cast
    nlinarith

theorem pow_bound {W : ℚ} {n : ℕ} (h0 : 1 / 2 ^ 900 ≤ W) (h1 : W ≤ 2 ^ 899) (hn : n < 2 ^ 48) :
    W * (1 + 1 / 2 ^ 49) ^ (n + 1) ≤ 2 ^ 900 := by
  have k := pow_linear (n + 1) (by omega)
  push_cast at k
  have h2 : (n : ℚ) + 1 ≤ 2 ^ 48 := by exact_mod_cast (by omega : n + 1 ≤ 2 ^ 48)
  have h3 : (1 + 1 / 2 ^ 49 : ℚ) ^ (n + 1) ≤ 2 := by linarith
  calc W * (1 + 1 / 2 ^ 49) ^ (n + 1) ≤ 2 ^ 899 * 2 := mul_le_mul h1 h3 (by positivity) (by positivity)
    _ = 2 ^ 900 := (pow_succ (2 : ℚ) 899).symm

/-- **C127, a bound that is linear in the depth.** -/
theorem C127_linear (nd : Bool) (fuel : Nat) (phi : Expr ℚ) (sy : Bool) (tr : List (String × List (ℚ × ℚ))) (V C : ℚ)
    (n : ℕ) (ht : Steady V tr) (hphi : UntilOnly C n phi) (h0 : 1 / 2 ^ 900 ≤ V + C) (h1 : V + C ≤ 2 ^ 899)
    (hn : n < 2 ^ 48) (z : Signal B64)
    (hz : computeRobustness (K := B64) nd fuel phi (tr.map fun e => (e.1, ofPts (K := B64) e.2)) sy = .ok z) :
    ∃ (w : Signal ℚ) (zs ws : List (ℚ × ℚ)),
      computeRobustness nd fuel phi (tr.map fun e => (e.1, ofPts e.2)) sy = .ok w ∧
      Represents (K := B64) z zs ∧ Represents w ws ∧ zs.map Prod.fst = ws.map Prod.fst ∧
      ∀ t ∈ dom zs, |eval zs t - eval ws t| ≤ (n + 1) / 2 ^ 48 * (V + C) := by
  have W0 : 0 ≤ V + C := le_trans (by positivity) h0
  have k := pow_linear (n + 1) (by omega)
  push_cast at k
  have h1' := pow_bound h0 h1 hn
  obtain ⟨w, hw⟩ := (C127_ok nd fuel phi sy tr V C n ht hphi h0 h1').1 ⟨z, hz⟩
  obtain ⟨zs, ws, e1, e2, e3, _, e5⟩ := C127_error nd fuel phi sy tr V C n ht hphi h0 h1' z w hz hw
  refine ⟨w, zs, ws, hw, e1, e2, e3, fun t ht => (e5 t ht).trans ?_⟩
  rw [mul_comm]
  exact mul_le_mul_of_nonneg_right k W0

/-- The trace of the example. -/
def untilTrace : List (String × List (ℚ × ℚ)) := [("x", syncX), ("y", syncY)]

theorem untilTrace_steady : Steady 2 untilTrace := by
  have t : ∀ n : ℤ, ∃ m : ℤ, (n : ℚ) = m / 2 ^ 100 := fun n => ⟨n * 2 ^ 100, by push_cast; norm_num⟩
  have b : ∀ n : ℤ, |n| < 2 ^ 53 → IsB64 (n : ℚ) := fun n h => ⟨n, 0, by simp, h, by norm_num, by norm_num⟩
  have t0 := t 0
  have t1 := t 1
  have t3 := t 3
  have b0 := b 0 (by norm_num)
  have b1 := b 1 (by norm_num)
  have b2 := b 2 (by norm_num)
  push_cast at t0 t1 t3 b0 b1 b2
  intro e he
  simp only [untilTrace, List.mem_cons, List.not_mem_nil, or_false] at he
  rcases he with rfl | rfl
  · refine ⟨by simp [Increasing, syncX], ?_⟩
    simp only [syncX, List.mem_cons, List.not_mem_nil, or_false, forall_eq_or_imp, forall_eq]
    exact ⟨⟨t0, by norm_num, b1, by norm_num⟩, t3, by norm_num, b0, by norm_num⟩
  · refine ⟨by simp [Increasing, syncY], ?_⟩
    simp only [syncY, List.mem_cons, List.not_mem_nil, or_false, forall_eq_or_imp, forall_eq]
    exact ⟨⟨t0, by norm_num, b0, by norm_num⟩, ⟨t1, by norm_num, b1, by norm_num⟩, t3, by norm_num, b2, by norm_num⟩

/-- Always (-y >= 0 until x >= 0), on signals with different timestamps. -/
def untilPhi : Expr ℚ := .always (.untl (.pred "y" .LE (.fin 0)) (.pred "x" .GE (.fin 0)) Interval.default) Interval.default

theorem untilPhi_only : UntilOnly 0 1 untilPhi := by
  have b0 : IsB64 (0 : ℚ) := ⟨0, 0, by simp, by norm_num, by norm_num, by norm_num⟩
  exact .always (.untl (.pred "y" .LE b0 (by norm_num)) (.pred "x" .GE b0 (by norm_num)))

theorem untilPhi_run (nd : Bool) : ∃ z : Signal B64,
    computeRobustness (K := B64) nd 0 untilPhi (untilTrace.map fun e => (e.1, ofPts (K := B64) e.2)) false = .ok z := by
  refine ⟨(match computeRobustness (K := B64) nd 0 untilPhi (untilTrace.map fun e => (e.1, ofPts (K := B64) e.2)) false with
    | .ok z => z
    | _ => .empty), ?_⟩
  cases nd <;> decide +kernel

example (nd : Bool) : ∃ (z : Signal B64) (w : Signal ℚ) (zs ws : List (ℚ × ℚ)),
    computeRobustness (K := B64) nd 0 untilPhi (untilTrace.map fun e => (e.1, ofPts (K := B64) e.2)) false = .ok z ∧
    computeRobustness nd 0 untilPhi (untilTrace.map fun e => (e.1, ofPts e.2)) false = .ok w ∧
    Represents (K := B64) z zs ∧ Represents w ws ∧ ∀ t ∈ dom zs, |eval zs t - eval ws t| ≤ 1 / 2 ^ 46 := by
  obtain ⟨z, hz⟩ := untilPhi_run nd
  obtain ⟨w, zs, ws, h1, h2, h3, _, h5⟩ := C127_linear nd 0 untilPhi false untilTrace 2 0 1 untilTrace_steady
    untilPhi_only
    (by rw [add_zero]; exact (div_le_one₀ (by positivity)).2 (one_le_pow₀ (by norm_num)) |>.trans (by norm_num))
    (by rw [add_zero]; exact le_self_pow₀ (by norm_num) (by norm_num)) (by norm_num) z hz
  refine ⟨z, w, zs, ws, hz, h1, h2, h3, fun t ht => (h5 t ht).trans (by norm_num)⟩

/-- Without a common sample at the begin of the overlap both evaluations fail. -/
example (nd : Bool) (sy : Bool) : ¬ ∃ z : Signal B64, computeRobustness (K := B64) nd 0 untilPhi
    ([("x", [(0, 1), (3, 0)]), ("y", [(1, 1), (2, 5)])].map fun e => (e.1, ofPts (K := B64) e.2)) sy = .ok z := by
  rintro ⟨z, hz⟩
  have : (match computeRobustness (K := B64) nd 0 untilPhi
      ([("x", [(0, 1), (3, 0)]), ("y", [(1, 1), (2, 5)])].map fun e => (e.1, ofPts (K := B64) e.2)) sy with
    | .ok _ => true
    | _ => false) = false := by cases nd <;> cases sy <;> decide +kernel
  rw [hz] at this
  cases this

/-- The value at the time 1 is 2/3 in exact arithmetic and is rounded in binary64, so the bound cannot be zero. -/
example : ∃ (z : Signal B64) (w : Signal ℚ),
    computeRobustness (K := B64) false 0 (.untl (.pred "y" .LE (.fin 0)) (.pred "x" .GE (.fin 0)) Interval.default)
      (untilTrace.map fun e => (e.1, ofPts (K := B64) e.2)) false = .ok z ∧
    computeRobustness false 0 (.untl (.pred "y" .LE (.fin 0)) (.pred "x" .GE (.fin 0)) Interval.default)
      (untilTrace.map fun e => (e.1, ofPts e.2)) false = .ok w ∧
    z.samples[1]?.map (·.value) = some (B64.fq (3002399751580331 / 2 ^ 52)) ∧
    w.samples[1]?.map (·.value) = some (.fin (2 / 3)) := by
  refine ⟨_, _, rfl, rfl, ?_, ?_⟩ <;> decide +kernel

end Verif
