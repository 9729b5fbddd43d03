import Verif.Props.Recordings
import Verif.Props.Extend

/-!
# C137: verdicts on the beginning of a trace are final

C79 is false: a longer trace can raise the computed robustness of a safety formula.  By how much?  And what does the value
computed for the beginning of a trace say about what is still to come?  The bounds are the sampling errors of C131 (in
binary64: C132).
-/

set_option linter.unusedSectionVars false
set_option exponentiation.threshold 1100

namespace Verif
open Spec

theorem safety_actual {K : Type} [Field K] [LinearOrder K] {ι : K →+* ℝ} {pol : Bool} {e : Expr K} (h : Safety pol e) :
    Safety pol (actual (castExpr ι e)) := by
  induction h with
  | pred pol n op c => exact .pred _ _ _ _
  | not _ ih => exact .not ih
  | and hl _ ih =>
    rw [castExpr, castExprs_eq, actual, actuals_eq, List.map_map]
    refine .and (by simpa using hl) fun e he => ?_
    obtain ⟨a, ha, rfl⟩ := List.mem_map.1 he
    exact ih a ha
  | or hl _ ih =>
    rw [castExpr, castExprs_eq, actual, actuals_eq, List.map_map]
    refine .or (by simpa using hl) fun e he => ?_
    obtain ⟨a, ha, rfl⟩ := List.mem_map.1 he
    exact ih a ha
  | always _ _ ih => exact .always (.inl rfl) ih
  | eventually _ _ ih => exact .eventually (.inl rfl) ih

/-- The semantics on a prefix and on a continuation of nearly the same signals. -/
theorem rob_prefix {t0 T T' ε : ℝ} (hT : T ≤ T') {x y : String → ℝ → ℝ} {pol : Bool} {e : Expr ℝ} (hp : Plain e)
    (hsf : Safety pol e) (hc : ∀ n, Uses n e → ∀ t ∈ Set.Icc t0 T, |x n t - y n t| ≤ ε) :
    ∀ t ∈ Set.Icc t0 T, (pol = true → rob T' y e t ≤ rob T x e t + ε) ∧
      (pol = false → rob T x e t ≤ rob T' y e t + ε) := by
  intro t ht
  have h := rob_longer hT (x := y) (y := y) hsf (fun _ _ _ _ => rfl) t ht
  have c1 := rob_close (d := ε) (t0 := t0) (T := T) hp (fun _ _ _ hi h => window_ge hi h) hc t ht
  have c2 := rob_close (d := ε) (t0 := t0) (T := T) hp (fun _ _ _ hi h => window_ge hi h)
    (fun n hn t ht => (abs_sub_comm _ _).trans_le (hc n hn t ht)) t ht
  exact ⟨fun hb => (h.1 hb).trans c2, fun hb => c1.trans (add_le_add_left (h.2 hb) _)⟩

section exact
variable {K : Type} [Field K] [LinearOrder K] [IsStrictOrderedRing K] [Arith K] [ExactArith K]

/-- **C137.**  The trace ends at `T`; `y` are any signals up to any later time `T'` that differ from it by at most `ε` up to
`T`.  A safety formula (with `[0, inf)` for its intervals) is worth at most the computed value plus `ε + d δ / 4` on them;
if the computed value is below `-(ε + d δ / 4)`, no continuation satisfies it.  For co-safety formulas the other way
round. -/
theorem C137_future {ι : K →+* ℝ} (hι : StrictMono ι) (nd : Bool) (fuel : Nat) (trace : Trace K) (sy : Bool)
    (t0 T δ : K) (hδ : 0 ≤ δ) (ε : ℝ) (sig : String → List (K × K)) (d : Nat) (phi : Expr K) (pol : Bool)
    (hp : Levels d phi) (hsf : Safety pol phi)
    (hs : ∀ n, Uses n phi → ∃ x, trace.lookup n = some x ∧ Represents x (sig n) ∧
      (∃ v r, sig n = (t0, v) :: r) ∧ ∃ v, (sig n).getLast? = some (T, v))
    (hst : ∀ n, Uses n phi → StepAtMost δ (sig n)) (ψ : Expr ℝ) (hψ : ψ = actual (castExpr ι phi)) (B : ℝ)
    (hB : B = ε + d * ι δ / 4) :
    ∃ z zs, computeRobustness nd fuel phi trace sy = .ok z ∧ Represents z zs ∧
      ∀ (T' : ℝ) (y : String → ℝ → ℝ), ι T ≤ T' →
        (∀ n, Uses n phi → ∀ t ∈ Set.Icc (ι t0) (ι T), |eval (castPts ι (sig n)) t - y n t| ≤ ε) →
        ∀ t ∈ Set.Icc (ι t0) (ι T),
          (pol = true → rob T' y ψ t ≤ ((eval (castPts ι zs) t + B : ℝ) : EReal) ∧
            (eval (castPts ι zs) t < -B → ¬ Sat T' y ψ t)) ∧
          (pol = false → ((eval (castPts ι zs) t - B : ℝ) : EReal) ≤ rob T' y ψ t ∧
            (B < eval (castPts ι zs) t → Sat T' y ψ t)) := by
  subst hψ hB
  obtain ⟨z, zs, e1, hz, h1⟩ := C131_any hι nd fuel trace sy t0 T δ hδ sig d phi hp hs hst
  refine ⟨z, zs, e1, hz, fun T' y hT hc t ht => ?_⟩
  obtain ⟨r, k1, k2⟩ := h1 t ht
  have hpl := (levels_cast hι hp).plain
  have c := rob_prefix hT (actual_plain hpl) (safety_actual hsf)
    (fun n hn t ht => hc n (uses_cast (uses_actual hpl hn)) t ht) t ht
  rw [k1] at c
  have a := abs_le.1 k2
  constructor
  · intro hb
    have h : rob T' y (actual (castExpr ι phi)) t ≤ ((eval (castPts ι zs) t + (ε + d * ι δ / 4) : ℝ) : EReal) :=
      (c.1 hb).trans (by rw [← EReal.coe_add, EReal.coe_le_coe_iff]; linarith)
    exact ⟨h, fun hn => (rob_sat _ _ _ t).2 (h.trans_lt (EReal.coe_neg'.2 (by linarith)))⟩
  · intro hb
    have h : ((eval (castPts ι zs) t - (ε + d * ι δ / 4) : ℝ) : EReal) ≤ rob T' y (actual (castExpr ι phi)) t := by
      have h' := EReal.sub_le_of_le_add (c.2 hb)
      refine le_trans ?_ h'
      rw [← EReal.coe_sub, EReal.coe_le_coe_iff]
      linarith
    exact ⟨h, fun hn => (rob_sat _ _ _ t).1 (lt_of_lt_of_le (EReal.coe_pos.2 (by linarith)) h)⟩

/-- **C137, computed values.**  The second trace is longer, and up to the end of the first its signals differ by at most
`ε`.  The computed values of a safety formula rise by at most `ε + d (δ + δ') / 4`, those of a co-safety formula fall by
at most that. -/
theorem C137_longer {ι : K →+* ℝ} (hι : StrictMono ι) (nd : Bool) (fuel : Nat) (trace trace' : Trace K) (sy : Bool)
    (t0 T T' δ δ' : K) (hT : T ≤ T') (hδ : 0 ≤ δ) (hδ' : 0 ≤ δ') (ε : ℝ) (sig sig' : String → List (K × K)) (d : Nat)
    (phi : Expr K) (pol : Bool) (hp : Levels d phi) (hsf : Safety pol phi)
    (hs : ∀ n, Uses n phi → ∃ x, trace.lookup n = some x ∧ Represents x (sig n) ∧
      (∃ v r, sig n = (t0, v) :: r) ∧ ∃ v, (sig n).getLast? = some (T, v))
    (hs' : ∀ n, Uses n phi → ∃ x, trace'.lookup n = some x ∧ Represents x (sig' n) ∧
      (∃ v r, sig' n = (t0, v) :: r) ∧ ∃ v, (sig' n).getLast? = some (T', v))
    (hst : ∀ n, Uses n phi → StepAtMost δ (sig n)) (hst' : ∀ n, Uses n phi → StepAtMost δ' (sig' n))
    (hc : ∀ n, Uses n phi → ∀ t ∈ Set.Icc (ι t0) (ι T), |eval (castPts ι (sig n)) t - eval (castPts ι (sig' n)) t| ≤ ε) :
    ∃ z zs w ws, computeRobustness nd fuel phi trace sy = .ok z ∧ Represents z zs ∧
      computeRobustness nd fuel phi trace' sy = .ok w ∧ Represents w ws ∧ ∀ t ∈ Set.Icc (ι t0) (ι T),
        (pol = true → eval (castPts ι ws) t ≤ eval (castPts ι zs) t + (ε + d * (ι δ + ι δ') / 4)) ∧
        (pol = false → eval (castPts ι zs) t ≤ eval (castPts ι ws) t + (ε + d * (ι δ + ι δ') / 4)) := by
  obtain ⟨z, zs, e1, hz, h1⟩ := C131_any hι nd fuel trace sy t0 T δ hδ sig d phi hp hs hst
  obtain ⟨w, ws, e2, hw, h2⟩ := C131_any hι nd fuel trace' sy t0 T' δ' hδ' sig' d phi hp hs' hst'
  refine ⟨z, zs, w, ws, e1, hz, e2, hw, fun t ht => ?_⟩
  have hT' : ι T ≤ ι T' := hι.monotone hT
  obtain ⟨r, k1, k2⟩ := h1 t ht
  obtain ⟨r', k3, k4⟩ := h2 t ⟨ht.1, ht.2.trans hT'⟩
  have hpl := (levels_cast hι hp).plain
  have c := rob_prefix hT' (actual_plain hpl) (safety_actual hsf)
    (fun n hn t ht => hc n (uses_cast (uses_actual hpl hn)) t ht) t ht
  rw [k1, k3, ← EReal.coe_add, ← EReal.coe_add, EReal.coe_le_coe_iff, EReal.coe_le_coe_iff] at c
  have a := abs_le.1 k2
  have b := abs_le.1 k4
  have e : (d : ℝ) * (ι δ + ι δ') / 4 = d * ι δ / 4 + d * ι δ' / 4 := by ring
  rw [e]
  exact ⟨fun hb => by have := c.1 hb; linarith, fun hb => by have := c.2 hb; linarith⟩

end exact

/-- **C137, binary64** (formulas without And and Or). -/
theorem C137_binary64 (nd : Bool) (fuel : Nat) (sy : Bool) (tr : List (String × List (ℚ × ℚ))) (V C t0 T δ : ℚ) (ε : ℝ)
    (n d : ℕ) (phi : Expr ℚ) (pol : Bool) (sig : String → List (ℚ × ℚ)) (hδ : 0 ≤ δ) (htr : Steady V tr)
    (hphi : UntilOnly C n phi) (hp : Levels d phi) (hsf : Safety pol phi)
    (h0 : 1 / 2 ^ 900 ≤ V + C) (h1 : V + C ≤ 2 ^ 899) (hn : n < 2 ^ 48)
    (hs : ∀ m, Uses m phi → tr.lookup m = some (sig m) ∧ (∃ v r, sig m = (t0, v) :: r) ∧
      ∃ v, (sig m).getLast? = some (T, v))
    (hst : ∀ m, Uses m phi → StepAtMost δ (sig m)) (ψ : Expr ℝ) (hψ : ψ = actual (castExpr (Rat.castHom ℝ) phi)) (B : ℝ)
    (hB : B = ε + d * δ / 4 + (n + 1) / 2 ^ 48 * (V + C)) :
    ∃ (z : Signal B64) (zs : List (ℚ × ℚ)),
      computeRobustness (K := B64) nd fuel phi (tr.map fun e => (e.1, ofPts (K := B64) e.2)) sy = .ok z ∧
      Represents (K := B64) z zs ∧ ∀ (T' : ℝ) (y : String → ℝ → ℝ), (T : ℝ) ≤ T' →
        (∀ m, Uses m phi → ∀ t ∈ Set.Icc (t0 : ℝ) T, |eval (castPts (Rat.castHom ℝ) (sig m)) t - y m t| ≤ ε) →
        ∀ t ∈ Set.Icc (t0 : ℝ) T,
          (pol = true → rob T' y ψ t ≤ ((eval (castPts (Rat.castHom ℝ) zs) t + B : ℝ) : EReal) ∧
            (eval (castPts (Rat.castHom ℝ) zs) t < -B → ¬ Sat T' y ψ t)) ∧
          (pol = false → ((eval (castPts (Rat.castHom ℝ) zs) t - B : ℝ) : EReal) ≤ rob T' y ψ t ∧
            (B < eval (castPts (Rat.castHom ℝ) zs) t → Sat T' y ψ t)) := by
  subst hψ hB
  obtain ⟨z, zs, e1, hz, -, k⟩ := C132_error nd fuel sy tr V C t0 T δ n d phi sig hδ htr hphi hp h0 h1 hn hs hst
    _ _ _ rfl rfl rfl
  refine ⟨z, zs, e1, hz, fun T' y hT hc t ht => ?_⟩
  obtain ⟨⟨r, k1, k2⟩, -⟩ := k t ht
  have hpl := (levels_cast B64.rat_mono hp).plain
  have c := rob_prefix hT (actual_plain hpl) (safety_actual hsf)
    (fun n hn t ht => hc n (uses_cast (uses_actual hpl hn)) t ht) t ht
  rw [k1] at c
  have a := abs_le.1 k2
  constructor
  · intro hb
    have h : rob T' y (actual (castExpr (Rat.castHom ℝ) phi)) t ≤
        ((eval (castPts (Rat.castHom ℝ) zs) t + (ε + d * δ / 4 + (n + 1) / 2 ^ 48 * (V + C)) : ℝ) : EReal) :=
      (c.1 hb).trans (by rw [← EReal.coe_add, EReal.coe_le_coe_iff]; linarith)
    exact ⟨h, fun hn => (rob_sat _ _ _ t).2 (h.trans_lt (EReal.coe_neg'.2 (by linarith)))⟩
  · intro hb
    have h : ((eval (castPts (Rat.castHom ℝ) zs) t - (ε + d * δ / 4 + (n + 1) / 2 ^ 48 * (V + C)) : ℝ) : EReal) ≤
        rob T' y (actual (castExpr (Rat.castHom ℝ) phi)) t := by
      have h' := EReal.sub_le_of_le_add (c.2 hb)
      refine le_trans ?_ h'
      rw [← EReal.coe_sub, EReal.coe_le_coe_iff]
      linarith
    exact ⟨h, fun hn => (rob_sat _ _ _ t).1 (lt_of_lt_of_le (EReal.coe_pos.2 (by linarith)) h)⟩

/-! ## Concrete cases -/

/-- `G (x >= 7)`. -/
def prefPhi : Expr ℚ := .always (.pred "x" .GE (.fin 7)) ⟨.dbl 0, .dbl .pinf⟩

theorem prefPhi_uses {m : String} (h : Uses m prefPhi) : m = "x" := by
  cases h with | always h => cases h; rfl

theorem prefPhi_levels : Levels 1 prefPhi := .always (.inl rfl) (.pred _ _ _ _)
theorem prefPhi_safety : Safety true prefPhi := .always (.inl rfl) (.pred _ _ _ _)

/-- `C137_future`: no continuation of `recX` satisfies `G (x >= 7)`. -/
example (T' : ℝ) (y : String → ℝ → ℝ) (hT : 2 ≤ T')
    (hy : ∀ t ∈ Set.Icc (0 : ℝ) 2, eval (castPts (Rat.castHom ℝ) recX) t = y "x" t) :
    ¬ Sat T' y (actual (castExpr (Rat.castHom ℝ) prefPhi)) 0 := by
  obtain ⟨z, zs, e, hz, h⟩ := C137_future B64.rat_mono false 0 [("x", ofPts recX)] false 0 2 4 (by norm_num) 0 (fun _ => recX) 1
    prefPhi true prefPhi_levels prefPhi_safety
    (fun m hm => by
      obtain rfl := prefPhi_uses hm
      exact ⟨_, rfl, represents_ofPts (by simp [Increasing, recX]), ⟨_, _, rfl⟩, _, rfl⟩)
    (fun _ _ => rec_steps.1) _ rfl 1 (by norm_num)
  have hv : computeRobustness false 0 prefPhi [("x", ofPts recX)] false = .ok (ofPts [(0, -6), (1, -4), (2, -4)]) := by
    decide +kernel
  rw [hv, Outcome.ok.injEq] at e
  subst e
  obtain rfl := represents_unique' hz (represents_ofPts (by unfold Increasing; decide +kernel))
  refine ((h T' y (by simpa using hT) ?_ 0 (by simp)).1 rfl).2 ?_
  · intro m hm t ht
    obtain rfl := prefPhi_uses hm
    rw [hy t (by simpa using ht), sub_self, abs_zero]
  · simp only [castPts, List.map_cons, List.map_nil, eval, line]
    norm_num

/-- One more sample after `recX`. -/
def recLong : List (ℚ × ℚ) := [(0, 1), (1, 5), (2, 3), (3, 6)]

/-- The hypotheses of `C137_longer`. -/
example (nd : Bool) : ∃ z zs w ws, computeRobustness nd 0 prefPhi [("x", ofPts recX)] false = .ok z ∧ Represents z zs ∧
    computeRobustness nd 0 prefPhi [("x", ofPts recLong)] false = .ok w ∧ Represents w ws ∧ ∀ t ∈ Set.Icc (0 : ℝ) 2,
      eval (castPts (Rat.castHom ℝ) ws) t ≤ eval (castPts (Rat.castHom ℝ) zs) t + 2 := by
  obtain ⟨z, zs, w, ws, e1, hz, e2, hw, h⟩ := C137_longer B64.rat_mono nd 0 [("x", ofPts recX)] [("x", ofPts recLong)] false
    0 2 3 4 4 (by norm_num) (by norm_num) (by norm_num) 0 (fun _ => recX) (fun _ => recLong) 1 prefPhi true prefPhi_levels
    prefPhi_safety
    (fun m hm => by
      obtain rfl := prefPhi_uses hm
      exact ⟨_, rfl, represents_ofPts (by simp [Increasing, recX]), ⟨_, _, rfl⟩, _, rfl⟩)
    (fun m hm => by
      obtain rfl := prefPhi_uses hm
      exact ⟨_, rfl, represents_ofPts (by unfold Increasing; decide +kernel), ⟨_, _, rfl⟩, _, rfl⟩)
    (fun _ _ => rec_steps.1)
    (fun _ _ => by
      simp only [StepAtMost, recLong, List.isChain_cons_cons, List.isChain_singleton, and_true, abs_le]; norm_num)
    (fun _ _ t ht => by
      have h2 : t ≤ 2 := by simpa using ht.2
      simp only [castPts, recX, recLong, List.map_cons, List.map_nil, eval, line]
      norm_num [h2])
  refine ⟨z, zs, w, ws, e1, hz, e2, hw, fun t ht => ((h t (by simpa using ht)).1 rfl).trans ?_⟩
  norm_num

/-- The hypotheses of `C137_binary64`. -/
example (nd : Bool) : ∃ (z : Signal B64) (zs : List (ℚ × ℚ)),
    computeRobustness (K := B64) nd 0 prefPhi [("x", ofPts (K := B64) recX)] false = .ok z ∧ Represents (K := B64) z zs ∧
    ∀ (T' : ℝ) (y : String → ℝ → ℝ), (2 : ℝ) ≤ T' →
      (∀ t ∈ Set.Icc (0 : ℝ) 2, |eval (castPts (Rat.castHom ℝ) recX) t - y "x" t| ≤ 1) →
      eval (castPts (Rat.castHom ℝ) zs) 0 < -(2 + 12 / 2 ^ 48) →
      ¬ Sat T' y (actual (castExpr (Rat.castHom ℝ) prefPhi)) 0 := by
  have b : ∀ n : ℤ, |n| < 2 ^ 53 → IsB64 (n : ℚ) := fun n h => ⟨n, 0, by simp, h, by norm_num, by norm_num⟩
  have b1 := b 1 (by norm_num)
  have b3 := b 3 (by norm_num)
  have b5 := b 5 (by norm_num)
  have b7 := b 7 (by norm_num)
  push_cast at b1 b3 b5 b7
  have t : ∀ n : ℤ, ∃ m : ℤ, (n / 2 : ℚ) = m / 2 ^ 100 := fun n => ⟨n * 2 ^ 99, by push_cast; ring⟩
  have t0 := t 0
  have t2 := t 2
  have t4 := t 4
  norm_num at t0 t2 t4
  have sx : Steady 5 [("x", recX)] := by
    intro e he
    simp only [List.mem_cons, List.not_mem_nil, or_false] at he
    subst he
    refine ⟨by simp [Increasing, recX], fun p hp => ?_⟩
    simp only [recX, List.mem_cons, List.not_mem_nil, or_false] at hp
    rcases hp with rfl | rfl | rfl <;> norm_num [b1, b3, b5, t0, t2, t4]
  obtain ⟨z, zs, e, hz, h⟩ := C137_binary64 nd 0 false [("x", recX)] 5 7 0 2 4 1 0 1 prefPhi true (fun _ => recX) (by norm_num)
    sx (.always (.pred "x" .GE b7 (by norm_num))) prefPhi_levels prefPhi_safety (by norm_num) (by norm_num) (by norm_num)
    (fun m hm => by obtain rfl := prefPhi_uses hm; exact ⟨rfl, ⟨_, _, rfl⟩, _, rfl⟩) (fun _ _ => rec_steps.1) _ rfl
    (2 + 12 / 2 ^ 48) (by norm_num)
  refine ⟨z, zs, e, hz, fun T' y hT hy hn => ((h T' y (by simpa using hT) ?_ 0 (by simp)).1 rfl).2 hn⟩
  intro m hm t ht
  obtain rfl := prefPhi_uses hm
  exact hy t (by simpa using ht)

end Verif
