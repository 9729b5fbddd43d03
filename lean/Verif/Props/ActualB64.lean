import Verif.Props.Actual
import Verif.Props.UntilB64
import Verif.Props.Transfer
import Verif.Proofs.MarginPair

/-!
# C131 for traces of any kind of numbers, and C132: doubles against dense time

C127 compares the evaluation in binary64 with the exact evaluation, C131 compares the exact evaluation of a real-valued
trace with the dense-time semantics.  Together they bound the whole error: of the sampling, of the rounding and, for
signals that are measured, of the measurements.
-/

set_option linter.unusedSectionVars false
set_option exponentiation.threshold 1100

namespace Verif
open Spec
open B64 (rpts rat_mono)

section any
variable {K : Type} [Field K] [LinearOrder K] [IsStrictOrderedRing K] [Arith K] [ExactArith K]

theorem levels_cast {ι : K →+* ℝ} (hι : StrictMono ι) {d : Nat} {e : Expr K} (h : Levels d e) :
    Levels d (castExpr ι e) := by
  induction h with
  | pred d n op c => exact .pred d n op (ι c)
  | not _ ih => exact .not ih
  | and hl _ ih =>
    rw [castExpr, castExprs_eq]
    refine .and (by simpa using hl) fun e he => ?_
    obtain ⟨a, ha, rfl⟩ := List.mem_map.1 he
    exact ih a ha
  | or hl _ ih =>
    rw [castExpr, castExprs_eq]
    refine .or (by simpa using hl) fun e he => ?_
    obtain ⟨a, ha, rfl⟩ := List.mem_map.1 he
    exact ih a ha
  | always hi _ ih => exact .always (castInterval_built hι hi) ih
  | eventually hi _ ih => exact .eventually (castInterval_built hι hi) ih
  | untl hi _ _ ih ih' => exact .untl (castInterval_built hι hi) ih ih'

theorem cast_abs {ι : K →+* ℝ} (hι : StrictMono ι) (a : K) : ι |a| = |ι a| := by
  rcases le_total 0 a with h | h
  · rw [abs_of_nonneg h, abs_of_nonneg (by simpa using hι.monotone h)]
  · rw [abs_of_nonpos h, abs_of_nonpos (by simpa using hι.monotone h), map_neg]

theorem step_cast {ι : K →+* ℝ} (hι : StrictMono ι) {δ : K} {pts : List (K × K)} (h : StepAtMost δ pts) :
    StepAtMost (ι δ) (castPts ι pts) := by
  unfold StepAtMost castPts at *
  rw [List.isChain_map]
  refine h.imp fun p q hpq => ?_
  have := hι.monotone hpq
  rwa [cast_abs hι, map_sub] at this

theorem actual_any {ι : K →+* ℝ} (hι : StrictMono ι) (nd : Bool) (fuel : Nat) (trace : Trace K) (sy : Bool)
    (t0 T : K) (δ : ℝ) (hδ : 0 ≤ δ) (sig : String → List (K × K)) (d : Nat) (phi : Expr K) (hp : Levels d phi)
    (hs : ∀ n, Uses n phi → ∃ x, trace.lookup n = some x ∧ Represents x (sig n) ∧ (∃ v r, sig n = (t0, v) :: r) ∧
      ∃ v, (sig n).getLast? = some (T, v))
    (hst : ∀ n, Uses n phi → StepAtMost δ (castPts ι (sig n))) :
    ∃ z zs, computeRobustness nd fuel phi trace sy = .ok z ∧ Represents z zs ∧
      dom (castPts ι zs) = Set.Icc (ι t0) (ι T) ∧ ∀ t ∈ Set.Icc (ι t0) (ι T),
        Near (d * (δ / 4)) (eval (castPts ι zs) t)
          (rob (ι T) (fun n => eval (castPts ι (sig n))) (actual (castExpr ι phi)) t) := by
  obtain ⟨ha, hd⟩ := aligned_cast hι hs
  obtain ⟨z', zs', e, hz', -, hdz⟩ := C34_total nd fuel (castTrace ι trace) sy (ι t0) (fun n => castPts ι (sig n))
    (castExpr ι phi) (levels_cast hι hp).plain ha
  have k := (near_actual nd fuel (castTrace ι trace) sy (ι t0) (ι T) δ hδ (fun n => castPts ι (sig n)) d
    (castExpr ι phi) (levels_cast hι hp) ha hd (fun n hn => hst n (uses_cast hn)) z' zs' e hz').2
  have hd' := dom_common (levels_cast hι hp).plain hd hdz
  obtain ⟨z, zs, e1, hz, -, rfl, rfl⟩ := result_cast hι nd fuel trace sy t0 sig phi hp.plain
    (fun n hn => by obtain ⟨x, h1, h2, h3, -⟩ := hs n hn; exact ⟨x, h1, h2, h3⟩) e hz'
  exact ⟨z, zs, e1, hz, hd', k⟩

/-- **C131 for traces of numbers of any kind.** -/
theorem C131_any {ι : K →+* ℝ} (hι : StrictMono ι) (nd : Bool) (fuel : Nat) (trace : Trace K) (sy : Bool)
    (t0 T δ : K) (hδ : 0 ≤ δ) (sig : String → List (K × K)) (d : Nat) (phi : Expr K) (hp : Levels d phi)
    (hs : ∀ n, Uses n phi → ∃ x, trace.lookup n = some x ∧ Represents x (sig n) ∧ (∃ v r, sig n = (t0, v) :: r) ∧
      ∃ v, (sig n).getLast? = some (T, v))
    (hst : ∀ n, Uses n phi → StepAtMost δ (sig n)) :
    ∃ z zs, computeRobustness nd fuel phi trace sy = .ok z ∧ Represents z zs ∧ ∀ t ∈ Set.Icc (ι t0) (ι T),
      ∃ r : ℝ, rob (ι T) (fun n => eval (castPts ι (sig n))) (actual (castExpr ι phi)) t = r ∧
        |eval (castPts ι zs) t - r| ≤ d * ι δ / 4 := by
  obtain ⟨z, zs, e, hz, -, k⟩ := actual_any hι nd fuel trace sy t0 T (ι δ) (by simpa using hι.monotone hδ) sig d phi hp
    hs fun n hn => step_cast hι (hst n hn)
  refine ⟨z, zs, e, hz, fun t ht => ?_⟩
  obtain ⟨r, h1, h2⟩ := (k t ht).real
  exact ⟨r, h1, by rwa [mul_div_assoc]⟩

end any

/-! ## Binary64 -/

theorem map_lookup {A B : Type} (f : A → B) (tr : List (String × A)) (n : String) :
    (tr.map fun e => (e.1, f e.2)).lookup n = (tr.lookup n).map f := by
  induction tr with
  | nil => rfl
  | cons e l ih =>
    obtain ⟨m, x⟩ := e
    simp only [List.map_cons, List.lookup_cons]
    by_cases hn : (n == m) = true <;> simp [hn]
    exact ih

/-- Lines through the same rational times differ at real times by no more than at the rational ones. -/
theorem eval_cast_close {zs ws : List (ℚ × ℚ)} {ε : ℚ} (hi : Increasing zs) (hi' : Increasing ws)
    (h1 : zs.map Prod.fst = ws.map Prod.fst) (h2 : ∀ t ∈ dom zs, |eval zs t - eval ws t| ≤ ε) {t : ℝ}
    (ht : t ∈ dom (rpts zs)) : |eval (rpts zs) t - eval (rpts ws) t| ≤ ε := by
  have hc : CloseTo (ε : ℝ) (rpts zs) (rpts ws) := by
    have hl : zs.length = ws.length := by simpa using congrArg List.length h1
    rw [CloseTo, List.forall₂_iff_get]
    refine ⟨by simp [rpts, castPts, hl], fun i a b => ?_⟩
    have a' : i < zs.length := by simpa [rpts, castPts] using a
    have b' : i < ws.length := by simpa [rpts, castPts] using b
    have hf : zs[i].1 = ws[i].1 := by
      have := congrArg (fun l => l[i]?) h1
      simpa [a', b'] using this
    have e1 := eval_mem hi (List.getElem_mem a')
    have e2 := eval_mem hi' (List.getElem_mem b')
    have := h2 _ (mem_dom_of_mem' (List.getElem_mem a'))
    rw [e1, hf, e2] at this
    simp only [rpts, castPts, List.get_eq_getElem, List.getElem_map]
    exact ⟨by rw [hf], by
      show |((zs[i].2 : ℚ) : ℝ) - ((ws[i].2 : ℚ) : ℝ)| ≤ ε
      exact_mod_cast this⟩
  exact hc.eval (castPts_increasing rat_mono hi) ht

theorem actual_b64 (nd : Bool) (fuel : Nat) (sy : Bool) (tr : List (String × List (ℚ × ℚ))) (V C t0 T : ℚ) (n d : ℕ)
    (phi : Expr ℚ) (sig : String → List (ℚ × ℚ)) (δ : ℝ) (hδ : 0 ≤ δ) (htr : Steady V tr) (hphi : UntilOnly C n phi)
    (hp : Levels d phi) (h0 : 1 / 2 ^ 900 ≤ V + C) (h1 : V + C ≤ 2 ^ 899) (hn : n < 2 ^ 48)
    (hs : ∀ m, Uses m phi → tr.lookup m = some (sig m) ∧ (∃ v r, sig m = (t0, v) :: r) ∧
      ∃ v, (sig m).getLast? = some (T, v))
    (hst : ∀ m, Uses m phi → StepAtMost δ (rpts (sig m))) :
    ∃ (z : Signal B64) (zs : List (ℚ × ℚ)),
      computeRobustness (K := B64) nd fuel phi (tr.map fun e => (e.1, ofPts (K := B64) e.2)) sy = .ok z ∧
      Represents (K := B64) z zs ∧ dom (rpts zs) = Set.Icc (t0 : ℝ) T ∧ ∀ t ∈ Set.Icc (t0 : ℝ) T,
        Near (d * (δ / 4) + (n + 1) / 2 ^ 48 * (V + C)) (eval (rpts zs) t)
          (rob T (fun m => eval (rpts (sig m))) (actual (castExpr (Rat.castHom ℝ) phi)) t) := by
  have hs' : ∀ m, Uses m phi → ∃ x, List.lookup m (tr.map fun e => (e.1, ofPts e.2)) = some x ∧
      Represents x (sig m) ∧ (∃ v r, sig m = (t0, v) :: r) ∧ ∃ v, (sig m).getLast? = some (T, v) := by
    intro m hm
    obtain ⟨k1, k2, k3⟩ := hs m hm
    refine ⟨ofPts (sig m), ?_, represents_ofPts (htr _ (lookup_mem' k1)).1, k2, k3⟩
    rw [map_lookup, k1]; rfl
  obtain ⟨w, ws, e, hw, hd, k⟩ := actual_any rat_mono nd fuel _ sy t0 T δ hδ sig d phi hp hs' hst
  obtain ⟨z, hz⟩ := (C127_ok nd fuel phi sy tr V C n htr hphi h0 (pow_bound h0 h1 hn)).2 ⟨w, e⟩
  obtain ⟨w', zs, ws', e', hr, hw', hf, hb⟩ := C127_linear nd fuel phi sy tr V C n htr hphi h0 h1 hn z hz
  rw [e] at e'
  simp only [Outcome.ok.injEq] at e'; subst e'
  obtain rfl : ws = ws' := represents_unique' hw hw'
  have hi := ((represents_iff (K := B64) _ _).1 hr).1
  have hi' := ((represents_iff _ _).1 hw).1
  have hd' : dom (rpts zs) = Set.Icc (t0 : ℝ) T := by
    rw [← show dom (rpts ws) = Set.Icc (t0 : ℝ) T from hd]
    exact dom_of_fst (by
      have := congrArg (List.map (Rat.castHom ℝ)) hf
      simpa [rpts, castPts, Function.comp_def] using this)
  refine ⟨z, zs, hz, hr, hd', fun t ht => ?_⟩
  have hc := abs_le.1 (eval_cast_close hi hi' hf hb (t := t) (by rw [hd']; exact ht))
  push_cast at hc
  obtain ⟨k1, k2⟩ := k t ht
  constructor
  · refine le_trans (EReal.coe_le_coe_iff.2 ?_) k1
    linarith
  · refine k2.trans (EReal.coe_le_coe_iff.2 ?_)
    linarith

/-- **C132.**  The evaluation in binary64 of a formula without And and Or differs at every real time from the dense-time
robustness of `actual phi` (C131) by at most `d δ / 4 + (n + 1) 2^-48 (V + C)`; a value beyond that bound gives the verdict
by its sign.  `δ` bounds the differences of neighbouring samples, `V` the values, `C` the constants, `d` counts the nested
temporal operators and `n` the nested operators Until. -/
theorem C132_error (nd : Bool) (fuel : Nat) (sy : Bool) (tr : List (String × List (ℚ × ℚ))) (V C t0 T δ : ℚ) (n d : ℕ)
    (phi : Expr ℚ) (sig : String → List (ℚ × ℚ)) (hδ : 0 ≤ δ) (htr : Steady V tr) (hphi : UntilOnly C n phi)
    (hp : Levels d phi) (h0 : 1 / 2 ^ 900 ≤ V + C) (h1 : V + C ≤ 2 ^ 899) (hn : n < 2 ^ 48)
    (hs : ∀ m, Uses m phi → tr.lookup m = some (sig m) ∧ (∃ v r, sig m = (t0, v) :: r) ∧
      ∃ v, (sig m).getLast? = some (T, v))
    (hst : ∀ m, Uses m phi → StepAtMost δ (sig m)) (x : String → ℝ → ℝ) (ψ : Expr ℝ) (B : ℝ)
    (hx : x = fun m => eval (castPts (Rat.castHom ℝ) (sig m))) (hψ : ψ = actual (castExpr (Rat.castHom ℝ) phi))
    (hB : B = d * δ / 4 + (n + 1) / 2 ^ 48 * (V + C)) :
    ∃ (z : Signal B64) (zs : List (ℚ × ℚ)),
      computeRobustness (K := B64) nd fuel phi (tr.map fun e => (e.1, ofPts (K := B64) e.2)) sy = .ok z ∧
      Represents (K := B64) z zs ∧ dom (castPts (Rat.castHom ℝ) zs) = Set.Icc (t0 : ℝ) T ∧ ∀ t ∈ Set.Icc (t0 : ℝ) T,
        (∃ r : ℝ, rob T x ψ t = r ∧ |eval (castPts (Rat.castHom ℝ) zs) t - r| ≤ B) ∧
        (B < eval (castPts (Rat.castHom ℝ) zs) t → Sat T x ψ t) ∧
        (eval (castPts (Rat.castHom ℝ) zs) t < -B → ¬ Sat T x ψ t) := by
  subst hx hψ hB
  obtain ⟨z, zs, e, hz, hd, k⟩ := actual_b64 nd fuel sy tr V C t0 T n d phi sig δ (by exact_mod_cast hδ) htr hphi hp h0 h1 hn
    hs fun m hm => step_cast rat_mono (hst m hm)
  refine ⟨z, zs, e, hz, hd, fun t ht => ?_⟩
  obtain ⟨r, hr, ha⟩ := (k t ht).real
  rw [← mul_div_assoc] at ha
  have := abs_le.1 ha
  refine ⟨⟨r, hr, ha⟩, fun h => (rob_sat _ _ _ t).1 ?_, fun h => (rob_sat _ _ _ t).2 ?_⟩
  · rw [hr]; exact EReal.coe_pos.2 (by linarith)
  · rw [hr]; exact EReal.coe_neg'.2 (by linarith)

/-- **C132 for measured signals.**  Every `f m` is Lipschitz with constant `L`; the trace holds doubles that differ from it
by at most `η`, at times at most `h` apart.  The bound for the robustness of `actual phi` on the signals `f`. -/
theorem C132_measured (nd : Bool) (fuel : Nat) (sy : Bool) (tr : List (String × List (ℚ × ℚ))) (V C t0 T : ℚ) (n d : ℕ)
    (phi : Expr ℚ) (sig : String → List (ℚ × ℚ)) (htr : Steady V tr) (hphi : UntilOnly C n phi)
    (hp : Levels d phi) (h0 : 1 / 2 ^ 900 ≤ V + C) (h1 : V + C ≤ 2 ^ 899) (hn : n < 2 ^ 48)
    (hs : ∀ m, Uses m phi → tr.lookup m = some (sig m) ∧ (∃ v r, sig m = (t0, v) :: r) ∧
      ∃ v, (sig m).getLast? = some (T, v))
    (f : String → ℝ → ℝ) (L h η : ℝ) (hL : 0 ≤ L) (hh : 0 ≤ h) (hη : 0 ≤ η)
    (hf : ∀ m, Uses m phi → ∀ s ∈ Set.Icc (t0 : ℝ) T, ∀ t ∈ Set.Icc (t0 : ℝ) T, |f m t - f m s| ≤ L * |t - s|)
    (hm : ∀ m, Uses m phi → ∀ p ∈ sig m, |(p.2 : ℝ) - f m p.1| ≤ η)
    (hg : ∀ m, Uses m phi → (sig m).IsChain fun p q => ((q.1 - p.1 : ℚ) : ℝ) ≤ h) :
    ∃ (z : Signal B64) (zs : List (ℚ × ℚ)),
      computeRobustness (K := B64) nd fuel phi (tr.map fun e => (e.1, ofPts (K := B64) e.2)) sy = .ok z ∧
      Represents (K := B64) z zs ∧ dom (castPts (Rat.castHom ℝ) zs) = Set.Icc (t0 : ℝ) T ∧ ∀ t ∈ Set.Icc (t0 : ℝ) T,
        ∃ r : ℝ, rob T f (actual (castExpr (Rat.castHom ℝ) phi)) t = r ∧
          |eval (castPts (Rat.castHom ℝ) zs) t - r| ≤
            (d / 4 + 1 / 2) * (L * h) + (d / 2 + 1) * η + (n + 1) / 2 ^ 48 * (V + C) := by
  have facts : ∀ m, Uses m phi → Increasing (rpts (sig m)) ∧ Grid t0 T h ((rpts (sig m)).map Prod.fst) ∧
      CloseTo η (rpts (sig m)) (sampled (f m) ((rpts (sig m)).map Prod.fst)) := by
    intro m hu
    obtain ⟨k1, ⟨v, r, k2⟩, w, k3⟩ := hs m hu
    refine ⟨castPts_increasing rat_mono (htr _ (lookup_mem' k1)).1, ⟨?_, ?_, ?_⟩, ?_⟩
    · rw [k2]; rfl
    · simp only [rpts, castPts, List.getLast?_map, k3]; rfl
    · simp only [rpts, castPts, List.map_map, List.isChain_map]
      refine (hg m hu).imp fun p q hpq => ?_
      simpa using hpq
    · rw [CloseTo, sampled, List.forall₂_map_right_iff, List.forall₂_map_right_iff, List.forall₂_same]
      intro p hp
      obtain ⟨q, hq, rfl⟩ := List.mem_map.1 hp
      exact ⟨rfl, hm m hu q hq⟩
  have inc : ∀ m, Uses m phi → Increasing (sampled (f m) ((rpts (sig m)).map Prod.fst)) := fun m hu => by
    have := (facts m hu).1
    unfold Increasing at *
    rwa [(facts m hu).2.2.times] at this
  have step : ∀ m, Uses m phi → StepAtMost (L * h + 2 * η) (rpts (sig m)) := by
    intro m hu
    obtain ⟨k1, k2, k3⟩ := facts m hu
    have hmod : Modulus t0 T h (L * h) (f m) := fun s hs t ht hst =>
      (hf m hu s hs t ht).trans (mul_le_mul_of_nonneg_left hst hL)
    have hpw := sampled_times (inc m hu)
    have st := sampled_step hmod k2 hpw
    unfold StepAtMost at st ⊢
    have hpt : ∀ p ∈ rpts (sig m), |p.2 - f m p.1| ≤ η := by
      intro p hp
      obtain ⟨q, hq, rfl⟩ := List.mem_map.1 hp
      exact hm m hu q hq
    rw [sampled, List.map_map, List.isChain_map] at st
    refine isChain_of_adjacent fun l p q r e => ?_
    have hp := abs_le.1 (hpt p (by rw [e]; simp))
    have hq := abs_le.1 (hpt q (by rw [e]; simp))
    rw [e] at st
    have := abs_le.1 (List.isChain_cons_cons.1 (List.isChain_split.1 st).2).1
    simp only [Function.comp_apply] at this
    rw [abs_le]
    constructor <;> linarith
  obtain ⟨z, zs, e, hz, hd, k⟩ := actual_b64 nd fuel sy tr V C t0 T n d phi sig (L * h + 2 * η) (by positivity) htr hphi hp
    h0 h1 hn hs step
  refine ⟨z, zs, e, hz, hd, fun t ht => ?_⟩
  have hpl := (levels_cast rat_mono hp).plain
  obtain ⟨r, hr, ha⟩ := (near_signals (y := f) (κ := η + L * h / 2) (actual_plain hpl) (fun m hu s hs' => by
    have hu := uses_cast (uses_actual hpl hu)
    obtain ⟨k1, k2, k3⟩ := facts m hu
    have hdm : dom (rpts (sig m)) = Set.Icc (t0 : ℝ) T := by
      rw [dom_of_fst k3.times]; exact dom_sampled k2 (sampled_times (inc m hu))
    have a1 := k3.eval k1 (t := s) (by rw [hdm]; exact hs')
    have a2 := sampled_close_lipschitz hL (hf m hu) hh k2 (inc m hu) hs'
    exact (abs_sub_le _ _ _).trans (add_le_add a1 a2)) ht (k t ht)).real
  exact ⟨r, hr, ha.trans (le_of_eq (by ring))⟩

/-! ## Concrete cases -/

/-- The hypotheses of `C131_any`: rational numbers, intervals, And, Not and two signals with different timestamps. -/
example : ∃ z zs, computeRobustness true 20 ratPhi ratTrace false = .ok z ∧ Represents z zs ∧
    ∀ t ∈ Set.Icc (0 : ℝ) 3, ∃ r : ℝ,
      rob 3 (fun n => eval (castPts (Rat.castHom ℝ) (ratSig n))) (actual (castExpr (Rat.castHom ℝ) ratPhi)) t = r ∧
        |eval (castPts (Rat.castHom ℝ) zs) t - r| ≤ 3 / 2 := by
  obtain ⟨z, zs, e, hz, h⟩ := C131_any rat_mono true 20 ratTrace false 0 3 3 (by norm_num) ratSig 2 ratPhi
    (.always (.inr (.inl ⟨1, 2, rfl⟩)) (.and (by simp) (by
      intro e he
      simp only [List.mem_cons, List.not_mem_nil, or_false] at he
      rcases he with rfl | rfl
      · exact .pred 1 "x" .GE 0
      · exact .not (.eventually (.inr (.inl ⟨0, 1, rfl⟩)) (.pred 0 _ _ _)))))
    ratTrace_ends
    (fun n _ => by
      unfold ratSig
      split
      · simp only [StepAtMost, List.isChain_cons_cons, List.isChain_singleton, and_true, abs_le]; norm_num
      · simp only [StepAtMost, List.isChain_cons_cons, List.isChain_singleton, and_true, abs_le]; norm_num)
  refine ⟨z, zs, e, hz, fun t ht => ?_⟩
  obtain ⟨r, h1, h2⟩ := h t (by simpa using ht)
  refine ⟨r, by simpa using h1, h2.trans ?_⟩
  have : (Rat.castHom ℝ) 3 = 3 := map_ofNat _ 3
  rw [this]; norm_num

theorem untilPhi_levels : Levels 5 untilPhi := .always (.inl rfl) (.untl (.inl rfl) (.pred 0 _ _ _) (.pred 0 _ _ _))

theorem untilPhi_uses {m : String} (h : Uses m untilPhi) : m = "x" ∨ m = "y" := by
  cases h with
  | always h =>
    cases h with
    | untl_left h => cases h; exact .inr rfl
    | untl_right h => cases h; exact .inl rfl

/-- The signals of `untilTrace`. -/
def untilSig : String → List (ℚ × ℚ) := fun m => if m = "x" then syncX else syncY

theorem untilSig_ends : ∀ m, Uses m untilPhi → untilTrace.lookup m = some (untilSig m) ∧
    (∃ v r, untilSig m = (0, v) :: r) ∧ ∃ v, (untilSig m).getLast? = some (3, v) := by
  intro m hm
  rcases untilPhi_uses hm with rfl | rfl
  · exact ⟨rfl, ⟨_, _, rfl⟩, _, rfl⟩
  · exact ⟨rfl, ⟨_, _, rfl⟩, _, rfl⟩

/-- The hypotheses of `C132_error`. -/
example (nd : Bool) : ∃ (z : Signal B64) (zs : List (ℚ × ℚ)),
    computeRobustness (K := B64) nd 0 untilPhi (untilTrace.map fun e => (e.1, ofPts (K := B64) e.2)) false = .ok z ∧
    Represents (K := B64) z zs ∧ ∀ t ∈ Set.Icc (0 : ℝ) 3, ∃ r : ℝ,
      rob 3 (fun m => eval (castPts (Rat.castHom ℝ) (untilSig m))) (actual (castExpr (Rat.castHom ℝ) untilPhi)) t = r ∧
        |eval (castPts (Rat.castHom ℝ) zs) t - r| ≤ 5 / 4 + 1 / 2 ^ 46 := by
  obtain ⟨z, zs, e, hz, -, h⟩ := C132_error nd 0 false untilTrace 2 0 0 3 1 1 5 untilPhi untilSig (by norm_num)
    untilTrace_steady untilPhi_only untilPhi_levels
    (by rw [add_zero]; exact (div_le_one₀ (by positivity)).2 (one_le_pow₀ (by norm_num)) |>.trans (by norm_num))
    (by rw [add_zero]; exact le_self_pow₀ (by norm_num) (by norm_num)) (by norm_num) untilSig_ends
    (fun m _ => by
      unfold untilSig syncX syncY
      split
      · simp only [StepAtMost, List.isChain_cons_cons, List.isChain_singleton, and_true, abs_le]; norm_num
      · simp only [StepAtMost, List.isChain_cons_cons, List.isChain_singleton, and_true, abs_le]; norm_num)
    _ _ _ rfl rfl rfl
  refine ⟨z, zs, e, hz, fun t ht => ?_⟩
  obtain ⟨r, h1, h2⟩ := (h t (by simpa using ht)).1
  exact ⟨r, by simpa using h1, h2.trans (by norm_num)⟩

/-- The signals that are measured in the example below. -/
noncomputable def untilFun : String → ℝ → ℝ := fun m t => if m = "x" then 1 - t / 3 else t / 2

/-- The hypotheses of `C132_measured`: the samples of "y" are off by up to 1/2. -/
example (nd : Bool) : ∃ (z : Signal B64) (zs : List (ℚ × ℚ)),
    computeRobustness (K := B64) nd 0 untilPhi (untilTrace.map fun e => (e.1, ofPts (K := B64) e.2)) false = .ok z ∧
    Represents (K := B64) z zs ∧ ∀ t ∈ Set.Icc (0 : ℝ) 3, ∃ r : ℝ,
      rob 3 untilFun (actual (castExpr (Rat.castHom ℝ) untilPhi)) t = r ∧
        |eval (castPts (Rat.castHom ℝ) zs) t - r| ≤ 35 / 8 + 1 / 2 ^ 46 := by
  obtain ⟨z, zs, e, hz, -, h⟩ := C132_measured nd 0 false untilTrace 2 0 0 3 1 5 untilPhi untilSig
    untilTrace_steady untilPhi_only untilPhi_levels
    (by rw [add_zero]; exact (div_le_one₀ (by positivity)).2 (one_le_pow₀ (by norm_num)) |>.trans (by norm_num))
    (by rw [add_zero]; exact le_self_pow₀ (by norm_num) (by norm_num)) (by norm_num) untilSig_ends
    untilFun (1 / 2) 3 (1 / 2) (by norm_num) (by norm_num) (by norm_num)
    (fun m _ s _ t _ => by
      unfold untilFun
      rcases le_total s t with hst | hst <;> split
      · rw [abs_of_nonneg (sub_nonneg.2 hst), abs_le]; constructor <;> linarith
      · rw [abs_of_nonneg (sub_nonneg.2 hst), abs_le]; constructor <;> linarith
      · rw [abs_of_nonpos (sub_nonpos.2 hst), abs_le]; constructor <;> linarith
      · rw [abs_of_nonpos (sub_nonpos.2 hst), abs_le]; constructor <;> linarith)
    (fun m _ p hp => by
      unfold untilSig syncX syncY at hp
      unfold untilFun
      split at hp <;> rename_i hmx
      · rw [if_pos hmx]
        simp only [List.mem_cons, List.not_mem_nil, or_false] at hp
        rcases hp with rfl | rfl <;> norm_num
      · rw [if_neg hmx]
        simp only [List.mem_cons, List.not_mem_nil, or_false] at hp
        rcases hp with rfl | rfl | rfl <;> norm_num [abs_le])
    (fun m _ => by
      unfold untilSig syncX syncY
      split
      · simp only [List.isChain_cons_cons, List.isChain_singleton, and_true]; norm_num
      · simp only [List.isChain_cons_cons, List.isChain_singleton, and_true]; norm_num)
  refine ⟨z, zs, e, hz, fun t ht => ?_⟩
  obtain ⟨r, h1, h2⟩ := h t (by simpa using ht)
  exact ⟨r, by simpa using h1, h2.trans (by norm_num)⟩

end Verif
