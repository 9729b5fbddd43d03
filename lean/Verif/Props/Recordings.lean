import Verif.Props.Entail
import Verif.Props.Polarity
import Verif.Spec.Relax

/-!
# C135: two recordings of the same signals

C70 and C76 are false: the computed robustness depends on where the signals are sampled, and it can fall if the signals
get better.  By how much?  For all formulas the difference is at most the sampling errors of C131 (in binary64: C132).
-/

set_option linter.unusedSectionVars false
set_option exponentiation.threshold 1100

namespace Verif
open Spec

section exact
variable {K : Type} [Field K] [LinearOrder K] [IsStrictOrderedRing K] [Arith K] [ExactArith K]

/-- **C135.**  The signals of two traces differ by at most `ε` at every time; their timestamps may be different.  Then at
every time the computed values differ by at most `ε + d (δ + δ') / 4`. -/
theorem C135_error {ι : K →+* ℝ} (hι : StrictMono ι) (nd : Bool) (fuel : Nat) (trace trace' : Trace K) (sy : Bool)
    (t0 T δ δ' : K) (hδ : 0 ≤ δ) (hδ' : 0 ≤ δ') (ε : ℝ) (sig sig' : String → List (K × K)) (d : Nat) (phi : Expr K)
    (hp : Levels d phi)
    (hs : ∀ n, Uses n phi → ∃ x, trace.lookup n = some x ∧ Represents x (sig n) ∧
      (∃ v r, sig n = (t0, v) :: r) ∧ ∃ v, (sig n).getLast? = some (T, v))
    (hs' : ∀ n, Uses n phi → ∃ x, trace'.lookup n = some x ∧ Represents x (sig' n) ∧
      (∃ v r, sig' n = (t0, v) :: r) ∧ ∃ v, (sig' n).getLast? = some (T, v))
    (hst : ∀ n, Uses n phi → StepAtMost δ (sig n)) (hst' : ∀ n, Uses n phi → StepAtMost δ' (sig' n))
    (hc : ∀ n, Uses n phi → ∀ t ∈ Set.Icc (ι t0) (ι T), |eval (castPts ι (sig n)) t - eval (castPts ι (sig' n)) t| ≤ ε) :
    ∃ z zs w ws, computeRobustness nd fuel phi trace sy = .ok z ∧ Represents z zs ∧
      computeRobustness nd fuel phi trace' sy = .ok w ∧ Represents w ws ∧ ∀ t ∈ Set.Icc (ι t0) (ι T),
        |eval (castPts ι zs) t - eval (castPts ι ws) t| ≤ ε + d * (ι δ + ι δ') / 4 := by
  obtain ⟨z, zs, e1, hz, h1⟩ := C131_any hι nd fuel trace sy t0 T δ hδ sig d phi hp hs hst
  obtain ⟨w, ws, e2, hw, h2⟩ := C131_any hι nd fuel trace' sy t0 T δ' hδ' sig' d phi hp hs' hst'
  refine ⟨z, zs, w, ws, e1, hz, e2, hw, fun t ht => ?_⟩
  obtain ⟨r, k1, k2⟩ := h1 t ht
  obtain ⟨r', k3, k4⟩ := h2 t ht
  have hpl := (levels_cast hι hp).plain
  have hu : ∀ n, Uses n (actual (castExpr ι phi)) → Uses n phi := fun n hn => uses_cast (uses_actual hpl hn)
  have c1 := rob_close (d := ε) (t0 := ι t0) (T := ι T) (actual_plain hpl) (fun _ _ _ hi h => window_ge hi h)
    (fun n hn t ht => hc n (hu n hn) t ht) t ht
  have c2 := rob_close (d := ε) (t0 := ι t0) (T := ι T) (actual_plain hpl) (fun _ _ _ hi h => window_ge hi h)
    (fun n hn t ht => (abs_sub_comm _ _).trans_le (hc n (hu n hn) t ht)) t ht
  rw [k1, k3, ← EReal.coe_add, EReal.coe_le_coe_iff] at c1 c2
  have a := abs_le.1 k2
  have b := abs_le.1 k4
  have : (d : ℝ) * (ι δ + ι δ') / 4 = d * ι δ / 4 + d * ι δ' / 4 := by ring
  rw [abs_le, this]
  constructor <;> linarith

/-- **C135, resampling.**  The case of equal signals with different timestamps. -/
theorem C135_resample {ι : K →+* ℝ} (hι : StrictMono ι) (nd : Bool) (fuel : Nat) (trace trace' : Trace K) (sy : Bool)
    (t0 T δ δ' : K) (hδ : 0 ≤ δ) (hδ' : 0 ≤ δ') (sig sig' : String → List (K × K)) (d : Nat) (phi : Expr K)
    (hp : Levels d phi)
    (hs : ∀ n, Uses n phi → ∃ x, trace.lookup n = some x ∧ Represents x (sig n) ∧
      (∃ v r, sig n = (t0, v) :: r) ∧ ∃ v, (sig n).getLast? = some (T, v))
    (hs' : ∀ n, Uses n phi → ∃ x, trace'.lookup n = some x ∧ Represents x (sig' n) ∧
      (∃ v r, sig' n = (t0, v) :: r) ∧ ∃ v, (sig' n).getLast? = some (T, v))
    (hst : ∀ n, Uses n phi → StepAtMost δ (sig n)) (hst' : ∀ n, Uses n phi → StepAtMost δ' (sig' n))
    (hc : ∀ n, Uses n phi → ∀ t ∈ Set.Icc (ι t0) (ι T), eval (castPts ι (sig n)) t = eval (castPts ι (sig' n)) t) :
    ∃ z zs w ws, computeRobustness nd fuel phi trace sy = .ok z ∧ Represents z zs ∧
      computeRobustness nd fuel phi trace' sy = .ok w ∧ Represents w ws ∧ ∀ t ∈ Set.Icc (ι t0) (ι T),
        |eval (castPts ι zs) t - eval (castPts ι ws) t| ≤ d * (ι δ + ι δ') / 4 := by
  have := C135_error hι nd fuel trace trace' sy t0 T δ δ' hδ hδ' 0 sig sig' d phi hp hs hs' hst hst'
    fun n hn t ht => by rw [hc n hn t ht, sub_self, abs_zero]
  simpa using this

theorem polar_actual {ι : K →+* ℝ} {up : String → Bool} {e : Expr K} (h : NoUntil e) :
    ∀ {pol : Bool}, Polar up pol e → Polar up pol (actual (castExpr ι e)) := by
  induction h with
  | const b => intro pol hp; cases hp
  | pred n op c =>
    intro pol hp
    cases hp with
    | ge => exact .ge _ _
    | gt => exact .gt _ _
    | le => exact .le _ _
    | lt => exact .lt _ _
  | not _ ih => intro pol hp; cases hp with | not hp => exact .not (ih hp)
  | and _ ih =>
    intro pol hp
    cases hp with
    | and hp =>
      rw [castExpr, castExprs_eq, actual, actuals_eq, List.map_map]
      refine .and fun e he => ?_
      obtain ⟨a, ha, rfl⟩ := List.mem_map.1 he
      exact ih a ha (hp a ha)
  | or _ ih =>
    intro pol hp
    cases hp with
    | or hp =>
      rw [castExpr, castExprs_eq, actual, actuals_eq, List.map_map]
      refine .or fun e he => ?_
      obtain ⟨a, ha, rfl⟩ := List.mem_map.1 he
      exact ih a ha (hp a ha)
  | always _ ih => intro pol hp; cases hp with | always hp => exact .always (ih hp)
  | eventually _ ih => intro pol hp; cases hp with | eventually hp => exact .eventually (ih hp)

/-- **C135, better signals.**  If the signals of the second trace are better for a formula without Until, the computed
values do not fall by more than `d (δ + δ') / 4`. -/
theorem C135_improve {ι : K →+* ℝ} (hι : StrictMono ι) (nd : Bool) (fuel : Nat) (trace trace' : Trace K) (sy : Bool)
    (t0 T δ δ' : K) (hδ : 0 ≤ δ) (hδ' : 0 ≤ δ') (up : String → Bool) (sig sig' : String → List (K × K)) (d : Nat)
    (phi : Expr K) (hp : Levels d phi) (hnu : NoUntil phi) (hpol : Polar up true phi)
    (hs : ∀ n, Uses n phi → ∃ x, trace.lookup n = some x ∧ Represents x (sig n) ∧
      (∃ v r, sig n = (t0, v) :: r) ∧ ∃ v, (sig n).getLast? = some (T, v))
    (hs' : ∀ n, Uses n phi → ∃ x, trace'.lookup n = some x ∧ Represents x (sig' n) ∧
      (∃ v r, sig' n = (t0, v) :: r) ∧ ∃ v, (sig' n).getLast? = some (T, v))
    (hst : ∀ n, Uses n phi → StepAtMost δ (sig n)) (hst' : ∀ n, Uses n phi → StepAtMost δ' (sig' n))
    (hi : ∀ n, Uses n phi → ∀ t ∈ Set.Icc (ι t0) (ι T),
      (up n = true → eval (castPts ι (sig n)) t ≤ eval (castPts ι (sig' n)) t) ∧
      (up n = false → eval (castPts ι (sig' n)) t ≤ eval (castPts ι (sig n)) t)) :
    ∃ z zs w ws, computeRobustness nd fuel phi trace sy = .ok z ∧ Represents z zs ∧
      computeRobustness nd fuel phi trace' sy = .ok w ∧ Represents w ws ∧ ∀ t ∈ Set.Icc (ι t0) (ι T),
        eval (castPts ι zs) t ≤ eval (castPts ι ws) t + d * (ι δ + ι δ') / 4 := by
  obtain ⟨z, zs, e1, hz, h1⟩ := C131_any hι nd fuel trace sy t0 T δ hδ sig d phi hp hs hst
  obtain ⟨w, ws, e2, hw, h2⟩ := C131_any hι nd fuel trace' sy t0 T δ' hδ' sig' d phi hp hs' hst'
  refine ⟨z, zs, w, ws, e1, hz, e2, hw, fun t ht => ?_⟩
  obtain ⟨r, k1, k2⟩ := h1 t ht
  obtain ⟨r', k3, k4⟩ := h2 t ht
  have hpl := (levels_cast hι hp).plain
  have c := (rob_mono (t0 := ι t0) (T := ι T) (x := fun n => eval (castPts ι (sig n)))
    (y := fun n => eval (castPts ι (sig' n))) (actual_plain hpl) (fun _ _ _ hi h => window_ge hi h) (polar_actual hnu hpol)
    (fun n hn => hi n (uses_cast (uses_actual hpl hn))) t ht).1 rfl
  rw [k1, k3, EReal.coe_le_coe_iff] at c
  have a := abs_le.1 k2
  have b := abs_le.1 k4
  have : (d : ℝ) * (ι δ + ι δ') / 4 = d * ι δ / 4 + d * ι δ' / 4 := by ring
  rw [this]
  linarith

end exact

/-- **C135, binary64** (formulas without And and Or): the rounding errors of both evaluations are added. -/
theorem C135_binary64 (nd : Bool) (fuel : Nat) (sy : Bool) (tr tr' : List (String × List (ℚ × ℚ))) (V C t0 T δ δ' : ℚ) (ε : ℝ)
    (n d : ℕ) (phi : Expr ℚ) (sig sig' : String → List (ℚ × ℚ)) (hδ : 0 ≤ δ) (hδ' : 0 ≤ δ') (htr : Steady V tr)
    (htr' : Steady V tr') (hphi : UntilOnly C n phi) (hp : Levels d phi)
    (h0 : 1 / 2 ^ 900 ≤ V + C) (h1 : V + C ≤ 2 ^ 899) (hn : n < 2 ^ 48)
    (hs : ∀ m, Uses m phi → tr.lookup m = some (sig m) ∧ (∃ v r, sig m = (t0, v) :: r) ∧
      ∃ v, (sig m).getLast? = some (T, v))
    (hs' : ∀ m, Uses m phi → tr'.lookup m = some (sig' m) ∧ (∃ v r, sig' m = (t0, v) :: r) ∧
      ∃ v, (sig' m).getLast? = some (T, v))
    (hst : ∀ m, Uses m phi → StepAtMost δ (sig m)) (hst' : ∀ m, Uses m phi → StepAtMost δ' (sig' m))
    (hc : ∀ m, Uses m phi → ∀ t ∈ Set.Icc (t0 : ℝ) T,
      |eval (castPts (Rat.castHom ℝ) (sig m)) t - eval (castPts (Rat.castHom ℝ) (sig' m)) t| ≤ ε) :
    ∃ (z w : Signal B64) (zs ws : List (ℚ × ℚ)),
      computeRobustness (K := B64) nd fuel phi (tr.map fun e => (e.1, ofPts (K := B64) e.2)) sy = .ok z ∧
      Represents (K := B64) z zs ∧
      computeRobustness (K := B64) nd fuel phi (tr'.map fun e => (e.1, ofPts (K := B64) e.2)) sy = .ok w ∧
      Represents (K := B64) w ws ∧ ∀ t ∈ Set.Icc (t0 : ℝ) T,
        |eval (castPts (Rat.castHom ℝ) zs) t - eval (castPts (Rat.castHom ℝ) ws) t| ≤
          ε + d * (δ + δ') / 4 + 2 * (n + 1) / 2 ^ 48 * (V + C) := by
  obtain ⟨z, zs, e1, hz, -, k⟩ := C132_error nd fuel sy tr V C t0 T δ n d phi sig hδ htr hphi hp h0 h1 hn hs hst
    _ _ _ rfl rfl rfl
  obtain ⟨w, ws, e2, hw, -, k'⟩ := C132_error nd fuel sy tr' V C t0 T δ' n d phi sig' hδ' htr' hphi hp h0 h1 hn hs' hst'
    _ _ _ rfl rfl rfl
  refine ⟨z, w, zs, ws, e1, hz, e2, hw, fun t ht => ?_⟩
  obtain ⟨⟨r, k1, k2⟩, -⟩ := k t ht
  obtain ⟨⟨r', k3, k4⟩, -⟩ := k' t ht
  have hpl := (levels_cast B64.rat_mono hp).plain
  have hu : ∀ n, Uses n (actual (castExpr (Rat.castHom ℝ) phi)) → Uses n phi := fun n hn => uses_cast (uses_actual hpl hn)
  have c1 := rob_close (d := ε) (t0 := (t0 : ℝ)) (T := (T : ℝ)) (actual_plain hpl) (fun _ _ _ hi h => window_ge hi h)
    (fun n hn t ht => hc n (hu n hn) t ht) t ht
  have c2 := rob_close (d := ε) (t0 := (t0 : ℝ)) (T := (T : ℝ)) (actual_plain hpl) (fun _ _ _ hi h => window_ge hi h)
    (fun n hn t ht => (abs_sub_comm _ _).trans_le (hc n (hu n hn) t ht)) t ht
  rw [k1, k3, ← EReal.coe_add, EReal.coe_le_coe_iff] at c1 c2
  have a := abs_le.1 k2
  have b := abs_le.1 k4
  have : (d : ℝ) * (δ + δ') / 4 + 2 * (n + 1) / 2 ^ 48 * (V + C) =
      (d * δ / 4 + (n + 1) / 2 ^ 48 * (V + C)) + (d * δ' / 4 + (n + 1) / 2 ^ 48 * (V + C)) := by ring
  rw [abs_le, add_assoc, this]
  constructor <;> linarith

/-! ## Concrete cases -/

def recX : List (ℚ × ℚ) := [(0, 1), (1, 5), (2, 3)]
/-- The same with one more sample. -/
def recY : List (ℚ × ℚ) := [(0, 1), (1 / 2, 3), (1, 5), (2, 3)]
/-- `G (F[0,1] (x >= 4))`. -/
def recPhi : Expr ℚ := .always (.eventually (.pred "x" .GE (.fin 4)) ⟨.ull 0, .ull 1⟩) ⟨.dbl 0, .dbl .pinf⟩

theorem rec_same (t : ℝ) : eval (castPts (Rat.castHom ℝ) recX) t = eval (castPts (Rat.castHom ℝ) recY) t := by
  simp only [castPts, recX, recY, List.map_cons, List.map_nil, eval, line]
  norm_num
  by_cases h1 : t ≤ 1 / 2
  · rw [if_pos (by linarith), if_pos h1]; ring
  · rw [if_neg h1]
    by_cases h2 : t ≤ 1
    · rw [if_pos h2, if_pos h2]; ring
    · rw [if_neg h2, if_neg h2]

theorem recPhi_uses {m : String} (h : Uses m recPhi) : m = "x" := by
  cases h with | always h => cases h with | eventually h => cases h; rfl

theorem recPhi_levels : Levels 2 recPhi := .always (.inl rfl) (.eventually (.inr (.inl ⟨0, 1, rfl⟩)) (.pred _ _ _ _))

theorem rec_ends : ∀ m, Uses m recPhi →
    (∃ x, List.lookup m [("x", ofPts recX)] = some x ∧ Represents x recX ∧ (∃ v r, recX = (0, v) :: r) ∧
      ∃ v, recX.getLast? = some (2, v)) ∧
    ∃ x, List.lookup m [("x", ofPts recY)] = some x ∧ Represents x recY ∧ (∃ v r, recY = (0, v) :: r) ∧
      ∃ v, recY.getLast? = some (2, v) := by
  intro m hm
  obtain rfl := recPhi_uses hm
  exact ⟨⟨_, rfl, represents_ofPts (by simp [Increasing, recX]), ⟨_, _, rfl⟩, _, rfl⟩,
    ⟨_, rfl, represents_ofPts (by unfold Increasing; decide +kernel), ⟨_, _, rfl⟩, _, rfl⟩⟩

theorem rec_steps : StepAtMost 4 recX ∧ StepAtMost 2 recY := by
  constructor
  · simp only [StepAtMost, recX, List.isChain_cons_cons, List.isChain_singleton, and_true, abs_le]; norm_num
  · simp only [StepAtMost, recY, List.isChain_cons_cons, List.isChain_singleton, and_true, abs_le]; norm_num

/-- The hypotheses of `C135_resample`. -/
example (nd : Bool) : ∃ z zs w ws, computeRobustness nd 0 recPhi [("x", ofPts recX)] false = .ok z ∧ Represents z zs ∧
    computeRobustness nd 0 recPhi [("x", ofPts recY)] false = .ok w ∧ Represents w ws ∧ ∀ t ∈ Set.Icc (0 : ℝ) 2,
      |eval (castPts (Rat.castHom ℝ) zs) t - eval (castPts (Rat.castHom ℝ) ws) t| ≤ 3 := by
  obtain ⟨z, zs, w, ws, e1, hz, e2, hw, h⟩ := C135_resample B64.rat_mono nd 0 [("x", ofPts recX)] [("x", ofPts recY)] false
    0 2 4 2 (by norm_num) (by norm_num) (fun _ => recX) (fun _ => recY) 2 recPhi recPhi_levels
    (fun m hm => (rec_ends m hm).1) (fun m hm => (rec_ends m hm).2) (fun _ _ => rec_steps.1) (fun _ _ => rec_steps.2)
    fun _ _ t _ => rec_same t
  refine ⟨z, zs, w, ws, e1, hz, e2, hw, fun t ht => (h t (by simpa using ht)).trans ?_⟩
  norm_num

/-- `recY` raised by `1/2`. -/
def recZ : List (ℚ × ℚ) := [(0, 3 / 2), (1 / 2, 7 / 2), (1, 11 / 2), (2, 7 / 2)]

theorem rec_raised (t : ℝ) : eval (castPts (Rat.castHom ℝ) recZ) t = eval (castPts (Rat.castHom ℝ) recX) t + 1 / 2 := by
  rw [rec_same]
  simp only [castPts, recZ, recY, List.map_cons, List.map_nil, eval, line]
  norm_num
  by_cases h1 : t ≤ 1 / 2
  · rw [if_pos h1, if_pos h1]; ring
  · rw [if_neg h1, if_neg h1]
    by_cases h2 : t ≤ 1
    · rw [if_pos h2, if_pos h2]; ring
    · rw [if_neg h2, if_neg h2]; split_ifs <;> ring

/-- The hypotheses of `C135_error`. -/
example (nd : Bool) : ∃ z zs w ws, computeRobustness nd 0 recPhi [("x", ofPts recX)] false = .ok z ∧ Represents z zs ∧
    computeRobustness nd 0 recPhi [("x", ofPts recZ)] false = .ok w ∧ Represents w ws ∧ ∀ t ∈ Set.Icc (0 : ℝ) 2,
      |eval (castPts (Rat.castHom ℝ) zs) t - eval (castPts (Rat.castHom ℝ) ws) t| ≤ 7 / 2 := by
  obtain ⟨z, zs, w, ws, e1, hz, e2, hw, h⟩ := C135_error B64.rat_mono nd 0 [("x", ofPts recX)] [("x", ofPts recZ)] false
    0 2 4 2 (by norm_num) (by norm_num) (1 / 2) (fun _ => recX) (fun _ => recZ) 2 recPhi recPhi_levels
    (fun m hm => (rec_ends m hm).1)
    (fun m hm => by
      obtain rfl := recPhi_uses hm
      exact ⟨_, rfl, represents_ofPts (by unfold Increasing; decide +kernel), ⟨_, _, rfl⟩, _, rfl⟩)
    (fun _ _ => rec_steps.1)
    (fun _ _ => by
      simp only [StepAtMost, recZ, List.isChain_cons_cons, List.isChain_singleton, and_true, abs_le]; norm_num)
    fun _ _ t _ => by rw [rec_raised, abs_le]; constructor <;> linarith
  refine ⟨z, zs, w, ws, e1, hz, e2, hw, fun t ht => (h t (by simpa using ht)).trans ?_⟩
  norm_num

/-- The hypotheses of `C135_improve`. -/
example (nd : Bool) : ∃ z zs w ws, computeRobustness nd 0 recPhi [("x", ofPts recX)] false = .ok z ∧ Represents z zs ∧
    computeRobustness nd 0 recPhi [("x", ofPts recZ)] false = .ok w ∧ Represents w ws ∧ ∀ t ∈ Set.Icc (0 : ℝ) 2,
      eval (castPts (Rat.castHom ℝ) zs) t ≤ eval (castPts (Rat.castHom ℝ) ws) t + 3 := by
  obtain ⟨z, zs, w, ws, e1, hz, e2, hw, h⟩ := C135_improve B64.rat_mono nd 0 [("x", ofPts recX)] [("x", ofPts recZ)] false
    0 2 4 2 (by norm_num) (by norm_num) (fun _ => true) (fun _ => recX) (fun _ => recZ) 2 recPhi recPhi_levels
    (.always (.eventually (.pred _ _ _))) (.always (.eventually (.ge "x" _)))
    (fun m hm => (rec_ends m hm).1)
    (fun m hm => by
      obtain rfl := recPhi_uses hm
      exact ⟨_, rfl, represents_ofPts (by unfold Increasing; decide +kernel), ⟨_, _, rfl⟩, _, rfl⟩)
    (fun _ _ => rec_steps.1)
    (fun _ _ => by
      simp only [StepAtMost, recZ, List.isChain_cons_cons, List.isChain_singleton, and_true, abs_le]; norm_num)
    fun _ _ t _ => ⟨fun _ => by rw [rec_raised]; linarith, fun h => by cases h⟩
  refine ⟨z, zs, w, ws, e1, hz, e2, hw, fun t ht => (h t (by simpa using ht)).trans ?_⟩
  norm_num

/-- The hypotheses of `C135_binary64`. -/
example (nd : Bool) : ∃ (z w : Signal B64) (zs ws : List (ℚ × ℚ)),
    computeRobustness (K := B64) nd 0 recPhi [("x", ofPts (K := B64) recX)] false = .ok z ∧ Represents (K := B64) z zs ∧
    computeRobustness (K := B64) nd 0 recPhi [("x", ofPts (K := B64) recY)] false = .ok w ∧ Represents (K := B64) w ws ∧
    ∀ t ∈ Set.Icc (0 : ℝ) 2, |eval (castPts (Rat.castHom ℝ) zs) t - eval (castPts (Rat.castHom ℝ) ws) t| ≤ 3 + 9 / 2 ^ 47 := by
  have b : ∀ n : ℤ, |n| < 2 ^ 53 → IsB64 (n : ℚ) := fun n h => ⟨n, 0, by simp, h, by norm_num, by norm_num⟩
  have b1 := b 1 (by norm_num)
  have b3 := b 3 (by norm_num)
  have b4 := b 4 (by norm_num)
  have b5 := b 5 (by norm_num)
  push_cast at b1 b3 b4 b5
  have t : ∀ n : ℤ, ∃ m : ℤ, (n / 2 : ℚ) = m / 2 ^ 100 := fun n => ⟨n * 2 ^ 99, by push_cast; ring⟩
  have t0 := t 0
  have t1 := t 1
  have t2 := t 2
  have t4 := t 4
  norm_num at t0 t1 t2 t4
  have sx : Steady 5 [("x", recX)] := by
    intro e he
    simp only [List.mem_cons, List.not_mem_nil, or_false] at he
    subst he
    refine ⟨by simp [Increasing, recX], fun p hp => ?_⟩
    simp only [recX, List.mem_cons, List.not_mem_nil, or_false] at hp
    rcases hp with rfl | rfl | rfl <;> norm_num [b1, b3, b5, t0, t2, t4]
  have sy : Steady 5 [("x", recY)] := by
    intro e he
    simp only [List.mem_cons, List.not_mem_nil, or_false] at he
    subst he
    refine ⟨by unfold Increasing; decide +kernel, fun p hp => ?_⟩
    simp only [recY, List.mem_cons, List.not_mem_nil, or_false] at hp
    rcases hp with rfl | rfl | rfl | rfl <;> norm_num [b1, b3, b5, t0, t1, t2, t4, abs_le]
  obtain ⟨z, w, zs, ws, e1, hz, e2, hw, h⟩ := C135_binary64 nd 0 false [("x", recX)] [("x", recY)] 5 4 0 2 4 2 0 0 2 recPhi
    (fun _ => recX) (fun _ => recY) (by norm_num) (by norm_num) sx sy (.always (.eventually (.pred "x" .GE b4 (by norm_num))))
    recPhi_levels (by norm_num) (by norm_num) (by norm_num)
    (fun m hm => by obtain rfl := recPhi_uses hm; exact ⟨rfl, ⟨_, _, rfl⟩, _, rfl⟩)
    (fun m hm => by obtain rfl := recPhi_uses hm; exact ⟨rfl, ⟨_, _, rfl⟩, _, rfl⟩)
    (fun _ _ => rec_steps.1) (fun _ _ => rec_steps.2) fun _ _ t _ => by rw [rec_same t, sub_self, abs_zero]
  refine ⟨z, w, zs, ws, e1, hz, e2, hw, fun t ht => (h t (by simpa using ht)).trans ?_⟩
  norm_num

end Verif
