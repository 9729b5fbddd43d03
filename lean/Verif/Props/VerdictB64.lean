import Verif.Props.ActualB64
import Verif.Props.OverUntil
import Verif.Proofs.Bare

/-!
# C133: one-sided verdicts in binary64

C39, C40 and C129 say which verdicts of exact evaluation are right about the formula itself, with its intervals.  Here
the same is shown for the evaluation in binary64: the verdict is right if the computed value is farther from zero than
the rounding error.
-/

set_option linter.unusedSectionVars false
set_option exponentiation.threshold 1100

namespace Verif
open Spec
open B64 (rpts rat_mono)

/-- The trace of exact numbers. -/
theorem exact_lookup {V t0 T : ℚ} {tr : List (String × List (ℚ × ℚ))} {phi : Expr ℚ} {sig : String → List (ℚ × ℚ)}
    (htr : Steady V tr)
    (hs : ∀ m, Uses m phi → tr.lookup m = some (sig m) ∧ (∃ v r, sig m = (t0, v) :: r) ∧
      ∃ v, (sig m).getLast? = some (T, v)) :
    ∀ m, Uses m phi → ∃ x, List.lookup m (tr.map fun e => (e.1, ofPts e.2)) = some x ∧ Represents x (sig m) ∧
      (∃ v r, sig m = (t0, v) :: r) ∧ ∃ v, (sig m).getLast? = some (T, v) := by
  intro m hm
  obtain ⟨k1, k2, k3⟩ := hs m hm
  refine ⟨ofPts (sig m), ?_, represents_ofPts (htr _ (lookup_mem' k1)).1, k2, k3⟩
  rw [map_lookup, k1]; rfl

/-- It is computed from the first to the last time. -/
theorem dom_exact {nd : Bool} {fuel : Nat} {sy : Bool} {trace : Trace ℚ} {t0 T : ℚ} {phi : Expr ℚ}
    {sig : String → List (ℚ × ℚ)} (hp : Plain phi)
    (hs : ∀ m, Uses m phi → ∃ x, trace.lookup m = some x ∧ Represents x (sig m) ∧
      (∃ v r, sig m = (t0, v) :: r) ∧ ∃ v, (sig m).getLast? = some (T, v)) {w : Signal ℚ} {ws : List (ℚ × ℚ)}
    (e : computeRobustness nd fuel phi trace sy = .ok w) (hw : Represents w ws) :
    dom (rpts ws) = Set.Icc (t0 : ℝ) T := by
  obtain ⟨d, hl⟩ := plain_levels hp
  obtain ⟨ha, hd⟩ := aligned_cast rat_mono hs
  have hpl := (levels_cast rat_mono hl).plain
  obtain ⟨z', zs', e', hz', -, hdz⟩ := C34_total nd fuel _ sy _ _ _ hpl ha
  obtain ⟨z, zs, e1, hz, -, rfl, rfl⟩ := result_cast rat_mono nd fuel trace sy t0 sig phi hp
    (fun n hn => by obtain ⟨x, h1, h2, h3, -⟩ := hs n hn; exact ⟨x, h1, h2, h3⟩) e' hz'
  rw [e] at e1
  simp only [Outcome.ok.injEq] at e1; subst e1
  obtain rfl : ws = zs := represents_unique' hw hz
  exact dom_common hpl hd hdz

/-- The result in binary64 beside the exact one. -/
theorem beside_exact (nd : Bool) (fuel : Nat) (sy : Bool) (tr : List (String × List (ℚ × ℚ))) (V C : ℚ) (n : ℕ)
    (phi : Expr ℚ) (htr : Steady V tr) (hphi : UntilOnly C n phi) (h0 : 1 / 2 ^ 900 ≤ V + C) (h1 : V + C ≤ 2 ^ 899)
    (hn : n < 2 ^ 48) {w : Signal ℚ} {ws : List (ℚ × ℚ)}
    (e : computeRobustness nd fuel phi (tr.map fun e => (e.1, ofPts e.2)) sy = .ok w) (hw : Represents w ws) :
    ∃ (z : Signal B64) (zs : List (ℚ × ℚ)),
      computeRobustness (K := B64) nd fuel phi (tr.map fun e => (e.1, ofPts (K := B64) e.2)) sy = .ok z ∧
      Represents (K := B64) z zs ∧ zs.map Prod.fst = ws.map Prod.fst ∧ Increasing zs ∧ Increasing ws ∧
      dom (rpts zs) = dom (rpts ws) ∧
      (∀ t ∈ dom zs, |eval zs t - eval ws t| ≤ (n + 1) / 2 ^ 48 * (V + C)) ∧
      ∀ t ∈ dom (rpts zs), |eval (rpts zs) t - eval (rpts ws) t| ≤ (n + 1) / 2 ^ 48 * (V + C) := by
  obtain ⟨z, hz⟩ := (C127_ok nd fuel phi sy tr V C n htr hphi h0 (pow_bound h0 h1 hn)).2 ⟨w, e⟩
  obtain ⟨w', zs, ws', e', hr, hw', hf, hb⟩ := C127_linear nd fuel phi sy tr V C n htr hphi h0 h1 hn z hz
  rw [e] at e'
  simp only [Outcome.ok.injEq] at e'; subst e'
  obtain rfl : ws = ws' := represents_unique' hw hw'
  have hi := ((represents_iff (K := B64) _ _).1 hr).1
  have hi' := ((represents_iff _ _).1 hw).1
  refine ⟨z, zs, hz, hr, hf, hi, hi', dom_of_fst (by
      have := congrArg (List.map (Rat.castHom ℝ)) hf
      simpa [rpts, castPts, Function.comp_def] using this), hb, fun t ht => ?_⟩
  have := eval_cast_close hi hi' hf hb ht
  push_cast at this
  exact this

/-- **C133, safety.**  Not, Always and Eventually over predicates, with any intervals, where positive Eventually and
negative Always do not occur: at every real time the computed robustness is at most `2^-48 (V + C)` above the dense-time
robustness of the formula, so that a greater value means that the formula is satisfied. -/
theorem C133_safety (nd : Bool) (fuel : Nat) (sy : Bool) (tr : List (String × List (ℚ × ℚ))) (V C t0 T : ℚ)
    (phi : Expr ℚ) (sig : String → List (ℚ × ℚ)) (htr : Steady V tr) (hphi : UntilOnly C 0 phi)
    (hp : Safety true phi) (h0 : 1 / 2 ^ 900 ≤ V + C) (h1 : V + C ≤ 2 ^ 899)
    (hs : ∀ m, Uses m phi → tr.lookup m = some (sig m) ∧ (∃ v r, sig m = (t0, v) :: r) ∧
      ∃ v, (sig m).getLast? = some (T, v)) :
    ∃ (z : Signal B64) (zs : List (ℚ × ℚ)),
      computeRobustness (K := B64) nd fuel phi (tr.map fun e => (e.1, ofPts (K := B64) e.2)) sy = .ok z ∧
      Represents (K := B64) z zs ∧ ∀ t ∈ Set.Icc (t0 : ℝ) T,
        ((eval (castPts (Rat.castHom ℝ) zs) t - 1 / 2 ^ 48 * (V + C) : ℝ) : EReal) ≤
          rob T (fun m => eval (castPts (Rat.castHom ℝ) (sig m))) (castExpr (Rat.castHom ℝ) phi) t ∧
        (1 / 2 ^ 48 * (V + C) < eval (castPts (Rat.castHom ℝ) zs) t →
          Sat T (fun m => eval (castPts (Rat.castHom ℝ) (sig m))) (castExpr (Rat.castHom ℝ) phi) t) := by
  obtain ⟨w, ws, e, hw, k, -⟩ := C130_safety rat_mono nd fuel _ sy t0 T sig phi hp (exact_lookup htr hs)
  have hd := dom_exact hp.plain (exact_lookup htr hs) e hw
  obtain ⟨z, zs, hz, hr, -, -, -, hdz, -, hb⟩ := beside_exact nd fuel sy tr V C 0 phi htr hphi h0 h1 (by norm_num) e hw
  refine ⟨z, zs, hz, hr, fun t ht => ?_⟩
  have hc := abs_le.1 (hb t (by rw [hdz, hd]; exact ht))
  simp only [Nat.cast_zero, zero_add] at hc
  obtain ⟨k1, -⟩ := k t ht
  have k2 : ((eval (rpts zs) t - 1 / 2 ^ 48 * (V + C) : ℝ) : EReal) ≤
      rob T (fun m => eval (rpts (sig m))) (castExpr (Rat.castHom ℝ) phi) t :=
    le_trans (EReal.coe_le_coe_iff.2 (by linarith)) k1
  refine ⟨k2, fun h => (rob_sat _ _ _ t).1 (lt_of_lt_of_le ?_ k2)⟩
  exact EReal.coe_pos.2 (by linarith)

/-- **C133, co-safety.**  The other polarity: a value below `-2^-48 (V + C)` means that the formula is violated. -/
theorem C133_cosafety (nd : Bool) (fuel : Nat) (sy : Bool) (tr : List (String × List (ℚ × ℚ))) (V C t0 T : ℚ)
    (phi : Expr ℚ) (sig : String → List (ℚ × ℚ)) (htr : Steady V tr) (hphi : UntilOnly C 0 phi)
    (hp : Safety false phi) (h0 : 1 / 2 ^ 900 ≤ V + C) (h1 : V + C ≤ 2 ^ 899)
    (hs : ∀ m, Uses m phi → tr.lookup m = some (sig m) ∧ (∃ v r, sig m = (t0, v) :: r) ∧
      ∃ v, (sig m).getLast? = some (T, v)) :
    ∃ (z : Signal B64) (zs : List (ℚ × ℚ)),
      computeRobustness (K := B64) nd fuel phi (tr.map fun e => (e.1, ofPts (K := B64) e.2)) sy = .ok z ∧
      Represents (K := B64) z zs ∧ ∀ t ∈ Set.Icc (t0 : ℝ) T,
        rob T (fun m => eval (castPts (Rat.castHom ℝ) (sig m))) (castExpr (Rat.castHom ℝ) phi) t ≤
          ((eval (castPts (Rat.castHom ℝ) zs) t + 1 / 2 ^ 48 * (V + C) : ℝ) : EReal) ∧
        (eval (castPts (Rat.castHom ℝ) zs) t < -(1 / 2 ^ 48 * (V + C)) →
          ¬ Sat T (fun m => eval (castPts (Rat.castHom ℝ) (sig m))) (castExpr (Rat.castHom ℝ) phi) t) := by
  obtain ⟨w, ws, e, hw, k, -⟩ := C130_cosafety rat_mono nd fuel _ sy t0 T sig phi hp (exact_lookup htr hs)
  have hd := dom_exact hp.plain (exact_lookup htr hs) e hw
  obtain ⟨z, zs, hz, hr, -, -, -, hdz, -, hb⟩ := beside_exact nd fuel sy tr V C 0 phi htr hphi h0 h1 (by norm_num) e hw
  refine ⟨z, zs, hz, hr, fun t ht => ?_⟩
  have hc := abs_le.1 (hb t (by rw [hdz, hd]; exact ht))
  simp only [Nat.cast_zero, zero_add] at hc
  obtain ⟨k1, -⟩ := k t ht
  have k2 : rob T (fun m => eval (rpts (sig m))) (castExpr (Rat.castHom ℝ) phi) t ≤
      ((eval (rpts zs) t + 1 / 2 ^ 48 * (V + C) : ℝ) : EReal) :=
    le_trans k1 (EReal.coe_le_coe_iff.2 (by linarith))
  refine ⟨k2, fun h => (rob_sat _ _ _ t).2 (lt_of_le_of_lt k2 ?_)⟩
  exact EReal.coe_neg'.2 (by linarith)

/-- **C133, Until.**  Formulas with one level of Until (C129) on signals with different timestamps: a value below
`-2^-47 (V + C)` at a sample means that the formula is violated there, and such values at two successive samples that it is
violated between them. -/
theorem C133_until (nd : Bool) (fuel : Nat) (sy : Bool) (tr : List (String × List (ℚ × ℚ))) (V C t0 T : ℚ)
    (phi : Expr ℚ) (sig : String → List (ℚ × ℚ)) (htr : Steady V tr) (hphi : UntilOnly C 1 phi)
    (hp : OverUntil false phi) (h0 : 1 / 2 ^ 900 ≤ V + C) (h1 : V + C ≤ 2 ^ 899)
    (hs : ∀ m, Uses m phi → tr.lookup m = some (sig m) ∧ (∃ v r, sig m = (t0, v) :: r) ∧
      ∃ v, (sig m).getLast? = some (T, v)) :
    ∃ (z : Signal B64) (zs : List (ℚ × ℚ)),
      computeRobustness (K := B64) nd fuel phi (tr.map fun e => (e.1, ofPts (K := B64) e.2)) sy = .ok z ∧
      Represents (K := B64) z zs ∧
      (∀ t v : ℚ, (t, v) ∈ zs → v < -(1 / 2 ^ 47 * (V + C)) →
        ¬ Sat T (fun m => eval (castPts (Rat.castHom ℝ) (sig m))) (castExpr (Rat.castHom ℝ) phi) t) ∧
      ∀ (l r : List (ℚ × ℚ)) (t v t' v' : ℚ), zs = l ++ (t, v) :: (t', v') :: r → v < -(1 / 2 ^ 47 * (V + C)) →
        v' < -(1 / 2 ^ 47 * (V + C)) → ∀ s : ℝ, t ≤ s → s ≤ t' →
          ¬ Sat T (fun m => eval (castPts (Rat.castHom ℝ) (sig m))) (castExpr (Rat.castHom ℝ) phi) s := by
  obtain ⟨w, ws, e, hw, k, kk⟩ := C129_samples rat_mono nd fuel _ sy t0 T sig phi hp (exact_lookup htr hs)
  obtain ⟨z, zs, hz, hr, hf, hi, hi', -, hb, -⟩ := beside_exact nd fuel sy tr V C 1 phi htr hphi h0 h1 (by norm_num) e hw
  have near : ∀ t v u : ℚ, (t, v) ∈ zs → (t, u) ∈ ws → v < -(1 / 2 ^ 47 * (V + C)) → u < 0 := by
    intro t v u hv hu hlt
    have := abs_le.1 (hb t (mem_dom_of_mem' hv))
    rw [eval_mem hi hv, eval_mem hi' hu] at this
    norm_num at this hlt
    linarith
  refine ⟨z, zs, hz, hr, fun t v hm hlt => ?_, ?_⟩
  · have : t ∈ ws.map Prod.fst := hf ▸ List.mem_map_of_mem (f := Prod.fst) hm
    obtain ⟨⟨t', u⟩, hu, rfl⟩ := List.mem_map.1 this
    exact (k _ hu).2 (near _ _ _ hm hu hlt)
  · rintro l r t v t' v' rfl hv hv' s g1 g2
    simp only [List.map_append, List.map_cons] at hf
    obtain ⟨l', r', rfl, -, e2⟩ := List.map_eq_append_iff.1 hf.symm
    cases r' with
    | nil => simp at e2
    | cons p r' =>
      cases r' with
      | nil => simp at e2
      | cons q r' =>
        obtain ⟨t1, u⟩ := p
        obtain ⟨t2, u'⟩ := q
        simp only [List.map_cons, List.cons.injEq] at e2
        obtain ⟨rfl, rfl, -⟩ := e2
        exact (kk l' _ _ r' rfl s g1 g2).2 (near t1 v u (by simp) (by simp) hv)
          (near t2 v' u' (by simp) (by simp) hv')

/-- **C133, signs.**  And and Or included, without any margin: at a time at which all signals used have a sample, a
positive value of a formula of `Safety true` means that the formula, with its intervals, is satisfied, and a negative
value of a formula of `Safety false` that it is violated.  `actual` replaces the intervals by `[0, inf)`. -/
theorem C133_sign (nd : Bool) (fuel : Nat) (phi : Expr B64) (trace : Trace B64) (sy pol : Bool) (hp : Safety pol phi)
    (hl : Layered (fun c : B64 => IsB64 c) (actual phi)) (ht : FiniteTimes trace) (T t : B64)
    (sig : String → List (B64 × B64))
    (hs : ∀ n, Uses n phi → (∃ x, trace.lookup n = some x ∧ Represents x (sig n)) ∧
      (∃ v, (sig n).getLast? = some (T, v)) ∧ (∀ p ∈ sig n, IsB64 p.2) ∧ t ∈ (sig n).map Prod.fst)
    (z : Signal B64) (h : computeRobustness nd fuel phi trace sy = .ok z) :
    ∃ v : D B64, HasSample z (.fin t) v ∧ v ≠ .nan ∧
      (pol = true → D.lt 0 v = true →
        Sat (b64Cast T) (fun n => eval (castPts b64Cast (sig n))) (castExpr b64Cast phi) (b64Cast t)) ∧
      (pol = false → v.lt 0 = true →
        ¬ Sat (b64Cast T) (fun n => eval (castPts b64Cast (sig n))) (castExpr b64Cast phi) (b64Cast t)) := by
  have hc : computeRobustness nd fuel (actual phi) trace sy = .ok z := by
    rw [← h]
    exact compute_actual (r := ⟨nd, fuel, (minMaxTime trace).1, (minMaxTime trace).2, trace⟩) ht (minMaxTime_fin ht) hp
  obtain ⟨v, h1, h2, h3, h4, -⟩ := C86_verdicts nd fuel (actual phi) trace sy hl ht T t sig
    (fun n hn => hs n (uses_actual hp.plain hn)) z hc
  rw [cast_actual hp] at h3 h4
  obtain ⟨k1, k2⟩ := rob_bare (T := b64Cast T) (x := fun n => eval (castPts b64Cast (sig n)))
    (safety_cast_any b64Cast_strictMono hp) (b64Cast t)
  exact ⟨v, h1, h2, fun hpol hv => (rob_sat _ _ _ _).1 (lt_of_lt_of_le (h3.1 hv) (k1 hpol)),
    fun hpol hv => (rob_sat _ _ _ _).2 (lt_of_le_of_lt (k2 hpol) (h4.1 hv))⟩

/-! ## Concrete cases -/

theorem b64_int (n : ℤ) (h : |n| < 2 ^ 53) : IsB64 (n : ℚ) := ⟨n, 0, by simp, h, by norm_num, by norm_num⟩

/-- `G[1,2] (x <= 2)`. -/
def boundPhi : Expr ℚ := .always (.pred "x" .LE (.fin 2)) ⟨.ull 1, .ull 2⟩

/-- `(not (y >= -1)) U[0,3] (x <= 1/2)`. -/
def failPhi : Expr ℚ := .untl (.not (.pred "y" .GE (.fin (-1)))) (.pred "x" .LE (.fin (1 / 2))) ⟨.ull 0, .ull 3⟩

theorem boundPhi_ends : ∀ m, Uses m boundPhi → untilTrace.lookup m = some (untilSig m) ∧
    (∃ v r, untilSig m = (0, v) :: r) ∧ ∃ v, (untilSig m).getLast? = some (3, v) := by
  intro m hm
  cases hm with
  | always h => cases h; exact ⟨rfl, ⟨_, _, rfl⟩, _, rfl⟩

theorem failPhi_ends : ∀ m, Uses m failPhi → untilTrace.lookup m = some (untilSig m) ∧
    (∃ v r, untilSig m = (0, v) :: r) ∧ ∃ v, (untilSig m).getLast? = some (3, v) := by
  intro m hm
  cases hm with
  | untl_left h => cases h with | not h => cases h; exact ⟨rfl, ⟨_, _, rfl⟩, _, rfl⟩
  | untl_right h => cases h; exact ⟨rfl, ⟨_, _, rfl⟩, _, rfl⟩

/-- The first point of a computed signal. -/
theorem first_of {K : Type} [Field K] [LinearOrder K] [Arith K] {o : Outcome (Signal K)} {z : Signal K}
    {zs : List (K × K)} {t v : K}
    (h : (match o with | .ok z => z.samples.head?.map tv | _ => none) = some (.fin t, .fin v)) (e : o = .ok z)
    (hr : Represents z zs) : ∃ r, zs = (t, v) :: r := by
  subst e
  simp only at h
  have h2 : z.samples.map tv = zs.map lift := hr.2
  rw [← List.head?_map, h2] at h
  cases zs with
  | nil => cases h
  | cons p r =>
    have h' : lift p = (.fin t, .fin v) := Option.some.inj h
    simp only [lift, Prod.mk.injEq, D.fin.injEq] at h'
    exact ⟨r, by rw [← h'.1, ← h'.2]⟩

example : Sat 3 (fun m => eval (castPts (Rat.castHom ℝ) (untilSig m))) (castExpr (Rat.castHom ℝ) boundPhi) 0 := by
  have b2 := b64_int 2 (by norm_num)
  push_cast at b2
  obtain ⟨z, zs, e, hr, h⟩ := C133_safety false 0 false untilTrace 2 2 0 3 boundPhi untilSig untilTrace_steady
    (.always (.pred "x" .LE b2 (by norm_num))) (.always (.inr (.inl ⟨1, 2, rfl⟩)) (.pred _ _ _ _))
    (by norm_num) (by norm_num) boundPhi_ends
  obtain ⟨r, rfl⟩ : ∃ r : List (ℚ × ℚ), zs = ((0 : ℚ), (1 : ℚ)) :: r :=
    first_of (K := B64) (t := 0) (v := 1) (by decide +kernel) e hr
  have hv := eval_mem (castPts_increasing rat_mono ((represents_iff (K := B64) _ _).1 hr).1)
    (p := (((0 : ℚ) : ℝ), ((1 : ℚ) : ℝ))) (by simp [castPts])
  have := (h 0 (by simp)).2
  simp only [Rat.cast_zero] at hv
  rw [hv] at this
  simpa using this (by norm_num)

example : ¬ Sat 3 (fun m => eval (castPts (Rat.castHom ℝ) (untilSig m))) (castExpr (Rat.castHom ℝ) failPhi) 0 := by
  have b1 := b64_int (-1) (by norm_num)
  push_cast at b1
  have b2 : IsB64 (1 / 2 : ℚ) := ⟨1, -1, by norm_num, by norm_num, by norm_num, by norm_num⟩
  obtain ⟨z, zs, e, hr, h, -⟩ := C133_until false 0 false untilTrace 2 1 0 3 failPhi untilSig untilTrace_steady
    (.untl (.not (.pred "y" .GE b1 (by norm_num))) (.pred "x" .LE b2 (by norm_num [abs_le])))
    (.untl (.inr (.inl ⟨0, 3, rfl⟩)) (.not (.pred _ _ _ _)) (.pred _ _ _ _))
    (by norm_num) (by norm_num) failPhi_ends
  obtain ⟨r, rfl⟩ : ∃ r : List (ℚ × ℚ), zs = ((0 : ℚ), (-1 / 2 : ℚ)) :: r :=
    first_of (K := B64) (t := 0) (v := -1 / 2) (by decide +kernel) e hr
  simpa using h 0 (-1 / 2) (by simp) (by norm_num)

example : ¬ Sat 3 (fun m => eval (castPts (Rat.castHom ℝ) (untilSig m)))
    (castExpr (Rat.castHom ℝ) (.not boundPhi)) 0 := by
  have b2 := b64_int 2 (by norm_num)
  push_cast at b2
  obtain ⟨z, zs, e, hr, h⟩ := C133_cosafety false 0 false untilTrace 2 2 0 3 (.not boundPhi) untilSig untilTrace_steady
    (.not (.always (.pred "x" .LE b2 (by norm_num)))) (.not (.always (.inr (.inl ⟨1, 2, rfl⟩)) (.pred _ _ _ _)))
    (by norm_num) (by norm_num) (fun m hm => by cases hm with | not hm => exact boundPhi_ends m hm)
  obtain ⟨r, rfl⟩ : ∃ r : List (ℚ × ℚ), zs = ((0 : ℚ), (-1 : ℚ)) :: r :=
    first_of (K := B64) (t := 0) (v := -1) (by decide +kernel) e hr
  have hv := eval_mem (castPts_increasing rat_mono ((represents_iff (K := B64) _ _).1 hr).1)
    (p := (((0 : ℚ) : ℝ), ((-1 : ℚ) : ℝ))) (by simp [castPts])
  have := (h 0 (by simp)).2
  simp only [Rat.cast_zero] at hv
  rw [hv] at this
  simpa using this (by norm_num)

/-- `G[1,2] (x <= 2) and G[0,1] (x >= -2)`. -/
def bothPhi : Expr B64 := .and [.always (.pred "x" .LE (.fin (2 : ℚ))) ⟨.ull 1, .ull 2⟩,
  .always (.pred "x" .GE (.fin (-2 : ℚ))) ⟨.ull 0, .ull 1⟩]

example : Safety true bothPhi ∧ Layered (fun c : B64 => IsB64 c) (actual bothPhi) := by
  constructor
  · refine .and (by simp) fun e he => ?_
    simp only [List.mem_cons, List.not_mem_nil, or_false] at he
    rcases he with rfl | rfl
    · exact .always (.inr (.inl ⟨1, 2, rfl⟩)) (.pred _ _ _ _)
    · exact .always (.inr (.inl ⟨0, 1, rfl⟩)) (.pred _ _ _ _)
  · rw [bothPhi, actual, actuals_eq]
    refine .and (by simp) fun e he => ?_
    simp only [List.map_cons, List.map_nil, List.mem_cons, List.not_mem_nil, or_false] at he
    rcases he with rfl | rfl
    · exact .chain (.always (.pred _ _ (by exact_mod_cast b64_int 2 (by norm_num))))
    · exact .chain (.always (.pred _ _ (by exact_mod_cast b64_int (-2) (by norm_num))))
/-- The computed value at time 0 is positive. -/
example : ((computeRobustness (K := B64) false 0 bothPhi (untilTrace.map fun e => (e.1, ofPts (K := B64) e.2)) false).map'
    fun z => z.samples.head?.map fun p => (p.time, D.lt 0 p.value)) = .ok (some (.fin (0 : ℚ), true)) := by
  decide +kernel

end Verif
