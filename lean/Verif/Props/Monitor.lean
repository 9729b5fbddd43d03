import Verif.Props.Prefix
import Verif.Props.VerdictB64
import Verif.Props.AccuracyNest

/-!
# C138: monitoring a physical system

Real signals are measured up to the time `T`, with errors, at some times, and recorded as doubles.  What do the numbers
computed from the record say about the signals themselves, now and later?
-/

set_option linter.unusedSectionVars false
set_option exponentiation.threshold 1100

namespace Verif
open Spec

/-- **C138, verdicts.**  In the setting of C132 for measured signals: beyond the bound `B` the sign of the computed value is
the verdict on the real signals, and every time at which their robustness is beyond `2 B` is recognised. -/
theorem C138_verdict (nd : Bool) (fuel : Nat) (sy : Bool) (tr : List (String × List (ℚ × ℚ))) (V C t0 T : ℚ) (n d : ℕ)
    (phi : Expr ℚ) (sig : String → List (ℚ × ℚ)) (htr : Steady V tr) (hphi : UntilOnly C n phi)
    (hp : Levels d phi) (h0 : 1 / 2 ^ 900 ≤ V + C) (h1 : V + C ≤ 2 ^ 899) (hn : n < 2 ^ 48)
    (hs : ∀ m, Uses m phi → tr.lookup m = some (sig m) ∧ (∃ v r, sig m = (t0, v) :: r) ∧
      ∃ v, (sig m).getLast? = some (T, v))
    (f : String → ℝ → ℝ) (L h η : ℝ) (hL : 0 ≤ L) (hh : 0 ≤ h) (hη : 0 ≤ η)
    (hf : ∀ m, Uses m phi → ∀ s ∈ Set.Icc (t0 : ℝ) T, ∀ t ∈ Set.Icc (t0 : ℝ) T, |f m t - f m s| ≤ L * |t - s|)
    (hm : ∀ m, Uses m phi → ∀ p ∈ sig m, |(p.2 : ℝ) - f m p.1| ≤ η)
    (hg : ∀ m, Uses m phi → (sig m).IsChain fun p q => ((q.1 - p.1 : ℚ) : ℝ) ≤ h)
    (ψ : Expr ℝ) (B : ℝ) (hψ : ψ = actual (castExpr (Rat.castHom ℝ) phi))
    (hB : B = (d / 4 + 1 / 2) * (L * h) + (d / 2 + 1) * η + (n + 1) / 2 ^ 48 * (V + C)) :
    ∃ (z : Signal B64) (zs : List (ℚ × ℚ)),
      computeRobustness (K := B64) nd fuel phi (tr.map fun e => (e.1, ofPts (K := B64) e.2)) sy = .ok z ∧
      Represents (K := B64) z zs ∧ ∀ t ∈ Set.Icc (t0 : ℝ) T,
        (B < eval (castPts (Rat.castHom ℝ) zs) t → Sat T f ψ t) ∧
        (eval (castPts (Rat.castHom ℝ) zs) t < -B → ¬ Sat T f ψ t) ∧
        (((2 * B : ℝ) : EReal) < rob T f ψ t → B < eval (castPts (Rat.castHom ℝ) zs) t) ∧
        (rob T f ψ t < ((-(2 * B) : ℝ) : EReal) → eval (castPts (Rat.castHom ℝ) zs) t < -B) := by
  subst hψ hB
  obtain ⟨z, zs, e, hz, -, k⟩ := C132_measured nd fuel sy tr V C t0 T n d phi sig htr hphi hp h0 h1 hn hs f L h η hL hh hη
    hf hm hg
  refine ⟨z, zs, e, hz, fun t ht => ?_⟩
  obtain ⟨r, hr, ha⟩ := k t ht
  have := abs_le.1 ha
  refine ⟨fun h => (rob_sat _ _ _ t).1 ?_, fun h => (rob_sat _ _ _ t).2 ?_, fun h => ?_, fun h => ?_⟩
  · rw [hr]; exact EReal.coe_pos.2 (by linarith)
  · rw [hr]; exact EReal.coe_neg'.2 (by linarith)
  · rw [hr, EReal.coe_lt_coe_iff] at h; linarith
  · rw [hr, EReal.coe_lt_coe_iff] at h; linarith

/-- **C138, the future.**  The real signals go on after the record ends, in any way.  A value of a safety formula below `-B`
means that it is violated up to every later time `T'`, whatever happens; a value above `B` that it was satisfied so far,
also with its intervals.  Co-safety formulas the other way round. -/
theorem C138_future (nd : Bool) (fuel : Nat) (sy : Bool) (tr : List (String × List (ℚ × ℚ))) (V C t0 T : ℚ) (n d : ℕ)
    (phi : Expr ℚ) (pol : Bool) (sig : String → List (ℚ × ℚ)) (htr : Steady V tr) (hphi : UntilOnly C n phi)
    (hp : Levels d phi) (hsf : Safety pol phi) (h0 : 1 / 2 ^ 900 ≤ V + C) (h1 : V + C ≤ 2 ^ 899) (hn : n < 2 ^ 48)
    (hs : ∀ m, Uses m phi → tr.lookup m = some (sig m) ∧ (∃ v r, sig m = (t0, v) :: r) ∧
      ∃ v, (sig m).getLast? = some (T, v))
    (f : String → ℝ → ℝ) (L h η : ℝ) (hL : 0 ≤ L) (hh : 0 ≤ h) (hη : 0 ≤ η)
    (hf : ∀ m, Uses m phi → ∀ s ∈ Set.Icc (t0 : ℝ) T, ∀ t ∈ Set.Icc (t0 : ℝ) T, |f m t - f m s| ≤ L * |t - s|)
    (hm : ∀ m, Uses m phi → ∀ p ∈ sig m, |(p.2 : ℝ) - f m p.1| ≤ η)
    (hg : ∀ m, Uses m phi → (sig m).IsChain fun p q => ((q.1 - p.1 : ℚ) : ℝ) ≤ h) (B : ℝ)
    (hB : B = (d / 4 + 1 / 2) * (L * h) + (d / 2 + 1) * η + (n + 1) / 2 ^ 48 * (V + C)) :
    ∃ (z : Signal B64) (zs : List (ℚ × ℚ)),
      computeRobustness (K := B64) nd fuel phi (tr.map fun e => (e.1, ofPts (K := B64) e.2)) sy = .ok z ∧
      Represents (K := B64) z zs ∧ ∀ t ∈ Set.Icc (t0 : ℝ) T,
        (pol = true → eval (castPts (Rat.castHom ℝ) zs) t < -B → ∀ T' : ℝ, (T : ℝ) ≤ T' →
          ¬ Sat T' f (actual (castExpr (Rat.castHom ℝ) phi)) t) ∧
        (pol = true → B < eval (castPts (Rat.castHom ℝ) zs) t → Sat T f (castExpr (Rat.castHom ℝ) phi) t) ∧
        (pol = false → B < eval (castPts (Rat.castHom ℝ) zs) t → ∀ T' : ℝ, (T : ℝ) ≤ T' →
          Sat T' f (actual (castExpr (Rat.castHom ℝ) phi)) t) ∧
        (pol = false → eval (castPts (Rat.castHom ℝ) zs) t < -B → ¬ Sat T f (castExpr (Rat.castHom ℝ) phi) t) := by
  subst hB
  obtain ⟨z, zs, e, hz, -, k⟩ := C132_measured nd fuel sy tr V C t0 T n d phi sig htr hphi hp h0 h1 hn hs f L h η hL hh hη
    hf hm hg
  refine ⟨z, zs, e, hz, fun t ht => ?_⟩
  obtain ⟨r, hr, ha⟩ := k t ht
  have := abs_le.1 ha
  have later := fun (T' : ℝ) (hT : (T : ℝ) ≤ T') =>
    rob_longer hT (x := f) (y := f) (safety_actual (ι := Rat.castHom ℝ) hsf) (fun _ _ _ _ => rfl) t ht
  have bare := rob_bare (T := T) (x := f) (safety_cast_any B64.rat_mono hsf) t
  rw [hr] at later bare
  refine ⟨fun hb h T' hT => (rob_sat _ _ _ t).2 (((later T' hT).1 hb).trans_lt ?_),
    fun hb h => (rob_sat _ _ _ t).1 (lt_of_lt_of_le ?_ (bare.1 hb)),
    fun hb h T' hT => (rob_sat _ _ _ t).1 (lt_of_lt_of_le ?_ ((later T' hT).2 hb)),
    fun hb h => (rob_sat _ _ _ t).2 ((bare.2 hb).trans_lt ?_)⟩
  · exact EReal.coe_neg'.2 (by linarith)
  · exact EReal.coe_pos.2 (by linarith)
  · exact EReal.coe_pos.2 (by linarith)
  · exact EReal.coe_neg'.2 (by linarith)

/-- **C138 with And and Or** below Always and Eventually (C120), at the samples of the result: `κ` bounds the distance of the
real signals from the recorded ones at all times (`η + L h / 2` in the setting above). -/
theorem C138_boolean (nd : Bool) (fuel : Nat) (phi : Expr B64) (trace : Trace B64) (sy : Bool) (V H d : ℚ) (k : Nat)
    (hp : Over (Nest (fun c : B64 => Mild c ∧ |(c : ℚ)| ≤ V) (Feeds nd fuel trace sy V H d) k) phi) (hd : 0 < d)
    (hpl : Plain (castExpr b64Cast phi)) (sig : String → List (B64 × B64)) (t0 T : B64)
    (hs : ∀ n, Uses n phi → (∃ x, trace.lookup n = some x ∧ Represents x (sig n)) ∧
      (∃ v, (sig n).getLast? = some (T, v)) ∧ dom (sig n) = Set.Icc t0 T ∧ Gentle V H (sig n))
    (f : String → ℝ → ℝ) (κ : ℝ) (hf : ∀ n, Uses n phi → ∀ t ∈ Set.Icc (b64Cast t0) (b64Cast T),
      |eval (castPts b64Cast (sig n)) t - f n t| ≤ κ)
    (B : ℝ) (hB : B = κ + (((k + 1) * (1 / 2 ^ 46 * V * (1 + H / d)) : ℚ) : ℝ))
    (z : Signal B64) (h : computeRobustness nd fuel phi trace sy = .ok z) :
    ∃ zs : List (B64 × B64), Represents z zs ∧ dom zs = Set.Icc t0 T ∧
      ∀ t v : ℚ, (t, v) ∈ zs →
        rob (b64Cast T) f (castExpr b64Cast phi) t ≤ ((v + B : ℝ) : EReal) ∧
        ((v - B : ℝ) : EReal) ≤ rob (b64Cast T) f (castExpr b64Cast phi) t ∧
        (B < v → Sat (b64Cast T) f (castExpr b64Cast phi) t) ∧
        (v < -B → ¬ Sat (b64Cast T) f (castExpr b64Cast phi) t) := by
  subst hB
  obtain ⟨zs, h1, h2, h3⟩ := C120_accuracy nd fuel phi trace sy V H d k hp hd sig T (Set.Icc t0 T) hs z h
  refine ⟨zs, h1, h2, fun t v hm => ?_⟩
  obtain ⟨g1, g2⟩ := h3 (t, v) hm
  have hd' : (t : B64) ∈ Set.Icc t0 T := by
    rw [← h2]; exact mem_dom_of_mem' hm
  have ht : (t : ℝ) ∈ Set.Icc (b64Cast t0) (b64Cast T) :=
    ⟨b64Cast_strictMono.monotone hd'.1, b64Cast_strictMono.monotone hd'.2⟩
  have c1 := rob_close (d := κ) hpl (fun _ _ _ hi h => window_ge hi h)
    (fun n hn t ht => hf n (uses_cast (K := ℚ) (ι := Rat.castHom ℝ) hn) t ht) _ ht
  have c2 := rob_close (d := κ) hpl (fun _ _ _ hi h => window_ge hi h)
    (fun n hn t ht => (abs_sub_comm _ _).trans_le (hf n (uses_cast (K := ℚ) (ι := Rat.castHom ℝ) hn) t ht)) _ ht
  have k1 : rob (b64Cast T) f (castExpr b64Cast phi) t ≤
      ((v + (κ + (((k + 1) * (1 / 2 ^ 46 * V * (1 + H / d)) : ℚ) : ℝ)) : ℝ) : EReal) := by
    refine c2.trans ((add_le_add_left g1 _).trans (le_of_eq ?_))
    rw [← EReal.coe_add, ← EReal.coe_add]
    exact congrArg _ (show (v : ℝ) + _ + κ = _ by ring)
  have k2 : ((v - (κ + (((k + 1) * (1 / 2 ^ 46 * V * (1 + H / d)) : ℚ) : ℝ)) : ℝ) : EReal) ≤
      rob (b64Cast T) f (castExpr b64Cast phi) t := by
    have a := g2.trans (add_le_add_left c1 _)
    rw [add_assoc, ← EReal.coe_add] at a
    have b := EReal.sub_le_of_le_add a
    rw [← EReal.coe_sub] at b
    exact b
  refine ⟨k1, k2, fun h => (rob_sat _ _ _ _).1 (lt_of_lt_of_le (EReal.coe_pos.2 (by linarith)) k2),
    fun h => (rob_sat _ _ _ _).2 (k1.trans_lt (EReal.coe_neg'.2 (by linarith)))⟩

/-- **C138 with And and Or, the future.**  For a safety formula a sample below `-B` means that no continuation of the real
signals satisfies it, for a co-safety formula a sample above `B` that all continuations do. -/
theorem C138_boolean_future (nd : Bool) (fuel : Nat) (phi : Expr B64) (trace : Trace B64) (sy : Bool) (V H d : ℚ) (k : Nat)
    (hp : Over (Nest (fun c : B64 => Mild c ∧ |(c : ℚ)| ≤ V) (Feeds nd fuel trace sy V H d) k) phi) (hd : 0 < d)
    (pol : Bool) (hsf : Safety pol (castExpr b64Cast phi)) (sig : String → List (B64 × B64)) (t0 T : B64)
    (hs : ∀ n, Uses n phi → (∃ x, trace.lookup n = some x ∧ Represents x (sig n)) ∧
      (∃ v, (sig n).getLast? = some (T, v)) ∧ dom (sig n) = Set.Icc t0 T ∧ Gentle V H (sig n))
    (κ B : ℝ) (hB : B = κ + (((k + 1) * (1 / 2 ^ 46 * V * (1 + H / d)) : ℚ) : ℝ))
    (z : Signal B64) (h : computeRobustness nd fuel phi trace sy = .ok z) :
    ∃ zs : List (B64 × B64), Represents z zs ∧ dom zs = Set.Icc t0 T ∧
      ∀ t v : ℚ, (t, v) ∈ zs → ∀ f : String → ℝ → ℝ, (∀ n, Uses n phi → ∀ t ∈ Set.Icc (b64Cast t0) (b64Cast T),
        |eval (castPts b64Cast (sig n)) t - f n t| ≤ κ) → ∀ T' : ℝ, b64Cast T ≤ T' →
        (pol = true → v < -B → ¬ Sat T' f (castExpr b64Cast phi) t) ∧
        (pol = false → B < v → Sat T' f (castExpr b64Cast phi) t) := by
  obtain ⟨zs, h1, h2, -⟩ := C120_accuracy nd fuel phi trace sy V H d k hp hd sig T (Set.Icc t0 T) hs z h
  refine ⟨zs, h1, h2, fun t v hm f hf T' hT => ?_⟩
  obtain ⟨zs', h1', -, h3⟩ := C138_boolean nd fuel phi trace sy V H d k hp hd hsf.plain sig t0 T hs f κ hf B hB z h
  have e : zs = zs' := List.map_injective_iff.2 lift_injective (h1.2.symm.trans h1'.2)
  obtain ⟨k1, k2, -⟩ := h3 t v (e ▸ hm)
  have hd' : (t : B64) ∈ Set.Icc t0 T := by
    rw [← h2]; exact mem_dom_of_mem' hm
  have ht : (t : ℝ) ∈ Set.Icc (b64Cast t0) (b64Cast T) :=
    ⟨b64Cast_strictMono.monotone hd'.1, b64Cast_strictMono.monotone hd'.2⟩
  have later := rob_longer hT (x := f) (y := f) hsf (fun _ _ _ _ => rfl) t ht
  exact ⟨fun hb hv => (rob_sat _ _ _ _).2 ((later.1 hb).trans_lt (k1.trans_lt (EReal.coe_neg'.2 (by linarith)))),
    fun hb hv => (rob_sat _ _ _ _).1 (lt_of_lt_of_le (EReal.coe_pos.2 (by linarith)) (k2.trans (later.2 hb)))⟩

/-! ## Concrete cases -/

/-- A record of `1 + t`; the second sample is off by 1/8. -/
def monX : List (ℚ × ℚ) := [(0, 1), (1, 17 / 8), (2, 3)]

theorem monX_steady : Steady 3 [("x", monX)] := by
  have b : ∀ n : ℤ, |n| < 2 ^ 53 → IsB64 (n : ℚ) := fun n h => ⟨n, 0, by simp, h, by norm_num, by norm_num⟩
  have b1 := b 1 (by norm_num)
  have b3 := b 3 (by norm_num)
  have b17 : IsB64 (17 / 8 : ℚ) := ⟨17, -3, by norm_num, by norm_num, by norm_num, by norm_num⟩
  push_cast at b1 b3
  have t : ∀ n : ℤ, ∃ m : ℤ, (n : ℚ) = m / 2 ^ 100 := fun n => ⟨n * 2 ^ 100, by push_cast; ring⟩
  have t0 := t 0
  have t1 := t 1
  have t2 := t 2
  norm_num at t0 t1 t2
  intro e he
  simp only [List.mem_cons, List.not_mem_nil, or_false] at he
  subst he
  refine ⟨by unfold Increasing; decide +kernel, fun p hp => ?_⟩
  simp only [monX, List.mem_cons, List.not_mem_nil, or_false] at hp
  rcases hp with rfl | rfl | rfl <;> norm_num [b1, b3, b17, t0, t1, t2, abs_le]

theorem prefPhi_only : UntilOnly 7 0 prefPhi :=
  .always (.pred "x" .GE ⟨7, 0, by norm_num, by norm_num, by norm_num, by norm_num⟩ (by norm_num))

theorem mon_value : computeRobustness (K := B64) false 0 prefPhi [("x", ofPts (K := B64) monX)] false =
    .ok (ofPts (K := B64) [(0, -6), (1, -39 / 8), (2, -4)]) := by
  decide +kernel

theorem mon_points {zs : List (ℚ × ℚ)} (h : Represents (K := B64) (ofPts (K := B64) [(0, -6), (1, -39 / 8), (2, -4)]) zs) :
    zs = [(0, -6), (1, -39 / 8), (2, -4)] :=
  (List.map_injective_iff.2 (lift_injective (K := B64))) (h.2.symm.trans
    ((represents_iff (K := B64) _ _).2 ⟨by unfold Increasing; decide +kernel, rfl⟩).2)

/-- `C138_future`: however the signal goes on after `1 + t`, it violates `G (x >= 7)`. -/
example (g : ℝ → ℝ) (T' : ℝ) (hT : 2 ≤ T') : ¬ Sat T' (fun _ t => if t ≤ 2 then 1 + t else g t)
    (actual (castExpr (Rat.castHom ℝ) prefPhi)) 0 := by
  obtain ⟨z, zs, e, hz, h⟩ := C138_future false 0 false [("x", monX)] 3 7 0 2 0 1 prefPhi true (fun _ => monX) monX_steady
    prefPhi_only prefPhi_levels prefPhi_safety (by norm_num) (by norm_num) (by norm_num)
    (fun m hm => by obtain rfl := prefPhi_uses hm; exact ⟨rfl, ⟨_, _, rfl⟩, _, rfl⟩)
    (fun _ t => if t ≤ 2 then 1 + t else g t) 1 1 (1 / 8) (by norm_num) (by norm_num) (by norm_num)
    (fun m _ s hs t ht => by
      have hs2 : s ≤ 2 := by simpa using hs.2
      have ht2 : t ≤ 2 := by simpa using ht.2
      simp only [hs2, ht2, if_true, one_mul]
      exact le_of_eq (congrArg _ (by ring)))
    (fun m _ p hp => by
      simp only [monX, List.mem_cons, List.not_mem_nil, or_false] at hp
      rcases hp with rfl | rfl | rfl <;> norm_num [abs_le])
    (fun m _ => by simp only [monX, List.isChain_cons_cons, List.isChain_singleton, and_true]; norm_num)
    _ rfl
  have e' := mon_value.symm.trans e
  rw [Outcome.ok.injEq] at e'
  subst e'
  obtain rfl := mon_points hz
  refine (h 0 (by simp)).1 rfl ?_ T' (by simpa using hT)
  simp only [castPts, List.map_cons, List.map_nil, eval, line]
  norm_num

/-- `C138_verdict`: the same about the signal so far. -/
example : ¬ Sat 2 (fun _ t => 1 + t) (actual (castExpr (Rat.castHom ℝ) prefPhi)) 0 := by
  obtain ⟨z, zs, e, hz, h⟩ := C138_verdict false 0 false [("x", monX)] 3 7 0 2 0 1 prefPhi (fun _ => monX) monX_steady
    prefPhi_only prefPhi_levels (by norm_num) (by norm_num) (by norm_num)
    (fun m hm => by obtain rfl := prefPhi_uses hm; exact ⟨rfl, ⟨_, _, rfl⟩, _, rfl⟩)
    (fun _ t => 1 + t) 1 1 (1 / 8) (by norm_num) (by norm_num) (by norm_num)
    (fun m _ s hs t ht => by rw [one_mul]; exact le_of_eq (congrArg _ (by ring)))
    (fun m _ p hp => by
      simp only [monX, List.mem_cons, List.not_mem_nil, or_false] at hp
      rcases hp with rfl | rfl | rfl <;> norm_num [abs_le])
    (fun m _ => by simp only [monX, List.isChain_cons_cons, List.isChain_singleton, and_true]; norm_num)
    _ _ rfl rfl
  have e' := mon_value.symm.trans e
  rw [Outcome.ok.injEq] at e'
  subst e'
  obtain rfl := mon_points hz
  have := (h 0 (by simp)).2.1 ?_
  · simpa using this
  simp only [castPts, List.map_cons, List.map_nil, eval, line]
  norm_num

theorem nestFormula_uses {n : String} (hn : Uses n nestFormula) : n = "x" ∨ n = "y" := by
  unfold nestFormula Expr.Always at hn
  cases hn with
  | always hn =>
    cases hn with
    | or hm hn =>
      simp only [List.mem_cons, List.not_mem_nil, or_false] at hm
      rcases hm with rfl | rfl
      · unfold nestAnd at hn
        cases hn with
        | and hm hn =>
          simp only [List.mem_cons, List.not_mem_nil, or_false] at hm
          rcases hm with rfl | rfl
          · cases hn; exact .inl rfl
          · cases hn; exact .inr rfl
      · unfold nestNot at hn
        cases hn with
        | not hn => cases hn; exact .inr rfl

theorem nestFormula_plain : Plain (castExpr b64Cast nestFormula) := by
  refine .always (.inl (by simp [castInterval, castNum, castD, Interval.default, D.zero_def])) (.or (by simp [castExprs]) ?_)
  intro e he
  simp only [castExprs, List.mem_cons, List.not_mem_nil, or_false] at he
  rcases he with rfl | rfl
  · refine .and (by simp [castExprs]) ?_
    intro e he
    simp only [castExprs, List.mem_cons, List.not_mem_nil, or_false] at he
    rcases he with rfl | rfl <;> exact .pred _ _ _
  · exact .not (.pred _ _ _)

theorem sync_records {n : String} (h : n = "x" ∨ n = "y") : (∃ x, syncTrace.lookup n = some x ∧ Represents (K := B64) x (syncSig n)) ∧
    (∃ v, (syncSig n).getLast? = some ((3 : ℚ), v)) ∧ dom (K := B64) (syncSig n) = Set.Icc (0 : ℚ) (3 : ℚ) ∧
    Gentle 3 3 (syncSig n) := by
  obtain ⟨g1, g2, -⟩ := sync_gentle
  have up : ∀ {l}, Gentle 2 3 l → Gentle 3 3 l := fun h p hp =>
    ⟨(h p hp).1, (h p hp).2.1, (h p hp).2.2.1, (h p hp).2.2.2.trans (by norm_num)⟩
  have hx : Represents (K := B64) (ofPts (K := B64) syncX) syncX :=
    B64.represents_lq.2 ⟨by simp [syncX, Increasing], rfl⟩
  have hy : Represents (K := B64) (ofPts (K := B64) syncY) syncY :=
    B64.represents_lq.2 ⟨by simp [syncY, Increasing], rfl⟩
  have dx : dom (K := ℚ) syncX = Set.Icc 0 3 := by
    ext t
    simp only [dom, syncX, Set.mem_ofPred_eq, List.mem_cons, List.not_mem_nil, or_false, exists_eq_or_imp,
      exists_eq_left, Set.mem_Icc]
    constructor
    · rintro ⟨h | h, h' | h'⟩ <;> constructor <;> linarith
    · rintro ⟨h, h'⟩; exact ⟨.inl h, .inr h'⟩
  have dy : dom (K := ℚ) syncY = Set.Icc 0 3 := by
    ext t
    simp only [dom, syncY, Set.mem_ofPred_eq, List.mem_cons, List.not_mem_nil, or_false, exists_eq_or_imp,
      exists_eq_left, Set.mem_Icc]
    constructor
    · rintro ⟨h | h | h, h' | h' | h'⟩ <;> constructor <;> linarith
    · rintro ⟨h, h'⟩; exact ⟨.inl h, .inr (.inr h')⟩
  rcases h with rfl | rfl
  · exact ⟨⟨_, rfl, hx⟩, ⟨_, rfl⟩, dx, up g1⟩
  · exact ⟨⟨_, rfl, hy⟩, ⟨_, rfl⟩, dy, up g2⟩

/-- `C138_boolean`: all signals that are not farther than 1/2 from the recorded ones satisfy the formula. -/
example (f : String → ℝ → ℝ)
    (hf : ∀ n, ∀ t ∈ Set.Icc (0 : ℝ) 3, |eval (castPts b64Cast (syncSig n)) t - f n t| ≤ 1 / 2) :
    Sat 3 f (castExpr b64Cast nestFormula) 0 := by
  have e0 : b64Cast (0 : ℚ) = 0 := map_zero b64Cast
  have e3 : b64Cast (3 : ℚ) = 3 := map_ofNat b64Cast 3
  obtain ⟨zs, h1, -, h3⟩ := C138_boolean false 0 nestFormula syncTrace false 3 3 (1 / 4) 2
    (.always (.base (nest_example false))) (by norm_num) nestFormula_plain syncSig (0 : ℚ) (3 : ℚ) (fun n hn => sync_records (nestFormula_uses hn))
    f (1 / 2) (fun n _ t ht => hf n t (by rwa [e0, e3] at ht)) _ rfl
    (ofPts (K := B64) [(0, 1), (1 / 2, 1), (3 / 4, 1), (1, 1), (3, 1)]) (by decide +kernel)
  have h4 := points_of_ofPts (K := B64) h1 (ps := [(0, 1), (1 / 2, 1), (3 / 4, 1), (1, 1), (3, 1)]) rfl
  have := (h3 0 1 (by rw [h4]; exact List.mem_cons_self)).2.2.1 (by norm_num)
  rw [e3] at this
  simpa using this

/-- `F ((x >= -1 and y >= -1) or not (y >= 2))` -/
def nestFinally : Expr B64 := .Eventually (.or [nestAnd, nestNot])

theorem nestFinally_safety : Safety false (castExpr b64Cast nestFinally) := by
  refine .eventually (.inl (by simp [castInterval, castNum, castD, Interval.default, D.zero_def])) (.or (by simp [castExprs]) ?_)
  intro e he
  simp only [castExprs, List.mem_cons, List.not_mem_nil, or_false] at he
  rcases he with rfl | rfl
  · refine .and (by simp [castExprs]) ?_
    intro e he
    simp only [castExprs, List.mem_cons, List.not_mem_nil, or_false] at he
    rcases he with rfl | rfl <;> exact .pred _ _ _ _
  · exact .not (.pred _ _ _ _)

/-- `C138_boolean_future`: all signals that are not farther than 1 from the recorded ones satisfy it, however they go on. -/
example (f : String → ℝ → ℝ) (T' : ℝ) (hT : 3 ≤ T')
    (hf : ∀ n, ∀ t ∈ Set.Icc (0 : ℝ) 3, |eval (castPts b64Cast (syncSig n)) t - f n t| ≤ 1) :
    Sat T' f (castExpr b64Cast nestFinally) 0 := by
  have e0 : b64Cast (0 : ℚ) = 0 := map_zero b64Cast
  have e3 : b64Cast (3 : ℚ) = 3 := map_ofNat b64Cast 3
  obtain ⟨zs, h1, -, h3⟩ := C138_boolean_future false 0 nestFinally syncTrace false 3 3 (1 / 4) 2
    (.eventually (.base (nest_example false))) (by norm_num) false nestFinally_safety syncSig (0 : ℚ) (3 : ℚ)
    (fun n hn => sync_records (nestFormula_uses (by cases hn with | eventually hn => exact .always hn)))
    1 _ rfl (ofPts (K := B64) [(0, 2), (1 / 2, 7 / 4), (3 / 4, 7 / 4), (1, 7505999378950827 / 2 ^ 52), (3, 1)])
    (by decide +kernel)
  have h4 := points_of_ofPts (K := B64) h1
    (ps := [(0, 2), (1 / 2, 7 / 4), (3 / 4, 7 / 4), (1, 7505999378950827 / 2 ^ 52), (3, 1)]) rfl
  have := (h3 0 2 (by rw [h4]; exact List.mem_cons_self) f (fun n _ t ht => hf n t (by rwa [e0, e3] at ht)) T'
    (by rwa [e3])).2 rfl (by norm_num)
  simpa using this

end Verif
