import Verif.Proofs.ActualRob

/-!
# C131: what the code computes in the limit

Until and the intervals are not computed as they should be (C31 - C33).  The code computes, up to the sampling error, the
robustness of another formula, `actual phi`, for every formula.
-/

set_option linter.unusedSectionVars false

namespace Verif
open Spec

theorem near_all_actual {ε : ℝ} {T : ℝ} {x : String → ℝ → ℝ} {t v : ℝ} {args : List (Expr ℝ)}
    {p : Expr ℝ → List (ℝ × ℝ)} (hv : IsLeast {v | ∃ e ∈ args, v = eval (p e) t} v)
    (h : ∀ e ∈ args, Near ε (eval (p e) t) (rob T x (actual e) t)) : Near ε v (rob T x (actual (.and args)) t) := by
  rw [actual, actuals_eq, rob]
  constructor
  · rw [le_robAll]
    intro e he
    obtain ⟨a, ha, rfl⟩ := List.mem_map.1 he
    refine le_trans (EReal.coe_le_coe_iff.2 ?_) (h a ha).1
    linarith [hv.2 ⟨a, ha, rfl⟩]
  · obtain ⟨e, he, hee⟩ := hv.1
    rw [hee]
    exact (robAll_le (List.mem_map_of_mem he)).trans (h e he).2

theorem near_any_actual {ε : ℝ} {T : ℝ} {x : String → ℝ → ℝ} {t v : ℝ} {args : List (Expr ℝ)}
    {p : Expr ℝ → List (ℝ × ℝ)} (hv : IsGreatest {v | ∃ e ∈ args, v = eval (p e) t} v)
    (h : ∀ e ∈ args, Near ε (eval (p e) t) (rob T x (actual e) t)) : Near ε v (rob T x (actual (.or args)) t) := by
  rw [actual, actuals_eq, rob]
  constructor
  · obtain ⟨e, he, hee⟩ := hv.1
    rw [hee]
    exact (h e he).1.trans (le_robAny (List.mem_map_of_mem he))
  · rw [robAny_le]
    intro e he
    obtain ⟨a, ha, rfl⟩ := List.mem_map.1 he
    refine le_trans (h a ha).2 (EReal.coe_le_coe_iff.2 ?_)
    linarith [hv.2 ⟨a, ha, rfl⟩]

theorem near_actual (nd : Bool) (fuel : Nat) (trace : Trace ℝ) (sy : Bool) (t0 T δ : ℝ) (hδ : 0 ≤ δ)
    (sig : String → List (ℝ × ℝ)) (d : Nat) (phi : Expr ℝ) (hp : Levels d phi) (hs : Aligned trace t0 sig phi)
    (hT : ∀ n, Uses n phi → dom (sig n) = Set.Icc t0 T) (hst : ∀ n, Uses n phi → StepAtMost δ (sig n)) :
    ∀ z zs, computeRobustness nd fuel phi trace sy = .ok z → Represents z zs →
      StepAtMost δ zs ∧
      ∀ t ∈ Set.Icc t0 T, Near (d * (δ / 4)) (eval zs t) (rob T (fun n => eval (sig n)) (actual phi) t) := by
  induction hp with
  | pred d n op c =>
    intro z zs hz hr
    obtain ⟨h1, h2, -⟩ := near_core nd fuel trace sy t0 T δ hδ sig d (.pred n op (.fin c)) (.pred d n op c) hs hT hst
      z zs hz hr
    exact ⟨h1, h2⟩
  | @not d e he ih =>
    intro z zs hz hr
    have hs' : Aligned trace t0 sig e := fun n hn => hs n (.not hn)
    obtain ⟨z1, zs1, e1, hz1, -, -⟩ := C34_total nd fuel trace sy t0 sig e he.plain hs'
    obtain ⟨i1, rfl⟩ := (represents_iff _ _).1 hz1
    have e2 : computeRobustness nd fuel (.not e) trace sy = .ok (ofPts (negPts zs1)) := by
      rw [C21_not_negates, e1]; exact congrArg Outcome.ok (negSig_ofPts i1)
    rw [hz] at e2
    simp only [Outcome.ok.injEq] at e2; subst e2
    obtain rfl := represents_unique hr (represents_ofPts (increasing_negPts.2 i1))
    obtain ⟨h1, h2⟩ := ih hs' (fun n hn => hT n (.not hn)) (fun n hn => hst n (.not hn)) _ _ e1 hz1
    refine ⟨stepAtMost_negPts h1, fun t ht => ?_⟩
    rw [eval_negPts, actual, rob]; exact (h2 t ht).neg
  | @and d args hl hsub ih =>
    intro z zs hz hr
    have ih' : ∀ e : Expr ℝ, ∃ zs : List (ℝ × ℝ), e ∈ args → ∃ x,
        computeRobustness nd fuel e trace sy = .ok x ∧ Represents x zs ∧ (∃ v r, zs = (t0, v) :: r) := by
      intro e
      by_cases he : e ∈ args
      · obtain ⟨z, zs, h1, h2, h3, h4⟩ :=
          C34_total nd fuel trace sy t0 sig e (hsub e he).plain fun n hn => hs n (.and he hn)
        exact ⟨zs, fun _ => ⟨z, h1, h2, h3⟩⟩
      · exact ⟨[], fun h => absurd h he⟩
    choose p hpe using ih'
    have hne : args ≠ [] := by rintro rfl; simp at hl
    obtain ⟨z', zs', e1, hz', h0, hdz, hv⟩ := C24_and_nary nd fuel trace sy t0 p args hne hpe
    rw [hz] at e1
    simp only [Outcome.ok.injEq] at e1; subst e1
    obtain rfl := represents_unique hr hz'
    have hde : ∀ e ∈ args, dom (p e) = Set.Icc t0 T := by
      intro e he
      obtain ⟨x, h1, h2, -⟩ := hpe e he
      obtain ⟨z1, zs1, e1, hz1, -, hd1⟩ :=
        C34_total nd fuel trace sy t0 sig e (hsub e he).plain fun n hn => hs n (.and he hn)
      rw [h1] at e1; simp only [Outcome.ok.injEq] at e1; subst e1
      obtain rfl := represents_unique h2 hz1
      exact dom_common (hsub e he).plain (fun n hn => hT n (.and he hn)) hd1
    have hd : dom zs = Set.Icc t0 T := by
      ext t; rw [hdz]
      obtain ⟨e, r, rfl⟩ := List.exists_cons_of_ne_nil hne
      exact ⟨fun h => hde e (by simp) ▸ h e (by simp), fun h e he => by rw [hde e he]; exact h⟩
    have hb : ∀ e ∈ args, StepAtMost δ (p e) ∧
        (∀ t ∈ Set.Icc t0 T, Near (d * (δ / 4)) (eval (p e) t) (rob T (fun n => eval (sig n)) (actual e) t)) := by
      intro e he
      obtain ⟨x, h1, h2, -⟩ := hpe e he
      exact ih e he (fun n hn => hs n (.and he hn)) (fun n hn => hT n (.and he hn))
        (fun n hn => hst n (.and he hn)) _ _ h1 h2
    obtain ⟨hi, rfl⟩ := (represents_iff _ _).1 hr
    refine ⟨?_, fun t ht => near_all_actual (hv t (hd ▸ ht)) fun e he => (hb e he).2 t ht⟩
    refine step_of_cells (I := {e | e ∈ args}) (f := p) hδ hi (fun e he => ?_)
      ((nary_keeps hne hpe hde).1 hz) (.inl hv)
    obtain ⟨x, h1, h2, -⟩ := hpe e he
    exact ⟨((represents_iff _ _).1 h2).1, (hb e he).1, by rw [hde e he, hd]⟩
  | @or d args hl hsub ih =>
    intro z zs hz hr
    have ih' : ∀ e : Expr ℝ, ∃ zs : List (ℝ × ℝ), e ∈ args → ∃ x,
        computeRobustness nd fuel e trace sy = .ok x ∧ Represents x zs ∧ (∃ v r, zs = (t0, v) :: r) := by
      intro e
      by_cases he : e ∈ args
      · obtain ⟨z, zs, h1, h2, h3, h4⟩ :=
          C34_total nd fuel trace sy t0 sig e (hsub e he).plain fun n hn => hs n (.or he hn)
        exact ⟨zs, fun _ => ⟨z, h1, h2, h3⟩⟩
      · exact ⟨[], fun h => absurd h he⟩
    choose p hpe using ih'
    have hne : args ≠ [] := by rintro rfl; simp at hl
    obtain ⟨z', zs', e1, hz', h0, hdz, hv⟩ := C24_or_nary nd fuel trace sy t0 p args hne hpe
    rw [hz] at e1
    simp only [Outcome.ok.injEq] at e1; subst e1
    obtain rfl := represents_unique hr hz'
    have hde : ∀ e ∈ args, dom (p e) = Set.Icc t0 T := by
      intro e he
      obtain ⟨x, h1, h2, -⟩ := hpe e he
      obtain ⟨z1, zs1, e1, hz1, -, hd1⟩ :=
        C34_total nd fuel trace sy t0 sig e (hsub e he).plain fun n hn => hs n (.or he hn)
      rw [h1] at e1; simp only [Outcome.ok.injEq] at e1; subst e1
      obtain rfl := represents_unique h2 hz1
      exact dom_common (hsub e he).plain (fun n hn => hT n (.or he hn)) hd1
    have hd : dom zs = Set.Icc t0 T := by
      ext t; rw [hdz]
      obtain ⟨e, r, rfl⟩ := List.exists_cons_of_ne_nil hne
      exact ⟨fun h => hde e (by simp) ▸ h e (by simp), fun h e he => by rw [hde e he]; exact h⟩
    have hb : ∀ e ∈ args, StepAtMost δ (p e) ∧
        (∀ t ∈ Set.Icc t0 T, Near (d * (δ / 4)) (eval (p e) t) (rob T (fun n => eval (sig n)) (actual e) t)) := by
      intro e he
      obtain ⟨x, h1, h2, -⟩ := hpe e he
      exact ih e he (fun n hn => hs n (.or he hn)) (fun n hn => hT n (.or he hn))
        (fun n hn => hst n (.or he hn)) _ _ h1 h2
    obtain ⟨hi, rfl⟩ := (represents_iff _ _).1 hr
    refine ⟨?_, fun t ht => near_any_actual (hv t (hd ▸ ht)) fun e he => (hb e he).2 t ht⟩
    refine step_of_cells (I := {e | e ∈ args}) (f := p) hδ hi (fun e he => ?_)
      ((nary_keeps hne hpe hde).2 hz) (.inr hv)
    obtain ⟨x, h1, h2, -⟩ := hpe e he
    exact ⟨((represents_iff _ _).1 h2).1, (hb e he).1, by rw [hde e he, hd]⟩
  | @always d e i hi he ih =>
    intro z zs hz hr
    have hs' : Aligned trace t0 sig e := fun n hn => hs n (.always hn)
    have hT' : ∀ n, Uses n e → dom (sig n) = Set.Icc t0 T := fun n hn => hT n (.always hn)
    obtain ⟨z1, zs1, e1, hz1, h0, hdz⟩ := C34_total nd fuel trace sy t0 sig e he.plain hs'
    have i1 := ((represents_iff _ _).1 hz1).1
    have e2 := (eventually_fin e1 hz1 (StartsAt.ne h0) i (intervalBuilt_high hi)).2
    rw [hz] at e2
    simp only [Outcome.ok.injEq] at e2; subst e2
    obtain rfl := represents_unique hr (represents_ofPts (increasing_sufPts.2 i1))
    obtain ⟨h1, h2⟩ := ih hs' hT' (fun n hn => hst n (.always hn)) _ _ e1 hz1
    obtain ⟨k1, -⟩ := near_inf hδ i1 h1 (dom_common he.plain hT' hdz) h2
    refine ⟨step_sufPts_min h1, fun t ht => ?_⟩
    rw [actual, rob, window_default]
    have := k1 t ht
    rwa [show (((d + 1 : Nat) : ℝ)) * (δ / 4) = d * (δ / 4) + δ / 4 by push_cast; ring]
  | @eventually d e i hi he ih =>
    intro z zs hz hr
    have hs' : Aligned trace t0 sig e := fun n hn => hs n (.eventually hn)
    have hT' : ∀ n, Uses n e → dom (sig n) = Set.Icc t0 T := fun n hn => hT n (.eventually hn)
    obtain ⟨z1, zs1, e1, hz1, h0, hdz⟩ := C34_total nd fuel trace sy t0 sig e he.plain hs'
    have i1 := ((represents_iff _ _).1 hz1).1
    have e2 := (eventually_fin e1 hz1 (StartsAt.ne h0) i (intervalBuilt_high hi)).1
    rw [hz] at e2
    simp only [Outcome.ok.injEq] at e2; subst e2
    obtain rfl := represents_unique hr (represents_ofPts (increasing_sufPts.2 i1))
    obtain ⟨h1, h2⟩ := ih hs' hT' (fun n hn => hst n (.eventually hn)) _ _ e1 hz1
    obtain ⟨k1, -⟩ := near_sup hδ i1 h1 (dom_common he.plain hT' hdz) h2
    refine ⟨step_sufPts_max h1, fun t ht => ?_⟩
    rw [actual, rob, window_default]
    have := k1 t ht
    rwa [show (((d + 1 : Nat) : ℝ)) * (δ / 4) = d * (δ / 4) + δ / 4 by push_cast; ring]
  | @untl d e e' i hi he he' ih ih' =>
    intro z zs hz hr
    have hs1 : Aligned trace t0 sig e := fun n hn => hs n (.untl_left hn)
    have hT1 : ∀ n, Uses n e → dom (sig n) = Set.Icc t0 T := fun n hn => hT n (.untl_left hn)
    have hs2 : Aligned trace t0 sig e' := fun n hn => hs n (.untl_right hn)
    have hT2 : ∀ n, Uses n e' → dom (sig n) = Set.Icc t0 T := fun n hn => hT n (.untl_right hn)
    obtain ⟨z1, zs1, e1, hz1, h0, hd1⟩ := C34_total nd fuel trace sy t0 sig e he.plain hs1
    obtain ⟨z2, zs2, e2, hz2, -, hd2⟩ := C34_total nd fuel trace sy t0 sig e' he'.plain hs2
    obtain ⟨z3, zs3, e3, hz3, -, hd3⟩ := C34_total nd fuel trace sy t0 sig _ (Plain.untl hi he.plain he'.plain) hs
    rw [hz] at e3
    simp only [Outcome.ok.injEq] at e3; subst e3
    obtain rfl := represents_unique hr hz3
    obtain ⟨a1, a2⟩ := ih hs1 hT1 (fun n hn => hst n (.untl_left hn)) _ _ e1 hz1
    obtain ⟨b1, b2⟩ := ih' hs2 hT2 (fun n hn => hst n (.untl_right hn)) _ _ e2 hz2
    have hdx := dom_common he.plain hT1 hd1
    have h0T : t0 ≤ T := by
      obtain ⟨v, r, rfl⟩ := h0
      have : t0 ∈ Set.Icc t0 T := by rw [← hdx]; exact mem_dom_head (p := (t0, v))
      exact this.2
    obtain ⟨k1, k2⟩ := near_until hδ e1 hz1 e2 hz2 i hz hr hdx (dom_common he'.plain hT2 hd2)
      (dom_common (Plain.untl hi he.plain he'.plain) hT hd3) a1 b1 h0T a2 b2
    refine ⟨k1, fun t ht => ?_⟩
    have := k2 t ht
    rw [show (((d + 4 : Nat) : ℝ)) * (δ / 4) = d * (δ / 4) + δ by push_cast; ring]
    simp only [actual, rob, robAny, window_default, sup_bot_eq]
    exact this

/-- **C131.**  If neighbouring samples of the signals differ by at most `δ` and the nested temporal operators count at most
`d` (Until counts four), the computed robustness differs from the quantitative semantics of `actual phi` by at most
`d δ / 4` at every real time of the trace; a value outside `[-d δ / 4, d δ / 4]` is the verdict on `actual phi`.  Every
formula without Boolean constants that the constructors can make, with any intervals. -/
theorem C131_error (nd : Bool) (fuel : Nat) (trace : Trace ℝ) (sy : Bool) (t0 T δ : ℝ) (hδ : 0 ≤ δ)
    (sig : String → List (ℝ × ℝ)) (d : Nat) (phi : Expr ℝ) (hp : Levels d phi) (hs : Aligned trace t0 sig phi)
    (hT : ∀ n, Uses n phi → dom (sig n) = Set.Icc t0 T) (hst : ∀ n, Uses n phi → StepAtMost δ (sig n)) :
    ∃ z zs, computeRobustness nd fuel phi trace sy = .ok z ∧ Represents z zs ∧ dom zs = Set.Icc t0 T ∧
      ∀ t ∈ Set.Icc t0 T,
        (∃ r : ℝ, rob T (fun n => eval (sig n)) (actual phi) t = r ∧ |eval zs t - r| ≤ d * δ / 4) ∧
        (d * δ / 4 < eval zs t → Sat T (fun n => eval (sig n)) (actual phi) t) ∧
        (eval zs t < -(d * δ / 4) → ¬ Sat T (fun n => eval (sig n)) (actual phi) t) := by
  obtain ⟨z, zs, e, hz, -, hd⟩ := C34_total nd fuel trace sy t0 sig phi hp.plain hs
  refine ⟨z, zs, e, hz, dom_common hp.plain hT hd, fun t ht => ?_⟩
  obtain ⟨r, hr, ha⟩ := ((near_actual nd fuel trace sy t0 T δ hδ sig d phi hp hs hT hst z zs e hz).2 t ht).real
  rw [← mul_div_assoc] at ha
  have := abs_le.1 ha
  refine ⟨⟨r, hr, ha⟩, fun h => (rob_sat T _ _ t).1 ?_, fun h => (rob_sat T _ _ t).2 ?_⟩
  · rw [hr]; exact EReal.coe_pos.2 (by linarith)
  · rw [hr]; exact EReal.coe_neg'.2 (by linarith)

/-- Every formula without Boolean constants that the constructors can make has such a count. -/
theorem C131_covers (phi : Expr ℝ) (hp : Plain phi) : ∃ d, Levels d phi := plain_levels hp

/-- Nothing changes where there is no Until and no interval: C131 is C80 there. -/
theorem C131_same {d : Nat} (phi : Expr ℝ) (hp : Nested d phi) : actual phi = phi := by
  have hmap : ∀ args : List (Expr ℝ), (∀ e ∈ args, actual e = e) → args.map actual = args := fun args h =>
    (List.map_congr_left h).trans (List.map_id _)
  induction hp with
  | pred d n op c => rfl
  | not _ ih => rw [actual, ih]
  | and _ _ ih => rw [actual, actuals_eq, hmap _ ih]
  | or _ _ ih => rw [actual, actuals_eq, hmap _ ih]
  | always _ ih => rw [actual, ih]
  | eventually _ ih => rw [actual, ih]

/-! ## Signals in continuous time -/

theorem sampling_actual (nd : Bool) (fuel : Nat) (trace : Trace ℝ) (sy : Bool) (t0 T h δ κ : ℝ) (hδ : 0 ≤ δ)
    (f : String → ℝ → ℝ) (d : Nat) (phi : Expr ℝ) (hp : Levels d phi)
    (hf : ∀ n, Uses n phi → Modulus t0 T h δ (f n)) (hs : Samples trace t0 T h f phi)
    (hκ : ∀ n, Uses n phi → ∀ ts, Grid t0 T h ts → Increasing (sampled (f n) ts) → ∀ t ∈ Set.Icc t0 T,
      |eval (sampled (f n) ts) t - f n t| ≤ κ) :
    ∃ z zs, computeRobustness nd fuel phi trace sy = .ok z ∧ Represents z zs ∧ dom zs = Set.Icc t0 T ∧
      ∀ t ∈ Set.Icc t0 T, Near (d * (δ / 4) + κ) (eval zs t) (rob T f (actual phi) t) := by
  have hs' : ∀ n, ∃ ts, Uses n phi → ∃ x, trace.lookup n = some x ∧ Represents x (sampled (f n) ts) ∧
      Grid t0 T h ts := by
    intro n
    by_cases hn : Uses n phi
    · obtain ⟨x, ts, h1, h2, h3⟩ := hs n hn
      exact ⟨ts, fun _ => ⟨x, h1, h2, h3⟩⟩
    · exact ⟨[], fun h => absurd h hn⟩
  choose ts hts using hs'
  have hfacts : ∀ n, Uses n phi → Increasing (sampled (f n) (ts n)) ∧ Grid t0 T h (ts n) ∧
      dom (sampled (f n) (ts n)) = Set.Icc t0 T := by
    intro n hn
    obtain ⟨x, -, h2, h3⟩ := hts n hn
    have hi := ((represents_iff _ _).1 h2).1
    exact ⟨hi, h3, dom_sampled h3 (sampled_times hi)⟩
  have ha : Aligned trace t0 (fun n => sampled (f n) (ts n)) phi := by
    intro n hn
    obtain ⟨x, h1, h2, h3⟩ := hts n hn
    cases hc : ts n with
    | nil => have := h3.1; rw [hc] at this; simp at this
    | cons a r =>
      have := h3.1
      rw [hc] at this
      simp only [List.head?_cons, Option.some.injEq] at this; subst this
      rw [hc] at h2
      exact ⟨x, h1, by simp only [hc]; exact h2, f n a, sampled (f n) r, by simp only [hc]; rfl⟩
  obtain ⟨z, zs, e, hz, h0, hd⟩ := C34_total nd fuel trace sy t0 _ phi hp.plain ha
  have hT : ∀ n, Uses n phi → dom (sampled (f n) (ts n)) = Set.Icc t0 T := fun n hn => (hfacts n hn).2.2
  have hdz := dom_common hp.plain hT hd
  obtain ⟨-, k1⟩ := near_actual nd fuel trace sy t0 T δ hδ _ d phi hp ha hT
    (fun n hn => sampled_step (hf n hn) (hfacts n hn).2.1 (sampled_times (hfacts n hn).1)) z zs e hz
  have hκ' : ∀ n, Uses n (actual phi) → ∀ t ∈ Set.Icc t0 T, |eval (sampled (f n) (ts n)) t - f n t| ≤ κ :=
    fun n hn t ht => by
      have hn := uses_actual hp.plain hn
      exact hκ n hn (ts n) (hfacts n hn).2.1 (hfacts n hn).1 t ht
  exact ⟨z, zs, e, hz, hdz, fun t ht => near_signals (actual_plain hp.plain) hκ' ht (k1 t ht)⟩

/-- **C131 in continuous time.**  Every `f n` is Lipschitz with constant `L`, the trace holds its samples at times at most
`h` apart.  The computed robustness differs at every time from the quantitative semantics of `actual phi` by at most
`(d / 4 + 1 / 2) L h`. -/
theorem C131_sampling (nd : Bool) (fuel : Nat) (trace : Trace ℝ) (sy : Bool) (t0 T L h : ℝ) (hL : 0 ≤ L)
    (hh : 0 ≤ h) (f : String → ℝ → ℝ) (d : Nat) (phi : Expr ℝ) (hp : Levels d phi)
    (hf : ∀ n, Uses n phi → ∀ s ∈ Set.Icc t0 T, ∀ t ∈ Set.Icc t0 T, |f n t - f n s| ≤ L * |t - s|)
    (hs : Samples trace t0 T h f phi) :
    ∃ z zs, computeRobustness nd fuel phi trace sy = .ok z ∧ Represents z zs ∧ dom zs = Set.Icc t0 T ∧
      ∀ t ∈ Set.Icc t0 T,
        ∃ r : ℝ, rob T f (actual phi) t = r ∧ |eval zs t - r| ≤ (d / 4 + 1 / 2) * (L * h) := by
  have hm : ∀ n, Uses n phi → Modulus t0 T h (L * h) (f n) := fun n hn s hs t ht hst =>
    (hf n hn s hs t ht).trans (mul_le_mul_of_nonneg_left hst hL)
  obtain ⟨z, zs, e, hz, hd, hn⟩ := sampling_actual nd fuel trace sy t0 T h (L * h) (L * h / 2) (by positivity)
    f d phi hp hm hs fun n hn ts hg hi t ht => sampled_close_lipschitz hL (hf n hn) hh hg hi ht
  refine ⟨z, zs, e, hz, hd, fun t ht => ?_⟩
  obtain ⟨r, hr, hb⟩ := (hn t ht).real
  exact ⟨r, hr, hb.trans (le_of_eq (by ring))⟩

/-- **C131, the limit.**  For continuous signals the computed robustness converges, uniformly in time, to the robustness of
`actual phi` as the sampling gets finer. -/
theorem C131_converges (t0 T : ℝ) (f : String → ℝ → ℝ) (phi : Expr ℝ) (hp : Plain phi)
    (hf : ∀ n, Uses n phi → ContinuousOn (f n) (Set.Icc t0 T)) (ε : ℝ) (hε : 0 < ε) :
    ∃ h > 0, ∀ (nd : Bool) (fuel : Nat) (trace : Trace ℝ) (sy : Bool), Samples trace t0 T h f phi →
      ∃ z zs, computeRobustness nd fuel phi trace sy = .ok z ∧ Represents z zs ∧ dom zs = Set.Icc t0 T ∧
        ∀ t ∈ Set.Icc t0 T, ∃ r : ℝ, rob T f (actual phi) t = r ∧ |eval zs t - r| ≤ ε := by
  obtain ⟨d, hl⟩ := plain_levels hp
  set δ := ε / (d / 4 + 1) with hδ
  have hden : (0 : ℝ) < d / 4 + 1 := by positivity
  have hδ0 : 0 < δ := div_pos hε hden
  obtain ⟨h, hh, hm⟩ := uses_uniform (P := fun n h => Modulus t0 T h δ (f n))
    (fun n a b hab hb s hs t ht hst => hb s hs t ht (hst.trans hab)) hp (by
      intro n hn
      have hu := isCompact_Icc.uniformContinuousOn_of_continuous (hf n hn)
      rw [Metric.uniformContinuousOn_iff] at hu
      obtain ⟨a, ha, h1⟩ := hu δ hδ0
      refine ⟨a / 2, by linarith, fun s hs t ht hst => ?_⟩
      have := h1 t ht s hs (by rw [Real.dist_eq]; linarith)
      rw [Real.dist_eq] at this
      exact this.le)
  refine ⟨h, hh, fun nd fuel trace sy hs => ?_⟩
  obtain ⟨z, zs, e, hz, hd, hn⟩ := sampling_actual nd fuel trace sy t0 T h δ δ hδ0.le f d phi hl hm hs
    fun n hn ts hg hi t ht => sampled_close (hm n hn) hg hh.le hi ht
  refine ⟨z, zs, e, hz, hd, fun t ht => ?_⟩
  obtain ⟨r, hr, hb⟩ := (hn t ht).real
  refine ⟨r, hr, hb.trans (le_of_eq ?_)⟩
  rw [hδ]; field_simp

/-! ## Concrete cases -/

/-- `x >= 0 U[1,2] y >= 0`. -/
noncomputable def limPhi : Expr ℝ := .untl (.pred "x" .GE (.fin 0)) (.pred "y" .GE (.fin 0)) ⟨.ull 1, .ull 2⟩

theorem limPhi_levels : Levels 4 limPhi := .untl (.inr (.inl ⟨1, 2, rfl⟩)) (.pred 0 _ _ _) (.pred 0 _ _ _)

theorem limPhi_uses {n : String} (h : Uses n limPhi) : n = "x" ∨ n = "y" := by
  cases h with
  | untl_left h => cases h; exact .inl rfl
  | untl_right h => cases h; exact .inr rfl

/-- Both signals are -1 at all times from 0 to 3. -/
theorem limPhi_actual (t : ℝ) (ht : t ∈ Set.Icc (0 : ℝ) 3) : rob 3 (fun _ _ => -1) (actual limPhi) t = (1 : ℝ) := by
  have hw : (Set.Icc t 3).Nonempty := ⟨t, le_rfl, ht.2⟩
  have hc : ∀ s : ℝ, s ∈ Set.Icc t 3 → (⨅ _ ∈ Set.Icc s (3 : ℝ), (((1 : ℝ)) : EReal)) = (1 : ℝ) := fun s hs =>
    biInf_const ⟨s, le_rfl, hs.2⟩
  have hm : ((((-1 : ℝ)) : EReal)) ⊔ ((1 : ℝ) : EReal) = (1 : ℝ) := sup_eq_right.2 (EReal.coe_le_coe_iff.2 (by norm_num))
  have h1 := hc t ⟨le_rfl, ht.2⟩
  simp only [limPhi, actual, rob, robAny, window_default, sup_bot_eq, margin, sub_zero, ← EReal.coe_neg, neg_neg, h1, hm]
  rw [sup_eq_left]
  refine sup_le (iSup₂_le fun s hs => inf_le_left.trans ?_) ?_
  · rw [hc s hs, hm]
  · rw [biInf_const hw]; exact EReal.coe_le_coe_iff.2 (by norm_num)

/-- **C131: the limit is not the robustness of the formula.**  Both operands are violated by 1 all the time, so the formula
is; however fine the sampling, the computed robustness is 1 at every time. -/
theorem C131_not_phi (nd : Bool) (fuel : Nat) (trace : Trace ℝ) (sy : Bool) (h : ℝ) (hh : 0 ≤ h)
    (hs : Samples trace 0 3 h (fun _ _ => -1) limPhi) :
    ∃ z zs, computeRobustness nd fuel limPhi trace sy = .ok z ∧ Represents z zs ∧ dom zs = Set.Icc 0 3 ∧
      ∀ t ∈ Set.Icc (0 : ℝ) 3, eval zs t = 1 ∧ rob 3 (fun _ _ => -1) limPhi t ≤ ((-1 : ℝ) : EReal) ∧
        ¬ Sat 3 (fun _ _ => -1) limPhi t := by
  obtain ⟨z, zs, e, hz, hd, k⟩ := C131_sampling nd fuel trace sy 0 3 0 h le_rfl hh (fun _ _ => -1) 4 limPhi limPhi_levels
    (fun n hn s hs t ht => by simp) hs
  have hr : ∀ t, rob 3 (fun _ _ => -1) limPhi t ≤ ((-1 : ℝ) : EReal) := by
    intro t
    simp only [limPhi, rob, margin, sub_zero]
    exact iSup₂_le fun s hs => inf_le_left
  refine ⟨z, zs, e, hz, hd, fun t ht => ⟨?_, hr t, (rob_sat 3 _ _ t).2 ((hr t).trans_lt (EReal.coe_neg'.2 (by norm_num)))⟩⟩
  obtain ⟨r, h1, h2⟩ := k t ht
  rw [limPhi_actual t ht, EReal.coe_eq_coe_iff] at h1
  subst h1
  simp only [zero_mul, mul_zero, abs_nonpos_iff] at h2
  linarith

/-- A trace that meets the hypotheses of `C131_not_phi`: samples at 0, 1, 3 and at 0, 2, 3. -/
noncomputable def limTrace : Trace ℝ :=
  [("x", ofPts (sampled (fun _ => -1) [0, 1, 3])), ("y", ofPts (sampled (fun _ => -1) [0, 2, 3]))]

theorem limTrace_samples : Samples limTrace 0 3 2 (fun _ _ => -1) limPhi := by
  intro n hn
  rcases limPhi_uses hn with rfl | rfl
  · exact ⟨_, [0, 1, 3], rfl, represents_ofPts (by simp [sampled, Increasing]), rfl, rfl, by simp; norm_num⟩
  · exact ⟨_, [0, 2, 3], rfl, represents_ofPts (by simp [sampled, Increasing]; norm_num), rfl, rfl, by simp; norm_num⟩

example : ∃ z zs, computeRobustness false 20 limPhi limTrace false = .ok z ∧ Represents z zs ∧ eval zs 1 = 1 := by
  obtain ⟨z, zs, e, hz, -, h⟩ := C131_not_phi false 20 limTrace false 2 (by norm_num) limTrace_samples
  exact ⟨z, zs, e, hz, (h 1 ⟨by norm_num, by norm_num⟩).1⟩

/-- The hypotheses of `C131_error`: two signals with different timestamps and steps of at most 2. -/
noncomputable def limSig : String → List (ℝ × ℝ) :=
  fun n => if n = "x" then [(0, 1), (1, -1), (3, 1)] else [(0, -1), (2, 0), (3, 2)]
noncomputable def limRamp : Trace ℝ := [("x", ofPts (limSig "x")), ("y", ofPts (limSig "y"))]

example : ∃ z zs, computeRobustness true 20 limPhi limRamp false = .ok z ∧ Represents z zs ∧
    ∀ t ∈ Set.Icc (0 : ℝ) 3, ∃ r : ℝ, rob 3 (fun n => eval (limSig n)) (actual limPhi) t = r ∧ |eval zs t - r| ≤ 2 := by
  have ix : Increasing (limSig "x") := by
    show Increasing [((0 : ℝ), (1 : ℝ)), (1, -1), (3, 1)]; simp [Increasing]
  have iy : Increasing (limSig "y") := by
    show Increasing [((0 : ℝ), (-1 : ℝ)), (2, 0), (3, 2)]; simp [Increasing]; norm_num
  have hdom : ∀ a b c : ℝ × ℝ, a.1 = 0 → c.1 = 3 → 0 ≤ b.1 → b.1 ≤ 3 → dom [a, b, c] = Set.Icc 0 3 := by
    intro a b c h1 h2 h3 h4
    ext t
    simp only [dom, List.mem_cons, List.not_mem_nil, or_false, exists_eq_or_imp, exists_eq_left,
      Set.mem_ofPred_eq, Set.mem_Icc]
    constructor
    · rintro ⟨h1 | h1 | h1, h2 | h2 | h2⟩ <;> constructor <;> linarith
    · rintro ⟨h1, h2⟩; exact ⟨.inl (by linarith), .inr (.inr (by linarith))⟩
  obtain ⟨z, zs, e, hz, -, h⟩ := C131_error true 20 limRamp false 0 3 2 (by norm_num) limSig 4 limPhi limPhi_levels
    (fun n hn => by
      rcases limPhi_uses hn with rfl | rfl
      · exact ⟨_, rfl, represents_ofPts ix, _, _, rfl⟩
      · exact ⟨_, rfl, represents_ofPts iy, _, _, rfl⟩)
    (fun n hn => by
      rcases limPhi_uses hn with rfl | rfl
      · exact hdom (0, 1) (1, -1) (3, 1) rfl rfl (by norm_num) (by norm_num)
      · exact hdom (0, -1) (2, 0) (3, 2) rfl rfl (by norm_num) (by norm_num))
    (fun n hn => by
      rcases limPhi_uses hn with rfl | rfl
      · show StepAtMost 2 [((0 : ℝ), (1 : ℝ)), (1, -1), (3, 1)]
        simp only [StepAtMost, List.isChain_cons_cons, List.isChain_singleton, and_true, abs_le]; norm_num
      · show StepAtMost 2 [((0 : ℝ), (-1 : ℝ)), (2, 0), (3, 2)]
        simp only [StepAtMost, List.isChain_cons_cons, List.isChain_singleton, and_true, abs_le]; norm_num)
  refine ⟨z, zs, e, hz, fun t ht => ?_⟩
  obtain ⟨r, hr, ha⟩ := (h t ht).1
  exact ⟨r, hr, ha.trans (by norm_num)⟩

end Verif
