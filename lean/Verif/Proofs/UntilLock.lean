import Verif.Proofs.UntilAcc

/-! # The formulas without And and Or in binary64 and in exact arithmetic, side by side -/

set_option linter.unusedSectionVars false
set_option exponentiation.threshold 1100

namespace Verif
open Spec
section any
variable {K : Type} [Field K] [LinearOrder K] [IsStrictOrderedRing K] [Arith K]

theorem pred_pts (r : RobustnessOp K) {n : String} {op : ComparisonOp} {c : D K} {xs : List (K × K)}
    (hl : r.trace.lookup n = some (ofPts xs)) (hi : Increasing xs) {g : K → K}
    (hg : ∀ p ∈ xs, RobustnessOp.predValue op c (.fin p.2) = .fin (g p.2)) :
    r.compute (.pred n op c) = .ok (ofPts (xs.map fun p => (p.1, g p.2))) := by
  have ha : r.trace.at_ n = .ok (ofPts xs) := by unfold Trace.at_; rw [hl]
  rw [RobustnessOp.compute, RobustnessOp.pred, ha, Outcome.bind_ok, ofSamples_eq]
  have e : ((ofPts xs).samples.map fun s => (⟨s.time, RobustnessOp.predValue op c s.value, 0⟩ : Sample K)).map tv =
      (xs.map fun p => (p.1, g p.2)).map lift := by
    have h1 : ∀ l : List (Sample K),
        (l.map fun s => (⟨s.time, RobustnessOp.predValue op c s.value, 0⟩ : Sample K)).map tv =
          (l.map tv).map fun q => (q.1, RobustnessOp.predValue op c q.2) := by
      intro l; simp [tv, Function.comp_def]
    rw [h1]
    simp only [ofPts, build_map_tv, List.map_map]
    apply List.map_congr_left
    intro p hp
    simp only [Function.comp_apply, lift, hg p hp]
  have hi' : Increasing (xs.map fun p => (p.1, g p.2)) := by
    unfold Increasing at *
    simpa [Function.comp_def] using hi
  rw [e, if_pos ((incr_lift _).2 hi')]
  rfl

theorem pred_none (r : RobustnessOp K) {n : String} {op : ComparisonOp} {c : D K} (hl : r.trace.lookup n = none)
    (z : Signal K) : r.compute (.pred n op c) ≠ .ok z := by
  intro h
  obtain ⟨x, hx, _⟩ := pred_ok h
  rw [hl] at hx; cases hx

theorem negate_pts {xs : List (K × K)} (hi : Increasing xs) :
    RobustnessOp.negate (ofPts xs) = .ok (ofPts (negPts xs)) := by
  have h1 : ∀ l : List (Sample K), (l.map Sample.neg).map tv = (l.map tv).map fun q => (q.1, -q.2) := by
    intro l; simp [tv, Sample.neg, Function.comp_def]
  rw [RobustnessOp.negate, ofSamples_eq, h1]
  have e : ((ofPts xs).samples.map tv).map (fun q => (q.1, -q.2)) = (negPts xs).map lift := by
    simp only [ofPts, build_map_tv, negPts, List.map_map]
    rfl
  rw [e, if_pos ((incr_lift _).2 (by unfold Increasing negPts at *; simpa [Function.comp_def] using hi))]
  rfl

theorem finT_pts {pts : List (K × K)} (h : Increasing pts) : FinT (ofPts pts) := by
  refine ⟨((represents_iff _ _).2 ⟨h, rfl⟩).1, ?_⟩
  rw [finTimes_iff, ofPts_times]
  intro t ht
  obtain ⟨p, -, rfl⟩ := List.mem_map.1 ht
  exact ⟨p.1, rfl⟩

theorem minmaxSeq_nil (comp : Cmp K) (z : Signal K) : minmaxSeq comp (ofPts []) ≠ .ok z := by
  intro h
  unfold minmaxSeq at h
  obtain ⟨b, hb, _⟩ := Outcome.bind_eq_ok.1 h
  simp [Signal.back, ofPts] at hb

/-- The intervals on which Always and Eventually throw. -/
def Bad (i : Interval K) : Prop := i.high = .dbl .ninf ∧ Interval.numIsZero i.low = true

theorem temporal_iff [SaneArith K] (hn : ∀ n : ℕ, (Arith.rnd (n : K) : D K) ≠ .ninf) (r : RobustnessOp K) (comp : Cmp K)
    {y : Signal K} (hy : FinTimes y.samples) (i : Interval K) :
    (Bad i ∧ r.temporal comp y i = .throw .logicError) ∨ (¬ Bad i ∧ r.temporal comp y i = minmaxSeq comp y) := by
  by_cases hb : Bad i
  · refine .inl ⟨hb, ?_⟩
    obtain ⟨h1, h2⟩ := hb
    have e1 : i.asDouble.2 = .ninf := by unfold Interval.asDouble; rw [h1]; rfl
    have hv : i.hasValue = true := by
      simp only [Interval.hasValue, Interval.isZeroToInf, Bool.and_eq_true]
      exact ⟨h2, by rw [h1]; rfl⟩
    have ha : i.asDouble.1 = .fin 0 := by
      unfold Interval.asDouble
      cases hl : i.low with
      | ull n =>
        rw [hl] at h2
        simp only [Interval.numIsZero, beq_iff_eq] at h2
        simp [Interval.numAsDouble, h2, SaneArith.rnd_zero]
      | dbl d =>
        rw [hl] at h2
        simp only [Interval.numIsZero, D.zero_def] at h2
        exact (D.eq_iff.1 h2).1
    unfold RobustnessOp.temporal
    have e2 : ((.ninf : D K) - .fin 0) = .ninf := rfl
    simp [hv, ha, e1, e2, D.zero_def, D.lt]
  · refine .inr ⟨hb, ?_⟩
    rcases temporal_sane r comp hy i with h | ⟨h1, h2, _⟩
    · exact h
    · refine absurd ⟨?_, ?_⟩ hb
      · unfold Interval.asDouble at h1
        cases hh : i.high with
        | ull n => rw [hh] at h1; exact absurd h1 (hn _)
        | dbl d => rw [hh] at h1; exact congrArg _ h1
      · simp only [Interval.hasValue, Interval.isZeroToInf, Bool.and_eq_true] at h2
        exact h2.1

theorem untilOp_sane [SaneArith K] (r : RobustnessOp K) (x y : Signal K) (i : Interval K) :
    r.untilOp x y i = computeUntil r.ndebug x y := by
  unfold RobustnessOp.untilOp
  by_cases hv : i.hasValue = true
  · simp only [hv, Bool.not_true, Bool.false_eq_true, if_false]
    simp only [Interval.hasValue, Interval.isZeroToInf, Bool.and_eq_true] at hv
    obtain ⟨h1, h2⟩ := hv
    have ha : i.asDouble.1.eq 0 = true := by
      unfold Interval.asDouble
      cases hl : i.low with
      | ull n =>
        rw [hl] at h1
        simp only [Interval.numIsZero, beq_iff_eq] at h1
        simp [Interval.numAsDouble, h1, SaneArith.rnd_zero, D.zero_def]
      | dbl d => rw [hl] at h1; exact h1
    have hb : i.asDouble.2.isinf = true := h2
    simp [ha, hb]
  · simp [hv]

theorem lookup_pts (n : String) : ∀ tr : List (String × List (K × K)),
    List.lookup n (tr.map fun e => (e.1, ofPts e.2)) = (List.lookup n tr).map ofPts
  | [] => rfl
  | (m, xs) :: tr => by
    simp only [List.map_cons, List.lookup_cons]
    cases n == m
    · exact lookup_pts n tr
    · rfl

theorem lookup_mem' {n : String} {xs : List (K × K)} : ∀ {tr : List (String × List (K × K))},
    List.lookup n tr = some xs → (n, xs) ∈ tr
  | [], h => by cases h
  | (m, ys) :: tr, h => by
    rw [List.lookup_cons] at h
    cases hb : n == m with
    | false => rw [hb] at h; exact List.mem_cons_of_mem _ (lookup_mem' h)
    | true =>
      rw [hb] at h
      cases h
      rw [beq_iff_eq.1 hb]; exact List.mem_cons_self

theorem times_unique {ts ts' : List K} (h : ts.Pairwise (· < ·)) (h' : ts'.Pairwise (· < ·))
    (hm : ∀ t, t ∈ ts ↔ t ∈ ts') : ts = ts' := by
  have n1 : ts.Nodup := h.imp fun h => h.ne
  have n2 : ts'.Nodup := h'.imp fun h => h.ne
  have e := (List.perm_ext_iff_of_nodup n1 n2).2 hm
  exact e.eq_of_pairwise (fun a b _ _ h1 h2 => absurd (lt_trans h1 h2) (lt_irrefl _)) h h'

end any

namespace B64

/-- A multiple of the smallest positive double. -/
def Mult (v : ℚ) : Prop := ∃ n : ℤ, v = n * (2 : ℚ) ^ (-1074 : ℤ)

theorem prod_under {h n n' h' d τ τ' V η : ℚ} (hh : 0 < h) (h0 : 0 ≤ τ) (h1 : τ ≤ h)
    (hn : |n| ≤ 2 * V) (e1 : Near n' n) (e2 : Near h' h) (η0 : 0 ≤ η) (e3 : |d - n' / h'| ≤ 1 / 2 ^ 53 * |n' / h'| + η)
    (e4 : Near τ' τ) (hη : 8 * (η * (1 + h)) ≤ 1 / 2 ^ 53 * V) : |d * τ'| ≤ 16 * V := by
  obtain ⟨x1, ρ, ex, b1, b2⟩ := split_err e3 (by positivity) η0
  have hd1 : Near (n' / h' + x1) (n' / h') := by unfold Near; simpa using b1
  have hde : d = (n' / h' + x1) + ρ := by linarith
  generalize n' / h' + x1 = d1 at hd1 hde
  have hsl := slope_err hh e1 e2 hd1 hn
  have f4 := e4.abs_le'
  rw [abs_of_nonneg h0] at f4
  have hτ : |τ'| ≤ 2 * h := by linarith
  have hρ : |ρ * τ'| ≤ 2 * (η * h) := by
    rw [abs_mul]
    calc |ρ| * |τ'| ≤ η * (2 * h) := mul_le_mul b2 hτ (abs_nonneg _) η0
      _ = _ := by ring
  have V0 : 0 ≤ V := by linarith [abs_nonneg n]
  have g1 : |d1 * h| ≤ |d1 * h - n| + |n| := by
    have := abs_add_le (d1 * h - n) n
    simpa using this
  have g2 : |d1 * τ'| ≤ 2 * |d1 * h| := by
    rw [abs_mul, abs_mul, abs_of_pos hh]
    calc |d1| * |τ'| ≤ |d1| * (2 * h) := mul_le_mul_of_nonneg_left hτ (abs_nonneg _)
      _ = _ := by ring
  have g3 : |d * τ'| ≤ |d1 * τ'| + |ρ * τ'| := by rw [hde, add_mul]; exact abs_add_le _ _
  have g4 : 0 ≤ η * h := by positivity
  linarith

theorem two_neg (k : ℕ) : (2 : ℚ) ^ (-(k : ℤ)) = 1 / 2 ^ k := by
  rw [zpow_neg, zpow_natCast, one_div]

/-- The interpolated value, for all magnitudes. -/
theorem interp_under {t0 t1 s0 s1 q V : ℚ} (h : t0 < t1) (m0 : Fx (-100) 100 t0) (m1 : Fx (-100) 100 t1)
    (n0 : Mult s0) (n1 : Mult s1) (v0 : |s0| ≤ V) (v1 : |s1| ≤ V) (hV0 : 2 ^ (-900 : ℤ) ≤ V) (hV1 : V ≤ 2 ^ (900 : ℤ))
    (hq : Fx (-100) 100 q) (h0 : t0 ≤ q) (h1 : q ≤ t1) :
    ∃ v : ℚ, (smp t0 t1 s0 s1).interpolate (fq q) = fq v ∧
      |v - line (t0, s0) (t1, s1) q| ≤ 1 / 2 ^ 49 * V ∧ Mult v := by
  have V0 : 0 ≤ V := (abs_nonneg _).trans v0
  have a1 : Fx (-1074) (900 + 1) (s1 - s0) := by
    rw [sub_eq_add_neg]; exact Fx.add (l := 900) ⟨n1, v1.trans hV1⟩ (Fx.neg ⟨n0, v0.trans hV1⟩)
  have a2 : Fx (-100) (100 + 1) (t1 - t0) := by
    rw [sub_eq_add_neg]; exact Fx.add (l := 100) m1 (Fx.neg m0)
  have a3 : Fx (-100) (100 + 1) (q - t0) := by
    rw [sub_eq_add_neg]; exact Fx.add (l := 100) hq (Fx.neg m0)
  obtain ⟨n', r1, e1, f1⟩ := rnd_fx a1 (by norm_num) (by norm_num) (by norm_num)
  obtain ⟨h', r2, e2, f2⟩ := rnd_fx a2 (by norm_num) (by norm_num) (by norm_num)
  obtain ⟨τ', r4, e4, f4⟩ := rnd_fx a3 (by norm_num) (by norm_num) (by norm_num)
  have hh : 0 < t1 - t0 := sub_pos.2 h
  have hp : 0 < h' := lt_of_lt_of_le (by positivity) (e2.pos hh)
  have hge : (2 : ℚ) ^ (-100 : ℤ) ≤ h' := by
    obtain ⟨⟨k, hk⟩, _⟩ := f2
    have p := two_zpow_pos (-100)
    have : 0 < k := by
      by_contra hc
      have : (k : ℚ) ≤ 0 := by exact_mod_cast not_lt.1 hc
      nlinarith
    have : (1 : ℚ) ≤ k := by exact_mod_cast this
    rw [hk]; nlinarith
  have sl : |n' / h'| ≤ (2 : ℚ) ^ (1001 : ℤ) := by
    rw [abs_div, abs_of_pos hp, div_le_iff₀ hp]
    refine f1.2.trans ?_
    have e : (2 : ℚ) ^ (900 + 1 : ℤ) = 2 ^ (1001 : ℤ) * 2 ^ (-100 : ℤ) := by
      rw [← zpow_add₀ (by norm_num)]; norm_num
    rw [e]
    exact mul_le_mul_of_nonneg_left hge (two_zpow_pos _).le
  obtain ⟨d, r3, e3, f3⟩ := rnd_any (by norm_num) (by norm_num) sl
  have hη : 8 * ((2 : ℚ) ^ (-1075 : ℤ) * (1 + (t1 - t0))) ≤ 1 / 2 ^ 53 * V := by
    have b1 : 1 + (t1 - t0) ≤ (2 : ℚ) ^ (102 : ℤ) := by
      have := (le_abs_self _).trans a2.2
      have e : (2 : ℚ) ^ (102 : ℤ) = 2 * 2 ^ (100 + 1 : ℤ) := by
        rw [show (102 : ℤ) = (100 + 1) + 1 by norm_num, zpow_add₀ (by norm_num)]; ring
      have : (1 : ℚ) ≤ 2 ^ (100 + 1 : ℤ) := by norm_num
      linarith
    have b2 : (2 : ℚ) ^ (-1075 : ℤ) * (1 + (t1 - t0)) ≤ 2 ^ (-1075 : ℤ) * 2 ^ (102 : ℤ) :=
      mul_le_mul_of_nonneg_left b1 (two_zpow_pos _).le
    have b3 : 8 * ((2 : ℚ) ^ (-1075 : ℤ) * 2 ^ (102 : ℤ)) = 2 ^ (-970 : ℤ) := by
      have : (8 : ℚ) = 2 ^ (3 : ℤ) := by norm_num
      rw [this, ← zpow_add₀ (by norm_num), ← zpow_add₀ (by norm_num)]; norm_num
    have b4 : (2 : ℚ) ^ (-970 : ℤ) ≤ 1 / 2 ^ 53 * 2 ^ (-900 : ℤ) := by
      have e : (1 : ℚ) / 2 ^ 53 = 2 ^ (-53 : ℤ) := (two_neg 53).symm
      rw [e, ← zpow_add₀ (by norm_num)]
      exact zpow_mono (by norm_num)
    have b5 : (1 : ℚ) / 2 ^ 53 * 2 ^ (-900 : ℤ) ≤ 1 / 2 ^ 53 * V := mul_le_mul_of_nonneg_left hV0 (by positivity)
    linarith
  have η0 : (0 : ℚ) ≤ 2 ^ (-1075 : ℤ) := (two_zpow_pos _).le
  have hn : |s1 - s0| ≤ 2 * V := by have := abs_sub s1 s0; linarith
  have τ0 : 0 ≤ q - t0 := by linarith
  have τ1 : q - t0 ≤ t1 - t0 := by linarith
  have pb := prod_under hh τ0 τ1 hn e1 e2 η0 e3 e4 hη
  have pb' : |d * τ'| ≤ 2 ^ (904 : ℤ) := by
    have e : (2 : ℚ) ^ (904 : ℤ) = 16 * 2 ^ (900 : ℤ) := by
      rw [show (904 : ℤ) = 4 + 900 by norm_num, zpow_add₀ (by norm_num)]; norm_num
    linarith
  obtain ⟨m, r5, e5, f5⟩ := rnd_any (by norm_num) (by norm_num) pb'
  have a6 : Fx (-1074) (904 + 1) (s0 + m) :=
    Fx.add (l := 904) (Fx.mono ⟨n0, v0.trans hV1⟩ (by norm_num) (by norm_num)) f5
  obtain ⟨v, r6, e6, f6⟩ := rnd_fx a6 (by norm_num) (by norm_num) (by norm_num)
  refine ⟨v, ?_, ?_, f6.1⟩
  · simp only [Sample.interpolate, smp]
    exact add_fin rfl (mul_fin (div_fin (sub_fin rfl rfl r1) (sub_fin rfl rfl r2) hp.ne' r3) (sub_fin rfl rfl r4) r5) r6
  · simp only [line]
    exact value_under hh τ0 τ1 v0 hn e1 e2 η0 e3 e4 e5 e6 hη

/-- The value of the resampled signal, for all magnitudes. -/
theorem evalD_under {V q : ℚ} (hV0 : 2 ^ (-900 : ℤ) ≤ V) (hV1 : V ≤ 2 ^ (900 : ℤ)) (hq : Fx (-100) 100 q) :
    ∀ {xs : List (ℚ × ℚ)}, Increasing xs → (∀ p ∈ xs, Fx (-100) 100 p.1 ∧ Mult p.2 ∧ |p.2| ≤ V) → q ∈ dom xs →
    ∃ v : ℚ, evalD (build (xs.map lq)) (fq q) = fq v ∧ |v - eval xs q| ≤ 1 / 2 ^ 49 * V ∧ |eval xs q| ≤ V ∧ Mult v
  | [], _, _, hd => by simp [dom] at hd
  | [p], hi, h, hd => by
    obtain ⟨_, h2, h3⟩ := h p (by simp)
    have e : p.1 = q := by
      obtain ⟨⟨a, ha, g1⟩, ⟨b, hb, g2⟩⟩ := hd
      simp at ha hb; subst ha; subst hb; exact le_antisymm g1 g2
    have V0 : 0 ≤ V := (abs_nonneg _).trans h3
    refine ⟨p.2, ?_, ?_, by simpa [eval] using h3, h2⟩
    · show (if D.eq (fq p.1) (fq q) = true then fq p.2 else _) = _
      rw [if_pos (by rw [e]; exact eqT q)]
    · simp only [eval, sub_self, abs_zero]; positivity
  | p :: p' :: xs, hi, h, hd => by
    have hpp := (increasing_cons.1 hi).1 p' (by simp)
    have hi' := (increasing_cons.1 hi).2
    have hd' := (dom_cons (K := ℚ) hi).1 hd
    obtain ⟨m0, n0, v0⟩ := h p (by simp)
    obtain ⟨m1, n1, v1⟩ := h p' (by simp)
    have V0 : 0 ≤ V := (abs_nonneg _).trans v0
    rw [build_smp]
    obtain ⟨d, e⟩ := build_cons (lq p') (xs.map lq)
    rw [List.map_cons]
    rcases le_or_gt p'.1 q with hle | hlt
    · rw [evalD_cons_of_le _ e (leT hle), eval_cons_of_le (K := ℚ) hi hle]
      refine evalD_under hV0 hV1 hq hi' (fun a ha => h a (List.mem_cons_of_mem _ ha)) ?_
      obtain ⟨_, b, hb, h2⟩ := hd'
      refine (dom_cons (K := ℚ) hi').2 ⟨hle, ?_⟩
      rcases List.mem_cons.1 hb with rfl | hb
      · exact absurd ((h2.trans_lt hpp).trans_le hle) (lt_irrefl _)
      · exact ⟨b, hb, h2⟩
    · rw [eval_cons_le hlt.le]
      have lb : |line p p' q| ≤ V := line_abs hpp hd'.1 hlt.le v0 v1
      have e' : build (lq p' :: xs.map lq) = ⟨fq p'.1, fq p'.2, d⟩ :: build (xs.map lq) := e
      rw [e']
      rcases hd'.1.eq_or_lt with heq | hgt
      · refine ⟨p.2, ?_, ?_, lb, n0⟩
        · have hn : fq q ≠ (.nan : D B64) := by simp [fq]
          rw [evalD, if_neg, if_pos]
          · rfl
          · show D.eq (fq p.1) (fq q) = true
            rw [heq]; exact eqT q
          · show ¬ D.le (fq p'.1) (fq q) = true
            unfold D.le
            rw [ltF hlt.le, eqF hlt.ne']; simp
        · rw [← heq]
          simp only [line, sub_self, zero_div, mul_zero, add_zero, abs_zero]
          positivity
      · obtain ⟨v, e1, e2, e3⟩ := interp_under hpp m0 m1 n0 n1 v0 v1 hV0 hV1 hq hd'.1 hlt.le
        refine ⟨v, ?_, e2, lb, e3⟩
        rw [evalD_between]
        · exact e1
        · exact ltT hgt
        · exact ltT hlt

theorem resample_under {V : ℚ} (hV0 : 2 ^ (-900 : ℤ) ≤ V) (hV1 : V ≤ 2 ^ (900 : ℤ)) {xs : List (ℚ × ℚ)}
    (hi : Increasing xs) (h : ∀ p ∈ xs, Fx (-100) 100 p.1 ∧ Mult p.2 ∧ |p.2| ≤ V) {ts : List ℚ}
    (hts : ∀ t ∈ ts, t ∈ dom xs ∧ Fx (-100) 100 t) :
    ∃ f : ℚ → ℚ, build (resample (build (xs.map lq)) (ts.map fq)) = build ((sampleAt f ts).map lq) ∧
      ∀ t ∈ ts, |f t - eval xs t| ≤ 1 / 2 ^ 49 * V ∧ |eval xs t| ≤ V ∧ Mult (f t) := by
  have hv : ∀ t, ∃ v : ℚ, t ∈ ts → evalD (build (xs.map lq)) (fq t) = fq v ∧
      |v - eval xs t| ≤ 1 / 2 ^ 49 * V ∧ |eval xs t| ≤ V ∧ Mult v := by
    intro t
    by_cases ht : t ∈ ts
    · obtain ⟨v, hv⟩ := evalD_under hV0 hV1 (hts t ht).2 hi h (hts t ht).1
      exact ⟨v, fun _ => hv⟩
    · exact ⟨0, fun h => absurd h ht⟩
  choose f hf using hv
  refine ⟨f, ?_, fun t ht => (hf t ht).2⟩
  congr 1
  simp only [resample, sampleAt, List.map_map]
  apply List.map_congr_left
  intro t ht
  show (fq t, evalD _ (fq t)) = (fq t, fq (f t))
  rw [(hf t ht).1]

/-- The signals computed in binary64 and exactly. -/
structure Rel (W : ℚ) (k : ℕ) (zs ws : List (ℚ × ℚ)) : Prop where
  inc : Increasing zs
  pts : ∀ p ∈ zs, Fx (-100) 100 p.1 ∧ Mult p.2 ∧ |p.2| ≤ W * (1 + 1 / 2 ^ 49) ^ k
  close : CloseTo (W * ((1 + 1 / 2 ^ 49) ^ k - 1)) zs ws

theorem increasing_of_times {zs ws : List (ℚ × ℚ)} (h : zs.map Prod.fst = ws.map Prod.fst) (hi : Increasing zs) :
    Increasing ws := by unfold Increasing at *; rwa [← h]

theorem Rel.inc' {W : ℚ} {k : ℕ} {zs ws : List (ℚ × ℚ)} (h : Rel W k zs ws) : Increasing ws :=
  increasing_of_times h.close.times h.inc

theorem Mult.neg {v : ℚ} (h : Mult v) : Mult (-v) := by
  obtain ⟨n, rfl⟩ := h
  exact ⟨-n, by push_cast; ring⟩

theorem rnd_nat (n : ℕ) : (Arith.rnd (n : B64) : D B64) ≠ .ninf := by
  have : ∀ q : ℚ, 0 ≤ q → rnd q ≠ .ninf := by
    intro q hq
    unfold rnd
    split
    · simp
    · rename_i h0
      rw [if_pos (lt_of_le_of_ne hq (Ne.symm h0))]
      split <;> simp
  exact this (n : ℚ) (Nat.cast_nonneg n)

theorem mult_of_isB64 {v : ℚ} (h : IsB64 v) : Mult v := by
  obtain ⟨m, e, h1, _, h2, _⟩ := h
  exact multiple_mono (by omega) ⟨m, h1⟩

theorem until_step {W : ℚ} {k : ℕ} (hW : 2 ^ (-900 : ℤ) ≤ W) (hk : W * (1 + 1 / 2 ^ 49) ^ k ≤ 2 ^ (900 : ℤ)) (nd : Bool)
    {zs ws zs' ws' : List (ℚ × ℚ)} (h : Rel W k zs ws) (h' : Rel W k zs' ws') :
    (∃ us vs, computeUntil nd (ofPts (K := B64) zs) (ofPts (K := B64) zs') = .ok (ofPts (K := B64) us) ∧
      computeUntil nd (ofPts ws) (ofPts ws') = .ok (ofPts vs) ∧ Rel W (k + 1) us vs) ∨
    ((∀ z, computeUntil nd (ofPts (K := B64) zs) (ofPts (K := B64) zs') ≠ .ok z) ∧
      ∀ z, computeUntil nd (ofPts ws) (ofPts ws') ≠ .ok z) := by
  have W0 : 0 ≤ W := (two_zpow_pos (-900)).le.trans hW
  have p1 : (1 : ℚ) ≤ (1 + 1 / 2 ^ 49) ^ k := one_le_pow₀ (by norm_num)
  have hV0 : (2 : ℚ) ^ (-900 : ℤ) ≤ W * (1 + 1 / 2 ^ 49) ^ k := hW.trans (le_mul_of_one_le_right W0 p1)
  have i1 : Increasing (K := B64) zs := h.inc
  have i2 : Increasing (K := B64) zs' := h'.inc
  have ee := computeUntil_finT (K := B64) nd (finT_pts i1) (finT_pts i2)
  have eq := computeUntil_finT nd (finT_ofPts h.inc') (finT_ofPts h'.inc')
  have sB := sync_times_iff (K := B64) i1 i2
  have sQ := sync_times_iff h.inc' h'.inc'
  rw [← h.close.times, ← h'.close.times] at sQ
  have ss : (∃ r, synchronize (ofPts (K := B64) zs) (ofPts (K := B64) zs') = .ok r) ↔
      ∃ r, synchronize (ofPts ws) (ofPts ws') = .ok r := sB.trans sQ.symm
  by_cases hs : ∃ r, synchronize (ofPts (K := B64) zs) (ofPts (K := B64) zs') = .ok r
  · left
    obtain ⟨r', hr'⟩ := ss.1 hs
    obtain ⟨r, hr⟩ := hs
    obtain ⟨b, ts, hbx, hby, hbm, hs, hm, er⟩ := synchronize_any (K := B64) i1 i2 hr
    subst er
    obtain ⟨b', c1, c2, c3⟩ := sync_fin_ok h.inc' h'.inc' hr'
    obtain ⟨ts', hs', -, hm', hu, -, -, -⟩ := computeUntil_pts nd h.inc' h'.inc' b' c1 c2 c3
    have hdom : dom zs = dom ws := dom_of_fst (K := ℚ) h.close.times
    have hdom' : dom zs' = dom ws' := dom_of_fst (K := ℚ) h'.close.times
    have hts : ts' = ts := by
      refine times_unique (K := ℚ) hs' hs fun t => ?_
      rw [hm' t, ← h.close.times, ← h'.close.times, ← hdom, ← hdom']
      exact (hm t).symm
    subst hts
    have hfx : ∀ t ∈ ts', Fx (-100) 100 t := by
      intro t ht
      rcases ((hm t).1 ht).1 with g | g
      · obtain ⟨p, hp, rfl⟩ := List.mem_map.1 g
        exact (h.pts p hp).1
      · obtain ⟨p, hp, rfl⟩ := List.mem_map.1 g
        exact (h'.pts p hp).1
    obtain ⟨f, f1, f2⟩ := resample_under hV0 hk h.inc h.pts (fun t ht => ⟨((hm t).1 ht).2.1, hfx t ht⟩)
    obtain ⟨g, g1, g2⟩ := resample_under hV0 hk h'.inc h'.pts (fun t ht => ⟨((hm t).1 ht).2.2, hfx t ht⟩)
    refine ⟨untilPts (K := ℚ) (sample2 (K := ℚ) f g ts'), untilPts (K := ℚ) (sample2 (K := ℚ) (eval ws) (eval ws') ts'), ?_, hu, ?_⟩
    · have e1 : (⟨build (resample (ofPts (K := B64) zs).samples (ts'.map D.fin))⟩ : Signal B64) =
          ofPts (K := B64) (sampleAt f ts') := congrArg Signal.mk f1
      have e2 : (⟨build (resample (ofPts (K := B64) zs').samples (ts'.map D.fin))⟩ : Signal B64) =
          ofPts (K := B64) (sampleAt g ts') := congrArg Signal.mk g1
      rw [ee, hr]
      have := untilLoop_fin (K := B64) f g ts' hs
      refine Eq.trans ?_ this
      show Signal.ofSamples _ = _
      exact congrArg₂ (fun (a b : Signal B64) =>
        Signal.ofSamples (untilLoop .pinf .ninf a.samples.reverse b.samples.reverse).reverse) e1 e2
    · have hstep : W * (1 + 1 / 2 ^ 49) ^ (k + 1) = W * (1 + 1 / 2 ^ 49) ^ k + 1 / 2 ^ 49 * (W * (1 + 1 / 2 ^ 49) ^ k) := by
        rw [pow_succ]; ring
      have key : ∀ {f : ℚ → ℚ} {zs ws : List (ℚ × ℚ)}, Rel W k zs ws → (∀ t ∈ ts', t ∈ dom zs) →
          (∀ t ∈ ts', |f t - eval zs t| ≤ 1 / 2 ^ 49 * (W * (1 + 1 / 2 ^ 49) ^ k) ∧
            |eval zs t| ≤ W * (1 + 1 / 2 ^ 49) ^ k ∧ Mult (f t)) → ∀ t ∈ ts',
          (Mult (f t) ∧ |f t| ≤ W * (1 + 1 / 2 ^ 49) ^ (k + 1)) ∧
            |f t - eval ws t| ≤ W * ((1 + 1 / 2 ^ 49) ^ (k + 1) - 1) := by
        intro f zs ws h hd f2 t ht
        obtain ⟨q1, q2, q3⟩ := f2 t ht
        have q4 := h.close.eval h.inc (hd t ht)
        refine ⟨⟨q3, ?_⟩, ?_⟩
        · have := abs_add_le (f t - eval zs t) (eval zs t)
          rw [sub_add_cancel] at this
          rw [hstep]; linarith
        · have := abs_sub_le (f t) (eval zs t) (eval ws t)
          rw [mul_sub, hstep]
          rw [mul_sub] at q4
          linarith
      have kf := key h (fun t ht => ((hm t).1 ht).2.1) f2
      have kg := key h' (fun t ht => ((hm t).1 ht).2.2) g2
      refine ⟨?_, ?_, ?_⟩
      · unfold Increasing
        rw [untilPts_fst]
        simpa [sample2, Function.comp_def] using hs'
      · have hp := untilPts_prop (P := fun v => Mult v ∧ |v| ≤ W * (1 + 1 / 2 ^ 49) ^ (k + 1))
          (fun a ha => ⟨ha.1.neg, by rw [abs_neg]; exact ha.2⟩) (l := sample2 f g ts') (by
            intro p hp
            obtain ⟨t, ht, rfl⟩ := List.mem_map.1 hp
            exact ⟨(kf t ht).1, (kg t ht).1⟩)
        intro p hpm
        refine ⟨?_, hp p hpm⟩
        have : p.1 ∈ (untilPts (sample2 f g ts')).map Prod.fst := List.mem_map_of_mem hpm
        rw [untilPts_fst] at this
        simp only [sample2, List.map_map, Function.comp_def, List.map_id'] at this
        exact hfx _ this
      · apply untilPts_close
        unfold sample2
        rw [List.forall₂_map_left_iff, List.forall₂_map_right_iff, List.forall₂_same]
        exact fun t ht => ⟨rfl, (kf t ht).2, (kg t ht).2⟩
  · right
    constructor
    · intro z hz
      rw [ee] at hz
      obtain ⟨r, hr, _⟩ := Outcome.bind_eq_ok.1 hz
      exact hs ⟨r, hr⟩
    · intro z hz
      rw [eq] at hz
      obtain ⟨r, hr, _⟩ := Outcome.bind_eq_ok.1 hz
      exact hs (ss.2 ⟨r, hr⟩)

theorem Rel.mono {W : ℚ} (W0 : 0 ≤ W) {k k' : ℕ} (hk : k ≤ k') {zs ws : List (ℚ × ℚ)} (h : Rel W k zs ws) :
    Rel W k' zs ws := by
  have hp : (1 + 1 / 2 ^ 49 : ℚ) ^ k ≤ (1 + 1 / 2 ^ 49) ^ k' := pow_le_pow_right₀ (by norm_num) hk
  refine ⟨h.inc, fun p hpm => ?_, h.close.mono ?_⟩
  · obtain ⟨h1, h2, h3⟩ := h.pts p hpm
    exact ⟨h1, h2, h3.trans (mul_le_mul_of_nonneg_left hp W0)⟩
  · exact mul_le_mul_of_nonneg_left (by linarith) W0

theorem predValue_b64 (op : ComparisonOp) (c v : ℚ) : RobustnessOp.predValue op (fq c) (fq v) = rnd (marg op c v) := by
  cases op <;> exact sub_fin rfl rfl rfl

/-- Both computations succeed with signals that are related, or both do not succeed. -/
def Both (W : ℚ) (k : ℕ) (o : Outcome (Signal B64)) (o' : Outcome (Signal ℚ)) : Prop :=
  (∃ zs ws : List (ℚ × ℚ), o = .ok (ofPts (K := B64) zs) ∧ o' = .ok (ofPts ws) ∧ Rel W k zs ws) ∨
    ((∀ z, o ≠ .ok z) ∧ ∀ z, o' ≠ .ok z)

theorem Both.congr {W : ℚ} {k : ℕ} {o p : Outcome (Signal B64)} {o' p' : Outcome (Signal ℚ)} (h : o = p) (h' : o' = p')
    (hp : Both W k p p') : Both W k o o' := by rw [h, h']; exact hp

theorem Both.bind {W : ℚ} {k k' : ℕ} {o : Outcome (Signal B64)} {o' : Outcome (Signal ℚ)}
    {f : Signal B64 → Outcome (Signal B64)} {f' : Signal ℚ → Outcome (Signal ℚ)} (h : Both W k o o')
    (hf : ∀ zs ws : List (ℚ × ℚ), Rel W k zs ws → Both W k' (f (ofPts (K := B64) zs)) (f' (ofPts ws))) :
    Both W k' (o >>= f) (o' >>= f') := by
  rcases h with ⟨zs, ws, h1, h2, h3⟩ | ⟨h1, h2⟩
  · rw [h1, h2]; exact hf zs ws h3
  · right
    constructor
    · intro z hz
      obtain ⟨x, hx, _⟩ := Outcome.bind_eq_ok.1 hz
      exact h1 x hx
    · intro z hz
      obtain ⟨x, hx, _⟩ := Outcome.bind_eq_ok.1 hz
      exact h2 x hx

theorem pred_step {V C W : ℚ} (hVC : V + C = W) (hW : 2 ^ (-900 : ℤ) ≤ W) (hW1 : W ≤ 2 ^ (900 : ℤ))
    {tr : List (String × List (ℚ × ℚ))} (htr : Steady V tr)
    (rB : RobustnessOp B64) (rQ : RobustnessOp ℚ) (hB : rB.trace = tr.map fun e => (e.1, ofPts (K := B64) e.2))
    (hQ : rQ.trace = tr.map fun e => (e.1, ofPts e.2)) (name : String) (op : ComparisonOp) {c : ℚ} (hc : IsB64 c)
    (hcC : |c| ≤ C) :
    Both W 1 (rB.compute (.pred name op (fq c))) (rQ.compute (.pred name op (.fin c))) := by
  have W0 : 0 ≤ W := (two_zpow_pos (-900)).le.trans hW
  cases hl : List.lookup name tr with
  | none =>
    right
    constructor
    · refine pred_none (K := B64) rB ?_
      rw [hB]
      exact (lookup_pts (K := B64) name tr).trans (congrArg (Option.map (ofPts (K := B64))) hl)
    · refine pred_none rQ ?_
      rw [hQ, lookup_pts, hl]; rfl
  | some xs =>
    left
    obtain ⟨hi, hx⟩ := htr _ (lookup_mem' (K := ℚ) hl)
    have hv : ∀ v : ℚ, ∃ r : ℚ, IsB64 v ∧ |v| ≤ V → rnd (marg op c v) = .fin r ∧ Mult r ∧
        |r - marg op c v| ≤ W * ((1 + 1 / 2 ^ 49) ^ 1 - 1) ∧ |r| ≤ W * (1 + 1 / 2 ^ 49) ^ 1 := by
      intro v
      by_cases hv : IsB64 v ∧ |v| ≤ V
      · obtain ⟨h1, h2⟩ := hv
        have hm : |marg op c v| ≤ W := by
          have a1 := abs_sub v c
          have a2 := abs_sub c v
          cases op <;> simp only [marg] <;> linarith
        have hmu : Mult (marg op c v) := by
          obtain ⟨i, e1⟩ := mult_of_isB64 h1
          obtain ⟨j, e2⟩ := mult_of_isB64 hc
          have a1 : Mult (v - c) := ⟨i - j, by rw [e1, e2]; push_cast; ring⟩
          have a2 : Mult (c - v) := ⟨j - i, by rw [e1, e2]; push_cast; ring⟩
          cases op <;> simp only [marg] <;> assumption
        obtain ⟨r, e1, e2, e3⟩ := rnd_fx (k := -1074) (l := 900) ⟨hmu, hm.trans hW1⟩ (by norm_num) (by norm_num) (by norm_num)
        unfold Near at e2
        have b1 := abs_add_le (r - marg op c v) (marg op c v)
        rw [sub_add_cancel] at b1
        have b2 := abs_nonneg (marg op c v)
        refine ⟨r, fun _ => ⟨e1, e3.1, ?_, ?_⟩⟩
        · rw [pow_one]; linarith
        · rw [pow_one]; linarith
      · exact ⟨0, fun h => absurd h hv⟩
    choose g hg using hv
    have hg' : ∀ p ∈ xs, rnd (marg op c p.2) = .fin (g p.2) ∧ Mult (g p.2) ∧
        |g p.2 - marg op c p.2| ≤ W * ((1 + 1 / 2 ^ 49) ^ 1 - 1) ∧ |g p.2| ≤ W * (1 + 1 / 2 ^ 49) ^ 1 :=
      fun p hp => hg p.2 ⟨(hx p hp).2.2.1, (hx p hp).2.2.2⟩
    have hi' : Increasing (K := B64) xs := hi
    have oB : rB.compute (.pred name op (fq c)) = .ok (ofPts (K := B64) (xs.map fun p => (p.1, g p.2))) := by
      refine pred_pts (K := B64) rB (xs := xs) ?_ hi' (g := g) ?_
      · rw [hB]
        exact (lookup_pts (K := B64) name tr).trans (congrArg (Option.map (ofPts (K := B64))) hl)
      · intro p hp
        exact (predValue_b64 op c p.2).trans (hg' p hp).1
    have oQ : rQ.compute (.pred name op (.fin c)) = .ok (ofPts (xs.map fun p => (p.1, marg op c p.2))) := by
      refine pred_pts rQ (xs := xs) ?_ hi (g := marg op c) ?_
      · rw [hQ, lookup_pts, hl]; rfl
      · intro p hp
        cases op <;> simp [RobustnessOp.predValue, marg]
    refine ⟨xs.map fun p => (p.1, g p.2), xs.map fun p => (p.1, marg op c p.2), oB, oQ, ?_, ?_, ?_⟩
    · unfold Increasing at *
      simpa [Function.comp_def] using hi
    · intro p hp
      obtain ⟨a, ha, rfl⟩ := List.mem_map.1 hp
      obtain ⟨h1, h2, h3, h4⟩ := hg' a ha
      obtain ⟨⟨n, q1⟩, q2, _⟩ := hx a ha
      refine ⟨⟨⟨n, ?_⟩, ?_⟩, h2, h4⟩
      · show a.1 = _
        rw [q1, show (-100 : ℤ) = -((100 : ℕ) : ℤ) by norm_num, two_neg]; ring
      · exact q2.trans (by norm_num)
    · show List.Forall₂ _ _ _
      rw [List.forall₂_map_left_iff, List.forall₂_map_right_iff, List.forall₂_same]
      exact fun p hp => ⟨rfl, (hg' p hp).2.2.1⟩

theorem temporal_step {W : ℚ} {k : ℕ} (rB : RobustnessOp B64) (rQ : RobustnessOp ℚ) (sd : Bool) (i : Interval ℚ)
    {zs ws : List (ℚ × ℚ)} (h : Rel W k zs ws) :
    Both W k (rB.temporal (if sd then Sample.ge else Sample.le) (ofPts (K := B64) zs) i)
      (rQ.temporal (if sd then Sample.ge else Sample.le) (ofPts ws) i) := by
  have i1 : Increasing (K := B64) zs := h.inc
  have tB := temporal_iff (K := B64) rnd_nat rB (if sd then Sample.ge else Sample.le) (finT_pts i1).2 i
  have tQ := temporal_iff (K := ℚ) (fun n => by simp [ExactArith.rnd_eq]) rQ (if sd then Sample.ge else Sample.le)
    (finT_pts h.inc').2 i
  rcases tB with ⟨b, tB⟩ | ⟨b, tB⟩
  · rcases tQ with ⟨_, tQ⟩ | ⟨b', tQ⟩
    · right
      constructor
      · intro z hz
        have := tB.symm.trans hz
        cases this
      · intro z hz
        rw [tQ] at hz; cases hz
    · exact absurd b b'
  rcases tQ with ⟨b', tQ⟩ | ⟨_, tQ⟩
  · exact absurd b' b
  refine Both.congr tB tQ ?_
  by_cases hz : zs = []
  · subst hz
    have hw : ws = [] := by
      have := h.close; unfold CloseTo at this; cases this; rfl
    subst hw
    exact .inr ⟨minmaxSeq_nil (K := B64) _, minmaxSeq_nil _⟩
  · have hw : ws ≠ [] := by
      rintro rfl
      apply hz
      have := h.close; unfold CloseTo at this; cases this; rfl
    have key : ∀ (op : ℚ → ℚ → ℚ), (∀ a b, op a b = a ∨ op a b = b) →
        (∀ a b a' b' e : ℚ, |a - a'| ≤ e → |b - b'| ≤ e → |op a b - op a' b'| ≤ e) →
        Rel W k (sufPts op zs) (sufPts op ws) := by
      intro op h1 h2
      refine ⟨increasing_sufPts.2 h.inc, fun p hp => ?_, h.close.sufPts h2⟩
      have hv := sufPts_prop (P := fun v => Mult v ∧ |v| ≤ W * (1 + 1 / 2 ^ 49) ^ k) h1 (fun p hp => (h.pts p hp).2) p hp
      have ht : p.1 ∈ (sufPts op zs).map Prod.fst := List.mem_map_of_mem hp
      rw [sufPts_fst] at ht
      obtain ⟨q, hq, e⟩ := List.mem_map.1 ht
      exact ⟨e ▸ (h.pts q hq).1, hv⟩
    left
    cases sd
    · refine ⟨sufPts min zs, sufPts min ws, minmaxSeq_le_pts (K := B64) i1 hz, minmaxSeq_le_pts h.inc' hw, key min ?_ ?_⟩
      · exact fun a b => min_choice a b
      · exact fun _ _ _ _ _ => abs_min_le
    · refine ⟨sufPts max zs, sufPts max ws, minmaxSeq_ge_pts (K := B64) i1 hz, minmaxSeq_ge_pts h.inc' hw, key max ?_ ?_⟩
      · exact fun a b => max_choice a b
      · exact fun _ _ _ _ _ => abs_max_le

/-- Both computations in lockstep. -/
theorem lock {V C W : ℚ} (hVC : V + C = W) (hW : 2 ^ (-900 : ℤ) ≤ W)
    {tr : List (String × List (ℚ × ℚ))} (htr : Steady V tr)
    (rB : RobustnessOp B64) (rQ : RobustnessOp ℚ) (hB : rB.trace = tr.map fun e => (e.1, ofPts (K := B64) e.2))
    (hQ : rQ.trace = tr.map fun e => (e.1, ofPts e.2)) (hnd : rB.ndebug = rQ.ndebug) {n : ℕ} {e : Expr ℚ}
    (he : UntilOnly C n e) (hn : W * (1 + 1 / 2 ^ 49) ^ (n + 1) ≤ 2 ^ (900 : ℤ)) :
    Both W (n + 1) (rB.compute e) (rQ.compute e) := by
  have W0 : 0 ≤ W := (two_zpow_pos (-900)).le.trans hW
  have down : ∀ {j k : ℕ}, j ≤ k → W * (1 + 1 / 2 ^ 49) ^ k ≤ (2 : ℚ) ^ (900 : ℤ) →
      W * (1 + 1 / 2 ^ 49) ^ j ≤ (2 : ℚ) ^ (900 : ℤ) := fun h h' =>
    (mul_le_mul_of_nonneg_left (pow_le_pow_right₀ (by norm_num) h) W0).trans h'
  induction he with
  | @pred n name op c hc h =>
    have h0 : W ≤ (2 : ℚ) ^ (900 : ℤ) := by simpa using down (Nat.zero_le _) hn
    rcases pred_step hVC hW h0 htr rB rQ hB hQ name op hc h with ⟨zs, ws, h1, h2, h3⟩ | h
    · exact .inl ⟨zs, ws, h1, h2, h3.mono W0 (by omega)⟩
    · exact .inr h
  | @not n e _ ih =>
    refine Both.congr (compute_not (K := B64) rB e) (compute_not rQ e) ((ih hn).bind fun zs ws h3 => ?_)
    refine .inl ⟨negPts zs, negPts ws, negate_pts (K := B64) h3.inc, negate_pts h3.inc', ?_⟩
    refine ⟨increasing_negPts.2 h3.inc, fun p hp => ?_, h3.close.neg⟩
    obtain ⟨q, hq, rfl⟩ := List.mem_map.1 hp
    obtain ⟨a1, a2, a3⟩ := h3.pts q hq
    exact ⟨a1, a2.neg, by rw [abs_neg]; exact a3⟩
  | @always n e i _ ih =>
    exact Both.congr (compute_always (K := B64) rB e i) (compute_always rQ e i)
      ((ih hn).bind fun zs ws h3 => temporal_step rB rQ false i h3)
  | @eventually n e i _ ih =>
    exact Both.congr (compute_eventually (K := B64) rB e i) (compute_eventually rQ e i)
      ((ih hn).bind fun zs ws h3 => temporal_step rB rQ true i h3)
  | @untl n e e' i _ _ ih ih' =>
    have hn' := down (Nat.le_succ (n + 1)) hn
    refine Both.congr (compute_untl (K := B64) rB e e' i) (compute_untl rQ e e' i)
      ((ih hn').bind fun zs ws h3 => (ih' hn').bind fun zs' ws' h3' => ?_)
    refine Both.congr (untilOp_sane (K := B64) rB _ _ i) (untilOp_sane rQ _ _ i) ?_
    rw [hnd]
    exact until_step hW hn' _ h3 h3'

end B64
end Verif
