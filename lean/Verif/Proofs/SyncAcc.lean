import Verif.Proofs.AccuracyPair
import Verif.Proofs.SyncAny

/-! # The rounding errors of `synchronize`, and of `compute_minmax_pair` on signals with different timestamps -/

set_option linter.unusedSectionVars false

namespace Verif
open Spec Classical
namespace B64

variable {ka kb kg kc : ℤ}

/-- The exponents of the operands. -/
structure SyncBudget (ka kb kg kc : ℤ) : Prop where
  a0 : 0 ≤ ka
  b0 : 0 ≤ kb
  g0 : 0 ≤ kg
  c0 : 0 ≤ kc
  interp : 2 * kg + 4 * kb + 4 * ka + kc ≤ 806

theorem SyncBudget.first (B : SyncBudget ka kb kg kc) : Budget ka kb kg kc := by
  obtain ⟨h1, h2, h3, h4, h5⟩ := B
  constructor <;> omega

theorem SyncBudget.second (B : SyncBudget ka kb kg kc) : Budget ka kb (kg + kb + 53 + ka) (kc + 1) := by
  obtain ⟨h1, h2, h3, h4, h5⟩ := B
  constructor <;> omega

/-- A value between two values of magnitude at most `V`. -/
theorem line_abs {t0 t1 a b t V : ℚ} (h : t0 < t1) (h0 : t0 ≤ t) (h1 : t ≤ t1) (ha : |a| ≤ V) (hb : |b| ≤ V) :
    |line (t0, a) (t1, b) t| ≤ V := by
  obtain ⟨l0, l1⟩ := frac01 h h0 h1
  simp only [line]
  obtain ⟨a1, a2⟩ := abs_le.1 ha
  obtain ⟨b1, b2⟩ := abs_le.1 hb
  rw [abs_le]
  constructor <;> nlinarith

/-- Two functions with the same timestamps that are close to each other there. -/
theorem eval_close {f g : ℚ → ℚ} {e : ℚ} : ∀ {ts : List ℚ}, ts.Pairwise (· < ·) → (∀ t ∈ ts, |f t - g t| ≤ e) →
    ∀ {t : ℚ}, t ∈ dom (sampleAt f ts) → |eval (sampleAt f ts) t - eval (sampleAt g ts) t| ≤ e
  | [], _, _, t, ht => by simp [sampleAt, dom] at ht
  | [a], _, h, t, ht => by simpa [sampleAt, eval] using h a (by simp)
  | a :: b :: ts, hs, h, t, ht => by
    have hab : a < b := (List.pairwise_cons.1 hs).1 b (by simp)
    have hs' := (List.pairwise_cons.1 hs).2
    have hinc : Increasing (sampleAt f (a :: b :: ts)) := (increasing_sampleAt _ _).2 hs
    have hd := (dom_cons (K := ℚ) hinc).1 ht
    rcases le_or_gt t b with hle | hlt
    · show |eval ((a, f a) :: (b, f b) :: _) t - eval ((a, g a) :: (b, g b) :: _) t| ≤ e
      rw [eval_cons_le (q := (b, f b)) hle, eval_cons_le (q := (b, g b)) hle]
      have := line_abs hab hd.1 hle (h a (by simp)) (h b (by simp))
      have e1 : line (a, f a) (b, f b) t - line (a, g a) (b, g b) t = line (a, f a - g a) (b, f b - g b) t := by
        simp only [line]; ring
      rw [e1]; exact this
    · show |eval ((a, f a) :: (b, f b) :: _) t - eval ((a, g a) :: (b, g b) :: _) t| ≤ e
      rw [eval_cons_gt (q := (b, f b)) hlt, eval_cons_gt (q := (b, g b)) hlt]
      refine eval_close (ts := b :: ts) hs' (fun t ht => h t (List.mem_cons_of_mem _ ht)) ?_
      have hinc' : Increasing (sampleAt f (b :: ts)) := (increasing_sampleAt _ _).2 hs'
      refine (dom_cons (K := ℚ) hinc').2 ⟨hlt.le, ?_⟩
      obtain ⟨_, p, hp, h2⟩ := hd
      rcases List.mem_cons.1 hp with rfl | hp
      · exact absurd (h2.trans_lt (hab.trans hlt)) (lt_irrefl _)
      · exact ⟨p, hp, h2⟩

theorem same_fst (f g : ℚ → ℚ) (ts : List ℚ) : (sampleAt f ts).map Prod.fst = (sampleAt g ts).map Prod.fst := by
  simp [sampleAt, Function.comp_def]

/-- The interpolated value at a timestamp of the other signal. -/
theorem interp_at (B : SyncBudget ka kb kg kc) {t0 t1 s0 s1 q V : ℚ} (h : t0 < t1) (m0 : Fx (-ka) kb t0)
    (m1 : Fx (-ka) kb t1) (ns0 : Fx (-kg) kc s0) (ns1 : Fx (-kg) kc s1) (vs0 : |s0| ≤ V) (vs1 : |s1| ≤ V)
    (hq : Fx (-ka) kb q) (h0 : t0 ≤ q) (h1 : q ≤ t1) :
    ∃ v : ℚ, (smp t0 t1 s0 s1).interpolate (fq q) = fq v ∧
      |v - line (t0, s0) (t1, s1) q| ≤ 1 / 2 ^ 53 * (15 * V) ∧ ∃ n : ℤ, v = n * (2 : ℚ) ^ (-(kg + kb + 53 + ka)) := by
  have ⟨hB1, hB2, hB3, hB4, hB5⟩ := B
  obtain ⟨ds, ds1, ds2, ds3⟩ := slope_spec B.first h m0 m1 ns0 ns1 vs0 vs1
  have x1 : Fx (-ka) (kb + 1) (q - t0) := by
    rw [sub_eq_add_neg q t0]
    exact Fx.add (l := kb) hq (Fx.neg m0)
  obtain ⟨τ, e11, e12, e13⟩ := rnd_fx x1 (by omega) (by omega) (by omega)
  have x2 : Fx (-(kg + kb + 53 + ka)) (kc + ka + kb + 2) (ds * τ) :=
    (Fx.mul ds2 e13).mono (by omega) (by omega)
  obtain ⟨m, e21, e22, e23⟩ := rnd_fx x2 (by omega) (by omega) (by omega)
  have x3 : Fx (-(kg + kb + 53 + ka)) (kc + ka + kb + 2 + 1) (s0 + m) :=
    Fx.add (l := kc + ka + kb + 2) (Fx.mono ns0 (by omega) (by omega)) e23
  obtain ⟨v, e31, e32, e33⟩ := rnd_fx x3 (by omega) (by omega) (by omega)
  refine ⟨v, ?_, ?_, e33.1⟩
  · simp only [Sample.interpolate, smp]
    exact add_fin rfl (mul_fin ds1 (sub_fin rfl rfl e11) e21) e31
  · have hn : |s1 - s0| ≤ 2 * V := by have := abs_sub s1 s0; linarith
    simp only [line]
    exact value_err (by linarith) (by linarith) (by linarith) vs0 hn ds3 e12 e22 e32

theorem leT {a b : ℚ} (h : a ≤ b) : D.le (fq a) (fq b) = true := by
  have : ∀ {a b : B64}, a ≤ b → D.le (.fin a) (.fin b) = true := fun h => by simp [h]
  exact this h

/-- The value of the resampled signal. -/
theorem evalD_acc (B : SyncBudget ka kb kg kc) {V q : ℚ} (hq : Fx (-ka) kb q) : ∀ {xs : List (ℚ × ℚ)}, Increasing xs →
    (∀ p ∈ xs, Fx (-ka) kb p.1 ∧ Fx (-kg) kc p.2 ∧ |p.2| ≤ V) → q ∈ dom xs →
    ∃ v : ℚ, evalD (build (xs.map lq)) (fq q) = fq v ∧ |v - eval xs q| ≤ 1 / 2 ^ 53 * (15 * V) ∧ |eval xs q| ≤ V ∧
      ∃ n : ℤ, v = n * (2 : ℚ) ^ (-(kg + kb + 53 + ka))
  | [], _, _, hd => by simp [dom] at hd
  | [p], hi, h, hd => by
    obtain ⟨hB1, hB2, hB3, hB4, hB5⟩ := B
    obtain ⟨_, h2, h3⟩ := h p (by simp)
    have e : p.1 = q := by
      obtain ⟨⟨a, ha, g1⟩, ⟨b, hb, g2⟩⟩ := hd
      simp at ha hb; subst ha; subst hb; exact le_antisymm g1 g2
    have V0 : 0 ≤ V := (abs_nonneg _).trans h3
    refine ⟨p.2, ?_, ?_, by simpa [eval] using h3, multiple_mono (by omega) h2.1⟩
    · show (if D.eq (fq p.1) (fq q) = true then fq p.2 else _) = _
      rw [if_pos (by rw [e]; exact eqT q)]
    · simp only [eval, sub_self, abs_zero]; positivity
  | p :: p' :: xs, hi, h, hd => by
    have hB := B
    obtain ⟨hB1, hB2, hB3, hB4, hB5⟩ := hB
    have hpp := (increasing_cons.1 hi).1 p' (by simp)
    have hi' := (increasing_cons.1 hi).2
    have hd' := (dom_cons (K := ℚ) hi).1 hd
    obtain ⟨m0, n0, v0⟩ := h p (by simp)
    obtain ⟨m1, n1, v1⟩ := h p' (by simp)
    have V0 : 0 ≤ V := (abs_nonneg _).trans v0
    rw [build_smp]
    obtain ⟨d, e⟩ := build_cons (lq p') (xs.map lq)
    rw [List.map_cons]
    rcases le_or_gt p'.1 q with hle | hlt
    · rw [evalD_cons_of_le _ e (leT hle), eval_cons_of_le (K := ℚ) hi hle]
      refine evalD_acc B hq hi' (fun a ha => h a (List.mem_cons_of_mem _ ha)) ?_
      obtain ⟨_, b, hb, h2⟩ := hd'
      refine (dom_cons (K := ℚ) hi').2 ⟨hle, ?_⟩
      rcases List.mem_cons.1 hb with rfl | hb
      · exact absurd ((h2.trans_lt hpp).trans_le hle) (lt_irrefl _)
      · exact ⟨b, hb, h2⟩
    · rw [eval_cons_le hlt.le]
      have lb : |line p p' q| ≤ V := line_abs hpp hd'.1 hlt.le v0 v1
      have e' : build (lq p' :: xs.map lq) = ⟨fq p'.1, fq p'.2, d⟩ :: build (xs.map lq) := e
      rw [e']
      rcases hd'.1.eq_or_lt with heq | hgt
      · refine ⟨p.2, ?_, ?_, lb, multiple_mono (by omega) n0.1⟩
        · have hn : fq q ≠ (.nan : D B64) := by simp [fq]
          rw [evalD, if_neg, if_pos]
          · rfl
          · show D.eq (fq p.1) (fq q) = true
            rw [heq]; exact eqT q
          · show ¬ D.le (fq p'.1) (fq q) = true
            unfold D.le
            rw [ltF hlt.le, eqF hlt.ne']; simp
        · rw [← heq]
          simp only [line, sub_self, zero_div, mul_zero, add_zero, abs_zero]
          positivity
      · obtain ⟨v, e1, e2, e3⟩ := interp_at B hpp m0 m1 n0 n1 v0 v1 hq hd'.1 hlt.le
        refine ⟨v, ?_, e2, lb, e3⟩
        rw [evalD_between]
        · exact e1
        · exact ltT hgt
        · exact ltT hlt

/-- The operands after the synchronisation. -/
theorem resample_acc (B : SyncBudget ka kb kg kc) {V H d : ℚ} {xs : List (ℚ × ℚ)} (hi : Increasing xs)
    (h : ∀ p ∈ xs, Fx (-ka) kb p.1 ∧ Fx (-kg) kc p.2 ∧ |p.2| ≤ V) {ts : List ℚ}
    (hts : ∀ t ∈ ts, t ∈ dom xs ∧ Fx (-ka) kb t ∧ |t| ≤ H) (hd : ts.IsChain fun s t => s + d ≤ t) :
    ∃ f : ℚ → ℚ, build (resample (build (xs.map lq)) (ts.map fq)) = build ((sampleAt f ts).map lq) ∧
      (∀ t ∈ ts, |f t - eval xs t| ≤ 1 / 2 ^ 53 * (15 * V)) ∧
      TameFx ka kb (kg + kb + 53 + ka) (kc + 1) (101 / 100 * V) H d (sampleAt f ts) := by
  have hv : ∀ t, ∃ v : ℚ, t ∈ ts → evalD (build (xs.map lq)) (fq t) = fq v ∧
      |v - eval xs t| ≤ 1 / 2 ^ 53 * (15 * V) ∧ |eval xs t| ≤ V ∧ |v| ≤ 2 ^ (kc + 1) ∧
      ∃ n : ℤ, v = n * (2 : ℚ) ^ (-(kg + kb + 53 + ka)) := by
    intro t
    by_cases ht : t ∈ ts
    · obtain ⟨v, e1, e2, e3, e4⟩ := evalD_acc B (hts t ht).2.1 hi h (hts t ht).1
      obtain ⟨v', f1, f2, f3, _⟩ := evalD_acc (V := 2 ^ kc) B (hts t ht).2.1 hi
        (fun p hp => ⟨(h p hp).1, (h p hp).2.1, (h p hp).2.1.2⟩) (hts t ht).1
      have hvv : v' = v := by
        have : fq v' = fq v := f1.symm.trans e1
        exact D.fin.inj this
      subst hvv
      refine ⟨v', fun _ => ⟨e1, e2, e3, ?_, e4⟩⟩
      have h1 : |v'| ≤ |v' - eval xs t| + |eval xs t| := by
        have := abs_add_le (v' - eval xs t) (eval xs t)
        simpa using this
      have h2 : (2 : ℚ) ^ (kc + 1) = 2 * 2 ^ kc := by
        rw [zpow_add₀ (by norm_num)]; ring
      have h3 : (0 : ℚ) < 2 ^ kc := two_zpow_pos kc
      rw [h2]; linarith
    · exact ⟨0, fun h => absurd h ht⟩
  choose f hf using hv
  refine ⟨f, ?_, fun t ht => (hf t ht).2.1, ?_, ?_⟩
  · congr 1
    simp only [resample, sampleAt, List.map_map]
    apply List.map_congr_left
    intro t ht
    show (fq t, evalD _ (fq t)) = (fq t, fq (f t))
    rw [(hf t ht).1]
  · intro p hp
    obtain ⟨t, ht, rfl⟩ := List.mem_map.1 hp
    obtain ⟨_, e2, e3, e4, e5⟩ := hf t ht
    refine ⟨(hts t ht).2.1, ⟨e5, e4⟩, (hts t ht).2.2, ?_⟩
    have V0 : 0 ≤ V := (abs_nonneg _).trans e3
    have h1 : |f t| ≤ |f t - eval xs t| + |eval xs t| := by
      have := abs_add_le (f t - eval xs t) (eval xs t)
      simpa using this
    show |f t| ≤ _
    linarith
  · rw [sampleAt, List.isChain_map]; exact hd

theorem total_err {u v w V H d : ℚ} (V0 : 0 ≤ V) (H0 : 0 ≤ H) (hd : 0 < d) (h1 : |u - v| ≤ bound (101 / 100 * V) H d)
    (h2 : |v - w| ≤ 1 / 2 ^ 53 * (15 * V)) : |u - w| ≤ 1 / 2 ^ 46 * V * (1 + H / d) := by
  have h3 : |u - w| ≤ |u - v| + |v - w| := abs_sub_le u v w
  have hq : 0 ≤ H / d := by positivity
  have hVH : 0 ≤ V * (H / d) := mul_nonneg V0 hq
  have e1 : bound (101 / 100 * V) H d = 101 / 100 * (1 / 2 ^ 47) * (V + V * (H / d)) := by unfold bound; ring
  have e2 : 1 / 2 ^ 46 * V * (1 + H / d) = 2 * (1 / 2 ^ 47) * (V + V * (H / d)) := by ring
  rw [e1] at h1
  rw [e2]
  linarith

/-- `compute_minmax_pair` on any two signals. -/
theorem sync_acc (B : SyncBudget ka kb kg kc) (sd : Side ℚ) (hop : ∀ a b a' b' e : ℚ, |a - a'| ≤ e → |b - b'| ≤ e →
      |sd.op a b - sd.op a' b'| ≤ e) {nd : Bool} {x y z : Signal B64} {xs ys : List (ℚ × ℚ)}
    {V H d : ℚ} (hd : 0 < d) (rx : Represents (K := B64) x xs) (ry : Represents (K := B64) y ys)
    (tx : ∀ p ∈ xs, Fx (-ka) kb p.1 ∧ Fx (-kg) kc p.2 ∧ |p.1| ≤ H ∧ |p.2| ≤ V)
    (ty : ∀ p ∈ ys, Fx (-ka) kb p.1 ∧ Fx (-kg) kc p.2 ∧ |p.1| ≤ H ∧ |p.2| ≤ V)
    (hsep : ∀ s ∈ xs.map Prod.fst ++ ys.map Prod.fst, ∀ t ∈ xs.map Prod.fst ++ ys.map Prod.fst, s < t → s + d ≤ t)
    (hz : minmaxPair nd (scomp sd) x y false = .ok z) :
    ∃ zs : List (ℚ × ℚ), Represents (K := B64) z zs ∧ dom zs = dom xs ∩ dom ys ∧
      ∀ t ∈ dom zs, |eval zs t - sd.op (eval xs t) (eval ys t)| ≤ 1 / 2 ^ 46 * V * (1 + H / d) := by
  obtain ⟨ix, ex⟩ := represents_lq.1 rx
  obtain ⟨iy, ey⟩ := represents_lq.1 ry
  have ox : x = ofPts (K := B64) xs := ex
  have oy : y = ofPts (K := B64) ys := ey
  unfold minmaxPair at hz
  simp only [Bool.false_eq_true, if_false] at hz
  obtain ⟨r, hr, hz⟩ := Outcome.bind_eq_ok.1 hz
  obtain ⟨_, _, hz⟩ := Outcome.bind_eq_ok.1 hz
  obtain ⟨_, _, hz⟩ := Outcome.bind_eq_ok.1 hz
  obtain ⟨_, _, hz⟩ := Outcome.bind_eq_ok.1 hz
  rw [ox, oy] at hr
  have ix' : Increasing (K := B64) xs := ix
  have iy' : Increasing (K := B64) ys := iy
  obtain ⟨b, ts, hbx, hby, hbm, hs, hm, er⟩ := synchronize_any (K := B64) ix' iy' hr
  subst er
  have hbd : b ∈ dom xs ∧ b ∈ dom ys := by
    obtain ⟨p, hp, e⟩ := List.mem_map.1 hbx
    obtain ⟨q, hq, e'⟩ := List.mem_map.1 hby
    exact ⟨⟨⟨p, hp, e.le⟩, p, hp, e.ge⟩, ⟨q, hq, e'.le⟩, q, hq, e'.ge⟩
  obtain ⟨hbt, hdm, hex, hey⟩ := syncTimes_facts (K := ℚ) ix iy hbx hbm hbd hs hm id
  have facts := fun f => (syncTimes_facts (K := ℚ) ix iy hbx hbm hbd hs hm f).2.1
  have hmt : ∀ t ∈ ts, Fx (-ka) kb t ∧ |t| ≤ H := by
    intro t ht
    rcases ((hm t).1 ht).1 with h | h
    · obtain ⟨p, hp, rfl⟩ := List.mem_map.1 h
      exact ⟨(tx p hp).1, (tx p hp).2.2.1⟩
    · obtain ⟨p, hp, rfl⟩ := List.mem_map.1 h
      exact ⟨(ty p hp).1, (ty p hp).2.2.1⟩
  have hch : ts.IsChain fun s t => s + d ≤ t := by
    have hall : ∀ t ∈ ts, t ∈ xs.map Prod.fst ++ ys.map Prod.fst := fun t ht =>
      List.mem_append.2 ((hm t).1 ht).1
    refine List.Pairwise.isChain ?_
    refine List.Pairwise.imp_of_mem (fun {s t} hs ht h => hsep s (hall s hs) t (hall t ht) h) hs
  obtain ⟨f, f1, f2, f3⟩ := resample_acc (V := V) (H := H) B ix (fun p hp => ⟨(tx p hp).1, (tx p hp).2.1, (tx p hp).2.2.2⟩)
    (fun t ht => ⟨((hm t).1 ht).2.1, hmt t ht⟩) hch
  obtain ⟨g, g1, g2, g3⟩ := resample_acc (V := V) (H := H) B iy (fun p hp => ⟨(ty p hp).1, (ty p hp).2.1, (ty p hp).2.2.2⟩)
    (fun t ht => ⟨((hm t).1 ht).2.2, hmt t ht⟩) hch
  have rf : Represents (K := B64) ⟨build (resample (ofPts (K := B64) xs).samples (ts.map D.fin))⟩ (sampleAt f ts) :=
    represents_lq.2 ⟨(increasing_sampleAt f ts).2 hs, congrArg Signal.mk f1⟩
  have rg : Represents (K := B64) ⟨build (resample (ofPts (K := B64) ys).samples (ts.map D.fin))⟩ (sampleAt g ts) :=
    represents_lq.2 ⟨(increasing_sampleAt g ts).2 hs, congrArg Signal.mk g1⟩
  have hne : sampleAt f ts ≠ [] := by
    intro h
    exact List.ne_nil_of_mem hbt (List.map_eq_nil_iff.1 h)
  obtain ⟨zs, z1, z2, z3⟩ := start_acc B.second sd hd rf rg (same_fst f g ts) f3 g3 hne hz
  have hdom : dom zs = dom xs ∩ dom ys := by
    rw [z2]; ext t; exact facts f t
  refine ⟨zs, z1, hdom, fun t ht => ?_⟩
  have hxy : t ∈ dom xs ∧ t ∈ dom ys := by rw [hdom] at ht; exact ht
  have z4 := z3 t ((facts f t).2 hxy)
  have c1 := eval_close (e := 1 / 2 ^ 53 * (15 * V)) hs f2 ((facts f t).2 hxy)
  have c2 := eval_close (e := 1 / 2 ^ 53 * (15 * V)) hs g2 ((facts g t).2 hxy)
  rw [hex t hxy] at c1
  rw [hey t hxy] at c2
  have c3 := hop _ _ _ _ _ c1 c2
  obtain ⟨p, hp, _⟩ := List.mem_map.1 hbx
  have V0 : 0 ≤ V := (abs_nonneg _).trans (tx p hp).2.2.2
  have H0 : 0 ≤ H := (abs_nonneg _).trans (tx p hp).2.2.1
  exact total_err V0 H0 hd z4 c3

theorem syncBudget_mild : SyncBudget 100 40 100 40 := by constructor <;> norm_num

/-- `synchronize` itself. -/
theorem synchronize_acc (B : SyncBudget ka kb kg kc) {x y x' y' : Signal B64} {xs ys : List (ℚ × ℚ)}
    {V : ℚ} (rx : Represents (K := B64) x xs) (ry : Represents (K := B64) y ys)
    (tx : ∀ p ∈ xs, Fx (-ka) kb p.1 ∧ Fx (-kg) kc p.2 ∧ |p.2| ≤ V)
    (ty : ∀ p ∈ ys, Fx (-ka) kb p.1 ∧ Fx (-kg) kc p.2 ∧ |p.2| ≤ V)
    (hr : synchronize x y = .ok (x', y')) :
    ∃ (ts : List ℚ) (f g : ℚ → ℚ), ts.Pairwise (· < ·) ∧
      (∀ t, t ∈ ts ↔ (t ∈ xs.map Prod.fst ∨ t ∈ ys.map Prod.fst) ∧ t ∈ dom xs ∧ t ∈ dom ys) ∧
      Represents (K := B64) x' (sampleAt f ts) ∧ Represents (K := B64) y' (sampleAt g ts) ∧
      dom (sampleAt f ts) = dom xs ∩ dom ys ∧ dom (sampleAt g ts) = dom xs ∩ dom ys ∧
      ∀ t ∈ dom xs ∩ dom ys, |eval (sampleAt f ts) t - eval xs t| ≤ 1 / 2 ^ 53 * (15 * V) ∧
        |eval (sampleAt g ts) t - eval ys t| ≤ 1 / 2 ^ 53 * (15 * V) := by
  obtain ⟨ix, ex⟩ := represents_lq.1 rx
  obtain ⟨iy, ey⟩ := represents_lq.1 ry
  have ox : x = ofPts (K := B64) xs := ex
  have oy : y = ofPts (K := B64) ys := ey
  rw [ox, oy] at hr
  have ix' : Increasing (K := B64) xs := ix
  have iy' : Increasing (K := B64) ys := iy
  obtain ⟨b, ts, hbx, hby, hbm, hs, hm, er⟩ := synchronize_any (K := B64) ix' iy' hr
  obtain ⟨rfl, rfl⟩ := Prod.mk.inj er
  have hbd : b ∈ dom xs ∧ b ∈ dom ys := by
    obtain ⟨p, hp, e⟩ := List.mem_map.1 hbx
    obtain ⟨q, hq, e'⟩ := List.mem_map.1 hby
    exact ⟨⟨⟨p, hp, e.le⟩, p, hp, e.ge⟩, ⟨q, hq, e'.le⟩, q, hq, e'.ge⟩
  obtain ⟨hbt, _, hex, hey⟩ := syncTimes_facts (K := ℚ) ix iy hbx hbm hbd hs hm id
  have facts := fun f => (syncTimes_facts (K := ℚ) ix iy hbx hbm hbd hs hm f).2.1
  have hmt : ∀ t ∈ ts, Fx (-ka) kb t ∧ |t| ≤ 2 ^ kb := by
    intro t ht
    rcases ((hm t).1 ht).1 with h | h
    · obtain ⟨p, hp, rfl⟩ := List.mem_map.1 h
      exact ⟨(tx p hp).1, (tx p hp).1.2⟩
    · obtain ⟨p, hp, rfl⟩ := List.mem_map.1 h
      exact ⟨(ty p hp).1, (ty p hp).1.2⟩
  have hch : ts.IsChain fun s t => s + (0 : ℚ) ≤ t :=
    (List.Pairwise.isChain hs).imp fun a b h => (add_zero a).le.trans (le_of_lt h)
  obtain ⟨f, f1, f2, f3⟩ := resample_acc B ix tx (fun t ht => ⟨((hm t).1 ht).2.1, hmt t ht⟩) hch
  obtain ⟨g, g1, g2, g3⟩ := resample_acc B iy ty (fun t ht => ⟨((hm t).1 ht).2.2, hmt t ht⟩) hch
  refine ⟨ts, f, g, hs, hm, represents_lq.2 ⟨(increasing_sampleAt f ts).2 hs, congrArg Signal.mk f1⟩,
    represents_lq.2 ⟨(increasing_sampleAt g ts).2 hs, congrArg Signal.mk g1⟩, Set.ext (facts f), Set.ext (facts g),
    fun t ht => ?_⟩
  have c1 := eval_close (e := 1 / 2 ^ 53 * (15 * V)) hs f2 ((facts f t).2 ht)
  have c2 := eval_close (e := 1 / 2 ^ 53 * (15 * V)) hs g2 ((facts g t).2 ht)
  rw [hex t ht] at c1
  rw [hey t ht] at c2
  exact ⟨c1, c2⟩

end B64
end Verif
