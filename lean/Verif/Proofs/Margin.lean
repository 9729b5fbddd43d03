import Verif.Proofs.EvalReal
import Verif.Proofs.Perturb
import Verif.Proofs.Rounding
import Verif.Spec.Margin

/-! # Errors below Always and Eventually -/

set_option linter.unusedSectionVars false

namespace Verif
open Spec

variable {K : Type} [Field K] [LinearOrder K] [IsStrictOrderedRing K] [Arith K] {ι : K →+* ℝ}

/-- Literals: the computed values `f` and the exact ones `g`. -/
theorem literal_spec {C Q : K → Prop} {P : K → K → Prop} (hneg : ∀ a b, P a b → P (-a) (-b))
    (hpred : ∀ op c v, C c → Q v → ∃ w, Arith.rnd (marg op c v) = .fin w ∧ P w (marg op c v))
    (r : RobustnessOp K) (T : ℝ) (sig : String → List (K × K)) {e : Expr K} (he : Literal C e) :
    (∀ n, Uses n e → (∃ x, r.trace.lookup n = some x ∧ Represents x (sig n)) ∧ sig n ≠ [] ∧
      ∀ p ∈ sig n, Q p.2) →
    ∃ (n : String) (f g : K → K), Uses n e ∧
      (∀ z, r.compute e = .ok z → Represents z ((sig n).map fun p => (p.1, f p.2))) ∧
      (∀ t, ((eval (castPts ι ((sig n).map fun p => (p.1, g p.2))) t : ℝ) : EReal) =
        rob T (fun n => eval (castPts ι (sig n))) (castExpr ι e) t) ∧
      ∀ p ∈ sig n, P (f p.2) (g p.2) := by
  classical
  induction he with
  | @pred n op c hc =>
    intro hs
    obtain ⟨⟨x, h1, h2⟩, hne, hv⟩ := hs n (.pred op _)
    let f : K → K := fun v => match (Arith.rnd (marg op c v) : D K) with
      | .fin q => q
      | _ => 0
    have key : ∀ p ∈ sig n, Arith.rnd (marg op c p.2) = D.fin (f p.2) ∧ P (f p.2) (marg op c p.2) := by
      intro p hp
      obtain ⟨w, h3, h4⟩ := hpred op c p.2 hc (hv p hp)
      have : f p.2 = w := by simp only [f, h3]
      rw [this]; exact ⟨h3, h4⟩
    refine ⟨n, f, marg op c, .pred op _, ?_, ?_, fun p hp => (key p hp).2⟩
    · intro z hz
      obtain ⟨x', h3, -, h4⟩ := pred_ok hz
      rw [h1] at h3; simp only [Option.some.injEq] at h3; subst h3
      refine ⟨compute_wf _ _ _ hz, ?_⟩
      rw [h4, map_samples (f := D.fin) h2.2 (RobustnessOp.predValue op (.fin c)), List.map_map]
      refine List.map_congr_left fun p hp => ?_
      rw [predValue_rnd, (key p hp).1]; rfl
    · intro t
      obtain ⟨a, b, hab, hm⟩ := marg_cast (ι := ι) op c
      have hcast : castPts ι ((sig n).map fun p => (p.1, marg op c p.2)) =
          (castPts ι (sig n)).map fun p => (p.1, a * p.2 + b) := by
        simp [castPts, Function.comp_def, hab]
      have hne' : castPts ι (sig n) ≠ [] := by simpa [castPts] using hne
      rw [hcast, eval_affine_map a b _ _ hne', castExpr, rob, castD, hm]
  | @not e _ ih =>
    intro hs
    obtain ⟨n, f, g, i1, i2, i3, i4⟩ := ih fun n hn => hs n (.not hn)
    refine ⟨n, fun v => -f v, fun v => -g v, .not i1, ?_, ?_, fun p hp => hneg _ _ (i4 p hp)⟩
    · intro z hz
      obtain ⟨x, h1, h2⟩ := not_ok hz
      refine ⟨compute_wf _ _ _ hz, ?_⟩
      have h3 := (i2 x h1).2
      rw [List.map_map] at h3
      rw [h2, map_samples (pts := sig n) (f := fun v => D.fin (f v)) h3 (fun v => -v), List.map_map]; rfl
    · intro t
      rw [castExpr, rob, ← i3 t]
      have : castPts ι ((sig n).map fun p => (p.1, -g p.2)) =
          negPts (castPts ι ((sig n).map fun p => (p.1, g p.2))) := by
        simp [castPts, negPts, Function.comp_def]
      rw [this, eval_negPts, EReal.coe_neg]

/-- `f` and `g` differ by at most `d`. -/
def Nearby (d : ℝ) (f g : EReal) : Prop := f ≤ g + d ∧ g ≤ f + d

theorem Nearby.neg {d : ℝ} {f g : EReal} (h : Nearby d f g) : Nearby d (-f) (-g) :=
  ⟨neg_shift h.2, neg_shift h.1⟩

theorem Nearby.iSup {d t T : ℝ} {f g : ℝ → EReal} (h : ∀ t' ∈ Set.Icc t T, Nearby d (f t') (g t')) :
    Nearby d (⨆ t' ∈ Set.Icc t T, f t') (⨆ t' ∈ Set.Icc t T, g t') := by
  constructor
  · refine iSup₂_le fun t' ht' => (h t' ht').1.trans (add_mono' d ?_)
    exact le_iSup₂ (f := fun t' _ => g t') t' ht'
  · refine iSup₂_le fun t' ht' => (h t' ht').2.trans (add_mono' d ?_)
    exact le_iSup₂ (f := fun t' _ => f t') t' ht'

theorem Nearby.iInf {d t T : ℝ} {f g : ℝ → EReal} (h : ∀ t' ∈ Set.Icc t T, Nearby d (f t') (g t')) :
    Nearby d (⨅ t' ∈ Set.Icc t T, f t') (⨅ t' ∈ Set.Icc t T, g t') := by
  constructor
  · rw [← sub_le_iff]
    refine le_iInf₂ fun t' ht' => ?_
    rw [sub_le_iff]
    exact (iInf₂_le (f := fun t' _ => f t') t' ht').trans (h t' ht').1
  · rw [← sub_le_iff]
    refine le_iInf₂ fun t' ht' => ?_
    rw [sub_le_iff]
    exact (iInf₂_le (f := fun t' _ => g t') t' ht').trans (h t' ht').2

theorem Nearby.max {d a b : ℝ} {f g : EReal} (h : Nearby d a f) (h' : Nearby d b g) :
    Nearby d (max a b : ℝ) (f ⊔ g) := by
  constructor
  · rcases le_total a b with e | e
    · rw [max_eq_right e]; exact h'.1.trans (add_mono' d le_sup_right)
    · rw [max_eq_left e]; exact h.1.trans (add_mono' d le_sup_left)
  · refine sup_le (h.2.trans (add_mono' d ?_)) (h'.2.trans (add_mono' d ?_))
    · exact EReal.coe_le_coe_iff.2 (le_max_left _ _)
    · exact EReal.coe_le_coe_iff.2 (le_max_right _ _)

variable (hι : StrictMono ι)
include hι

theorem castPts_icc {pts : List (K × K)} (hi : Increasing pts) {T : K} (hT : ∃ v, pts.getLast? = some (T, v)) :
    ∃ a, dom (castPts ι pts) = Set.Icc a (ι T) := by
  obtain ⟨v, hv⟩ := hT
  have hne : pts ≠ [] := by rintro rfl; simp at hv
  obtain ⟨p, l, rfl⟩ := List.exists_cons_of_ne_nil hne
  exact ⟨_, castPts_dom hι hi rfl hv⟩

theorem getLast_fst {pts pts' : List (K × K)} (h : pts.map Prod.fst = pts'.map Prod.fst) {T : K}
    (hT : ∃ v, pts'.getLast? = some (T, v)) : ∃ v, pts.getLast? = some (T, v) := by
  obtain ⟨v, hv⟩ := hT
  have h3 : (pts.map Prod.fst).getLast? = some T := by rw [h, List.getLast?_map, hv]; rfl
  rw [List.getLast?_map, Option.map_eq_some_iff] at h3
  obtain ⟨⟨a, b⟩, h3, h4⟩ := h3
  exact ⟨b, by rw [h3, ← h4]⟩

theorem dom_castPts_fst {pts pts' : List (K × K)} (h : pts.map Prod.fst = pts'.map Prod.fst) :
    dom (castPts ι pts) = dom (castPts ι pts') := by
  apply dom_of_fst
  have := congrArg (List.map ι) h
  simpa [castPts, Function.comp_def] using this

/-- The error of the operand is the error of the formula. -/
theorem over_within [SaneArith K] {B : Expr K → Prop} (r : RobustnessOp K) (T : K) (x : String → ℝ → ℝ) (d : ℝ)
    (dm : Set K)
    (hB : ∀ e, B e → ∀ z, r.compute e = .ok z → ∃ zs, Represents z zs ∧ (∃ v, zs.getLast? = some (T, v)) ∧
      dom zs = dm ∧
      ∀ t ∈ dom (castPts ι zs), Nearby d (eval (castPts ι zs) t : ℝ) (rob (ι T) x (castExpr ι e) t))
    {e : Expr K} (he : Over B e) :
    ∀ z, r.compute e = .ok z → ∃ zs, Represents z zs ∧ (∃ v, zs.getLast? = some (T, v)) ∧ dom zs = dm ∧
      ∃ G, Agrees (castPts ι zs) G ∧
        ∀ t ∈ dom (castPts ι zs), Nearby d (G t) (rob (ι T) x (castExpr ι e) t) := by
  have hwin : castInterval ι (Interval.default : Interval K) = ⟨.dbl 0, .dbl .pinf⟩ := by
    simp [castInterval, Interval.default, castNum, castD, D.zero_def]
  have inc : ∀ {z : Signal K} {zs}, Represents z zs → Increasing zs := fun h => ((represents_iff _ _).1 h).1
  have fint : ∀ {z : Signal K} {zs}, Represents z zs → FinTimes z.samples := by
    intro z zs h a ha
    have : tv a ∈ zs.map lift := by rw [← h.2]; exact List.mem_map_of_mem ha
    obtain ⟨q, -, hq⟩ := List.mem_map.1 this
    exact ⟨q.1, (congrArg Prod.fst hq).symm⟩
  induction he with
  | @base e hb =>
    intro z hz
    obtain ⟨zs, h1, h2, h3, h4⟩ := hB e hb z hz
    refine ⟨zs, h1, h2, h3, fun t => ((eval (castPts ι zs) t : ℝ) : EReal), ⟨fun p hp => ?_, .inl fun t _ => rfl⟩, h4⟩
    exact congrArg _ (eval_mem (castPts_increasing hι (inc h1)) hp).symm
  | @not e _ ih =>
    intro z hz
    obtain ⟨y, h1, h2⟩ := not_ok hz
    obtain ⟨zs, i1, i2, i3, G, i4, i5⟩ := ih y h1
    have hfst : (negPts zs).map Prod.fst = zs.map Prod.fst := by simp [negPts, Function.comp_def]
    refine ⟨negPts zs, ⟨compute_wf _ _ _ hz, ?_⟩, getLast_fst hι hfst i2, ?_, fun t => -G t, ?_, ?_⟩
    · rw [h2, map_samples (f := D.fin) i1.2 (fun v => -v)]
      simp [negPts, lift, Function.comp_def]
    · rw [← i3]; exact dom_of_fst hfst
    · rw [castPts_negPts]; exact i4.neg
    · intro t ht
      rw [castExpr, rob]
      exact (i5 t (by rwa [dom_castPts_fst hι hfst] at ht)).neg
  | @always e _ ih =>
    intro z hz
    rw [Expr.Always, RobustnessOp.compute] at hz
    simp only [Outcome.bind_eq_ok] at hz
    obtain ⟨y, h1, h2⟩ := hz
    obtain ⟨zs, i1, i2, i3, G, i4, i5⟩ := ih y h1
    have h3 := temporal_sane_ok (fint i1) h2
    have hne : zs ≠ [] := by obtain ⟨v, hv⟩ := i2; rintro rfl; simp at hv
    obtain ⟨hi, rfl⟩ := (represents_iff _ _).1 i1
    rw [minmaxSeq_le_pts hi hne] at h3
    simp only [Outcome.ok.injEq] at h3
    subst h3
    have hfst := sufPts_fst min zs
    obtain ⟨a, ha⟩ := castPts_icc hι hi i2
    refine ⟨sufPts min zs, (represents_iff _ _).2 ⟨increasing_sufPts.2 hi, rfl⟩, getLast_fst hι hfst i2, ?_,
      fun t => ⨅ t' ∈ Set.Icc t (ι T), G t', ?_, ?_⟩
    · rw [← i3]; exact dom_of_fst hfst
    · rw [castPts_min hι]
      exact i4.inf (castPts_increasing hι hi) ha
    · intro t ht
      rw [dom_castPts_fst hι hfst, ha] at ht
      rw [Expr.Always, castExpr, rob, hwin, window_default]
      exact Nearby.iInf fun t' ht' => i5 t' (by rw [ha]; exact ⟨ht.1.trans ht'.1, ht'.2⟩)
  | @eventually e _ ih =>
    intro z hz
    rw [Expr.Eventually, RobustnessOp.compute] at hz
    simp only [Outcome.bind_eq_ok] at hz
    obtain ⟨y, h1, h2⟩ := hz
    obtain ⟨zs, i1, i2, i3, G, i4, i5⟩ := ih y h1
    have h3 := temporal_sane_ok (fint i1) h2
    have hne : zs ≠ [] := by obtain ⟨v, hv⟩ := i2; rintro rfl; simp at hv
    obtain ⟨hi, rfl⟩ := (represents_iff _ _).1 i1
    rw [minmaxSeq_ge_pts hi hne] at h3
    simp only [Outcome.ok.injEq] at h3
    subst h3
    have hfst := sufPts_fst max zs
    obtain ⟨a, ha⟩ := castPts_icc hι hi i2
    refine ⟨sufPts max zs, (represents_iff _ _).2 ⟨increasing_sufPts.2 hi, rfl⟩, getLast_fst hι hfst i2, ?_,
      fun t => ⨆ t' ∈ Set.Icc t (ι T), G t', ?_, ?_⟩
    · rw [← i3]; exact dom_of_fst hfst
    · rw [castPts_max hι]
      exact i4.sup (castPts_increasing hι hi) ha
    · intro t ht
      rw [dom_castPts_fst hι hfst, ha] at ht
      rw [Expr.Eventually, castExpr, rob, hwin, window_default]
      exact Nearby.iSup fun t' ht' => i5 t' (by rw [ha]; exact ⟨ht.1.trans ht'.1, ht'.2⟩)

end Verif
