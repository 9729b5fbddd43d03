import Verif.Props.Totality
import Verif.Proofs.Semantics

/-!
# The computed robustness and the dense-time semantics: C38 - C40
-/

set_option linter.unusedSectionVars false

namespace Verif
open Spec

/-- The signals used by the formula are finite, well formed and start at `t0`. -/
def Aligned (trace : Trace ℝ) (t0 : ℝ) (sig : String → List (ℝ × ℝ)) (phi : Expr ℝ) : Prop :=
  ∀ n, Uses n phi → ∃ x, trace.lookup n = some x ∧ Represents x (sig n) ∧ ∃ v r, sig n = (t0, v) :: r

theorem _root_.Verif.Spec.Propositional.plain {K : Type} [Field K] [LinearOrder K] [Arith K] {e : Expr K} (h : Propositional e) : Plain e := by
  induction h with
  | pred n op c => exact .pred n op c
  | not _ ih => exact .not ih
  | and hl _ ih => exact .and hl ih
  | or hl _ ih => exact .or hl ih

theorem _root_.Verif.Spec.Safety.plain {K : Type} [Field K] [LinearOrder K] [Arith K] {b : Bool} {e : Expr K} (h : Safety b e) : Plain e := by
  induction h with
  | pred _ n op c => exact .pred n op c
  | not _ ih => exact .not ih
  | and hl _ ih => exact .and hl ih
  | or hl _ ih => exact .or hl ih
  | always hi _ ih => exact .always hi ih
  | eventually hi _ ih => exact .eventually hi ih

theorem plain_uses {e : Expr ℝ} (h : Plain e) : ∃ n, Uses n e := by
  induction h with
  | pred n op c => exact ⟨n, .pred op _⟩
  | not _ ih => obtain ⟨n, h⟩ := ih; exact ⟨n, .not h⟩
  | @and args hl _ ih =>
    obtain ⟨e, r, rfl⟩ := List.exists_cons_of_ne_nil (l := args) (by rintro rfl; simp at hl)
    obtain ⟨n, h⟩ := ih e (by simp); exact ⟨n, .and (by simp) h⟩
  | @or args hl _ ih =>
    obtain ⟨e, r, rfl⟩ := List.exists_cons_of_ne_nil (l := args) (by rintro rfl; simp at hl)
    obtain ⟨n, h⟩ := ih e (by simp); exact ⟨n, .or (by simp) h⟩
  | always _ _ ih => obtain ⟨n, h⟩ := ih; exact ⟨n, .always h⟩
  | eventually _ _ ih => obtain ⟨n, h⟩ := ih; exact ⟨n, .eventually h⟩
  | untl _ _ _ ih _ => obtain ⟨n, h⟩ := ih; exact ⟨n, .untl_left h⟩

theorem represents_unique {z : Signal ℝ} {a b : List (ℝ × ℝ)} (ha : Represents z a) (hb : Represents z b) :
    a = b :=
  (List.map_injective_iff.2 lift_injective) (ha.2.symm.trans hb.2)

/-- The window of an interval made by the constructors contains no earlier instants. -/
theorem window_ge {T : ℝ} {i : Interval ℝ} (h : IntervalBuilt i) {t t' : ℝ} (ht : t' ∈ window T i t) :
    t ≤ t' ∧ t' ≤ T := by
  obtain ⟨h1, -, h3⟩ := ht
  refine ⟨?_, h3⟩
  rcases h with rfl | ⟨a, b, h⟩ | ⟨a, b, h⟩
  · simp [Interval.asDouble, Interval.numAsDouble, Interval.default, D.zero_def] at h1; linarith
  · simp only [Interval.ofULL, Outcome.ok.injEq] at h; subst h
    simp only [Interval.asDouble, Interval.numAsDouble, ExactArith.rnd_eq, D.le_fin, decide_eq_true_eq] at h1
    have : (0 : ℝ) ≤ (a.toNat : ℝ) := Nat.cast_nonneg _
    linarith
  · unfold Interval.ofDouble at h
    split at h
    · cases h
    · rename_i hlt
      split at h
      · cases h
      · simp only [Outcome.ok.injEq] at h; subst h
        simp only [Interval.asDouble, Interval.numAsDouble] at h1
        cases a with
        | fin a =>
          simp only [D.le_fin, decide_eq_true_eq] at h1
          simp only [D.lt_fin, D.zero_def, Bool.or_eq_true, decide_eq_true_eq, not_or, not_lt] at hlt
          linarith [hlt.1]
        | pinf => simp [D.le, D.lt, D.eq] at h1
        | ninf => simp [D.lt, D.zero_def] at hlt
        | nan => simp [D.le] at h1

/-- One direction of the comparison: `pol = true` says that `v` is a lower bound. -/
def Bound (pol : Bool) (v w : EReal) : Prop := if pol then v ≤ w else w ≤ v

theorem bound_core (nd : Bool) (fuel : Nat) (trace : Trace ℝ) (sy : Bool) (t0 T : ℝ)
    (sig : String → List (ℝ × ℝ)) (phi : Expr ℝ) (pol : Bool) (hp : Safety pol phi)
    (hs : Aligned trace t0 sig phi) (hd : Propositional phi ∨ ∀ n, Uses n phi → dom (sig n) = Set.Icc t0 T) :
    ∀ z zs, computeRobustness nd fuel phi trace sy = .ok z → Represents z zs → ∀ t ∈ dom zs,
      Bound pol (eval zs t : ℝ) (rob T (fun n => eval (sig n)) phi t) := by
  induction hp with
  | pred pol n op c =>
    intro z zs hz hr t ht
    obtain ⟨x, hx, hrx, h0⟩ := hs n (.pred op _)
    obtain ⟨z', zs', e, hz', htm, hdm, hv⟩ := C20_predicate nd fuel trace sy n op c x (sig n) hx hrx
    rw [hz] at e
    simp only [Outcome.ok.injEq] at e; subst e
    obtain rfl := represents_unique hr hz'
    have : ((eval zs t : ℝ) : EReal) = rob T (fun n => eval (sig n)) (.pred n op (.fin c)) t := by
      rw [hv t (hdm ▸ ht), rob]
      cases op <;> rfl
    rw [this]; unfold Bound; split <;> exact le_rfl
  | @not pol e he ih =>
    intro z zs hz hr t ht
    have hs' : Aligned trace t0 sig e := fun n hn => hs n (.not hn)
    obtain ⟨z1, zs1, e1, hz1, -, -⟩ := C34_total nd fuel trace sy t0 sig e he.plain hs'
    obtain ⟨i1, rfl⟩ := (represents_iff _ _).1 hz1
    have e2 : computeRobustness nd fuel (.not e) trace sy = .ok (ofPts (negPts zs1)) := by
      rw [C21_not_negates, e1]; exact congrArg Outcome.ok (negSig_ofPts i1)
    rw [hz] at e2
    simp only [Outcome.ok.injEq] at e2; subst e2
    obtain rfl := represents_unique hr (represents_ofPts (increasing_negPts.2 i1))
    rw [dom_negPts] at ht
    have := ih hs' (hd.imp (fun h => by cases h; assumption) fun h n hn => h n (.not hn)) _ _ e1 hz1 t ht
    rw [eval_negPts, rob, EReal.coe_neg]
    cases pol <;> simpa [Bound] using this
  | @and pol args hl hsub ih =>
    intro z zs hz hr t ht
    have ih' : ∀ e : Expr ℝ, ∃ zs : List (ℝ × ℝ), e ∈ args → ∃ x,
        computeRobustness nd fuel e trace sy = .ok x ∧ Represents x zs ∧ (∃ v r, zs = (t0, v) :: r) := by
      intro e
      by_cases he : e ∈ args
      · obtain ⟨z, zs, h1, h2, h3, h4⟩ :=
          C34_total nd fuel trace sy t0 sig e (hsub e he).plain fun n hn => hs n (.and he hn)
        exact ⟨zs, fun _ => ⟨z, h1, h2, h3⟩⟩
      · exact ⟨[], fun h => absurd h he⟩
    choose p hpe using ih'
    have hne : args ≠ [] := by rintro rfl; simp at hl
    obtain ⟨z', zs', e1, hz', h0, hdz, hv⟩ := C24_and_nary nd fuel trace sy t0 p args hne hpe
    rw [hz] at e1
    simp only [Outcome.ok.injEq] at e1; subst e1
    obtain rfl := represents_unique hr hz'
    have hb : ∀ e ∈ args, Bound pol (eval (p e) t : ℝ) (rob T (fun n => eval (sig n)) e t) := by
      intro e he
      obtain ⟨x, h1, h2, -⟩ := hpe e he
      exact ih e he (fun n hn => hs n (.and he hn))
        (hd.imp (fun h => by cases h with | and _ h => exact h e he) fun h n hn => h n (.and he hn)) _ _ h1 h2 t
        ((hdz t).1 ht e he)
    have hv := hv t ht
    rw [rob]
    cases pol with
    | true =>
      simp only [Bound, if_true] at hb ⊢
      rw [le_robAll]
      intro e he
      exact (EReal.coe_le_coe_iff.2 (hv.2 ⟨e, he, rfl⟩)).trans (hb e he)
    | false =>
      obtain ⟨e, he, hee⟩ := hv.1
      have := hb e he
      simp only [Bound, Bool.false_eq_true, if_false] at this ⊢
      rw [hee]
      exact (robAll_le he).trans this
  | @or pol args hl hsub ih =>
    intro z zs hz hr t ht
    have ih' : ∀ e : Expr ℝ, ∃ zs : List (ℝ × ℝ), e ∈ args → ∃ x,
        computeRobustness nd fuel e trace sy = .ok x ∧ Represents x zs ∧ (∃ v r, zs = (t0, v) :: r) := by
      intro e
      by_cases he : e ∈ args
      · obtain ⟨z, zs, h1, h2, h3, h4⟩ :=
          C34_total nd fuel trace sy t0 sig e (hsub e he).plain fun n hn => hs n (.or he hn)
        exact ⟨zs, fun _ => ⟨z, h1, h2, h3⟩⟩
      · exact ⟨[], fun h => absurd h he⟩
    choose p hpe using ih'
    have hne : args ≠ [] := by rintro rfl; simp at hl
    obtain ⟨z', zs', e1, hz', h0, hdz, hv⟩ := C24_or_nary nd fuel trace sy t0 p args hne hpe
    rw [hz] at e1
    simp only [Outcome.ok.injEq] at e1; subst e1
    obtain rfl := represents_unique hr hz'
    have hb : ∀ e ∈ args, Bound pol (eval (p e) t : ℝ) (rob T (fun n => eval (sig n)) e t) := by
      intro e he
      obtain ⟨x, h1, h2, -⟩ := hpe e he
      exact ih e he (fun n hn => hs n (.or he hn))
        (hd.imp (fun h => by cases h with | or _ h => exact h e he) fun h n hn => h n (.or he hn)) _ _ h1 h2 t
        ((hdz t).1 ht e he)
    have hv := hv t ht
    rw [rob]
    cases pol with
    | false =>
      simp only [Bound, Bool.false_eq_true, if_false] at hb ⊢
      rw [robAny_le]
      intro e he
      exact (hb e he).trans (EReal.coe_le_coe_iff.2 (hv.2 ⟨e, he, rfl⟩))
    | true =>
      obtain ⟨e, he, hee⟩ := hv.1
      have := hb e he
      simp only [Bound, if_true] at this ⊢
      rw [hee]
      exact this.trans (le_robAny he)
  | @always e i hi he ih =>
    intro z zs hz hr t ht
    have hs' : Aligned trace t0 sig e := fun n hn => hs n (.always hn)
    have hd : ∀ n, Uses n e → dom (sig n) = Set.Icc t0 T := by
      rcases hd with h | h
      · cases h
      · exact fun n hn => h n (.always hn)
    obtain ⟨z1, zs1, e1, hz1, h0, hdz⟩ := C34_total nd fuel trace sy t0 sig e he.plain hs'
    have i1 := ((represents_iff _ _).1 hz1).1
    have e2 := (eventually_fin e1 hz1 (StartsAt.ne h0) i (intervalBuilt_high hi)).2
    rw [hz] at e2
    simp only [Outcome.ok.injEq] at e2; subst e2
    obtain rfl := represents_unique hr (represents_ofPts (increasing_sufPts.2 i1))
    rw [dom_sufPts] at ht
    simp only [Bound, if_true, rob]
    refine le_iInf₂ fun t' ht' => ?_
    obtain ⟨h1, h2⟩ := window_ge hi ht'
    have ht'' : t' ∈ dom zs1 := by
      rw [hdz]; intro n hn
      rw [hd n hn]
      have := (hdz t).1 ht n hn
      rw [hd n hn] at this
      exact ⟨this.1.trans h1, h2⟩
    have := ih hs' (.inr hd) _ _ e1 hz1 t' ht''
    simp only [Bound, if_true] at this
    refine le_trans (EReal.coe_le_coe_iff.2 ?_) this
    have hb := sufPts_max_bound (increasing_negPts.2 i1) (s := t) (t := t') (by rwa [dom_negPts])
      (by rwa [dom_negPts]) h1
    rw [sufPts_min, eval_negPts]
    rw [eval_negPts] at hb
    linarith
  | @eventually e i hi he ih =>
    intro z zs hz hr t ht
    have hs' : Aligned trace t0 sig e := fun n hn => hs n (.eventually hn)
    have hd : ∀ n, Uses n e → dom (sig n) = Set.Icc t0 T := by
      rcases hd with h | h
      · cases h
      · exact fun n hn => h n (.eventually hn)
    obtain ⟨z1, zs1, e1, hz1, h0, hdz⟩ := C34_total nd fuel trace sy t0 sig e he.plain hs'
    have i1 := ((represents_iff _ _).1 hz1).1
    have e2 := (eventually_fin e1 hz1 (StartsAt.ne h0) i (intervalBuilt_high hi)).1
    rw [hz] at e2
    simp only [Outcome.ok.injEq] at e2; subst e2
    obtain rfl := represents_unique hr (represents_ofPts (increasing_sufPts.2 i1))
    rw [dom_sufPts] at ht
    simp only [Bound, Bool.false_eq_true, if_false, rob]
    refine iSup₂_le fun t' ht' => ?_
    obtain ⟨h1, h2⟩ := window_ge hi ht'
    have ht'' : t' ∈ dom zs1 := by
      rw [hdz]; intro n hn
      rw [hd n hn]
      have := (hdz t).1 ht n hn
      rw [hd n hn] at this
      exact ⟨this.1.trans h1, h2⟩
    have := ih hs' (.inr hd) _ _ e1 hz1 t' ht''
    simp only [Bound, Bool.false_eq_true, if_false] at this
    exact this.trans (EReal.coe_le_coe_iff.2 (sufPts_max_bound i1 ht ht'' h1))

theorem _root_.Verif.Spec.Propositional.safety {e : Expr ℝ} (h : Propositional e) (b : Bool) : Safety b e := by
  induction h generalizing b with
  | pred n op c => exact .pred b n op c
  | not _ ih => exact .not (ih _)
  | and hl _ ih => exact .and hl fun e he => ih e he b
  | or hl _ ih => exact .or hl fun e he => ih e he b

/-! ## C38 -/

/-- **C38.** For formulas of predicates, Not, And and Or the computed robustness equals the dense-time
quantitative semantics at every real time of the common domain of the signals used. -/
theorem C38_boolean_fragment_exact (nd : Bool) (fuel : Nat) (trace : Trace ℝ) (sy : Bool) (t0 T : ℝ)
    (sig : String → List (ℝ × ℝ)) (phi : Expr ℝ) (hp : Propositional phi) (hs : Aligned trace t0 sig phi) :
    ∃ z zs, computeRobustness nd fuel phi trace sy = .ok z ∧ Represents z zs ∧
      (∀ t, t ∈ dom zs ↔ ∀ n, Uses n phi → t ∈ dom (sig n)) ∧
      ∀ t ∈ dom zs, ((eval zs t : ℝ) : EReal) = rob T (fun n => eval (sig n)) phi t := by
  obtain ⟨z, zs, e, hz, -, hd⟩ := C34_total nd fuel trace sy t0 sig phi hp.plain hs
  refine ⟨z, zs, e, hz, hd, fun t ht => le_antisymm ?_ ?_⟩
  · exact bound_core nd fuel trace sy t0 T sig phi true (hp.safety _) hs (.inl hp) z zs e hz t ht
  · exact bound_core nd fuel trace sy t0 T sig phi false (hp.safety _) hs (.inl hp) z zs e hz t ht

theorem dom_common {t0 T : ℝ} {sig : String → List (ℝ × ℝ)} {phi : Expr ℝ}
    {zs : List (ℝ × ℝ)} (hp : Plain phi) (hT : ∀ n, Uses n phi → dom (sig n) = Set.Icc t0 T)
    (hd : ∀ t, t ∈ dom zs ↔ ∀ n, Uses n phi → t ∈ dom (sig n)) : dom zs = Set.Icc t0 T := by
  obtain ⟨n, hn⟩ := plain_uses hp
  ext t
  rw [hd]
  constructor
  · intro h; rw [← hT n hn]; exact h n hn
  · intro h m hm; rw [hT m hm]; exact h

/-! ## C39 -/

/-- **C39.** For the formulas of `Safety true` (any intervals, bounded ones included) the computed
robustness is a lower bound of the quantitative semantics at every real time, so a positive value means
that the formula is satisfied. -/
theorem C39_safety_sound (nd : Bool) (fuel : Nat) (trace : Trace ℝ) (sy : Bool) (t0 T : ℝ)
    (sig : String → List (ℝ × ℝ)) (phi : Expr ℝ) (hp : Safety true phi) (hs : Aligned trace t0 sig phi)
    (hT : ∀ n, Uses n phi → dom (sig n) = Set.Icc t0 T) :
    ∃ z zs, computeRobustness nd fuel phi trace sy = .ok z ∧ Represents z zs ∧ dom zs = Set.Icc t0 T ∧
      ∀ t ∈ Set.Icc t0 T,
        ((eval zs t : ℝ) : EReal) ≤ rob T (fun n => eval (sig n)) phi t ∧
        (0 < eval zs t → Sat T (fun n => eval (sig n)) phi t) := by
  obtain ⟨z, zs, e, hz, -, hd⟩ := C34_total nd fuel trace sy t0 sig phi hp.plain hs
  have hdz := dom_common hp.plain hT hd
  refine ⟨z, zs, e, hz, hdz, fun t ht => ?_⟩
  have hb := bound_core nd fuel trace sy t0 T sig phi true hp hs (.inr hT) z zs e hz t (hdz ▸ ht)
  refine ⟨hb, fun h0 => (rob_sat T _ phi t).1 (lt_of_lt_of_le ?_ hb)⟩
  exact EReal.coe_lt_coe_iff.2 h0

/-! ## C40 -/

/-- **C40.** For the formulas of `Safety false` the computed robustness is an upper bound of the
quantitative semantics at every real time, so a negative value means that the formula is violated. -/
theorem C40_cosafety_sound (nd : Bool) (fuel : Nat) (trace : Trace ℝ) (sy : Bool) (t0 T : ℝ)
    (sig : String → List (ℝ × ℝ)) (phi : Expr ℝ) (hp : Safety false phi) (hs : Aligned trace t0 sig phi)
    (hT : ∀ n, Uses n phi → dom (sig n) = Set.Icc t0 T) :
    ∃ z zs, computeRobustness nd fuel phi trace sy = .ok z ∧ Represents z zs ∧ dom zs = Set.Icc t0 T ∧
      ∀ t ∈ Set.Icc t0 T,
        rob T (fun n => eval (sig n)) phi t ≤ ((eval zs t : ℝ) : EReal) ∧
        (eval zs t < 0 → ¬ Sat T (fun n => eval (sig n)) phi t) := by
  obtain ⟨z, zs, e, hz, -, hd⟩ := C34_total nd fuel trace sy t0 sig phi hp.plain hs
  have hdz := dom_common hp.plain hT hd
  refine ⟨z, zs, e, hz, hdz, fun t ht => ?_⟩
  have hb := bound_core nd fuel trace sy t0 T sig phi false hp hs (.inr hT) z zs e hz t (hdz ▸ ht)
  refine ⟨hb, fun h0 => (rob_sat T _ phi t).2 (lt_of_le_of_lt hb ?_)⟩
  exact EReal.coe_lt_coe_iff.2 h0

/-! Concrete cases meeting the hypotheses. -/

/-- A trace with one signal on `[0, 2]`. -/
noncomputable def realTrace : Trace ℝ := [("x", ofPts [(0, 1), (1, 5), (2, 3)])]

theorem realTrace_aligned (phi : Expr ℝ) (h : ∀ n, Uses n phi → n = "x") :
    Aligned realTrace 0 (fun _ => [(0, 1), (1, 5), (2, 3)]) phi := by
  intro n hn
  obtain rfl := h n hn
  refine ⟨_, rfl, represents_ofPts ?_, 1, _, rfl⟩
  unfold Increasing; norm_num

theorem realTrace_dom : dom [((0 : ℝ), (1 : ℝ)), (1, 5), (2, 3)] = Set.Icc 0 2 := by
  ext t
  simp only [dom, List.mem_cons, List.not_mem_nil, or_false, exists_eq_or_imp, exists_eq_left,
    Set.mem_Icc, Set.mem_ofPred_eq]
  constructor
  · rintro ⟨h1 | h1 | h1, h2 | h2 | h2⟩ <;> constructor <;> linarith
  · rintro ⟨h1, h2⟩; exact ⟨.inl h1, .inr (.inr h2)⟩

/-- `G[0,1] (x >= 0)` and its negation. -/
noncomputable def exSafety : Expr ℝ := .always (.pred "x" .GE (.fin 0)) ⟨.ull 0, .ull 1⟩

theorem exSafety_safety : Safety true exSafety := .always (.inr (.inl ⟨0, 1, rfl⟩)) (.pred _ _ _ _)
theorem exSafety_cosafety : Safety false (.not exSafety) := .not exSafety_safety
theorem exSafety_uses (n : String) (h : Uses n exSafety) : n = "x" := by
  cases h with | always h => cases h; rfl

example : ∃ z zs, computeRobustness false 0 exSafety realTrace false = .ok z ∧ Represents z zs ∧
    dom zs = Set.Icc 0 2 ∧ ∀ t ∈ Set.Icc (0 : ℝ) 2, 0 < eval zs t →
      Sat 2 (fun _ => eval [(0, 1), (1, 5), (2, 3)]) exSafety t := by
  obtain ⟨z, zs, h1, h2, h3, h4⟩ := C39_safety_sound false 0 realTrace false 0 2 _ exSafety exSafety_safety
    (realTrace_aligned _ exSafety_uses) fun _ _ => realTrace_dom
  exact ⟨z, zs, h1, h2, h3, fun t ht => (h4 t ht).2⟩
example : ∃ z zs, computeRobustness false 0 (.not exSafety) realTrace false = .ok z ∧ Represents z zs ∧
    ∀ t ∈ Set.Icc (0 : ℝ) 2, eval zs t < 0 →
      ¬ Sat 2 (fun _ => eval [(0, 1), (1, 5), (2, 3)]) (.not exSafety) t := by
  obtain ⟨z, zs, h1, h2, h3, h4⟩ := C40_cosafety_sound false 0 realTrace false 0 2 _ (.not exSafety)
    exSafety_cosafety (realTrace_aligned _ fun n h => by cases h with | not h => exact exSafety_uses n h)
    fun _ _ => realTrace_dom
  exact ⟨z, zs, h1, h2, fun t ht => (h4 t ht).2⟩
example : Propositional (.and [.pred "x" .GE (.fin 0), .not (.pred "x" .LT (.fin 2))] : Expr ℝ) :=
  .and (by simp) (by
    intro e he
    simp only [List.mem_cons, List.not_mem_nil, or_false] at he
    rcases he with rfl | rfl
    · exact .pred _ _ _
    · exact .not (.pred _ _ _))

end Verif
