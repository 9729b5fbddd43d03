import Verif.Props.Start
import Verif.Proofs.Sampling
import Verif.Proofs.Perturb
import Mathlib.Topology.UniformSpace.HeineCantor
import Mathlib.Topology.MetricSpace.ProperSpace.Real

/-!
# The sampling error: C80, C81
-/

set_option linter.unusedSectionVars false

namespace Verif
open Spec

theorem _root_.Verif.Spec.Nested.plain {d : Nat} {e : Expr ℝ} (h : Nested d e) : Plain e := by
  induction h with
  | pred _ n op c => exact .pred n op c
  | not _ ih => exact .not ih
  | and hl _ ih => exact .and hl ih
  | or hl _ ih => exact .or hl ih
  | always _ ih => exact .always (.inl rfl) ih
  | eventually _ ih => exact .eventually (.inl rfl) ih

theorem nary_keeps {nd : Bool} {fuel : Nat} {trace : Trace ℝ} {sy : Bool} {t0 : ℝ} {S : Set ℝ}
    {p : Expr ℝ → List (ℝ × ℝ)} {args : List (Expr ℝ)} (hne : args ≠ [])
    (h : ∀ e ∈ args, EvalsTo nd fuel trace sy t0 p e) (hd : ∀ e ∈ args, dom (p e) = S) {zs : List (ℝ × ℝ)} :
    (computeRobustness nd fuel (.and args) trace sy = .ok (ofPts zs) →
      ∀ e ∈ args, ∀ t ∈ (p e).map Prod.fst, t ∈ zs.map Prod.fst) ∧
    (computeRobustness nd fuel (.or args) trace sy = .ok (ofPts zs) →
      ∀ e ∈ args, ∀ t ∈ (p e).map Prod.fst, t ∈ zs.map Prod.fst) := by
  cases args with
  | nil => exact absurd rfl hne
  | cons a args =>
    have hl : ∀ l ∈ p a :: args.map p, Increasing l ∧ StartsAt t0 l ∧ dom l = S := by
      intro l hl
      rw [← List.map_cons, List.mem_map] at hl
      obtain ⟨e, he, rfl⟩ := hl
      obtain ⟨x, -, h2, h3⟩ := h e he
      exact ⟨((represents_iff _ _).1 h2).1, h3, hd e he⟩
    constructor
    · intro e0 e he
      unfold computeRobustness at e0
      rw [RobustnessOp.compute, computeArgs_evalsTo p t0 (a :: args) h] at e0
      simp only [Outcome.bind_ok, List.length_map, assert_, beq_self_eq_true, Bool.or_true, if_true,
        elementwiseMin] at e0
      refine minmaxVec_keeps (pairOp_le nd) t0 S (args.map p) (p a) zs hl ?_ (p e)
        (by rw [← List.map_cons]; exact List.mem_map_of_mem he)
      simpa [Function.comp_def] using e0
    · intro e0 e he
      unfold computeRobustness at e0
      rw [RobustnessOp.compute, computeArgs_evalsTo p t0 (a :: args) h] at e0
      simp only [Outcome.bind_ok, List.length_map, assert_, beq_self_eq_true, Bool.or_true, if_true,
        elementwiseMax] at e0
      refine minmaxVec_keeps (pairOp_ge nd) t0 S (args.map p) (p a) zs hl ?_ (p e)
        (by rw [← List.map_cons]; exact List.mem_map_of_mem he)
      simpa [Function.comp_def] using e0

theorem near_all {ε : ℝ} {T : ℝ} {x : String → ℝ → ℝ} {t v : ℝ} {args : List (Expr ℝ)} {p : Expr ℝ → List (ℝ × ℝ)}
    (hv : IsLeast {v | ∃ e ∈ args, v = eval (p e) t} v) (h : ∀ e ∈ args, Near ε (eval (p e) t) (rob T x e t)) :
    Near ε v (rob T x (.and args) t) := by
  rw [rob]
  constructor
  · rw [le_robAll]
    intro e he
    refine le_trans (EReal.coe_le_coe_iff.2 ?_) (h e he).1
    linarith [hv.2 ⟨e, he, rfl⟩]
  · obtain ⟨e, he, hee⟩ := hv.1
    rw [hee]
    exact (robAll_le he).trans (h e he).2

theorem near_any {ε : ℝ} {T : ℝ} {x : String → ℝ → ℝ} {t v : ℝ} {args : List (Expr ℝ)} {p : Expr ℝ → List (ℝ × ℝ)}
    (hv : IsGreatest {v | ∃ e ∈ args, v = eval (p e) t} v) (h : ∀ e ∈ args, Near ε (eval (p e) t) (rob T x e t)) :
    Near ε v (rob T x (.or args) t) := by
  rw [rob]
  constructor
  · obtain ⟨e, he, hee⟩ := hv.1
    rw [hee]
    exact (h e he).1.trans (le_robAny he)
  · rw [robAny_le]
    intro e he
    refine le_trans (h e he).2 (EReal.coe_le_coe_iff.2 ?_)
    linarith [hv.2 ⟨e, he, rfl⟩]

theorem near_core (nd : Bool) (fuel : Nat) (trace : Trace ℝ) (sy : Bool) (t0 T δ : ℝ) (hδ : 0 ≤ δ)
    (sig : String → List (ℝ × ℝ)) (d : Nat) (phi : Expr ℝ) (hp : Nested d phi) (hs : Aligned trace t0 sig phi)
    (hT : ∀ n, Uses n phi → dom (sig n) = Set.Icc t0 T) (hst : ∀ n, Uses n phi → StepAtMost δ (sig n)) :
    ∀ z zs, computeRobustness nd fuel phi trace sy = .ok z → Represents z zs →
      StepAtMost δ zs ∧
      (∀ t ∈ Set.Icc t0 T, Near (d * (δ / 4)) (eval zs t) (rob T (fun n => eval (sig n)) phi t)) ∧
      Near ((d - 1 : Nat) * (δ / 4)) (eval zs t0) (rob T (fun n => eval (sig n)) phi t0) := by
  induction hp with
  | pred d n op c =>
    intro z zs hz hr
    obtain ⟨x, hx, hrx, h0⟩ := hs n (.pred op _)
    obtain ⟨z', zs', e, hz', htm, hdm, hv⟩ := C20_predicate nd fuel trace sy n op c x (sig n) hx hrx
    rw [hz] at e
    simp only [Outcome.ok.injEq] at e; subst e
    obtain rfl := represents_unique hr hz'
    have hi := ((represents_iff _ _).1 hr).1
    have hi' := ((represents_iff _ _).1 hrx).1
    have hex : ∀ t ∈ Set.Icc t0 T, ∀ ε : ℝ, 0 ≤ ε →
        Near ε (eval zs t) (rob T (fun n => eval (sig n)) (.pred n op (.fin c)) t) := by
      intro t ht ε hε
      have : ((eval zs t : ℝ) : EReal) = rob T (fun n => eval (sig n)) (.pred n op (.fin c)) t := by
        rw [hv t (by rw [hT n (.pred op _)]; exact ht), rob]
        cases op <;> rfl
      rw [← this]
      exact ⟨EReal.coe_le_coe_iff.2 (by linarith), EReal.coe_le_coe_iff.2 (by linarith)⟩
    have h0' : t0 ∈ Set.Icc t0 T := by
      rw [← hT n (.pred op _)]
      obtain ⟨v, r, e⟩ := h0
      rw [e]; exact mem_dom_head (p := (t0, v))
    refine ⟨?_, fun t ht => hex t ht _ (by positivity), hex t0 h0' _ (by positivity)⟩
    refine isChain_of_adjacent fun l p q r e => ?_
    have hpd : ∀ a ∈ zs, a.1 ∈ dom (sig n) := fun a ha => by rw [← hdm]; exact mem_dom_of_mem' ha
    have hp : p ∈ zs := by rw [e]; simp
    have hq : q ∈ zs := by rw [e]; simp
    have hpq : p.1 ≤ q.1 := by
      rw [e] at hi
      exact ((increasing_cons.1 (increasing_append.1 hi).2.1).1 q (by simp)).le
    have hc := step_cell hδ hi' (hst n (.pred op _)) (hpd p hp) (hpd q hq) hpq (by
      intro a ha
      have : a.1 ∈ zs.map Prod.fst := by rw [htm]; exact List.mem_map_of_mem ha
      obtain ⟨b, hb, eb⟩ := List.mem_map.1 this
      rw [← eb]
      rw [e] at hb hi
      exact increasing_adjacent hi b hb)
    rw [← eval_mem hi hp, ← eval_mem hi hq, hv _ (hpd p hp), hv _ (hpd q hq)]
    rw [abs_le] at hc ⊢
    cases op <;> simp only <;> constructor <;> linarith
  | @not d e he ih =>
    intro z zs hz hr
    have hs' : Aligned trace t0 sig e := fun n hn => hs n (.not hn)
    obtain ⟨z1, zs1, e1, hz1, -, -⟩ := C34_total nd fuel trace sy t0 sig e he.plain hs'
    obtain ⟨i1, rfl⟩ := (represents_iff _ _).1 hz1
    have e2 : computeRobustness nd fuel (.not e) trace sy = .ok (ofPts (negPts zs1)) := by
      rw [C21_not_negates, e1]; exact congrArg Outcome.ok (negSig_ofPts i1)
    rw [hz] at e2
    simp only [Outcome.ok.injEq] at e2; subst e2
    obtain rfl := represents_unique hr (represents_ofPts (increasing_negPts.2 i1))
    obtain ⟨h1, h2, h3⟩ := ih hs' (fun n hn => hT n (.not hn)) (fun n hn => hst n (.not hn)) _ _ e1 hz1
    refine ⟨stepAtMost_negPts h1, fun t ht => ?_, ?_⟩
    · rw [eval_negPts, rob]; exact (h2 t ht).neg
    · rw [eval_negPts, rob]; exact h3.neg
  | @and d args hl hsub ih =>
    intro z zs hz hr
    have ih' : ∀ e : Expr ℝ, ∃ zs : List (ℝ × ℝ), e ∈ args → ∃ x,
        computeRobustness nd fuel e trace sy = .ok x ∧ Represents x zs ∧ (∃ v r, zs = (t0, v) :: r) := by
      intro e
      by_cases he : e ∈ args
      · obtain ⟨z, zs, h1, h2, h3, h4⟩ :=
          C34_total nd fuel trace sy t0 sig e (hsub e he).plain fun n hn => hs n (.and he hn)
        exact ⟨zs, fun _ => ⟨z, h1, h2, h3⟩⟩
      · exact ⟨[], fun h => absurd h he⟩
    choose p hpe using ih'
    have hne : args ≠ [] := by rintro rfl; simp at hl
    obtain ⟨z', zs', e1, hz', h0, hdz, hv⟩ := C24_and_nary nd fuel trace sy t0 p args hne hpe
    rw [hz] at e1
    simp only [Outcome.ok.injEq] at e1; subst e1
    obtain rfl := represents_unique hr hz'
    have hde : ∀ e ∈ args, dom (p e) = Set.Icc t0 T := by
      intro e he
      obtain ⟨x, h1, h2, -⟩ := hpe e he
      obtain ⟨z1, zs1, e1, hz1, -, hd1⟩ :=
        C34_total nd fuel trace sy t0 sig e (hsub e he).plain fun n hn => hs n (.and he hn)
      rw [h1] at e1; simp only [Outcome.ok.injEq] at e1; subst e1
      obtain rfl := represents_unique h2 hz1
      exact dom_common (hsub e he).plain (fun n hn => hT n (.and he hn)) hd1
    have hd : dom zs = Set.Icc t0 T := by
      ext t; rw [hdz]
      obtain ⟨e, r, rfl⟩ := List.exists_cons_of_ne_nil hne
      exact ⟨fun h => hde e (by simp) ▸ h e (by simp), fun h e he => by rw [hde e he]; exact h⟩
    have hb : ∀ e ∈ args, StepAtMost δ (p e) ∧
        (∀ t ∈ Set.Icc t0 T, Near (d * (δ / 4)) (eval (p e) t) (rob T (fun n => eval (sig n)) e t)) ∧
        Near ((d - 1 : Nat) * (δ / 4)) (eval (p e) t0) (rob T (fun n => eval (sig n)) e t0) := by
      intro e he
      obtain ⟨x, h1, h2, -⟩ := hpe e he
      exact ih e he (fun n hn => hs n (.and he hn)) (fun n hn => hT n (.and he hn))
        (fun n hn => hst n (.and he hn)) _ _ h1 h2
    obtain ⟨hi, rfl⟩ := (represents_iff _ _).1 hr
    have h0d : t0 ∈ Set.Icc t0 T := by
      rw [← hd]; obtain ⟨v, r, e⟩ := h0; rw [e]; exact mem_dom_head (p := (t0, v))
    refine ⟨?_, fun t ht => near_all (hv t (hd ▸ ht)) fun e he => (hb e he).2.1 t ht,
      near_all (hv t0 (hd ▸ h0d)) fun e he => (hb e he).2.2⟩
    refine step_of_cells (I := {e | e ∈ args}) (f := p) hδ hi (fun e he => ?_)
      ((nary_keeps hne hpe hde).1 hz) (.inl hv)
    obtain ⟨x, h1, h2, -⟩ := hpe e he
    exact ⟨((represents_iff _ _).1 h2).1, (hb e he).1, by rw [hde e he, hd]⟩
  | @or d args hl hsub ih =>
    intro z zs hz hr
    have ih' : ∀ e : Expr ℝ, ∃ zs : List (ℝ × ℝ), e ∈ args → ∃ x,
        computeRobustness nd fuel e trace sy = .ok x ∧ Represents x zs ∧ (∃ v r, zs = (t0, v) :: r) := by
      intro e
      by_cases he : e ∈ args
      · obtain ⟨z, zs, h1, h2, h3, h4⟩ :=
          C34_total nd fuel trace sy t0 sig e (hsub e he).plain fun n hn => hs n (.or he hn)
        exact ⟨zs, fun _ => ⟨z, h1, h2, h3⟩⟩
      · exact ⟨[], fun h => absurd h he⟩
    choose p hpe using ih'
    have hne : args ≠ [] := by rintro rfl; simp at hl
    obtain ⟨z', zs', e1, hz', h0, hdz, hv⟩ := C24_or_nary nd fuel trace sy t0 p args hne hpe
    rw [hz] at e1
    simp only [Outcome.ok.injEq] at e1; subst e1
    obtain rfl := represents_unique hr hz'
    have hde : ∀ e ∈ args, dom (p e) = Set.Icc t0 T := by
      intro e he
      obtain ⟨x, h1, h2, -⟩ := hpe e he
      obtain ⟨z1, zs1, e1, hz1, -, hd1⟩ :=
        C34_total nd fuel trace sy t0 sig e (hsub e he).plain fun n hn => hs n (.or he hn)
      rw [h1] at e1; simp only [Outcome.ok.injEq] at e1; subst e1
      obtain rfl := represents_unique h2 hz1
      exact dom_common (hsub e he).plain (fun n hn => hT n (.or he hn)) hd1
    have hd : dom zs = Set.Icc t0 T := by
      ext t; rw [hdz]
      obtain ⟨e, r, rfl⟩ := List.exists_cons_of_ne_nil hne
      exact ⟨fun h => hde e (by simp) ▸ h e (by simp), fun h e he => by rw [hde e he]; exact h⟩
    have hb : ∀ e ∈ args, StepAtMost δ (p e) ∧
        (∀ t ∈ Set.Icc t0 T, Near (d * (δ / 4)) (eval (p e) t) (rob T (fun n => eval (sig n)) e t)) ∧
        Near ((d - 1 : Nat) * (δ / 4)) (eval (p e) t0) (rob T (fun n => eval (sig n)) e t0) := by
      intro e he
      obtain ⟨x, h1, h2, -⟩ := hpe e he
      exact ih e he (fun n hn => hs n (.or he hn)) (fun n hn => hT n (.or he hn))
        (fun n hn => hst n (.or he hn)) _ _ h1 h2
    obtain ⟨hi, rfl⟩ := (represents_iff _ _).1 hr
    have h0d : t0 ∈ Set.Icc t0 T := by
      rw [← hd]; obtain ⟨v, r, e⟩ := h0; rw [e]; exact mem_dom_head (p := (t0, v))
    refine ⟨?_, fun t ht => near_any (hv t (hd ▸ ht)) fun e he => (hb e he).2.1 t ht,
      near_any (hv t0 (hd ▸ h0d)) fun e he => (hb e he).2.2⟩
    refine step_of_cells (I := {e | e ∈ args}) (f := p) hδ hi (fun e he => ?_)
      ((nary_keeps hne hpe hde).2 hz) (.inr hv)
    obtain ⟨x, h1, h2, -⟩ := hpe e he
    exact ⟨((represents_iff _ _).1 h2).1, (hb e he).1, by rw [hde e he, hd]⟩
  | @always d e he ih =>
    intro z zs hz hr
    have hs' : Aligned trace t0 sig e := fun n hn => hs n (.always hn)
    have hT' : ∀ n, Uses n e → dom (sig n) = Set.Icc t0 T := fun n hn => hT n (.always hn)
    obtain ⟨z1, zs1, e1, hz1, h0, hdz⟩ := C34_total nd fuel trace sy t0 sig e he.plain hs'
    have i1 := ((represents_iff _ _).1 hz1).1
    have e2 := (eventually_fin e1 hz1 (StartsAt.ne h0) _ (intervalBuilt_high (.inl rfl))).2
    rw [show (Interval.default : Interval ℝ) = ⟨.dbl 0, .dbl .pinf⟩ from rfl, hz] at e2
    simp only [Outcome.ok.injEq] at e2; subst e2
    obtain rfl := represents_unique hr (represents_ofPts (increasing_sufPts.2 i1))
    obtain ⟨h1, h2, -⟩ := ih hs' hT' (fun n hn => hst n (.always hn)) _ _ e1 hz1
    obtain ⟨k1, k2⟩ := near_inf hδ i1 h1 (dom_common he.plain hT' hdz) h2
    refine ⟨step_sufPts_min h1, fun t ht => ?_, ?_⟩
    · rw [rob, window_default]
      have := k1 t ht
      rwa [show (((d + 1 : Nat) : ℝ)) * (δ / 4) = d * (δ / 4) + δ / 4 by push_cast; ring]
    · rw [rob, window_default]
      have h0' : StartsAt t0 (sufPts min zs1) := by
        obtain ⟨v, r, e⟩ := h0
        have := sufPts_fst min zs1
        rw [e] at this
        cases hc : sufPts min zs1 with
        | nil => rw [e] at hc; rw [hc] at this; simp at this
        | cons a b =>
          rw [e] at hc; rw [hc] at this
          simp only [List.map_cons, List.cons.injEq] at this
          exact ⟨a.2, b, by rw [← this.1]⟩
      obtain ⟨r, hr', -⟩ := eval_start h0' (increasing_sufPts.2 i1)
      exact k2 (t0, eval (sufPts min zs1) t0)
        ((congrArg (fun l => (t0, eval (sufPts min zs1) t0) ∈ l) hr').mpr (by simp))
  | @eventually d e he ih =>
    intro z zs hz hr
    have hs' : Aligned trace t0 sig e := fun n hn => hs n (.eventually hn)
    have hT' : ∀ n, Uses n e → dom (sig n) = Set.Icc t0 T := fun n hn => hT n (.eventually hn)
    obtain ⟨z1, zs1, e1, hz1, h0, hdz⟩ := C34_total nd fuel trace sy t0 sig e he.plain hs'
    have i1 := ((represents_iff _ _).1 hz1).1
    have e2 := (eventually_fin e1 hz1 (StartsAt.ne h0) _ (intervalBuilt_high (.inl rfl))).1
    rw [show (Interval.default : Interval ℝ) = ⟨.dbl 0, .dbl .pinf⟩ from rfl, hz] at e2
    simp only [Outcome.ok.injEq] at e2; subst e2
    obtain rfl := represents_unique hr (represents_ofPts (increasing_sufPts.2 i1))
    obtain ⟨h1, h2, -⟩ := ih hs' hT' (fun n hn => hst n (.eventually hn)) _ _ e1 hz1
    obtain ⟨k1, k2⟩ := near_sup hδ i1 h1 (dom_common he.plain hT' hdz) h2
    refine ⟨step_sufPts_max h1, fun t ht => ?_, ?_⟩
    · rw [rob, window_default]
      have := k1 t ht
      rwa [show (((d + 1 : Nat) : ℝ)) * (δ / 4) = d * (δ / 4) + δ / 4 by push_cast; ring]
    · rw [rob, window_default]
      have h0' : StartsAt t0 (sufPts max zs1) := by
        obtain ⟨v, r, e⟩ := h0
        rw [e, sufPts_max_cons]; exact ⟨_, _, rfl⟩
      obtain ⟨r, hr', -⟩ := eval_start h0' (increasing_sufPts.2 i1)
      exact k2 (t0, eval (sufPts max zs1) t0)
        ((congrArg (fun l => (t0, eval (sufPts max zs1) t0) ∈ l) hr').mpr (by simp))

theorem Near.real {ε v : ℝ} {w : EReal} (h : Near ε v w) : ∃ r : ℝ, w = r ∧ |v - r| ≤ ε := by
  obtain ⟨h1, h2⟩ := h
  induction w with
  | bot => exact absurd h1 (not_le.2 (EReal.bot_lt_coe _))
  | top => exact absurd h2 (not_le.2 (EReal.coe_lt_top _))
  | coe r =>
    rw [EReal.coe_le_coe_iff] at h1 h2
    exact ⟨r, rfl, by rw [abs_le]; constructor <;> linarith⟩

/-! ## C80 -/

/-- **C80.** If neighbouring samples of the signals differ by at most `δ` and at most `d` temporal operators are
nested, the computed robustness differs from the quantitative semantics by at most `d * δ / 4` at every real time
of the trace; a value outside `[-d δ / 4, d δ / 4]` gives the verdict by its sign. -/
theorem C80_error (nd : Bool) (fuel : Nat) (trace : Trace ℝ) (sy : Bool) (t0 T δ : ℝ) (hδ : 0 ≤ δ)
    (sig : String → List (ℝ × ℝ)) (d : Nat) (phi : Expr ℝ) (hp : Nested d phi) (hs : Aligned trace t0 sig phi)
    (hT : ∀ n, Uses n phi → dom (sig n) = Set.Icc t0 T) (hst : ∀ n, Uses n phi → StepAtMost δ (sig n)) :
    ∃ z zs, computeRobustness nd fuel phi trace sy = .ok z ∧ Represents z zs ∧ dom zs = Set.Icc t0 T ∧
      ∀ t ∈ Set.Icc t0 T, (∃ r : ℝ, rob T (fun n => eval (sig n)) phi t = r ∧ |eval zs t - r| ≤ d * δ / 4) ∧
        (d * δ / 4 < eval zs t → Sat T (fun n => eval (sig n)) phi t) ∧
        (eval zs t < -(d * δ / 4) → ¬ Sat T (fun n => eval (sig n)) phi t) := by
  obtain ⟨z, zs, e, hz, -, hd⟩ := C34_total nd fuel trace sy t0 sig phi hp.plain hs
  refine ⟨z, zs, e, hz, dom_common hp.plain hT hd, fun t ht => ?_⟩
  obtain ⟨r, hr, ha⟩ := ((near_core nd fuel trace sy t0 T δ hδ sig d phi hp hs hT hst z zs e hz).2.1 t ht).real
  rw [← mul_div_assoc] at ha
  have := abs_le.1 ha
  refine ⟨⟨r, hr, ha⟩, fun h => (rob_sat T _ phi t).1 ?_, fun h => (rob_sat T _ phi t).2 ?_⟩
  · rw [hr]; exact EReal.coe_pos.2 (by linarith)
  · rw [hr]; exact EReal.coe_neg'.2 (by linarith)

/-- **C80.** At the start of the trace the outermost temporal operator adds no error: with at most `d + 1` nested
temporal operators the first sample is off by at most `d * δ / 4`. -/
theorem C80_start (nd : Bool) (fuel : Nat) (trace : Trace ℝ) (sy : Bool) (t0 T δ : ℝ) (hδ : 0 ≤ δ)
    (sig : String → List (ℝ × ℝ)) (d : Nat) (phi : Expr ℝ) (hp : Nested (d + 1) phi)
    (hs : Aligned trace t0 sig phi)
    (hT : ∀ n, Uses n phi → dom (sig n) = Set.Icc t0 T) (hst : ∀ n, Uses n phi → StepAtMost δ (sig n)) :
    ∃ z v rest, computeRobustness nd fuel phi trace sy = .ok z ∧ Represents z ((t0, v) :: rest) ∧
      (∃ r : ℝ, rob T (fun n => eval (sig n)) phi t0 = r ∧ |v - r| ≤ d * δ / 4) ∧
      (d * δ / 4 < v → Sat T (fun n => eval (sig n)) phi t0) ∧
      (v < -(d * δ / 4) → ¬ Sat T (fun n => eval (sig n)) phi t0) := by
  obtain ⟨z, zs, e, hz, h0, hd⟩ := C34_total nd fuel trace sy t0 sig phi hp.plain hs
  obtain ⟨r', hr', -⟩ := eval_start h0 ((represents_iff _ _).1 hz).1
  refine ⟨z, eval zs t0, r', e, hr' ▸ hz, ?_⟩
  obtain ⟨r, hr, ha⟩ := (near_core nd fuel trace sy t0 T δ hδ sig _ phi hp hs hT hst z zs e hz).2.2.real
  rw [Nat.add_sub_cancel, ← mul_div_assoc] at ha
  have := abs_le.1 ha
  refine ⟨⟨r, hr, ha⟩, fun h => (rob_sat T _ phi t0).1 ?_, fun h => (rob_sat T _ phi t0).2 ?_⟩
  · rw [hr]; exact EReal.coe_pos.2 (by linarith)
  · rw [hr]; exact EReal.coe_neg'.2 (by linarith)

/-- The signal for the sharpness of the bound: one step of size `δ` down, half a step up. -/
noncomputable def sharpPts (δ : ℝ) : List (ℝ × ℝ) := [(0, δ), (2, 0), (3, δ / 2)]

/-- **C80.** The constant is the best possible: for every `δ` there is a signal with steps of at most `δ` for which
the computed robustness of `F (x >= 0)` is off by `δ / 4` at some time. -/
theorem C80_sharp (nd : Bool) (fuel : Nat) (sy : Bool) (δ : ℝ) (hδ : 0 ≤ δ) :
    Increasing (sharpPts δ) ∧ dom (sharpPts δ) = Set.Icc 0 3 ∧ StepAtMost δ (sharpPts δ) ∧
    ∃ z zs, computeRobustness nd fuel (.eventually (.pred "x" .GE (.fin 0)) ⟨.dbl 0, .dbl .pinf⟩)
        [("x", ofPts (sharpPts δ))] sy = .ok z ∧ Represents z zs ∧
      ∃ r : ℝ, rob 3 (fun _ => eval (sharpPts δ)) (.eventually (.pred "x" .GE (.fin 0)) ⟨.dbl 0, .dbl .pinf⟩) 1 = r ∧
        eval zs 1 - r = δ / 4 := by
  have hi : Increasing (sharpPts δ) := by unfold Increasing sharpPts; norm_num
  have hd : dom (sharpPts δ) = Set.Icc 0 3 := by
    ext t
    simp only [sharpPts, dom, List.mem_cons, List.not_mem_nil, or_false, exists_eq_or_imp, exists_eq_left,
      Set.mem_ofPred_eq, Set.mem_Icc]
    constructor
    · rintro ⟨h1 | h1 | h1, h2 | h2 | h2⟩ <;> constructor <;> linarith
    · rintro ⟨h1, h2⟩; exact ⟨.inl h1, .inr (.inr h2)⟩
  refine ⟨hi, hd, ?_, ?_⟩
  · unfold StepAtMost sharpPts
    simp only [List.isChain_cons_cons, List.isChain_singleton, and_true, abs_le]
    constructor <;> constructor <;> linarith
  obtain ⟨z1, zs1, e1, hz1, htm, hdm, hv⟩ := C20_predicate nd fuel [("x", ofPts (sharpPts δ))] sy "x" .GE (0 : ℝ) _
    (sharpPts δ) rfl (represents_ofPts hi)
  simp only [sub_zero] at hv
  have hzs : zs1 = sharpPts δ := by
    have hi1 := ((represents_iff _ _).1 hz1).1
    have : ∀ a ∈ zs1, a = (a.1, eval (sharpPts δ) a.1) := fun a ha => by
      rw [← hv a.1 (hdm ▸ mem_dom_of_mem' ha), eval_mem hi1 ha]
    have h2 : zs1 = (zs1.map Prod.fst).map fun t => (t, eval (sharpPts δ) t) := by
      rw [List.map_map]
      conv_lhs => rw [← List.map_id zs1]
      exact List.map_congr_left fun a ha => this a ha
    rw [h2, htm]
    simp [sharpPts, eval, line]
    norm_num
  subst hzs
  have e2 := (eventually_fin e1 hz1 (by simp [sharpPts]) _ (intervalBuilt_high (.inl rfl))).1
  refine ⟨_, _, e2, represents_ofPts (increasing_sufPts.2 hi), δ / 2, ?_, ?_⟩
  · rw [rob, window_default]
    simp only [rob, margin, sub_zero]
    apply le_antisymm
    · refine iSup₂_le fun t ht => EReal.coe_le_coe_iff.2 ?_
      simp only [sharpPts, eval, line]
      split
      · linarith [ht.1, mul_nonneg hδ (sub_nonneg.2 ht.1)]
      · split <;> nlinarith [ht.1, ht.2]
    · refine le_trans ?_ (le_iSup₂ (f := fun t (_ : t ∈ Set.Icc (1 : ℝ) 3) => ((eval (sharpPts δ) t : ℝ) : EReal)) 1
        ⟨le_rfl, by norm_num⟩)
      refine EReal.coe_le_coe_iff.2 ?_
      simp only [sharpPts, eval, line]
      norm_num
      linarith
  · have h1 : sufMax (sharpPts δ) = δ := by
      simp only [sharpPts, sufMax_cons]
      simp [sufMax]
      linarith
    have h2 : sufMax [((2 : ℝ), (0 : ℝ)), (3, δ / 2)] = δ / 2 := by
      rw [sufMax_cons]; simp [sufMax]; linarith
    have : sufPts max (sharpPts δ) = [(0, δ), (2, δ / 2), (3, δ / 2)] := by
      rw [show sharpPts δ = (0, δ) :: [(2, 0), (3, δ / 2)] from rfl, sufPts_max_cons, sufPts_max_cons,
        sufPts_max_cons, h2, show sufMax ((0, δ) :: [(2, 0), (3, δ / 2)]) = δ from h1]
      simp [sufMax, sufPts]
    rw [this]
    simp only [eval, line]
    norm_num
    ring

/-! ## C81 -/

/-- The samples of `f` at the times `ts`. -/
def sampled (f : ℝ → ℝ) (ts : List ℝ) : List (ℝ × ℝ) := ts.map fun t => (t, f t)

/-- The times `ts` start at `t0`, end at `T`, and neighbours are at most `h` apart. -/
def Grid (t0 T h : ℝ) (ts : List ℝ) : Prop :=
  ts.head? = some t0 ∧ ts.getLast? = some T ∧ ts.IsChain fun a b => b - a ≤ h

/-- `f` changes by at most `δ` over a time of at most `h`. -/
def Modulus (t0 T h δ : ℝ) (f : ℝ → ℝ) : Prop :=
  ∀ s ∈ Set.Icc t0 T, ∀ t ∈ Set.Icc t0 T, |t - s| ≤ h → |f t - f s| ≤ δ

theorem sampled_times {f : ℝ → ℝ} {ts : List ℝ} (h : Increasing (sampled f ts)) : ts.Pairwise (· < ·) := by
  unfold Increasing sampled at h; simpa [Function.comp_def] using h

theorem grid_mem {t0 T h : ℝ} {ts : List ℝ} (hg : Grid t0 T h ts) (hpw : ts.Pairwise (· < ·)) :
    ∀ t ∈ ts, t ∈ Set.Icc t0 T := by
  intro t ht
  obtain ⟨h1, h2, -⟩ := hg
  constructor
  · cases ts with
    | nil => simp at ht
    | cons a r =>
      simp only [List.head?_cons, Option.some.injEq] at h1; subst h1
      rcases List.mem_cons.1 ht with rfl | ht
      · exact le_rfl
      · exact ((List.pairwise_cons.1 hpw).1 t ht).le
  · rcases List.eq_nil_or_concat ts with rfl | ⟨r, b, rfl⟩
    · simp at ht
    · rw [List.concat_eq_append] at h2 hpw ht
      simp only [List.getLast?_append, List.getLast?_singleton, Option.some_or, Option.some.injEq] at h2
      subst h2
      rcases List.mem_append.1 ht with ht | ht
      · exact ((List.pairwise_append.1 hpw).2.2 t ht b (by simp)).le
      · exact (List.mem_singleton.1 ht).le

theorem dom_sampled {t0 T h : ℝ} {f : ℝ → ℝ} {ts : List ℝ} (hg : Grid t0 T h ts) (hpw : ts.Pairwise (· < ·)) :
    dom (sampled f ts) = Set.Icc t0 T := by
  have hb := grid_mem hg hpw
  ext t
  constructor
  · rintro ⟨⟨a, ha, hat⟩, b, hb', htb⟩
    obtain ⟨a', ha', rfl⟩ := List.mem_map.1 ha
    obtain ⟨b', hb'', rfl⟩ := List.mem_map.1 hb'
    exact ⟨(hb a' ha').1.trans hat, htb.trans (hb b' hb'').2⟩
  · intro ht
    refine ⟨⟨(t0, f t0), ?_, ht.1⟩, ⟨(T, f T), ?_, ht.2⟩⟩
    · exact List.mem_map.2 ⟨t0, List.mem_of_head? hg.1, rfl⟩
    · exact List.mem_map.2 ⟨T, List.mem_of_getLast? hg.2.1, rfl⟩

theorem sampled_step {f : ℝ → ℝ} {t0 T h δ : ℝ} (hm : Modulus t0 T h δ f) {ts : List ℝ} (hg : Grid t0 T h ts)
    (hpw : ts.Pairwise (· < ·)) : StepAtMost δ (sampled f ts) := by
  have hts := grid_mem hg hpw
  unfold StepAtMost sampled
  rw [List.isChain_map]
  refine isChain_of_adjacent fun l p q r e => ?_
  have hg' := hg.2.2
  subst e
  have hg' := (List.isChain_cons_cons.1 (List.isChain_split.1 hg').2).1
  have hpq : p < q := (List.pairwise_cons.1 (List.pairwise_append.1 hpw).2.1).1 q (by simp)
  exact hm p (hts p (by simp)) q (hts q (by simp)) (by rw [abs_of_pos (sub_pos.2 hpq)]; exact hg')

/-- The segment of the interpolation around a time. -/
theorem sampled_segment {f : ℝ → ℝ} {t0 T h : ℝ} {ts : List ℝ} (hg : Grid t0 T h ts) (hh : 0 ≤ h)
    (hinc : Increasing (sampled f ts)) {t : ℝ} (ht : t ∈ Set.Icc t0 T) :
    ∃ a ∈ Set.Icc t0 T, ∃ b ∈ Set.Icc t0 T, ∃ w, a ≤ t ∧ t ≤ b ∧ b - a ≤ h ∧ 0 ≤ w ∧ w ≤ 1 ∧
      t - a = w * (b - a) ∧ eval (sampled f ts) t - f t = (1 - w) * (f a - f t) + w * (f b - f t) := by
  have hpw := sampled_times hinc
  have hts := grid_mem hg hpw
  have htd : t ∈ dom (sampled f ts) := by rw [dom_sampled hg hpw]; exact ht
  rcases dom_cases hinc htd with ⟨p, hp, rfl⟩ | ⟨l, p, q, r, hp, h1, h2⟩
  · have hpm : p ∈ sampled f ts := by rw [hp]; simp
    obtain ⟨a, ha, rfl⟩ := List.mem_map.1 hpm
    refine ⟨a, hts a ha, a, hts a ha, 0, le_rfl, le_rfl, by linarith, le_rfl, zero_le_one, by simp, ?_⟩
    rw [eval_mem hinc hpm]; simp
  · have hpm : p ∈ sampled f ts := by rw [hp]; simp
    have hqm : q ∈ sampled f ts := by rw [hp]; simp
    have hpq : p.1 < q.1 := by
      rw [hp] at hinc
      exact (increasing_cons.1 (increasing_append.1 hinc).2.1).1 q (by simp)
    have hgap : q.1 - p.1 ≤ h := by
      have : (sampled f ts).IsChain fun a b => b.1 - a.1 ≤ h := by
        unfold sampled; rw [List.isChain_map]; exact hg.2.2
      rw [hp] at this
      exact (List.isChain_cons_cons.1 (List.isChain_split.1 this).2).1
    have hseg : eval (sampled f ts) t = line p q t := by
      rw [hp] at hinc ⊢; exact eval_seg _ _ _ _ hinc h1 h2
    obtain ⟨a, ha, rfl⟩ := List.mem_map.1 hpm
    obtain ⟨b, hb, rfl⟩ := List.mem_map.1 hqm
    simp only at h1 h2 hpq hgap
    have hd : 0 < b - a := sub_pos.2 hpq
    refine ⟨a, hts a ha, b, hts b hb, (t - a) / (b - a), h1, h2, hgap, div_nonneg (by linarith) hd.le, ?_, ?_, ?_⟩
    · rw [div_le_one hd]; linarith
    · field_simp
    · rw [hseg]; simp only [line]; ring

theorem sampled_close {f : ℝ → ℝ} {t0 T h δ : ℝ} (hm : Modulus t0 T h δ f) {ts : List ℝ} (hg : Grid t0 T h ts)
    (hh : 0 ≤ h) (hinc : Increasing (sampled f ts)) {t : ℝ} (ht : t ∈ Set.Icc t0 T) :
    |eval (sampled f ts) t - f t| ≤ δ := by
  obtain ⟨a, ha, b, hb, w, h1, h2, h3, w0, w1, -, e⟩ := sampled_segment hg hh hinc ht
  have k1 := hm t ht a ha (by rw [abs_sub_comm, abs_of_nonneg (by linarith)]; linarith)
  have k2 := hm t ht b hb (by rw [abs_of_nonneg (by linarith)]; linarith)
  rw [e]
  refine (abs_add_le _ _).trans ?_
  have w1' : 0 ≤ 1 - w := by linarith
  rw [abs_mul, abs_mul, abs_of_nonneg w0, abs_of_nonneg w1']
  have m1 := mul_le_mul_of_nonneg_left k1 w1'
  have m2 := mul_le_mul_of_nonneg_left k2 w0
  linarith

theorem sampled_close_lipschitz {f : ℝ → ℝ} {t0 T L h : ℝ} (hL : 0 ≤ L)
    (hf : ∀ s ∈ Set.Icc t0 T, ∀ t ∈ Set.Icc t0 T, |f t - f s| ≤ L * |t - s|) {ts : List ℝ}
    (hh : 0 ≤ h) (hg : Grid t0 T h ts) (hinc : Increasing (sampled f ts)) {t : ℝ} (ht : t ∈ Set.Icc t0 T) :
    |eval (sampled f ts) t - f t| ≤ L * h / 2 := by
  obtain ⟨a, ha, b, hb, w, h1, h2, h3, w0, w1, hwa, e⟩ := sampled_segment hg hh hinc ht
  have k1 := hf t ht a ha
  have k2 := hf t ht b hb
  have hwb : b - t = (1 - w) * (b - a) := by linarith
  have w1' : 0 ≤ 1 - w := by linarith
  rw [e]
  refine (abs_add_le _ _).trans ?_
  rw [abs_mul, abs_mul, abs_of_nonneg w0, abs_of_nonneg w1']
  have e1 : |a - t| = w * (b - a) := by rw [abs_sub_comm, abs_of_nonneg (by linarith)]; exact hwa
  have e2 : |b - t| = (1 - w) * (b - a) := by rw [abs_of_nonneg (by linarith)]; exact hwb
  rw [e1] at k1; rw [e2] at k2
  have m1 := mul_le_mul_of_nonneg_left k1 w1'
  have m2 := mul_le_mul_of_nonneg_left k2 w0
  have m3 : w * (1 - w) ≤ 1 / 4 := by nlinarith [sq_nonneg (2 * w - 1)]
  have m4 : L * (b - a) ≤ L * h := mul_le_mul_of_nonneg_left h3 hL
  have m5 : w * (1 - w) * (L * (b - a)) ≤ 1 / 4 * (L * h) :=
    mul_le_mul m3 m4 (mul_nonneg hL (by linarith)) (by norm_num)
  nlinarith

theorem near_signals {T t0 κ ε v t : ℝ} {x y : String → ℝ → ℝ} {phi : Expr ℝ} (hp : Plain phi)
    (h : ∀ n, Uses n phi → ∀ t ∈ Set.Icc t0 T, |x n t - y n t| ≤ κ) (ht : t ∈ Set.Icc t0 T)
    (hn : Near ε v (rob T x phi t)) : Near (ε + κ) v (rob T y phi t) := by
  have h1 := rob_close hp (fun i t t' hi ht' => window_ge hi ht') h t ht
  have h2 := rob_close (d := κ) (x := y) (y := x) hp (fun i t t' hi ht' => window_ge hi ht')
    (fun n hn t ht => by rw [abs_sub_comm]; exact h n hn t ht) t ht
  obtain ⟨r, hr, ha⟩ := hn.real
  rw [hr] at h1 h2
  have := abs_le.1 ha
  constructor
  · generalize rob T y phi t = w at h1
    induction w with
    | bot => simp at h1
    | top => exact le_top
    | coe w =>
      rw [← EReal.coe_add, EReal.coe_le_coe_iff] at h1
      exact EReal.coe_le_coe_iff.2 (by linarith)
  · refine h2.trans ?_
    rw [← EReal.coe_add]
    exact EReal.coe_le_coe_iff.2 (by linarith)

/-- The trace holds samples of the signals `f` over `[t0, T]` at times at most `h` apart; each signal has its own
times. -/
def Samples (trace : Trace ℝ) (t0 T h : ℝ) (f : String → ℝ → ℝ) (phi : Expr ℝ) : Prop :=
  ∀ n, Uses n phi → ∃ x ts, trace.lookup n = some x ∧ Represents x (sampled (f n) ts) ∧ Grid t0 T h ts

theorem sampling_core (nd : Bool) (fuel : Nat) (trace : Trace ℝ) (sy : Bool) (t0 T h δ κ : ℝ) (hδ : 0 ≤ δ)
    (f : String → ℝ → ℝ) (d : Nat) (phi : Expr ℝ) (hp : Nested d phi)
    (hf : ∀ n, Uses n phi → Modulus t0 T h δ (f n)) (hs : Samples trace t0 T h f phi)
    (hκ : ∀ n, Uses n phi → ∀ ts, Grid t0 T h ts → Increasing (sampled (f n) ts) → ∀ t ∈ Set.Icc t0 T,
      |eval (sampled (f n) ts) t - f n t| ≤ κ) :
    ∃ z zs, computeRobustness nd fuel phi trace sy = .ok z ∧ Represents z zs ∧ dom zs = Set.Icc t0 T ∧
      (∃ v r, zs = (t0, v) :: r) ∧
      (∀ t ∈ Set.Icc t0 T, Near (d * (δ / 4) + κ) (eval zs t) (rob T f phi t)) ∧
      Near ((d - 1 : Nat) * (δ / 4) + κ) (eval zs t0) (rob T f phi t0) := by
  have hs' : ∀ n, ∃ ts, Uses n phi → ∃ x, trace.lookup n = some x ∧ Represents x (sampled (f n) ts) ∧
      Grid t0 T h ts := by
    intro n
    by_cases hn : Uses n phi
    · obtain ⟨x, ts, h1, h2, h3⟩ := hs n hn
      exact ⟨ts, fun _ => ⟨x, h1, h2, h3⟩⟩
    · exact ⟨[], fun h => absurd h hn⟩
  choose ts hts using hs'
  have hfacts : ∀ n, Uses n phi → Increasing (sampled (f n) (ts n)) ∧ Grid t0 T h (ts n) ∧
      dom (sampled (f n) (ts n)) = Set.Icc t0 T := by
    intro n hn
    obtain ⟨x, -, h2, h3⟩ := hts n hn
    have hi := ((represents_iff _ _).1 h2).1
    exact ⟨hi, h3, dom_sampled h3 (sampled_times hi)⟩
  have ha : Aligned trace t0 (fun n => sampled (f n) (ts n)) phi := by
    intro n hn
    obtain ⟨x, h1, h2, h3⟩ := hts n hn
    cases hc : ts n with
    | nil => have := h3.1; rw [hc] at this; simp at this
    | cons a r =>
      have := h3.1
      rw [hc] at this
      simp only [List.head?_cons, Option.some.injEq] at this; subst this
      rw [hc] at h2
      exact ⟨x, h1, by simp only [hc]; exact h2, f n a, sampled (f n) r, by simp only [hc]; rfl⟩
  obtain ⟨z, zs, e, hz, h0, hd⟩ := C34_total nd fuel trace sy t0 _ phi hp.plain ha
  have hT : ∀ n, Uses n phi → dom (sampled (f n) (ts n)) = Set.Icc t0 T := fun n hn => (hfacts n hn).2.2
  have hdz := dom_common hp.plain hT hd
  obtain ⟨-, k1, k2⟩ := near_core nd fuel trace sy t0 T δ hδ _ d phi hp ha hT
    (fun n hn => sampled_step (hf n hn) (hfacts n hn).2.1 (sampled_times (hfacts n hn).1)) z zs e hz
  have h0d : t0 ∈ Set.Icc t0 T := by
    rw [← hdz]; obtain ⟨v, r, e⟩ := h0; rw [e]; exact mem_dom_head (p := (t0, v))
  have hκ' : ∀ n, Uses n phi → ∀ t ∈ Set.Icc t0 T, |eval (sampled (f n) (ts n)) t - f n t| ≤ κ :=
    fun n hn t ht => hκ n hn (ts n) (hfacts n hn).2.1 (hfacts n hn).1 t ht
  exact ⟨z, zs, e, hz, hdz, h0, fun t ht => near_signals hp.plain hκ' ht (k1 t ht),
    near_signals hp.plain hκ' h0d k2⟩

/-- **C81.** Signals in continuous time: every `f n` is Lipschitz with constant `L`, the trace holds its samples at
times at most `h` apart.  The computed robustness at every time differs from the quantitative semantics of the
signals `f` (not of their interpolation) by at most `(d / 4 + 1 / 2) L h`; a value beyond that gives the verdict
for the signals `f`. -/
theorem C81_sampling (nd : Bool) (fuel : Nat) (trace : Trace ℝ) (sy : Bool) (t0 T L h : ℝ) (hL : 0 ≤ L)
    (hh : 0 ≤ h) (f : String → ℝ → ℝ) (d : Nat) (phi : Expr ℝ) (hp : Nested d phi)
    (hf : ∀ n, Uses n phi → ∀ s ∈ Set.Icc t0 T, ∀ t ∈ Set.Icc t0 T, |f n t - f n s| ≤ L * |t - s|)
    (hs : Samples trace t0 T h f phi) :
    ∃ z zs, computeRobustness nd fuel phi trace sy = .ok z ∧ Represents z zs ∧ dom zs = Set.Icc t0 T ∧
      ∀ t ∈ Set.Icc t0 T, (∃ r : ℝ, rob T f phi t = r ∧ |eval zs t - r| ≤ (d / 4 + 1 / 2) * (L * h)) ∧
        ((d / 4 + 1 / 2) * (L * h) < eval zs t → Sat T f phi t) ∧
        (eval zs t < -((d / 4 + 1 / 2) * (L * h)) → ¬ Sat T f phi t) := by
  have hm : ∀ n, Uses n phi → Modulus t0 T h (L * h) (f n) := fun n hn s hs t ht hst =>
    (hf n hn s hs t ht).trans (mul_le_mul_of_nonneg_left hst hL)
  obtain ⟨z, zs, e, hz, hd, -, hn, -⟩ := sampling_core nd fuel trace sy t0 T h (L * h) (L * h / 2) (by positivity)
    f d phi hp hm hs fun n hn ts hg hi t ht => sampled_close_lipschitz hL (hf n hn) hh hg hi ht
  refine ⟨z, zs, e, hz, hd, fun t ht => ?_⟩
  obtain ⟨r, hr, hb⟩ := (hn t ht).real
  have hb : |eval zs t - r| ≤ (d / 4 + 1 / 2) * (L * h) := by
    refine hb.trans (le_of_eq ?_); ring
  have := abs_le.1 hb
  refine ⟨⟨r, hr, hb⟩, fun h => (rob_sat T _ phi t).1 ?_, fun h => (rob_sat T _ phi t).2 ?_⟩
  · rw [hr]; exact EReal.coe_pos.2 (by linarith)
  · rw [hr]; exact EReal.coe_neg'.2 (by linarith)

/-- One bound for all the signals of a formula. -/
theorem uses_uniform {P : String → ℝ → Prop} (hmono : ∀ n a b, a ≤ b → P n b → P n a) {phi : Expr ℝ}
    (hp : Plain phi) (h : ∀ n, Uses n phi → ∃ a > 0, P n a) : ∃ a > 0, ∀ n, Uses n phi → P n a := by
  have hlist : ∀ args : List (Expr ℝ), (∀ e ∈ args, ∃ a > 0, ∀ n, Uses n e → P n a) →
      ∃ a > 0, ∀ e ∈ args, ∀ n, Uses n e → P n a := by
    intro args
    induction args with
    | nil => intro _; exact ⟨1, one_pos, by simp⟩
    | cons e args ih =>
      intro h
      obtain ⟨a, ha, h1⟩ := h e (by simp)
      obtain ⟨b, hb, h2⟩ := ih fun e he => h e (by simp [he])
      refine ⟨min a b, lt_min ha hb, fun e' he' n hn => ?_⟩
      rcases List.mem_cons.1 he' with rfl | he'
      · exact hmono n _ _ (min_le_left _ _) (h1 n hn)
      · exact hmono n _ _ (min_le_right _ _) (h2 e' he' n hn)
  induction hp with
  | pred n op c =>
    obtain ⟨a, ha, h1⟩ := h n (.pred op _)
    exact ⟨a, ha, fun m hm => by cases hm; exact h1⟩
  | not _ ih =>
    obtain ⟨a, ha, h1⟩ := ih fun n hn => h n (.not hn)
    exact ⟨a, ha, fun m hm => by cases hm with | not hm => exact h1 m hm⟩
  | and _ _ ih =>
    obtain ⟨a, ha, h1⟩ := hlist _ fun e he => ih e he fun n hn => h n (.and he hn)
    exact ⟨a, ha, fun m hm => by cases hm with | and he hm => exact h1 _ he m hm⟩
  | or _ _ ih =>
    obtain ⟨a, ha, h1⟩ := hlist _ fun e he => ih e he fun n hn => h n (.or he hn)
    exact ⟨a, ha, fun m hm => by cases hm with | or he hm => exact h1 _ he m hm⟩
  | always _ _ ih =>
    obtain ⟨a, ha, h1⟩ := ih fun n hn => h n (.always hn)
    exact ⟨a, ha, fun m hm => by cases hm with | always hm => exact h1 m hm⟩
  | eventually _ _ ih =>
    obtain ⟨a, ha, h1⟩ := ih fun n hn => h n (.eventually hn)
    exact ⟨a, ha, fun m hm => by cases hm with | eventually hm => exact h1 m hm⟩
  | untl _ _ _ ih1 ih2 =>
    obtain ⟨a, ha, h1⟩ := ih1 fun n hn => h n (.untl_left hn)
    obtain ⟨b, hb, h2⟩ := ih2 fun n hn => h n (.untl_right hn)
    refine ⟨min a b, lt_min ha hb, fun m hm => ?_⟩
    cases hm with
    | untl_left hm => exact hmono m _ _ (min_le_left _ _) (h1 m hm)
    | untl_right hm => exact hmono m _ _ (min_le_right _ _) (h2 m hm)

/-- **C81.** For continuous signals the computed robustness converges to the quantitative semantics, uniformly in
time, as the sampling gets finer: for every `ε > 0` there is a distance `h` such that the error is at most `ε` at
every time for every trace of samples at most `h` apart. -/
theorem C81_converges (t0 T : ℝ) (f : String → ℝ → ℝ) (d : Nat) (phi : Expr ℝ) (hp : Nested d phi)
    (hf : ∀ n, Uses n phi → ContinuousOn (f n) (Set.Icc t0 T)) (ε : ℝ) (hε : 0 < ε) :
    ∃ h > 0, ∀ (nd : Bool) (fuel : Nat) (trace : Trace ℝ) (sy : Bool), Samples trace t0 T h f phi →
      ∃ z zs, computeRobustness nd fuel phi trace sy = .ok z ∧ Represents z zs ∧ dom zs = Set.Icc t0 T ∧
        ∀ t ∈ Set.Icc t0 T, ∃ r : ℝ, rob T f phi t = r ∧ |eval zs t - r| ≤ ε := by
  set δ := ε / (d / 4 + 1) with hδ
  have hden : (0 : ℝ) < d / 4 + 1 := by positivity
  have hδ0 : 0 < δ := div_pos hε hden
  obtain ⟨h, hh, hm⟩ := uses_uniform (P := fun n h => Modulus t0 T h δ (f n))
    (fun n a b hab hb s hs t ht hst => hb s hs t ht (hst.trans hab)) hp.plain (by
      intro n hn
      have hu := isCompact_Icc.uniformContinuousOn_of_continuous (hf n hn)
      rw [Metric.uniformContinuousOn_iff] at hu
      obtain ⟨a, ha, h1⟩ := hu δ hδ0
      refine ⟨a / 2, by linarith, fun s hs t ht hst => ?_⟩
      have := h1 t ht s hs (by rw [Real.dist_eq]; linarith)
      rw [Real.dist_eq] at this
      exact this.le)
  refine ⟨h, hh, fun nd fuel trace sy hs => ?_⟩
  obtain ⟨z, zs, e, hz, hd, -, hn, -⟩ := sampling_core nd fuel trace sy t0 T h δ δ hδ0.le f d phi hp hm hs
    fun n hn ts hg hi t ht => sampled_close (hm n hn) hg hh.le hi ht
  refine ⟨z, zs, e, hz, hd, fun t ht => ?_⟩
  obtain ⟨r, hr, hb⟩ := (hn t ht).real
  refine ⟨r, hr, hb.trans (le_of_eq ?_)⟩
  rw [hδ]; field_simp

/-! ## Concrete cases -/

/-- `G F (x >= 0)`. -/
noncomputable def smpPhi : Expr ℝ :=
  .always (.eventually (.pred "x" .GE (.fin 0)) ⟨.dbl 0, .dbl .pinf⟩) ⟨.dbl 0, .dbl .pinf⟩

theorem smpPhi_nested : Nested 2 smpPhi := .always (.eventually (.pred _ _ _ _))

theorem smpPhi_uses {n : String} (h : Uses n smpPhi) : n = "x" := by
  cases h with | always h => cases h with | eventually h => cases h; rfl

example : Nested 2 smpPhi ∧ Aligned realTrace 0 (fun _ => [(0, 1), (1, 5), (2, 3)]) smpPhi ∧
    (∀ n, Uses n smpPhi → dom [((0 : ℝ), (1 : ℝ)), (1, 5), (2, 3)] = Set.Icc 0 2) ∧
    StepAtMost (4 : ℝ) [((0 : ℝ), (1 : ℝ)), (1, 5), (2, 3)] :=
  ⟨smpPhi_nested, realTrace_aligned _ fun _ h => smpPhi_uses h, fun _ _ => realTrace_dom, by
    unfold StepAtMost
    simp only [List.isChain_cons_cons, List.isChain_singleton, and_true]
    norm_num⟩

/-- The signal `x(t) = t` over `[0, 2]`, sampled at 0, 1 and 2. -/
example : Samples [("x", ofPts [(0, 0), (1, 1), (2, 2)])] 0 2 1 (fun _ t => t) smpPhi ∧
    (∀ n, Uses n smpPhi → ∀ s ∈ Set.Icc (0 : ℝ) 2, ∀ t ∈ Set.Icc (0 : ℝ) 2, |t - s| ≤ 1 * |t - s|) ∧
    ContinuousOn (fun t : ℝ => t) (Set.Icc 0 2) := by
  refine ⟨fun n hn => ?_, fun _ _ s _ t _ => by rw [one_mul], continuousOn_id⟩
  obtain rfl := smpPhi_uses hn
  refine ⟨_, [0, 1, 2], rfl, represents_ofPts ?_, rfl, rfl, ?_⟩
  · unfold Increasing; norm_num
  · simp only [List.isChain_cons_cons, List.isChain_singleton, and_true]
    norm_num

end Verif
