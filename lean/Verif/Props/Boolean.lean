import Verif.Proofs.FinT
import Verif.Model.Exact

/-!
# Predicates and Boolean operators: C20 - C25, C42

Robustness computed by `computeRobustness`.  For finite operand signals the results are compared with
the pointwise operations on the piecewise linear functions (`eval`, `dom`).
-/

set_option linter.unusedSectionVars false

namespace Verif
open Spec

/-! ## C42: well formed results (any rounding) -/

section any
variable {K : Type} [Field K] [LinearOrder K] [Arith K]

/-- **C42.** Whenever `compute_robustness` returns a signal, no timestamp is `<=` its predecessor, the
derivatives are the slopes to the next sample and the last derivative is 0.  For every formula, every
trace (also of signals that are not well formed) and any rounding. -/
theorem C42_robustness_well_formed (nd : Bool) (fuel : Nat) (phi : Expr K) (trace : Trace K)
    (sy : Bool) (z : Signal K) (h : computeRobustness nd fuel phi trace sy = .ok z) :
    Ordered z.samples ∧ Slopes z.samples := compute_wf _ phi z h

/-- A trace used in the examples. -/
def exTrace : Trace ℚ := [("x", ofPts [(0, 0), (2, 4), (4, 0)]), ("y", ofPts [(0, 3), (3, 0), (4, 2)])]

-- the conjunction of x >= 1 and y >= 0, with two crossings inserted
example : computeRobustness false 100 (.and [.pred "x" .GE (.fin 1), .pred "y" .GE 0]) exTrace false =
    .ok (ofPts [(0, -1), (4/3, 5/3), (2, 1), (3, 0), (13/4, 1/2), (4, -1)]) := by decide +kernel

end any

/-! ## C21: negation (sign-symmetric rounding) -/

section odd
variable {K : Type} [Field K] [LinearOrder K] [IsStrictOrderedRing K] [Arith K] [OddArith K]

/-- **C21.** `Not(phi)` succeeds if and only if `phi` does (and fails the same way), and its samples are
those of `phi` with the value and the derivative negated and the same timestamps. -/
theorem C21_not_negates (nd : Bool) (fuel : Nat) (phi : Expr K) (trace : Trace K) (sy : Bool) :
    computeRobustness nd fuel (.not phi) trace sy =
      (computeRobustness nd fuel phi trace sy).map' fun x =>
        ⟨x.samples.map fun a => ⟨a.time, -a.value, -a.derivative⟩⟩ := by
  unfold computeRobustness
  rw [RobustnessOp.compute]
  cases h : RobustnessOp.compute ⟨nd, fuel, (minMaxTime trace).1, (minMaxTime trace).2, trace⟩ phi with
  | ok x => exact negate_wf (compute_wf _ _ _ h)
  | _ => rfl

/-- **C21.** Double negation is the identity on outcomes. -/
theorem C21_not_not (nd : Bool) (fuel : Nat) (phi : Expr K) (trace : Trace K) (sy : Bool) :
    computeRobustness nd fuel (.not (.not phi)) trace sy = computeRobustness nd fuel phi trace sy := by
  rw [C21_not_negates, C21_not_negates]
  cases computeRobustness nd fuel phi trace sy with
  | ok x =>
    simp only [Outcome.map'_ok]
    exact congrArg Outcome.ok (negSig_negSig x)
  | _ => rfl

example : computeRobustness false 100 (.not (.pred "x" .GE (.fin 1))) exTrace false =
    .ok (ofPts [(0, 1), (2, -3), (4, 1)]) := by decide +kernel
-- the special values too: infinities and NaN
example : computeRobustness false 100 (.not (.pred "x" .GE .pinf))
    ([("x", ⟨[⟨.fin 0, .pinf, 0⟩, ⟨.fin 1, .fin 3, 0⟩]⟩)] : Trace ℚ) false =
    .ok ⟨[⟨.fin 0, .nan, .nan⟩, ⟨.fin 1, .pinf, .fin 0⟩]⟩ := by decide +kernel

end odd

section exact
variable {K : Type} [Field K] [LinearOrder K] [IsStrictOrderedRing K] [Arith K] [ExactArith K]

/-! ## C20: predicates -/

theorem eval_affine_map (a b : K) : ∀ (pts : List (K × K)) (t : K), pts ≠ [] →
    eval (pts.map fun p => (p.1, a * p.2 + b)) t = a * eval pts t + b
  | [], _, h => absurd rfl h
  | [p], t, _ => rfl
  | p :: q :: r, t, _ => by
    have ih := eval_affine_map a b (q :: r) t (by simp)
    simp only [List.map_cons] at ih ⊢
    rw [eval, eval]
    split
    · simp only [line]; ring
    · exact ih

theorem ofSamples_pts {xs : List (K × K)} (h : Increasing xs) (s : List (Sample K))
    (hs : s.map tv = xs.map lift) : Signal.ofSamples s = .ok (ofPts xs) := by
  rw [ofSamples_ok_iff]
  refine ⟨?_, ?_⟩
  · rw [hs]; exact (incr_lift xs).2 h
  · rw [hs]; rfl

theorem lookup_at {trace : Trace K} {name : String} {x : Signal K}
    (h : trace.lookup name = some x) : trace.at_ name = .ok x := by
  unfold Trace.at_; rw [h]

/-- **C20.** The robustness of a predicate over a finite signal `x`: same timestamps, and at every time
`t` of the domain the value is `x(t) - c` for `>=`, `>` and `c - x(t)` for `<=`, `<`. -/
theorem C20_predicate (nd : Bool) (fuel : Nat) (trace : Trace K) (sy : Bool) (name : String)
    (op : ComparisonOp) (c : K) (x : Signal K) (xs : List (K × K))
    (hx : trace.lookup name = some x) (hr : Represents x xs) :
    ∃ z zs, computeRobustness nd fuel (.pred name op (.fin c)) trace sy = .ok z ∧ Represents z zs ∧
      zs.map Prod.fst = xs.map Prod.fst ∧ dom zs = dom xs ∧
      ∀ t ∈ dom xs, eval zs t =
        (match op with
         | .GE | .GT => eval xs t - c
         | .LE | .LT => c - eval xs t) := by
  obtain ⟨hinc, rfl⟩ := (represents_iff _ _).1 hr
  obtain ⟨a, b, hab⟩ : ∃ a b : K, (∀ v : K, RobustnessOp.predValue op (.fin c) (.fin v) = .fin (a * v + b)) ∧
      ∀ v : K, (match op with
         | .GE | .GT => v - c
         | .LE | .LT => c - v) = a * v + b := by
    cases op
    · exact ⟨1, -c, by intro v; simp [RobustnessOp.predValue]; ring, by intro v; simp; ring⟩
    · exact ⟨1, -c, by intro v; simp [RobustnessOp.predValue]; ring, by intro v; simp; ring⟩
    · exact ⟨-1, c, by intro v; simp [RobustnessOp.predValue]; ring, by intro v; simp; ring⟩
    · exact ⟨-1, c, by intro v; simp [RobustnessOp.predValue]; ring, by intro v; simp; ring⟩
  set zs : List (K × K) := xs.map fun p => (p.1, a * p.2 + b) with hzs
  have ht : zs.map Prod.fst = xs.map Prod.fst := by simp [hzs, Function.comp_def]
  have hz : Increasing zs := by unfold Increasing; rw [ht]; exact hinc
  refine ⟨ofPts zs, zs, ?_, represents_ofPts hz, ht, dom_map_snd xs fun p => a * p.2 + b, ?_⟩
  · unfold computeRobustness
    rw [RobustnessOp.compute, RobustnessOp.pred, lookup_at hx, Outcome.bind_ok]
    apply ofSamples_pts hz
    have h2 := hr.2
    simp only [List.map_map, Function.comp_def, tv]
    have h3 : List.map (fun x => ((x.time, RobustnessOp.predValue op (.fin c) x.value) : D K × D K)) (ofPts xs).samples =
        ((ofPts xs).samples.map tv).map fun p => (p.1, RobustnessOp.predValue op (.fin c) p.2) := by
      simp [tv]
    rw [h3, h2]
    simp [hzs, lift, hab.1]
  · intro t htd
    have hne : xs ≠ [] := by rintro rfl; simp [dom] at htd
    rw [hab.2 (eval xs t), hzs, eval_affine_map a b xs t hne]

example : computeRobustness false 100 (.pred "y" .LT (.fin 1)) exTrace false =
    .ok (ofPts [(0, -2), (3, 1), (4, -1)]) := by decide +kernel

/-! ## C22, C23: binary conjunction and disjunction -/

theorem compute_and_pair {r : RobustnessOp K} {phi psi : Expr K} {x y : Signal K}
    (h1 : r.compute phi = .ok x) (h2 : r.compute psi = .ok y) :
    r.compute (.and [phi, psi]) = minmaxPair r.ndebug Sample.le x y false := by
  rw [RobustnessOp.compute]
  simp [RobustnessOp.computeArgs, h1, h2, assert_, elementwiseMin, minmaxVec]

theorem compute_or_pair {r : RobustnessOp K} {phi psi : Expr K} {x y : Signal K}
    (h1 : r.compute phi = .ok x) (h2 : r.compute psi = .ok y) :
    r.compute (.or [phi, psi]) = minmaxPair r.ndebug Sample.ge x y false := by
  rw [RobustnessOp.compute]
  simp [RobustnessOp.computeArgs, h1, h2, assert_, elementwiseMax, minmaxVec]

/-- **C22.** Conjunction is the pointwise minimum in dense time: if the operands are finite signals and
the conjunction succeeds, its domain is the common domain and at every time there the value is the
minimum. -/
theorem C22_and_is_min (nd : Bool) (fuel : Nat) (trace : Trace K) (sy : Bool) (phi psi : Expr K)
    (x y z : Signal K) (xs ys : List (K × K))
    (h1 : computeRobustness nd fuel phi trace sy = .ok x) (hx : Represents x xs)
    (h2 : computeRobustness nd fuel psi trace sy = .ok y) (hy : Represents y ys)
    (h3 : computeRobustness nd fuel (.and [phi, psi]) trace sy = .ok z) :
    ∃ zs, Represents z zs ∧ dom zs = dom xs ∩ dom ys ∧
      ∀ t ∈ dom zs, eval zs t = min (eval xs t) (eval ys t) := by
  obtain ⟨ix, rfl⟩ := (represents_iff _ _).1 hx
  obtain ⟨iy, rfl⟩ := (represents_iff _ _).1 hy
  unfold computeRobustness at h1 h2 h3
  rw [compute_and_pair h1 h2] at h3
  obtain ⟨b, hb1, hb2, hb3⟩ := minmaxPair_ok_common ix iy h3
  obtain ⟨zs, e, hz, hd, hv⟩ := minmaxPair_le_fin nd ix iy b hb1 hb2 hb3
  rw [h3] at e
  simp only [Outcome.ok.injEq] at e
  exact ⟨zs, (represents_iff _ _).2 ⟨hz, e⟩, Set.ext hd, hv⟩

/-- **C23.** Disjunction is the pointwise maximum in dense time. -/
theorem C23_or_is_max (nd : Bool) (fuel : Nat) (trace : Trace K) (sy : Bool) (phi psi : Expr K)
    (x y z : Signal K) (xs ys : List (K × K))
    (h1 : computeRobustness nd fuel phi trace sy = .ok x) (hx : Represents x xs)
    (h2 : computeRobustness nd fuel psi trace sy = .ok y) (hy : Represents y ys)
    (h3 : computeRobustness nd fuel (.or [phi, psi]) trace sy = .ok z) :
    ∃ zs, Represents z zs ∧ dom zs = dom xs ∩ dom ys ∧
      ∀ t ∈ dom zs, eval zs t = max (eval xs t) (eval ys t) := by
  obtain ⟨ix, rfl⟩ := (represents_iff _ _).1 hx
  obtain ⟨iy, rfl⟩ := (represents_iff _ _).1 hy
  unfold computeRobustness at h1 h2 h3
  rw [compute_or_pair h1 h2] at h3
  obtain ⟨b, hb1, hb2, hb3⟩ := minmaxPair_ok_common ix iy h3
  obtain ⟨zs, e, hz, hd, hv⟩ := minmaxPair_ge_fin nd ix iy b hb1 hb2 hb3
  rw [h3] at e
  simp only [Outcome.ok.injEq] at e
  exact ⟨zs, (represents_iff _ _).2 ⟨hz, e⟩, Set.ext hd, hv⟩

/-- When do they succeed?  Iff both operands have a sample at the begin of the common domain. -/
theorem C22_C23_success (nd : Bool) (fuel : Nat) (trace : Trace K) (sy : Bool) (phi psi : Expr K)
    (x y : Signal K) (xs ys : List (K × K))
    (h1 : computeRobustness nd fuel phi trace sy = .ok x) (hx : Represents x xs)
    (h2 : computeRobustness nd fuel psi trace sy = .ok y) (hy : Represents y ys) :
    ((∃ z, computeRobustness nd fuel (.and [phi, psi]) trace sy = .ok z) ↔
      ∃ b, b ∈ xs.map Prod.fst ∧ b ∈ ys.map Prod.fst ∧ ∀ t ∈ dom xs ∩ dom ys, b ≤ t) ∧
    ((∃ z, computeRobustness nd fuel (.or [phi, psi]) trace sy = .ok z) ↔
      ∃ b, b ∈ xs.map Prod.fst ∧ b ∈ ys.map Prod.fst ∧ ∀ t ∈ dom xs ∩ dom ys, b ≤ t) := by
  obtain ⟨ix, rfl⟩ := (represents_iff _ _).1 hx
  obtain ⟨iy, rfl⟩ := (represents_iff _ _).1 hy
  unfold computeRobustness at h1 h2 ⊢
  rw [compute_and_pair h1 h2, compute_or_pair h1 h2]
  refine ⟨⟨fun ⟨z, h⟩ => minmaxPair_ok_common ix iy h, fun ⟨b, hb1, hb2, hb3⟩ => ?_⟩,
    ⟨fun ⟨z, h⟩ => minmaxPair_ok_common ix iy h, fun ⟨b, hb1, hb2, hb3⟩ => ?_⟩⟩
  · obtain ⟨zs, e, -⟩ := minmaxPair_le_fin nd ix iy b hb1 hb2 hb3
    exact ⟨_, e⟩
  · obtain ⟨zs, e, -⟩ := minmaxPair_ge_fin nd ix iy b hb1 hb2 hb3
    exact ⟨_, e⟩

example : computeRobustness false 100 (.or [.pred "x" .GE (.fin 1), .pred "y" .GE 0]) exTrace false =
    .ok (ofPts [(0, 3), (4/3, 5/3), (2, 3), (3, 1), (13/4, 1/2), (4, 2)]) := by decide +kernel

/-! ## C24: n-ary -/

/-- The operand `e` evaluates to a finite signal with points `p e` that starts at `t0`. -/
def EvalsTo (nd : Bool) (fuel : Nat) (trace : Trace K) (sy : Bool) (t0 : K) (p : Expr K → List (K × K))
    (e : Expr K) : Prop :=
  ∃ x, computeRobustness nd fuel e trace sy = .ok x ∧ Represents x (p e) ∧ ∃ v r, p e = (t0, v) :: r

theorem computeArgs_evalsTo {r : RobustnessOp K} (p : Expr K → List (K × K)) (t0 : K) :
    ∀ args : List (Expr K),
    (∀ e ∈ args, ∃ x, r.compute e = .ok x ∧ Represents x (p e) ∧ ∃ v r, p e = (t0, v) :: r) →
    r.computeArgs args = .ok ((args.map p).map ofPts) := by
  intro args
  induction args with
  | nil => intro _; rfl
  | cons e args ih =>
    intro h
    obtain ⟨x, h1, h2, -⟩ := h e (by simp)
    rw [RobustnessOp.computeArgs, h1, ih (fun e' he' => h e' (by simp [he']))]
    simp [((represents_iff _ _).1 h2).2]

theorem nary_facts {r : RobustnessOp K} {p : Expr K → List (K × K)} {t0 : K} {args : List (Expr K)}
    (h : ∀ e ∈ args, ∃ x, r.compute e = .ok x ∧ Represents x (p e) ∧ ∃ v r, p e = (t0, v) :: r) :
    ∀ l ∈ args.map p, Increasing l ∧ StartsAt t0 l := by
  intro l hl
  obtain ⟨e, he, rfl⟩ := List.mem_map.1 hl
  obtain ⟨x, -, h2, h3⟩ := h e he
  exact ⟨((represents_iff _ _).1 h2).1, h3⟩

/-- **C24.** And of any number (at least one) of finite operands starting at the same time `t0`: it
succeeds, the domain is the intersection of the domains, and the value at every time is the least of
the values of the operands. -/
theorem C24_and_nary (nd : Bool) (fuel : Nat) (trace : Trace K) (sy : Bool) (t0 : K)
    (p : Expr K → List (K × K)) (args : List (Expr K)) (hne : args ≠ [])
    (h : ∀ e ∈ args, EvalsTo nd fuel trace sy t0 p e) :
    ∃ z zs, computeRobustness nd fuel (.and args) trace sy = .ok z ∧ Represents z zs ∧
      (∃ v r, zs = (t0, v) :: r) ∧
      (∀ t, t ∈ dom zs ↔ ∀ e ∈ args, t ∈ dom (p e)) ∧
      ∀ t ∈ dom zs, IsLeast {v | ∃ e ∈ args, v = eval (p e) t} (eval zs t) := by
  cases args with
  | nil => exact absurd rfl hne
  | cons e args =>
    have hf := nary_facts h
    obtain ⟨zs, e1, hz, hs, hd, hv⟩ := minmaxVec_fin (pairOp_le nd) t0 (args.map p) (p e) hf
    refine ⟨ofPts zs, zs, ?_, represents_ofPts hz, hs, ?_, ?_⟩
    · unfold computeRobustness
      rw [RobustnessOp.compute, computeArgs_evalsTo p t0 (e :: args) h]
      simp only [Outcome.bind_ok, List.length_map, assert_, beq_self_eq_true, Bool.or_true, if_true,
        elementwiseMin]
      exact e1
    · intro t; rw [hd]; simp
    · intro t ht
      rw [hv t ht]
      have := foldl_min_isLeast (fun l => eval l t) (args.map p) (eval (p e) t)
      convert this using 2
      ext v
      simp [eq_comm]

/-- **C24.** The same for Or and the greatest value. -/
theorem C24_or_nary (nd : Bool) (fuel : Nat) (trace : Trace K) (sy : Bool) (t0 : K)
    (p : Expr K → List (K × K)) (args : List (Expr K)) (hne : args ≠ [])
    (h : ∀ e ∈ args, EvalsTo nd fuel trace sy t0 p e) :
    ∃ z zs, computeRobustness nd fuel (.or args) trace sy = .ok z ∧ Represents z zs ∧
      (∃ v r, zs = (t0, v) :: r) ∧
      (∀ t, t ∈ dom zs ↔ ∀ e ∈ args, t ∈ dom (p e)) ∧
      ∀ t ∈ dom zs, IsGreatest {v | ∃ e ∈ args, v = eval (p e) t} (eval zs t) := by
  cases args with
  | nil => exact absurd rfl hne
  | cons e args =>
    have hf := nary_facts h
    obtain ⟨zs, e1, hz, hs, hd, hv⟩ := minmaxVec_fin (pairOp_ge nd) t0 (args.map p) (p e) hf
    refine ⟨ofPts zs, zs, ?_, represents_ofPts hz, hs, ?_, ?_⟩
    · unfold computeRobustness
      rw [RobustnessOp.compute, computeArgs_evalsTo p t0 (e :: args) h]
      simp only [Outcome.bind_ok, List.length_map, assert_, beq_self_eq_true, Bool.or_true, if_true,
        elementwiseMax]
      exact e1
    · intro t; rw [hd]; simp
    · intro t ht
      rw [hv t ht]
      have := foldl_max_isGreatest (fun l => eval l t) (args.map p) (eval (p e) t)
      convert this using 2
      ext v
      simp [eq_comm]

/-- **C24.** Permuting the operands changes neither the domain nor the value at any time. -/
theorem C24_order_independent (nd : Bool) (fuel : Nat) (trace : Trace K) (sy : Bool) (t0 : K)
    (p : Expr K → List (K × K)) (args args' : List (Expr K)) (hne : args ≠ []) (hp : args.Perm args')
    (h : ∀ e ∈ args, EvalsTo nd fuel trace sy t0 p e) :
    (∃ z zs z' zs', computeRobustness nd fuel (.and args) trace sy = .ok z ∧ Represents z zs ∧
      computeRobustness nd fuel (.and args') trace sy = .ok z' ∧ Represents z' zs' ∧
      dom zs = dom zs' ∧ ∀ t ∈ dom zs, eval zs t = eval zs' t) ∧
    (∃ z zs z' zs', computeRobustness nd fuel (.or args) trace sy = .ok z ∧ Represents z zs ∧
      computeRobustness nd fuel (.or args') trace sy = .ok z' ∧ Represents z' zs' ∧
      dom zs = dom zs' ∧ ∀ t ∈ dom zs, eval zs t = eval zs' t) := by
  have hne' : args' ≠ [] := by rintro rfl; exact hne hp.eq_nil
  have h' : ∀ e ∈ args', EvalsTo nd fuel trace sy t0 p e := fun e he => h e (hp.mem_iff.2 he)
  constructor
  · obtain ⟨z, zs, a1, a2, -, a3, a4⟩ := C24_and_nary nd fuel trace sy t0 p args hne h
    obtain ⟨z', zs', b1, b2, -, b3, b4⟩ := C24_and_nary nd fuel trace sy t0 p args' hne' h'
    have hd : dom zs = dom zs' := by ext t; rw [a3, b3]; simp [hp.mem_iff]
    refine ⟨z, zs, z', zs', a1, a2, b1, b2, hd, fun t ht => ?_⟩
    have h1 := a4 t ht
    have h2 := b4 t (hd ▸ ht)
    simp only [← hp.mem_iff] at h2
    exact h1.unique h2
  · obtain ⟨z, zs, a1, a2, -, a3, a4⟩ := C24_or_nary nd fuel trace sy t0 p args hne h
    obtain ⟨z', zs', b1, b2, -, b3, b4⟩ := C24_or_nary nd fuel trace sy t0 p args' hne' h'
    have hd : dom zs = dom zs' := by ext t; rw [a3, b3]; simp [hp.mem_iff]
    refine ⟨z, zs, z', zs', a1, a2, b1, b2, hd, fun t ht => ?_⟩
    have h1 := a4 t ht
    have h2 := b4 t (hd ▸ ht)
    simp only [← hp.mem_iff] at h2
    exact h1.unique h2

-- three operands
example : computeRobustness false 100
    (.and [.pred "x" .GE (.fin 1), .pred "y" .GE 0, .pred "x" .LE (.fin 3)]) exTrace false =
    .ok (ofPts [(0, -1), (1, 1), (4/3, 1/3), (2, -1), (8/3, 1/3), (3, 0), (13/4, 1/2), (4, -1)]) := by decide +kernel

/-! ## C25: De Morgan -/

/-- All timestamps of the trace are finite. -/
def FiniteTimes (trace : Trace K) : Prop :=
  ∀ e ∈ trace, ∀ a ∈ e.2.samples, ∃ t : K, a.time = .fin t

/-- **C25.** `Not(And(a, b, ...))` and `Or(Not(a), Not(b), ...)` have the same outcome (the same samples,
or the same failure), and dually.  The operands are arbitrary formulas (with any number of operands,
values possibly infinite or NaN); only the timestamps of the trace have to be finite. -/
theorem C25_de_morgan (nd : Bool) (fuel : Nat) (trace : Trace K) (sy : Bool) (ht : FiniteTimes trace)
    (args : List (Expr K)) (hne : args ≠ []) :
    computeRobustness nd fuel (.not (.and args)) trace sy =
        computeRobustness nd fuel (.or (args.map .not)) trace sy ∧
      computeRobustness nd fuel (.not (.or args)) trace sy =
        computeRobustness nd fuel (.and (args.map .not)) trace sy := by
  rw [C21_not_negates, C21_not_negates]
  have h := compute_de_morgan ⟨nd, fuel, (minMaxTime trace).1, (minMaxTime trace).2, trace⟩ ht
    (minMaxTime_fin ht) args hne
  exact ⟨h.1.symm, h.2.symm⟩

example : FiniteTimes exTrace := by
  unfold FiniteTimes exTrace
  simp [ofPts, build, lift]
-- temporal operands, a crossing inserted
example : computeRobustness false 100
    (.or [.not (.always (.pred "x" .GE (.fin 1)) Interval.default), .not (.pred "y" .GE (.fin 1))])
      exTrace false =
    .ok (ofPts [(0, 1), (2, 1), (3, 1), (4, 1)]) := by decide +kernel
/-- With an empty list of operands (which the constructors refuse) the law fails: both operators give
-inf. -/
example : computeRobustness false 100 (.not (.and [])) exTrace false ≠
    computeRobustness false 100 (.or []) exTrace false := by decide +kernel

end exact
end Verif
