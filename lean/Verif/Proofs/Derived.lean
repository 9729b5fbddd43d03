import Verif.Proofs.Meaning
import Verif.Props.Rewrite
import Verif.Props.Totality

/-! # The values of what `~`, `&` and `|` build -/

set_option linter.unusedSectionVars false

namespace Verif
open Spec

variable {K : Type} [Field K] [LinearOrder K] [IsStrictOrderedRing K] [Arith K] [ExactArith K]

/-- A formula without constants whose signals all start at `t0`. -/
def Nice (trace : Trace K) (t0 : K) (e : Expr K) : Prop :=
  Plain e ∧ ∀ n, Uses n e → ∃ x pts, trace.lookup n = some x ∧ Represents x pts ∧ ∃ v r, pts = (t0, v) :: r

section
variable {nd : Bool} {fuel : Nat} {trace : Trace K} {sy : Bool} {t0 : K}

theorem Nice.evals {e : Expr K} (h : Nice trace t0 e) (nd : Bool) (fuel : Nat) (sy : Bool) :
    ∃ zs z, computeRobustness nd fuel e trace sy = .ok z ∧ Represents z zs ∧ ∃ v r, zs = (t0, v) :: r := by
  have : ∀ n, ∃ pts : List (K × K), Uses n e → ∃ x, trace.lookup n = some x ∧ Represents x pts ∧ ∃ v r, pts = (t0, v) :: r := by
    intro n
    by_cases hu : Uses n e
    · obtain ⟨x, pts, h1⟩ := h.2 n hu
      exact ⟨pts, fun _ => ⟨x, h1⟩⟩
    · exact ⟨[], fun hc => absurd hc hu⟩
  choose sig hs using this
  obtain ⟨z, zs, h1, h2, h3, -⟩ := C34_total nd fuel trace sy t0 sig e h.1 hs
  exact ⟨zs, z, h1, h2, h3⟩

/-- The points of the robustness of a formula. -/
noncomputable def ptsOf (nd : Bool) (fuel : Nat) (trace : Trace K) (sy : Bool) (t0 : K) (e : Expr K) : List (K × K) :=
  open Classical in if h : Nice trace t0 e then (h.evals nd fuel sy).choose else []

theorem ptsOf_evals {e : Expr K} (h : Nice trace t0 e) :
    EvalsTo nd fuel trace sy t0 (ptsOf nd fuel trace sy t0) e := by
  unfold EvalsTo ptsOf
  simp only [h, dif_pos]
  exact (h.evals nd fuel sy).choose_spec

local notation "pt" => ptsOf nd fuel trace sy t0

theorem Nice.not {e : Expr K} (h : Nice trace t0 e) : Nice trace t0 (.not e) :=
  ⟨.not h.1, fun n hn => by cases hn with | not hn => exact h.2 n hn⟩

theorem not_val {e : Expr K} (h : Nice trace t0 e) :
    dom (pt (.not e)) = dom (pt e) ∧ ∀ t, eval (pt (.not e)) t = -eval (pt e) t := by
  obtain ⟨x, h1, h2, h3⟩ := ptsOf_evals (nd := nd) (fuel := fuel) (sy := sy) h
  obtain ⟨y, h4, h5, h6⟩ := ptsOf_evals (nd := nd) (fuel := fuel) (sy := sy) h.not
  obtain ⟨i1, rfl⟩ := (represents_iff _ _).1 h2
  rw [C21_not_negates, h1] at h4
  have : y = ofPts (negPts (pt e)) := by
    have := Outcome.ok.inj h4
    rw [← this]; exact negSig_ofPts i1
  rw [this] at h5
  have e1 := represents_inj h5 (represents_ofPts (increasing_negPts.2 i1))
  rw [e1]
  exact ⟨Set.ext fun t => by rw [dom_negPts], fun t => eval_negPts _ _⟩

theorem Nice.and_mem {as : List (Expr K)} (h : Nice trace t0 (.and as)) : ∀ e ∈ as, Nice trace t0 e := by
  intro e he
  refine ⟨?_, fun n hn => h.2 n (.and he hn)⟩
  cases h.1 with
  | and _ h => exact h e he

theorem Nice.or_mem {as : List (Expr K)} (h : Nice trace t0 (.or as)) : ∀ e ∈ as, Nice trace t0 e := by
  intro e he
  refine ⟨?_, fun n hn => h.2 n (.or he hn)⟩
  cases h.1 with
  | or _ h => exact h e he

theorem nice_and {as : List (Expr K)} (h2 : 2 ≤ as.length) (h : ∀ e ∈ as, Nice trace t0 e) : Nice trace t0 (.and as) := by
  refine ⟨.and h2 fun e he => (h e he).1, fun n hn => ?_⟩
  cases hn with
  | and he hn => exact (h _ he).2 n hn

theorem nice_or {as : List (Expr K)} (h2 : 2 ≤ as.length) (h : ∀ e ∈ as, Nice trace t0 e) : Nice trace t0 (.or as) := by
  refine ⟨.or h2 fun e he => (h e he).1, fun n hn => ?_⟩
  cases hn with
  | or he hn => exact (h _ he).2 n hn

theorem and_val {as : List (Expr K)} (h : Nice trace t0 (.and as)) :
    (∀ t, t ∈ dom (pt (.and as)) ↔ ∀ e ∈ as, t ∈ dom (pt e)) ∧
    ∀ t ∈ dom (pt (.and as)), IsLeast {v | ∃ e ∈ as, v = eval (pt e) t} (eval (pt (.and as)) t) := by
  have hne : as ≠ [] := by
    rintro rfl
    cases h.1 with | and h2 _ => simp at h2
  obtain ⟨z, zs, a1, a2, -, a4, a5⟩ := C24_and_nary nd fuel trace sy t0 pt as hne fun e he => ptsOf_evals (h.and_mem e he)
  obtain ⟨z', b1, b2, -⟩ := ptsOf_evals (nd := nd) (fuel := fuel) (sy := sy) h
  rw [a1] at b1
  cases b1
  rw [represents_inj b2 a2]
  exact ⟨a4, a5⟩

theorem or_val {as : List (Expr K)} (h : Nice trace t0 (.or as)) :
    (∀ t, t ∈ dom (pt (.or as)) ↔ ∀ e ∈ as, t ∈ dom (pt e)) ∧
    ∀ t ∈ dom (pt (.or as)), IsGreatest {v | ∃ e ∈ as, v = eval (pt e) t} (eval (pt (.or as)) t) := by
  have hne : as ≠ [] := by
    rintro rfl
    cases h.1 with | or h2 _ => simp at h2
  obtain ⟨z, zs, a1, a2, -, a4, a5⟩ := C24_or_nary nd fuel trace sy t0 pt as hne fun e he => ptsOf_evals (h.or_mem e he)
  obtain ⟨z', b1, b2, -⟩ := ptsOf_evals (nd := nd) (fuel := fuel) (sy := sy) h
  rw [a1] at b1
  cases b1
  rw [represents_inj b2 a2]
  exact ⟨a4, a5⟩

theorem least_union {S S' U : Set K} {m m' u : K} (h : IsLeast S m) (h' : IsLeast S' m') (hU : IsLeast U u)
    (e : U = S ∪ S') : u = min m m' := hU.unique (e ▸ h.union h')

theorem greatest_union {S S' U : Set K} {m m' u : K} (h : IsGreatest S m) (h' : IsGreatest S' m') (hU : IsGreatest U u)
    (e : U = S ∪ S') : u = max m m' := hU.unique (e ▸ h.union h')

theorem single_least (v : K) : IsLeast {w | w = v} v := ⟨rfl, fun _ h => le_of_eq h.symm⟩
theorem single_greatest (v : K) : IsGreatest {w | w = v} v := ⟨rfl, fun _ h => le_of_eq h⟩

theorem andOp_val {a b r : Expr K} (ha : Nice trace t0 a) (hb : Nice trace t0 b) (h : Expr.andOp a b = .ok r) :
    Nice trace t0 r ∧ dom (pt r) = dom (pt a) ∩ dom (pt b) ∧
      ∀ t ∈ dom (pt r), eval (pt r) t = min (eval (pt a) t) (eval (pt b) t) := by
  cases and_form h with
  | tru => cases ha.1
  | fls => cases ha.1
  | skip => cases hb.1
  | append as bs =>
    have hr : Nice trace t0 (.and (as ++ bs)) := nice_and
      (by cases ha.1 with | and h2 _ => rw [List.length_append]; omega)
      fun e he => (List.mem_append.1 he).elim (ha.and_mem e) (hb.and_mem e)
    obtain ⟨d1, v1⟩ := and_val (nd := nd) (fuel := fuel) (sy := sy) ha
    obtain ⟨d2, v2⟩ := and_val (nd := nd) (fuel := fuel) (sy := sy) hb
    obtain ⟨d3, v3⟩ := and_val (nd := nd) (fuel := fuel) (sy := sy) hr
    have hd : dom (pt (.and (as ++ bs))) = dom (pt (.and as)) ∩ dom (pt (.and bs)) := by
      ext t
      rw [Set.mem_inter_iff, d1, d2, d3]
      simp only [List.mem_append, or_imp, forall_and]
    refine ⟨hr, hd, fun t ht => ?_⟩
    have ht' := hd ▸ ht
    refine least_union (v1 t ht'.1) (v2 t ht'.2) (v3 t ht) ?_
    ext v
    simp only [List.mem_append, Set.mem_union, Set.mem_ofPred_eq, or_and_right, exists_or]
  | snoc as b =>
    have hr : Nice trace t0 (.and (as ++ [b])) := nice_and
      (by cases ha.1 with | and h2 _ => rw [List.length_append]; omega)
      fun e he => (List.mem_append.1 he).elim (ha.and_mem e) fun he => by rw [List.mem_singleton.1 he]; exact hb
    obtain ⟨d1, v1⟩ := and_val (nd := nd) (fuel := fuel) (sy := sy) ha
    obtain ⟨d3, v3⟩ := and_val (nd := nd) (fuel := fuel) (sy := sy) hr
    have hd : dom (pt (.and (as ++ [b]))) = dom (pt (.and as)) ∩ dom (pt b) := by
      ext t
      rw [Set.mem_inter_iff, d1, d3]
      simp only [List.mem_append, List.mem_singleton, or_imp, forall_and, forall_eq]
    refine ⟨hr, hd, fun t ht => ?_⟩
    have ht' := hd ▸ ht
    refine least_union (v1 t ht'.1) (single_least (eval (pt b) t)) (v3 t ht) ?_
    ext v
    simp only [List.mem_append, List.mem_singleton, Set.mem_union, Set.mem_ofPred_eq, or_and_right, exists_or,
      exists_eq_left]
  | pair =>
    have hr : Nice trace t0 (.and [a, b]) := nice_and (by simp) fun e he => by
      simp only [List.mem_cons, List.not_mem_nil, or_false] at he
      rcases he with rfl | rfl
      · exact ha
      · exact hb
    obtain ⟨d3, v3⟩ := and_val (nd := nd) (fuel := fuel) (sy := sy) hr
    have hd : dom (pt (.and [a, b])) = dom (pt a) ∩ dom (pt b) := by
      ext t
      rw [Set.mem_inter_iff, d3]
      simp
    refine ⟨hr, hd, fun t ht => ?_⟩
    refine least_union (single_least (eval (pt a) t)) (single_least (eval (pt b) t)) (v3 t ht) ?_
    ext v
    simp [or_comm]

theorem orOp_val {a b r : Expr K} (ha : Nice trace t0 a) (hb : Nice trace t0 b) (h : Expr.orOp a b = .ok r) :
    Nice trace t0 r ∧ dom (pt r) = dom (pt a) ∩ dom (pt b) ∧
      ∀ t ∈ dom (pt r), eval (pt r) t = max (eval (pt a) t) (eval (pt b) t) := by
  cases or_form h with
  | tru => cases ha.1
  | fls => cases ha.1
  | skip => cases hb.1
  | append as bs =>
    have hr : Nice trace t0 (.or (as ++ bs)) := nice_or
      (by cases ha.1 with | or h2 _ => rw [List.length_append]; omega)
      fun e he => (List.mem_append.1 he).elim (ha.or_mem e) (hb.or_mem e)
    obtain ⟨d1, v1⟩ := or_val (nd := nd) (fuel := fuel) (sy := sy) ha
    obtain ⟨d2, v2⟩ := or_val (nd := nd) (fuel := fuel) (sy := sy) hb
    obtain ⟨d3, v3⟩ := or_val (nd := nd) (fuel := fuel) (sy := sy) hr
    have hd : dom (pt (.or (as ++ bs))) = dom (pt (.or as)) ∩ dom (pt (.or bs)) := by
      ext t
      rw [Set.mem_inter_iff, d1, d2, d3]
      simp only [List.mem_append, or_imp, forall_and]
    refine ⟨hr, hd, fun t ht => ?_⟩
    have ht' := hd ▸ ht
    refine greatest_union (v1 t ht'.1) (v2 t ht'.2) (v3 t ht) ?_
    ext v
    simp only [List.mem_append, Set.mem_union, Set.mem_ofPred_eq, or_and_right, exists_or]
  | snoc as b =>
    have hr : Nice trace t0 (.or (as ++ [b])) := nice_or
      (by cases ha.1 with | or h2 _ => rw [List.length_append]; omega)
      fun e he => (List.mem_append.1 he).elim (ha.or_mem e) fun he => by rw [List.mem_singleton.1 he]; exact hb
    obtain ⟨d1, v1⟩ := or_val (nd := nd) (fuel := fuel) (sy := sy) ha
    obtain ⟨d3, v3⟩ := or_val (nd := nd) (fuel := fuel) (sy := sy) hr
    have hd : dom (pt (.or (as ++ [b]))) = dom (pt (.or as)) ∩ dom (pt b) := by
      ext t
      rw [Set.mem_inter_iff, d1, d3]
      simp only [List.mem_append, List.mem_singleton, or_imp, forall_and, forall_eq]
    refine ⟨hr, hd, fun t ht => ?_⟩
    have ht' := hd ▸ ht
    refine greatest_union (v1 t ht'.1) (single_greatest (eval (pt b) t)) (v3 t ht) ?_
    ext v
    simp only [List.mem_append, List.mem_singleton, Set.mem_union, Set.mem_ofPred_eq, or_and_right, exists_or,
      exists_eq_left]
  | pair =>
    have hr : Nice trace t0 (.or [a, b]) := nice_or (by simp) fun e he => by
      simp only [List.mem_cons, List.not_mem_nil, or_false] at he
      rcases he with rfl | rfl
      · exact ha
      · exact hb
    obtain ⟨d3, v3⟩ := or_val (nd := nd) (fuel := fuel) (sy := sy) hr
    have hd : dom (pt (.or [a, b])) = dom (pt a) ∩ dom (pt b) := by
      ext t
      rw [Set.mem_inter_iff, d3]
      simp
    refine ⟨hr, hd, fun t ht => ?_⟩
    refine greatest_union (single_greatest (eval (pt a) t)) (single_greatest (eval (pt b) t)) (v3 t ht) ?_
    ext v
    simp [or_comm]

theorem plain_not {e : Expr K} (h : Plain e) : Expr.Not e = .not e := by cases h <;> rfl

theorem plain_arity {e : Expr K} (h : Plain e) : Arity e := by
  induction h with
  | pred => constructor
  | not _ ih => exact .not ih
  | and h2 _ ih => exact .and h2 ih
  | or h2 _ ih => exact .or h2 ih
  | always _ _ ih => exact .always ih
  | eventually _ _ ih => exact .eventually ih
  | untl _ _ _ ih ih' => exact .untl ih ih'

theorem andOp_plain {a b : Expr K} (ha : Plain a) (hb : Plain b) : ∃ r, Expr.andOp a b = .ok r :=
  (C46_andOp_partial a b (plain_arity ha)).2 fun h => by rw [h.2] at hb; cases hb

theorem orOp_plain {a b : Expr K} (ha : Plain a) (hb : Plain b) : ∃ r, Expr.orOp a b = .ok r :=
  (C46_orOp_partial a b (plain_arity ha)).2 fun h => by rw [h.2] at hb; cases hb

end

end Verif
