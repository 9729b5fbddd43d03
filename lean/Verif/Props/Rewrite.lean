import Verif.Spec.Poly
import Verif.Props.Boolean
import Verif.Proofs.Temporal

/-!
# Rewriting with the laws of minimum and maximum: C87
-/

set_option linter.unusedSectionVars false

namespace Verif
open Spec

section exact
variable {K : Type} [Field K] [LinearOrder K] [IsStrictOrderedRing K] [Arith K] [ExactArith K]

theorem represents_inj {z : Signal K} {a b : List (K × K)} (ha : Represents z a) (hb : Represents z b) : a = b :=
  List.map_injective_iff.2 lift_injective (ha.2.symm.trans hb.2)

theorem substs_eq (σ : ℕ → Expr K) (l : List Poly) : Poly.substs σ l = l.map (Poly.subst σ) := by
  induction l with
  | nil => rfl
  | cons F l ih => rw [Poly.substs, ih, List.map_cons]

theorem vals_eq (f : ℕ → K) (l : List Poly) : Poly.vals f l = l.map (Poly.val f) := by
  induction l with
  | nil => rfl
  | cons F l ih => rw [Poly.vals, ih, List.map_cons]

theorem foldl_min_least : ∀ (l : List K) (a : K), IsLeast {v | v ∈ a :: l} (l.foldl min a) := by
  intro l
  induction l with
  | nil => intro a; exact ⟨by simp, fun v hv => by simp at hv; exact hv.ge⟩
  | cons b l ih =>
    intro a
    obtain ⟨h1, h2⟩ := ih (min a b)
    rw [List.foldl_cons]
    refine ⟨?_, fun v hv => ?_⟩
    · rcases List.mem_cons.1 h1 with h | h
      · rw [h]; rcases le_total a b with h | h <;> simp [h]
      · show _ ∈ a :: b :: l
        simp [h]
    · have hm : l.foldl min (min a b) ≤ min a b := h2 (by simp)
      rcases List.mem_cons.1 hv with rfl | hv
      · exact hm.trans (min_le_left _ _)
      · rcases List.mem_cons.1 hv with rfl | hv
        · exact hm.trans (min_le_right _ _)
        · exact h2 (List.mem_cons_of_mem _ hv)

theorem foldl_max_greatest : ∀ (l : List K) (a : K), IsGreatest {v | v ∈ a :: l} (l.foldl max a) := by
  intro l
  induction l with
  | nil => intro a; exact ⟨by simp, fun v hv => by simp at hv; exact hv.le⟩
  | cons b l ih =>
    intro a
    obtain ⟨h1, h2⟩ := ih (max a b)
    rw [List.foldl_cons]
    refine ⟨?_, fun v hv => ?_⟩
    · rcases List.mem_cons.1 h1 with h | h
      · rw [h]; rcases le_total a b with h | h <;> simp [h]
      · show _ ∈ a :: b :: l
        simp [h]
    · have hm : max a b ≤ l.foldl max (max a b) := h2 (by simp)
      rcases List.mem_cons.1 hv with rfl | hv
      · exact (le_max_left _ _).trans hm
      · rcases List.mem_cons.1 hv with rfl | hv
        · exact (le_max_right _ _).trans hm
        · exact h2 (List.mem_cons_of_mem _ hv)

/-- **C87.** A term of Not, And and Or over formulas with finite robustness signals that start at the same
time is evaluated, on the intersection of the domains of its variables, to the value of the term at each
instant. -/
theorem C87_value (nd : Bool) (fuel : Nat) (trace : Trace K) (sy : Bool) (t0 : K) (σ : ℕ → Expr K)
    (pts : ℕ → List (K × K)) (F : Poly)
    (h : ∀ i, F.Occurs i → ∃ x, computeRobustness nd fuel (σ i) trace sy = .ok x ∧ Represents x (pts i) ∧
      ∃ v r, pts i = (t0, v) :: r) :
    ∃ z zs, computeRobustness nd fuel (F.subst σ) trace sy = .ok z ∧ Represents z zs ∧
      (∃ v r, zs = (t0, v) :: r) ∧
      (∀ t, t ∈ dom zs ↔ ∀ i, F.Occurs i → t ∈ dom (pts i)) ∧
      ∀ t ∈ dom zs, eval zs t = F.val fun i => eval (pts i) t := by
  induction F using Poly.ind with
  | var i =>
    obtain ⟨x, h1, h2, h3⟩ := h i .var
    refine ⟨x, pts i, h1, h2, h3, fun t => ⟨fun ht j hj => ?_, fun ht => ht i .var⟩, fun t _ => ?_⟩
    · cases hj; exact ht
    · rw [Poly.val]
  | not F ih =>
    obtain ⟨z, zs, h1, h2, ⟨v, r, h3⟩, h4, h5⟩ := ih fun i hi => h i (.not hi)
    obtain ⟨i1, rfl⟩ := (represents_iff _ _).1 h2
    refine ⟨ofPts (negPts zs), negPts zs, ?_, represents_ofPts (increasing_negPts.2 i1), ?_, fun t => ?_, fun t ht => ?_⟩
    · rw [Poly.subst, C21_not_negates, h1]; exact congrArg Outcome.ok (negSig_ofPts i1)
    · exact ⟨-v, negPts r, by rw [h3]; rfl⟩
    · rw [dom_negPts, h4]
      exact ⟨fun h i hi => by cases hi with | not hi => exact h i hi, fun h i hi => h i (.not hi)⟩
    · rw [dom_negPts] at ht
      rw [eval_negPts, h5 t ht, Poly.val]
  | and F l ihF ihl =>
    have ih : ∀ G ∈ F :: l, ∃ z zs, computeRobustness nd fuel (G.subst σ) trace sy = .ok z ∧ Represents z zs ∧
        (∃ v r, zs = (t0, v) :: r) ∧ (∀ t, t ∈ dom zs ↔ ∀ i, G.Occurs i → t ∈ dom (pts i)) ∧
        ∀ t ∈ dom zs, eval zs t = G.val fun i => eval (pts i) t := by
      intro G hG
      rcases List.mem_cons.1 hG with rfl | hG
      · exact ihF fun i hi => h i (.and_head hi)
      · exact ihl G hG fun i hi => h i (.and_tail hG hi)
    have ih' : ∀ e : Expr K, ∃ zs : List (K × K), ∀ G ∈ F :: l, G.subst σ = e →
        (∃ z, computeRobustness nd fuel e trace sy = .ok z ∧ Represents z zs ∧ ∃ v r, zs = (t0, v) :: r) ∧
        (∀ t, t ∈ dom zs ↔ ∀ i, G.Occurs i → t ∈ dom (pts i)) ∧
        ∀ t ∈ dom zs, eval zs t = G.val fun i => eval (pts i) t := by
      intro e
      by_cases he : ∃ G ∈ F :: l, G.subst σ = e
      · obtain ⟨G, hG, rfl⟩ := he
        obtain ⟨z, zs, a1, a2, a3, -, -⟩ := ih G hG
        refine ⟨zs, fun G' hG' e => ?_⟩
        obtain ⟨z', zs', b1, b2, b3, b4, b5⟩ := ih G' hG'
        rw [e, a1] at b1
        simp only [Outcome.ok.injEq] at b1; subst b1
        obtain rfl := represents_inj a2 b2
        exact ⟨⟨z, a1, a2, a3⟩, b4, b5⟩
      · exact ⟨[], fun G hG e => absurd ⟨G, hG, e⟩ he⟩
    choose p hp using ih'
    obtain ⟨z, zs, c1, c2, c3, c4, c5⟩ := C24_and_nary nd fuel trace sy t0 p ((F :: l).map (Poly.subst σ)) (by simp)
      (fun e he => by
        obtain ⟨G, hG, rfl⟩ := List.mem_map.1 he
        exact (hp _ G hG rfl).1)
    refine ⟨z, zs, ?_, c2, c3, fun t => ?_, fun t ht => ?_⟩
    · rw [Poly.subst, substs_eq]; exact c1
    · rw [c4]
      constructor
      · intro hd i hi
        cases hi with
        | and_head hi => exact ((hp _ F (by simp) rfl).2.1 t).1 (hd _ (by simp)) i hi
        | and_tail hG hi =>
          exact ((hp _ _ (List.mem_cons_of_mem _ hG) rfl).2.1 t).1
            (hd _ (List.mem_map_of_mem (List.mem_cons_of_mem _ hG))) i hi
      · intro hd e he
        obtain ⟨G, hG, rfl⟩ := List.mem_map.1 he
        refine ((hp _ G hG rfl).2.1 t).2 fun i hi => ?_
        rcases List.mem_cons.1 hG with rfl | hG
        · exact hd i (.and_head hi)
        · exact hd i (.and_tail hG hi)
    · have hl := c5 t ht
      have hdt := (c4 t).1 ht
      rw [Poly.val, vals_eq]
      refine hl.unique ?_
      convert foldl_min_least (K := K) _ _ using 2
      ext v
      constructor
      · rintro ⟨e, he, rfl⟩
        obtain ⟨G, hG, rfl⟩ := List.mem_map.1 he
        rw [(hp _ G hG rfl).2.2 t (hdt _ he), ← List.map_cons (f := Poly.val _)]
        exact List.mem_map_of_mem hG
      · intro hv
        rw [← List.map_cons (f := Poly.val _)] at hv
        obtain ⟨G, hG, rfl⟩ := List.mem_map.1 hv
        have he := List.mem_map_of_mem (f := Poly.subst σ) hG
        exact ⟨_, he, ((hp _ G hG rfl).2.2 t (hdt _ he)).symm⟩
  | or F l ihF ihl =>
    have ih : ∀ G ∈ F :: l, ∃ z zs, computeRobustness nd fuel (G.subst σ) trace sy = .ok z ∧ Represents z zs ∧
        (∃ v r, zs = (t0, v) :: r) ∧ (∀ t, t ∈ dom zs ↔ ∀ i, G.Occurs i → t ∈ dom (pts i)) ∧
        ∀ t ∈ dom zs, eval zs t = G.val fun i => eval (pts i) t := by
      intro G hG
      rcases List.mem_cons.1 hG with rfl | hG
      · exact ihF fun i hi => h i (.or_head hi)
      · exact ihl G hG fun i hi => h i (.or_tail hG hi)
    have ih' : ∀ e : Expr K, ∃ zs : List (K × K), ∀ G ∈ F :: l, G.subst σ = e →
        (∃ z, computeRobustness nd fuel e trace sy = .ok z ∧ Represents z zs ∧ ∃ v r, zs = (t0, v) :: r) ∧
        (∀ t, t ∈ dom zs ↔ ∀ i, G.Occurs i → t ∈ dom (pts i)) ∧
        ∀ t ∈ dom zs, eval zs t = G.val fun i => eval (pts i) t := by
      intro e
      by_cases he : ∃ G ∈ F :: l, G.subst σ = e
      · obtain ⟨G, hG, rfl⟩ := he
        obtain ⟨z, zs, a1, a2, a3, -, -⟩ := ih G hG
        refine ⟨zs, fun G' hG' e => ?_⟩
        obtain ⟨z', zs', b1, b2, b3, b4, b5⟩ := ih G' hG'
        rw [e, a1] at b1
        simp only [Outcome.ok.injEq] at b1; subst b1
        obtain rfl := represents_inj a2 b2
        exact ⟨⟨z, a1, a2, a3⟩, b4, b5⟩
      · exact ⟨[], fun G hG e => absurd ⟨G, hG, e⟩ he⟩
    choose p hp using ih'
    obtain ⟨z, zs, c1, c2, c3, c4, c5⟩ := C24_or_nary nd fuel trace sy t0 p ((F :: l).map (Poly.subst σ)) (by simp)
      (fun e he => by
        obtain ⟨G, hG, rfl⟩ := List.mem_map.1 he
        exact (hp _ G hG rfl).1)
    refine ⟨z, zs, ?_, c2, c3, fun t => ?_, fun t ht => ?_⟩
    · rw [Poly.subst, substs_eq]; exact c1
    · rw [c4]
      constructor
      · intro hd i hi
        cases hi with
        | or_head hi => exact ((hp _ F (by simp) rfl).2.1 t).1 (hd _ (by simp)) i hi
        | or_tail hG hi =>
          exact ((hp _ _ (List.mem_cons_of_mem _ hG) rfl).2.1 t).1
            (hd _ (List.mem_map_of_mem (List.mem_cons_of_mem _ hG))) i hi
      · intro hd e he
        obtain ⟨G, hG, rfl⟩ := List.mem_map.1 he
        refine ((hp _ G hG rfl).2.1 t).2 fun i hi => ?_
        rcases List.mem_cons.1 hG with rfl | hG
        · exact hd i (.or_head hi)
        · exact hd i (.or_tail hG hi)
    · have hl := c5 t ht
      have hdt := (c4 t).1 ht
      rw [Poly.val, vals_eq]
      refine hl.unique ?_
      convert foldl_max_greatest (K := K) _ _ using 2
      ext v
      constructor
      · rintro ⟨e, he, rfl⟩
        obtain ⟨G, hG, rfl⟩ := List.mem_map.1 he
        rw [(hp _ G hG rfl).2.2 t (hdt _ he), ← List.map_cons (f := Poly.val _)]
        exact List.mem_map_of_mem hG
      · intro hv
        rw [← List.map_cons (f := Poly.val _)] at hv
        obtain ⟨G, hG, rfl⟩ := List.mem_map.1 hv
        have he := List.mem_map_of_mem (f := Poly.subst σ) hG
        exact ⟨_, he, ((hp _ G hG rfl).2.2 t (hdt _ he)).symm⟩

theorem bounded_vars (F : Poly) : ∃ N, ∀ i, F.Occurs i → i < N := by
  induction F using Poly.ind with
  | var i => exact ⟨i + 1, fun j hj => by cases hj; omega⟩
  | not F ih => obtain ⟨N, h⟩ := ih; exact ⟨N, fun i hi => by cases hi with | not hi => exact h i hi⟩
  | and F l ihF ihl =>
    obtain ⟨N, h⟩ := ihF
    have : ∃ M, ∀ G ∈ l, ∀ i, G.Occurs i → i < M := by
      clear h
      induction l with
      | nil => exact ⟨0, by simp⟩
      | cons G l ih =>
        obtain ⟨M, hM⟩ := ih fun G hG => ihl G (by simp [hG])
        obtain ⟨M', hM'⟩ := ihl G (by simp)
        refine ⟨max M M', fun G' hG' i hi => ?_⟩
        rcases List.mem_cons.1 hG' with rfl | hG'
        · exact lt_of_lt_of_le (hM' i hi) (le_max_right _ _)
        · exact lt_of_lt_of_le (hM G' hG' i hi) (le_max_left _ _)
    obtain ⟨M, hM⟩ := this
    refine ⟨max N M, fun i hi => ?_⟩
    cases hi with
    | and_head hi => exact lt_of_lt_of_le (h i hi) (le_max_left _ _)
    | and_tail hG hi => exact lt_of_lt_of_le (hM _ hG i hi) (le_max_right _ _)
  | or F l ihF ihl =>
    obtain ⟨N, h⟩ := ihF
    have : ∃ M, ∀ G ∈ l, ∀ i, G.Occurs i → i < M := by
      clear h
      induction l with
      | nil => exact ⟨0, by simp⟩
      | cons G l ih =>
        obtain ⟨M, hM⟩ := ih fun G hG => ihl G (by simp [hG])
        obtain ⟨M', hM'⟩ := ihl G (by simp)
        refine ⟨max M M', fun G' hG' i hi => ?_⟩
        rcases List.mem_cons.1 hG' with rfl | hG'
        · exact lt_of_lt_of_le (hM' i hi) (le_max_right _ _)
        · exact lt_of_lt_of_le (hM G' hG' i hi) (le_max_left _ _)
    obtain ⟨M, hM⟩ := this
    refine ⟨max N M, fun i hi => ?_⟩
    cases hi with
    | or_head hi => exact lt_of_lt_of_le (h i hi) (le_max_left _ _)
    | or_tail hG hi => exact lt_of_lt_of_le (hM _ hG i hi) (le_max_right _ _)

/-- A name for each variable. -/
def varName (i : ℕ) : String := String.ofList (List.replicate i 'x')

theorem varName_inj {i j : ℕ} (h : varName i = varName j) : i = j := by
  have := congrArg String.toList h
  simp only [varName, String.toList_ofList] at this
  simpa using congrArg List.length this

/-- Constant signals from 0 to 1. -/
def constTrace (f : ℕ → K) (N : ℕ) : Trace K :=
  (List.range N).map fun i => (varName i, ofPts [(0, f i), (1, f i)])

theorem constTrace_lookup (f : ℕ → K) {N i : ℕ} (h : i < N) :
    (constTrace f N).lookup (varName i) = some (ofPts [(0, f i), (1, f i)]) := by
  have key : ∀ l : List ℕ, i ∈ l →
      (l.map fun i => (varName i, ofPts [(0, f i), (1, f i)])).lookup (varName i) =
        some (ofPts [(0, f i), (1, f i)]) := by
    intro l
    induction l with
    | nil => intro h; simp at h
    | cons j l ih =>
      intro h
      rw [List.map_cons, List.lookup_cons]
      by_cases e : i = j
      · subst e; simp
      · have : (varName i == varName j) = false := by
          rw [beq_eq_false_iff_ne]; exact fun h => e (varName_inj h)
        rw [this]
        exact ih ((List.mem_cons.1 h).resolve_left e)
  exact key _ (List.mem_range.2 h)

/-- **C87.** An inequality (hence also an equation) between terms of Not, And and Or holds between the
computed robustness values, for all operands, traces and instants, exactly if it holds for negation, minimum
and maximum of numbers.  (`F <= G` on both sides; for an equation use both directions.) -/
theorem C87_inequalities (F G : Poly) :
    (∀ f : ℕ → K, F.val f ≤ G.val f) ↔
      ∀ (nd : Bool) (fuel : Nat) (trace : Trace K) (sy : Bool) (t0 : K) (σ : ℕ → Expr K),
        (∀ i, F.Occurs i ∨ G.Occurs i → ∃ x xs, computeRobustness nd fuel (σ i) trace sy = .ok x ∧
          Represents x xs ∧ ∃ v r, xs = (t0, v) :: r) →
        ∃ z zs z' zs', computeRobustness nd fuel (F.subst σ) trace sy = .ok z ∧ Represents z zs ∧
          computeRobustness nd fuel (G.subst σ) trace sy = .ok z' ∧ Represents z' zs' ∧
          ∀ t, t ∈ dom zs → t ∈ dom zs' → eval zs t ≤ eval zs' t := by
  constructor
  · intro h nd fuel trace sy t0 σ hσ
    have : ∀ i, ∃ xs : List (K × K), F.Occurs i ∨ G.Occurs i → ∃ x, computeRobustness nd fuel (σ i) trace sy = .ok x ∧
        Represents x xs ∧ ∃ v r, xs = (t0, v) :: r := by
      intro i
      by_cases hi : F.Occurs i ∨ G.Occurs i
      · obtain ⟨x, xs, h1, h2⟩ := hσ i hi
        exact ⟨xs, fun _ => ⟨x, h1, h2⟩⟩
      · exact ⟨[], fun h => absurd h hi⟩
    choose pts hpts using this
    obtain ⟨z, zs, a1, a2, -, -, a5⟩ := C87_value nd fuel trace sy t0 σ pts F fun i hi => hpts i (.inl hi)
    obtain ⟨z', zs', b1, b2, -, -, b5⟩ := C87_value nd fuel trace sy t0 σ pts G fun i hi => hpts i (.inr hi)
    refine ⟨z, zs, z', zs', a1, a2, b1, b2, fun t ht ht' => ?_⟩
    rw [a5 t ht, b5 t ht']; exact h _
  · intro h f
    obtain ⟨N, hN⟩ := bounded_vars F
    obtain ⟨M, hM⟩ := bounded_vars G
    let σ : ℕ → Expr K := fun i => .pred (varName i) .GE (.fin 0)
    let pts : ℕ → List (K × K) := fun i => [(0, f i), (1, f i)]
    have inc : ∀ i, Increasing (pts i) := fun i => by simp [Increasing, pts]
    have hev : ∀ i, i < max N M → ∃ x, computeRobustness false 0 (σ i) (constTrace f (max N M)) false = .ok x ∧
        Represents x (pts i) ∧ ∃ v r, pts i = (0, v) :: r := by
      intro i hi
      refine ⟨ofPts (pts i), ?_, represents_ofPts (inc i), f i, _, rfl⟩
      unfold computeRobustness
      simp only [σ]
      rw [RobustnessOp.compute, RobustnessOp.pred]
      simp only
      rw [lookup_at (constTrace_lookup f hi), Outcome.bind_ok]
      refine ofSamples_pts (inc i) _ ?_
      simp [ofPts, build, lift, pts, tv, RobustnessOp.predValue]
    have hF : ∀ i, F.Occurs i → i < max N M := fun i hi => lt_of_lt_of_le (hN i hi) (le_max_left _ _)
    have hG : ∀ i, G.Occurs i → i < max N M := fun i hi => lt_of_lt_of_le (hM i hi) (le_max_right _ _)
    obtain ⟨z, zs, a1, a2, -, a4, a5⟩ := C87_value false 0 (constTrace f (max N M)) false 0 σ pts F
      fun i hi => hev i (hF i hi)
    obtain ⟨z', zs', b1, b2, -, b4, b5⟩ := C87_value false 0 (constTrace f (max N M)) false 0 σ pts G
      fun i hi => hev i (hG i hi)
    obtain ⟨w, ws, w', ws', c1, c2, d1, d2, e⟩ := h false 0 (constTrace f (max N M)) false 0 σ
      fun i hi => by
        obtain ⟨x, h1, h2⟩ := hev i (hi.elim (hF i) (hG i))
        exact ⟨x, pts i, h1, h2⟩
    rw [a1] at c1; rw [b1] at d1
    simp only [Outcome.ok.injEq] at c1 d1; subst c1; subst d1
    obtain rfl := represents_inj a2 c2
    obtain rfl := represents_inj b2 d2
    have h0 : ∀ i, (0 : K) ∈ dom (pts i) := fun i => mem_dom_of_mem' (p := (0, f i)) (by simp [pts])
    have hz := (a4 0).2 fun i _ => h0 i
    have hz' := (b4 0).2 fun i _ => h0 i
    have := e 0 hz hz'
    rw [a5 0 hz, b5 0 hz'] at this
    have e0 : ∀ i, eval (pts i) 0 = f i := fun i => eval_mem (inc i) (p := (0, f i)) (by simp [pts])
    simpa only [e0] using this

/-- **C87.** Formulas that are equal by the laws of minimum and maximum have the same robustness, on the
common domain, which is the domain of both if they have the same variables. -/
theorem C87_equations (nd : Bool) (fuel : Nat) (trace : Trace K) (sy : Bool) (t0 : K) (σ : ℕ → Expr K)
    (F G : Poly) (hFG : ∀ f : ℕ → K, F.val f = G.val f)
    (h : ∀ i, F.Occurs i ∨ G.Occurs i → ∃ x xs, computeRobustness nd fuel (σ i) trace sy = .ok x ∧
      Represents x xs ∧ ∃ v r, xs = (t0, v) :: r) :
    ∃ z zs z' zs', computeRobustness nd fuel (F.subst σ) trace sy = .ok z ∧ Represents z zs ∧
      computeRobustness nd fuel (G.subst σ) trace sy = .ok z' ∧ Represents z' zs' ∧
      ((∀ i, F.Occurs i ↔ G.Occurs i) → dom zs = dom zs') ∧
      ∀ t, t ∈ dom zs → t ∈ dom zs' → eval zs t = eval zs' t := by
  have : ∀ i, ∃ xs : List (K × K), F.Occurs i ∨ G.Occurs i → ∃ x, computeRobustness nd fuel (σ i) trace sy = .ok x ∧
      Represents x xs ∧ ∃ v r, xs = (t0, v) :: r := by
    intro i
    by_cases hi : F.Occurs i ∨ G.Occurs i
    · obtain ⟨x, xs, h1, h2⟩ := h i hi
      exact ⟨xs, fun _ => ⟨x, h1, h2⟩⟩
    · exact ⟨[], fun h => absurd h hi⟩
  choose pts hpts using this
  obtain ⟨z, zs, a1, a2, -, a4, a5⟩ := C87_value nd fuel trace sy t0 σ pts F fun i hi => hpts i (.inl hi)
  obtain ⟨z', zs', b1, b2, -, b4, b5⟩ := C87_value nd fuel trace sy t0 σ pts G fun i hi => hpts i (.inr hi)
  refine ⟨z, zs, z', zs', a1, a2, b1, b2, fun ho => ?_, fun t ht ht' => ?_⟩
  · ext t; rw [a4, b4]; simp only [ho]
  · rw [a5 t ht, b5 t ht', hFG]

/-! Laws that hold: absorption, distributivity, De Morgan, and "a contradiction is at most a tautology". -/

section laws
open Poly
example (f : ℕ → K) : Poly.val f (.and (.var 0) [.or (.var 0) [.var 1]]) = Poly.val f (.var 0) := by
  simp [Poly.val, Poly.vals]
example (f : ℕ → K) : Poly.val f (.and (.var 0) [.or (.var 1) [.var 2]]) =
    Poly.val f (.or (.and (.var 0) [.var 1]) [.and (.var 0) [.var 2]]) := by
  simp [Poly.val, Poly.vals, min_max_distrib_left]
example (f : ℕ → K) : Poly.val f (.not (.and (.var 0) [.var 1])) =
    Poly.val f (.or (.not (.var 0)) [.not (.var 1)]) := by
  rcases le_total (f 0) (f 1) with h | h <;> simp [Poly.val, Poly.vals, h]
example (f : ℕ → K) : Poly.val f (.and (.var 0) [.not (.var 0)]) ≤
    Poly.val f (.or (.var 1) [.not (.var 1)]) := by
  simp only [Poly.val, Poly.vals, List.foldl_cons, List.foldl_nil]
  have h1 : min (f 0) (-f 0) ≤ 0 := by
    rcases le_total (f 0) 0 with h | h
    · exact (min_le_left _ _).trans h
    · exact (min_le_right _ _).trans (by linarith)
  have h2 : 0 ≤ max (f 1) (-f 1) := by
    rcases le_total (f 1) 0 with h | h
    · exact le_trans (by linarith) (le_max_right _ _)
    · exact h.trans (le_max_left _ _)
  exact h1.trans h2
/-- The excluded middle is no law: its robustness is not constant. -/
example : ¬ ∀ f : ℕ → K, Poly.val f (.or (.var 0) [.not (.var 0)]) = Poly.val f (.or (.var 1) [.not (.var 1)]) := by
  intro h
  have := h fun i => if i = 0 then 0 else 1
  simp [Poly.val, Poly.vals] at this
end laws

/-- The absorption law on a trace: the two results have the same values (though not the same samples). -/
example : computeRobustness false 100
      ((Poly.and (.var 0) [.or (.var 0) [.var 1]]).subst fun i => match i with | 0 => .pred "x" .GE (.fin (1 : ℚ)) | _ => .pred "y" .GE 0)
      exTrace false =
    .ok (ofPts [(0, -1), (4/3, 5/3), (2, 3), (3, 1), (13/4, 1/2), (4, -1)]) ∧
    computeRobustness false 100 (.pred "x" .GE (.fin 1)) exTrace false =
      .ok (ofPts [(0, -1), (2, 3), (4, -1)]) := by
  simp only [Poly.subst, Poly.substs]; decide +kernel

end exact

end Verif
