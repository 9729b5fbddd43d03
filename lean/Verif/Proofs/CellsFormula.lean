import Verif.Proofs.Cells
import Verif.Props.Totality
import Verif.Spec.Samples

/-!
# The literals of a formula
-/

set_option linter.unusedSectionVars false

namespace Verif
open Spec

section counts
variable {K : Type} [Field K] [LinearOrder K]

theorem one_add_choose_le {m Q : Nat} (h : m ≤ Q) (h1 : 1 ≤ Q) : 1 + m.choose 2 ≤ Q ^ 2 := by
  rw [Nat.choose_two_right]
  obtain ⟨q, rfl⟩ := Nat.exists_eq_add_of_le' h1
  have h2 : m * (m - 1) / 2 ≤ (q + 1) * q :=
    (Nat.div_le_self _ _).trans (Nat.mul_le_mul h (by omega))
  calc 1 + m * (m - 1) / 2 ≤ 1 + (q + 1) * q := by omega
    _ ≤ (q + 1) ^ 2 := by nlinarith

theorem literalSamples_le (n : Nat) {e : Expr K} (hp : Plain e) :
    1 ≤ predCount e ∧ literalCount e ≤ predCount e ∧
      ∀ Q, predCount e ≤ Q → literalSamples (fun _ => n) e ≤ n * predCount e * Q ^ (2 * temporalDepth e) := by
  have all : ∀ args : List (Expr K), (∀ e ∈ args, 1 ≤ predCount e ∧ literalCount e ≤ predCount e ∧
      ∀ Q, predCount e ≤ Q → literalSamples (fun _ => n) e ≤ n * predCount e * Q ^ (2 * temporalDepth e)) →
      args.length ≤ predCounts args ∧ literalCounts args ≤ predCounts args ∧ ∀ Q, 1 ≤ Q → predCounts args ≤ Q →
        literalSamplesAll (fun _ => n) args ≤ n * predCounts args * Q ^ (2 * temporalDepths args) := by
    intro args
    induction args with
    | nil => intro _; exact ⟨le_rfl, le_rfl, fun _ _ _ => by simp [literalSamplesAll]⟩
    | cons e args ih =>
      intro h
      obtain ⟨h1, h2, h3⟩ := h e (by simp)
      obtain ⟨i1, i2, i3⟩ := ih fun e' he' => h e' (by simp [he'])
      simp only [predCounts, literalCounts, literalSamplesAll, temporalDepths, List.length_cons]
      refine ⟨by omega, by omega, fun Q hQ hle => ?_⟩
      have a := h3 Q (by omega)
      have b := i3 Q hQ (by omega)
      have c : Q ^ (2 * temporalDepth e) ≤ Q ^ (2 * max (temporalDepth e) (temporalDepths args)) :=
        Nat.pow_le_pow_right hQ (by omega)
      have d : Q ^ (2 * temporalDepths args) ≤ Q ^ (2 * max (temporalDepth e) (temporalDepths args)) :=
        Nat.pow_le_pow_right hQ (by omega)
      calc _ ≤ n * predCount e * Q ^ (2 * temporalDepth e) + n * predCounts args * Q ^ (2 * temporalDepths args) :=
            Nat.add_le_add a b
        _ ≤ n * predCount e * Q ^ (2 * max (temporalDepth e) (temporalDepths args)) +
            n * predCounts args * Q ^ (2 * max (temporalDepth e) (temporalDepths args)) :=
          Nat.add_le_add (Nat.mul_le_mul_left _ c) (Nat.mul_le_mul_left _ d)
        _ = _ := by ring
  have step : ∀ (e : Expr K) (Q d : Nat), temporalDepth e ≤ d → 1 ≤ predCount e → literalCount e ≤ predCount e →
      predCount e ≤ Q → literalSamples (fun _ => n) e ≤ n * predCount e * Q ^ (2 * temporalDepth e) →
      literalSamples (fun _ => n) e * (1 + (literalCount e).choose 2) ≤ n * predCount e * Q ^ (2 * (d + 1)) := by
    intro e Q d hd h1 h2 h3 h4
    have hc := one_add_choose_le (h2.trans h3) (h1.trans h3)
    have hpow : Q ^ (2 * temporalDepth e) ≤ Q ^ (2 * d) := Nat.pow_le_pow_right (h1.trans h3) (by omega)
    calc _ ≤ (n * predCount e * Q ^ (2 * d)) * Q ^ 2 :=
          Nat.mul_le_mul (h4.trans (Nat.mul_le_mul_left _ hpow)) hc
      _ = _ := by ring
  induction hp with
  | pred m op c => exact ⟨le_rfl, le_rfl, fun Q _ => by simp [literalSamples, predCount, temporalDepth]⟩
  | not _ ih => simpa only [literalSamples, predCount, temporalDepth, literalCount] using ih
  | @and args hl _ ih =>
    obtain ⟨h1, h2, h3⟩ := all args ih
    simp only [literalSamples, predCount, temporalDepth, literalCount]
    exact ⟨by omega, h2, fun Q hQ => h3 Q (by omega) hQ⟩
  | @or args hl _ ih =>
    obtain ⟨h1, h2, h3⟩ := all args ih
    simp only [literalSamples, predCount, temporalDepth, literalCount]
    exact ⟨by omega, h2, fun Q hQ => h3 Q (by omega) hQ⟩
  | @always e i _ _ ih =>
    obtain ⟨h1, h2, h3⟩ := ih
    simp only [literalSamples, predCount, temporalDepth, literalCount]
    exact ⟨h1, h1, fun Q hQ => step e Q _ le_rfl h1 h2 hQ (h3 Q hQ)⟩
  | @eventually e i _ _ ih =>
    obtain ⟨h1, h2, h3⟩ := ih
    simp only [literalSamples, predCount, temporalDepth, literalCount]
    exact ⟨h1, h1, fun Q hQ => step e Q _ le_rfl h1 h2 hQ (h3 Q hQ)⟩
  | @untl a b i _ _ _ ih1 ih2 =>
    obtain ⟨h1, h2, h3⟩ := ih1
    obtain ⟨i1, i2, i3⟩ := ih2
    simp only [literalSamples, predCount, temporalDepth, literalCount]
    refine ⟨by omega, by omega, fun Q hQ => ?_⟩
    have x := step a Q (max (temporalDepth a) (temporalDepth b)) (le_max_left _ _) h1 h2 (by omega) (h3 Q (by omega))
    have y := step b Q (max (temporalDepth a) (temporalDepth b)) (le_max_right _ _) i1 i2 (by omega) (i3 Q (by omega))
    exact (Nat.add_le_add x y).trans_eq (by ring)
end counts

section exact
variable {K : Type} [Field K] [LinearOrder K] [IsStrictOrderedRing K] [Arith K] [ExactArith K]

theorem mem_times_ofPts (l : List (K × K)) (t : K) : D.fin t ∈ times (ofPts l) ↔ t ∈ l.map Prod.fst := by
  unfold times
  rw [ofPts_times]
  simp [D.fin.injEq]

theorem minmaxFold_cells {nd : Bool} {comp : Cmp K} {op : K → K → K} (hop : PairOp nd comp op) (hm : IsMinMax op)
    (t0 : K) : ∀ (ls : List (List (K × K) × List (List (K × K)))) (xs : List (K × K)) (L : List (List (K × K))),
      Increasing xs → StartsAt t0 xs → Cells t0 L xs →
      (∀ l ∈ ls, Increasing l.1 ∧ StartsAt t0 l.1 ∧ Cells t0 l.2 l.1) →
      ∃ zs, minmaxFold nd comp false (ofPts xs) (ls.map fun l => ofPts l.1) = .ok (ofPts zs) ∧ Increasing zs ∧
        StartsAt t0 zs ∧ Cells t0 (L ++ ls.flatMap Prod.snd) zs := by
  intro ls
  induction ls with
  | nil =>
    intro xs L hx hs hc _
    exact ⟨xs, rfl, hx, hs, by simpa using hc⟩
  | cons l ls ih =>
    intro xs L hx hs hc hl
    obtain ⟨hl1, hl2, hl3⟩ := hl l (by simp)
    obtain ⟨ys, e, hy, hd, hv⟩ := hop hx hl1 t0 hs.mem hl2.mem (fun t ht => hs.le hx ht.1)
    have hsy : StartsAt t0 ys := startsAt_of_dom hy
      ((hd t0).2 ⟨mem_dom_of_mem hs.mem, mem_dom_of_mem hl2.mem⟩)
      (fun t ht => hs.le hx ((hd t).1 ht).1)
    have hcy : Cells t0 (L ++ l.2) ys := by
      refine Cells.pair hm hx hl1 hs hl2 hc hl3 hd hv fun k hk => ?_
      obtain ⟨k', e', h⟩ := pair_crossings_left hx hl1 e (.fin k) ((mem_times_ofPts ys k).2 hk)
      rw [D.fin.injEq] at e'
      subst e'
      exact h
    obtain ⟨zs, e2, hz, hsz, hcz⟩ := ih ys _ hy hsy hcy (fun l' h' => hl l' (by simp [h']))
    refine ⟨zs, ?_, hz, hsz, by simpa using hcz⟩
    rw [List.map_cons, minmaxFold, e]; exact e2

theorem minmaxVec_cells {nd : Bool} {comp : Cmp K} {op : K → K → K} (hop : PairOp nd comp op) (hm : IsMinMax op)
    (t0 : K) (ls : List (List (K × K) × List (List (K × K)))) (l : List (K × K) × List (List (K × K)))
    (hl : ∀ l' ∈ l :: ls, Increasing l'.1 ∧ StartsAt t0 l'.1 ∧ Cells t0 l'.2 l'.1) :
      ∃ zs, minmaxVec nd comp ((l :: ls).map fun l => ofPts l.1) false = .ok (ofPts zs) ∧ Increasing zs ∧
        StartsAt t0 zs ∧ Cells t0 ((l :: ls).flatMap Prod.snd) zs := by
  obtain ⟨h1, h2, h3⟩ := hl l (by simp)
  obtain ⟨zs, e, h⟩ := minmaxFold_cells hop hm t0 ls l.1 l.2 h1 h2 h3 (fun l h => hl l (by simp [h]))
  refine ⟨zs, ?_, by simpa using h⟩
  rw [← e]
  cases ls with
  | nil => rfl
  | cons l1 ls =>
    cases ls with
    | nil =>
      simp only [List.map_cons, List.map_nil, minmaxVec, minmaxFold]
      cases minmaxPair nd comp (ofPts l.1) (ofPts l1.1) false <;> rfl
    | cons l2 ls => rfl

/-- The literals of a formula: their number, their samples, and how the result is made of them. -/
def HasCells (nd : Bool) (fuel : Nat) (trace : Trace K) (sy : Bool) (t0 : K) (count : String → Nat) (phi : Expr K)
    (zs : List (K × K)) (L : List (List (K × K))) : Prop :=
  computeRobustness nd fuel phi trace sy = .ok (ofPts zs) ∧ Increasing zs ∧ StartsAt t0 zs ∧ Cells t0 L zs ∧
    (∀ l ∈ L, Increasing l ∧ StartsAt t0 l) ∧ L ≠ [] ∧ L.length = literalCount phi ∧
    (L.map List.length).sum ≤ literalSamples count phi

theorem HasCells.length_le {nd : Bool} {fuel : Nat} {trace : Trace K} {sy : Bool} {t0 : K} {count : String → Nat}
    {phi : Expr K} {zs : List (K × K)} {L : List (List (K × K))}
    (h : HasCells nd fuel trace sy t0 count phi zs L) : zs.length ≤ crossingBound count phi := by
  obtain ⟨-, h2, h3, h4, h5, h6, h7, h8⟩ := h
  refine (h4.length_le h5 h2 (fun t ht => h3.le h2 ht) h6).trans ?_
  rw [h7, crossingBound]
  exact Nat.mul_le_mul_right _ h8

theorem sum_flatMap_length (ls : List (List (K × K) × List (List (K × K)))) :
    ((ls.flatMap Prod.snd).map List.length).sum = (ls.map fun l => (l.2.map List.length).sum).sum := by
  induction ls with
  | nil => rfl
  | cons l ls ih => simp [ih]

theorem compute_cells (nd : Bool) (fuel : Nat) (trace : Trace K) (sy : Bool) (t0 : K)
    (sig : String → List (K × K)) (count : String → Nat) (phi : Expr K) (hp : Plain phi)
    (hs : ∀ n, Uses n phi → ∃ x, trace.lookup n = some x ∧ Represents x (sig n) ∧ (sig n).length ≤ count n ∧
      ∃ v r, sig n = (t0, v) :: r) :
    ∃ zs L, HasCells nd fuel trace sy t0 count phi zs L := by
  have one : ∀ (e : Expr K) (zs : List (K × K)), computeRobustness nd fuel e trace sy = .ok (ofPts zs) →
      Increasing zs → StartsAt t0 zs → literalCount e = 1 → zs.length ≤ literalSamples count e →
      ∃ zs L, HasCells nd fuel trace sy t0 count e zs L := by
    intro e zs h1 h2 h3 h4 h5
    refine ⟨zs, [zs], h1, h2, h3, Cells.single, ?_, by simp, by simp [h4], by simpa using h5⟩
    intro l hl
    rw [List.mem_singleton.1 hl]; exact ⟨h2, h3⟩
  have nary : ∀ (comp : Cmp K) (op : K → K → K), PairOp nd comp op → IsMinMax op → ∀ args : List (Expr K),
      args ≠ [] → (∀ e ∈ args, ∃ zs L, HasCells nd fuel trace sy t0 count e zs L) →
      ∃ ls : List (List (K × K) × List (List (K × K))), ∃ zs,
        (⟨nd, fuel, (minMaxTime trace).1, (minMaxTime trace).2, trace⟩ : RobustnessOp K).computeArgs args =
          .ok (ls.map fun l => ofPts l.1) ∧
        minmaxVec nd comp (ls.map fun l => ofPts l.1) false = .ok (ofPts zs) ∧ Increasing zs ∧
        StartsAt t0 zs ∧ Cells t0 (ls.flatMap Prod.snd) zs ∧
        (∀ l ∈ ls.flatMap Prod.snd, Increasing l ∧ StartsAt t0 l) ∧ ls.flatMap Prod.snd ≠ [] ∧
        (ls.flatMap Prod.snd).length = literalCounts args ∧
        ((ls.flatMap Prod.snd).map List.length).sum ≤ literalSamplesAll count args ∧ ls.length = args.length := by
    intro comp op hop hm args hne hall
    have ls : ∀ args : List (Expr K), (∀ e ∈ args, ∃ zs L, HasCells nd fuel trace sy t0 count e zs L) →
        ∃ ls : List (List (K × K) × List (List (K × K))),
          (⟨nd, fuel, (minMaxTime trace).1, (minMaxTime trace).2, trace⟩ : RobustnessOp K).computeArgs args =
            .ok (ls.map fun l => ofPts l.1) ∧ ls.length = args.length ∧
          (∀ l ∈ ls, Increasing l.1 ∧ StartsAt t0 l.1 ∧ Cells t0 l.2 l.1 ∧
            (∀ l' ∈ l.2, Increasing l' ∧ StartsAt t0 l') ∧ l.2 ≠ []) ∧
          (ls.flatMap Prod.snd).length = literalCounts args ∧
          ((ls.flatMap Prod.snd).map List.length).sum ≤ literalSamplesAll count args := by
      intro args
      induction args with
      | nil => intro _; exact ⟨[], rfl, rfl, by simp, rfl, by simp⟩
      | cons e args ih =>
        intro h
        obtain ⟨zs, L, h1, h2, h3, h4, h5, h6, h7, h8⟩ := h e (by simp)
        obtain ⟨ls, i1, i2, i3, i4, i5⟩ := ih fun e' he' => h e' (by simp [he'])
        unfold computeRobustness at h1
        refine ⟨(zs, L) :: ls, ?_, by simp [i2], ?_, ?_, ?_⟩
        · rw [RobustnessOp.computeArgs, h1, Outcome.bind_ok, i1]; rfl
        · intro l hl
          rcases List.mem_cons.1 hl with rfl | hl
          · exact ⟨h2, h3, h4, h5, h6⟩
          · exact i3 l hl
        · simp only [List.flatMap_cons, List.length_append, i4, h7, literalCounts]
        · simp only [List.flatMap_cons, List.map_append, List.sum_append, literalSamplesAll]
          exact Nat.add_le_add h8 i5
    obtain ⟨ls, h1, h2, h3, h4, h5⟩ := ls args hall
    cases ls with
    | nil => simp at h2; exact absurd (List.length_eq_zero_iff.1 h2.symm) hne
    | cons l ls =>
      obtain ⟨zs, e, e1, e2, e3⟩ := minmaxVec_cells hop hm t0 ls l fun l' hl' =>
        ⟨(h3 l' hl').1, (h3 l' hl').2.1, (h3 l' hl').2.2.1⟩
      refine ⟨l :: ls, zs, h1, e, e1, e2, e3, ?_, ?_, h4, h5, h2⟩
      · intro m hm
        obtain ⟨l', hl', hm⟩ := List.mem_flatMap.1 hm
        exact (h3 l' hl').2.2.2.1 m hm
      · have := (h3 l (by simp)).2.2.2.2
        simp [this]
  induction hp with
  | pred n op c =>
    obtain ⟨x, hx, hr, hlen, h0⟩ := hs n (.pred op _)
    obtain ⟨z, zs, e, hz, ht, hd, -⟩ := C20_predicate nd fuel trace sy n op c x (sig n) hx hr
    obtain ⟨iz, rfl⟩ := (represents_iff _ _).1 hz
    refine one _ zs e iz (startsAt_of_fst ht h0) (by simp [literalCount]) ?_
    have := congrArg List.length ht
    simp only [List.length_map] at this
    simp only [literalSamples]; omega
  | @not e _ ih =>
    obtain ⟨zs, L, h1, h2, h3, h4, h5, h6, h7, h8⟩ := ih fun n hn => hs n (.not hn)
    refine ⟨negPts zs, L.map negPts, ?_, increasing_negPts.2 h2, startsAt_of_fst (negPts_times zs) h3, h4.neg, ?_,
      by simpa using h6, by simp [h7, literalCount], ?_⟩
    · rw [C21_not_negates, h1]
      exact congrArg Outcome.ok (negSig_ofPts h2)
    · intro l hl
      obtain ⟨l', hl', rfl⟩ := List.mem_map.1 hl
      exact ⟨increasing_negPts.2 (h5 l' hl').1, startsAt_of_fst (negPts_times l') (h5 l' hl').2⟩
    · have : (List.length ∘ negPts : List (K × K) → Nat) = List.length := by
        funext l; simp [negPts]
      rw [List.map_map, this, literalSamples]; exact h8
  | @and args hl _ ih =>
    have hne : args ≠ [] := by rintro rfl; simp at hl
    obtain ⟨ls, zs, h1, h2, h3, h4, h5, h6, h7, h8, h9, h10⟩ := nary _ _ (pairOp_le nd) (.inl fun _ _ => rfl) args hne
      fun e he => ih e he fun n hn => hs n (.and he hn)
    refine ⟨zs, _, ?_, h3, h4, h5, h6, h7, by rw [h8, literalCount], by rw [literalSamples]; exact h9⟩
    unfold computeRobustness
    rw [RobustnessOp.compute, h1]
    simp only [Outcome.bind_ok, List.length_map, assert_, h10, beq_self_eq_true, Bool.or_true, if_true,
      elementwiseMin]
    exact h2
  | @or args hl _ ih =>
    have hne : args ≠ [] := by rintro rfl; simp at hl
    obtain ⟨ls, zs, h1, h2, h3, h4, h5, h6, h7, h8, h9, h10⟩ := nary _ _ (pairOp_ge nd) (.inr fun _ _ => rfl) args hne
      fun e he => ih e he fun n hn => hs n (.or he hn)
    refine ⟨zs, _, ?_, h3, h4, h5, h6, h7, by rw [h8, literalCount], by rw [literalSamples]; exact h9⟩
    unfold computeRobustness
    rw [RobustnessOp.compute, h1]
    simp only [Outcome.bind_ok, List.length_map, assert_, h10, beq_self_eq_true, Bool.or_true, if_true,
      elementwiseMax]
    exact h2
  | @always e i hi _ ih =>
    obtain ⟨zs, L, h⟩ := ih fun n hn => hs n (.always hn)
    have hlen := h.length_le
    obtain ⟨h1, h2, h3, -⟩ := h
    refine one _ (sufPts min zs) (eventually_fin h1 (represents_ofPts h2) (StartsAt.ne h3) i (intervalBuilt_high hi)).2
      (increasing_sufPts.2 h2) (startsAt_sufPts h3) (by simp [literalCount]) ?_
    have := congrArg List.length (sufPts_fst min zs)
    simp only [List.length_map] at this
    rw [this, literalSamples]; exact hlen
  | @eventually e i hi _ ih =>
    obtain ⟨zs, L, h⟩ := ih fun n hn => hs n (.eventually hn)
    have hlen := h.length_le
    obtain ⟨h1, h2, h3, -⟩ := h
    refine one _ (sufPts max zs) (eventually_fin h1 (represents_ofPts h2) (StartsAt.ne h3) i (intervalBuilt_high hi)).1
      (increasing_sufPts.2 h2) (startsAt_sufPts h3) (by simp [literalCount]) ?_
    have := congrArg List.length (sufPts_fst max zs)
    simp only [List.length_map] at this
    rw [this, literalSamples]; exact hlen
  | @untl a b i hi _ _ ih1 ih2 =>
    obtain ⟨xs, L, h⟩ := ih1 fun n hn => hs n (.untl_left hn)
    obtain ⟨ys, M, h'⟩ := ih2 fun n hn => hs n (.untl_right hn)
    have l1 := h.length_le
    have l2 := h'.length_le
    obtain ⟨x1, ix, hx0, -⟩ := h
    obtain ⟨y1, iy, hy0, -⟩ := h'
    obtain ⟨ts, t1, t2, t3, t4, t5, -, -⟩ := computeUntil_pts nd ix iy t0 (StartsAt.mem hx0)
      (StartsAt.mem hy0) (fun t ht => StartsAt.le hx0 ix ht.1)
    have hfst : (untilPts (sample2 (eval xs) (eval ys) ts)).map Prod.fst = ts := by
      rw [untilPts_fst]; simp [sample2, Function.comp_def]
    have hi : Increasing (untilPts (sample2 (eval xs) (eval ys) ts)) := by
      unfold Increasing; rw [hfst]; exact t1
    have hdz : ∀ t, t ∈ dom (untilPts (sample2 (eval xs) (eval ys) ts)) ↔ t ∈ dom xs ∧ t ∈ dom ys := by
      intro t
      rw [dom_of_fst (zs := sampleAt (eval xs) ts) (by rw [hfst]; simp [sampleAt, Function.comp_def])]
      exact t5 _ t
    refine one _ _ (by rw [compute_until_ok x1 y1]; exact t4) hi ?_ (by simp [literalCount]) ?_
    · apply startsAt_of_dom hi
      · rw [hdz]; exact ((t3 t0).1 t2).2
      · intro t ht; exact StartsAt.le hx0 ix ((hdz t).1 ht).1
    · have e1 := congrArg List.length hfst
      rw [List.length_map] at e1
      rw [e1, literalSamples]
      have hsub : ts ⊆ xs.map Prod.fst ++ ys.map Prod.fst := by
        intro t ht
        rw [List.mem_append]; exact ((t3 t).1 ht).1
      have := (List.Nodup.subperm (t1.imp ne_of_lt) hsub).length_le
      simp only [List.length_append, List.length_map] at this
      unfold crossingBound at l1 l2
      omega

end exact
end Verif
