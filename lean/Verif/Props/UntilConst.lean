import Verif.Proofs.UntilConst
import Verif.Props.Constants
import Verif.Props.Until

/-!
# Until with Boolean constants: C90
-/

set_option linter.unusedSectionVars false

namespace Verif
open Spec

/-- The statement of C90: `true U φ` is `F φ`. -/
def TrueUntil (K : Type) [Field K] [LinearOrder K] [Arith K] : Prop :=
  ∀ (trace : Trace K) (phi : Expr K) (y z : Signal K),
    computeRobustness false 0 (.Eventually phi) trace false = .ok y →
    computeRobustness false 0 (.Until (.const true) phi) trace false = .ok z → z.samples.map tv = y.samples.map tv

/-- The statement of C90: `false U φ` is `φ`. -/
def FalseUntil (K : Type) [Field K] [LinearOrder K] [Arith K] : Prop :=
  ∀ (trace : Trace K) (phi : Expr K) (y z : Signal K),
    computeRobustness false 0 phi trace false = .ok y →
    computeRobustness false 0 (.Until (.const false) phi) trace false = .ok z → z.samples.map tv = y.samples.map tv

/-- The statement of C90: `φ U true` is `true` and `φ U false` is `false`. -/
def UntilConst (K : Type) [Field K] [LinearOrder K] [Arith K] (b : Bool) (v : D K) : Prop :=
  ∀ (trace : Trace K) (phi : Expr K) (y z : Signal K), computeRobustness false 0 phi trace false = .ok y →
    computeRobustness false 0 (.Until phi (.const b)) trace false = .ok z → ∀ a ∈ z.samples, a.value = v

/-- **C90 is false** in all four cases. -/
theorem C90_refuted : ¬ TrueUntil ℚ ∧ ¬ FalseUntil ℚ ∧ ¬ UntilConst ℚ true .pinf ∧ ¬ UntilConst ℚ false .ninf := by
  refine ⟨fun H => ?_, fun H => ?_, fun H => ?_, fun H => ?_⟩
  · have := H [("x", ofPts [(0, -1), (1, -5), (2, -3)])] (.pred "x" .GE 0) (ofPts [(0, -1), (1, -3), (2, -3)])
      ⟨[⟨.fin 0, .fin 3, .fin 0⟩, ⟨.fin 1, .fin 3, .pinf⟩, ⟨.fin 2, .pinf, .fin 0⟩]⟩ (by decide +kernel)
      (by decide +kernel)
    revert this; decide +kernel
  · have := H [("x", ofPts [(0, -1), (1, -5), (2, -3)])] (.pred "x" .GE 0) (ofPts [(0, -1), (1, -5), (2, -3)])
      (ofPts [(0, 1), (1, 3), (2, 3)]) (by decide +kernel) (by decide +kernel)
    revert this; decide +kernel
  · have := H [("x", ofPts [(0, -1), (1, -5), (2, -3)])] (.pred "x" .GE 0) (ofPts [(0, -1), (1, -5), (2, -3)])
      ⟨[⟨.fin 0, .pinf, .nan⟩, ⟨.fin 1, .nan, .nan⟩, ⟨.fin 2, .pinf, .fin 0⟩]⟩ (by decide +kernel)
      (by decide +kernel) ⟨.fin 1, .nan, .nan⟩ (by simp)
    revert this; decide +kernel
  · have := H [("x", ofPts [(0, -1), (1, -5), (2, -3)])] (.pred "x" .GE 0) (ofPts [(0, -1), (1, -5), (2, -3)])
      ⟨[⟨.fin 0, .pinf, .nan⟩, ⟨.fin 1, .nan, .nan⟩, ⟨.fin 2, .pinf, .fin 0⟩]⟩ (by decide +kernel)
      (by decide +kernel) ⟨.fin 2, .pinf, .fin 0⟩ (by simp)
    revert this; decide +kernel

section any
variable {K : Type} [Field K] [LinearOrder K] [IsStrictOrderedRing K] [Arith K]

/-- The constants and the operand of the theorems below. -/
theorem const_setup {nd : Bool} {fuel : Nat} {trace : Trace K} {sy : Bool} {phi : Expr K}
    {x : Signal K} {t0 t1 : K} {v w : D K} {mid : List (D K × D K)}
    (hne : trace ≠ []) (htr : ∀ e ∈ trace, e.2.beginTime = .fin t0 ∧ e.2.endTime = .fin t1)
    (hphi : computeRobustness nd fuel phi trace sy = .ok x)
    (hfin : ∀ s ∈ x.samples, ∃ t : K, s.time = .fin t)
    (hx : x.samples.map tv = (.fin t0, v) :: (mid ++ [(.fin t1, w)])) (b : Bool) :
    ∃ c, c = (if b then D.pinf else .ninf) ∧
    (∃ z, computeRobustness nd fuel (.Until (.const b) phi) trace sy = .ok z ∧ z.samples.map tv =
      (suf uStep (.pinf, .ninf) ((.fin t0, (c, v)) :: (mid.map (fun p => (p.1, ((.nan : D K), p.2))) ++
        [(.fin t1, (c, w))]))).map fun p => (p.1, p.2.1)) ∧
    (∃ z, computeRobustness nd fuel (.Until phi (.const b)) trace sy = .ok z ∧ z.samples.map tv =
      (suf uStep (.pinf, .ninf) ((.fin t0, (v, c)) :: (mid.map (fun p => (p.1, (p.2, (.nan : D K)))) ++
        [(.fin t1, (w, c))]))).map fun p => (p.1, p.2.1)) := by
  have hwf : FinT x := ⟨C42_robustness_well_formed nd fuel phi trace sy x hphi, hfin⟩
  obtain ⟨-, -, hlt, -, -, -⟩ := sync_const_aux hwf hx
  have hmm := minMaxTime_common hne htr
  refine ⟨_, rfl, ?_⟩
  set c : D K := if b then .pinf else .ninf with hc
  have hc' : c = .pinf ∨ c = .ninf := by cases b <;> simp [hc]
  unfold computeRobustness at hphi ⊢
  simp only [hmm] at hphi ⊢
  set r : RobustnessOp K := ⟨nd, fuel, .fin t0, .fin t1, trace⟩ with hr
  have hcst : r.compute (.const b) = .ok ⟨build [(.fin t0, c), (.fin t1, c)]⟩ := by
    rw [RobustnessOp.compute, RobustnessOp.const]
    exact const_ok _ (by show (D.fin t0).lt (.fin t1) = true; simpa using hlt)
  have hz : ∀ (l l' : List (Sample K)), List.zipWith (fun i j : Sample K => (i.time, (i.value, j.value))) l l' =
      List.zipWith (fun p q : D K × D K => (p.1, (p.2, q.2))) (l.map tv) (l'.map tv) := by
    intro l l'; rw [List.zipWith_map]; rfl
  have hmid : ∀ f : D K × D K → D K × D K → D K × (D K × D K),
      ∀ (a b c d : D K × D K) (mid' : List (D K × D K)), mid'.length = mid.length →
      List.zipWith f (a :: (mid' ++ [b])) (c :: (mid ++ [d])) =
        f a c :: (List.zipWith f mid' mid ++ [f b d]) := by
    intro f a b c d mid' hl
    rw [List.zipWith_cons_cons, List.zipWith_append hl]; rfl
  have hop : ∀ x y : Signal K, r.untilOp x y Interval.default = computeUntil r.ndebug x y := by
    intro x y
    simp [RobustnessOp.untilOp, Interval.default, Interval.asDouble, Interval.numAsDouble, Interval.hasValue,
      Interval.isZeroToInf, D.isinf, Interval.numIsZero]
    intro h h'
    rw [h] at h'
    exact absurd h' (by simp)
  have hcf := const_finT hc' hlt
  constructor
  · obtain ⟨z, h1, h2⟩ := until_sync_tv (nd := nd) hcf hwf (sync_const_left hwf hc' hx)
    refine ⟨z, by rw [Expr.Until, compute_untl, hcst, Outcome.bind_ok, hphi, Outcome.bind_ok, hop]; exact h1, ?_⟩
    rw [h2, hz, build_map_tv, hx, constPts, hmid _ _ _ _ _ _ (by simp)]
    congr 5
    rw [List.zipWith_map_left, List.zipWith_map_left]
    generalize mid = l
    induction l with
    | nil => rfl
    | cons p l ih => rw [List.zipWith_cons_cons, List.map_cons, ih]
  · obtain ⟨z, h1, h2⟩ := until_sync_tv (nd := nd) hwf hcf (sync_const_right hwf hc' hx)
    refine ⟨z, by rw [Expr.Until, compute_untl, hcst, hphi, Outcome.bind_ok, Outcome.bind_ok, hop]; exact h1, ?_⟩
    rw [h2, hz, build_map_tv, hx, constPts, List.zipWith_cons_cons, List.zipWith_append (by simp)]
    congr 5
    rw [List.zipWith_map_right, List.zipWith_map_right]
    generalize mid = l
    induction l with
    | nil => rfl
    | cons p l ih => rw [List.zipWith_cons_cons, List.map_cons, ih]

/-- **C90, what `φ U true` and `φ U false` are:** the same signal, `+inf` at both ends and NaN at all other
samples.  (Missing: that they are `true` and `false`, which is false.) -/
theorem C90_right_partial (nd : Bool) (fuel : Nat) (trace : Trace K) (sy : Bool) (phi : Expr K)
    (x : Signal K) (t0 t1 : K) (v w : D K) (mid : List (D K × D K))
    (hne : trace ≠ []) (htr : ∀ e ∈ trace, e.2.beginTime = .fin t0 ∧ e.2.endTime = .fin t1)
    (hphi : computeRobustness nd fuel phi trace sy = .ok x)
    (hfin : ∀ s ∈ x.samples, ∃ t : K, s.time = .fin t)
    (hx : x.samples.map tv = (.fin t0, v) :: (mid ++ [(.fin t1, w)])) (b : Bool) :
    ∃ z, computeRobustness nd fuel (.Until phi (.const b)) trace sy = .ok z ∧
      z.samples.map tv = (.fin t0, .pinf) :: (mid.map (fun p => (p.1, .nan)) ++ [(.fin t1, .pinf)]) := by
  obtain ⟨c, hc, -, z, h1, h2⟩ := const_setup hne htr hphi hfin hx b
  have hc' : c = .pinf ∨ c = .ninf := by cases b <;> simp [hc]
  refine ⟨z, h1, ?_⟩
  rw [h2]
  have tail : ∀ mid : List (D K × D K),
      (suf uStep (.pinf, .ninf) (mid.map (fun p => (p.1, (p.2, (.nan : D K)))) ++ [(.fin t1, (w, c))])).map
        (fun p => (p.1, p.2.1)) = mid.map (fun p => (p.1, .nan)) ++ [(.fin t1, .pinf)] := by
    intro mid
    induction mid with
    | nil =>
      have := foldr_right c w hc' (.fin t1) []
      simp only [List.map_nil, List.nil_append] at this ⊢
      simp only [suf, this, List.map_cons, List.map_nil]
    | cons p mid ih =>
      have := foldr_right c w hc' (.fin t1) (p :: mid)
      rw [List.map_cons, List.cons_append] at this ⊢
      simp only [suf, List.map_cons, this, ih, List.cons_append]
  simp only [suf, List.map_cons, tail, List.foldr_cons, foldr_right c w hc' (.fin t1) mid]
  congr 2
  have key : ∀ s : D K, s = .pinf ∨ s = .nan → (uStep (v, c) (s, c)).1 = .pinf := by
    intro s hs
    rcases hc' with rfl | rfl <;> rcases hs with rfl | rfl <;> cases v <;> simp [uStep, D.max, D.min, D.lt]
  refine key _ ?_
  cases mid <;> simp

/-- **C90, what `true U φ` and `false U φ` are**, for a `φ` with finite timestamps and no NaN: with `M` the
greatest value of `φ` from a sample on, `false U φ` is the greater one of `φ` and `-M` there; so is `true U φ`
except at the last sample, where it is `+inf`, and at the first one, where it is not below the second one.
(Missing: that they are `F φ` and `φ`, which is false.) -/
theorem C90_left_partial (nd : Bool) (fuel : Nat) (trace : Trace K) (sy : Bool) (phi : Expr K)
    (x : Signal K) (t0 t1 : K) (v w : D K) (mid : List (D K × D K))
    (hne : trace ≠ []) (htr : ∀ e ∈ trace, e.2.beginTime = .fin t0 ∧ e.2.endTime = .fin t1)
    (hphi : computeRobustness nd fuel phi trace sy = .ok x)
    (hfin : ∀ s ∈ x.samples, ∃ t : K, s.time = .fin t)
    (hx : x.samples.map tv = (.fin t0, v) :: (mid ++ [(.fin t1, w)]))
    (hn : ∀ s ∈ x.samples, s.value ≠ .nan) :
    ∃ z z', computeRobustness nd fuel (.Until (.const true) phi) trace sy = .ok z ∧
      computeRobustness nd fuel (.Until (.const false) phi) trace sy = .ok z' ∧
      z.samples.map Sample.time = x.samples.map Sample.time ∧
      z'.samples.map Sample.time = x.samples.map Sample.time ∧
      ∀ k u, (x.samples.map Sample.value)[k]? = some u →
        ∃ M, M ∈ (x.samples.map Sample.value).drop k ∧
          (∀ u' ∈ (x.samples.map Sample.value).drop k, u'.le M = true) ∧
          (z'.samples.map Sample.value)[k]? = some (D.max u (-M)) ∧
          (0 < k → k + 1 < x.samples.length → (z.samples.map Sample.value)[k]? = some (D.max u (-M))) ∧
          (k + 1 = x.samples.length → (z.samples.map Sample.value)[k]? = some .pinf) ∧
          (k = 0 → ∃ s, (z.samples.map Sample.value)[1]? = some s ∧
            (z.samples.map Sample.value)[0]? = some (D.max (D.max u s) (-M))) := by
  obtain ⟨c, hc, ⟨z, h1, h2⟩, -⟩ := const_setup hne htr hphi hfin hx true
  obtain ⟨c', hc', ⟨z', h1', h2'⟩, -⟩ := const_setup hne htr hphi hfin hx false
  simp only [if_true, Bool.false_eq_true, if_false] at hc hc'
  have xv : x.samples.map Sample.value = v :: (mid.map Prod.snd ++ [w]) := by
    have := congrArg (List.map Prod.snd) hx
    simpa [tv, Function.comp_def] using this
  have xt : x.samples.map Sample.time = .fin t0 :: (mid.map Prod.fst ++ [.fin t1]) := by
    have := congrArg (List.map Prod.fst) hx
    simpa [tv, Function.comp_def] using this
  have hlen : x.samples.length = mid.length + 2 := by simpa using congrArg List.length hx
  have hvn : ∀ u ∈ v :: (mid.map Prod.snd ++ [w]), u ≠ .nan := by
    rw [← xv]; intro u hu; obtain ⟨s, hs, rfl⟩ := List.mem_map.1 hu; exact hn s hs
  have sufTimes : ∀ (s : D K × D K) (l : List (D K × (D K × D K))), (suf uStep s l).map Prod.fst = l.map Prod.fst := by
    intro s l
    induction l with
    | nil => rfl
    | cons p l ih => simp [suf, ih]
  have time : ∀ (z : Signal K) (c : D K), z.samples.map tv =
      (suf uStep (.pinf, .ninf) ((.fin t0, (c, v)) :: (mid.map (fun p => (p.1, ((.nan : D K), p.2))) ++
        [(.fin t1, (c, w))]))).map (fun p => (p.1, p.2.1)) → z.samples.map Sample.time = x.samples.map Sample.time := by
    intro z c h
    have h3 := congrArg (List.map Prod.fst) h
    rw [List.map_map, List.map_map] at h3
    have h4 := sufTimes (.pinf, .ninf) ((.fin t0, (c, v)) :: (mid.map (fun p => (p.1, ((.nan : D K), p.2))) ++
        [(.fin t1, (c, w))]))
    rw [xt]
    have h5 : z.samples.map Sample.time = (suf uStep (.pinf, .ninf) ((.fin t0, (c, v)) ::
      (mid.map (fun p => (p.1, ((.nan : D K), p.2))) ++ [(.fin t1, (c, w))]))).map Prod.fst := h3
    rw [h5, h4]
    simp [Function.comp_def]
  have sufLen : ∀ (s : D K × D K) (l : List (D K × (D K × D K))), (suf uStep s l).length = l.length := by
    intro s l
    have := congrArg List.length (sufTimes s l)
    simpa using this
  have val : ∀ (z : Signal K) (c : D K), z.samples.map tv =
      (suf uStep (.pinf, .ninf) ((.fin t0, (c, v)) :: (mid.map (fun p => (p.1, ((.nan : D K), p.2))) ++
        [(.fin t1, (c, w))]))).map (fun p => (p.1, p.2.1)) → ∀ k, k < mid.length + 2 →
      (z.samples.map Sample.value)[k]? = some ((((.fin t0, (c, v)) :: (mid.map (fun p => (p.1, ((.nan : D K), p.2))) ++
        [(.fin t1, (c, w))])).drop k).foldr (fun q u => uStep q.2 u) (.pinf, .ninf)).1 := by
    intro z c h k hk
    have h3 := congrArg (List.map Prod.snd) h
    rw [List.map_map, List.map_map] at h3
    have h3 : z.samples.map Sample.value = _ := h3
    rw [h3, List.getElem?_map]
    have hk1 : k < ((.fin t0, (c, v)) :: (mid.map (fun p => (p.1, ((.nan : D K), p.2))) ++
        [(.fin t1, (c, w))])).length := by simpa using hk
    have hk2 : k < (suf uStep (.pinf, .ninf) ((.fin t0, (c, v)) :: (mid.map (fun p => (p.1, ((.nan : D K), p.2))) ++
        [(.fin t1, (c, w))]))).length := by rw [sufLen]; exact hk1
    rw [List.getElem?_eq_getElem hk2, untilSuf_getElem _ _ k hk1 hk2]
    rfl
  have hwn : w ≠ .nan := hvn w (by simp)
  have hmn : ∀ p ∈ mid, p.2 ≠ .nan := fun p hp => hvn p.2 (by
    simp only [List.mem_cons, List.mem_append, List.mem_map]; exact .inr (.inl ⟨p, hp, rfl⟩))
  have vz := val z c h2
  have vz' := val z' c' h2'
  have dropQ : ∀ (c : D K) j, j ≤ mid.length →
      ((.fin t0, (c, v)) :: (mid.map (fun p => (p.1, ((.nan : D K), p.2))) ++ [(.fin t1, (c, w))])).drop (j + 1) =
      (mid.drop j).map (fun p => (p.1, ((.nan : D K), p.2))) ++ [(.fin t1, (c, w))] := by
    intro c j hj
    rw [List.drop_succ_cons, List.drop_append_of_le_length (by simpa using hj), List.map_drop]
  have dropX : ∀ j, j ≤ mid.length → (v :: (mid.map Prod.snd ++ [w])).drop (j + 1) =
      (mid.drop j).map Prod.snd ++ [w] := by
    intro j hj
    rw [List.drop_succ_cons, List.drop_append_of_le_length (by simpa using hj), List.map_drop]
  -- the greatest value from index `j + 1` on
  have later : ∀ j, j ≤ mid.length → ∃ M, M ∈ (mid.drop j).map Prod.snd ++ [w] ∧
      (∀ u ∈ (mid.drop j).map Prod.snd ++ [w], u.le M = true) ∧
      (∀ c : D K, c = .pinf ∨ c = .ninf →
        ((mid.drop j).map (fun p => (p.1, ((.nan : D K), p.2))) ++ [((.fin t1 : D K), (c, w))]).foldr
          (fun q u => uStep q.2 u) (.pinf, .ninf) = (match mid.drop j with
          | [] => if c = .pinf then .pinf else D.max w (-M)
          | p :: _ => D.max p.2 (-M), M)) := by
    intro j hj
    have hm : ∀ p ∈ mid.drop j, p.2 ≠ .nan := fun p hp => hmn p (List.mem_of_mem_drop hp)
    obtain ⟨M, e, hM, hM'⟩ := foldr_left .pinf w (.inl rfl) hwn (.fin t1) (mid.drop j) hm
    refine ⟨M, hM, hM', ?_⟩
    rintro c (rfl | rfl)
    · exact e
    · obtain ⟨N, e', hN, hN'⟩ := foldr_left .ninf w (.inr rfl) hwn (.fin t1) (mid.drop j) hm
      have : N = M := D.le_antisymm (hM' N hN) (hN' M hM)
      rw [← this]; exact e'
  have htz := time z c h2
  have htz' := time z' c' h2'
  refine ⟨z, z', h1, h1', htz, htz', fun k u hk => ?_⟩
  rw [xv] at hk ⊢
  have hkl : k < mid.length + 2 := by
    have := (List.getElem?_eq_some_iff.1 hk).1
    simpa using this
  rw [vz' k hkl, vz k hkl]
  cases k with
  | succ j =>
    have hj : j ≤ mid.length := by omega
    obtain ⟨M, hM, hM', e⟩ := later j hj
    refine ⟨M, by rw [dropX j hj]; exact hM, by rw [dropX j hj]; exact hM', ?_, fun _ hk2 => ?_, fun hk2 => ?_, by simp⟩
    · rw [dropQ c' j hj, e c' (.inr hc'), hc']
      simp only [Option.some.injEq, reduceCtorEq, if_false]
      rcases Nat.lt_or_ge j mid.length with h | h
      · rw [List.drop_eq_getElem_cons h]
        simp only
        simp only [List.getElem?_cons_succ, List.getElem?_append_left (by simpa using h : j < (mid.map Prod.snd).length),
          List.getElem?_map, List.getElem?_eq_getElem h, Option.map_some, Option.some.injEq] at hk
        rw [hk]
      · have hj' : j = mid.length := by omega
        subst hj'
        simp at hk
        simp [hk]
    · have h : j < mid.length := by omega
      rw [dropQ c j hj, e c (.inl hc), List.drop_eq_getElem_cons h]
      simp only [Option.some.injEq]
      simp only [List.getElem?_cons_succ, List.getElem?_append_left (by simpa using h : j < (mid.map Prod.snd).length),
        List.getElem?_map, List.getElem?_eq_getElem h, Option.map_some, Option.some.injEq] at hk
      rw [hk]
    · have hj' : j = mid.length := by omega
      subst hj'
      rw [dropQ c _ hj, e c (.inl hc), hc]
      simp
  | zero =>
    simp only [List.getElem?_cons_zero, Option.some.injEq] at hk
    subst hk
    obtain ⟨M, hM, hM', e⟩ := later 0 (by omega)
    simp only [List.drop_zero] at hM hM' e
    have hMn : M ≠ .nan := hvn M (List.mem_cons_of_mem _ hM)
    have hvn' : v ≠ .nan := hvn v (by simp)
    refine ⟨D.max M v, ?_, ?_, ?_, by simp, fun h => by omega, fun _ => ?_⟩
    · rw [List.drop_zero]
      rcases D.max_eq_or M v with e | e <;> rw [e]
      · exact List.mem_cons_of_mem _ hM
      · simp
    · rw [List.drop_zero]
      intro u hu
      rcases List.mem_cons.1 hu with rfl | hu
      · exact D.le_max_right hMn hvn'
      · exact D.le_trans (hM' u hu) (D.le_max_left hMn)
    · rw [List.drop_zero, List.foldr_cons, e c' (.inr hc'), hc']
      simp only [uStep, Option.some.injEq]
      congr 1
      have : ∀ s : D K, D.max v (D.min .ninf s) = v := by
        intro s; cases s <;> cases v <;> simp [D.max, D.min, D.lt]
      exact this _
    · have v1 := vz 1 (by omega)
      rw [dropQ c 0 (by omega), List.drop_zero, e c (.inl hc)] at v1
      refine ⟨_, v1, ?_⟩
      rw [vz 0 (by omega), List.drop_zero, List.foldr_cons, e c (.inl hc)]
      simp only [uStep, Option.some.injEq]
      congr 2
      have key : ∀ s : D K, s ≠ .nan → D.min c s = s := by
        intro s hs; rw [hc]; cases s <;> simp_all [D.min, D.lt]
      refine key _ ?_
      cases mid with
      | nil => simp [hc]
      | cons p l =>
        have hp := hmn p (by simp)
        simp only
        unfold D.max
        split
        · rename_i h; exact (D.lt_ne_nan h).2
        · exact hp

end any

/-- The theorems apply to the trace of the counterexample. -/
example : computeRobustness false 0 (.Until (.pred "x" .GE 0) (.const false))
      ([("x", ofPts [(0, -1), (1, -5), (2, -3)])] : Trace ℚ) false =
    .ok ⟨[⟨.fin 0, .pinf, .nan⟩, ⟨.fin 1, .nan, .nan⟩, ⟨.fin 2, .pinf, .fin 0⟩]⟩ ∧
    (∀ e ∈ ([("x", ofPts [(0, -1), (1, -5), (2, -3)])] : Trace ℚ), e.2.beginTime = .fin 0 ∧ e.2.endTime = .fin 2) ∧
    (ofPts [((0 : ℚ), (-1 : ℚ)), (1, -5), (2, -3)]).samples.map tv =
      (.fin 0, .fin (-1)) :: ([(.fin 1, .fin (-5))] ++ [(.fin 2, .fin (-3))]) :=
  ⟨by decide +kernel, by simp; exact ⟨rfl, rfl⟩, by simp [ofPts, lift, tv]⟩

/-- The values of `C90_left_partial` on that trace: `M` is `-1`, `-3` and `-3`. -/
example : computeRobustness false 0 (.Until (.const true) (.pred "x" .GE 0))
      ([("x", ofPts [(0, -1), (1, -5), (2, -3)])] : Trace ℚ) false =
    .ok ⟨[⟨.fin 0, .fin 3, .fin 0⟩, ⟨.fin 1, .fin 3, .pinf⟩, ⟨.fin 2, .pinf, .fin 0⟩]⟩ ∧
    computeRobustness false 0 (.Until (.const false) (.pred "x" .GE 0))
      ([("x", ofPts [(0, -1), (1, -5), (2, -3)])] : Trace ℚ) false = .ok (ofPts [(0, 1), (1, 3), (2, 3)]) ∧
    (∀ s ∈ (ofPts [((0 : ℚ), (-1 : ℚ)), (1, -5), (2, -3)]).samples, s.value ≠ .nan) :=
  ⟨by decide +kernel, by decide +kernel, by decide +kernel⟩

end Verif
