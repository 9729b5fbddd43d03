import Verif.Proofs.SafeExact
import Verif.Props.Errors
import Verif.Props.Binary64

/-!
# C114: when evaluation is free of undefined behaviour

`synchronize` needs a sample of both operands where the later one begins (C16); otherwise it throws or
dereferences an iterator it must not.  Here the condition is stated for the signals that the formula starts
from, and is shown to be enough for formulas of any size, in any rounding.
-/

set_option linter.unusedSectionVars false

namespace Verif
open Spec

section any
variable {K : Type} [Field K] [LinearOrder K] [IsStrictOrderedRing K] [Arith K]

/-- **C114.** If the signals at the leaves of a formula fit together (of any two, both have a sample where the
later one begins; none is empty), its evaluation returns a signal or throws an exception.  There is no
undefined behaviour, no failed assertion, and it ends.  Any rounding, any intervals, Boolean constants
included. -/
theorem C114_safe [SaneArith K] (nd : Bool) (fuel : Nat) (phi : Expr K) (trace : Trace K) (sy : Bool)
    (ht : FiniteTimes trace) (ha : Arity phi)
    (hfit : Fit (Leaf trace (minMaxTime trace).1 (minMaxTime trace).2 phi)) :
    Returns (computeRobustness nd fuel phi trace sy) := by
  have h := compute_tidy (allFin (nd := nd) (fuel := fuel) ht) phi ha hfit
  show Returns (RobustnessOp.compute ⟨nd, fuel, (minMaxTime trace).1, (minMaxTime trace).2, trace⟩ phi)
  cases e : RobustnessOp.compute ⟨nd, fuel, (minMaxTime trace).1, (minMaxTime trace).2, trace⟩ phi <;>
    simp_all [Returns, Tidy]

/-- **C114.** Read the other way: undefined behaviour, a failed assertion or an endless loop can be traced to
an empty signal, or to two signals of which one has no sample where the later one begins. -/
theorem C114_unsafe [SaneArith K] (nd : Bool) (fuel : Nat) (phi : Expr K) (trace : Trace K) (sy : Bool)
    (ht : FiniteTimes trace) (ha : Arity phi) (h : ¬ Returns (computeRobustness nd fuel phi trace sy)) :
    (∃ x, Leaf trace (minMaxTime trace).1 (minMaxTime trace).2 phi x ∧ x.samples = []) ∨
    ∃ x y, Leaf trace (minMaxTime trace).1 (minMaxTime trace).2 phi x ∧
      Leaf trace (minMaxTime trace).1 (minMaxTime trace).2 phi y ∧ x.beginTime.lt y.beginTime = true ∧
      y.beginTime ∉ times x := by
  by_contra hc
  rw [not_or] at hc
  obtain ⟨h1, h2⟩ := hc
  have hne : ∀ x, Leaf trace (minMaxTime trace).1 (minMaxTime trace).2 phi x → x.samples ≠ [] :=
    fun x hx h0 => h1 ⟨x, hx, h0⟩
  refine h (C114_safe nd fuel phi trace sy ht ha ⟨hne, fun x y hx hy => ?_⟩)
  by_cases hlt : x.beginTime.lt y.beginTime = true
  · have hm : D.max x.beginTime y.beginTime = y.beginTime := by simp [D.max, hlt]
    rw [hm]
    exact ⟨by_contra fun hn => h2 ⟨x, y, hx, hy, hlt, hn⟩, mem_beginTime (hne y hy)⟩
  · have hm : D.max x.beginTime y.beginTime = x.beginTime := by simp [D.max, hlt]
    rw [hm]
    refine ⟨mem_beginTime (hne x hx), ?_⟩
    by_cases hgt : y.beginTime.lt x.beginTime = true
    · exact by_contra fun hn => h2 ⟨y, x, hy, hx, hgt, hn⟩
    · have hnn : ∀ z, Leaf trace (minMaxTime trace).1 (minMaxTime trace).2 phi z → z.beginTime ≠ .nan := by
        intro z hz
        have hmm := minMaxTime_fin ht
        have leafFin : ∀ (e : Expr K) (z : Signal K), Leaf trace (minMaxTime trace).1 (minMaxTime trace).2 e z →
            ∀ t ∈ times z, t ≠ .nan := by
          intro e z hz
          induction hz with
          | const hz =>
            rw [hz]
            rcases hmm with e | ⟨a, b, e⟩ <;> simp [e]
          | pred hz =>
            intro t h
            obtain ⟨a, ha, rfl⟩ := List.mem_map.1 h
            obtain ⟨q, hq⟩ := ht _ (trace_mem hz) a ha
            rw [hq]; simp
          | _ => assumption
        exact leafFin phi z hz _ (mem_beginTime (hne z hz))
      have : x.beginTime = y.beginTime := by
        rcases D.trichotomy (hnn x hx) (hnn y hy) with h | h | h
        · exact absurd h hlt
        · exact h
        · exact absurd h hgt
      rw [this]
      exact mem_beginTime (hne y hy)

/-- **C114.** In particular: if the signals used by a formula without Boolean constants are not empty and begin
at the same time, its evaluation returns a signal or throws an exception. -/
theorem C114_common_start [SaneArith K] (nd : Bool) (fuel : Nat) (phi : Expr K) (trace : Trace K) (sy : Bool)
    (ht : FiniteTimes trace) (ha : Arity phi) (hc : ConstFree phi) (t0 : D K)
    (hs : ∀ n x, Uses n phi → trace.lookup n = some x → x.samples ≠ [] ∧ x.beginTime = t0) :
    Returns (computeRobustness nd fuel phi trace sy) := by
  refine C114_safe nd fuel phi trace sy ht ha ?_
  have hb : ∀ x, Leaf trace (minMaxTime trace).1 (minMaxTime trace).2 phi x → x.samples ≠ [] ∧ x.beginTime = t0 :=
    fun x hx => by obtain ⟨n, h1, h2⟩ := leaf_uses hc hx; exact hs n x h1 h2
  refine ⟨fun x hx => (hb x hx).1, fun x y hx hy => ?_⟩
  have hm : D.max x.beginTime y.beginTime = t0 := by rw [(hb x hx).2, (hb y hy).2]; simp [D.max]
  rw [hm]
  exact ⟨(hb x hx).2 ▸ mem_beginTime (hb x hx).1, (hb y hy).2 ▸ mem_beginTime (hb y hy).1⟩

/-- Two signals that do not fit together. -/
def Misfit (x y : Signal K) : Prop :=
  ¬ (D.max x.beginTime y.beginTime ∈ times x ∧ D.max x.beginTime y.beginTime ∈ times y)

/-- **C114.** The condition cannot be weakened: for predicates over two signals that do not fit together
neither And nor Or nor Until has a value, and in one of the two orders of the operands the behaviour is
undefined. -/
theorem C114_needed [SaneArith K] (nd : Bool) (fuel : Nat) (trace : Trace K) (sy : Bool) (m n : String)
    (op op' : ComparisonOp) (c c' : D K) (x y : Signal K) (hx : trace.lookup m = some x)
    (hy : trace.lookup n = some y) (wx : WF x) (wy : WF y) (nx : x.samples ≠ []) (ny : y.samples ≠ [])
    (ht : FiniteTimes trace) (hm : Misfit x y) (mk : Expr K → Expr K → Expr K)
    (hmk : mk = (fun a b => .and [a, b]) ∨ mk = (fun a b => .or [a, b]) ∨
      ∃ i, mk = fun a b => .untl a b i) :
    (∀ z, computeRobustness nd fuel (mk (.pred m op c) (.pred n op' c')) trace sy ≠ .ok z) ∧
    (∀ z, computeRobustness nd fuel (mk (.pred n op' c') (.pred m op c)) trace sy ≠ .ok z) ∧
    ∃ u, computeRobustness nd fuel (mk (.pred m op c) (.pred n op' c')) trace sy = .ub u ∨
      computeRobustness nd fuel (mk (.pred n op' c') (.pred m op c)) trace sy = .ub u := by
  set r : RobustnessOp K := ⟨nd, fuel, (minMaxTime trace).1, (minMaxTime trace).2, trace⟩ with hr
  -- the predicates have values with the timestamps of the signals
  have pr : ∀ (k : String) (o : ComparisonOp) (d : D K) (s : Signal K), trace.lookup k = some s → WF s →
      ∃ z, r.compute (.pred k o d) = .ok z ∧ FinT z ∧ times z = times s := by
    intro k o d s hk hw
    have hat : r.trace.at_ k = .ok s := by simp [Trace.at_, hr, hk]
    have hok : ∃ z, r.compute (.pred k o d) = .ok z := by
      rw [RobustnessOp.compute, RobustnessOp.pred, hat, Outcome.bind_ok, ofSamples_eq, if_pos]
      · exact ⟨_, rfl⟩
      · have hs : SortedT (s.samples.map fun a => (⟨a.time, RobustnessOp.predValue o d a.value, 0⟩ : Sample K)) := by
          have := sortedT_of_ordered _ hw.1 (FinTimes.noNaN (ht _ (trace_mem hk)))
          simpa [SortedT, Function.comp_def] using this
        exact (ordered_iff _).1 (ordered_of_sortedT _ hs)
    obtain ⟨z, hz⟩ := hok
    refine ⟨z, hz, allFin ht _ _ hz, ?_⟩
    obtain ⟨x', h1, -, h3⟩ := pred_ok hz
    have h1 : trace.lookup k = some x' := h1
    rw [hk, Option.some.injEq] at h1; subst h1
    have := congrArg (List.map Prod.fst) h3
    simpa [tv, Function.comp_def, times] using this
  obtain ⟨zx, ex, fx, tx⟩ := pr m op c x hx wx
  obtain ⟨zy, ey, fy, ty⟩ := pr n op' c' y hy wy
  have nzx : zx.samples ≠ [] := by
    have : times zx ≠ [] := by rw [tx]; simpa [times] using nx
    simpa [times] using this
  have nzy : zy.samples ≠ [] := by
    have : times zy ≠ [] := by rw [ty]; simpa [times] using ny
    simpa [times] using this
  have bx : zx.beginTime = x.beginTime := by rw [beginTime_times, tx, ← beginTime_times]
  have bY : zy.beginTime = y.beginTime := by rw [beginTime_times, ty, ← beginTime_times]
  have hm' : Misfit zx zy := by unfold Misfit at hm ⊢; rw [bx, bY, tx, ty]; exact hm
  -- synchronize fails
  have nan1 := finT_ne_nan fx (mem_beginTime nzx)
  have nan2 := finT_ne_nan fy (mem_beginTime nzy)
  have nosync : ∀ {a b : Signal K}, FinT a → FinT b → a.samples ≠ [] → b.samples ≠ [] → Misfit a b →
      ∀ p, synchronize a b ≠ .ok p := by
    intro a b fa fb na nb hmab p hp
    obtain ⟨⟨u, hu, eu⟩, ⟨v, hv, ev⟩⟩ := (C16_synchronize_partial a b (finT_strict fa) (finT_strict fb) na nb).1 ⟨p, hp⟩
    exact hmab ⟨eu ▸ List.mem_map_of_mem hu, ev ▸ List.mem_map_of_mem hv⟩
  have hswap : Misfit zy zx := by
    have hmax : D.max zy.beginTime zx.beginTime = D.max zx.beginTime zy.beginTime := by
      rcases D.trichotomy nan1 nan2 with h | h | h
      · simp [D.max, h, D.lt_asymm h]
      · rw [h]
      · simp [D.max, h, D.lt_asymm h]
    unfold Misfit at hm' ⊢; rw [hmax]; exact fun h => hm' ⟨h.2, h.1⟩
  have s1 := nosync fx fy nzx nzy hm'
  have s2 := nosync fy fx nzy nzx hswap
  -- in one of the orders the behaviour is undefined
  have ubOf : ∀ {a b : Signal K}, FinT a → FinT b → a.samples ≠ [] → b.samples ≠ [] → Misfit a b →
      a.beginTime.lt b.beginTime = true → ∃ u, synchronize a b = .ub u ∨ synchronize b a = .ub u := by
    intro a b fa fb na nb hmab hlt
    have hnot : b.beginTime ∉ times a := by
      intro h
      refine hmab ?_
      have : D.max a.beginTime b.beginTime = b.beginTime := by simp [D.max, hlt]
      rw [this]; exact ⟨h, mem_beginTime nb⟩
    by_cases hex : ∃ s ∈ a.samples, b.beginTime.lt s.time = true
    · refine ⟨.prevBegin, .inr ((C16_synchronize_failures b a (finT_strict fb) (finT_strict fa) nb na).2.2 hex hlt ?_)⟩
      rintro ⟨s, hs, e⟩
      exact hnot (e ▸ List.mem_map_of_mem hs)
    · refine ⟨.derefEnd, .inl ((C16_synchronize_failures a b (finT_strict fa) (finT_strict fb) na nb).1 (.inl ?_))⟩
      have hmem : a.endTime ∈ times a := by
        rcases List.eq_nil_or_concat a.samples with e | ⟨l, s, e⟩
        · exact absurd e na
        · simp [Signal.endTime, times, e]
      obtain ⟨s, hs, es⟩ := List.mem_map.1 hmem
      have hn1 := finT_ne_nan fa hmem
      have hn2 := finT_ne_nan fb (mem_beginTime nb)
      rcases D.trichotomy hn1 hn2 with h | h | h
      · exact h
      · exact absurd (h ▸ hmem) hnot
      · exact absurd ⟨s, hs, es ▸ h⟩ hex
  have hub : ∃ u, synchronize zx zy = .ub u ∨ synchronize zy zx = .ub u := by
    rcases D.trichotomy nan1 nan2 with h | h | h
    · exact ubOf fx fy nzx nzy hm' h
    · exfalso
      apply hm'
      have : D.max zx.beginTime zy.beginTime = zx.beginTime := by rw [h]; simp [D.max]
      rw [this]
      exact ⟨mem_beginTime nzx, h ▸ mem_beginTime nzy⟩
    · obtain ⟨u, h⟩ := ubOf fy fx nzy nzx hswap h
      exact ⟨u, h.symm⟩
  -- the operators call synchronize
  have run : ∀ (a b : Expr K) (za zb : Signal K), r.compute a = .ok za → r.compute b = .ok zb → FinT za → FinT zb →
      ∃ f : Signal K × Signal K → Outcome (Signal K),
        computeRobustness nd fuel (mk a b) trace sy = (synchronize za zb >>= f) := by
    intro a b za zb ha hb fa fb
    have hargs : r.computeArgs [a, b] = .ok [za, zb] := by
      rw [RobustnessOp.computeArgs, ha, Outcome.bind_ok, RobustnessOp.computeArgs, hb, Outcome.bind_ok,
        RobustnessOp.computeArgs]; rfl
    have hdef : ∀ e, computeRobustness nd fuel e trace sy = r.compute e := fun _ => rfl
    rcases hmk with rfl | rfl | ⟨i, rfl⟩
    · refine ⟨fun p => minmaxPairLoop Sample.le Signal.empty .NONE none none p.1.samples p.2.samples, ?_⟩
      rw [hdef]
      show r.compute (.and [a, b]) = _
      rw [RobustnessOp.compute, hargs, Outcome.bind_ok, assert_true _ (by simp), Outcome.bind_ok]
      exact minmaxPair_finT nd _ fa fb
    · refine ⟨fun p => minmaxPairLoop Sample.ge Signal.empty .NONE none none p.1.samples p.2.samples, ?_⟩
      rw [hdef]
      show r.compute (.or [a, b]) = _
      rw [RobustnessOp.compute, hargs, Outcome.bind_ok, assert_true _ (by simp), Outcome.bind_ok]
      exact minmaxPair_finT nd _ fa fb
    · refine ⟨fun p => Signal.ofSamples (untilLoop .pinf .ninf p.1.samples.reverse p.2.samples.reverse).reverse, ?_⟩
      rw [hdef]
      show r.compute (.untl a b i) = _
      rw [compute_untl, ha, Outcome.bind_ok, hb, Outcome.bind_ok, untilOp_sane]
      exact computeUntil_finT nd fa fb
  obtain ⟨f, hf⟩ := run _ _ _ _ ex ey fx fy
  obtain ⟨g, hg⟩ := run _ _ _ _ ey ex fy fx
  rw [hf, hg]
  refine ⟨fun z h => ?_, fun z h => ?_, ?_⟩
  · obtain ⟨p, hp, -⟩ := Outcome.bind_eq_ok.1 h; exact s1 p hp
  · obtain ⟨p, hp, -⟩ := Outcome.bind_eq_ok.1 h; exact s2 p hp
  · obtain ⟨u, h | h⟩ := hub
    · exact ⟨u, .inl (by rw [h]; rfl)⟩
    · exact ⟨u, .inr (by rw [h]; rfl)⟩

end any

section exact
variable {K : Type} [Field K] [LinearOrder K] [IsStrictOrderedRing K] [Arith K] [ExactArith K]

/-- **C114.** In exact arithmetic there is no exception either: a plain formula over finite, well-formed signals
that fit together has a robustness signal, and its domain is the intersection of the domains of the signals
used.  (C34 is the case of signals that begin at the same time.) -/
theorem C114_total (nd : Bool) (fuel : Nat) (trace : Trace K) (sy : Bool) (ht : FiniteTimes trace)
    (sig : String → List (K × K)) (phi : Expr K) (hp : Plain phi)
    (hs : ∀ n, Uses n phi → ∃ x, trace.lookup n = some x ∧ Represents x (sig n) ∧ sig n ≠ [])
    (hfit : ∀ m n x y, Uses m phi → Uses n phi → trace.lookup m = some x → trace.lookup n = some y →
      D.max x.beginTime y.beginTime ∈ times x) :
    ∃ z zs, computeRobustness nd fuel phi trace sy = .ok z ∧ Represents z zs ∧
      ∀ t, t ∈ dom zs ↔ ∀ n, Uses n phi → t ∈ dom (sig n) := by
  have hc := plain_constFree hp
  have hb : ∀ x, Leaf trace (minMaxTime trace).1 (minMaxTime trace).2 phi x →
      ∃ n, Uses n phi ∧ trace.lookup n = some x ∧ x.samples ≠ [] ∧ x.beginTime ≠ .nan := by
    intro x hx
    obtain ⟨n, h1, h2⟩ := leaf_uses hc hx
    obtain ⟨x', h3, h4, h5⟩ := hs n h1
    rw [h2, Option.some.injEq] at h3; subst h3
    have hne : x.samples ≠ [] := by
      intro h0
      have := congrArg List.length h4.2
      simp [h0] at this
      exact h5 (List.length_eq_zero_iff.1 this.symm)
    refine ⟨n, h1, h2, hne, ?_⟩
    obtain ⟨a, ha, e⟩ := List.mem_map.1 (mem_beginTime hne)
    obtain ⟨q, hq⟩ := ht _ (trace_mem h2) a ha
    rw [← e, hq]; simp
  obtain ⟨zs, e, iz, hd⟩ := compute_fits (nd := nd) (fuel := fuel) (sy := sy) ht sig phi hp
    (fun n hn => by obtain ⟨x, h1, h2, -⟩ := hs n hn; exact ⟨x, h1, h2⟩)
    ⟨fun x hx => by obtain ⟨n, -, -, h, -⟩ := hb x hx; exact h, fun x y hx hy => by
      obtain ⟨n, h1, h2, -, h3⟩ := hb x hx
      obtain ⟨m, g1, g2, -, g3⟩ := hb y hy
      refine ⟨hfit n m x y h1 g1 h2 g2, ?_⟩
      have hmax : D.max x.beginTime y.beginTime = D.max y.beginTime x.beginTime := by
        rcases D.trichotomy h3 g3 with h | h | h
        · simp [D.max, h, D.lt_asymm h]
        · rw [h]
        · simp [D.max, h, D.lt_asymm h]
      rw [hmax]
      exact hfit m n y x g1 h1 g2 h2⟩
  exact ⟨_, zs, e, represents_ofPts iz, hd⟩

end exact

/-! Examples.  The signals begin at 0, 1 and 1; `x` has a sample at 1. -/

def fitTrace : Trace ℚ :=
  [("x", ofPts [(0, 4), (1, 2), (3, -1)]), ("y", ofPts [(1, 0), (2, 5)]), ("z", ofPts [(1, 1), (4, 1)])]

def fitFormula : Expr ℚ :=
  .and [.Always (.pred "x" .GE (.fin 1)), .untl (.pred "y" .LT (.fin 3)) (.not (.pred "z" .GE 0)) Interval.default]

example : Plain fitFormula :=
  .and (by simp) (by
    intro e he
    simp only [List.mem_cons, List.not_mem_nil, or_false] at he
    rcases he with rfl | rfl
    · exact .always (.inl rfl) (.pred _ _ _)
    · exact .untl (.inl rfl) (.pred _ _ _) (.not (.pred _ _ (0 : ℚ))))

/-- The hypotheses of `C114_total` for every formula over the three signals. -/
theorem fitTrace_fits : FiniteTimes fitTrace ∧ ∀ m n x y, fitTrace.lookup m = some x → fitTrace.lookup n = some y →
    x.samples ≠ [] ∧ D.max x.beginTime y.beginTime ∈ times x := by
  have all : ∀ e ∈ fitTrace, ∀ e' ∈ fitTrace, e.2.samples ≠ [] ∧ D.max e.2.beginTime e'.2.beginTime ∈ times e.2 := by
    decide +kernel
  have fin : ∀ e ∈ fitTrace, ∀ a ∈ e.2.samples, (match a.time with | .fin _ => true | _ => false) = true := by
    decide +kernel
  refine ⟨fun e he a ha => ?_, fun m n x y hm hn => all _ (trace_mem hm) _ (trace_mem hn)⟩
  have := fin e he a ha
  cases h : a.time with
  | fin t => exact ⟨t, rfl⟩
  | _ => rw [h] at this; cases this

/-- The hypothesis of `C114_safe`. -/
example : Fit (Leaf fitTrace (minMaxTime fitTrace).1 (minMaxTime fitTrace).2 fitFormula) := by
  have hc : ConstFree fitFormula := .and (by
    intro e he
    simp only [List.mem_cons, List.not_mem_nil, or_false] at he
    rcases he with rfl | rfl
    · exact .always (.pred _ _ _)
    · exact .untl (.pred _ _ _) (.not (.pred _ _ _)))
  refine ⟨fun x hx => ?_, fun x y hx hy => ?_⟩
  · obtain ⟨n, -, h⟩ := leaf_uses hc hx
    exact (fitTrace_fits.2 n n x x h h).1
  · obtain ⟨n, -, h⟩ := leaf_uses hc hx
    obtain ⟨m, -, h'⟩ := leaf_uses hc hy
    have all : ∀ e ∈ fitTrace, ∀ e' ∈ fitTrace, D.max e.2.beginTime e'.2.beginTime ∈ times e'.2 := by decide +kernel
    exact ⟨(fitTrace_fits.2 n m x y h h').2, all _ (trace_mem h) _ (trace_mem h')⟩

example : computeRobustness false 0 fitFormula fitTrace false = .ok (ofPts [(1, -2), (2, -2)]) := by decide +kernel

/-- The example of C16 does not meet the condition, and its evaluation is undefined in one order. -/
example : Misfit (ofPts [(0, 0), (2, 2)] : Signal ℚ) (ofPts [(1, 0), (2, 2)]) := by
  unfold Misfit; decide +kernel
example : computeRobustness true 0 (.and [.pred "y" .GE 0, .pred "x" .GE 0])
    ([("x", ofPts [(0, 0), (2, 2)]), ("y", ofPts [(1, 0), (2, 2)])] : Trace ℚ) false = .ub .prevBegin := by decide +kernel

/-- With a Boolean constant the signals have to fit the signal of the constant too: it begins where the
earliest signal of the trace begins, and has no other sample before the end. -/
example : computeRobustness true 0 (.and [.pred "y" .GE 0, .const true]) fitTrace false = .ub .prevBegin := by
  decide +kernel

end Verif
