import Verif.Proofs.TransferReal
import Verif.Props.Units
import Verif.Model.Binary64

/-!
# C130: the kind of the numbers does not matter

The robustness of a trace of rational numbers is the same whether it is computed with rational or with real numbers.  So
the theorems about real-valued traces (C38 - C40, C61, ...) apply to the traces that a program can be given.
-/

set_option linter.unusedSectionVars false

namespace Verif
open Spec

section
variable {K L : Type} [Field K] [LinearOrder K] [IsStrictOrderedRing K] [Arith K]
  [Field L] [LinearOrder L] [IsStrictOrderedRing L] [Arith L]

/-- **C130.**  If `ι` preserves the order and the rounding, then evaluating the formula over the trace of the images
gives the images of the samples of the robustness, or the same failure.  All formulas and all traces, also with infinite
values, NaN and signals that are not well formed. -/
theorem C130_transfer {ι : K →+* L} (hm : StrictMono ι) (hr : SameRounding ι) (nd : Bool) (fuel : Nat) (phi : Expr K)
    (trace : Trace K) (sy : Bool) :
    computeRobustness nd fuel (castExpr ι phi) (castTrace ι trace) sy =
      (computeRobustness nd fuel phi trace sy).map' (castSignal ι) := by
  have := compute_cast hm hr ⟨nd, fuel, (minMaxTime trace).1, (minMaxTime trace).2, trace⟩ phi
  unfold computeRobustness
  simp only
  rw [minMaxTime_cast hm hr]
  exact this

/-- **C130 without rounding.** -/
theorem C130_exact [ExactArith K] [ExactArith L] {ι : K →+* L} (hm : StrictMono ι) (nd : Bool) (fuel : Nat)
    (phi : Expr K) (trace : Trace K) (sy : Bool) :
    computeRobustness nd fuel (castExpr ι phi) (castTrace ι trace) sy =
      (computeRobustness nd fuel phi trace sy).map' (castSignal ι) :=
  C130_transfer hm (sameRounding_exact ι) nd fuel phi trace sy

end

section
variable {K : Type} [Field K] [LinearOrder K] [IsStrictOrderedRing K] [Arith K] [ExactArith K]

/-- **C130 for safety formulas** (C39 for traces of numbers of any kind): the computed robustness, joined by straight
lines, is a lower bound at every real time. -/
theorem C130_safety {ι : K →+* ℝ} (hι : StrictMono ι) (nd : Bool) (fuel : Nat) (trace : Trace K) (sy : Bool) (t0 T : K)
    (sig : String → List (K × K)) (phi : Expr K) (hp : Safety true phi)
    (hs : ∀ n, Uses n phi → ∃ x, trace.lookup n = some x ∧ Represents x (sig n) ∧ (∃ v r, sig n = (t0, v) :: r) ∧
      ∃ v, (sig n).getLast? = some (T, v)) :
    ∃ z zs, computeRobustness nd fuel phi trace sy = .ok z ∧ Represents z zs ∧
      (∀ t ∈ Set.Icc (ι t0) (ι T),
        ((eval (castPts ι zs) t : ℝ) : EReal) ≤
          rob (ι T) (fun n => eval (castPts ι (sig n))) (castExpr ι phi) t ∧
        (0 < eval (castPts ι zs) t → Sat (ι T) (fun n => eval (castPts ι (sig n))) (castExpr ι phi) t)) ∧
      ∀ p ∈ zs, 0 < p.2 → Sat (ι T) (fun n => eval (castPts ι (sig n))) (castExpr ι phi) (ι p.1) := by
  obtain ⟨ha, hd⟩ := aligned_cast hι hs
  obtain ⟨z', zs', e, hz', hdz, h⟩ := C39_safety_sound nd fuel (castTrace ι trace) sy (ι t0) (ι T)
    (fun n => castPts ι (sig n)) (castExpr ι phi) (safety_cast hι hp) ha hd
  obtain ⟨z, zs, e1, hz, -, rfl, rfl⟩ := result_cast hι nd fuel trace sy t0 sig phi hp.plain
    (fun n hn => by obtain ⟨x, h1, h2, h3, -⟩ := hs n hn; exact ⟨x, h1, h2, h3⟩) e hz'
  refine ⟨z, zs, e1, hz, h, fun p hp0 hpos => ?_⟩
  have hmem : (ι p.1, ι p.2) ∈ castPts ι zs := List.mem_map.2 ⟨p, hp0, rfl⟩
  refine (h (ι p.1) (hdz ▸ mem_dom_of_mem' hmem)).2 ?_
  rw [eval_castPts ι hι, eval_mem ((represents_iff _ _).1 hz).1 hp0]
  simpa using hι hpos

/-- **C130 for co-safety formulas** (C40 for traces of numbers of any kind). -/
theorem C130_cosafety {ι : K →+* ℝ} (hι : StrictMono ι) (nd : Bool) (fuel : Nat) (trace : Trace K) (sy : Bool)
    (t0 T : K) (sig : String → List (K × K)) (phi : Expr K) (hp : Safety false phi)
    (hs : ∀ n, Uses n phi → ∃ x, trace.lookup n = some x ∧ Represents x (sig n) ∧ (∃ v r, sig n = (t0, v) :: r) ∧
      ∃ v, (sig n).getLast? = some (T, v)) :
    ∃ z zs, computeRobustness nd fuel phi trace sy = .ok z ∧ Represents z zs ∧
      (∀ t ∈ Set.Icc (ι t0) (ι T),
        rob (ι T) (fun n => eval (castPts ι (sig n))) (castExpr ι phi) t ≤
          ((eval (castPts ι zs) t : ℝ) : EReal) ∧
        (eval (castPts ι zs) t < 0 → ¬ Sat (ι T) (fun n => eval (castPts ι (sig n))) (castExpr ι phi) t)) ∧
      ∀ p ∈ zs, p.2 < 0 → ¬ Sat (ι T) (fun n => eval (castPts ι (sig n))) (castExpr ι phi) (ι p.1) := by
  obtain ⟨ha, hd⟩ := aligned_cast hι hs
  obtain ⟨z', zs', e, hz', hdz, h⟩ := C40_cosafety_sound nd fuel (castTrace ι trace) sy (ι t0) (ι T)
    (fun n => castPts ι (sig n)) (castExpr ι phi) (safety_cast hι hp) ha hd
  obtain ⟨z, zs, e1, hz, -, rfl, rfl⟩ := result_cast hι nd fuel trace sy t0 sig phi hp.plain
    (fun n hn => by obtain ⟨x, h1, h2, h3, -⟩ := hs n hn; exact ⟨x, h1, h2, h3⟩) e hz'
  refine ⟨z, zs, e1, hz, h, fun p hp0 hneg => ?_⟩
  have hmem : (ι p.1, ι p.2) ∈ castPts ι zs := List.mem_map.2 ⟨p, hp0, rfl⟩
  refine (h (ι p.1) (hdz ▸ mem_dom_of_mem' hmem)).2 ?_
  rw [eval_castPts ι hι, eval_mem ((represents_iff _ _).1 hz).1 hp0]
  simpa using hι hneg

/-- **C130 for formulas of predicates, Not, And and Or** (C38 for traces of numbers of any kind): joined by straight lines
the samples are the dense-time robustness, at every real time where all signals used have a value. -/
theorem C130_boolean {ι : K →+* ℝ} (hι : StrictMono ι) (nd : Bool) (fuel : Nat) (trace : Trace K) (sy : Bool) (t0 : K)
    (T : ℝ) (sig : String → List (K × K)) (phi : Expr K) (hp : Propositional phi)
    (hs : ∀ n, Uses n phi → ∃ x, trace.lookup n = some x ∧ Represents x (sig n) ∧ ∃ v r, sig n = (t0, v) :: r) :
    ∃ z zs, computeRobustness nd fuel phi trace sy = .ok z ∧ Represents z zs ∧
      ∀ t, (∀ n, Uses n phi → t ∈ dom (castPts ι (sig n))) →
        ((eval (castPts ι zs) t : ℝ) : EReal) = rob T (fun n => eval (castPts ι (sig n))) (castExpr ι phi) t := by
  obtain ⟨z', zs', e, hz', hd, h⟩ := C38_boolean_fragment_exact nd fuel (castTrace ι trace) sy (ι t0) T
    (fun n => castPts ι (sig n)) (castExpr ι phi) (propositional_cast hp) (aligned_start_cast hι hs)
  obtain ⟨z, zs, e1, hz, -, rfl, rfl⟩ := result_cast hι nd fuel trace sy t0 sig phi hp.plain hs e hz'
  exact ⟨z, zs, e1, hz, fun t ht => h t ((hd t).2 fun n hn => ht n (uses_cast hn))⟩

/-- **C130 for nested Always and Eventually over such formulas** (C61 for traces of numbers of any kind): every sample is
the dense-time robustness at its time. -/
theorem C130_samples {ι : K →+* ℝ} (hι : StrictMono ι) (nd : Bool) (fuel : Nat) (trace : Trace K) (sy : Bool) (t0 T : K)
    (sig : String → List (K × K)) (phi : Expr K) (hp : Stack phi)
    (hs : ∀ n, Uses n phi → ∃ x, trace.lookup n = some x ∧ Represents x (sig n) ∧ (∃ v r, sig n = (t0, v) :: r) ∧
      ∃ v, (sig n).getLast? = some (T, v)) :
    ∃ z zs, computeRobustness nd fuel phi trace sy = .ok z ∧ Represents z zs ∧ (∃ v r, zs = (t0, v) :: r) ∧
      ∀ p ∈ zs, ((ι p.2 : ℝ) : EReal) = rob (ι T) (fun n => eval (castPts ι (sig n))) (castExpr ι phi) (ι p.1) := by
  obtain ⟨ha, hd⟩ := aligned_cast hι hs
  obtain ⟨z', zs', e, hz', -, h⟩ := C61_samples_exact nd fuel (castTrace ι trace) sy (ι t0) (ι T)
    (fun n => castPts ι (sig n)) (castExpr ι phi) (stack_cast hp) ha hd
  obtain ⟨z, zs, e1, hz, h0, rfl, rfl⟩ := result_cast hι nd fuel trace sy t0 sig phi hp.plain
    (fun n hn => by obtain ⟨x, h1, h2, h3, -⟩ := hs n hn; exact ⟨x, h1, h2, h3⟩) e hz'
  exact ⟨z, zs, e1, hz, h0, fun p hp0 => h (ι p.1, ι p.2) (List.mem_map.2 ⟨p, hp0, rfl⟩)⟩

/-- **C130 at the start** (C61 for traces of numbers of any kind): for combinations of such formulas the value of the first
sample is the dense-time robustness at the start, so both verdicts there are right. -/
theorem C130_start {ι : K →+* ℝ} (hι : StrictMono ι) (nd : Bool) (fuel : Nat) (trace : Trace K) (sy : Bool) (t0 T : K)
    (sig : String → List (K × K)) (phi : Expr K) (hp : Combination phi)
    (hs : ∀ n, Uses n phi → ∃ x, trace.lookup n = some x ∧ Represents x (sig n) ∧ (∃ v r, sig n = (t0, v) :: r) ∧
      ∃ v, (sig n).getLast? = some (T, v)) :
    ∃ z first rest v, computeRobustness nd fuel phi trace sy = .ok z ∧ z.samples = first :: rest ∧
      first.time = .fin t0 ∧ first.value = .fin v ∧
      ((ι v : ℝ) : EReal) = rob (ι T) (fun n => eval (castPts ι (sig n))) (castExpr ι phi) (ι t0) ∧
      (0 < v → Sat (ι T) (fun n => eval (castPts ι (sig n))) (castExpr ι phi) (ι t0)) ∧
      (v < 0 → ¬ Sat (ι T) (fun n => eval (castPts ι (sig n))) (castExpr ι phi) (ι t0)) := by
  obtain ⟨ha, hd⟩ := aligned_cast hι hs
  obtain ⟨z', f', r', v', e, hz', hf1, hf2, hv, h1, h2⟩ := C61_start_exact nd fuel (castTrace ι trace) sy (ι t0) (ι T)
    (fun n => castPts ι (sig n)) (castExpr ι phi) (combination_cast hp) ha hd
  have hs' : ∀ n, Uses n phi → ∃ x, trace.lookup n = some x ∧ Represents x (sig n) ∧ ∃ v r, sig n = (t0, v) :: r :=
    fun n hn => by obtain ⟨x, h1, h2, h3, -⟩ := hs n hn; exact ⟨x, h1, h2, h3⟩
  obtain ⟨z, zs, e1, hz, ⟨v, r, rfl⟩, -⟩ := C34_total nd fuel trace sy t0 sig phi hp.plain hs'
  have hc := C130_exact hι nd fuel phi trace sy
  rw [e, e1] at hc
  simp only [Outcome.map', Outcome.ok.injEq] at hc
  subst hc
  have hm := hz.2
  cases hss : z.samples with
  | nil => rw [hss] at hm; simp at hm
  | cons first rest =>
    rw [hss] at hm
    simp only [List.map_cons, List.cons.injEq, tv, lift, Prod.mk.injEq] at hm
    simp only [castSignal, hss, List.map_cons, List.cons.injEq] at hz'
    obtain ⟨rfl, -⟩ := hz'
    simp only [castSample, hm.1.2, castD, D.fin.injEq] at hf2
    subst hf2
    refine ⟨z, first, rest, v, e1, hss, hm.1.1, hm.1.2, hv, fun h => h1 ?_, fun h => h2 ?_⟩
    · simpa using hι h
    · simpa using hι h

end

/-! Concrete cases. -/

/-- The trace of the examples with real numbers: no need to compute with real numbers. -/
example : ∃ z : Signal ℝ, computeRobustness false 20 (castExpr (Rat.castHom ℝ) exUnits)
    (castTrace (Rat.castHom ℝ) exTrace) false = .ok z ∧ z.size = 4 := by
  rw [C130_exact Rat.cast_strictMono]
  have h : (computeRobustness false 20 exUnits exTrace false).map' Signal.size = .ok 4 := by decide +kernel
  cases e : computeRobustness false 20 exUnits exTrace false with
  | ok z =>
    rw [e] at h
    simp only [Outcome.map', Outcome.ok.injEq] at h
    exact ⟨castSignal _ z, rfl, by simpa [castSignal, Signal.size] using h⟩
  | _ => rw [e] at h; cases h

/-- The same failure: the signal is missing. -/
example : computeRobustness (K := ℝ) false 20 (castExpr (Rat.castHom ℝ) (.pred "z" .GE 0))
    (castTrace (Rat.castHom ℝ) exTrace) false = .throw .outOfRange := by
  rw [C130_exact Rat.cast_strictMono]; rfl

/-- The numbers of binary64 as rational numbers. -/
def b64Rat : B64 →+* ℚ := RingHom.id ℚ

/-- A signal with the value 1, and the predicate `x >= 2^-60`. -/
def tinyTrace : Trace B64 := [("x", ⟨[⟨.fin 0, .fin 1, .fin 0⟩]⟩)]
def tinyPhi : Expr B64 := .pred "x" .GE (.fin (1 / 1152921504606846976))

/-- **C130: the rounding has to be the same.**  In binary64 the robustness is 1, with rational numbers it is less. -/
theorem C130_rounding_needed : StrictMono b64Rat ∧
    computeRobustness false 0 (castExpr b64Rat tinyPhi) (castTrace b64Rat tinyTrace) false ≠
      (computeRobustness false 0 tinyPhi tinyTrace false).map' (castSignal b64Rat) :=
  ⟨fun _ _ h => h, by decide +kernel⟩

/-- The hypotheses of `C130_safety` for rational numbers: two signals with different timestamps. -/
def ratSig : String → List (ℚ × ℚ) := fun n => if n = "x" then [(0, 1), (2, 3), (3, 1)] else [(0, 2), (1, 1), (3, 4)]
def ratTrace : Trace ℚ := [("x", ofPts (ratSig "x")), ("y", ofPts (ratSig "y"))]
def ratPhi : Expr ℚ :=
  .always (.and [.pred "x" .GE 0, .not (.eventually (.pred "y" .LE (.fin (1 / 2))) ⟨.ull 0, .ull 1⟩)]) ⟨.ull 1, .ull 2⟩

theorem ratTrace_ends : ∀ n, Uses n ratPhi → ∃ x, ratTrace.lookup n = some x ∧ Represents x (ratSig n) ∧
    (∃ v r, ratSig n = (0, v) :: r) ∧ ∃ v, (ratSig n).getLast? = some (3, v) := by
  have hu : ∀ n, Uses n ratPhi → n = "x" ∨ n = "y" := by
    intro n h
    cases h with
    | always h =>
      cases h with
      | and hm h =>
        rcases List.mem_cons.1 hm with rfl | hm
        · cases h; exact .inl rfl
        · rcases List.mem_cons.1 hm with rfl | hm
          · cases h with
            | not h => cases h with | eventually h => cases h; exact .inr rfl
          · simp at hm
  intro n hn
  rcases hu n hn with rfl | rfl
  · exact ⟨_, rfl, represents_ofPts (by show Increasing [((0 : ℚ), (1 : ℚ)), (2, 3), (3, 1)]; simp [Increasing]; norm_num), ⟨_, _, rfl⟩, _, rfl⟩
  · exact ⟨_, rfl, represents_ofPts (by show Increasing [((0 : ℚ), (2 : ℚ)), (1, 1), (3, 4)]; simp [Increasing]), ⟨_, _, rfl⟩, _, rfl⟩

theorem ratPhi_safety : Safety true ratPhi := by
  refine .always (.inr (.inl ⟨1, 2, rfl⟩)) (.and (by decide) fun e he => ?_)
  simp only [List.mem_cons, List.not_mem_nil, or_false] at he
  rcases he with rfl | rfl
  · exact .pred _ _ _ _
  · exact .not (.eventually (.inr (.inl ⟨0, 1, rfl⟩)) (.pred _ _ _ _))

/-- The value at the start is 1/2, computed with rational numbers; the formula is satisfied there in dense time. -/
example : Sat 3 (fun n => eval (castPts (Rat.castHom ℝ) (ratSig n))) (castExpr (Rat.castHom ℝ) ratPhi) 0 := by
  obtain ⟨z, zs, e, hz, -, h⟩ := C130_safety (ι := Rat.castHom ℝ) Rat.cast_strictMono false 20 ratTrace false 0 3 ratSig
    ratPhi ratPhi_safety ratTrace_ends
  have hv : (match computeRobustness false 20 ratPhi ratTrace false with
    | .ok z => (z.samples.head?.map tv) | _ => none) = some (.fin 0, .fin (1 / 2)) := by decide +kernel
  rw [e] at hv
  simp only at hv
  have hm := hz.2
  cases hss : z.samples with
  | nil => rw [hss] at hv; simp at hv
  | cons a l =>
    cases zs with
    | nil => rw [hss] at hm; simp at hm
    | cons p r =>
      rw [hss] at hm hv
      simp only [List.map_cons, List.cons.injEq] at hm
      simp only [List.head?_cons, Option.map_some, Option.some.injEq] at hv
      rw [hv] at hm
      obtain ⟨p1, p2⟩ := p
      simp only [lift, Prod.mk.injEq, D.fin.injEq] at hm
      have := h (p1, p2) (by simp) (by rw [← hm.1.2]; norm_num)
      rw [← hm.1.1] at this
      simpa using this

/-- The hypotheses of `C130_samples` and `C130_start`: `G (x >= 0) and not F (G (x >= 0 or y >= 3))`. -/
def ratStack : Expr ℚ :=
  .eventually (.always (.or [.pred "x" .GE 0, .pred "y" .GE (.fin 3)]) ⟨.dbl 0, .dbl .pinf⟩) ⟨.dbl 0, .dbl .pinf⟩
def ratComb : Expr ℚ := .and [.always (.pred "x" .GE 0) ⟨.dbl 0, .dbl .pinf⟩, .not ratStack]

theorem ratComb_combination : Combination ratComb := by
  refine .and (by decide) fun e he => ?_
  simp only [List.mem_cons, List.not_mem_nil, or_false] at he
  rcases he with rfl | rfl
  · exact .stack (.always (.propositional (.pred _ _ 0)))
  · refine .stack (.not (.eventually (.always (.propositional (.or (by decide) fun e he => ?_)))))
    simp only [List.mem_cons, List.not_mem_nil, or_false] at he
    rcases he with rfl | rfl
    · exact .pred _ _ 0
    · exact .pred _ _ _

theorem ratComb_ends : ∀ n, Uses n ratComb → ∃ x, ratTrace.lookup n = some x ∧ Represents x (ratSig n) ∧
    (∃ v r, ratSig n = (0, v) :: r) ∧ ∃ v, (ratSig n).getLast? = some (3, v) := by
  have hx : Uses "x" ratPhi := .always (.and (List.mem_cons_self ..) (.pred _ _))
  have hy : Uses "y" ratPhi := .always (.and (List.mem_cons_of_mem _ (List.mem_cons_self ..)) (.not (.eventually (.pred _ _))))
  intro n hn
  suffices n = "x" ∨ n = "y" by
    rcases this with rfl | rfl
    · exact ratTrace_ends _ hx
    · exact ratTrace_ends _ hy
  cases hn with
  | and hm h =>
    simp only [List.mem_cons, List.not_mem_nil, or_false] at hm
    rcases hm with rfl | rfl
    · cases h with | always h => cases h; exact .inl rfl
    · cases h with
      | not h => cases h with
        | eventually h => cases h with
          | always h => cases h with
            | or hm h =>
              simp only [List.mem_cons, List.not_mem_nil, or_false] at hm
              rcases hm with rfl | rfl
              · cases h; exact .inl rfl
              · cases h; exact .inr rfl

/-- The value at the start is -1: the formula is violated there in dense time. -/
example : ¬ Sat 3 (fun n => eval (castPts (Rat.castHom ℝ) (ratSig n))) (castExpr (Rat.castHom ℝ) ratComb) 0 := by
  obtain ⟨z, f, r, v, e, hz, hf1, hf2, -, -, h⟩ := C130_start (ι := Rat.castHom ℝ) Rat.cast_strictMono false 20 ratTrace
    false 0 3 ratSig ratComb ratComb_combination ratComb_ends
  have hv : (match computeRobustness false 20 ratComb ratTrace false with
    | .ok z => (z.samples.head?.map (·.value)) | _ => none) = some (.fin (-1)) := by decide +kernel
  rw [e] at hv
  simp only [hz, List.head?_cons, Option.map_some, hf2, Option.some.injEq, D.fin.injEq] at hv
  subst hv
  simpa using h (by norm_num)

end Verif
