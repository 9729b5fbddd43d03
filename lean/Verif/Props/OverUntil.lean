import Verif.Props.Transfer

/-!
# C129: violations of Until with other operators around and below it

C128 needs signals with the same timestamps and no And and Or.  With a single level of Until, negative values can also be
trusted for operands that are themselves formulas with And, Or and Eventually, on signals with any timestamps: at the
samples of the result, between samples if both neighbours are negative, and at the start of the trace for any
combination of such formulas by And, Or and Not.
-/

namespace Verif
open Spec

section
variable {K : Type} [Field K] [LinearOrder K] [IsStrictOrderedRing K] [Arith K] [ExactArith K]

/-- **C129.**  For the formulas of `OverUntil false` the computed robustness is at least the dense-time robustness at all
samples, so a negative value means a violation; between samples the greater one of the values at the neighbouring
samples is a bound. -/
theorem C129_samples {ι : K →+* ℝ} (hι : StrictMono ι) (nd : Bool) (fuel : Nat) (trace : Trace K) (sy : Bool) (t0 T : K)
    (sig : String → List (K × K)) (phi : Expr K) (hp : OverUntil false phi)
    (hs : ∀ n, Uses n phi → ∃ x, trace.lookup n = some x ∧ Represents x (sig n) ∧ (∃ v r, sig n = (t0, v) :: r) ∧
      ∃ v, (sig n).getLast? = some (T, v)) :
    ∃ z zs, computeRobustness nd fuel phi trace sy = .ok z ∧ Represents z zs ∧
      (∀ p ∈ zs, rob (ι T) (fun n => eval (castPts ι (sig n))) (castExpr ι phi) (ι p.1) ≤ ((ι p.2 : ℝ) : EReal) ∧
        (p.2 < 0 → ¬ Sat (ι T) (fun n => eval (castPts ι (sig n))) (castExpr ι phi) (ι p.1))) ∧
      ∀ l p q r, zs = l ++ p :: q :: r → ∀ t : ℝ, ι p.1 ≤ t → t ≤ ι q.1 →
        rob (ι T) (fun n => eval (castPts ι (sig n))) (castExpr ι phi) t ≤ ((max (ι p.2) (ι q.2) : ℝ) : EReal) ∧
        (p.2 < 0 → q.2 < 0 → ¬ Sat (ι T) (fun n => eval (castPts ι (sig n))) (castExpr ι phi) t) := by
  obtain ⟨ha, hdm⟩ := aligned_cast hι hs
  obtain ⟨z', zs', e, hz', -, -⟩ := C34_total nd fuel (castTrace ι trace) sy (ι t0) (fun n => castPts ι (sig n))
    (castExpr ι phi) (overUntil_cast hι hp).plain ha
  have hu : Upper (RingHom.id ℝ) (zs'.map Prod.fst) (rob (ι T) (fun n => eval (castPts ι (sig n))) (castExpr ι phi))
      (eval zs') :=
    overUntil_core nd fuel (castTrace ι trace) sy (ι t0) (ι T) (fun n => castPts ι (sig n)) (castExpr ι phi) false
      (overUntil_cast hι hp) ha hdm z' zs' e hz'
  have hi' := ((represents_iff _ _).1 hz').1
  obtain ⟨z, zs, e1, hz, -, rfl, rfl⟩ := result_cast hι nd fuel trace sy t0 sig phi hp.plain
    (fun n hn => by obtain ⟨x, h1, h2, h3, -⟩ := hs n hn; exact ⟨x, h1, h2, h3⟩) e hz'
  have neg : ∀ v : K, v < 0 → ι v < 0 := fun v hv => by simpa using hι hv
  have hmem : ∀ p ∈ zs, (ι p.1, ι p.2) ∈ castPts ι zs := fun p hp => List.mem_map.2 ⟨p, hp, rfl⟩
  refine ⟨z, zs, e1, hz, fun p hp => ?_, ?_⟩
  · have h := hu.at (List.mem_map_of_mem (hmem p hp))
    simp only [RingHom.id_apply, eval_mem hi' (hmem p hp)] at h
    exact ⟨h, fun h0 => (rob_sat _ _ _ _).2 (h.trans_lt (EReal.coe_lt_coe_iff.2 (neg _ h0)))⟩
  · rintro l p q r rfl t g1 g2
    have hpp := hmem p (by simp)
    have hqq := hmem q (by simp)
    obtain ⟨i1, i2, i3⟩ := increasing_append.1 ((represents_iff _ _).1 hz).1
    have hpq : p.1 < q.1 := (increasing_cons.1 i2).1 q (by simp)
    have h := hu (ι p.1) (List.mem_map_of_mem hpp) (ι q.1) (List.mem_map_of_mem hqq) (hι hpq).le (by
      intro c hc
      obtain ⟨w, hw, rfl⟩ := List.mem_map.1 hc
      obtain ⟨u, hu, rfl⟩ := List.mem_map.1 hw
      rcases List.mem_append.1 hu with hu | hu
      · exact .inl (hι (i3 u hu p (by simp))).le
      · rcases List.mem_cons.1 hu with rfl | hu
        · exact .inl le_rfl
        · rcases List.mem_cons.1 hu with rfl | hu
          · exact .inr le_rfl
          · exact .inr (hι ((increasing_cons.1 (increasing_cons.1 i2).2).1 u hu)).le) t g1 g2
    simp only [RingHom.id_apply, eval_mem hi' hpp, eval_mem hi' hqq] at h
    exact ⟨h, fun h0 h1 => (rob_sat _ _ _ _).2
      (h.trans_lt (EReal.coe_lt_coe_iff.2 (max_lt (neg _ h0) (neg _ h1))))⟩

/-- **C129 at the start of the trace**, for all combinations of such formulas by And, Or and Not: the first value is at
least the robustness for `MixUntil false`, and at most for `MixUntil true`; so a negative (positive) value means that the
formula is violated (satisfied) at the start. -/
theorem C129_start {ι : K →+* ℝ} (hι : StrictMono ι) (nd : Bool) (fuel : Nat) (trace : Trace K) (sy : Bool) (t0 T : K)
    (sig : String → List (K × K)) (phi : Expr K) (pol : Bool) (hp : MixUntil pol phi)
    (hs : ∀ n, Uses n phi → ∃ x, trace.lookup n = some x ∧ Represents x (sig n) ∧ (∃ v r, sig n = (t0, v) :: r) ∧
      ∃ v, (sig n).getLast? = some (T, v)) :
    ∃ z first rest v, computeRobustness nd fuel phi trace sy = .ok z ∧ z.samples = first :: rest ∧
      first.time = .fin t0 ∧ first.value = .fin v ∧
      (pol = false → rob (ι T) (fun n => eval (castPts ι (sig n))) (castExpr ι phi) (ι t0) ≤ ((ι v : ℝ) : EReal) ∧
        (v < 0 → ¬ Sat (ι T) (fun n => eval (castPts ι (sig n))) (castExpr ι phi) (ι t0))) ∧
      (pol = true → ((ι v : ℝ) : EReal) ≤ rob (ι T) (fun n => eval (castPts ι (sig n))) (castExpr ι phi) (ι t0) ∧
        (0 < v → Sat (ι T) (fun n => eval (castPts ι (sig n))) (castExpr ι phi) (ι t0))) := by
  obtain ⟨ha, hdm⟩ := aligned_cast hι hs
  obtain ⟨z', zs', e, hz', -, -⟩ := C34_total nd fuel (castTrace ι trace) sy (ι t0) (fun n => castPts ι (sig n))
    (castExpr ι phi) (mixUntil_cast hι hp).plain ha
  have hv := mixUntil_core nd fuel (castTrace ι trace) sy (ι t0) (ι T) (fun n => castPts ι (sig n)) (castExpr ι phi) pol
    (mixUntil_cast hι hp) ha hdm z' zs' e hz'
  obtain ⟨z, zs, e1, hz, ⟨v, r, rfl⟩, rfl, rfl⟩ := result_cast hι nd fuel trace sy t0 sig phi hp.plain
    (fun n hn => by obtain ⟨x, h1, h2, h3, -⟩ := hs n hn; exact ⟨x, h1, h2, h3⟩) e hz'
  rw [eval_mem ((represents_iff _ _).1 hz').1 (show (ι t0, ι v) ∈ castPts ι ((t0, v) :: r) by simp [castPts])] at hv
  have hm := hz.2
  cases hss : z.samples with
  | nil => rw [hss] at hm; simp at hm
  | cons first rest =>
    rw [hss] at hm
    simp only [List.map_cons, List.cons.injEq, tv, lift, Prod.mk.injEq] at hm
    refine ⟨z, first, rest, v, e1, hss, hm.1.1, hm.1.2, ?_, ?_⟩
    · rintro rfl
      have hv : rob (ι T) (fun n => eval (castPts ι (sig n))) (castExpr ι phi) (ι t0) ≤ ((ι v : ℝ) : EReal) := hv
      exact ⟨hv, fun h => (rob_sat _ _ _ _).2 (hv.trans_lt (EReal.coe_lt_coe_iff.2 (by simpa using hι h)))⟩
    · rintro rfl
      have hv : ((ι v : ℝ) : EReal) ≤ rob (ι T) (fun n => eval (castPts ι (sig n))) (castExpr ι phi) (ι t0) := hv
      exact ⟨hv, fun h => (rob_sat _ _ _ _).1 (lt_of_lt_of_le (EReal.coe_lt_coe_iff.2 (by simpa using hι h)) hv)⟩

end

/-! A concrete case: signals with different timestamps, an Until with an operand that contains And, and an Or. -/

def mixPhi : Expr ℚ :=
  .or [.always (.untl (.and [.pred "x" .GE (.fin 2), .pred "y" .GE 0]) (.pred "y" .GE (.fin 3)) Interval.default)
      Interval.default, .pred "x" .GE (.fin 2)]

theorem mixPhi_mix : MixUntil false mixPhi := by
  refine .or (by decide) fun e he => ?_
  simp only [List.mem_cons, List.not_mem_nil, or_false] at he
  rcases he with rfl | rfl
  · refine .base (.globally (.untl (.inl rfl) (.and (by decide) fun e he => ?_) (.pred _ _ _ _)))
    simp only [List.mem_cons, List.not_mem_nil, or_false] at he
    rcases he with rfl | rfl <;> exact .pred _ _ _ _
  · exact .base (.base (.pred _ _ _ _))

theorem mixPhi_uses : ∀ n, Uses n mixPhi → n = "x" ∨ n = "y" := by
  intro n h
  cases h with
  | or hm h =>
    rcases List.mem_cons.1 hm with rfl | hm
    · cases h with
      | always h =>
        cases h with
        | untl_left h =>
          cases h with
          | and hm h =>
            rcases List.mem_cons.1 hm with rfl | hm
            · cases h; exact .inl rfl
            · rcases List.mem_cons.1 hm with rfl | hm
              · cases h; exact .inr rfl
              · simp at hm
        | untl_right h => cases h; exact .inr rfl
    · rcases List.mem_cons.1 hm with rfl | hm
      · cases h; exact .inl rfl
      · simp at hm

/-- The first value is -1; the formula is violated at the start in dense time. -/
example : ¬ Sat 3 (fun n => eval (castPts (Rat.castHom ℝ) (ratSig n))) (castExpr (Rat.castHom ℝ) mixPhi) 0 := by
  obtain ⟨z, f, r, v, e, hz, h1, h2, h3, -⟩ := C129_start (ι := Rat.castHom ℝ) Rat.cast_strictMono false 20 ratTrace false
    0 3 ratSig mixPhi false mixPhi_mix (fun n hn => ratTrace_ends n (by
      rcases mixPhi_uses n hn with rfl | rfl
      · exact .always (.and (List.mem_cons_self ..) (.pred _ _))
      · exact .always (.and (List.mem_cons_of_mem _ (List.mem_cons_self ..)) (.not (.eventually (.pred _ _))))))
  have hv : (match computeRobustness false 20 mixPhi ratTrace false with
    | .ok z => (z.samples.head?.map tv) | _ => none) = some (.fin 0, .fin (-1)) := by decide +kernel
  rw [e] at hv
  simp only [hz, List.head?_cons, Option.map_some, tv, h2, Option.some.injEq, Prod.mk.injEq, D.fin.injEq] at hv
  have := (h3 rfl).2 (by rw [hv.2]; norm_num)
  simpa using this

end Verif
