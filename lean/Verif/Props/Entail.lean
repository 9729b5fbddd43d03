import Verif.Props.ActualB64
import Verif.Props.AccuracyNest
import Verif.Props.Transfer

/-!
# C134: a stronger formula gets a smaller robustness

If the dense-time robustness of one formula is below the one of another, are the computed values in the same order?  This
is what makes it safe to rewrite a specification: equivalent formulas, which are below each other, get equal values.  It
holds without error for formulas without temporal operators, and at samples for temporal operators above them; otherwise
up to the sum of the errors of the two evaluations.
-/

set_option linter.unusedSectionVars false
set_option exponentiation.threshold 1100

namespace Verif
open Spec

section exact
variable {K : Type} [Field K] [LinearOrder K] [IsStrictOrderedRing K] [Arith K] [ExactArith K]

/-- **C134, no temporal operators.**  Wherever all signals used by the two formulas have a value. -/
theorem C134_boolean {ι : K →+* ℝ} (hι : StrictMono ι) (nd : Bool) (fuel : Nat) (trace : Trace K) (sy : Bool) (t0 : K)
    (T : ℝ) (sig : String → List (K × K)) (phi psi : Expr K) (hp : Propositional phi) (hq : Propositional psi)
    (hs : ∀ n, Uses n phi ∨ Uses n psi →
      ∃ x, trace.lookup n = some x ∧ Represents x (sig n) ∧ ∃ v r, sig n = (t0, v) :: r) :
    ∃ z zs w ws, computeRobustness nd fuel phi trace sy = .ok z ∧ Represents z zs ∧
      computeRobustness nd fuel psi trace sy = .ok w ∧ Represents w ws ∧
      ∀ t, (∀ n, Uses n phi ∨ Uses n psi → t ∈ dom (castPts ι (sig n))) →
        (eval (castPts ι zs) t ≤ eval (castPts ι ws) t ↔
          rob T (fun n => eval (castPts ι (sig n))) (castExpr ι phi) t ≤
            rob T (fun n => eval (castPts ι (sig n))) (castExpr ι psi) t) := by
  obtain ⟨z, zs, e1, hz, h1⟩ := C130_boolean hι nd fuel trace sy t0 T sig phi hp fun n hn => hs n (.inl hn)
  obtain ⟨w, ws, e2, hw, h2⟩ := C130_boolean hι nd fuel trace sy t0 T sig psi hq fun n hn => hs n (.inr hn)
  refine ⟨z, zs, w, ws, e1, hz, e2, hw, fun t ht => ?_⟩
  rw [← h1 t fun n hn => ht n (.inl hn), ← h2 t fun n hn => ht n (.inr hn), EReal.coe_le_coe_iff]

/-- **C134, temporal operators at the top.**  At all times at which both results have a sample. -/
theorem C134_samples {ι : K →+* ℝ} (hι : StrictMono ι) (nd : Bool) (fuel : Nat) (trace : Trace K) (sy : Bool) (t0 T : K)
    (sig : String → List (K × K)) (phi psi : Expr K) (hp : Stack phi) (hq : Stack psi)
    (hs : ∀ n, Uses n phi ∨ Uses n psi → ∃ x, trace.lookup n = some x ∧ Represents x (sig n) ∧
      (∃ v r, sig n = (t0, v) :: r) ∧ ∃ v, (sig n).getLast? = some (T, v)) :
    ∃ z zs w ws, computeRobustness nd fuel phi trace sy = .ok z ∧ Represents z zs ∧
      computeRobustness nd fuel psi trace sy = .ok w ∧ Represents w ws ∧
      ∀ t u v : K, (t, u) ∈ zs → (t, v) ∈ ws →
        (u ≤ v ↔ rob (ι T) (fun n => eval (castPts ι (sig n))) (castExpr ι phi) (ι t) ≤
          rob (ι T) (fun n => eval (castPts ι (sig n))) (castExpr ι psi) (ι t)) := by
  obtain ⟨z, zs, e1, hz, -, h1⟩ := C130_samples hι nd fuel trace sy t0 T sig phi hp fun n hn => hs n (.inl hn)
  obtain ⟨w, ws, e2, hw, -, h2⟩ := C130_samples hι nd fuel trace sy t0 T sig psi hq fun n hn => hs n (.inr hn)
  refine ⟨z, zs, w, ws, e1, hz, e2, hw, fun t u v hu hv => ?_⟩
  rw [← h1 _ hu, ← h2 _ hv, EReal.coe_le_coe_iff, hι.le_iff_le]

/-- **C134, the start.**  Combinations of such formulas, at the first timestamp. -/
theorem C134_start {ι : K →+* ℝ} (hι : StrictMono ι) (nd : Bool) (fuel : Nat) (trace : Trace K) (sy : Bool) (t0 T : K)
    (sig : String → List (K × K)) (phi psi : Expr K) (hp : Combination phi) (hq : Combination psi)
    (hs : ∀ n, Uses n phi ∨ Uses n psi → ∃ x, trace.lookup n = some x ∧ Represents x (sig n) ∧
      (∃ v r, sig n = (t0, v) :: r) ∧ ∃ v, (sig n).getLast? = some (T, v)) :
    ∃ z a as u w b bs v, computeRobustness nd fuel phi trace sy = .ok z ∧ z.samples = a :: as ∧ tv a = (.fin t0, .fin u) ∧
      computeRobustness nd fuel psi trace sy = .ok w ∧ w.samples = b :: bs ∧ tv b = (.fin t0, .fin v) ∧
      (u ≤ v ↔ rob (ι T) (fun n => eval (castPts ι (sig n))) (castExpr ι phi) (ι t0) ≤
        rob (ι T) (fun n => eval (castPts ι (sig n))) (castExpr ι psi) (ι t0)) := by
  obtain ⟨z, a, as, u, e1, hz, ta, va, h1, -⟩ := C130_start hι nd fuel trace sy t0 T sig phi hp fun n hn => hs n (.inl hn)
  obtain ⟨w, b, bs, v, e2, hw, tb, vb, h2, -⟩ := C130_start hι nd fuel trace sy t0 T sig psi hq fun n hn => hs n (.inr hn)
  refine ⟨z, a, as, u, w, b, bs, v, e1, hz, by rw [tv, ta, va], e2, hw, by rw [tv, tb, vb], ?_⟩
  rw [← h1, ← h2, EReal.coe_le_coe_iff, hι.le_iff_le]

/-- **C134, all formulas.**  If the robustness of the translated formulas of C131 is ordered at a time, the computed values
are up to `(d + d') δ / 4`. -/
theorem C134_error {ι : K →+* ℝ} (hι : StrictMono ι) (nd : Bool) (fuel : Nat) (trace : Trace K) (sy : Bool)
    (t0 T δ : K) (hδ : 0 ≤ δ) (sig : String → List (K × K)) (d d' : Nat) (phi psi : Expr K) (hp : Levels d phi)
    (hq : Levels d' psi)
    (hs : ∀ n, Uses n phi ∨ Uses n psi → ∃ x, trace.lookup n = some x ∧ Represents x (sig n) ∧
      (∃ v r, sig n = (t0, v) :: r) ∧ ∃ v, (sig n).getLast? = some (T, v))
    (hst : ∀ n, Uses n phi ∨ Uses n psi → StepAtMost δ (sig n)) :
    ∃ z zs w ws, computeRobustness nd fuel phi trace sy = .ok z ∧ Represents z zs ∧
      computeRobustness nd fuel psi trace sy = .ok w ∧ Represents w ws ∧ ∀ t ∈ Set.Icc (ι t0) (ι T),
        rob (ι T) (fun n => eval (castPts ι (sig n))) (actual (castExpr ι phi)) t ≤
          rob (ι T) (fun n => eval (castPts ι (sig n))) (actual (castExpr ι psi)) t →
        eval (castPts ι zs) t ≤ eval (castPts ι ws) t + (d + d') * ι δ / 4 := by
  obtain ⟨z, zs, e1, hz, h1⟩ := C131_any hι nd fuel trace sy t0 T δ hδ sig d phi hp (fun n hn => hs n (.inl hn))
    fun n hn => hst n (.inl hn)
  obtain ⟨w, ws, e2, hw, h2⟩ := C131_any hι nd fuel trace sy t0 T δ hδ sig d' psi hq (fun n hn => hs n (.inr hn))
    fun n hn => hst n (.inr hn)
  refine ⟨z, zs, w, ws, e1, hz, e2, hw, fun t ht hle => ?_⟩
  obtain ⟨r, k1, k2⟩ := h1 t ht
  obtain ⟨r', k3, k4⟩ := h2 t ht
  rw [k1, k3, EReal.coe_le_coe_iff] at hle
  have a := abs_le.1 k2
  have b := abs_le.1 k4
  have : ((d : ℝ) + d') * ι δ / 4 = d * ι δ / 4 + d' * ι δ / 4 := by ring
  linarith

end exact

/-! ## Binary64 -/

/-- **C134, binary64 without And and Or.**  The rounding errors of both evaluations are added. -/
theorem C134_binary64 (nd : Bool) (fuel : Nat) (sy : Bool) (tr : List (String × List (ℚ × ℚ))) (V C t0 T δ : ℚ)
    (n n' d d' : ℕ) (phi psi : Expr ℚ) (sig : String → List (ℚ × ℚ)) (hδ : 0 ≤ δ) (htr : Steady V tr)
    (hphi : UntilOnly C n phi) (hpsi : UntilOnly C n' psi) (hp : Levels d phi) (hq : Levels d' psi)
    (h0 : 1 / 2 ^ 900 ≤ V + C) (h1 : V + C ≤ 2 ^ 899) (hn : n < 2 ^ 48) (hn' : n' < 2 ^ 48)
    (hs : ∀ m, Uses m phi ∨ Uses m psi → tr.lookup m = some (sig m) ∧ (∃ v r, sig m = (t0, v) :: r) ∧
      ∃ v, (sig m).getLast? = some (T, v))
    (hst : ∀ m, Uses m phi ∨ Uses m psi → StepAtMost δ (sig m)) (x : String → ℝ → ℝ)
    (hx : x = fun m => eval (castPts (Rat.castHom ℝ) (sig m))) :
    ∃ (z w : Signal B64) (zs ws : List (ℚ × ℚ)),
      computeRobustness (K := B64) nd fuel phi (tr.map fun e => (e.1, ofPts (K := B64) e.2)) sy = .ok z ∧
      Represents (K := B64) z zs ∧
      computeRobustness (K := B64) nd fuel psi (tr.map fun e => (e.1, ofPts (K := B64) e.2)) sy = .ok w ∧
      Represents (K := B64) w ws ∧ ∀ t ∈ Set.Icc (t0 : ℝ) T,
        rob T x (actual (castExpr (Rat.castHom ℝ) phi)) t ≤ rob T x (actual (castExpr (Rat.castHom ℝ) psi)) t →
        eval (castPts (Rat.castHom ℝ) zs) t ≤
          eval (castPts (Rat.castHom ℝ) ws) t + ((d + d') * δ / 4 + (n + n' + 2) / 2 ^ 48 * (V + C)) := by
  obtain ⟨z, zs, e1, hz, -, k⟩ := C132_error nd fuel sy tr V C t0 T δ n d phi sig hδ htr hphi hp h0 h1 hn
    (fun m hm => hs m (.inl hm)) (fun m hm => hst m (.inl hm)) x _ _ hx rfl rfl
  obtain ⟨w, ws, e2, hw, -, k'⟩ := C132_error nd fuel sy tr V C t0 T δ n' d' psi sig hδ htr hpsi hq h0 h1 hn'
    (fun m hm => hs m (.inr hm)) (fun m hm => hst m (.inr hm)) x _ _ hx rfl rfl
  refine ⟨z, w, zs, ws, e1, hz, e2, hw, fun t ht hle => ?_⟩
  obtain ⟨⟨r, k1, k2⟩, -⟩ := k t ht
  obtain ⟨⟨r', k3, k4⟩, -⟩ := k' t ht
  rw [k1, k3, EReal.coe_le_coe_iff] at hle
  have a := abs_le.1 k2
  have b := abs_le.1 k4
  have : ((d : ℝ) + d') * δ / 4 + (n + n' + 2) / 2 ^ 48 * (V + C) =
      (d * δ / 4 + (n + 1) / 2 ^ 48 * (V + C)) + (d' * δ / 4 + (n' + 1) / 2 ^ 48 * (V + C)) := by ring
  rw [this]
  linarith

/-- **C134, binary64 with And and Or** nested in any way below Always and Eventually (C120): the values at common
timestamps, for instance the first one, are in order up to `(k + k' + 2) 2^-46 V (1 + H / d)`. -/
theorem C134_rounded (nd : Bool) (fuel : Nat) (phi psi : Expr B64) (trace : Trace B64) (sy : Bool) (V H d : ℚ) (k k' : Nat)
    (hp : Over (Nest (fun c : B64 => Mild c ∧ |(c : ℚ)| ≤ V) (Feeds nd fuel trace sy V H d) k) phi)
    (hq : Over (Nest (fun c : B64 => Mild c ∧ |(c : ℚ)| ≤ V) (Feeds nd fuel trace sy V H d) k') psi) (hd : 0 < d)
    (sig : String → List (B64 × B64)) (T : B64) (dm : Set B64)
    (hs : ∀ n, Uses n phi ∨ Uses n psi → (∃ x, trace.lookup n = some x ∧ Represents x (sig n)) ∧
      (∃ v, (sig n).getLast? = some (T, v)) ∧ dom (sig n) = dm ∧ Gentle V H (sig n))
    (z w : Signal B64) (hz : computeRobustness nd fuel phi trace sy = .ok z)
    (hw : computeRobustness nd fuel psi trace sy = .ok w) (t u v : ℚ) (hu : (D.fin t, D.fin u) ∈ z.samples.map tv)
    (hv : (D.fin t, D.fin v) ∈ w.samples.map tv)
    (hle : rob (b64Cast T) (fun n => eval (castPts b64Cast (sig n))) (castExpr b64Cast phi) (t : ℝ) ≤
      rob (b64Cast T) (fun n => eval (castPts b64Cast (sig n))) (castExpr b64Cast psi) (t : ℝ)) :
    u ≤ v + (k + k' + 2) * (1 / 2 ^ 46 * V * (1 + H / d)) := by
  obtain ⟨zs, r1, -, g1⟩ := C120_accuracy nd fuel phi trace sy V H d k hp hd sig T dm (fun n hn => hs n (.inl hn)) z hz
  obtain ⟨ws, r2, -, g2⟩ := C120_accuracy nd fuel psi trace sy V H d k' hq hd sig T dm (fun n hn => hs n (.inr hn)) w hw
  have m1 : ((t, u) : B64 × B64) ∈ zs := by
    rw [r1.2] at hu
    obtain ⟨p, hp, e⟩ := List.mem_map.1 hu
    rwa [← lift_injective (K := B64) (a₁ := p) (a₂ := (t, u)) e]
  have m2 : ((t, v) : B64 × B64) ∈ ws := by
    rw [r2.2] at hv
    obtain ⟨p, hp, e⟩ := List.mem_map.1 hv
    rwa [← lift_injective (K := B64) (a₁ := p) (a₂ := (t, v)) e]
  have a := (g1 _ m1).2
  have b := (g2 _ m2).1
  have c := a.trans ((add_le_add_left hle _).trans (add_le_add_left b _))
  have c' : ((u : ℝ) : EReal) ≤ ((v : ℝ) : EReal) + (((k' + 1) * (1 / 2 ^ 46 * V * (1 + H / d)) : ℚ) : ℝ) +
      (((k + 1) * (1 / 2 ^ 46 * V * (1 + H / d)) : ℚ) : ℝ) := c
  rw [← EReal.coe_add, ← EReal.coe_add, EReal.coe_le_coe_iff] at c'
  have c2 : u ≤ v + (k' + 1) * (1 / 2 ^ 46 * V * (1 + H / d)) + (k + 1) * (1 / 2 ^ 46 * V * (1 + H / d)) := by
    exact_mod_cast c'
  linarith

/-! ## Concrete cases -/

theorem always_below (T : ℝ) (x : String → ℝ → ℝ) (e : Expr ℝ) {t : ℝ} (ht : t ≤ T) :
    rob T x (.always e ⟨.dbl 0, .dbl .pinf⟩) t ≤ rob T x e t := by
  rw [rob, window_default]
  exact iInf₂_le t ⟨le_rfl, ht⟩

theorem eventually_above (T : ℝ) (x : String → ℝ → ℝ) (e : Expr ℝ) {t : ℝ} (ht : t ≤ T) :
    rob T x e t ≤ rob T x (.eventually e ⟨.dbl 0, .dbl .pinf⟩) t := by
  rw [rob, window_default]
  exact le_iSup₂_of_le t ⟨le_rfl, ht⟩ le_rfl

/-- Distributivity. -/
theorem rob_distrib (T : ℝ) (x : String → ℝ → ℝ) (a b c : Expr ℝ) (t : ℝ) :
    rob T x (.and [a, .or [b, c]]) t = rob T x (.or [.and [a, b], .and [a, c]]) t := by
  simp only [rob, robAll, robAny, inf_top_eq, sup_bot_eq]
  exact inf_sup_left _ _ _

section cases

def lawA : Expr ℚ := .pred "x" .GE (.fin 0)
def lawB : Expr ℚ := .pred "y" .LE (.fin 2)
def lawC : Expr ℚ := .not (.pred "x" .GT (.fin 1))

theorem law_uses {n : String} : Uses n (.and [lawA, .or [lawB, lawC]]) ∨ Uses n (.or [.and [lawA, lawB], .and [lawA, lawC]]) →
    n = "x" ∨ n = "y" := by
  have base : ∀ e : Expr ℚ, e = lawA ∨ e = lawB ∨ e = lawC → Uses n e → n = "x" ∨ n = "y" := by
    rintro e (rfl | rfl | rfl) h
    · cases h; exact .inl rfl
    · cases h; exact .inr rfl
    · cases h with | not h => cases h; exact .inl rfl
  rintro (h | h)
  · cases h with
    | and hm h =>
      simp only [List.mem_cons, List.not_mem_nil, or_false] at hm
      rcases hm with rfl | rfl
      · exact base _ (.inl rfl) h
      · cases h with
        | or hm h =>
          simp only [List.mem_cons, List.not_mem_nil, or_false] at hm
          exact base _ (.inr hm) h
  · cases h with
    | or hm h =>
      simp only [List.mem_cons, List.not_mem_nil, or_false] at hm
      rcases hm with rfl | rfl
      · cases h with
        | and hm h =>
          simp only [List.mem_cons, List.not_mem_nil, or_false] at hm
          exact base _ (by tauto) h
      · cases h with
        | and hm h =>
          simp only [List.mem_cons, List.not_mem_nil, or_false] at hm
          exact base _ (by tauto) h

theorem law_prop : Propositional (.and [lawA, .or [lawB, lawC]]) ∧ Propositional (.or [.and [lawA, lawB], .and [lawA, lawC]]) := by
  have a : Propositional lawA := .pred _ _ _
  have b : Propositional lawB := .pred _ _ _
  have c : Propositional lawC := .not (.pred _ _ _)
  have pair : ∀ {e e' : Expr ℚ}, Propositional e → Propositional e' → ∀ f ∈ [e, e'], Propositional f := by
    intro e e' h h' f hf
    simp only [List.mem_cons, List.not_mem_nil, or_false] at hf
    rcases hf with rfl | rfl <;> assumption
  exact ⟨.and (by simp) (pair a (.or (by simp) (pair b c))),
    .or (by simp) (pair (.and (by simp) (pair a b)) (.and (by simp) (pair a c)))⟩

/-- Both sides of the distributive law are computed to the same function on `[0, 3]`. -/
example : ∃ z zs w ws,
    computeRobustness false 0 (.and [lawA, .or [lawB, lawC]]) (untilTrace.map fun e => (e.1, ofPts e.2)) false = .ok z ∧
    Represents z zs ∧ computeRobustness false 0 (.or [.and [lawA, lawB], .and [lawA, lawC]])
      (untilTrace.map fun e => (e.1, ofPts e.2)) false = .ok w ∧ Represents w ws ∧
    ∀ t, (∀ n, n = "x" ∨ n = "y" → t ∈ dom (castPts (Rat.castHom ℝ) (untilSig n))) →
      eval (castPts (Rat.castHom ℝ) zs) t ≤ eval (castPts (Rat.castHom ℝ) ws) t := by
  obtain ⟨z, zs, w, ws, e1, hz, e2, hw, h⟩ := C134_boolean B64.rat_mono false 0
    (untilTrace.map fun e => (e.1, ofPts e.2)) false 0 3 untilSig _ _ law_prop.1 law_prop.2 (by
      intro n hn
      rcases law_uses hn with rfl | rfl
      · exact ⟨_, rfl, represents_ofPts (by simp [Increasing, syncX, untilSig]), _, _, rfl⟩
      · exact ⟨_, rfl, represents_ofPts (by simp [Increasing, syncY, untilSig]), _, _, rfl⟩)
  refine ⟨z, zs, w, ws, e1, hz, e2, hw, fun t ht => (h t fun n hn => ht n (law_uses hn)).2 (le_of_eq ?_)⟩
  simp only [castExpr, castExprs_eq, List.map_cons, List.map_nil]
  exact rob_distrib _ _ _ _ _ _

/-- `G[1,2] (x >= 0)` and `x >= 0` in binary64. -/
example : ∃ (z w : Signal B64) (zs ws : List (ℚ × ℚ)),
    computeRobustness (K := B64) false 0 (.always lawA ⟨.ull 1, .ull 2⟩)
      (untilTrace.map fun e => (e.1, ofPts (K := B64) e.2)) false = .ok z ∧ Represents (K := B64) z zs ∧
    computeRobustness (K := B64) false 0 lawA (untilTrace.map fun e => (e.1, ofPts (K := B64) e.2)) false = .ok w ∧
    Represents (K := B64) w ws ∧ ∀ t ∈ Set.Icc (0 : ℝ) 3,
      eval (castPts (Rat.castHom ℝ) zs) t ≤ eval (castPts (Rat.castHom ℝ) ws) t + (1 / 4 + 2 / 2 ^ 48 * 2) := by
  have b0 : IsB64 (0 : ℚ) := ⟨0, 0, by simp, by norm_num, by norm_num, by norm_num⟩
  have uses : ∀ m, Uses m (.always lawA ⟨.ull 1, .ull 2⟩) ∨ Uses m lawA → m = "x" := by
    rintro m (h | h)
    · cases h with | always h => cases h; rfl
    · cases h; rfl
  obtain ⟨z, w, zs, ws, e1, hz, e2, hw, h⟩ := C134_binary64 false 0 false untilTrace 2 0 0 3 1 0 0 1 0
    (.always lawA ⟨.ull 1, .ull 2⟩) lawA untilSig (by norm_num) untilTrace_steady (.always (.pred "x" .GE b0 (by norm_num)))
    (.pred "x" .GE b0 (by norm_num)) (.always (.inr (.inl ⟨1, 2, rfl⟩)) (.pred _ _ _ _)) (.pred _ _ _ _)
    (by norm_num) (by norm_num) (by norm_num) (by norm_num)
    (fun m hm => by obtain rfl := uses m hm; exact ⟨rfl, ⟨_, _, rfl⟩, _, rfl⟩)
    (fun m hm => by obtain rfl := uses m hm; simp [StepAtMost, untilSig, syncX]; try norm_num) _ rfl
  refine ⟨z, w, zs, ws, e1, hz, e2, hw, fun t ht => ?_⟩
  have := h t (by simpa using ht) (always_below _ _ _ (by simpa using ht.2))
  norm_num at this ⊢
  exact this

/-- The hypotheses of `C134_rounded` for `G e` and `F e` with the formula of C120. -/
example : Over (Nest (fun c : B64 => Mild c ∧ |(c : ℚ)| ≤ 3) (Feeds false 0 syncTrace false 3 3 (1 / 4)) 2)
      (.Always (.or [nestAnd, nestNot])) ∧
    Over (Nest (fun c : B64 => Mild c ∧ |(c : ℚ)| ≤ 3) (Feeds false 0 syncTrace false 3 3 (1 / 4)) 2)
      (.Eventually (.or [nestAnd, nestNot])) ∧
    ∀ t ≤ (3 : ℝ), rob 3 (fun n => eval (castPts b64Cast (syncSig n))) (castExpr b64Cast (.Always (.or [nestAnd, nestNot]))) t ≤
      rob 3 (fun n => eval (castPts b64Cast (syncSig n))) (castExpr b64Cast (.Eventually (.or [nestAnd, nestNot]))) t := by
  have hd : castInterval b64Cast (⟨.dbl 0, .dbl .pinf⟩ : Interval B64) = ⟨.dbl 0, .dbl .pinf⟩ := by
    simp [castInterval, castNum, castD, D.zero_def]
  refine ⟨.always (.base (nest_example false)), .eventually (.base (nest_example false)), fun t ht => ?_⟩
  unfold Expr.Always Expr.Eventually Interval.default
  simp only [castExpr, hd]
  exact (always_below _ _ _ ht).trans (eventually_above _ _ _ ht)

end cases

end Verif
