import Verif.Proofs.MarginPair
import Verif.Props.Accuracy

/-!
# Verdicts with a margin in binary64: C99

Always and Eventually over a conjunction or disjunction of two predicates: the values computed in binary64 are
within `2^-45 V (1 + H / d)` of the robustness over the real numbers, taken over all real times.  So both
verdicts are right if the computed value is farther from zero than that.
-/

set_option linter.unusedSectionVars false
set_option exponentiation.threshold 1100

namespace Verif
open Spec

theorem over_uses {B : Expr B64 → Prop} {e : Expr B64} (h : Over B e) :
    ∀ {S : String → Prop}, (∀ n, Uses n e → S n) → Over (fun b => B b ∧ ∀ n, Uses n b → S n) e := by
  induction h with
  | base hb => exact fun hS => .base ⟨hb, hS⟩
  | not _ ih => exact fun hS => .not (ih fun n hn => hS n (.not hn))
  | always _ ih => exact fun hS => .always (ih fun n hn => hS n (.always hn))
  | eventually _ ih => exact fun hS => .eventually (ih fun n hn => hS n (.eventually hn))

/-- **C99.** Two predicates or negated predicates combined by And or Or, below any number of Not, Always and
Eventually with the interval `[0, inf)`.  The signals are sampled at the same times, of magnitude at most `H` and at
least `d` apart; values and thresholds are of magnitude at most `V`; all of them away from overflow and underflow.
Then every sample of the computed robustness is within `2^-45 V (1 + H / d)` of the dense-time robustness. -/
theorem C99_accuracy (nd : Bool) (fuel : Nat) (phi : Expr B64) (trace : Trace B64) (sy : Bool) (V H d : ℚ)
    (hp : Over (LiteralPair fun c : B64 => Moderate c ∧ |(c : ℚ)| ≤ V) phi) (hV : V ≤ 2 ^ 98) (hd : 0 < d)
    (sig : String → List (B64 × B64)) (times : List B64) (T : B64) (hT : times.getLast? = some T)
    (hs : ∀ n, Uses n phi → (∃ x, trace.lookup n = some x ∧ Represents x (sig n)) ∧
      (sig n).map Prod.fst = times ∧ Tame V H d (sig n))
    (z : Signal B64) (h : computeRobustness nd fuel phi trace sy = .ok z) :
    ∃ zs : List (B64 × B64), Represents z zs ∧ (∀ n, Uses n phi → dom zs = dom (sig n)) ∧
      ∀ p ∈ zs,
        rob (b64Cast T) (fun n => eval (castPts b64Cast (sig n))) (castExpr b64Cast phi) (b64Cast p.1) ≤
            ((b64Cast p.2 : ℝ) : EReal) + ((1 / 2 ^ 45 * V * (1 + H / d) : ℚ) : ℝ) ∧
          ((b64Cast p.2 : ℝ) : EReal) ≤
            rob (b64Cast T) (fun n => eval (castPts b64Cast (sig n))) (castExpr b64Cast phi) (b64Cast p.1) +
              ((1 / 2 ^ 45 * V * (1 + H / d) : ℚ) : ℝ) := by
  set dm : Set B64 := dom (times.map fun t => (t, (0 : B64)))
  have hdm : ∀ n, Uses n phi → dom (sig n) = dm := by
    intro n hn
    apply dom_of_fst
    rw [(hs n hn).2.1, List.map_map]
    exact (List.map_id _).symm
  obtain ⟨zs, h1, -, h3, G, h4, h5⟩ := over_within b64Cast_strictMono
    ⟨nd, fuel, (minMaxTime trace).1, (minMaxTime trace).2, trace⟩ T
    (fun n => eval (castPts b64Cast (sig n))) ((B64.margin' V H d : ℚ) : ℝ) dm
    (fun e he z hz => B64.literalPair_within _ hV hd (fun c hc => hc) T times hT sig e he.1
      (fun n hn => hs n (he.2 n hn)) dm (fun n hn => hdm n (he.2 n hn)) z hz)
    (over_uses hp fun _ h => h) z h
  refine ⟨zs, h1, fun n hn => h3.trans (hdm n hn).symm, fun p hp => ?_⟩
  have hm : (b64Cast p.1, b64Cast p.2) ∈ castPts b64Cast zs := List.mem_map.2 ⟨p, hp, rfl⟩
  have e1 := h4.1 _ hm
  have e2 := h5 _ (mem_dom_of_mem' hm)
  rw [← e1] at e2
  exact ⟨e2.2, e2.1⟩

/-- **C99.** So both verdicts are right if the computed value is farther from zero than the bound. -/
theorem C99_verdicts (nd : Bool) (fuel : Nat) (phi : Expr B64) (trace : Trace B64) (sy : Bool) (V H d : ℚ)
    (hp : Over (LiteralPair fun c : B64 => Moderate c ∧ |(c : ℚ)| ≤ V) phi) (hV : V ≤ 2 ^ 98) (hd : 0 < d)
    (sig : String → List (B64 × B64)) (times : List B64) (T : B64) (hT : times.getLast? = some T)
    (hs : ∀ n, Uses n phi → (∃ x, trace.lookup n = some x ∧ Represents x (sig n)) ∧
      (sig n).map Prod.fst = times ∧ Tame V H d (sig n))
    (z : Signal B64) (h : computeRobustness nd fuel phi trace sy = .ok z) :
    ∃ zs : List (B64 × B64), Represents z zs ∧ (∀ n, Uses n phi → dom zs = dom (sig n)) ∧
      ∀ t v : ℚ, (t, v) ∈ zs →
        (1 / 2 ^ 45 * V * (1 + H / d) < v →
          Sat (b64Cast T) (fun n => eval (castPts b64Cast (sig n))) (castExpr b64Cast phi) t) ∧
        (v < -(1 / 2 ^ 45 * V * (1 + H / d)) →
          ¬ Sat (b64Cast T) (fun n => eval (castPts b64Cast (sig n))) (castExpr b64Cast phi) t) := by
  obtain ⟨zs, h1, h2, h3⟩ := C99_accuracy nd fuel phi trace sy V H d hp hV hd sig times T hT hs z h
  refine ⟨zs, h1, h2, fun t v hm => ?_⟩
  have key : ∀ (r : EReal) (v e : ℚ), r ≤ ((v : ℝ) : EReal) + (e : ℝ) → ((v : ℝ) : EReal) ≤ r + (e : ℝ) →
      (e < v → 0 < r) ∧ (v < -e → r < 0) := by
    intro r v e g1 g2
    constructor
    · intro hlt
      rw [← sub_le_iff, ← EReal.coe_sub] at g2
      refine lt_of_lt_of_le ?_ g2
      rw [EReal.coe_pos]
      exact_mod_cast sub_pos.2 hlt
    · intro hlt
      rw [← EReal.coe_add] at g1
      refine lt_of_le_of_lt g1 ?_
      rw [EReal.coe_neg']
      have : v + e < 0 := by linarith
      exact_mod_cast this
  obtain ⟨g1, g2⟩ := h3 (t, v) hm
  have := key _ _ _ g1 g2
  exact ⟨fun hlt => (rob_sat _ _ _ _).1 (this.1 hlt), fun hlt => (rob_sat _ _ _ _).2 (this.2 hlt)⟩

/-! ## Without a margin the verdict can be wrong -/

/-- The signals of C98. -/
def farSig (n : String) : List (B64 × B64) := if n = "x" then farX else farY

/-- **C99, a margin is needed.** The computed robustness of `Always(x >= 0 or y >= 0)` is 1/2 at the start of the
trace, but the formula does not hold: both signals are -1/2 at the time `2^52 + 1/2`. -/
theorem C99_margin_needed (nd : Bool) :
    (∃ zs : List (ℚ × ℚ),
      computeRobustness nd 0 (.Always (.or [.pred "x" .GE 0, .pred "y" .GE 0])) farTrace false =
        .ok (ofPts (K := B64) zs) ∧ zs.head? = some (2 ^ 52, 1 / 2)) ∧
    ¬ Sat (2 ^ 52 + 1) (fun n => eval (castPts b64Cast (farSig n)))
        (castExpr b64Cast (.Always (.or [.pred "x" .GE 0, .pred "y" .GE 0]))) (2 ^ 52) := by
  refine ⟨?_, fun h => ?_⟩
  · obtain ⟨zs, h1, h2, -⟩ := C98_unsound nd
    exact ⟨zs, h1, h2⟩
  · have hwin : castInterval b64Cast (Interval.default : Interval B64) = ⟨.dbl 0, .dbl .pinf⟩ := by
      simp [castInterval, Interval.default, castNum, castD, D.zero_def]
    rw [Expr.Always, castExpr, Sat, hwin, window_default] at h
    have h1 := h (2 ^ 52 + 1 / 2) ⟨by norm_num, by norm_num⟩
    have hx : eval (castPts b64Cast (farSig "x")) (2 ^ 52 + 1 / 2) = -1 / 2 := by
      have := eval_castPts b64Cast b64Cast_strictMono farX ((2 ^ 52 + 1 / 2 : ℚ) : B64)
      have e : eval farX (2 ^ 52 + 1 / 2) = -1 / 2 := by norm_num [farX, eval, line]
      have c1 : b64Cast ((2 ^ 52 + 1 / 2 : ℚ) : B64) = 2 ^ 52 + 1 / 2 :=
        (show _ = ((2 ^ 52 + 1 / 2 : ℚ) : ℝ) from rfl).trans (by norm_num)
      have c2 : b64Cast (eval farX (2 ^ 52 + 1 / 2)) = -1 / 2 := 
        (congrArg (fun q : ℚ => (q : ℝ)) e).trans (by norm_num)
      rw [c1] at this
      exact this.trans c2
    have hy : eval (castPts b64Cast (farSig "y")) (2 ^ 52 + 1 / 2) = -1 / 2 := by
      have := eval_castPts b64Cast b64Cast_strictMono farY ((2 ^ 52 + 1 / 2 : ℚ) : B64)
      have e : eval farY (2 ^ 52 + 1 / 2) = -1 / 2 := by norm_num [farY, eval, line]
      have c1 : b64Cast ((2 ^ 52 + 1 / 2 : ℚ) : B64) = 2 ^ 52 + 1 / 2 :=
        (show _ = ((2 ^ 52 + 1 / 2 : ℚ) : ℝ) from rfl).trans (by norm_num)
      have c2 : b64Cast (eval farY (2 ^ 52 + 1 / 2)) = -1 / 2 := 
        (congrArg (fun q : ℚ => (q : ℝ)) e).trans (by norm_num)
      rw [c1] at this
      exact this.trans c2
    have c0 : castD b64Cast (0 : D B64) = .fin 0 := by simp [castD]
    rw [castExpr, castExprs, castExprs, castExprs, castExpr, castExpr, c0] at h1
    simp only [Sat, SatAny, holds, hx, hy] at h1
    norm_num at h1

/-! ## A case meeting the hypotheses -/

/-- `Eventually(x >= 0 and not y < 0)` for two signals that cross at 1/3. -/
def crossFormula : Expr B64 :=
  .Eventually (.and [.pred "x" .GE (.fin (0 : ℚ)), .not (.pred "y" .LT (.fin (0 : ℚ)))])

def crossX : List (ℚ × ℚ) := [(0, 1), (1, 0)]
def crossY : List (ℚ × ℚ) := [(0, 0), (1, 2)]
def crossSig (n : String) : List (B64 × B64) := if n = "x" then crossX else crossY

/-- The computed robustness at time 0 is about 2/3, so by the theorem the formula holds. -/
example : Sat 1 (fun n => eval (castPts b64Cast (crossSig n))) (castExpr b64Cast crossFormula) 0 := by
  have m0 : Moderate 0 := by simpa using moderate_half 0 (by norm_num)
  have m1 : Moderate 1 := by simpa using moderate_half 2 (by norm_num)
  have m2 : Moderate 2 := by
    have := moderate_half 4 (by norm_num)
    norm_num at this ⊢; exact this
  have c0 : Moderate (0 : ℚ) ∧ |(0 : ℚ)| ≤ 2 := ⟨m0, by norm_num⟩
  have hx : Represents (K := B64) (ofPts (K := B64) crossX) crossX :=
    B64.represents_lq.2 ⟨by simp [crossX, Increasing], rfl⟩
  have hy : Represents (K := B64) (ofPts (K := B64) crossY) crossY :=
    B64.represents_lq.2 ⟨by simp [crossY, Increasing], rfl⟩
  have tx : Tame 2 1 1 crossX := ⟨by simp [crossX, m0, m1], by simp [crossX]⟩
  have ty : Tame 2 1 1 crossY := ⟨by simp [crossY, m0, m1, m2], by simp [crossY]⟩
  obtain ⟨zs, h1, -, h3⟩ := C99_verdicts false 0 crossFormula
    [("x", ofPts (K := B64) crossX), ("y", ofPts (K := B64) crossY)] false 2 1 1
    (.eventually (.base (.and (.pred _ _ c0) (.not (.pred _ _ c0))))) (by norm_num) (by norm_num)
    crossSig [(0 : ℚ), (1 : ℚ)] (1 : ℚ) rfl (by
      intro n hn
      have : n = "x" ∨ n = "y" := by
        unfold crossFormula Expr.Eventually at hn
        cases hn with
        | eventually hn =>
          cases hn with
          | and hm hn =>
            simp only [List.mem_cons, List.not_mem_nil, or_false] at hm
            rcases hm with rfl | rfl
            · cases hn; exact .inl rfl
            · cases hn with
              | not hn => cases hn; exact .inr rfl
      rcases this with rfl | rfl
      · exact ⟨⟨_, rfl, hx⟩, rfl, tx⟩
      · exact ⟨⟨_, rfl, hy⟩, rfl, ty⟩)
    (ofPts (K := B64) [((0 : ℚ), (6004799503160661 / 2 ^ 53 : ℚ)),
      ((6004799503160661 / 2 ^ 54 : ℚ), (6004799503160661 / 2 ^ 53 : ℚ)), ((1 : ℚ), (0 : ℚ))])
    (by decide +kernel)
  have h4 : zs = [((0 : ℚ), (6004799503160661 / 2 ^ 53 : ℚ)),
      ((6004799503160661 / 2 ^ 54 : ℚ), (6004799503160661 / 2 ^ 53 : ℚ)), ((1 : ℚ), (0 : ℚ))] := by
    have := h1.2
    rw [show (ofPts (K := B64) _).samples.map tv = _ from build_map_tv _] at this
    exact (List.map_injective_iff.2 lift_injective this).symm
  have := (h3 0 (6004799503160661 / 2 ^ 53) (by rw [h4]; exact List.mem_cons_self)).1 (by norm_num)
  have e1 : b64Cast (1 : ℚ) = 1 := map_one b64Cast
  rw [e1] at this
  simpa using this

end Verif
