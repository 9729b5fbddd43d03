import Verif.Proofs.Nest
import Verif.Props.AccuracySync
import Verif.Props.Margin

/-!
# Rounding errors of nested formulas in binary64: C120

Not, And and Or with any number of operands and nested to any depth, below any number of Always and Eventually with the
interval `[0, inf)`, on signals with different timestamps.  Each And and Or adds at most `2^-46 V (1 + H / d)` to the
error, where `V`, `H` and `d` are read off the signals computed for its operands.  So an evaluation that records these
numbers knows how far its verdict can be trusted.
-/

set_option linter.unusedSectionVars false
set_option exponentiation.threshold 1100

namespace Verif
open Spec

/-- **C120.** `k` is the greatest number of And and Or steps on a path of the formula.  Every sample of the computed
robustness is within `(k + 1) 2^-46 V (1 + H / d)` of the dense-time robustness. -/
theorem C120_accuracy (nd : Bool) (fuel : Nat) (phi : Expr B64) (trace : Trace B64) (sy : Bool) (V H d : ℚ) (k : Nat)
    (hp : Over (Nest (fun c : B64 => Mild c ∧ |(c : ℚ)| ≤ V) (Feeds nd fuel trace sy V H d) k) phi) (hd : 0 < d)
    (sig : String → List (B64 × B64)) (T : B64) (dm : Set B64)
    (hs : ∀ n, Uses n phi → (∃ x, trace.lookup n = some x ∧ Represents x (sig n)) ∧
      (∃ v, (sig n).getLast? = some (T, v)) ∧ dom (sig n) = dm ∧ Gentle V H (sig n))
    (z : Signal B64) (h : computeRobustness nd fuel phi trace sy = .ok z) :
    ∃ zs : List (B64 × B64), Represents z zs ∧ dom zs = dm ∧
      ∀ p ∈ zs,
        rob (b64Cast T) (fun n => eval (castPts b64Cast (sig n))) (castExpr b64Cast phi) (b64Cast p.1) ≤
            ((b64Cast p.2 : ℝ) : EReal) + (((k + 1) * (1 / 2 ^ 46 * V * (1 + H / d)) : ℚ) : ℝ) ∧
          ((b64Cast p.2 : ℝ) : EReal) ≤
            rob (b64Cast T) (fun n => eval (castPts b64Cast (sig n))) (castExpr b64Cast phi) (b64Cast p.1) +
              (((k + 1) * (1 / 2 ^ 46 * V * (1 + H / d)) : ℚ) : ℝ) := by
  obtain ⟨zs, h1, -, h3, G, h4, h5⟩ := over_within b64Cast_strictMono
    ⟨nd, fuel, (minMaxTime trace).1, (minMaxTime trace).2, trace⟩ T
    (fun n => eval (castPts b64Cast (sig n))) (((k + 1) * B64.step V H d : ℚ) : ℝ) dm
    (fun e he z hz => B64.nest_within nd fuel trace sy hd (fun c hc => hc) T sig dm he.1
      (fun n hn => hs n (he.2 n hn)) z hz)
    (over_uses hp fun _ h => h) z h
  refine ⟨zs, h1, h3, fun p hp => ?_⟩
  have hm : (b64Cast p.1, b64Cast p.2) ∈ castPts b64Cast zs := List.mem_map.2 ⟨p, hp, rfl⟩
  have e1 := h4.1 _ hm
  have e2 := h5 _ (mem_dom_of_mem' hm)
  rw [← e1] at e2
  exact ⟨e2.2, e2.1⟩

theorem sign_of_near (r : EReal) (v e : ℚ) (g1 : r ≤ ((v : ℝ) : EReal) + (e : ℝ))
    (g2 : ((v : ℝ) : EReal) ≤ r + (e : ℝ)) : (e < v → 0 < r) ∧ (v < -e → r < 0) := by
  constructor
  · intro hlt
    rw [← sub_le_iff, ← EReal.coe_sub] at g2
    refine lt_of_lt_of_le ?_ g2
    rw [EReal.coe_pos]
    exact_mod_cast sub_pos.2 hlt
  · intro hlt
    rw [← EReal.coe_add] at g1
    refine lt_of_le_of_lt g1 ?_
    rw [EReal.coe_neg']
    have : v + e < 0 := by linarith
    exact_mod_cast this

/-- **C120.** So both verdicts are right if the computed value is farther from zero than the bound. -/
theorem C120_verdicts (nd : Bool) (fuel : Nat) (phi : Expr B64) (trace : Trace B64) (sy : Bool) (V H d : ℚ) (k : Nat)
    (hp : Over (Nest (fun c : B64 => Mild c ∧ |(c : ℚ)| ≤ V) (Feeds nd fuel trace sy V H d) k) phi) (hd : 0 < d)
    (sig : String → List (B64 × B64)) (T : B64) (dm : Set B64)
    (hs : ∀ n, Uses n phi → (∃ x, trace.lookup n = some x ∧ Represents x (sig n)) ∧
      (∃ v, (sig n).getLast? = some (T, v)) ∧ dom (sig n) = dm ∧ Gentle V H (sig n))
    (z : Signal B64) (h : computeRobustness nd fuel phi trace sy = .ok z) :
    ∃ zs : List (B64 × B64), Represents z zs ∧ dom zs = dm ∧
      ∀ t v : ℚ, (t, v) ∈ zs →
        ((k + 1) * (1 / 2 ^ 46 * V * (1 + H / d)) < v →
          Sat (b64Cast T) (fun n => eval (castPts b64Cast (sig n))) (castExpr b64Cast phi) t) ∧
        (v < -((k + 1) * (1 / 2 ^ 46 * V * (1 + H / d))) →
          ¬ Sat (b64Cast T) (fun n => eval (castPts b64Cast (sig n))) (castExpr b64Cast phi) t) := by
  obtain ⟨zs, h1, h2, h3⟩ := C120_accuracy nd fuel phi trace sy V H d k hp hd sig T dm hs z h
  refine ⟨zs, h1, h2, fun t v hm => ?_⟩
  obtain ⟨g1, g2⟩ := h3 (t, v) hm
  have := sign_of_near _ _ _ g1 g2
  exact ⟨fun hlt => (rob_sat _ _ _ _).1 (this.1 hlt), fun hlt => (rob_sat _ _ _ _).2 (this.2 hlt)⟩

/-! ## A case meeting the hypotheses -/

/-- `x >= -1 and y >= -1` -/
def nestAnd : Expr B64 := .and [.pred "x" .GE (.fin (-1 : ℚ)), .pred "y" .GE (.fin (-1 : ℚ))]
/-- `not (y >= 2)` -/
def nestNot : Expr B64 := .not (.pred "y" .GE (.fin (2 : ℚ)))
/-- `Always((x >= -1 and y >= -1) or not (y >= 2))` -/
def nestFormula : Expr B64 := .Always (.or [nestAnd, nestNot])
def syncSig (n : String) : List (B64 × B64) := if n = "x" then syncX else syncY

theorem points_of_ofPts {K : Type} [Field K] [LinearOrder K] [Arith K] {z : Signal K} {zs ps : List (K × K)}
    (h : Represents z zs) (hz : z = ofPts ps) : zs = ps := by
  have := h.2
  rw [hz, show (ofPts ps).samples.map tv = _ from build_map_tv _] at this
  exact (List.map_injective_iff.2 lift_injective this).symm

theorem mild_frac (n : ℤ) (h : |(n : ℚ)| ≤ 2 ^ 92) : Mild (n / 2 ^ 52) := by
  refine ⟨⟨n * 2 ^ 48, ?_⟩, ?_⟩
  · have : (2 : ℚ) ^ (-100 : ℤ) = 1 / 2 ^ 100 := by rw [zpow_neg]; norm_num
    rw [this]; push_cast; field_simp; norm_num
  · rw [abs_div, abs_of_pos (by norm_num : (0 : ℚ) < 2 ^ 52), div_le_iff₀ (by norm_num)]
    exact h.trans (by norm_num)

theorem fits_of (nd : Bool) {e e' : Expr B64} {xs ys : List (ℚ × ℚ)} {V H d : ℚ}
    (h : computeRobustness nd 0 e syncTrace false = .ok (ofPts (K := B64) xs))
    (h' : computeRobustness nd 0 e' syncTrace false = .ok (ofPts (K := B64) ys))
    (hx : Gentle V H xs) (hy : Gentle V H ys) (ha : Apart d xs ys) : Feeds nd 0 syncTrace false V H d e e' := by
  intro x y xs' ys' e1 e2 r1 r2
  rw [h, Outcome.ok.injEq] at e1
  rw [h', Outcome.ok.injEq] at e2
  rw [points_of_ofPts (K := B64) r1 e1.symm, points_of_ofPts (K := B64) r2 e2.symm]
  exact ⟨hx, hy, ha⟩

theorem nest_example (nd : Bool) : Nest (fun c : B64 => Mild c ∧ |(c : ℚ)| ≤ 3) (Feeds nd 0 syncTrace false 3 3 (1 / 4)) 2
    (.or [nestAnd, nestNot]) := by
  have m0 : Mild 0 := by simpa using mild_int 0 (by norm_num)
  have m1 : Mild 1 := by simpa using mild_int 1 (by norm_num)
  have m2 : Mild 2 := by simpa using mild_int 2 (by norm_num)
  have m3 : Mild 3 := by simpa using mild_int 3 (by norm_num)
  have mn : Mild (-1) := by simpa using mild_int (-1) (by norm_num)
  have m4 : Mild (3 / 4) := by
    have := mild_frac (3 * 2 ^ 50) (by norm_num)
    norm_num at this ⊢; exact this
  have m5 : Mild (7 / 4) := by
    have := mild_frac (7 * 2 ^ 50) (by norm_num)
    norm_num at this ⊢; exact this
  have m6 : Mild (7505999378950827 / 2 ^ 52) := by
    have := mild_frac 7505999378950827 (by norm_num)
    push_cast at this; exact this
  have c1 : Mild (-1 : ℚ) ∧ |(-1 : ℚ)| ≤ 3 := ⟨mn, by norm_num⟩
  have c2 : Mild (2 : ℚ) ∧ |(2 : ℚ)| ≤ 3 := ⟨m2, by norm_num⟩
  have a : Nest (fun c : B64 => Mild c ∧ |(c : ℚ)| ≤ 3) (Feeds nd 0 syncTrace false 3 3 (1 / 4)) 1 nestAnd := by
    refine Nest.and (k := 0) (l := 0) (es := [.pred "x" .GE (.fin (-1 : ℚ))]) (.andOne (.pred "x" .GE c1))
      (.pred "y" .GE c1) (fits_of nd (xs := [(0, 2), (3, 1)]) (ys := [(0, 1), (1, 2), (3, 3)])
        (by cases nd <;> decide +kernel) (by cases nd <;> decide +kernel) ?_ ?_ ?_)
    · simp only [Gentle, List.mem_cons, List.not_mem_nil, or_false, forall_eq_or_imp, forall_eq]
      norm_num [m0, m1, m2, m3]
    · simp only [Gentle, List.mem_cons, List.not_mem_nil, or_false, forall_eq_or_imp, forall_eq]
      norm_num [m0, m1, m2, m3]
    · simp only [Apart, List.map_cons, List.map_nil, List.cons_append, List.nil_append, List.mem_cons,
        List.not_mem_nil, or_false, forall_eq_or_imp, forall_eq]
      norm_num
  refine Nest.or (k := 1) (l := 0) (es := [nestAnd]) (.orOne a) (.not (.pred "y" .GE c2))
    (fits_of nd (xs := [(0, 1), (3 / 4, 7 / 4), (1, 7505999378950827 / 2 ^ 52), (3, 1)])
      (ys := [(0, 2), (1, 1), (3, 0)])
      (by cases nd <;> decide +kernel) (by cases nd <;> decide +kernel) ?_ ?_ ?_)
  · simp only [Gentle, List.mem_cons, List.not_mem_nil, or_false, forall_eq_or_imp, forall_eq]
    refine ⟨⟨m0, m1, ?_⟩, ⟨m4, m5, ?_⟩, ⟨m1, m6, ?_⟩, m3, m1, ?_⟩ <;> norm_num [abs_of_pos]
  · simp only [Gentle, List.mem_cons, List.not_mem_nil, or_false, forall_eq_or_imp, forall_eq]
    norm_num [m0, m1, m2, m3]
  · simp only [Apart, List.map_cons, List.map_nil, List.cons_append, List.nil_append, List.mem_cons,
      List.not_mem_nil, or_false, forall_eq_or_imp, forall_eq]
    norm_num

/-- The computed robustness at time 0 is 1, so by the theorem the formula holds.  An interpolated value is rounded. -/
example : Sat 3 (fun n => eval (castPts b64Cast (syncSig n))) (castExpr b64Cast nestFormula) 0 := by
  obtain ⟨g1, g2, -⟩ := sync_gentle
  have up : ∀ {l}, Gentle 2 3 l → Gentle 3 3 l := fun h p hp =>
    ⟨(h p hp).1, (h p hp).2.1, (h p hp).2.2.1, (h p hp).2.2.2.trans (by norm_num)⟩
  have hx : Represents (K := B64) (ofPts (K := B64) syncX) syncX :=
    B64.represents_lq.2 ⟨by simp [syncX, Increasing], rfl⟩
  have hy : Represents (K := B64) (ofPts (K := B64) syncY) syncY :=
    B64.represents_lq.2 ⟨by simp [syncY, Increasing], rfl⟩
  have hxy : dom (K := B64) syncX = dom (K := B64) syncY := by
    have : dom syncX = dom syncY := by
      ext t
      simp only [dom, syncX, syncY, Set.mem_ofPred_eq, List.mem_cons, List.not_mem_nil, or_false, exists_eq_or_imp,
        exists_eq_left]
      constructor
      · rintro ⟨h | h, h' | h'⟩ <;> exact ⟨.inl (by linarith), .inr (.inr (by linarith))⟩
      · rintro ⟨h | h | h, h' | h' | h'⟩ <;> exact ⟨.inl (by linarith), .inr (by linarith)⟩
    exact this
  obtain ⟨zs, h1, -, h3⟩ := C120_verdicts false 0 nestFormula syncTrace false 3 3 (1 / 4) 2
    (.always (.base (nest_example false))) (by norm_num) syncSig (3 : ℚ) (dom (K := B64) syncX) (by
      intro n hn
      have : n = "x" ∨ n = "y" := by
        unfold nestFormula Expr.Always at hn
        cases hn with
        | always hn =>
          cases hn with
          | or hm hn =>
            simp only [List.mem_cons, List.not_mem_nil, or_false] at hm
            rcases hm with rfl | rfl
            · unfold nestAnd at hn
              cases hn with
              | and hm hn =>
                simp only [List.mem_cons, List.not_mem_nil, or_false] at hm
                rcases hm with rfl | rfl
                · cases hn; exact .inl rfl
                · cases hn; exact .inr rfl
            · unfold nestNot at hn
              cases hn with
              | not hn => cases hn; exact .inr rfl
      rcases this with rfl | rfl
      · exact ⟨⟨_, rfl, hx⟩, ⟨_, rfl⟩, rfl, up g1⟩
      · exact ⟨⟨_, rfl, hy⟩, ⟨_, rfl⟩, hxy.symm, up g2⟩)
    (ofPts (K := B64) [(0, 1), (1 / 2, 1), (3 / 4, 1), (1, 1), (3, 1)]) (by decide +kernel)
  have h4 := points_of_ofPts (K := B64) h1 (ps := [(0, 1), (1 / 2, 1), (3 / 4, 1), (1, 1), (3, 1)]) rfl
  have := (h3 0 1 (by rw [h4]; exact List.mem_cons_self)).1 (by norm_num)
  have e1 : b64Cast (3 : ℚ) = 3 := map_ofNat b64Cast 3
  rw [e1] at this
  simpa using this

end Verif
