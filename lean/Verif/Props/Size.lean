import Verif.Proofs.Size
import Verif.Props.Lattice
import Verif.Props.Parser
import Mathlib.Analysis.SpecificLimits.Normed

/-!
# The cost of evaluating a specification: C85
-/

set_option linter.unusedSectionVars false

namespace Verif
open Spec Rule Filter

section
variable {K : Type} [Field K] [LinearOrder K] [Arith K]

/-- How often `compute` is called by `compute_robustness(phi, trace)`. -/
def calls (nd : Bool) (fuel : Nat) (phi : Expr K) (trace : Trace K) : Nat :=
  (RobustnessOp.computeC ⟨nd, fuel, (minMaxTime trace).1, (minMaxTime trace).2, trace⟩ phi).2

/-- **C85.** The calls that are counted are those of the model: the counting version has the outcome of
`compute_robustness`, makes at most one call for each node of the formula as a tree, and exactly one if it
succeeds. -/
theorem C85_count (nd : Bool) (fuel : Nat) (phi : Expr K) (trace : Trace K) (sy : Bool) :
    (RobustnessOp.computeC ⟨nd, fuel, (minMaxTime trace).1, (minMaxTime trace).2, trace⟩ phi).1 =
      computeRobustness nd fuel phi trace sy ∧
    calls nd fuel phi trace ≤ phi.nodes ∧
    ∀ y, computeRobustness nd fuel phi trace sy = .ok y → calls nd fuel phi trace = phi.nodes :=
  ⟨computeC_fst _ phi, computeC_le _ phi, fun _ h => computeC_eq _ h⟩

variable [IsStrictOrderedRing K] [Strtod K]

/-- The full statement of **C85**: the number of calls for an assertion is bounded by a polynomial in the length
of the text. -/
def PolynomialCalls (K : Type) [Field K] [LinearOrder K] [Arith K] [Strtod K] : Prop :=
  ∃ c k : Nat, ∀ (nd : Bool) (w : List Char) (sp : Specification K), fromString nd (w.length + 1) w = .ok sp →
    ∀ p ∈ sp.assertions, ∀ (fuel : Nat) (trace : Trace K), calls nd fuel p.2 trace ≤ c * (w.length + 1) ^ k

/-- **C85.** It is bounded by an exponential function, for every accepted text and every trace. -/
theorem C85_exponential_partial (nd : Bool) {n : Nat} {w : List Char} {sp : Specification K} (hn : w.length < n)
    (h : fromString nd n w = .ok sp) (fuel : Nat) (trace : Trace K) :
    (∀ p ∈ sp.formulas, calls nd fuel p.2 trace ≤ 4 ^ w.length) ∧
      ∀ p ∈ sp.assertions, calls nd fuel p.2 trace ≤ 4 ^ w.length := by
  obtain ⟨h1, h2⟩ := parsed_nodes hn h
  exact ⟨fun p hp => (computeC_le _ _).trans (h1 p hp), fun p hp => (computeC_le _ _).trans (h2 p hp)⟩

/-- **C85.** It is linear if the formulas do not refer to each other and there is neither `iff` nor `xor`. -/
theorem C85_linear_partial (nd : Bool) {n : Nat} {w : List Char} {sp : Specification K} {gs : List (List RawCmd)}
    (hgs : ∀ cs ∈ gs, ∀ c ∈ cs, RawCmdOk c ∧ c.plain = true) (ht : RawText gs w) (hn : w.length < n)
    (h : fromString nd n w = .ok sp) (fuel : Nat) (trace : Trace K) :
    (∀ p ∈ sp.formulas, calls nd fuel p.2 trace ≤ 2 * w.length) ∧
      ∀ p ∈ sp.assertions, calls nd fuel p.2 trace ≤ 2 * w.length := by
  obtain ⟨h1, h2⟩ := parsed_plain hgs ht hn h
  exact ⟨fun p hp => (computeC_le _ _).trans (h1 p hp), fun p hp => (computeC_le _ _).trans (h2 p hp)⟩

/-- **C85.** Texts of length at most 60 (n + 1) ^ 2 whose assertion has 2 ^ (n + 1) - 1 nodes. -/
theorem C85_family (nd : Bool) (n : Nat) : (blowText n).length ≤ 60 * (n + 1) ^ 2 ∧
    ∃ (sp : Specification K) (phi : Expr K), (∀ m, (blowText n).length < m → fromString nd m (blowText n) = .ok sp) ∧
      ("a", phi) ∈ sp.assertions ∧ phi.nodes + 1 = 2 ^ (n + 1) := by
  refine ⟨blowText_length n, ⟨blowM n, [("a", blowF n)]⟩, blowF n, fun m hm => ?_, by simp, blowF_nodes n⟩
  rw [C53_roundtrip nd (fun c hc => (blow_ok n c hc).1) (fun c hc => (blow_ok n c hc).2)
    (show Text (blow n) (blowText n) from render_text (blow n)) hm, blow_eval]

end

/-- A trace. -/
def sizeTrace : Trace ℚ := [("x", ⟨[⟨0, 0, .fin 1⟩, ⟨.fin 1, .fin 1, 0⟩]⟩)]

theorem sizeTrace_fin : FiniteTimes sizeTrace := by
  unfold FiniteTimes sizeTrace
  simp
  exact ⟨0, rfl⟩

theorem blowF_computed (nd : Bool) (fuel : Nat) : ∀ n, ∃ y : Signal ℚ, y.samples ≠ [] ∧
    computeRobustness nd fuel (blowF n) sizeTrace true = .ok y
  | 0 => by
    have h : computeRobustness true 0 (blowF 0) sizeTrace true =
        .ok ⟨[⟨0, .pinf, .nan⟩, ⟨.fin 1, .pinf, 0⟩]⟩ := by decide +kernel
    refine ⟨_, by simp, Eq.trans ?_ h⟩
    unfold computeRobustness
    simp only [blowF]
    rw [RobustnessOp.compute, RobustnessOp.compute]
    rfl
  | n + 1 => by
    obtain ⟨y, h1, h2⟩ := blowF_computed nd fuel n
    have := (C67_idempotent nd fuel (blowF n) sizeTrace true sizeTrace_fin 1 (by
      intro z hz; rw [h2] at hz; cases hz; exact h1)).1
    exact ⟨y, h1, by rw [← h2, ← this]; rfl⟩

/-- **C85.** Evaluating the assertions of this family succeeds, with 2 ^ (n + 1) - 1 calls. -/
theorem C85_calls (nd : Bool) (fuel n : Nat) : calls nd fuel (blowF n) sizeTrace + 1 = 2 ^ (n + 1) := by
  obtain ⟨y, -, h⟩ := blowF_computed nd fuel n
  rw [(C85_count nd fuel _ sizeTrace true).2.2 y h, blowF_nodes]

theorem pow_beats (c k : Nat) : ∃ n : Nat, c * (60 * (n + 1) ^ 2 + 1) ^ k + 1 < 2 ^ (n + 1) := by
  have h := tendsto_pow_const_div_const_pow_of_one_lt (2 * k) (r := (2 : ℝ)) (by norm_num)
  have h' := (h.comp (tendsto_add_atTop_nat 1)).eventually (gt_mem_nhds (show (0 : ℝ) < 1 / (c * 61 ^ k + 2) by positivity))
  obtain ⟨n, hn⟩ := h'.exists
  refine ⟨n, ?_⟩
  simp only [Function.comp] at hn
  rw [div_lt_div_iff₀ (by positivity) (by positivity)] at hn
  have h1 : ((c * (60 * (n + 1) ^ 2 + 1) ^ k + 1 : Nat) : ℝ) ≤ ((n + 1 : Nat) : ℝ) ^ (2 * k) * (c * 61 ^ k + 1) := by
    have : 60 * (n + 1) ^ 2 + 1 ≤ 61 * (n + 1) ^ 2 := by nlinarith [Nat.zero_le n]
    have h2 : (60 * (n + 1) ^ 2 + 1) ^ k ≤ (61 * (n + 1) ^ 2) ^ k := Nat.pow_le_pow_left this k
    have h3 : 1 ≤ (n + 1) ^ (2 * k) := Nat.one_le_pow _ _ (by omega)
    have h4 : c * (60 * (n + 1) ^ 2 + 1) ^ k + 1 ≤ (n + 1) ^ (2 * k) * (c * 61 ^ k + 1) := by
      rw [mul_pow, ← pow_mul] at h2
      nlinarith [Nat.mul_le_mul_left c h2]
    exact_mod_cast h4
  have h5 : ((c * (60 * (n + 1) ^ 2 + 1) ^ k + 1 : Nat) : ℝ) < ((2 ^ (n + 1) : Nat) : ℝ) := by
    refine lt_of_le_of_lt h1 ?_
    push_cast at hn ⊢
    have : (0 : ℝ) < ((n : ℝ) + 1) ^ (2 * k) := by positivity
    nlinarith
  exact_mod_cast h5

/-- **C85 is false**: no polynomial bounds the number of calls. -/
theorem C85_refuted : ¬ PolynomialCalls ℚ := by
  rintro ⟨c, k, h⟩
  obtain ⟨n, hn⟩ := pow_beats c k
  have h1 := h true (blowText n) ⟨blowM n, [("a", blowF n)]⟩ (by
    rw [C53_roundtrip true (fun c hc => (blow_ok n c hc).1) (fun c hc => (blow_ok n c hc).2)
      (show Text (blow n) (blowText n) from render_text (blow n)) (Nat.lt_succ_self _), blow_eval]) ("a", blowF n) (by simp) 0 sizeTrace
  have h2 := C85_calls true 0 n
  have h3 : c * ((blowText n).length + 1) ^ k ≤ c * (60 * (n + 1) ^ 2 + 1) ^ k :=
    Nat.mul_le_mul_left c (Nat.pow_le_pow_left (Nat.add_le_add_right (blowText_length n) 1) k)
  simp only at h1
  omega

/-! ## Examples -/

-- C85_exponential: an accepted text.
example (fuel : Nat) (trace : Trace ℚ) : calls true fuel (.Always (.or [exP, .not exP])) trace ≤ 4 ^ exText.length :=
  (C85_exponential_partial true (by decide) (exText_parsed true) fuel trace).2
    ("a1", .Always (.or [exP, .not exP])) (by simp [exMeaning])

/-- Two groups of commands without repetition. -/
def plainSpec : List (List RawCmd) :=
  [[.define "p" (.paren [.un .always (.paren [.nary .and [.tru, .paren [.cmp .LT "x" litA]]])])],
    [.assert "a1" (.ref "p")]]

-- C85_linear: its hypotheses are met by it (with the layout of `render`).
example : (∀ cs ∈ plainSpec, ∀ c ∈ cs, RawCmdOk c ∧ c.plain = true) ∧
    RawText plainSpec (render (plainSpec.flatMap groupToks)) := by
  refine ⟨?_, .mk (g := []) .nil (render_txt _)⟩
  intro cs hcs c hc
  simp only [plainSpec, List.mem_cons, List.not_mem_nil, or_false] at hcs
  rcases hcs with rfl | rfl <;> simp only [List.mem_singleton] at hc <;> subst hc
  · refine ⟨.define name_p ?_, by simp [RawCmd.plain, Raw.plain, Raw.plainAll, Item.plain, Item.plainAll]⟩
    have one : ∀ {i : Item}, ItemOk i → RawOk (.paren [i]) := fun h => .paren (.cons h .nil (by simp))
    exact one (.un (one (.nary (by simp) (.cons .tru (.cons (one (.cmp name_x)) .nil)))))
  · exact ⟨.assert name_a (.ref name_p (by decide) (by decide)), by simp [RawCmd.plain]⟩

-- C85_calls: ten formulas, 1023 calls.
example (fuel : Nat) : calls true fuel (blowF 9) sizeTrace = 1023 := by
  have := C85_calls true fuel 9
  omega

end Verif
