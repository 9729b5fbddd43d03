import Verif.Proofs.TextLevels
import Verif.Props.Actual
import Verif.Props.TextRound

/-!
# C140: what is computed for a text

C131 for what is written: the code evaluates any text without constants as if every `(until a b)` in it were
`(or c (until a c) (always a))`, where `c` is `(or b (always (not b)))`, up to the error of sampling.
-/

set_option linter.unusedSectionVars false

namespace Verif
open Spec

section
variable [Strtod ℝ]

theorem text_actual (nd : Bool) {cs : List Cmd} (hok : ∀ c ∈ cs, CmdOk c) (hrev : ∀ c ∈ cs, NoRev c.term)
    {w : List Char} (hw : Text cs w) {fuel : Nat} (hf : w.length < fuel) {sp : Specification ℝ}
    (h : fromString nd fuel w = .ok sp) (i : Nat) (n : String) (d : Nat) (l : List String)
    (hd : (textLevels cs)[i]? = some (n, some d)) (hl : (textSignals cs)[i]? = some (n, l)) :
    ∃ e, sp.assertions[i]? = some (n, e) ∧ Levels d e ∧ (∀ k, Uses k e → k ∈ l) ∧ ∀ (T : ℝ) (x : String → ℝ → ℝ),
      ∃ r p, (textRob T x (cs.map cmdActual))[i]? = some (n, r) ∧ (textSat T x (cs.map cmdActual))[i]? = some (n, p) ∧
        ∀ t, rob T x (actual e) t = r t ∧ (0 < r t → p t) ∧ (r t < 0 → ¬ p t) := by
  rw [C53_roundtrip nd hok hrev hw hf] at h
  obtain ⟨⟨n1, e⟩, he, ⟨hn, hne⟩⟩ := forall₂_index (asserted_text levelsRespects (fun _ => none) h) i _ hd
  obtain rfl : n1 = n := hn
  obtain ⟨⟨n2, e2⟩, he2, ⟨hn2, hu⟩⟩ := forall₂_index (asserted_text signalsRespects (fun _ => []) h) i _ hl
  rw [he] at he2
  cases he2
  refine ⟨e, he, hne d rfl, hu, fun T x => ?_⟩
  obtain ⟨⟨n3, r⟩, hr, ⟨hn3, hr'⟩⟩ := forall₂_index' (asserted_text (actualRespects T x) (fun _ _ => ⊥) h) i _ he
  obtain rfl : n1 = n3 := hn3
  rw [asserted_actual] at hr
  obtain ⟨p, hp, hq⟩ := C101_meanings T x (cs.map cmdActual) i n1 r hr
  exact ⟨r, p, hr, hp, fun t => ⟨hr' t, hq t⟩⟩

/-- **C140.** Parse a text, take any assertion without constants, compute its robustness.  At every real time of the trace
the result differs from the robustness of the translated text by at most `d δ / 4`, where `d` is the nesting of the
temporal operators in the text, Until counting four, and `δ` bounds the steps of the signals; beyond this the sign decides
whether the translated text holds. -/
theorem C140_error (nd nd' : Bool) {cs : List Cmd} (hok : ∀ c ∈ cs, CmdOk c) (hrev : ∀ c ∈ cs, NoRev c.term)
    {w : List Char} (hw : Text cs w) {fuel : Nat} (hf : w.length < fuel) {sp : Specification ℝ}
    (h : fromString nd fuel w = .ok sp) (fuel' : Nat) (trace : Trace ℝ) (sy : Bool) (t0 T δ : ℝ) (hδ : 0 ≤ δ)
    (sig : String → List (ℝ × ℝ)) (i : Nat) (n : String) (d : Nat) (l : List String)
    (hd : (textLevels cs)[i]? = some (n, some d)) (hl : (textSignals cs)[i]? = some (n, l))
    (hx : ∀ k ∈ l, (∃ x, trace.lookup k = some x ∧ Represents x (sig k) ∧ ∃ v r, sig k = (t0, v) :: r) ∧
      dom (sig k) = Set.Icc t0 T ∧ StepAtMost δ (sig k)) :
    ∃ e r p z zs, sp.assertions[i]? = some (n, e) ∧
      (textRob T (fun k => eval (sig k)) (cs.map cmdActual))[i]? = some (n, r) ∧
      (textSat T (fun k => eval (sig k)) (cs.map cmdActual))[i]? = some (n, p) ∧
      computeRobustness nd' fuel' e trace sy = .ok z ∧ Represents z zs ∧ dom zs = Set.Icc t0 T ∧
      ∀ t ∈ Set.Icc t0 T, (∃ q : ℝ, r t = q ∧ |eval zs t - q| ≤ d * δ / 4) ∧
        (d * δ / 4 < eval zs t → p t) ∧ (eval zs t < -(d * δ / 4) → ¬ p t) := by
  obtain ⟨e, he, hne, hu, hm⟩ := text_actual nd hok hrev hw hf h i n d l hd hl
  obtain ⟨r, p, hr, hp, hrp⟩ := hm T fun k => eval (sig k)
  obtain ⟨z, zs, h1, h2, h3, h4⟩ := C131_error nd' fuel' trace sy t0 T δ hδ sig d e hne
    (fun k hk => (hx k (hu k hk)).1) (fun k hk => (hx k (hu k hk)).2.1) (fun k hk => (hx k (hu k hk)).2.2)
  refine ⟨e, r, p, z, zs, he, hr, hp, h1, h2, h3, fun t ht => ?_⟩
  obtain ⟨⟨q, hq, hb⟩, -, -⟩ := h4 t ht
  obtain ⟨hr', hp1, hp2⟩ := hrp t
  rw [hq] at hr'
  rw [← hr'] at hp1 hp2
  have := abs_le.1 hb
  exact ⟨⟨q, hr'.symm, hb⟩, fun hv => hp1 (EReal.coe_pos.2 (by linarith)), fun hv => hp2 (EReal.coe_neg'.2 (by linarith))⟩

/-- **C140 for signals in continuous time** that change by at most `L` per unit of time and are sampled at times at most
`η` apart, each at its own times. -/
theorem C140_sampling (nd nd' : Bool) {cs : List Cmd} (hok : ∀ c ∈ cs, CmdOk c) (hrev : ∀ c ∈ cs, NoRev c.term)
    {w : List Char} (hw : Text cs w) {fuel : Nat} (hf : w.length < fuel) {sp : Specification ℝ}
    (h : fromString nd fuel w = .ok sp) (fuel' : Nat) (trace : Trace ℝ) (sy : Bool) (t0 T L η : ℝ) (hL : 0 ≤ L)
    (hη : 0 ≤ η) (f : String → ℝ → ℝ) (i : Nat) (n : String) (d : Nat) (l : List String)
    (hd : (textLevels cs)[i]? = some (n, some d)) (hl : (textSignals cs)[i]? = some (n, l))
    (hLip : ∀ k ∈ l, ∀ s ∈ Set.Icc t0 T, ∀ t ∈ Set.Icc t0 T, |f k t - f k s| ≤ L * |t - s|)
    (hx : ∀ k ∈ l, ∃ x ts, trace.lookup k = some x ∧ Represents x (sampled (f k) ts) ∧ Grid t0 T η ts) :
    ∃ e r p z zs, sp.assertions[i]? = some (n, e) ∧
      (textRob T f (cs.map cmdActual))[i]? = some (n, r) ∧ (textSat T f (cs.map cmdActual))[i]? = some (n, p) ∧
      computeRobustness nd' fuel' e trace sy = .ok z ∧ Represents z zs ∧ dom zs = Set.Icc t0 T ∧
      ∀ t ∈ Set.Icc t0 T, (∃ q : ℝ, r t = q ∧ |eval zs t - q| ≤ (d / 4 + 1 / 2) * (L * η)) ∧
        ((d / 4 + 1 / 2) * (L * η) < eval zs t → p t) ∧ (eval zs t < -((d / 4 + 1 / 2) * (L * η)) → ¬ p t) := by
  obtain ⟨e, he, hne, hu, hm⟩ := text_actual nd hok hrev hw hf h i n d l hd hl
  obtain ⟨r, p, hr, hp, hrp⟩ := hm T f
  obtain ⟨z, zs, h1, h2, h3, h4⟩ := C131_sampling nd' fuel' trace sy t0 T L η hL hη f d e hne
    (fun k hk => hLip k (hu k hk)) (fun k hk => hx k (hu k hk))
  refine ⟨e, r, p, z, zs, he, hr, hp, h1, h2, h3, fun t ht => ?_⟩
  obtain ⟨q, hq, hb⟩ := h4 t ht
  obtain ⟨hr', hp1, hp2⟩ := hrp t
  rw [hq] at hr'
  rw [← hr'] at hp1 hp2
  have := abs_le.1 hb
  exact ⟨⟨q, hr'.symm, hb⟩, fun hv => hp1 (EReal.coe_pos.2 (by linarith)), fun hv => hp2 (EReal.coe_neg'.2 (by linarith))⟩

end

/-! ## Concrete case -/

section case
local instance strtodTextActual : Strtod ℝ := ⟨fun _ => false⟩

/-- `(define-formula p (< x 1.5)) (assert a1 (always (until p (not p))))` -/
def untilSpec : List Cmd :=
  [.define "p" (.cmp .LT "x" litA), .assert "a1" (.always (.untl (.ref "p") (.not (.ref "p"))))]

theorem untilSpec_ok : ∀ c ∈ untilSpec, CmdOk c := by
  intro c hc
  have hp : SynOk (.ref "p") := .ref name_p (by decide) (by decide)
  simp only [untilSpec, List.mem_cons, List.not_mem_nil, or_false] at hc
  rcases hc with rfl | rfl
  · exact .define name_p (.cmp name_x)
  · exact .assert name_a (.always (.untl hp (.not hp)))

theorem untilSpec_rev : ∀ c ∈ untilSpec, NoRev c.term := by
  intro c hc
  simp only [untilSpec, List.mem_cons, List.not_mem_nil, or_false] at hc
  rcases hc with rfl | rfl
  · exact .cmp
  · exact .always (.untl .ref (.not .ref))

theorem litA_val : (litA.val : ℝ) = 3 / 2 := by
  have h5 : ((5 : Fin 10) : Nat) = 5 := rfl
  simp [litA, NumLit.val, Digits.val, Digits.all, h5]
  norm_num

/-- **C140: this is not what is written.**  `x` is 1 all the time, so `p` always holds and `(until p (not p))` never does;
however the text is laid out and however fine the sampling is, the computed robustness is positive at every time. -/
theorem C140_not_text (nd nd' : Bool) {w : List Char} (hw : Text untilSpec w) {fuel : Nat} (hf : w.length < fuel)
    {sp : Specification ℝ} (h : fromString nd fuel w = .ok sp) (fuel' : Nat) (trace : Trace ℝ) (sy : Bool) (η : ℝ)
    (hη : 0 ≤ η) (hx : ∃ x ts, trace.lookup "x" = some x ∧ Represents x (sampled (fun _ => 1) ts) ∧ Grid 0 2 η ts) :
    ∃ e p z zs, sp.assertions[0]? = some ("a1", e) ∧ (textSat 2 (fun _ _ => 1) untilSpec)[0]? = some ("a1", p) ∧
      computeRobustness nd' fuel' e trace sy = .ok z ∧ Represents z zs ∧ dom zs = Set.Icc 0 2 ∧
      ∀ t ∈ Set.Icc (0 : ℝ) 2, 0 < eval zs t ∧ ¬ p t := by
  obtain ⟨e, r, p, z, zs, he, hr, -, h1, h2, h3, h4⟩ := C140_sampling nd nd' untilSpec_ok untilSpec_rev hw hf h fuel' trace sy
    0 2 0 η le_rfl hη (fun _ _ => 1) 0 "a1" 5 ["x", "x"] rfl rfl (fun k _ s _ t _ => by simp)
    (fun k hk => by
      simp only [List.mem_cons, List.not_mem_nil, or_false, or_self] at hk
      subst hk; exact hx)
  refine ⟨e, _, z, zs, he, rfl, h1, h2, h3, fun t ht => ⟨?_, ?_⟩⟩
  · obtain ⟨⟨q, hq, hb⟩, -, -⟩ := h4 t ht
    simp only [zero_mul, mul_zero, abs_nonpos_iff] at hb
    have hh : ((1 / 2 : ℝ) : EReal) ≤ r t := by
      simp only [textRob, untilSpec, List.map_cons, List.map_nil, cmdActual, synActual, asserted, List.getElem?_cons_zero,
        Option.some.injEq, Prod.mk.injEq, true_and] at hr
      rw [← hr]
      simp only [synRob, synRobAny, bindName, if_true, margin, litA_val, neg_neg]
      refine le_iInf₂ fun s hs => le_sup_of_le_left (le_sup_of_le_right (le_sup_of_le_left (le_iInf₂ fun u hu => ?_)))
      exact EReal.coe_le_coe_iff.2 (by norm_num)
    rw [hq, EReal.coe_le_coe_iff] at hh
    linarith
  · simp only [synSat, bindName, if_true, holdsFwd, litA_val]
    intro hc
    obtain ⟨s, -, hs, -⟩ := hc t ⟨le_rfl, ht.2⟩
    exact hs (by norm_num)

example : ∃ x ts, [("x", ofPts (sampled (fun _ => 1) [0, 1, (2 : ℝ)]))].lookup "x" = some x ∧
    Represents x (sampled (fun _ => 1) ts) ∧ Grid 0 2 1 ts :=
  ⟨_, [0, 1, 2], rfl, represents_ofPts (by simp [sampled, Increasing]), rfl, rfl, by simp; norm_num⟩

-- The hypotheses hold for the text of this specification and a trace with `x` over `[0, 2]`.
example (nd : Bool) (w : List Char) (hw : Text untilSpec w) : ∃ sp : Specification ℝ,
    (∀ c ∈ untilSpec, CmdOk c) ∧ (∀ c ∈ untilSpec, NoRev c.term) ∧ fromString nd (w.length + 1) w = .ok sp ∧
    (textLevels untilSpec)[0]? = some ("a1", some 5) ∧
    (textSignals untilSpec)[0]? = some ("a1", ["x", "x"]) ∧
    Represents (ofPts [(0, 1), (2, (3 : ℝ))]) [(0, 1), (2, 3)] ∧ dom [((0 : ℝ), (1 : ℝ)), (2, 3)] = Set.Icc 0 2 ∧
    StepAtMost 2 [((0 : ℝ), (1 : ℝ)), (2, 3)] := by
  have h1 := untilSpec_ok
  have h2 := untilSpec_rev
  let P : Expr ℝ := .pred "x" .LT (.fin (3 / 2))
  refine ⟨⟨[("p", P)], [("a1", .Always (.Until P (.not P)))]⟩, h1, h2, ?_, rfl, rfl, ?_, ?_, ?_⟩
  · rw [C53_roundtrip nd h1 h2 hw (by omega)]
    simp only [untilSpec, evalSpec, evalCmd, denote, litA_real]
    rfl
  · exact represents_ofPts (by simp [Increasing])
  · ext t
    simp only [dom, Set.mem_ofPred_eq, List.mem_cons, List.not_mem_nil, or_false, exists_eq_or_imp, exists_eq_left,
      Set.mem_Icc]
    constructor
    · rintro ⟨h1 | h1, h2 | h2⟩ <;> constructor <;> linarith
    · exact fun h => ⟨.inl h.1, .inr h.2⟩
  · unfold StepAtMost
    norm_num

end case

end Verif
