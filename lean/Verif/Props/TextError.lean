import Verif.Proofs.TextNest
import Verif.Proofs.TextPolarity
import Verif.Props.EndToEnd
import Verif.Props.Sampling
import Verif.Props.Prefix

/-!
# C139: from the text of a specification to verdicts at all times

C78 and C101 are about texts whose temporal operators are not applied to Boolean combinations of temporal formulas.  Here
Not, And, Or, Implies, Iff, Xor, Always and Eventually are nested in any way.
-/

set_option linter.unusedSectionVars false

namespace Verif
open Spec

section
variable [Strtod ℝ]

/-- **C139.** Parse a text, take any assertion without Until and constants, compute its robustness.  At every real time of
the trace the result differs from the robustness of what is written in the text by at most `d δ / 4`, where `d` is the
nesting of Always and Eventually in the text and `δ` bounds the steps of the signals; beyond this the sign decides whether
what is written holds. -/
theorem C139_error (nd nd' : Bool) {cs : List Cmd} (hok : ∀ c ∈ cs, CmdOk c) (hrev : ∀ c ∈ cs, NoRev c.term)
    {w : List Char} (hw : Text cs w) {fuel : Nat} (hf : w.length < fuel) {sp : Specification ℝ}
    (h : fromString nd fuel w = .ok sp) (fuel' : Nat) (trace : Trace ℝ) (sy : Bool) (t0 T δ : ℝ) (hδ : 0 ≤ δ)
    (sig : String → List (ℝ × ℝ)) (i : Nat) (n : String) (d : Nat) (l : List String)
    (hd : (textNest cs)[i]? = some (n, some d)) (hl : (textSignals cs)[i]? = some (n, l))
    (hx : ∀ k ∈ l, (∃ x, trace.lookup k = some x ∧ Represents x (sig k) ∧ ∃ v r, sig k = (t0, v) :: r) ∧
      dom (sig k) = Set.Icc t0 T ∧ StepAtMost δ (sig k)) :
    ∃ e r p z zs, sp.assertions[i]? = some (n, e) ∧
      (textRob T (fun k => eval (sig k)) cs)[i]? = some (n, r) ∧
      (textSat T (fun k => eval (sig k)) cs)[i]? = some (n, p) ∧
      computeRobustness nd' fuel' e trace sy = .ok z ∧ Represents z zs ∧ dom zs = Set.Icc t0 T ∧
      ∀ t ∈ Set.Icc t0 T, (∃ q : ℝ, r t = q ∧ |eval zs t - q| ≤ d * δ / 4) ∧
        (d * δ / 4 < eval zs t → p t) ∧ (eval zs t < -(d * δ / 4) → ¬ p t) := by
  have h' := h
  rw [C53_roundtrip nd hok hrev hw hf] at h'
  obtain ⟨⟨n1, e⟩, he, ⟨hn, hne⟩⟩ := forall₂_index (asserted_text nestRespects (fun _ => none) h') i _ hd
  obtain rfl : n1 = n := hn
  obtain ⟨⟨n2, e2⟩, he2, ⟨hn2, hu⟩⟩ := forall₂_index (asserted_text signalsRespects (fun _ => []) h') i _ hl
  rw [he] at he2
  cases he2
  obtain ⟨r, p, hr, hp, hrp⟩ := (C78_meaning nd hok hrev hw hf h).2 i n1 e he T fun k => eval (sig k)
  obtain ⟨z, zs, h1, h2, h3, h4⟩ := C80_error nd' fuel' trace sy t0 T δ hδ sig d e (hne d rfl)
    (fun k hk => (hx k (hu k hk)).1) (fun k hk => (hx k (hu k hk)).2.1) (fun k hk => (hx k (hu k hk)).2.2)
  refine ⟨e, r, p, z, zs, he, hr, hp, h1, h2, h3, fun t ht => ?_⟩
  obtain ⟨⟨q, hq, hb⟩, h5, h6⟩ := h4 t ht
  exact ⟨⟨q, by rw [← (hrp t).1, hq], hb⟩, fun hv => (hrp t).2.1 (h5 hv), fun hv hc => h6 hv ((hrp t).2.2 hc)⟩

/-- **C139 for signals in continuous time** that change by at most `L` per unit of time and are sampled at times at most
`h` apart, each at its own times: what is written in the text is about the signals `f` themselves. -/
theorem C139_sampling (nd nd' : Bool) {cs : List Cmd} (hok : ∀ c ∈ cs, CmdOk c) (hrev : ∀ c ∈ cs, NoRev c.term)
    {w : List Char} (hw : Text cs w) {fuel : Nat} (hf : w.length < fuel) {sp : Specification ℝ}
    (h : fromString nd fuel w = .ok sp) (fuel' : Nat) (trace : Trace ℝ) (sy : Bool) (t0 T L η : ℝ) (hL : 0 ≤ L)
    (hη : 0 ≤ η) (f : String → ℝ → ℝ) (i : Nat) (n : String) (d : Nat) (l : List String)
    (hd : (textNest cs)[i]? = some (n, some d)) (hl : (textSignals cs)[i]? = some (n, l))
    (hLip : ∀ k ∈ l, ∀ s ∈ Set.Icc t0 T, ∀ t ∈ Set.Icc t0 T, |f k t - f k s| ≤ L * |t - s|)
    (hx : ∀ k ∈ l, ∃ x ts, trace.lookup k = some x ∧ Represents x (sampled (f k) ts) ∧ Grid t0 T η ts) :
    ∃ e r p z zs, sp.assertions[i]? = some (n, e) ∧
      (textRob T f cs)[i]? = some (n, r) ∧ (textSat T f cs)[i]? = some (n, p) ∧
      computeRobustness nd' fuel' e trace sy = .ok z ∧ Represents z zs ∧ dom zs = Set.Icc t0 T ∧
      ∀ t ∈ Set.Icc t0 T, (∃ q : ℝ, r t = q ∧ |eval zs t - q| ≤ (d / 4 + 1 / 2) * (L * η)) ∧
        ((d / 4 + 1 / 2) * (L * η) < eval zs t → p t) ∧ (eval zs t < -((d / 4 + 1 / 2) * (L * η)) → ¬ p t) := by
  have h' := h
  rw [C53_roundtrip nd hok hrev hw hf] at h'
  obtain ⟨⟨n1, e⟩, he, ⟨hn, hne⟩⟩ := forall₂_index (asserted_text nestRespects (fun _ => none) h') i _ hd
  obtain rfl : n1 = n := hn
  obtain ⟨⟨n2, e2⟩, he2, ⟨hn2, hu⟩⟩ := forall₂_index (asserted_text signalsRespects (fun _ => []) h') i _ hl
  rw [he] at he2
  cases he2
  obtain ⟨r, p, hr, hp, hrp⟩ := (C78_meaning nd hok hrev hw hf h).2 i n1 e he T f
  obtain ⟨z, zs, h1, h2, h3, h4⟩ := C81_sampling nd' fuel' trace sy t0 T L η hL hη f d e (hne d rfl)
    (fun k hk => hLip k (hu k hk)) (fun k hk => hx k (hu k hk))
  refine ⟨e, r, p, z, zs, he, hr, hp, h1, h2, h3, fun t ht => ?_⟩
  obtain ⟨⟨q, hq, hb⟩, h5, h6⟩ := h4 t ht
  exact ⟨⟨q, by rw [← (hrp t).1, hq], hb⟩, fun hv => (hrp t).2.1 (h5 hv), fun hv hc => h6 hv ((hrp t).2.2 hc)⟩

/-- **C139, the future.**  The trace is the beginning of signals `y` that go on up to any later time `T'`, known up to `ε` so
far.  For an assertion that is a safety formula as it is written a value below `-(ε + d δ / 4)` means that what is written
is false of all such `y`; for a co-safety formula a value above `ε + d δ / 4` that it is true of all of them. -/
theorem C139_future (nd nd' : Bool) {cs : List Cmd} (hok : ∀ c ∈ cs, CmdOk c) (hrev : ∀ c ∈ cs, NoRev c.term)
    {w : List Char} (hw : Text cs w) {fuel : Nat} (hf : w.length < fuel) {sp : Specification ℝ}
    (h : fromString nd fuel w = .ok sp) (fuel' : Nat) (trace : Trace ℝ) (sy : Bool) (t0 T δ ε : ℝ) (hδ : 0 ≤ δ)
    (sig : String → List (ℝ × ℝ)) (i : Nat) (n : String) (d : Nat) (l : List String) (P : Bool → Prop)
    (hd : (textNest cs)[i]? = some (n, some d)) (hl : (textSignals cs)[i]? = some (n, l))
    (hP : (textPolarity cs)[i]? = some (n, P))
    (hx : ∀ k ∈ l, (∃ x, trace.lookup k = some x ∧ Represents x (sig k) ∧ ∃ v r, sig k = (t0, v) :: r) ∧
      dom (sig k) = Set.Icc t0 T ∧ StepAtMost δ (sig k)) :
    ∃ e z zs, sp.assertions[i]? = some (n, e) ∧
      computeRobustness nd' fuel' e trace sy = .ok z ∧ Represents z zs ∧ dom zs = Set.Icc t0 T ∧
      ∀ (T' : ℝ) (y : String → ℝ → ℝ), T ≤ T' →
        (∀ k ∈ l, ∀ t ∈ Set.Icc t0 T, |eval (sig k) t - y k t| ≤ ε) →
        ∃ p, (textSat T' y cs)[i]? = some (n, p) ∧ ∀ t ∈ Set.Icc t0 T,
          (P true → eval zs t < -(ε + d * δ / 4) → ¬ p t) ∧ (P false → ε + d * δ / 4 < eval zs t → p t) := by
  have h' := h
  rw [C53_roundtrip nd hok hrev hw hf] at h'
  obtain ⟨⟨n1, e⟩, he, ⟨hn, hne⟩⟩ := forall₂_index (asserted_text nestRespects (fun _ => none) h') i _ hd
  obtain rfl : n1 = n := hn
  obtain ⟨⟨n2, e2⟩, he2, ⟨hn2, hu⟩⟩ := forall₂_index (asserted_text signalsRespects (fun _ => []) h') i _ hl
  rw [he] at he2
  cases he2
  obtain ⟨⟨n3, e3⟩, he3, ⟨hn3, hpo⟩⟩ := forall₂_index (asserted_text polarityRespects (fun _ _ => False) h') i _ hP
  rw [he] at he3
  cases he3
  have hne := hne d rfl
  obtain ⟨z, zs, h1, h2, h3, h4⟩ := C80_error nd' fuel' trace sy t0 T δ hδ sig d e hne
    (fun k hk => (hx k (hu k hk)).1) (fun k hk => (hx k (hu k hk)).2.1) (fun k hk => (hx k (hu k hk)).2.2)
  refine ⟨e, z, zs, he, h1, h2, h3, fun T' y hT hc => ?_⟩
  obtain ⟨r, p, hr, hp, hrp⟩ := (C78_meaning nd hok hrev hw hf h).2 i n1 e he T' y
  refine ⟨p, hp, fun t ht => ?_⟩
  obtain ⟨⟨q, hq, hb⟩, -, -⟩ := h4 t ht
  have hb := abs_le.1 hb
  have c := fun (b : Bool) (h : P b) =>
    rob_prefix hT hne.plain (hpo b h) (x := fun k => eval (sig k)) (fun k hk t ht => hc k (hu k hk) t ht) t ht
  rw [hq] at c
  refine ⟨fun hs hv hcon => ?_, fun hs hv => (hrp t).2.1 ((rob_sat _ _ _ t).1 ?_)⟩
  · refine (rob_sat _ _ _ t).2 (((c true hs).1 rfl).trans_lt ?_) ((hrp t).2.2 hcon)
    rw [← EReal.coe_add]
    exact EReal.coe_neg'.2 (by linarith)
  · have := (c false hs).2 rfl
    have k := EReal.sub_le_of_le_add this
    rw [← EReal.coe_sub] at k
    exact lt_of_lt_of_le (EReal.coe_pos.2 (by linarith)) k

end

/-! ## Concrete case -/

section case
local instance strtodTextError : Strtod ℝ := ⟨fun _ => false⟩

/-- `(define-formula p (< x 1.5)) (assert a1 (always (implies p (eventually (not p)))))` -/
def nestSpec : List Cmd :=
  [.define "p" (.cmp .LT "x" litA),
   .assert "a1" (.always (.implies (.ref "p") (.eventually (.not (.ref "p")))))]

-- The text is outside C78 (`textShape` is `other`); the hypotheses hold for it and a trace with `x` over `[0, 2]`.
example (nd : Bool) (w : List Char) (hw : Text nestSpec w) : ∃ sp : Specification ℝ,
    (∀ c ∈ nestSpec, CmdOk c) ∧ (∀ c ∈ nestSpec, NoRev c.term) ∧ fromString nd (w.length + 1) w = .ok sp ∧
    (textShape nestSpec)[0]? = some ("a1", .other) ∧ (textNest nestSpec)[0]? = some ("a1", some 2) ∧
    (textSignals nestSpec)[0]? = some ("a1", ["x", "x"]) ∧
    Represents (ofPts [(0, 1), (2, (3 : ℝ))]) [(0, 1), (2, 3)] ∧ dom [((0 : ℝ), (1 : ℝ)), (2, 3)] = Set.Icc 0 2 ∧
    StepAtMost 2 [((0 : ℝ), (1 : ℝ)), (2, 3)] := by
  have h1 : ∀ c ∈ nestSpec, CmdOk c := by
    intro c hc
    have hp : SynOk (.ref "p") := .ref name_p (by decide) (by decide)
    simp only [nestSpec, List.mem_cons, List.not_mem_nil, or_false] at hc
    rcases hc with rfl | rfl
    · exact .define name_p (.cmp name_x)
    · exact .assert name_a (.always (.implies hp (.eventually (.not hp))))
  have h2 : ∀ c ∈ nestSpec, NoRev c.term := by
    intro c hc
    simp only [nestSpec, List.mem_cons, List.not_mem_nil, or_false] at hc
    rcases hc with rfl | rfl
    · exact .cmp
    · exact .always (.implies .ref (.eventually (.not .ref)))
  let P : Expr ℝ := .pred "x" .LT (.fin (3 / 2))
  refine ⟨⟨[("p", P)], [("a1", .Always (.or [.not P, .Eventually (.not P)]))]⟩, h1, h2, ?_, rfl, rfl, rfl, ?_, ?_, ?_⟩
  · rw [C53_roundtrip nd h1 h2 hw (by omega)]
    simp only [nestSpec, evalSpec, evalCmd, denote, litA_real]
    rfl
  · exact represents_ofPts (by simp [Increasing])
  · ext t
    simp only [dom, Set.mem_ofPred_eq, List.mem_cons, List.not_mem_nil, or_false, exists_eq_or_imp, exists_eq_left,
      Set.mem_Icc]
    constructor
    · rintro ⟨h1 | h1, h2 | h2⟩ <;> constructor <;> linarith
    · exact fun h => ⟨.inl h.1, .inr h.2⟩
  · unfold StepAtMost
    norm_num

/-- `(define-formula p (< x 1.5)) (assert a1 (implies (eventually p) (always p)))`: safety, nesting 1. -/
example : (textNest eeSpec)[0]? = some ("a1", some 1) ∧ (textSignals eeSpec)[0]? = some ("a1", ["x", "x"]) ∧
    ∃ P, (textPolarity eeSpec)[0]? = some ("a1", P) ∧ P true ∧ ¬ P false := by
  refine ⟨rfl, rfl, _, rfl, ?_, ?_⟩
  · simp [synPolarity, bindName]
  · simp [synPolarity]

end case

end Verif
