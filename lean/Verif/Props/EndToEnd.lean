import Verif.Proofs.Meaning
import Verif.Props.Parser

/-!
# From the text of a specification to its robustness: C78
-/

set_option linter.unusedSectionVars false

namespace Verif
open Spec

theorem forall₂_index {α β : Type} {R : α → β → Prop} {l : List α} {m : List β} (h : List.Forall₂ R l m) :
    ∀ (i : Nat) (b : β), m[i]? = some b → ∃ a, l[i]? = some a ∧ R a b := by
  induction h with
  | nil => intro i b hb; simp at hb
  | cons h _ ih =>
    intro i b hb
    cases i with
    | zero => simp only [List.getElem?_cons_zero, Option.some.injEq] at hb ⊢; subst hb; exact ⟨_, rfl, h⟩
    | succ i => simpa using ih i b (by simpa using hb)

theorem forall₂_index' {α β : Type} {R : α → β → Prop} {l : List α} {m : List β} (h : List.Forall₂ R l m) :
    ∀ (i : Nat) (a : α), l[i]? = some a → ∃ b, m[i]? = some b ∧ R a b := fun i a ha => by
  obtain ⟨b, hb, hr⟩ := forall₂_index (R := fun b a => R a b) (List.Forall₂.flip h) i a ha
  exact ⟨b, hb, hr⟩

section endToEnd
variable [Strtod ℝ]

/-! ## C78 -/

/-- **C78.** If the parser accepts a text of the commands `cs`, the result has one assertion for each that is
written, with its name (listed in the order of the text; the `std::map` of the code lists them by name); and the semantics of the expression is what is written: the
semantics of the syntax tree of the assertion, with the formulas defined above it. -/
theorem C78_meaning (nd : Bool) {cs : List Cmd} (hok : ∀ c ∈ cs, CmdOk c) (hrev : ∀ c ∈ cs, NoRev c.term)
    {w : List Char} (hw : Text cs w) {fuel : Nat} (hf : w.length < fuel) {sp : Specification ℝ}
    (h : fromString nd fuel w = .ok sp) :
    sp.assertions.map Prod.fst = assertNames cs ∧
    ∀ (i : Nat) (n : String) (e : Expr ℝ), sp.assertions[i]? = some (n, e) →
      ∀ (T : ℝ) (x : String → ℝ → ℝ), ∃ r p, (textRob T x cs)[i]? = some (n, r) ∧
        (textSat T x cs)[i]? = some (n, p) ∧ ∀ t, rob T x e t = r t ∧ (Sat T x e t ↔ p t) := by
  rw [C53_roundtrip nd hok hrev hw hf] at h
  constructor
  · have h1 := asserted_text (satRespects 0 fun _ _ => 0) (fun _ _ => False) h
    have h2 : ∀ {l : List (String × Expr ℝ)} {m : List (String × (ℝ → Prop))} {R : Expr ℝ → (ℝ → Prop) → Prop},
        List.Forall₂ (fun p q => p.1 = q.1 ∧ R p.2 q.2) l m → l.map Prod.fst = m.map Prod.fst := by
      intro l m R h
      induction h with
      | nil => rfl
      | cons h _ ih => simp [h.1, ih]
    have h3 : ∀ {α : Type} (mean : (String → α) → Syn → α) (cs : List Cmd) (env : String → α),
        (asserted mean env cs).map Prod.fst = assertNames cs := by
      intro α mean cs
      induction cs with
      | nil => intro env; rfl
      | cons c cs ih =>
        intro env
        cases c with
        | define n t => exact ih _
        | assert n t => simp [asserted, assertNames, ih]
    rw [h2 (R := fun e q => ∀ t, Sat 0 (fun _ _ => 0) e t ↔ q t) h1, h3]
  · intro i n e he T x
    obtain ⟨⟨n1, r⟩, hr, ⟨rfl, hr'⟩⟩ := forall₂_index' (asserted_text (robRespects T x) (fun _ _ => ⊥) h) i _ he
    obtain ⟨⟨n2, p⟩, hp, ⟨rfl, hp'⟩⟩ := forall₂_index' (asserted_text (satRespects T x) (fun _ _ => False) h) i _ he
    exact ⟨r, p, hr, hp, fun t => ⟨hr' t, hp' t⟩⟩

/-- **C78.** From the text to the number: parse a text, take an assertion in which temporal operators are not
applied to Boolean combinations of temporal formulas (and without Until and constants), compute its robustness;
the first sample is at the start of the trace and its value is the robustness of what is written in the text;
a positive number means that what is written holds, a negative number that it does not. -/
theorem C78_end_to_end (nd nd' : Bool) {cs : List Cmd} (hok : ∀ c ∈ cs, CmdOk c) (hrev : ∀ c ∈ cs, NoRev c.term)
    {w : List Char} (hw : Text cs w) {fuel : Nat} (hf : w.length < fuel) {sp : Specification ℝ}
    (h : fromString nd fuel w = .ok sp) (fuel' : Nat) (trace : Trace ℝ) (sy : Bool) (t0 T : ℝ)
    (sig : String → List (ℝ × ℝ)) (i : Nat) (n : String) (s : Shape) (l : List String)
    (hs : (textShape cs)[i]? = some (n, s)) (hs' : s ≠ .other)
    (hl : (textSignals cs)[i]? = some (n, l))
    (hx : ∀ k ∈ l, ∃ x, trace.lookup k = some x ∧ Represents x (sig k) ∧ (∃ v r, sig k = (t0, v) :: r) ∧
      dom (sig k) = Set.Icc t0 T) :
    ∃ e r p z first rest v, sp.assertions[i]? = some (n, e) ∧
      (textRob T (fun k => eval (sig k)) cs)[i]? = some (n, r) ∧
      (textSat T (fun k => eval (sig k)) cs)[i]? = some (n, p) ∧
      computeRobustness nd' fuel' e trace sy = .ok z ∧ z.samples = first :: rest ∧
      first.time = .fin t0 ∧ first.value = .fin v ∧
      (v : EReal) = r t0 ∧ (0 < v → p t0) ∧ (v < 0 → ¬ p t0) := by
  have h' := h
  rw [C53_roundtrip nd hok hrev hw hf] at h'
  obtain ⟨⟨n1, e⟩, he, ⟨hn, hsh⟩⟩ := forall₂_index (asserted_text shapeRespects (fun _ => .other) h') i _ hs
  obtain rfl : n1 = n := hn
  obtain ⟨⟨n2, e2⟩, he2, ⟨hn2, hu⟩⟩ := forall₂_index (asserted_text signalsRespects (fun _ => []) h') i _ hl
  rw [he] at he2
  cases he2
  obtain ⟨r, p, hr, hp, hrp⟩ := (C78_meaning nd hok hrev hw hf h).2 i n1 e he T fun k => eval (sig k)
  have ha : Aligned trace t0 sig e := by
    intro k hk
    obtain ⟨x, h1, h2, h3, -⟩ := hx k (hu k hk)
    exact ⟨x, h1, h2, h3⟩
  obtain ⟨z, first, rest, v, h1, h2, h3, h4, h5, h6, h7⟩ := C61_start_exact nd' fuel' trace sy t0 T sig e
    (hsh.comb hs') ha (fun k hk => (hx k (hu k hk)).choose_spec.2.2.2)
  exact ⟨e, r, p, z, first, rest, v, he, hr, hp, h1, h2, h3, h4, by rw [h5, (hrp t0).1],
    fun hv => (hrp t0).2.1 (h6 hv), fun hv hc => h7 hv ((hrp t0).2.2 hc)⟩

end endToEnd

/-! ## Concrete case -/

section case
local instance : Strtod ℝ := ⟨fun _ => false⟩

theorem litA_real : litA.eval = .ok (D.fin (3 / 2 : ℝ)) := by
  have h : (litA.val : ℝ) = 3 / 2 := by
    have h5 : ((5 : Fin 10) : Nat) = 5 := rfl
    simp [litA, NumLit.val, Digits.val, Digits.all, h5]
    norm_num
  have : litA.eval (K := ℝ) = if (Arith.rnd (litA.val : ℝ) : D ℝ).isinf || Strtod.underflow (litA.val : ℝ) then
      .throw .outOfRange else .ok (Arith.rnd (litA.val : ℝ)) := rfl
  rw [this, h]
  rfl

/-- `(define-formula p (< x 1.5)) (assert a1 (implies (eventually p) (always p)))` -/
def eeSpec : List Cmd :=
  [.define "p" (.cmp .LT "x" litA), .assert "a1" (.implies (.eventually (.ref "p")) (.always (.ref "p")))]

-- The hypotheses hold for the text of this specification and any trace with `x` over `[0, 2]`.
example (nd : Bool) (w : List Char) (hw : Text eeSpec w) : ∃ sp : Specification ℝ,
    (∀ c ∈ eeSpec, CmdOk c) ∧ (∀ c ∈ eeSpec, NoRev c.term) ∧ fromString nd (w.length + 1) w = .ok sp ∧
    (textShape eeSpec)[0]? = some ("a1", .comb) ∧ (textSignals eeSpec)[0]? = some ("a1", ["x", "x"]) ∧
    Represents (ofPts [(0, 1), (2, (3 : ℝ))]) [(0, 1), (2, 3)] ∧ dom [((0 : ℝ), (1 : ℝ)), (2, 3)] = Set.Icc 0 2 := by
  have h1 : ∀ c ∈ eeSpec, CmdOk c := by
    intro c hc
    have hp : SynOk (.ref "p") := .ref name_p (by decide) (by decide)
    simp only [eeSpec, List.mem_cons, List.not_mem_nil, or_false] at hc
    rcases hc with rfl | rfl
    · exact .define name_p (.cmp name_x)
    · exact .assert name_a (.implies (.eventually hp) (.always hp))
  have h2 : ∀ c ∈ eeSpec, NoRev c.term := by
    intro c hc
    simp only [eeSpec, List.mem_cons, List.not_mem_nil, or_false] at hc
    rcases hc with rfl | rfl
    · exact .cmp
    · exact .implies (.eventually .ref) (.always .ref)
  let P : Expr ℝ := .pred "x" .LT (.fin (3 / 2))
  refine ⟨⟨[("p", P)], [("a1", .or [.not (.Eventually P), .Always P])]⟩, h1, h2, ?_, ?_, ?_, ?_, ?_⟩
  · rw [C53_roundtrip nd h1 h2 hw (by omega)]
    simp only [eeSpec, evalSpec, evalCmd, denote, litA_real]
    rfl
  · rfl
  · rfl
  · exact represents_ofPts (by simp [Increasing])
  · ext t
    simp only [dom, Set.mem_ofPred_eq, List.mem_cons, List.not_mem_nil, or_false, exists_eq_or_imp, exists_eq_left,
      Set.mem_Icc]
    constructor
    · rintro ⟨h1 | h1, h2 | h2⟩ <;> constructor <;> linarith
    · exact fun h => ⟨.inl h.1, .inr h.2⟩

end case

end Verif
