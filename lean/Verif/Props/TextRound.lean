import Verif.Proofs.TextRound
import Verif.Props.EndToEnd
import Verif.Props.Numeral

/-!
# From the text of a specification to the verdict in binary64: C101
-/

set_option linter.unusedSectionVars false
set_option exponentiation.threshold 1100

namespace Verif
open Spec

/-! ## The quantitative meaning of a text and the Boolean one -/

/-- A positive number means true, a negative one false. -/
def Decides (f : EReal) (p : Prop) : Prop := (0 < f → p) ∧ (f < 0 → ¬ p)

section sound
variable {T : ℝ} {x : String → ℝ → ℝ} {env : String → ℝ → EReal} {env' : String → ℝ → Prop}

theorem decides_margin (o : ComparisonOp) (v c : ℝ) : Decides (margin o v (.fin c)) (holdsFwd o v c) := by
  cases o <;> simp only [Decides, margin, holdsFwd, EReal.coe_pos, EReal.coe_neg'] <;>
    constructor <;> intro h <;> linarith

theorem decides_mirror (o : ComparisonOp) (v c : ℝ) : Decides (margin (mirror o) v (.fin c)) (holdsRev o c v) := by
  cases o <;> simp only [Decides, mirror, margin, holdsRev, EReal.coe_pos, EReal.coe_neg'] <;>
    constructor <;> intro h <;> linarith

theorem Decides.not {f : EReal} {p : Prop} (h : Decides f p) : Decides (-f) (¬ p) := by
  constructor
  · intro h0
    rw [← neg_zero, EReal.neg_lt_neg_iff] at h0
    exact h.2 h0
  · intro h0
    rw [← neg_zero, EReal.neg_lt_neg_iff] at h0
    exact not_not.2 (h.1 h0)

theorem Decides.and {f g : EReal} {p q : Prop} (h : Decides f p) (h' : Decides g q) : Decides (f ⊓ g) (p ∧ q) := by
  constructor
  · intro h0
    rw [lt_inf_iff] at h0
    exact ⟨h.1 h0.1, h'.1 h0.2⟩
  · intro h0 hc
    rcases inf_lt_iff.1 h0 with h0 | h0
    · exact h.2 h0 hc.1
    · exact h'.2 h0 hc.2

theorem Decides.or {f g : EReal} {p q : Prop} (h : Decides f p) (h' : Decides g q) : Decides (f ⊔ g) (p ∨ q) := by
  constructor
  · intro h0
    rcases lt_sup_iff.1 h0 with h0 | h0
    · exact .inl (h.1 h0)
    · exact .inr (h'.1 h0)
  · intro h0 hc
    rw [sup_lt_iff] at h0
    exact hc.elim (h.2 h0.1) (h'.2 h0.2)

theorem Decides.forall {s : Set ℝ} {f : ℝ → EReal} {p : ℝ → Prop} (h : ∀ t, Decides (f t) (p t)) :
    Decides (⨅ t ∈ s, f t) (∀ t ∈ s, p t) := by
  constructor
  · intro h0 t ht
    exact (h t).1 (lt_of_lt_of_le h0 (iInf₂_le t ht))
  · intro h0 hc
    simp only [iInf_lt_iff] at h0
    obtain ⟨t, ht, h0⟩ := h0
    exact (h t).2 h0 (hc t ht)

theorem Decides.exists {s : Set ℝ} {f : ℝ → EReal} {p : ℝ → Prop} (h : ∀ t, Decides (f t) (p t)) :
    Decides (⨆ t ∈ s, f t) (∃ t ∈ s, p t) := by
  constructor
  · intro h0
    simp only [lt_iSup_iff] at h0
    obtain ⟨t, ht, h0⟩ := h0
    exact ⟨t, ht, (h t).1 h0⟩
  · rintro h0 ⟨t, ht, hc⟩
    exact (h t).2 (lt_of_le_of_lt (le_iSup₂ (f := fun t _ => f t) t ht) h0) hc

theorem Decides.congr {f : EReal} {p q : Prop} (h : Decides f p) (e : p ↔ q) : Decides f q :=
  ⟨fun h0 => e.1 (h.1 h0), fun h0 hc => h.2 h0 (e.2 hc)⟩

theorem syn_decides (henv : ∀ n t, Decides (env n t) (env' n t)) : ∀ (a : Syn) (t : ℝ),
    Decides (synRob T x env a t) (synSat T x env' a t) := by
  suffices H : ∀ (n : Nat) (a : Syn), sizeOf a < n → ∀ t, Decides (synRob T x env a t) (synSat T x env' a t) from
    fun a => H _ a (Nat.lt_succ_self _)
  intro n
  induction n with
  | zero => intro a ha; omega
  | succ n ih =>
    intro a ha t
    cases a with
    | tru => rw [synRob, synSat]; exact ⟨fun _ => trivial, fun h => absurd h (by simp)⟩
    | fls => rw [synRob, synSat]; exact ⟨fun h => absurd h (by simp), fun _ => not_false⟩
    | ref k => rw [synRob, synSat]; exact henv k t
    | cmp o k c => rw [synRob, synSat]; exact decides_margin o _ _
    | rcmp o c k => rw [synRob, synSat]; exact decides_mirror o _ _
    | not a =>
      simp at ha
      rw [synRob, synSat]; exact (ih a (by omega) t).not
    | and ts =>
      simp at ha
      rw [synRob, synSat]
      have : ∀ as : List Syn, sizeOf as < n → Decides (synRobAll T x env as t) (synSatAll T x env' as t) := by
        intro as
        induction as with
        | nil => intro _; rw [synRobAll, synSatAll]; exact ⟨fun _ => trivial, fun h => absurd h (by simp)⟩
        | cons a as ih' =>
          intro hs
          simp at hs
          rw [synRobAll, synSatAll]
          exact (ih a (by omega) t).and (ih' (by omega))
      exact this ts (by omega)
    | or ts =>
      simp at ha
      rw [synRob, synSat]
      have : ∀ as : List Syn, sizeOf as < n → Decides (synRobAny T x env as t) (synSatAny T x env' as t) := by
        intro as
        induction as with
        | nil => intro _; rw [synRobAny, synSatAny]; exact ⟨fun h => absurd h (by simp), fun _ => not_false⟩
        | cons a as ih' =>
          intro hs
          simp at hs
          rw [synRobAny, synSatAny]
          exact (ih a (by omega) t).or (ih' (by omega))
      exact this ts (by omega)
    | implies a b =>
      simp at ha
      rw [synRob, synSat]
      exact ((ih a (by omega) t).not.or (ih b (by omega) t)).congr imp_iff_not_or.symm
    | iff a b =>
      simp at ha
      have h1 := ih a (by omega) t
      have h2 := ih b (by omega) t
      rw [synRob, synSat]
      exact ((h1.and h2).or (h1.not.and h2.not)).congr (by tauto)
    | xor a b =>
      simp at ha
      have h1 := ih a (by omega) t
      have h2 := ih b (by omega) t
      rw [synRob, synSat]
      exact ((h1.or h2).and (h1.not.or h2.not)).congr (by tauto)
    | always a =>
      simp at ha
      rw [synRob, synSat]; exact Decides.forall fun t' => ih a (by omega) t'
    | eventually a =>
      simp at ha
      rw [synRob, synSat]; exact Decides.exists fun t' => ih a (by omega) t'
    | untl a b =>
      simp at ha
      rw [synRob, synSat]
      exact Decides.exists fun t' => (ih b (by omega) t').and (Decides.forall fun u => ih a (by omega) u)

theorem asserted_decides : ∀ (cs : List Cmd) (env : String → ℝ → EReal) (env' : String → ℝ → Prop),
    (∀ n t, Decides (env n t) (env' n t)) → List.Forall₂ (fun p q => p.1 = q.1 ∧ ∀ t, Decides (p.2 t) (q.2 t))
      (asserted (synRob T x) env cs) (asserted (synSat T x) env' cs) := by
  intro cs
  induction cs with
  | nil => intro env env' _; exact .nil
  | cons c cs ih =>
    intro env env' henv
    cases c with
    | define n a =>
      simp only [asserted]
      refine ih _ _ fun k t => ?_
      unfold bindName
      split
      · exact syn_decides henv a t
      · exact henv k t
    | assert n a =>
      simp only [asserted]
      exact .cons ⟨rfl, fun t => syn_decides henv a t⟩ (ih env env' henv)

end sound

/-- **C101.** Quantitative and Boolean meaning of a text: an assertion whose robustness is positive holds, one whose
robustness is negative does not. -/
theorem C101_meanings (T : ℝ) (x : String → ℝ → ℝ) (cs : List Cmd) (i : Nat) (n : String) (r : ℝ → EReal)
    (h : (textRob T x cs)[i]? = some (n, r)) :
    ∃ p, (textSat T x cs)[i]? = some (n, p) ∧ ∀ t, (0 < r t → p t) ∧ (r t < 0 → ¬ p t) := by
  obtain ⟨⟨n', p⟩, hp, hn, hd⟩ := forall₂_index' (asserted_decides (T := T) (x := x) cs (fun _ _ => ⊥) (fun _ _ => False)
    (fun _ _ => ⟨fun h => absurd h (by simp), fun _ => not_false⟩)) i _ h
  obtain rfl : n = n' := hn
  exact ⟨p, hp, hd⟩

/-! ## C101 -/

section
variable [Strtod B64]

/-- **C101.** Parse a text in binary64, take an assertion that is a Boolean combination of Not, Always and Eventually
on predicates, compute its robustness on a trace of doubles.  At each instant at which all its signals have a sample the
result has exactly one sample.  If its value is positive, then what is written holds, with the decimal thresholds as
they are written, over the real numbers and in dense time; if it is negative, then it does not hold.  There is no
assumption on the numerals. -/
theorem C101_text_verdict (nd nd' : Bool) {cs : List Cmd} (hok : ∀ c ∈ cs, CmdOk c) (hrev : ∀ c ∈ cs, NoRev c.term)
    {w : List Char} (hw : Text cs w) {fuel : Nat} (hf : w.length < fuel) {sp : Specification B64}
    (h : fromString nd fuel w = .ok sp) (fuel' : Nat) (trace : Trace B64) (sy : Bool) (T t : B64)
    (sig : String → List (B64 × B64)) (i : Nat) (n : String) (l : Layer) (names : List String)
    (hl : (textLayer cs)[i]? = some (n, l)) (hl' : l ≠ .other) (hn : (textSignals cs)[i]? = some (n, names))
    (ht : FiniteTimes trace)
    (hs : ∀ k ∈ names, (∃ x, trace.lookup k = some x ∧ Represents x (sig k)) ∧
      (∃ v, (sig k).getLast? = some (T, v)) ∧ (∀ p ∈ sig k, IsB64 p.2) ∧ t ∈ (sig k).map Prod.fst)
    (e : Expr B64) (he : sp.assertions[i]? = some (n, e))
    (z : Signal B64) (hz : computeRobustness nd' fuel' e trace sy = .ok z) :
    ∃ v r p, HasSample z (.fin t) v ∧ v ≠ .nan ∧
      (textRob (b64Cast T) (fun k => eval (castPts b64Cast (sig k))) cs)[i]? = some (n, r) ∧
      (textSat (b64Cast T) (fun k => eval (castPts b64Cast (sig k))) cs)[i]? = some (n, p) ∧
      (D.lt 0 v = true → 0 < r (b64Cast t) ∧ p (b64Cast t)) ∧
      (v.lt 0 = true → r (b64Cast t) < 0 ∧ ¬ p (b64Cast t)) := by
  rw [C53_roundtrip nd hok hrev hw hf] at h
  set env0 : String → Layer × (ℝ → EReal) × List String := fun _ => (.other, fun _ => ⊥, []) with henv0
  have hR := asserted_text (layerRespects (T := T) (t := t) (sig := sig)) env0 h
  obtain ⟨⟨n1, l1, r, names1⟩, ha, hn1, hrel⟩ := forall₂_index' hR i _ he
  obtain rfl : n = n1 := hn1
  have p1 := asserted_map (mean := layerMean T sig) (mean' := layer) (fun a => a.1) (fun _ _ => rfl) cs env0
  have p2 := asserted_map (mean := layerMean T sig)
    (mean' := synRob (b64Cast T) (fun n => eval (castPts b64Cast (sig n)))) (fun a => a.2.1) (fun _ _ => rfl) cs env0
  have p3 := asserted_map (mean := layerMean T sig) (mean' := signals) (fun a => a.2.2) (fun _ _ => rfl) cs env0
  have q1 : (textLayer cs)[i]? = some (n, l1) := by
    unfold textLayer; rw [← p1, List.getElem?_map, ha]; rfl
  have q2 : (textRob (b64Cast T) (fun k => eval (castPts b64Cast (sig k))) cs)[i]? = some (n, r) := by
    unfold textRob; rw [← p2, List.getElem?_map, ha]; rfl
  have q3 : (textSignals cs)[i]? = some (n, names1) := by
    unfold textSignals; rw [← p3, List.getElem?_map, ha]; rfl
  rw [hl] at q1
  rw [hn] at q3
  cases q1
  cases q3
  have hgood : ∀ k ∈ names, GoodSig T t (sig k) := fun k hk => by
    obtain ⟨⟨x, h1, h2⟩, h3, h4, h5⟩ := hs k hk
    exact ⟨((represents_iff _ _).1 h2).1, h3, h4, h5⟩
  obtain ⟨hlay, hsgn⟩ := (hrel hgood).mixed hl' hgood
  obtain ⟨⟨n2, e2⟩, he2, hn2, hu⟩ := forall₂_index (asserted_text signalsRespects (fun _ => []) h) i _ hn
  rw [he] at he2
  cases he2
  obtain ⟨v, hv, hnan, h1, h2, -, -⟩ := C86_verdicts nd' fuel' e trace sy hlay ht T t sig
    (fun k hk => hs k (hu k hk)) z hz
  obtain ⟨p, hp, hd⟩ := C101_meanings _ _ cs i n r q2
  refine ⟨v, r, p, hv, hnan, q2, hp, fun h0 => ?_, fun h0 => ?_⟩
  · have := hsgn.1 (h1.1 h0)
    exact ⟨this, (hd _).1 this⟩
  · have := hsgn.2 (h2.1 h0)
    exact ⟨this, (hd _).2 this⟩

end

/-! ## Concrete case -/

section case
local instance : Strtod B64 := ⟨fun _ => false⟩

/-- `(define-formula p (> x 0.1)) (assert a1 (implies (eventually p) (always p)))` -/
def trSpec : List Cmd :=
  [.define "p" (.cmp .GT "x" litTenth), .assert "a1" (.implies (.eventually (.ref "p")) (.always (.ref "p")))]

def trPts : List (ℚ × ℚ) := [(0, 1 / 4), (1, 1 / 2)]

theorem trPts_inc : Increasing trPts := by simp [Increasing, trPts]

/-- The double that 0.1 is read as. -/
def trTenth : ℚ := 3602879701896397 / 2 ^ 55

def trP : Expr B64 := .pred "x" .GT (D.fin (K := B64) trTenth)

theorem litTenth_b64 : litTenth.eval (K := B64) = .ok (.fin trTenth) := by
  obtain ⟨c, h1, h2, -⟩ := B64.numeral_eval (fun _ _ => rfl) (fits_dec litTenth_val (by norm_num) (by norm_num))
  have : B64.rnd (1 / 10) = .fin trTenth := by decide +kernel
  have h3 : B64.rnd (NumLit.val litTenth) = .fin trTenth := by rw [litTenth_val]; exact this
  rw [show litTenth = _ from rfl] at h3
  have := h2.symm.trans h3
  cases this
  exact h1

def trE : Expr B64 := .or [.not (.Eventually trP), .Always trP]

def trTrace : Trace B64 := [("x", ofPts (K := B64) trPts)]

/-- The result is positive at time 0. -/
theorem trE_value : ∃ z, computeRobustness (K := B64) false 0 trE trTrace false = .ok z ∧
    z.samples.map tv = [(.fin (0 : ℚ), .fin (5404319552844595 / 2 ^ 55 : ℚ)),
      (.fin (1 : ℚ), .fin (3602879701896397 / 2 ^ 53 : ℚ))] := by
  have h : (computeRobustness (K := B64) false 0 trE trTrace false).map' (fun z => z.samples.map tv) =
      .ok [(.fin (0 : ℚ), .fin (5404319552844595 / 2 ^ 55 : ℚ)), (.fin (1 : ℚ), .fin (3602879701896397 / 2 ^ 53 : ℚ))] := by
    decide +kernel
  cases hz : computeRobustness (K := B64) false 0 trE trTrace false with
  | ok z => rw [hz] at h; exact ⟨z, rfl, Outcome.ok.inj h⟩
  | throw => rw [hz] at h; cases h
  | abort => rw [hz] at h; cases h
  | ub => rw [hz] at h; cases h
  | diverge => rw [hz] at h; cases h

-- What the text says holds at time 0 on this trace: the hypotheses are met and the computed value is positive.
example (w : List Char) (hw : Text trSpec w) :
    ∃ p, (textSat (b64Cast (1 : ℚ)) (fun _ => eval (castPts b64Cast trPts)) trSpec)[0]? = some ("a1", p) ∧
      p (b64Cast (0 : ℚ)) := by
  have h1 : ∀ c ∈ trSpec, CmdOk c := by
    intro c hc
    have hp : SynOk (.ref "p") := .ref name_p (by decide) (by decide)
    simp only [trSpec, List.mem_cons, List.not_mem_nil, or_false] at hc
    rcases hc with rfl | rfl
    · exact .define name_p (.cmp name_x)
    · exact .assert name_a (.implies (.eventually hp) (.always hp))
  have h2 : ∀ c ∈ trSpec, NoRev c.term := by
    intro c hc
    simp only [trSpec, List.mem_cons, List.not_mem_nil, or_false] at hc
    rcases hc with rfl | rfl
    · exact .cmp
    · exact .implies (.eventually .ref) (.always .ref)
  have h3 : fromString (K := B64) false (w.length + 1) w = .ok ⟨[("p", trP)], [("a1", trE)]⟩ := by
    rw [C53_roundtrip false h1 h2 hw (by omega)]
    simp only [trSpec, evalSpec, evalCmd, denote, litTenth_b64]
    rfl
  obtain ⟨z, hz, hv⟩ := trE_value
  obtain ⟨v, r, p, ⟨c1, -⟩, -, -, c2, c3, -⟩ := C101_text_verdict false false h1 h2 hw (by omega) h3 0 trTrace false
    (1 : ℚ) (0 : ℚ) (fun _ => trPts) 0 "a1" .mixed ["x", "x"] rfl (by decide) rfl
    (by
      intro e he a ha
      simp only [trTrace, List.mem_cons, List.not_mem_nil, or_false] at he
      subst he
      rcases List.mem_cons.1 ha with rfl | ha
      · exact ⟨_, rfl⟩
      · obtain rfl := List.mem_singleton.1 ha
        exact ⟨_, rfl⟩)
    (by
      intro k hk
      obtain rfl : k = "x" := by simpa using hk
      refine ⟨⟨_, rfl, (represents_iff (K := B64) _ _).2 ⟨trPts_inc, rfl⟩⟩, ⟨(1 / 2 : ℚ), rfl⟩, ?_, ?_⟩
      · intro q hq
        rcases List.mem_cons.1 hq with rfl | hq
        · exact ⟨1, -2, by norm_num, by norm_num, by norm_num, by norm_num⟩
        · obtain rfl := List.mem_singleton.1 hq
          exact ⟨1, -1, by norm_num, by norm_num, by norm_num, by norm_num⟩
      · exact List.mem_cons_self)
    trE rfl z hz
  refine ⟨p, c2, (c3 ?_).2⟩
  rw [hv] at c1
  rcases List.mem_cons.1 c1 with e | c1
  · cases e; decide +kernel
  · cases List.mem_singleton.1 c1
end case

end Verif
