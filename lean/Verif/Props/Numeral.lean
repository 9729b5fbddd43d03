import Verif.Proofs.Numeral
import Verif.Props.Parser

/-!
# Numerals of a specification in binary64: C100

A threshold written in a specification is a decimal numeral, the threshold of the expression is the nearest `double`.
-/

set_option linter.unusedSectionVars false
set_option exponentiation.threshold 1100

namespace Verif
open Spec

/-- The text `(assert n (op x l))`, with any layout. -/
def AssertText (n x : String) (op : ComparisonOp) (l : NumLit) (w : List Char) : Prop :=
  IsName n ∧ IsName x ∧ Text [.assert n (.cmp op x l)] w

/-- The specification with the single assertion `x op c`. -/
def single (n x : String) (op : ComparisonOp) (c : ℚ) : Specification B64 :=
  ⟨[], [(n, .pred x op (D.fin (K := B64) c))]⟩

theorem single_injective {n x : String} {op : ComparisonOp} {c c' : ℚ} (h : single n x op c = single n x op c') :
    c = c' := by
  unfold single at h
  injection h with _ h
  injection h with h _
  injection h with _ h
  injection h with _ _ h
  injection h

section
variable [Strtod B64]

theorem assert_parsed (nd : Bool) {n x : String} {op : ComparisonOp} {l : NumLit} {w : List Char}
    (h : AssertText n x op l w) {fuel : Nat} (hf : w.length < fuel) {c : ℚ}
    (hc : l.eval (K := B64) = .ok (.fin c)) : fromString nd fuel w = .ok (single n x op c) := by
  obtain ⟨hn, hx, ht⟩ := h
  rw [C53_roundtrip nd (by simpa using CmdOk.assert hn (.cmp hx)) (by simpa [Cmd.term] using NoRev.cmp) ht hf]
  simp only [evalSpec, evalCmd, denote, hc]
  rfl

/-- **C100.** The threshold is the nearest binary64 number; its relative error is at most `2^-53`. -/
theorem C100_value (hs : QuietStrtod) (nd : Bool) {n x : String} {op : ComparisonOp} {l : NumLit} {w : List Char}
    (h : AssertText n x op l w) {fuel : Nat} (hf : w.length < fuel) (hl : Fits l) :
    ∃ c : ℚ, fromString nd fuel w = .ok (single n x op c) ∧ IsB64 c ∧
      (∀ f, IsB64 f → |c - l.val| ≤ |f - l.val|) ∧ |c - l.val| ≤ 1 / 2 ^ 53 * l.val := by
  obtain ⟨c, h1, h2, h3⟩ := B64.numeral_eval hs hl
  obtain ⟨g1, g2, -⟩ := B64.rnd_fin h2
  refine ⟨c, assert_parsed nd h hf h1, g1, g2, ?_⟩
  unfold B64.Near at h3
  rwa [abs_of_nonneg (B64.NumLit.val_nonneg l)] at h3

/-- **C100.** A number that is a binary64 number is kept, for instance an integer up to `2^53`. -/
theorem C100_exact (hs : QuietStrtod) (nd : Bool) {n x : String} {op : ComparisonOp} {l : NumLit} {w : List Char}
    (h : AssertText n x op l w) {fuel : Nat} (hf : w.length < fuel) (hl : Fits l) :
    (IsB64 l.val → fromString nd fuel w = .ok (single n x op l.val)) ∧
    ∀ k : ℕ, (l.val : ℚ) = k → k ≤ 2 ^ 53 → fromString nd fuel w = .ok (single n x op k) := by
  have key : IsB64 l.val → fromString nd fuel w = .ok (single n x op l.val) := by
    intro hb
    obtain ⟨c, h1, h2, -⟩ := B64.numeral_eval hs hl
    rw [B64.rnd_self hb] at h2
    cases h2
    exact assert_parsed nd h hf h1
  refine ⟨key, fun k hk hle => ?_⟩
  rw [← hk]
  apply key
  rw [hk]
  rcases hle.lt_or_eq with hlt | rfl
  · refine ⟨k, 0, by simp, ?_, by norm_num, by norm_num⟩
    rw [abs_of_nonneg (by positivity)]
    exact_mod_cast hlt
  · exact ⟨1, 53, by norm_num, by norm_num, by norm_num, by norm_num⟩

/-- **C100.** Rounding keeps the order of thresholds, but different numbers can become equal. -/
theorem C100_monotone (hs : QuietStrtod) (nd : Bool) {n x : String} {op : ComparisonOp} {l l' : NumLit}
    {w w' : List Char} (h : AssertText n x op l w) (h' : AssertText n x op l' w') {fuel : Nat}
    (hf : w.length < fuel) (hf' : w'.length < fuel) (hl : Fits l) (hl' : Fits l') (hle : (l.val : ℚ) ≤ l'.val) :
    ∃ c c' : ℚ, fromString nd fuel w = .ok (single n x op c) ∧ fromString nd fuel w' = .ok (single n x op c') ∧
      c ≤ c' := by
  obtain ⟨c, h1, h2, -⟩ := B64.numeral_eval hs hl
  obtain ⟨c', h1', h2', -⟩ := B64.numeral_eval hs hl'
  refine ⟨c, c', assert_parsed nd h hf h1, assert_parsed nd h' hf' h1', ?_⟩
  have := b64_mono _ _ hle
  rw [h2, h2', D.le_fin, decide_eq_true_eq] at this
  exact this

/-- **C100.** Numbers with at most 15 significant digits are kept apart: two texts are read as the same
specification exactly if the numbers are the same, and the thresholds are in the order of the numbers. -/
theorem C100_digits (hs : QuietStrtod) (nd : Bool) {n x : String} {op : ComparisonOp} {l l' : NumLit}
    {w w' : List Char} (h : AssertText n x op l w) (h' : AssertText n x op l' w') {fuel : Nat}
    (hf : w.length < fuel) (hf' : w'.length < fuel) (hl : Fits l) (hl' : Fits l') (hd : Short l) (hd' : Short l') :
    (fromString (K := B64) nd fuel w = fromString nd fuel w' ↔ (l.val : ℚ) = l'.val) ∧
    ∃ c c' : ℚ, fromString nd fuel w = .ok (single n x op c) ∧ fromString nd fuel w' = .ok (single n x op c') ∧
      (c < c' ↔ (l.val : ℚ) < l'.val) := by
  obtain ⟨c, h1, h2, h3⟩ := B64.numeral_eval hs hl
  obtain ⟨c', h1', h2', h3'⟩ := B64.numeral_eval hs hl'
  have e := assert_parsed nd h hf h1
  have e' := assert_parsed nd h' hf' h1'
  have key : ∀ {l l' : NumLit} {c c' : ℚ}, Short l → Short l' → B64.Near c l.val → B64.Near c' l'.val →
      (l.val : ℚ) < l'.val → c < c' := by
    rintro l l' c c' ⟨m, k, hm, ev⟩ ⟨m', k', hm', ev'⟩ g g' hlt
    refine B64.near_lt (B64.NumLit.val_nonneg l) hlt ?_ g g'
    rw [ev, ev'] at hlt ⊢
    exact B64.decimal_gap hm hm' hlt
  have same : (l.val : ℚ) = l'.val → c = c' := by
    intro hv
    rw [hv, h2'] at h2
    cases h2
    rfl
  constructor
  · rw [e, e']
    constructor
    · intro hc
      have hc : c = c' := single_injective (by injection hc)
      rcases lt_trichotomy (l.val : ℚ) l'.val with hlt | heq | hlt
      · exact absurd hc (key hd hd' h3 h3' hlt).ne
      · exact heq
      · exact absurd hc (key hd' hd h3' h3 hlt).ne'
    · intro hv
      rw [same hv]
  · refine ⟨c, c', e, e', fun hc => ?_, key hd hd' h3 h3'⟩
    rcases lt_trichotomy (l.val : ℚ) l'.val with hlt | heq | hlt
    · exact hlt
    · exact absurd (same heq) hc.ne
    · exact absurd hc (key hd' hd h3' h3 hlt).le.not_gt

end

theorem digits_lt (n : Digits) : n.val < 10 ^ n.all.length := by
  have := Nat.ofDigits_lt_base_pow_length (b := 10) (l := n.all.reverse.map Fin.val) (by norm_num) (by
    intro x hx
    obtain ⟨d, -, rfl⟩ := List.mem_map.1 hx
    exact d.isLt)
  simpa [Digits.val] using this

/-- **C100.** A numeral that is written with at most 15 digits, for instance `0.00123` or `1.5e-7`, has at most 15
significant digits. -/
theorem C100_short {l : NumLit} (h : digitCount l ≤ 15) : Short l := by
  have key : ∀ {m c : ℕ}, m < 10 ^ c → c ≤ 15 → m < 10 ^ 15 := fun h1 h2 =>
    lt_of_lt_of_le h1 (Nat.pow_le_pow_right (by norm_num) h2)
  cases l with
  | int n => exact ⟨n.val, 0, key (digits_lt n) h, by simp [NumLit.val]⟩
  | sci i d e => exact ⟨i.val, e.val, key (digits_lt i) h, rfl⟩
  | dec i f e =>
    refine ⟨i.val * 10 ^ f.all.length + f.val, (match e with | none => 0 | some e => e.val : ℤ) - f.all.length,
      key (c := i.all.length + f.all.length) ?_ h, ?_⟩
    · have h1 := digits_lt i
      have h2 := digits_lt f
      have h3 : (i.val + 1) * 10 ^ f.all.length ≤ 10 ^ i.all.length * 10 ^ f.all.length :=
        Nat.mul_le_mul_right _ h1
      rw [pow_add]
      rw [add_mul] at h3
      omega
    · rw [zpow_sub₀ (by norm_num), zpow_natCast]
      simp only [NumLit.val]
      push_cast
      have : (10 : ℚ) ^ f.all.length ≠ 0 := by positivity
      field_simp
      cases e <;> rfl

/-! ## More digits -/

/-- `9007199254740992`, which is `2^53`. -/
def lit53 : NumLit := .int ⟨9, [0, 0, 7, 1, 9, 9, 2, 5, 4, 7, 4, 0, 9, 9, 2]⟩
/-- `9007199254740993` -/
def lit53' : NumLit := .int ⟨9, [0, 0, 7, 1, 9, 9, 2, 5, 4, 7, 4, 0, 9, 9, 3]⟩
/-- `0.1` -/
def litTenth : NumLit := .dec ⟨0, []⟩ ⟨1, []⟩ none
/-- `0.10000000000000001` -/
def litTenth' : NumLit := .dec ⟨0, []⟩ ⟨1, [0, 0, 0, 0, 0, 0, 0, 0, 0, 0, 0, 0, 0, 0, 0, 1]⟩ none

theorem lit53_val : (lit53.val : ℚ) = 9007199254740992 := by
  show ((Digits.val _ : ℕ) : ℚ) = _
  rw [show Digits.val ⟨9, [0, 0, 7, 1, 9, 9, 2, 5, 4, 7, 4, 0, 9, 9, 2]⟩ = 9007199254740992 from rfl]
  norm_num

theorem lit53'_val : (lit53'.val : ℚ) = 9007199254740993 := by
  show ((Digits.val _ : ℕ) : ℚ) = _
  rw [show Digits.val ⟨9, [0, 0, 7, 1, 9, 9, 2, 5, 4, 7, 4, 0, 9, 9, 3]⟩ = 9007199254740993 from rfl]
  norm_num

theorem litTenth_val : (litTenth.val : ℚ) = 1 / 10 := by
  show (((Digits.val ⟨0, []⟩ : ℕ) : ℚ) + ((Digits.val ⟨1, []⟩ : ℕ) : ℚ) / 10 ^ 1) * 10 ^ (0 : ℤ) = _
  rw [show Digits.val ⟨0, []⟩ = 0 from rfl, show Digits.val ⟨1, []⟩ = 1 from rfl]
  norm_num

theorem litTenth'_val : (litTenth'.val : ℚ) = 10000000000000001 / 10 ^ 17 := by
  show (((Digits.val ⟨0, []⟩ : ℕ) : ℚ) +
    ((Digits.val ⟨1, [0, 0, 0, 0, 0, 0, 0, 0, 0, 0, 0, 0, 0, 0, 0, 1]⟩ : ℕ) : ℚ) / 10 ^ 17) * 10 ^ (0 : ℤ) = _
  rw [show Digits.val ⟨0, []⟩ = 0 from rfl,
    show Digits.val ⟨1, [0, 0, 0, 0, 0, 0, 0, 0, 0, 0, 0, 0, 0, 0, 0, 1]⟩ = 10000000000000001 from rfl]
  norm_num

theorem small_normal {q : ℚ} (h : 1 / 2 ^ 100 ≤ q) : (2 : ℚ) ^ (-1022 : ℤ) ≤ q := by
  refine le_trans ?_ h
  have : (1 : ℚ) / 2 ^ 100 = 2 ^ (-100 : ℤ) := by norm_num
  rw [this]
  exact B64.zpow_mono (by norm_num)

theorem large_normal {q : ℚ} (h : q ≤ 2 ^ 100) : q < 2 ^ 1024 - 2 ^ 970 := by
  have h1 : (2 : ℚ) ^ 1024 = 2 ^ 54 * 2 ^ 970 := by rw [← pow_add]
  have h2 : (2 : ℚ) ^ 100 < 2 ^ 970 := pow_lt_pow_right₀ (by norm_num) (by norm_num)
  have h3 : (0 : ℚ) < 2 ^ 970 := by positivity
  rw [h1]
  linarith

theorem fits_dec {i f : Digits} {e : Option ExpLit} {q : ℚ} (h : (NumLit.val (.dec i f e) : ℚ) = q)
    (h1 : 1 / 2 ^ 100 ≤ q) (h2 : q ≤ 2 ^ 100) : Fits (.dec i f e) :=
  ⟨fun n hn => (by cases hn), .inr (by rw [h]; exact small_normal h1), by rw [h]; exact large_normal h2⟩

theorem fits_int {n : Digits} {q : ℚ} (h : (NumLit.val (.int n) : ℚ) = q)
    (h1 : 1 / 2 ^ 100 ≤ q) (h2 : n.val < 2 ^ 63) (h3 : q ≤ 2 ^ 100) : Fits (.int n) :=
  ⟨fun n hn => (by cases hn; exact h2), .inr (by rw [h]; exact small_normal h1), by rw [h]; exact large_normal h3⟩

/-- **C100, more digits.** With 16 digits different integers are read as the same threshold, and with 17 digits a
number is read as 0.1. -/
theorem C100_collisions [Strtod B64] (hs : QuietStrtod) (nd : Bool) {n x : String} {op : ComparisonOp} {w w' : List Char}
    {l l' : NumLit} (hl : (l = lit53 ∧ l' = lit53') ∨ (l = litTenth ∧ l' = litTenth'))
    (h : AssertText n x op l w) (h' : AssertText n x op l' w') {fuel : Nat}
    (hf : w.length < fuel) (hf' : w'.length < fuel) :
    (l.val : ℚ) < l'.val ∧
      ∃ sp : Specification B64, fromString nd fuel w = .ok sp ∧ fromString nd fuel w' = .ok sp := by
  have key : ∀ {l l' : NumLit}, Fits l → Fits l' → B64.rnd l.val = B64.rnd l'.val →
      AssertText n x op l w → AssertText n x op l' w' →
      ∃ sp : Specification B64, fromString nd fuel w = .ok sp ∧ fromString nd fuel w' = .ok sp := by
    intro l l' g g' hr h h'
    obtain ⟨c, h1, h2, -⟩ := B64.numeral_eval hs g
    obtain ⟨c', h1', h2', -⟩ := B64.numeral_eval hs g'
    rw [h2, h2'] at hr
    cases hr
    exact ⟨_, assert_parsed nd h hf h1, assert_parsed nd h' hf' h1'⟩
  rcases hl with ⟨rfl, rfl⟩ | ⟨rfl, rfl⟩
  · refine ⟨by rw [lit53_val, lit53'_val]; norm_num, key ?_ ?_ ?_ h h'⟩
    · exact fits_int lit53_val (by norm_num) (by decide) (by norm_num)
    · exact fits_int lit53'_val (by norm_num) (by decide) (by norm_num)
    · rw [lit53_val, lit53'_val]; decide +kernel
  · refine ⟨by rw [litTenth_val, litTenth'_val]; norm_num, key ?_ ?_ ?_ h h'⟩
    · exact fits_dec litTenth_val (by norm_num) (by norm_num)
    · exact fits_dec litTenth'_val (by norm_num) (by norm_num)
    · rw [litTenth_val, litTenth'_val]; decide +kernel

/-! ## Cases meeting the hypotheses -/

section
/-- `strtod` of glibc: a range error if the result is below the normal range and not exact. -/
local instance : Strtod B64 := ⟨fun q : ℚ => decide (0 < q ∧ q < (2 : ℚ) ^ (-1022 : ℤ) ∧ B64.rnd q ≠ .fin q)⟩

theorem glibc_quiet : QuietStrtod := by
  intro q hq
  refine decide_eq_false ?_
  rintro ⟨h1, h2, -⟩
  rcases hq with rfl | h
  · exact lt_irrefl _ h1
  · exact absurd h2 (not_lt.2 h)

theorem short_tenth : Short litTenth := C100_short (by decide)

/-- `0.1000` -/
def litTenth0 : NumLit := .dec ⟨0, []⟩ ⟨1, [0, 0, 0]⟩ none

theorem litTenth0_val : (litTenth0.val : ℚ) = 1 / 10 := by
  show (((Digits.val ⟨0, []⟩ : ℕ) : ℚ) + ((Digits.val ⟨1, [0, 0, 0]⟩ : ℕ) : ℚ) / 10 ^ 4) * 10 ^ (0 : ℤ) = _
  rw [show Digits.val ⟨0, []⟩ = 0 from rfl, show Digits.val ⟨1, [0, 0, 0]⟩ = 1000 from rfl]
  norm_num

theorem assertText (l : NumLit) : AssertText "p" "x" .GT l (render ([Cmd.assert "p" (.cmp .GT "x" l)].flatMap Cmd.toks)) :=
  ⟨name_p, name_x, render_text _⟩

-- `0.1` and `0.1000` are read as the same threshold.
example : fromString (K := B64) false 1000 "( assert p ( > x 0.1 ) ) ".toList =
    fromString false 1000 "( assert p ( > x 0.1000 ) ) ".toList := by
  have h := assertText litTenth
  have h' := assertText litTenth0
  rw [show render ([Cmd.assert "p" (.cmp .GT "x" litTenth)].flatMap Cmd.toks) =
    "( assert p ( > x 0.1 ) ) ".toList from by
      simp only [List.flatMap_cons, List.flatMap_nil, Cmd.toks, toks, inner]; decide] at h
  rw [show render ([Cmd.assert "p" (.cmp .GT "x" litTenth0)].flatMap Cmd.toks) =
    "( assert p ( > x 0.1000 ) ) ".toList from by
      simp only [List.flatMap_cons, List.flatMap_nil, Cmd.toks, toks, inner]; decide] at h'
  exact (C100_digits glibc_quiet false h h' (by decide) (by decide)
    (fits_dec litTenth_val (by norm_num) (by norm_num)) (fits_dec litTenth0_val (by norm_num) (by norm_num))
    short_tenth (C100_short (by decide))).1.2 (by rw [litTenth_val, litTenth0_val])

-- And `9007199254740993` as `9007199254740992`.
example : ∃ sp : Specification B64,
    fromString false 1000 (render ([Cmd.assert "p" (.cmp .GT "x" lit53)].flatMap Cmd.toks)) = .ok sp ∧
    fromString false 1000 (render ([Cmd.assert "p" (.cmp .GT "x" lit53')].flatMap Cmd.toks)) = .ok sp :=
  (C100_collisions glibc_quiet false (.inl ⟨rfl, rfl⟩) (assertText lit53) (assertText lit53') (by
    simp only [List.flatMap_cons, List.flatMap_nil, Cmd.toks, toks, inner]; decide) (by
    simp only [List.flatMap_cons, List.flatMap_nil, Cmd.toks, toks, inner]; decide)).2

end

end Verif
