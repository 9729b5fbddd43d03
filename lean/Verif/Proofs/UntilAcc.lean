import Verif.Proofs.SyncAcc
import Verif.Proofs.Until
import Verif.Proofs.AnyRound
import Verif.Proofs.Rounding
import Mathlib.Algebra.Order.Group.MinMax
import Verif.Proofs.Reach
import Verif.Props.AnyRound
import Verif.Spec.UntilOnly

/-! # Until in binary64: interpolation with underflow, and the formulas without And and Or -/

set_option linter.unusedSectionVars false
set_option exponentiation.threshold 1100

namespace Verif
open Spec

section any
variable {K : Type} [Field K] [LinearOrder K] [IsStrictOrderedRing K] [Arith K]

/-- Whether the synchronisation succeeds depends on the timestamps only. -/
theorem sync_times_iff {xs ys : List (K × K)} (hx : Increasing xs) (hy : Increasing ys) :
    (∃ r, synchronize (ofPts xs) (ofPts ys) = .ok r) ↔
      ∃ a b : K, (xs.map Prod.fst).head? = some a ∧ (ys.map Prod.fst).head? = some b ∧
        max a b ∈ xs.map Prod.fst ∧ max a b ∈ ys.map Prod.fst := by
  have mem : ∀ (pts : List (K × K)) (t : K), (∃ a ∈ (ofPts pts).samples, a.time = .fin t) ↔ t ∈ pts.map Prod.fst := by
    intro pts t
    have e : (∃ a ∈ (ofPts pts).samples, a.time = .fin t) ↔ (.fin t : D K) ∈ (ofPts pts).samples.map Sample.time := by
      rw [List.mem_map]
    rw [e, ofPts_times]; simp
  cases xs with
  | nil =>
    refine iff_of_false ?_ (by simp)
    rintro ⟨r, h⟩
    exact (synchronize_ok_ne h).1 rfl
  | cons p xs =>
    cases ys with
    | nil =>
      refine iff_of_false ?_ (by simp)
      rintro ⟨r, h⟩
      exact (synchronize_ok_ne h).2 rfl
    | cons q ys =>
      have ne : ∀ (p : K × K) l, (ofPts (p :: l)).samples ≠ [] := by simp [ofPts]
      rw [synchronize_ok_iff _ _ (ofPts_sortedT hx) (ofPts_sortedT hy) (ofPts_noNaNT _) (ofPts_noNaNT _) (ne _ _) (ne _ _),
        ofPts_beginTime, ofPts_beginTime, D.max_fin, mem, mem]
      simp

/-- Lists of points with the same times and values that differ by at most `e`. -/
def CloseTo (e : K) (xs ys : List (K × K)) : Prop := List.Forall₂ (fun p q => p.1 = q.1 ∧ |p.2 - q.2| ≤ e) xs ys

theorem CloseTo.times {e : K} {xs ys : List (K × K)} (h : CloseTo e xs ys) : xs.map Prod.fst = ys.map Prod.fst := by
  induction h with
  | nil => rfl
  | cons h _ ih => rw [List.map_cons, List.map_cons, ih, h.1]

theorem CloseTo.mono {e e' : K} {xs ys : List (K × K)} (h : CloseTo e xs ys) (he : e ≤ e') : CloseTo e' xs ys :=
  List.Forall₂.imp (fun _ _ h => ⟨h.1, h.2.trans he⟩) h

theorem CloseTo.neg {e : K} {xs ys : List (K × K)} (h : CloseTo e xs ys) : CloseTo e (negPts xs) (negPts ys) := by
  unfold negPts
  rw [CloseTo, List.forall₂_map_left_iff, List.forall₂_map_right_iff]
  refine List.Forall₂.imp (fun p q h => ⟨h.1, ?_⟩) h
  show |-p.2 - -q.2| ≤ e
  have : -p.2 - -q.2 = -(p.2 - q.2) := by ring
  rw [this, abs_neg]; exact h.2

theorem abs_max_le {a b a' b' e : K} (h1 : |a - a'| ≤ e) (h2 : |b - b'| ≤ e) : |max a b - max a' b'| ≤ e :=
  (abs_max_sub_max_le_max a b a' b').trans (max_le h1 h2)

theorem abs_min_le {a b a' b' e : K} (h1 : |a - a'| ≤ e) (h2 : |b - b'| ≤ e) : |min a b - min a' b'| ≤ e :=
  (abs_min_sub_min_le_max a b a' b').trans (max_le h1 h2)

theorem CloseTo.getLast {e : K} {xs ys : List (K × K)} (h : CloseTo e xs ys) :
    (xs.getLast? = none ∧ ys.getLast? = none) ∨
      ∃ p q, xs.getLast? = some p ∧ ys.getLast? = some q ∧ |p.2 - q.2| ≤ e := by
  induction h with
  | nil => exact .inl ⟨rfl, rfl⟩
  | @cons p q xs ys h _ ih =>
    right
    rcases ih with ⟨h1, h2⟩ | ⟨p', q', h1, h2, h3⟩
    · rw [List.getLast?_eq_none_iff] at h1 h2
      subst h1; subst h2
      exact ⟨p, q, rfl, rfl, h.2⟩
    · refine ⟨p', q', ?_, ?_, h3⟩
      · rw [List.getLast?_cons, h1]; rfl
      · rw [List.getLast?_cons, h2]; rfl

theorem CloseTo.suf {op : K → K → K} (hop : ∀ a b a' b' e : K, |a - a'| ≤ e → |b - b'| ≤ e → |op a b - op a' b'| ≤ e)
    {e : K} {xs ys : List (K × K)} (h : CloseTo e xs ys) {v w : K} (hv : |v - w| ≤ e) :
    CloseTo e (Verif.suf op v xs) (Verif.suf op w ys) := by
  have fold : ∀ {xs ys : List (K × K)}, CloseTo e xs ys →
      |xs.foldr (fun q w => op q.2 w) v - ys.foldr (fun q w => op q.2 w) w| ≤ e := by
    intro xs ys h
    induction h with
    | nil => exact hv
    | cons h _ ih => exact hop _ _ _ _ _ h.2 ih
  induction h with
  | nil => exact List.Forall₂.nil
  | cons h t ih => exact List.Forall₂.cons ⟨h.1, fold (List.Forall₂.cons h t)⟩ ih

theorem CloseTo.sufPts {op : K → K → K} (hop : ∀ a b a' b' e : K, |a - a'| ≤ e → |b - b'| ≤ e → |op a b - op a' b'| ≤ e)
    {e : K} {xs ys : List (K × K)} (h : CloseTo e xs ys) : CloseTo e (Verif.sufPts op xs) (Verif.sufPts op ys) := by
  unfold Verif.sufPts
  rcases h.getLast with ⟨h1, h2⟩ | ⟨p, q, h1, h2, h3⟩
  · rw [h1, h2]; exact List.Forall₂.nil
  · rw [h1, h2]; exact CloseTo.suf hop h h3

theorem CloseTo.eval {e : K} : ∀ {xs ys : List (K × K)}, Increasing xs → CloseTo e xs ys → ∀ {t : K}, t ∈ dom xs →
    |Spec.eval xs t - Spec.eval ys t| ≤ e
  | [], _, _, _, t, ht => by simp [dom] at ht
  | [p], [q], _, h, t, _ => by
    cases h with
    | cons h _ => simpa [Spec.eval] using h.2
  | p :: p' :: xs, [q], _, h, t, _ => by cases h with | cons _ h => cases h
  | [p], q :: q' :: ys, _, h, t, _ => by cases h with | cons _ h => cases h
  | _ :: _, [], _, h, _, _ => by cases h
  | p :: p' :: xs, q :: q' :: ys, hi, h, t, ht => by
    cases h with
    | cons h1 h =>
    have hc := h
    cases h with
    | cons h2 h =>
    have hpp := (increasing_cons.1 hi).1 p' (by simp)
    have hd := (dom_cons hi).1 ht
    rcases le_or_gt t p'.1 with hle | hlt
    · rw [Spec.eval, if_pos hle, Spec.eval, if_pos (by rw [← h2.1]; exact hle)]
      have e1 : line p p' t - line q q' t = (p.2 - q.2) * (1 - (t - p.1) / (p'.1 - p.1)) +
          (p'.2 - q'.2) * ((t - p.1) / (p'.1 - p.1)) := by
        simp only [line, ← h1.1, ← h2.1]; ring
      have h0 : 0 < p'.1 - p.1 := sub_pos.2 hpp
      have l0 : 0 ≤ (t - p.1) / (p'.1 - p.1) := div_nonneg (sub_nonneg.2 hd.1) h0.le
      have l1 : (t - p.1) / (p'.1 - p.1) ≤ 1 := (div_le_one h0).2 (by linarith)
      rw [e1]
      generalize (t - p.1) / (p'.1 - p.1) = l at l0 l1
      obtain ⟨a1, a2⟩ := abs_le.1 h1.2
      obtain ⟨b1, b2⟩ := abs_le.1 h2.2
      rw [abs_le]
      constructor <;> nlinarith
    · rw [Spec.eval, if_neg (not_le.2 hlt), Spec.eval, if_neg (by rw [← h2.1]; exact not_le.2 hlt)]
      refine CloseTo.eval (increasing_cons.1 hi).2 hc ((dom_cons (increasing_cons.1 hi).2).2 ⟨hlt.le, ?_⟩)
      obtain ⟨_, b, hb, h3⟩ := hd
      rcases List.mem_cons.1 hb with rfl | hb
      · exact absurd (h3.trans_lt (hpp.trans hlt)) (lt_irrefl _)
      · exact ⟨b, hb, h3⟩

/-- Until on values that differ little. -/
theorem untilPts_close {e : K} {l l' : List (K × K × K)}
    (h : List.Forall₂ (fun p q => p.1 = q.1 ∧ |p.2.1 - q.2.1| ≤ e ∧ |p.2.2 - q.2.2| ≤ e) l l') :
    CloseTo e (untilPts l) (untilPts l') := by
  have val : ∀ {l l' : List (K × K × K)},
      List.Forall₂ (fun p q => p.1 = q.1 ∧ |p.2.1 - q.2.1| ≤ e ∧ |p.2.2 - q.2.2| ≤ e) l l' →
      ∀ {p q : K × K × K}, (|p.2.1 - q.2.1| ≤ e ∧ |p.2.2 - q.2.2| ≤ e) →
        |(uVal p l).1 - (uVal q l').1| ≤ e ∧ |(uVal p l).2 - (uVal q l').2| ≤ e := by
    have neg : ∀ {a b : K}, |a - b| ≤ e → |-a - -b| ≤ e := by
      intro a b h
      have : -a - -b = -(a - b) := by ring
      rw [this, abs_neg]; exact h
    intro l l' h
    induction h with
    | nil =>
      intro p q h
      exact ⟨abs_max_le (abs_max_le h.2 h.1) (neg h.2), h.2⟩
    | @cons a b l l' h0 _ ih =>
      intro p q h
      obtain ⟨i1, i2⟩ := ih h0.2
      simp only [uVal]
      exact ⟨abs_max_le (abs_max_le h.2 (abs_min_le h.1 i1)) (neg (abs_max_le i2 h.2)), abs_max_le i2 h.2⟩
  induction h with
  | nil => exact List.Forall₂.nil
  | cons h t ih => exact List.Forall₂.cons ⟨h.1, (val t h.2).1⟩ ih

theorem untilPts_prop {P : K → Prop} (hneg : ∀ a, P a → P (-a)) {l : List (K × K × K)}
    (h : ∀ p ∈ l, P p.2.1 ∧ P p.2.2) : ∀ z ∈ untilPts l, P z.2 := by
  have mx : ∀ {a b : K}, P a → P b → P (max a b) := fun {a b} ha hb => by
    rcases max_choice a b with e | e <;> rw [e] <;> assumption
  have mn : ∀ {a b : K}, P a → P b → P (min a b) := fun {a b} ha hb => by
    rcases min_choice a b with e | e <;> rw [e] <;> assumption
  have val : ∀ (l : List (K × K × K)) (p : K × K × K), (∀ q ∈ p :: l, P q.2.1 ∧ P q.2.2) →
      P (uVal p l).1 ∧ P (uVal p l).2 := by
    intro l
    induction l with
    | nil =>
      intro p h
      obtain ⟨h1, h2⟩ := h p (by simp)
      exact ⟨mx (mx h2 h1) (hneg _ h2), h2⟩
    | cons q l ih =>
      intro p h
      obtain ⟨h1, h2⟩ := h p (by simp)
      obtain ⟨i1, i2⟩ := ih q (fun x hx => h x (List.mem_cons_of_mem _ hx))
      exact ⟨mx (mx h2 (mn h1 i1)) (hneg _ (mx i2 h2)), mx i2 h2⟩
  induction l with
  | nil => intro z hz; simp [untilPts] at hz
  | cons p l ih =>
    intro z hz
    rw [untilPts, List.mem_cons] at hz
    rcases hz with rfl | hz
    · exact (val l p h).1
    · exact ih (fun x hx => h x (List.mem_cons_of_mem _ hx)) z hz

theorem sufPts_prop {P : K → Prop} {op : K → K → K} (hop : ∀ a b, op a b = a ∨ op a b = b) {l : List (K × K)}
    (h : ∀ p ∈ l, P p.2) : ∀ z ∈ sufPts op l, P z.2 := by
  intro z hz
  obtain ⟨q, hq, e⟩ := suf_witness hop hz
  rw [e]; exact h q hq

end any

namespace B64

theorem split_err {a b c : ℚ} (h : |a| ≤ b + c) (hb : 0 ≤ b) (hc : 0 ≤ c) : ∃ a1 a2, a = a1 + a2 ∧ |a1| ≤ b ∧ |a2| ≤ c := by
  obtain ⟨h1, h2⟩ := abs_le.1 h
  rcases le_or_gt a (-b) with h3 | h3
  · exact ⟨-b, a + b, by ring, by rw [abs_neg, abs_of_nonneg hb], abs_le.2 ⟨by linarith, by linarith⟩⟩
  rcases le_or_gt b a with h4 | h4
  · exact ⟨b, a - b, by ring, by rw [abs_of_nonneg hb], abs_le.2 ⟨by linarith, by linarith⟩⟩
  · exact ⟨a, 0, by ring, abs_le.2 ⟨h3.le, h4.le⟩, by simpa using hc⟩

/-- Rounding of any number: a relative error, and an absolute one for numbers that are too small. -/
theorem rnd_any {q : ℚ} {l : ℤ} (h1 : -1074 ≤ l) (h2 : l ≤ 1023) (h : |q| ≤ 2 ^ l) :
    ∃ r, rnd q = .fin r ∧ |r - q| ≤ 1 / 2 ^ 53 * |q| + 2 ^ (-1075 : ℤ) ∧ Fx (-1074) l r := by
  have pos : ∀ q : ℚ, 0 < q → q ≤ 2 ^ l →
      ∃ r, rnd q = .fin r ∧ |r - q| ≤ 1 / 2 ^ 53 * |q| + 2 ^ (-1075 : ℤ) ∧ Fx (-1074) l r := by
    intro q hq hle
    have hr := rndPos_le_two_zpow hq h1 h2 hle
    refine ⟨rndPos q, ?_, ?_, rndPos_multiple (.inr (ulpExp_ge q)), ?_⟩
    · rw [rnd_pos hq, if_pos (hr.trans_lt (two_zpow_lt h2))]
    · have hu := two_zpow_pos (ulpExp q)
      have e : |rndPos q - q| ≤ 2 ^ ulpExp q / 2 := by
        have h3 := roundEven_abs (q / 2 ^ ulpExp q)
        have h4 : rndPos q - q = ((roundEven (q / 2 ^ ulpExp q) : ℚ) - q / 2 ^ ulpExp q) * 2 ^ ulpExp q := by
          rw [sub_mul, div_mul_cancel₀ _ hu.ne']; rfl
        rw [h4, abs_mul, abs_of_pos hu]
        nlinarith
      have p2 := two_zpow_pos (-1075)
      rcases (ulpExp_ge q).eq_or_lt with hE | hE
      · rw [← hE] at e
        have : (2 : ℚ) ^ (-1074 : ℤ) / 2 = 2 ^ (-1075 : ℤ) := by
          rw [show (-1074 : ℤ) = -1075 + 1 by norm_num, zpow_add₀ (by norm_num)]; ring
        rw [this] at e
        have : 0 ≤ 1 / 2 ^ 53 * |q| := by positivity
        exact e.trans (le_add_of_nonneg_left this)
      · have h5 := binade_le hq hE
        rw [zpow_add₀ (by norm_num)] at h5
        rw [abs_of_pos hq]
        have : (2 : ℚ) ^ (52 : ℤ) = 2 ^ 52 := by norm_num
        rw [this] at h5
        linarith
    · rwa [abs_of_nonneg (rndPos_nonneg hq)]
  rcases lt_trichotomy q 0 with hq | hq | hq
  · obtain ⟨r, e1, e2, e3⟩ := pos (-q) (by linarith) ((neg_le_abs q).trans h)
    refine ⟨-r, ?_, ?_, e3.neg⟩
    · rw [← neg_neg q, rnd_neg, e1]; rfl
    · rw [abs_neg] at e2
      rw [← abs_neg]
      have : -(-r - q) = r - -q := by ring
      rw [this]; exact e2
  · subst hq
    refine ⟨0, by simp [rnd], ?_, ⟨0, by simp⟩, by simpa using h⟩
    have := two_zpow_pos (-1075)
    simpa using this.le
  · exact pos q hq ((le_abs_self q).trans h)

/-- `value_err` with underflow. -/
theorem value_under {h s0 n n' h' d τ τ' m v V η : ℚ} (hh : 0 < h) (h0 : 0 ≤ τ) (h1 : τ ≤ h) (hs : |s0| ≤ V)
    (hn : |n| ≤ 2 * V) (e1 : Near n' n) (e2 : Near h' h) (η0 : 0 ≤ η) (e3 : |d - n' / h'| ≤ 1 / 2 ^ 53 * |n' / h'| + η)
    (e4 : Near τ' τ) (e5 : |m - d * τ'| ≤ 1 / 2 ^ 53 * |d * τ'| + η) (e6 : Near v (s0 + m))
    (hη : 8 * (η * (1 + h)) ≤ 1 / 2 ^ 53 * V) : |v - (s0 + n * (τ / h))| ≤ 1 / 2 ^ 49 * V := by
  obtain ⟨x1, ρ, ex, b1, b2⟩ := split_err e3 (by positivity) η0
  have hd1 : Near (n' / h' + x1) (n' / h') := by unfold Near; simpa using b1
  have hde : d = (n' / h' + x1) + ρ := by linarith
  generalize n' / h' + x1 = d1 at hd1 hde
  have hsl := slope_err hh e1 e2 hd1 hn
  have f4 := e4.abs_le'
  rw [abs_of_nonneg h0] at f4
  have hτ : |τ'| ≤ 2 * h := by linarith
  have hρ : |ρ * τ'| ≤ 2 * (η * h) := by
    rw [abs_mul]
    calc |ρ| * |τ'| ≤ η * (2 * h) := mul_le_mul b2 hτ (abs_nonneg _) η0
      _ = _ := by ring
  have em : |m - d1 * τ'| ≤ 1 / 2 ^ 53 * |d1 * τ'| + (η + 3 * (η * h)) := by
    have a1 : m - d1 * τ' = (m - d * τ') + ρ * τ' := by rw [hde]; ring
    have a2 : |d * τ'| ≤ |d1 * τ'| + |ρ * τ'| := by rw [hde, add_mul]; exact abs_add_le _ _
    have a3 := abs_add_le (m - d * τ') (ρ * τ')
    rw [← a1] at a3
    have : 0 ≤ η * h := by positivity
    linarith
  obtain ⟨x2, σ, ex2, c1, c2⟩ := split_err em (by positivity) (by positivity)
  have hm1 : Near (d1 * τ' + x2) (d1 * τ') := by unfold Near; simpa using c1
  have hme : m = (d1 * τ' + x2) + σ := by linarith
  generalize d1 * τ' + x2 = m1 at hm1 hme
  have ev : |v - (s0 + m1)| ≤ 1 / 2 ^ 53 * |s0 + m1| + 2 * |σ| := by
    unfold Near at e6
    have a1 : v - (s0 + m1) = (v - (s0 + m)) + σ := by rw [hme]; ring
    have a2 : |s0 + m| ≤ |s0 + m1| + |σ| := by rw [hme, ← add_assoc]; exact abs_add_le _ _
    have a3 := abs_add_le (v - (s0 + m)) σ
    rw [← a1] at a3
    have := abs_nonneg σ
    linarith
  obtain ⟨x3, κ, ex3, k1, k2⟩ := split_err ev (by positivity) (by positivity)
  have hv1 : Near (s0 + m1 + x3) (s0 + m1) := by unfold Near; simpa using k1
  have hve : v = (s0 + m1 + x3) + κ := by linarith
  generalize s0 + m1 + x3 = v1 at hv1 hve
  have := value_err hh h0 h1 hs hn hsl e4 hm1 hv1
  have a3 := abs_add_le (v1 - (s0 + n * (τ / h))) κ
  have a4 : v1 - (s0 + n * (τ / h)) + κ = v - (s0 + n * (τ / h)) := by rw [hve]; ring
  rw [a4] at a3
  have : 0 ≤ η * h := by positivity
  linarith

end B64
end Verif
