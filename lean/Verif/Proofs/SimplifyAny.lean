import Verif.Proofs.SyncFin
import Verif.Proofs.AccuracyPair

/-! # `simplify` on finite signals for every rounding -/

set_option linter.unusedSectionVars false

namespace Verif
open Spec

namespace AnySimp
variable {K : Type} [Field K] [LinearOrder K] [IsStrictOrderedRing K] [Arith K]

/-- The test of `simplify` after the point `a` has been kept: is the point `p`, whose successor is `q`, dropped? -/
def flat (a p q : K × K) : Bool :=
  D.eq ((⟨.fin a.1, .fin a.2, 0⟩ : Sample K).interpolate (.fin p.1)) (.fin p.2) &&
  D.eq (0 : D K) ((.fin q.2 - .fin p.2) / (.fin q.1 - .fin p.1))

/-- The points kept by `simplify` after the kept point `a`. -/
def keepG (a : K × K) : List (K × K) → List (K × K)
  | [] => []
  | [p] => [p]
  | p :: q :: r => if flat a p q then keepG a (q :: r) else p :: keepG p (q :: r)

theorem pushBack_snoc (l : List (K × K)) (p q : K × K) (d : D K) (h : p.1 < q.1) :
    (ofPts (l ++ [p])).pushBack ⟨.fin q.1, .fin q.2, d⟩ = .ok (ofPts ((l ++ [p]) ++ [q])) := by
  rw [ofPts, pushBack_build, if_pos]
  · simp [ofPts, lift, tv]
  · intro q' hq
    simp at hq; subst hq
    simpa [lift] using h

theorem ofPts_getLast? (l : List (K × K)) (p : K × K) :
    (ofPts (l ++ [p])).samples.getLast? = some ⟨.fin p.1, .fin p.2, 0⟩ := by
  rw [ofPts, build_getLast?]; simp [lift]

theorem loop : ∀ (rest l : List (K × K)) (p : K × K),
    Increasing (p :: rest) →
    ∃ w e, Signal.simplifyLoop (ofPts (l ++ [p])) (ofPts rest).samples =
        .ok (ofPts (l ++ p :: w)) ∧ keepG p rest = w ++ e ∧
      ((e = [] ) ∨ (∃ q, e = [q] ∧ rest.getLast? = some q)) ∧
      (∀ x ∈ p :: w, ∀ q ∈ e, x.1 < q.1) ∧
      (e = [] → (p :: w).getLast? = (p :: rest).getLast?) := by
  intro rest
  induction rest with
  | nil => intro l p _; exact ⟨[], [], rfl, rfl, .inl rfl, by simp, by simp⟩
  | cons q rest ih =>
    intro l p hinc
    have hpq : p.1 < q.1 := (increasing_cons.1 hinc).1 q (by simp)
    have hrest := (increasing_cons.1 hinc).2
    cases rest with
    | nil =>
      have e1 : (ofPts [q]).samples = [⟨.fin q.1, .fin q.2, 0⟩] := rfl
      rw [e1, Signal.simplifyLoop, ofPts_getLast?]
      simp only
      split
      · rw [pushBack_snoc l p q _ hpq]
        refine ⟨[q], [], ?_, rfl, .inl rfl, by simp, by simp⟩
        simp [Signal.simplifyLoop]
      · refine ⟨[], [q], by rw [Signal.simplifyLoop], rfl, .inr ⟨q, rfl, rfl⟩, ?_, by simp⟩
        intro x hx y hy
        simp at hx hy; subst hx; subst hy; exact hpq
    | cons r rest =>
      have e1 : (ofPts (q :: r :: rest)).samples =
          ⟨.fin q.1, .fin q.2, (.fin r.2 - .fin q.2) / (.fin r.1 - .fin q.1)⟩ :: (ofPts (r :: rest)).samples := rfl
      rw [e1, Signal.simplifyLoop, ofPts_getLast?]
      simp only
      have hcond : (!(((⟨.fin p.1, .fin p.2, 0⟩ : Sample K).interpolate (.fin q.1)).eq (.fin q.2)) ||
          !(D.eq (0 : D K) ((.fin r.2 - .fin q.2) / (.fin r.1 - .fin q.1)))) = !flat p q r := by
        rw [flat, Bool.not_and]
      rw [hcond]
      by_cases hd : flat p q r = true
      · rw [hd, Bool.not_true, if_neg (by simp)]
        have hinc' : Increasing (p :: r :: rest) := by
          rw [increasing_cons] at hinc ⊢
          exact ⟨fun x hx => hinc.1 x (List.mem_cons_of_mem _ hx), (increasing_cons.1 hrest).2⟩
        obtain ⟨w, e, h1, h2, h3, h4, h6⟩ := ih l p hinc'
        refine ⟨w, e, h1, ?_, ?_, h4, ?_⟩
        · rw [keepG, if_pos hd]; exact h2
        · simpa [List.getLast?_cons] using h3
        · intro he; rw [h6 he]; simp [List.getLast?_cons]
      · rw [Bool.eq_false_iff.2 hd, Bool.not_false, if_pos rfl, pushBack_snoc l p q _ hpq, Outcome.bind_ok]
        obtain ⟨w, e, h1, h2, h3, h4, h6⟩ := ih (l ++ [p]) q hrest
        refine ⟨q :: w, e, ?_, ?_, ?_, ?_, ?_⟩
        · rw [h1]; simp
        · rw [keepG, if_neg hd, h2]; rfl
        · simpa [List.getLast?_cons] using h3
        · intro x hx y hy
          rcases List.mem_cons.1 hx with rfl | hx
          · exact hpq.trans (h4 q (by simp) y hy)
          · exact h4 x hx y hy
        · intro he
          have := h6 he
          simp only [List.getLast?_cons] at this ⊢
          simpa using this

theorem endTime_eq (l : List (K × K)) : (ofPts l).endTime =
    match l.getLast? with | none => 0 | some p => .fin p.1 := by
  rw [Signal.endTime, ofPts, build_getLast?, List.getLast?_map]
  cases l.getLast? <;> rfl

/-- `simplify` on a finite signal. -/
theorem simplify_any (p : K × K) (rest : List (K × K)) (h : Increasing (p :: rest)) :
    (ofPts (p :: rest)).simplify = .ok (ofPts (p :: keepG p rest)) := by
  obtain ⟨w, e, h1, h2, h3, h4, h6⟩ := loop rest [] p h
  obtain ⟨d, hd⟩ := build_cons (lift p) (rest.map lift)
  have hd' : (ofPts (p :: rest)).samples = ⟨.fin p.1, .fin p.2, d⟩ :: (ofPts rest).samples := hd
  have hloop : Signal.simplifyLoop Signal.empty (ofPts (p :: rest)).samples = .ok (ofPts (p :: w)) := by
    rw [hd', Signal.simplifyLoop]
    exact h1
  unfold Signal.simplify
  rw [hloop, Outcome.bind_ok, h2, endTime_eq, endTime_eq]
  rcases h3 with rfl | ⟨q, rfl, hq⟩
  · rw [h6 rfl]
    have hne : (p :: rest).getLast? ≠ none := by simp
    cases hl : (p :: rest).getLast? with
    | none => exact absurd hl hne
    | some a => simp
  · have hl : (p :: rest).getLast? = some q := by simp [List.getLast?_cons, hq]
    rw [hl]
    obtain ⟨w', a, hw⟩ : ∃ w' a, p :: w = w' ++ [a] := by
      rcases List.eq_nil_or_concat (p :: w) with hn | ⟨w', a, hw⟩
      · simp at hn
      · exact ⟨w', a, by simpa using hw⟩
    have haq : a.1 < q.1 := h4 a (by rw [hw]; simp) q (by simp)
    have hl' : (p :: w).getLast? = some a := by rw [hw]; simp
    have hback : (ofPts (p :: rest)).back = .ok ⟨.fin q.1, .fin q.2, 0⟩ := by
      rw [Signal.back, ofPts, build_getLast?, List.getLast?_map, hl]; rfl
    rw [hl', hback]
    simp only [D.eq_fin, haq.ne', decide_false, Bool.not_false, if_true, Outcome.bind_ok]
    rw [hw, pushBack_snoc w' a q _ haq, ← hw]; rfl

theorem keepG_sublist : ∀ (l : List (K × K)) (a : K × K), (keepG a l).Sublist l
  | [], _ => by simp [keepG]
  | [p], _ => by simp [keepG]
  | p :: q :: r, a => by
    rw [keepG]
    split
    · exact (keepG_sublist (q :: r) a).cons p
    · exact (keepG_sublist (q :: r) p).cons_cons p

theorem keepG_getLast? : ∀ (l : List (K × K)) (a : K × K), (keepG a l).getLast? = l.getLast?
  | [], _ => rfl
  | [p], _ => rfl
  | p :: q :: r, a => by
    rw [keepG]
    have h0 : (p :: q :: r).getLast? = (q :: r).getLast? := by simp [List.getLast?_cons]
    split
    · rw [keepG_getLast? (q :: r) a, h0]
    · rw [List.getLast?_cons, keepG_getLast? (q :: r) p, h0]
      simp [List.getLast?_cons]

/-- A second call changes nothing. -/
theorem keepG_keepG {P : K × K → Prop} (hf : ∀ a p q : K × K, P a → flat a p q = true → p.2 = a.2)
    (hz : ∀ p q : K × K, P p → P q → p.1 < q.1 → p.2 = q.2 →
      D.eq (0 : D K) ((.fin q.2 - .fin p.2) / (.fin q.1 - .fin p.1)) = true) :
    ∀ (l : List (K × K)) (a : K × K), Increasing l → (∀ p ∈ l, P p) → keepG a (keepG a l) = keepG a l
  | [], _, _, _ => rfl
  | [p], _, _, _ => rfl
  | p :: q :: r, a, hi, hP => by
    have hP' : ∀ p ∈ q :: r, P p := fun x hx => hP x (List.mem_cons_of_mem _ hx)
    have hi' := (increasing_cons.1 hi).2
    have hpq : p.1 < q.1 := (increasing_cons.1 hi).1 q (by simp)
    by_cases hd : flat a p q = true
    · rw [keepG, if_pos hd]
      exact keepG_keepG hf hz (q :: r) a hi' hP'
    · rw [keepG, if_neg hd]
      cases hk : keepG p (q :: r) with
      | nil => rfl
      | cons c w =>
        have hne : ¬ flat a p c = true := by
          intro hc
          -- the test of the value is the same, so that of the slope has failed
          have h1 : D.eq ((⟨.fin a.1, .fin a.2, 0⟩ : Sample K).interpolate (.fin p.1)) (.fin p.2) = true := by
            rw [flat, Bool.and_eq_true] at hc; exact hc.1
          have h2 : ¬ D.eq (0 : D K) ((.fin q.2 - .fin p.2) / (.fin q.1 - .fin p.1)) = true := by
            intro h2; exact hd (by rw [flat, Bool.and_eq_true]; exact ⟨h1, h2⟩)
          have h3 : p.2 ≠ q.2 := fun h => h2 (hz p q (hP p (by simp)) (hP q (by simp)) hpq h)
          -- so that `q` has been kept
          have : c = q := by
            cases r with
            | nil => rw [keepG] at hk; exact (List.cons.inj hk).1.symm
            | cons r rs =>
              rw [keepG, if_neg (fun hc => h3 (hf p q r (hP p (by simp)) hc).symm)] at hk
              exact (List.cons.inj hk).1.symm
          subst this
          exact hd hc
        rw [keepG, if_neg hne, ← hk, keepG_keepG hf hz (q :: r) p hi' hP']

end AnySimp

/-! ## The error -/

namespace AnySimp

/-- If points are dropped only if they have the value of the last kept point and the next value differs by at most `e`,
then the function changes by at most `e`. -/
theorem keep_error {f : ℚ × ℚ → ℚ × ℚ → ℚ × ℚ → Bool} {k : ℚ × ℚ → List (ℚ × ℚ) → List (ℚ × ℚ)}
    (k0 : ∀ a, k a [] = []) (k1 : ∀ a p, k a [p] = [p])
    (k2 : ∀ a p q r, k a (p :: q :: r) = if f a p q then k a (q :: r) else p :: k p (q :: r))
    {P : ℚ × ℚ → Prop} (hf : ∀ a p q, P a → f a p q = true → p.2 = a.2) {e : ℚ} (he : 0 ≤ e) :
    ∀ (n : Nat) (l : List (ℚ × ℚ)) (a : ℚ × ℚ), l.length ≤ n → Increasing (a :: l) →
      (∀ p ∈ a :: l, P p) → (l.IsChain fun p q => ∀ a, f a p q = true → |q.2 - p.2| ≤ e) →
      ∀ t, a.1 ≤ t → |eval (a :: k a l) t - eval (a :: l) t| ≤ e := by
  intro n
  induction n with
  | zero =>
    intro l a hl _ _ _ t _
    cases l with
    | nil => simp [k0, he]
    | cons p l => simp at hl
  | succ n ih =>
    intro l a hl hi hP hc t ht
    match l, hl, hi, hP, hc with
    | [], _, _, _, _ => simp [k0, he]
    | [p], _, _, _, _ => simp [k1, he]
    | p :: q :: r, hl, hi, hP, hc =>
      have hP1 : ∀ x ∈ a :: q :: r, P x := fun x hx => hP x (by simp at hx ⊢; tauto)
      have hP2 : ∀ x ∈ p :: q :: r, P x := fun x hx => hP x (List.mem_cons_of_mem _ hx)
      have hP3 : ∀ x ∈ q :: r, P x := fun x hx => hP2 x (List.mem_cons_of_mem _ hx)
      have hap : a.1 < p.1 := (increasing_cons.1 hi).1 p (by simp)
      have hpq : p.1 < q.1 := (increasing_cons.1 (increasing_cons.1 hi).2).1 q (by simp)
      have hi' := (increasing_cons.1 hi).2
      have hiq : Increasing (a :: q :: r) := by
        rw [increasing_cons] at hi ⊢
        exact ⟨fun x hx => hi.1 x (List.mem_cons_of_mem _ hx), (increasing_cons.1 hi').2⟩
      rw [List.isChain_cons_cons] at hc
      have hl' : (q :: r).length ≤ n := by simp at hl ⊢; omega
      rw [k2]
      by_cases hd : f a p q = true
      · rw [if_pos hd]
        have e1 := hf a p q (hP a (by simp)) hd
        by_cases hv : q.2 = p.2
        · -- a horizontal line
          have : eval (a :: p :: q :: r) t = eval (a :: q :: r) t := by
            by_cases h1 : t ≤ p.1
            · rw [B64.eval_cons_le h1, B64.eval_cons_le (h1.trans hpq.le)]
              simp [line, e1, hv]
            · rw [B64.eval_cons_gt (not_le.1 h1)]
              by_cases h2 : t ≤ q.1
              · rw [B64.eval_cons_le h2, B64.eval_cons_le h2]
                simp [line, e1, hv]
              · rw [B64.eval_cons_gt (not_le.1 h2), B64.eval_cons_gt (not_le.1 h2)]
          rw [this]
          exact ih (q :: r) a hl' hiq hP1 hc.2 t ht
        · have hk : ∃ w, k a (q :: r) = q :: w ∧ (∀ t, q.1 ≤ t → |eval (q :: w) t - eval (q :: r) t| ≤ e) := by
            cases r with
            | nil => exact ⟨[], k1 a q, fun _ _ => by simp [he]⟩
            | cons r rs =>
              refine ⟨k q (r :: rs), ?_, ?_⟩
              · rw [k2, if_neg]
                intro h
                exact hv ((hf a q r (hP a (by simp)) h).trans e1.symm)
              · refine ih (r :: rs) q (by simp at hl ⊢; omega) (increasing_cons.1 hi').2 hP3 ?_
                have := hc.2
                rw [List.isChain_cons_cons] at this
                exact this.2
          obtain ⟨w, hk, hw⟩ := hk
          rw [hk]
          by_cases h2 : t ≤ q.1
          · have hve := hc.1 a hd
            have haq := hap.trans hpq
            rw [B64.eval_cons_le h2]
            obtain ⟨m0, m1⟩ := frac01 haq ht h2
            by_cases h1 : t ≤ p.1
            · rw [B64.eval_cons_le h1]
              have : line a q t - line a p t = (q.2 - p.2) * ((t - a.1) / (q.1 - a.1)) := by
                simp only [line, e1]; ring
              rw [this, abs_mul, abs_of_nonneg m0]
              calc _ ≤ |q.2 - p.2| * 1 := mul_le_mul_of_nonneg_left m1 (abs_nonneg _)
                _ ≤ e := by rw [mul_one]; exact hve
            · have h1 := not_le.1 h1
              rw [B64.eval_cons_gt h1, B64.eval_cons_le h2]
              obtain ⟨n0, n1⟩ := frac01 hpq h1.le h2
              have : line a q t - line p q t =
                  (q.2 - p.2) * ((t - a.1) / (q.1 - a.1) - (t - p.1) / (q.1 - p.1)) := by
                simp only [line, e1]; ring
              rw [this, abs_mul]
              have h3 : |(t - a.1) / (q.1 - a.1) - (t - p.1) / (q.1 - p.1)| ≤ 1 := by
                rw [abs_le]; constructor <;> linarith
              calc _ ≤ |q.2 - p.2| * 1 := mul_le_mul_of_nonneg_left h3 (abs_nonneg _)
                _ ≤ e := by rw [mul_one]; exact hve
          · have h2 := not_le.1 h2
            rw [B64.eval_cons_gt h2, B64.eval_cons_gt (hpq.trans h2), B64.eval_cons_gt h2]
            exact hw t h2.le
      · rw [if_neg hd]
        by_cases h1 : t ≤ p.1
        · rw [B64.eval_cons_le h1, B64.eval_cons_le h1]; simp [he]
        · have h1 := not_le.1 h1
          rw [B64.eval_cons_gt h1, B64.eval_cons_gt h1]
          exact ih (q :: r) p hl' hi' hP2 hc.2 t h1.le

end AnySimp

/-! ## binary64 -/

namespace B64
open AnySimp

/-- A double of magnitude at most `2^1022`. -/
def Half (q : ℚ) : Prop := IsB64 q ∧ |q| ≤ 2 ^ 1022

theorem Half.fx {q : ℚ} (h : Half q) : Fx (-1074) 1022 q := by
  obtain ⟨⟨m, e, h1, h2, h3, h4⟩, h5⟩ := h
  refine ⟨?_, by exact_mod_cast h5⟩
  rw [h1]
  exact multiple_mono h3 ⟨m, rfl⟩

theorem Half.sub {p q : ℚ} (hp : Half p) (hq : Half q) : ∃ r, rnd (q - p) = .fin r ∧ Near r (q - p) := by
  have : Fx (-1074) 1023 (q - p) := by
    rw [sub_eq_add_neg]
    exact Fx.add (l := 1022) hq.fx hp.fx.neg
  obtain ⟨r, h1, h2, -⟩ := rnd_fx this (by norm_num) (by norm_num) (by norm_num)
  exact ⟨r, h1, h2⟩

/-- A number that is rounded to zero is small. -/
theorem rnd_eq_zero {q : ℚ} (h : rnd q = .fin 0) : |q| ≤ 2 ^ (-1075 : ℤ) := by
  have hn := (rnd_fin h).2.1 _ (isB64_two_zpow (l := -1074) (by norm_num) (by norm_num))
  have hn' := (rnd_fin h).2.1 _ (isB64_neg (isB64_two_zpow (l := -1074) (by norm_num) (by norm_num)))
  have e : (2 : ℚ) ^ (-1074 : ℤ) = 2 * 2 ^ (-1075 : ℤ) := by
    rw [show (-1074 : ℤ) = 1 + -1075 by norm_num, zpow_add₀ (by norm_num)]; norm_num
  have hp := two_zpow_pos (-1075)
  rw [e] at hn hn'
  set w : ℚ := 2 ^ (-1075 : ℤ)
  rw [zero_sub, abs_neg] at hn hn'
  rcases abs_cases q with ⟨h1, h2⟩ | ⟨h1, h2⟩
  · rw [h1] at hn ⊢
    rcases abs_cases (2 * w - q) with ⟨h3, h4⟩ | ⟨h3, h4⟩ <;> rw [h3] at hn <;> linarith
  · rw [h1] at hn' ⊢
    rcases abs_cases (-(2 * w) - q) with ⟨h3, h4⟩ | ⟨h3, h4⟩ <;> rw [h3] at hn' <;> linarith

/-- A slope that is rounded to zero belongs to values that are close to each other. -/
theorem slope_zero {p q : ℚ × ℚ} (h : p.1 < q.1) (hp : Half p.1 ∧ Half p.2) (hq : Half q.1 ∧ Half q.2)
    (hs : D.eq (0 : D B64) ((fq q.2 - fq p.2) / (fq q.1 - fq p.1)) = true) :
    |q.2 - p.2| < 2 ^ (-1074 : ℤ) * (q.1 - p.1) := by
  obtain ⟨n, n1, n2⟩ := hp.2.sub hq.2
  obtain ⟨k, k1, k2⟩ := hp.1.sub hq.1
  have hk : 0 < k := by have := k2.pos (sub_pos.2 h); nlinarith [sub_pos.2 h]
  have e : ((fq q.2 - fq p.2) / (fq q.1 - fq p.1) : D B64) = rnd (n / k) := by
    rw [sub_fin rfl rfl n1, sub_fin rfl rfl k1]
    exact div_fin rfl rfl hk.ne' rfl
  rw [e] at hs
  have hz : rnd (n / k) = .fin 0 := by
    cases hr : rnd (n / k) with
    | fin r =>
      rw [hr] at hs
      by_contra hne
      have : r ≠ 0 := fun h => hne (by rw [h])
      have h2 : D.eq (fq 0) (fq r) = true := hs
      rw [eqF (Ne.symm this)] at h2
      cases h2
    | pinf => rw [hr] at hs; cases hs
    | ninf => rw [hr] at hs; cases hs
    | nan => rw [hr] at hs; cases hs
  have hb := rnd_eq_zero hz
  rw [abs_div, abs_of_pos hk, div_le_iff₀ hk] at hb
  have e : (2 : ℚ) ^ (-1074 : ℤ) = 2 * 2 ^ (-1075 : ℤ) := by
    rw [show (-1074 : ℤ) = 1 + -1075 by norm_num, zpow_add₀ (by norm_num)]; norm_num
  have hw := two_zpow_pos (-1075)
  rw [e]
  set w : ℚ := 2 ^ (-1075 : ℤ)
  have b1 : (1 - 1 / 2 ^ 53) * |q.2 - p.2| ≤ |n| := by
    have h1 : |n - (q.2 - p.2)| ≤ 1 / 2 ^ 53 * |q.2 - p.2| := n2
    have := abs_sub_abs_le_abs_sub (q.2 - p.2) n
    rw [abs_sub_comm (q.2 - p.2) n] at this
    linarith
  have b2 : k ≤ (1 + 1 / 2 ^ 53) * (q.1 - p.1) := by
    have := k2.abs_le'
    rwa [abs_of_pos hk, abs_of_pos (sub_pos.2 h)] at this
  have b3 : w * k ≤ w * ((1 + 1 / 2 ^ 53) * (q.1 - p.1)) := mul_le_mul_of_nonneg_left b2 hw.le
  have b4 : 0 < w * (q.1 - p.1) := mul_pos hw (sub_pos.2 h)
  nlinarith

theorem slope_equal {p q : ℚ × ℚ} (h : p.1 < q.1) (hp : Half p.1) (hq : Half q.1) (e : p.2 = q.2) :
    D.eq (0 : D B64) ((fq q.2 - fq p.2) / (fq q.1 - fq p.1)) = true := by
  obtain ⟨k, k1, k2⟩ := hp.sub hq
  have hk : 0 < k := by have := k2.pos (sub_pos.2 h); nlinarith [sub_pos.2 h]
  have z : rnd 0 = .fin 0 := by simp [rnd]
  have : ((fq q.2 - fq p.2) / (fq q.1 - fq p.1) : D B64) = fq 0 := by
    rw [sub_fin (a := q.2) (b := p.2) rfl rfl (by rw [e, sub_self]), sub_fin rfl rfl k1]
    exact div_fin rfl rfl hk.ne' ((congrArg rnd (zero_div k)).trans z)
  rw [this]; exact eqT 0

/-- The test of `simplify` compares the values. -/
theorem flat_value {a p q : ℚ × ℚ} (ha : IsB64 a.2) (h : flat (K := B64) a p q = true) : p.2 = a.2 := by
  have h1 := (Bool.and_eq_true _ _ ▸ h :).1
  have z : rnd 0 = .fin 0 := by simp [rnd]
  have hi : ∀ x : D B64, D.eq ((fq a.2 + (0 : D B64) * x)) (fq p.2) = true → p.2 = a.2 := by
    intro x hx
    cases x with
    | fin r =>
      have e1 : ((0 : D B64) * D.fin r) = fq 0 := mul_fin (a := 0) (b := r) rfl rfl ((congrArg rnd (zero_mul (r : ℚ))).trans z)
      have e2 : (fq a.2 + fq 0 : D B64) = fq a.2 := add_fin rfl rfl (by rw [add_zero]; exact rnd_self ha)
      rw [e1, e2] at hx
      by_contra hne
      rw [eqF (Ne.symm hne)] at hx
      cases hx
    | pinf =>
      have : ((0 : D B64) * D.pinf) = D.nan := by decide +kernel
      rw [this] at hx; cases hx
    | ninf =>
      have : ((0 : D B64) * D.ninf) = D.nan := by decide +kernel
      rw [this] at hx; cases hx
    | nan =>
      have : ((0 : D B64) * D.nan) = D.nan := by decide +kernel
      rw [this] at hx; cases hx
  exact hi _ h1

end B64
end Verif
