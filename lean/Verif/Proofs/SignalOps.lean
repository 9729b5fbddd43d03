import Verif.Proofs.SyncFin

/-! # `simplify`, `shift` and `resize` on finite signals in exact arithmetic -/

set_option linter.unusedSectionVars false

namespace Verif
open Spec

variable {K : Type} [Field K] [LinearOrder K] [IsStrictOrderedRing K] [Arith K] [ExactArith K]

/-! ## simplify -/

/-- The points kept by `simplify` after a kept point with value `v`. -/
def keep (v : K) : List (K × K) → List (K × K)
  | [] => []
  | [p] => [p]
  | p :: q :: r => if p.2 = v ∧ q.2 = p.2 then keep v (q :: r) else p :: keep p.2 (q :: r)

theorem pushBack_snoc (l : List (K × K)) (p q : K × K) (d : D K) (h : p.1 < q.1) :
    (ofPts (l ++ [p])).pushBack ⟨.fin q.1, .fin q.2, d⟩ = .ok (ofPts ((l ++ [p]) ++ [q])) := by
  rw [ofPts, pushBack_build, if_pos]
  · simp [ofPts, lift, tv]
  · intro q' hq
    simp at hq; subst hq
    simpa [lift] using h

theorem ofPts_getLast? (l : List (K × K)) (p : K × K) :
    (ofPts (l ++ [p])).samples.getLast? = some ⟨.fin p.1, .fin p.2, 0⟩ := by
  rw [ofPts, build_getLast?]; simp [lift]

theorem interp_last (p q : K × K) :
    ((⟨.fin p.1, .fin p.2, 0⟩ : Sample K).interpolate (.fin q.1)) = .fin p.2 := by
  rw [D.zero_def, interpolate_fin]; simp

theorem slope_zero_iff {p q : K × K} (h : p.1 < q.1) :
    (q.2 - p.2) / (q.1 - p.1) = 0 ↔ q.2 = p.2 := by
  have : q.1 - p.1 ≠ 0 := (sub_pos.2 h).ne'
  rw [div_eq_zero_iff]; simp [this, sub_eq_zero]

theorem simplifyLoop_fin : ∀ (rest l : List (K × K)) (p : K × K),
    Increasing (p :: rest) →
    ∃ w e, Signal.simplifyLoop (ofPts (l ++ [p])) (ofPts rest).samples =
        .ok (ofPts (l ++ p :: w)) ∧ keep p.2 rest = w ++ e ∧
      ((e = [] ) ∨ (∃ q, e = [q] ∧ rest.getLast? = some q)) ∧
      (∀ x ∈ p :: w, ∀ q ∈ e, x.1 < q.1) ∧ (rest ≠ [] → w = [] → e ≠ []) ∧
      (e = [] → (p :: w).getLast? = (p :: rest).getLast?) := by
  intro rest
  induction rest with
  | nil => intro l p _; exact ⟨[], [], rfl, rfl, .inl rfl, by simp, by simp, by simp⟩
  | cons q rest ih =>
    intro l p hinc
    have hpq : p.1 < q.1 := (increasing_cons.1 hinc).1 q (by simp)
    have hrest := (increasing_cons.1 hinc).2
    cases rest with
    | nil =>
      have e1 : (ofPts [q]).samples = [⟨.fin q.1, .fin q.2, 0⟩] := rfl
      rw [e1, Signal.simplifyLoop, ofPts_getLast?]
      have hc : (!(((⟨.fin p.1, .fin p.2, 0⟩ : Sample K).interpolate (.fin q.1)).eq (.fin q.2)) ||
          !(D.eq (0 : D K) 0)) = !decide (p.2 = q.2) := by
        rw [interp_last, D.eq_fin, D.zero_def, D.eq_fin]; simp
      simp only [hc]
      by_cases hv : p.2 = q.2
      · rw [if_neg (by simpa using hv)]
        refine ⟨[], [q], by rw [Signal.simplifyLoop], rfl, .inr ⟨q, rfl, rfl⟩, ?_, by simp, by simp⟩
        intro x hx y hy
        simp at hx hy; subst hx; subst hy; exact hpq
      · rw [if_pos (by simpa using hv), pushBack_snoc l p q _ hpq]
        refine ⟨[q], [], ?_, rfl, .inl rfl, by simp, by simp, by simp⟩
        simp [Signal.simplifyLoop]
    | cons r rest =>
      have hqr : q.1 < r.1 := (increasing_cons.1 hrest).1 r (by simp)
      have e1 : (ofPts (q :: r :: rest)).samples =
          ⟨.fin q.1, .fin q.2, .fin ((r.2 - q.2) / (r.1 - q.1))⟩ :: (ofPts (r :: rest)).samples :=
        build_lift_cons₂ hqr
      rw [e1, Signal.simplifyLoop, ofPts_getLast?]
      have hcond : (!(((⟨.fin p.1, .fin p.2, 0⟩ : Sample K).interpolate (.fin q.1)).eq (.fin q.2)) ||
          !(D.eq (0 : D K) (.fin ((r.2 - q.2) / (r.1 - q.1))))) = true ↔
          ¬ (q.2 = p.2 ∧ r.2 = q.2) := by
        rw [interp_last, D.eq_fin, D.zero_def, D.eq_fin, Bool.or_eq_true, Bool.not_eq_true', Bool.not_eq_true', decide_eq_false_iff_not,
          decide_eq_false_iff_not, ← not_and_or, eq_comm (a := p.2), eq_comm (a := (0 : K)),
          slope_zero_iff hqr]
      simp only
      by_cases hd : q.2 = p.2 ∧ r.2 = q.2
      · rw [if_neg (fun hx => hcond.1 hx hd)]
        have hinc' : Increasing (p :: r :: rest) := by
          rw [increasing_cons] at hinc ⊢
          exact ⟨fun x hx => hinc.1 x (List.mem_cons_of_mem _ hx), (increasing_cons.1 hrest).2⟩
        obtain ⟨w, e, h1, h2, h3, h4, h5, h6⟩ := ih l p hinc'
        refine ⟨w, e, h1, ?_, ?_, h4, fun _ hw => h5 (by simp) hw, ?_⟩
        · rw [keep, if_pos hd]; exact h2
        · simpa [List.getLast?_cons] using h3
        · intro he; rw [h6 he]; simp [List.getLast?_cons]
      · rw [if_pos (hcond.2 hd), pushBack_snoc l p q _ hpq, Outcome.bind_ok]
        obtain ⟨w, e, h1, h2, h3, h4, h5, h6⟩ := ih (l ++ [p]) q hrest
        refine ⟨q :: w, e, ?_, ?_, ?_, ?_, by simp, ?_⟩
        · rw [h1]; simp
        · rw [keep, if_neg hd, h2]; rfl
        · simpa [List.getLast?_cons] using h3
        · intro x hx y hy
          rcases List.mem_cons.1 hx with rfl | hx
          · exact hpq.trans (h4 q (by simp) y hy)
          · exact h4 x hx y hy
        · intro he
          have := h6 he
          simp only [List.getLast?_cons] at this ⊢
          simpa using this

theorem endTime_eq (l : List (K × K)) : (ofPts l).endTime =
    match l.getLast? with | none => 0 | some p => .fin p.1 := by
  rw [Signal.endTime, ofPts, build_getLast?, List.getLast?_map]
  cases l.getLast? <;> rfl

theorem simplify_fin (p : K × K) (rest : List (K × K)) (h : Increasing (p :: rest)) :
    (ofPts (p :: rest)).simplify = .ok (ofPts (p :: keep p.2 rest)) := by
  obtain ⟨w, e, h1, h2, h3, h4, h5, h6⟩ := simplifyLoop_fin rest [] p h
  obtain ⟨d, hd⟩ := build_cons (lift p) (rest.map lift)
  have hd' : (ofPts (p :: rest)).samples = ⟨.fin p.1, .fin p.2, d⟩ :: (ofPts rest).samples := hd
  have hloop : Signal.simplifyLoop Signal.empty (ofPts (p :: rest)).samples = .ok (ofPts (p :: w)) := by
    rw [hd', Signal.simplifyLoop]
    exact h1
  unfold Signal.simplify
  rw [hloop, Outcome.bind_ok, h2, endTime_eq, endTime_eq]
  rcases h3 with rfl | ⟨q, rfl, hq⟩
  · rw [h6 rfl]
    have hne : (p :: rest).getLast? ≠ none := by simp
    cases hl : (p :: rest).getLast? with
    | none => exact absurd hl hne
    | some a => simp
  · have hl : (p :: rest).getLast? = some q := by simp [List.getLast?_cons, hq]
    rw [hl]
    obtain ⟨w', a, hw⟩ : ∃ w' a, p :: w = w' ++ [a] := by
      rcases List.eq_nil_or_concat (p :: w) with hn | ⟨w', a, hw⟩
      · simp at hn
      · exact ⟨w', a, by simpa using hw⟩
    have haq : a.1 < q.1 := h4 a (by rw [hw]; simp) q (by simp)
    have hl' : (p :: w).getLast? = some a := by rw [hw]; simp
    have hback : (ofPts (p :: rest)).back = .ok ⟨.fin q.1, .fin q.2, 0⟩ := by
      rw [Signal.back, ofPts, build_getLast?, List.getLast?_map, hl]; rfl
    rw [hl', hback]
    simp only [D.eq_fin, haq.ne', decide_false, Bool.not_false, if_true, Outcome.bind_ok]
    rw [hw, pushBack_snoc w' a q _ haq, ← hw]; rfl

theorem keep_sublist : ∀ (l : List (K × K)) (v : K), (keep v l).Sublist l
  | [], _ => by simp [keep]
  | [p], _ => by simp [keep]
  | p :: q :: r, v => by
    rw [keep]
    split
    · exact (keep_sublist (q :: r) v).cons p
    · exact (keep_sublist (q :: r) p.2).cons_cons p

theorem keep_ne_nil : ∀ (l : List (K × K)) (v : K), l ≠ [] → keep v l ≠ []
  | [], _, h => absurd rfl h
  | [p], _, _ => by simp [keep]
  | p :: q :: r, v, _ => by
    rw [keep]
    split
    · exact keep_ne_nil (q :: r) v (by simp)
    · simp

theorem keep_getLast? : ∀ (l : List (K × K)) (v : K), (keep v l).getLast? = l.getLast?
  | [], _ => rfl
  | [p], _ => rfl
  | p :: q :: r, v => by
    rw [keep]
    have h0 : (p :: q :: r).getLast? = (q :: r).getLast? := by simp [List.getLast?_cons]
    split
    · rw [keep_getLast? (q :: r) v, h0]
    · rw [List.getLast?_cons, keep_getLast? (q :: r) p.2, h0]
      simp [List.getLast?_cons]

theorem keep_head (p : K × K) (l : List (K × K)) (v : K) (h : p.2 ≠ v) :
    ∃ w, keep v (p :: l) = p :: w := by
  cases l with
  | nil => exact ⟨[], rfl⟩
  | cons q r => rw [keep, if_neg (fun hc => h hc.1)]; exact ⟨_, rfl⟩

theorem keep_keep : ∀ (l : List (K × K)) (v : K), keep v (keep v l) = keep v l
  | [], _ => rfl
  | [p], _ => rfl
  | p :: q :: r, v => by
    rw [keep]
    split
    · exact keep_keep (q :: r) v
    · rename_i hn
      have ih := keep_keep (q :: r) p.2
      obtain ⟨a, w, haw⟩ : ∃ a w, keep p.2 (q :: r) = a :: w := by
        cases hk : keep p.2 (q :: r) with
        | nil => exact absurd hk (keep_ne_nil _ _ (by simp))
        | cons a w => exact ⟨a, w, rfl⟩
      rw [haw] at ih ⊢
      rw [keep, if_neg, ih]
      rintro ⟨h1, h2⟩
      rw [not_and] at hn
      have h3 := hn h1
      obtain ⟨w', hw'⟩ := keep_head q r p.2 h3
      rw [haw] at hw'
      simp only [List.cons.injEq] at hw'
      rw [hw'.1] at h2; exact h3 h2

/-- No three consecutive points of the result have the same value. -/
theorem keep_no_flat : ∀ (l : List (K × K)) (p : K × K) (l₁ l₂ : List (K × K)) (a b c : K × K),
    p :: keep p.2 l = l₁ ++ a :: b :: c :: l₂ → ¬ (a.2 = b.2 ∧ b.2 = c.2)
  | [], p, l₁, l₂, a, b, c, h => by
    have := congrArg List.length h; simp [keep] at this; omega
  | [q], p, l₁, l₂, a, b, c, h => by
    have := congrArg List.length h; simp [keep] at this; omega
  | q :: r :: l, p, l₁, l₂, a, b, c, h => by
    rw [keep] at h
    split at h
    · exact keep_no_flat (r :: l) p l₁ l₂ a b c h
    · rename_i hn
      cases l₁ with
      | cons x l₁ =>
        simp only [List.cons_append, List.cons.injEq] at h
        exact keep_no_flat (r :: l) q l₁ l₂ a b c h.2
      | nil =>
        simp only [List.nil_append, List.cons.injEq] at h
        obtain ⟨rfl, rfl, h⟩ := h
        rintro ⟨h1, h2⟩
        rw [not_and] at hn
        have h3 := hn h1.symm
        obtain ⟨w', hw'⟩ := keep_head r l q.2 h3
        rw [h] at hw'
        simp only [List.cons.injEq] at hw'
        rw [hw'.1] at h2; exact h3 h2.symm

theorem eval_keep : ∀ (l : List (K × K)) (p : K × K), Increasing (p :: l) → ∀ t, p.1 ≤ t →
    eval (p :: keep p.2 l) t = eval (p :: l) t
  | [], _, _, _, _ => rfl
  | [_], _, _, _, _ => rfl
  | q :: r :: l, p, hinc, t, ht => by
    have hpq : p.1 < q.1 := (increasing_cons.1 hinc).1 q (by simp)
    have hpr : p.1 < r.1 := (increasing_cons.1 hinc).1 r (by simp)
    have hrest := (increasing_cons.1 hinc).2
    have hqr : q.1 < r.1 := (increasing_cons.1 hrest).1 r (by simp)
    rw [keep]
    split
    · rename_i hd
      have hinc' : Increasing (p :: r :: l) := by
        rw [increasing_cons] at hinc ⊢
        exact ⟨fun x hx => hinc.1 x (List.mem_cons_of_mem _ hx), (increasing_cons.1 hrest).2⟩
      rw [eval_keep (r :: l) p hinc' t ht]
      have hc1 : ∀ s, line p q s = p.2 := by intro s; simp [line, hd.1]
      have hc2 : ∀ s, line q r s = p.2 := by intro s; simp [line, hd.2, hd.1]
      have hc3 : ∀ s, line p r s = p.2 := by intro s; simp [line, hd.2, hd.1]
      rw [eval, eval, eval, hc1, hc2, hc3]
      by_cases h1 : t ≤ q.1
      · simp [h1, h1.trans hqr.le]
      · simp [h1]
    · obtain ⟨a, w, haw⟩ : ∃ a w, keep q.2 (r :: l) = a :: w := by
        cases hk : keep q.2 (r :: l) with
        | nil => exact absurd hk (keep_ne_nil _ _ (by simp))
        | cons a w => exact ⟨a, w, rfl⟩
      have ih := eval_keep (r :: l) q hrest t
      rw [haw] at ih ⊢
      rw [show eval (p :: q :: a :: w) t = if t ≤ q.1 then line p q t else eval (q :: a :: w) t from rfl,
        show eval (p :: q :: r :: l) t = if t ≤ q.1 then line p q t else eval (q :: r :: l) t from rfl]
      by_cases h1 : t ≤ q.1
      · simp [h1]
      · simp only [h1, if_false]; exact ih (le_of_not_ge h1)

/-! ## shift -/

/-- Translate points in time. -/
def shiftPts (dt : K) (pts : List (K × K)) : List (K × K) := pts.map fun p => (p.1 + dt, p.2)

theorem increasing_shiftPts (dt : K) (pts : List (K × K)) :
    Increasing (shiftPts dt pts) ↔ Increasing pts := by
  simp [Increasing, shiftPts, List.pairwise_map]

theorem addTime_ofPts : ∀ (pts : List (K × K)) (dt : K), Increasing pts →
    (ofPts pts).addTime (.fin dt) = ofPts (shiftPts dt pts)
  | [], _, _ => rfl
  | [p], dt, _ => by
    simp [ofPts, Signal.addTime, shiftPts, lift]
  | p :: q :: r, dt, h => by
    have hpq : p.1 < q.1 := (increasing_cons.1 h).1 q (by simp)
    have ih := addTime_ofPts (q :: r) dt (increasing_cons.1 h).2
    have e1 : (ofPts (p :: q :: r)).samples =
        ⟨.fin p.1, .fin p.2, .fin ((q.2 - p.2) / (q.1 - p.1))⟩ :: (ofPts (q :: r)).samples :=
      build_lift_cons₂ hpq
    have e2 : (ofPts (shiftPts dt (p :: q :: r))).samples =
        ⟨.fin (p.1 + dt), .fin p.2, .fin ((q.2 - p.2) / (q.1 - p.1))⟩ ::
          (ofPts (shiftPts dt (q :: r))).samples := by
      have := build_lift_cons₂ (p := (p.1 + dt, p.2)) (q := (q.1 + dt, q.2)) (r := shiftPts dt r)
        (by simpa using hpq)
      simpa [ofPts, shiftPts] using this
    have : (ofPts (p :: q :: r)).addTime (.fin dt) =
        ⟨⟨.fin (p.1 + dt), .fin p.2, .fin ((q.2 - p.2) / (q.1 - p.1))⟩ ::
          ((ofPts (q :: r)).addTime (.fin dt)).samples⟩ := by
      simp [Signal.addTime, e1]
    rw [this, ih]
    cases hh : ofPts (shiftPts dt (p :: q :: r)) with
    | mk s => rw [hh] at e2; simp only at e2; rw [e2]

theorem eval_shiftPts : ∀ (pts : List (K × K)) (dt t : K),
    eval (shiftPts dt pts) (t + dt) = eval pts t
  | [], _, _ => rfl
  | [p], _, _ => rfl
  | p :: q :: r, dt, t => by
    have ih := eval_shiftPts (q :: r) dt t
    simp only [shiftPts, List.map_cons] at ih ⊢
    rw [eval, eval, ih]
    simp [line]

theorem dom_shiftPts (pts : List (K × K)) (dt t : K) :
    t + dt ∈ dom (shiftPts dt pts) ↔ t ∈ dom pts := by
  simp only [dom, shiftPts, Set.mem_ofPred_eq, List.mem_map]
  constructor
  · rintro ⟨⟨_, ⟨p, hp, rfl⟩, h1⟩, ⟨_, ⟨q, hq, rfl⟩, h2⟩⟩
    exact ⟨⟨p, hp, by simpa using h1⟩, ⟨q, hq, by simpa using h2⟩⟩
  · rintro ⟨⟨p, hp, h1⟩, ⟨q, hq, h2⟩⟩
    exact ⟨⟨_, ⟨p, hp, rfl⟩, by simpa using h1⟩, ⟨_, ⟨q, hq, rfl⟩, by simpa using h2⟩⟩

/-! ## resize -/

theorem samples_cons (p : K × K) (r : List (K × K)) : ∃ d, (ofPts (p :: r)).samples =
    ⟨.fin p.1, .fin p.2, d⟩ :: (ofPts r).samples := build_cons (lift p) (r.map lift)

theorem samples_cons₂ {p q : K × K} (r : List (K × K)) (h : p.1 < q.1) :
    (ofPts (p :: q :: r)).samples =
      ⟨.fin p.1, .fin p.2, .fin ((q.2 - p.2) / (q.1 - p.1))⟩ :: (ofPts (q :: r)).samples :=
  build_lift_cons₂ h

theorem resizeLoop_nil (a b : D K) (sig : Signal K) (prev : Option (Sample K)) :
    Signal.resizeLoop a b sig prev [] = .ok sig := by simp [Signal.resizeLoop]

/-- The unfolding of the loop of `resize`; `nas` is `std::next(i) != end() && std::next(i)->time > start`. -/
theorem resizeLoop_cons (a b : D K) (sig : Signal K) (prev : Option (Sample K)) (i : Sample K)
    (rest : List (Sample K)) (nas : Bool)
    (h : nas = match rest with | [] => false | n :: _ => a.lt n.time) :
    Signal.resizeLoop a b sig prev (i :: rest) =
      if nas then (sig.pushBack (.mk2 a (i.interpolate a))).bind
        (fun sig' => Signal.resizeLoop a b sig' (some i) rest)
      else if a.le i.time && i.time.le b then (sig.pushBack i).bind
        (fun sig' => Signal.resizeLoop a b sig' (some i) rest)
      else if b.lt i.time then
        match prev with
        | some p =>
          if p.time.lt b then (sig.pushBack (.mk2 b (p.interpolate b))).bind
            (fun sig' => Signal.resizeLoop a b sig' (some i) rest)
          else .ok sig
        | none => .ok sig
      else Signal.resizeLoop a b sig (some i) rest := by
  subst h; rfl

theorem resizeLoop_skip (a b : K) (hab : a < b) (sig : Signal K) (p : K × K) (r : List (K × K))
    (hp : p.1 ≤ a) : ∀ (l : List (K × K)) (prev : Option (Sample K)), Increasing (l ++ p :: r) →
    ∃ prev', Signal.resizeLoop (.fin a) (.fin b) sig prev (ofPts (l ++ p :: r)).samples =
      Signal.resizeLoop (.fin a) (.fin b) sig prev' (ofPts (p :: r)).samples := by
  intro l
  induction l with
  | nil => intro prev _; exact ⟨prev, rfl⟩
  | cons x l ih =>
    intro prev hinc
    obtain ⟨d, hd⟩ := samples_cons x (l ++ p :: r)
    have hxp : x.1 < p.1 := (increasing_cons.1 hinc).1 p (by simp)
    have hnext : ∃ y w, l ++ p :: r = y :: w ∧ y.1 ≤ a := by
      cases l with
      | nil => exact ⟨p, r, rfl, hp⟩
      | cons y l =>
        refine ⟨y, l ++ p :: r, rfl, ?_⟩
        have := (increasing_append.1 hinc).2.2 y (by simp) p (by simp)
        exact this.le.trans hp
    obtain ⟨y, w, hyw, hya⟩ := hnext
    obtain ⟨d', hd'⟩ := samples_cons y w
    obtain ⟨prev', hp'⟩ := ih (some ⟨.fin x.1, .fin x.2, d⟩) (increasing_cons.1 hinc).2
    refine ⟨prev', ?_⟩
    rw [← hp', List.cons_append, hd, hyw, hd', resizeLoop_cons _ _ _ _ _ _ _ rfl]
    have h1 : ¬ a < y.1 := not_lt.2 hya
    have h2 : ¬ a ≤ x.1 := not_le.2 (hxp.trans_le hp)
    have h3 : ¬ b < x.1 := not_lt.2 ((hxp.trans_le hp).trans hab).le
    simp [h1, h2, h3]

theorem resizeLoop_two (a b : K) (hab : a < b) (p q : K × K) (hp : p.1 ≤ a) (hq : a < q.1)
    (prev : Option (Sample K)) :
    Signal.resizeLoop (.fin a) (.fin b) Signal.empty prev (ofPts [p, q]).samples =
      .ok (ofPts [(a, line p q a), if q.1 ≤ b then q else (b, line p q b)]) := by
  have hpq := hp.trans_lt hq
  rw [samples_cons₂ [] hpq]
  have e : (ofPts [q]).samples = [⟨.fin q.1, .fin q.2, 0⟩] := rfl
  have e2 : ∀ v : K, Signal.empty.pushBack (Sample.mk2 (.fin a) (.fin v)) = .ok (ofPts [(a, v)]) := by
    intro v; rfl
  have e3 : (ofPts [(a, line p q a)]).pushBack ⟨.fin q.1, .fin q.2, 0⟩ =
      .ok (ofPts [(a, line p q a), q]) := pushBack_snoc [] (a, line p q a) q 0 hq
  have e4 : (ofPts [(a, line p q a)]).pushBack ⟨.fin b, .fin (line p q b), 0⟩ =
      .ok (ofPts [(a, line p q a), (b, line p q b)]) :=
    pushBack_snoc [] (a, line p q a) (b, line p q b) 0 hab
  rw [e, resizeLoop_cons _ _ _ _ _ _ _ rfl]
  simp only [D.lt_fin, hq, decide_true, if_true, interpolate_fin, ← line_eq, e2, Outcome.bind]
  rw [resizeLoop_cons _ _ _ _ _ _ _ rfl]
  simp only [Bool.false_eq_true, if_false, D.le_fin, hq.le, decide_true, Bool.true_and]
  by_cases hqb : q.1 ≤ b
  · simp only [hqb, decide_true, if_true, e3, Outcome.bind]
    rw [resizeLoop_nil]
  · have hqb' : b < q.1 := not_le.1 hqb
    have hpb : p.1 < b := hp.trans_lt hab
    simp only [hqb, decide_false, Bool.false_eq_true, if_false, D.lt_fin, hqb', hpb, decide_true,
      if_true, interpolate_fin, ← line_eq, Sample.mk2, D.zero_def]
    rw [D.zero_def] at e4
    rw [e4, Outcome.bind, resizeLoop_nil]

theorem pushBack_throw (l : List (K × K)) (p : K × K) (x : Sample K) (t : K) (ht : x.time = .fin t)
    (h : t ≤ p.1) : (ofPts (l ++ [p])).pushBack x = .throw .invalidArgument := by
  rw [ofPts, pushBack_build, if_neg]
  intro hc
  have := hc (lift p) (by simp)
  rw [ht] at this
  simp [lift] at this
  exact absurd h (not_le.2 this)

theorem resizeLoop_again (a b v : K) (q r : K × K) (rest : List (K × K)) (hqr : q.1 < r.1)
    (hr : a < r.1) (prev : Option (Sample K)) :
    Signal.resizeLoop (.fin a) (.fin b) (ofPts [(a, v)]) prev (ofPts (q :: r :: rest)).samples =
      .throw .invalidArgument := by
  rw [samples_cons₂ rest hqr]
  obtain ⟨d, hd⟩ := samples_cons r rest
  rw [hd, resizeLoop_cons _ _ _ _ _ _ _ rfl]
  simp only [D.lt_fin, hr, decide_true, if_true]
  rw [show ofPts [(a, v)] = ofPts ([] ++ [(a, v)]) from rfl, pushBack_throw [] (a, v) _ a rfl (le_refl a)]
  rfl

theorem resizeLoop_throw (a b : K) (p q r : K × K) (rest : List (K × K)) (hp : p.1 ≤ a)
    (hq : a < q.1) (hqr : q.1 < r.1) (prev : Option (Sample K)) :
    Signal.resizeLoop (.fin a) (.fin b) Signal.empty prev (ofPts (p :: q :: r :: rest)).samples =
      .throw .invalidArgument := by
  have hpq := hp.trans_lt hq
  obtain ⟨d, hd⟩ := samples_cons q (r :: rest)
  have e2 : ∀ v : K, Signal.empty.pushBack (Sample.mk2 (.fin a) (.fin v)) = .ok (ofPts [(a, v)]) := by
    intro v; rfl
  have := resizeLoop_again a b (line p q a) q r rest hqr (hq.trans hqr)
    (some ⟨.fin p.1, .fin p.2, .fin ((q.2 - p.2) / (q.1 - p.1))⟩)
  rw [hd] at this
  rw [samples_cons₂ _ hpq, hd, resizeLoop_cons _ _ _ _ _ _ _ rfl]
  simp only [D.lt_fin, hq, decide_true, if_true, interpolate_fin, ← line_eq, e2, Outcome.bind]
  exact this

theorem beginTime_le {l : List (K × K)} {p : K × K} {r : List (K × K)} {a : K}
    (hinc : Increasing (l ++ p :: r)) (hp : p.1 ≤ a) :
    D.lt (.fin a) (ofPts (l ++ p :: r)).beginTime = false := by
  cases l with
  | nil => rw [List.nil_append, ofPts_beginTime, D.lt_fin]; simpa using hp
  | cons x l =>
    have := (increasing_append.1 hinc).2.2 x (by simp) p (by simp)
    rw [List.cons_append, ofPts_beginTime, D.lt_fin]; simpa using this.le.trans hp

end Verif
