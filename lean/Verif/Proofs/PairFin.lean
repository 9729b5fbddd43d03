import Verif.Proofs.Neg
import Verif.Proofs.MinMaxFin

/-! # Pairwise and n-ary minimum/maximum of finite signals -/

set_option linter.unusedSectionVars false

namespace Verif
open Spec

variable {K : Type} [Field K] [LinearOrder K] [IsStrictOrderedRing K] [Arith K] [ExactArith K]

/-- Points with negated values. -/
def negPts (pts : List (K × K)) : List (K × K) := pts.map fun p => (p.1, -p.2)

theorem increasing_negPts {pts : List (K × K)} : Increasing (negPts pts) ↔ Increasing pts := by
  simp [Increasing, negPts, Function.comp_def]

theorem dom_negPts (pts : List (K × K)) : dom (negPts pts) = dom pts := dom_map_snd pts fun p => -p.2

theorem eval_negPts (pts : List (K × K)) (t : K) : eval (negPts pts) t = -eval pts t := eval_neg pts t

theorem negPts_times (pts : List (K × K)) : (negPts pts).map Prod.fst = pts.map Prod.fst := by
  simp [negPts, Function.comp_def]

theorem negPts_negPts (pts : List (K × K)) : negPts (negPts pts) = pts := by
  simp [negPts, Function.comp_def]

theorem represents_ofPts {pts : List (K × K)} (h : Increasing pts) : Represents (ofPts pts) pts :=
  (represents_iff _ _).2 ⟨h, rfl⟩

theorem negSig_ofPts {pts : List (K × K)} (h : Increasing pts) :
    negSig (ofPts pts) = ofPts (negPts pts) := by
  refine wf_ext (wf_negSig (represents_ofPts h).1) (represents_ofPts (increasing_negPts.2 h)).1 ?_
  rw [(represents_ofPts (increasing_negPts.2 h)).2]
  have : (negSig (ofPts pts)).samples.map tv = ((ofPts pts).samples.map tv).map fun p => (p.1, -p.2) := by
    simp [negSig, tv, Sample.neg, Function.comp_def]
  rw [this, (represents_ofPts h).2]
  simp [negPts, lift]

theorem finT_ofPts {pts : List (K × K)} (h : Increasing pts) : FinT (ofPts pts) := by
  refine ⟨(represents_ofPts h).1, ?_⟩
  rw [finTimes_iff, ofPts_times]
  intro t ht
  obtain ⟨p, -, rfl⟩ := List.mem_map.1 ht
  exact ⟨p.1, rfl⟩

/-- The pairwise minimum when both signals have a sample at the begin of the overlap. -/
theorem minmaxPair_le_fin (nd : Bool) {xs ys : List (K × K)} (hx : Increasing xs) (hy : Increasing ys)
    (b : K) (hbx : b ∈ xs.map Prod.fst) (hby : b ∈ ys.map Prod.fst)
    (hmx : ∀ t, t ∈ dom xs ∧ t ∈ dom ys → b ≤ t) :
    ∃ zs, minmaxPair nd Sample.le (ofPts xs) (ofPts ys) false = .ok (ofPts zs) ∧ Increasing zs ∧
      (∀ t, t ∈ dom zs ↔ t ∈ dom xs ∧ t ∈ dom ys) ∧
      (∀ t, t ∈ dom zs → eval zs t = min (eval xs t) (eval ys t)) := by
  obtain ⟨ts, h1, -, h3, -, h5, h6, h7⟩ := sync_fin_iff hx hy b hbx hby hmx
  obtain ⟨zs, e, hz, hd, hv⟩ := minmaxPairLoop_le_fin (eval xs) (eval ys) ts h1
  refine ⟨zs, ?_, hz, fun t => (hd t).trans (h5 _ t), fun t ht => ?_⟩
  · rw [minmaxPair_finT nd _ (finT_ofPts hx) (finT_ofPts hy), h3]; exact e
  · have hd' := (hd t).1 ht
    rw [hv t hd', h6 t ((h5 _ t).1 hd'), h7 t ((h5 _ t).1 hd')]

theorem minmaxPair_ge_fin (nd : Bool) {xs ys : List (K × K)} (hx : Increasing xs) (hy : Increasing ys)
    (b : K) (hbx : b ∈ xs.map Prod.fst) (hby : b ∈ ys.map Prod.fst)
    (hmx : ∀ t, t ∈ dom xs ∧ t ∈ dom ys → b ≤ t) :
    ∃ zs, minmaxPair nd Sample.ge (ofPts xs) (ofPts ys) false = .ok (ofPts zs) ∧ Increasing zs ∧
      (∀ t, t ∈ dom zs ↔ t ∈ dom xs ∧ t ∈ dom ys) ∧
      (∀ t, t ∈ dom zs → eval zs t = max (eval xs t) (eval ys t)) := by
  obtain ⟨zs, e, hz, hd, hv⟩ := minmaxPair_le_fin nd (increasing_negPts.2 hx) (increasing_negPts.2 hy) b
    (by rwa [negPts_times]) (by rwa [negPts_times])
    (by intro t; rw [dom_negPts, dom_negPts]; exact hmx t)
  refine ⟨negPts zs, ?_, increasing_negPts.2 hz, ?_, ?_⟩
  · have := minmaxPair_neg_ge nd (finT_ofPts (increasing_negPts.2 hx))
      (finT_ofPts (increasing_negPts.2 hy))
    rw [negSig_ofPts (increasing_negPts.2 hx), negSig_ofPts (increasing_negPts.2 hy),
      negPts_negPts, negPts_negPts, e] at this
    rw [this, Outcome.map'_ok, negSig_ofPts hz]
  · intro t; rw [dom_negPts, hd, dom_negPts, dom_negPts]
  · intro t ht
    rw [dom_negPts] at ht
    rw [eval_negPts, hv t ht, eval_negPts, eval_negPts]
    rcases le_total (eval xs t) (eval ys t) with h | h
    · rw [max_eq_right h, min_eq_right (neg_le_neg h), neg_neg]
    · rw [max_eq_left h, min_eq_left (neg_le_neg h), neg_neg]

/-- Success implies the common sample. -/
theorem minmaxPair_ok_common {nd : Bool} {comp : Cmp K} {xs ys : List (K × K)} (hx : Increasing xs)
    (hy : Increasing ys) {z : Signal K} (h : minmaxPair nd comp (ofPts xs) (ofPts ys) false = .ok z) :
    ∃ b, b ∈ xs.map Prod.fst ∧ b ∈ ys.map Prod.fst ∧ (∀ t, t ∈ dom xs ∧ t ∈ dom ys → b ≤ t) := by
  rw [minmaxPair_finT nd _ (finT_ofPts hx) (finT_ofPts hy)] at h
  simp only [Outcome.bind_eq_ok] at h
  obtain ⟨r, h1, -⟩ := h
  exact sync_fin_ok hx hy h1

/-! ### n-ary, for signals that start at the same time -/

/-- The points start at time `t0`. -/
def StartsAt (t0 : K) (pts : List (K × K)) : Prop := ∃ v r, pts = (t0, v) :: r

theorem StartsAt.mem {t0 : K} {pts : List (K × K)} (h : StartsAt t0 pts) : t0 ∈ pts.map Prod.fst := by
  obtain ⟨v, r, rfl⟩ := h; simp

theorem StartsAt.le {t0 : K} {pts : List (K × K)} (h : StartsAt t0 pts) (hi : Increasing pts) {t : K}
    (ht : t ∈ dom pts) : t0 ≤ t := by
  obtain ⟨v, r, rfl⟩ := h; exact ((dom_cons hi).1 ht).1

theorem startsAt_of_dom {t0 : K} {zs : List (K × K)} (hz : Increasing zs) (h0 : t0 ∈ dom zs)
    (hle : ∀ t ∈ dom zs, t0 ≤ t) : StartsAt t0 zs := by
  cases zs with
  | nil => simp [dom] at h0
  | cons p r =>
    have h1 := ((dom_cons hz).1 h0).1
    have h2 := hle p.1 mem_dom_head
    refine ⟨p.2, r, ?_⟩
    rw [le_antisymm h2 h1]

/-- The specification of the pairwise operations: `op` is `min` or `max`. -/
def PairOp (nd : Bool) (comp : Cmp K) (op : K → K → K) : Prop :=
  ∀ {xs ys : List (K × K)}, Increasing xs → Increasing ys → ∀ b : K, b ∈ xs.map Prod.fst →
    b ∈ ys.map Prod.fst → (∀ t, t ∈ dom xs ∧ t ∈ dom ys → b ≤ t) →
    ∃ zs, minmaxPair nd comp (ofPts xs) (ofPts ys) false = .ok (ofPts zs) ∧ Increasing zs ∧
      (∀ t, t ∈ dom zs ↔ t ∈ dom xs ∧ t ∈ dom ys) ∧
      (∀ t, t ∈ dom zs → eval zs t = op (eval xs t) (eval ys t))

theorem pairOp_le (nd : Bool) : PairOp (K := K) nd Sample.le min :=
  fun hx hy => minmaxPair_le_fin nd hx hy
theorem pairOp_ge (nd : Bool) : PairOp (K := K) nd Sample.ge max :=
  fun hx hy => minmaxPair_ge_fin nd hx hy

theorem minmaxFold_fin {nd : Bool} {comp : Cmp K} {op : K → K → K} (hop : PairOp nd comp op) (t0 : K) :
    ∀ (ls : List (List (K × K))) (xs : List (K × K)),
      Increasing xs → StartsAt t0 xs → (∀ l ∈ ls, Increasing l ∧ StartsAt t0 l) →
      ∃ zs, minmaxFold nd comp false (ofPts xs) (ls.map ofPts) = .ok (ofPts zs) ∧ Increasing zs ∧
        StartsAt t0 zs ∧ (∀ t, t ∈ dom zs ↔ ∀ l ∈ xs :: ls, t ∈ dom l) ∧
        (∀ t, t ∈ dom zs → eval zs t = ls.foldl (fun v l => op v (eval l t)) (eval xs t)) := by
  intro ls
  induction ls with
  | nil =>
    intro xs hx hs _
    exact ⟨xs, rfl, hx, hs, by simp, fun t _ => rfl⟩
  | cons l ls ih =>
    intro xs hx hs hl
    obtain ⟨hl1, hl2⟩ := hl l (by simp)
    obtain ⟨ys, e, hy, hd, hv⟩ := hop hx hl1 t0 hs.mem hl2.mem (fun t ht => hs.le hx ht.1)
    have hsy : StartsAt t0 ys := startsAt_of_dom hy
      ((hd t0).2 ⟨mem_dom_of_mem hs.mem, mem_dom_of_mem hl2.mem⟩)
      (fun t ht => hs.le hx ((hd t).1 ht).1)
    obtain ⟨zs, e2, hz, hsz, hd2, hv2⟩ := ih ys hy hsy (fun l' h' => hl l' (by simp [h']))
    refine ⟨zs, ?_, hz, hsz, ?_, ?_⟩
    · rw [List.map_cons, minmaxFold, e]; exact e2
    · intro t
      rw [hd2]
      simp only [List.mem_cons, forall_eq_or_imp, hd, and_assoc]
    · intro t ht
      have hty : t ∈ dom ys := (hd2 t).1 ht ys (by simp)
      rw [hv2 t ht, hv t hty]; rfl

theorem minmaxVec_fin {nd : Bool} {comp : Cmp K} {op : K → K → K} (hop : PairOp nd comp op) (t0 : K)
    (ls : List (List (K × K))) (xs : List (K × K))
    (hl : ∀ l ∈ xs :: ls, Increasing l ∧ StartsAt t0 l) :
      ∃ zs, minmaxVec nd comp ((xs :: ls).map ofPts) false = .ok (ofPts zs) ∧ Increasing zs ∧
        StartsAt t0 zs ∧ (∀ t, t ∈ dom zs ↔ ∀ l ∈ xs :: ls, t ∈ dom l) ∧
        (∀ t, t ∈ dom zs → eval zs t = ls.foldl (fun v l => op v (eval l t)) (eval xs t)) := by
  obtain ⟨zs, e, h⟩ := minmaxFold_fin hop t0 ls xs (hl xs (by simp)).1 (hl xs (by simp)).2
    (fun l h => hl l (by simp [h]))
  refine ⟨zs, ?_, h⟩
  rw [← e]
  cases ls with
  | nil => rfl
  | cons l1 ls =>
    cases ls with
    | nil =>
      simp only [List.map_cons, List.map_nil, minmaxVec, minmaxFold]
      cases minmaxPair nd comp (ofPts xs) (ofPts l1) false <;> rfl
    | cons l2 ls => rfl

theorem foldl_min_isLeast (f : List (K × K) → K) : ∀ (ls : List (List (K × K))) (a : K),
    IsLeast {v | v = a ∨ ∃ l ∈ ls, f l = v} (ls.foldl (fun v l => min v (f l)) a) := by
  intro ls
  induction ls with
  | nil => intro a; exact ⟨.inl rfl, by rintro v (rfl | ⟨l, h, -⟩); exacts [le_rfl, by simp at h]⟩
  | cons l ls ih =>
    intro a
    obtain ⟨h1, h2⟩ := ih (min a (f l))
    refine ⟨?_, ?_⟩
    · rw [List.foldl_cons]
      rcases h1 with h1 | ⟨l', hl', h1⟩
      · rw [h1]
        rcases min_choice a (f l) with h | h
        · exact .inl h
        · exact .inr ⟨l, by simp, h.symm⟩
      · exact .inr ⟨l', by simp [hl'], h1⟩
    · have hm := h2 (a := min a (f l)) (.inl rfl)
      rintro v (rfl | ⟨l', hl', rfl⟩)
      · exact hm.trans (min_le_left _ _)
      · rcases List.mem_cons.1 hl' with rfl | hl'
        · exact hm.trans (min_le_right _ _)
        · exact h2 (.inr ⟨l', hl', rfl⟩)

theorem foldl_max_isGreatest (f : List (K × K) → K) : ∀ (ls : List (List (K × K))) (a : K),
    IsGreatest {v | v = a ∨ ∃ l ∈ ls, f l = v} (ls.foldl (fun v l => max v (f l)) a) := by
  intro ls
  induction ls with
  | nil => intro a; exact ⟨.inl rfl, by rintro v (rfl | ⟨l, h, -⟩); exacts [le_rfl, by simp at h]⟩
  | cons l ls ih =>
    intro a
    obtain ⟨h1, h2⟩ := ih (max a (f l))
    refine ⟨?_, ?_⟩
    · rw [List.foldl_cons]
      rcases h1 with h1 | ⟨l', hl', h1⟩
      · rw [h1]
        rcases max_choice a (f l) with h | h
        · exact .inl h
        · exact .inr ⟨l, by simp, h.symm⟩
      · exact .inr ⟨l', by simp [hl'], h1⟩
    · have hm := h2 (a := max a (f l)) (.inl rfl)
      rintro v (rfl | ⟨l', hl', rfl⟩)
      · exact (le_max_left _ _).trans hm
      · rcases List.mem_cons.1 hl' with rfl | hl'
        · exact (le_max_right _ _).trans hm
        · exact h2 (.inr ⟨l', hl', rfl⟩)

end Verif
