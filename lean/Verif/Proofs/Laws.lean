import Verif.Proofs.Crossing
import Verif.Props.Temporal
import Verif.Props.Boolean

/-!
# Points of Eventually, Always, And and Or
-/

set_option linter.unusedSectionVars false

namespace Verif
open Spec

section exact
variable {K : Type} [Field K] [LinearOrder K] [IsStrictOrderedRing K] [Arith K] [ExactArith K]

theorem inRange_of_dom {zs : List (K × K)} (hz : Increasing zs) {t : K} (h : t ∈ dom zs) :
    InRange (.fin t) (ofPts zs) := by
  constructor
  · cases zs with
    | nil => simp [dom] at h
    | cons p r => rw [ofPts_beginTime]; simpa using ((dom_cons hz).1 h).1
  · rcases List.eq_nil_or_concat zs with rfl | ⟨l, a, rfl⟩
    · simp [dom] at h
    · rw [List.concat_eq_append] at *
      rw [ofPts_endTime]
      obtain ⟨-, q, hq, hq'⟩ := h
      rcases List.mem_append.1 hq with hm | hm
      · have := (increasing_append.1 hz).2.2 q hm a (by simp)
        simpa using hq'.trans this.le
      · rw [List.mem_singleton.1 hm] at hq'; simpa using hq'

theorem pair_kept {nd : Bool} {comp : Cmp K} {xs ys zs : List (K × K)} (hx : Increasing xs)
    (hy : Increasing ys) (hz : Increasing zs)
    (h : minmaxPair nd comp (ofPts xs) (ofPts ys) false = .ok (ofPts zs)) :
    (∀ t ∈ xs.map Prod.fst, t ∈ dom zs → t ∈ zs.map Prod.fst) ∧
    (∀ t ∈ ys.map Prod.fst, t ∈ dom zs → t ∈ zs.map Prod.fst) := by
  obtain ⟨k1, k2, -⟩ := pair_keeps (finT_ofPts hx) (finT_ofPts hy) h
  have mem : ∀ (l : List (K × K)) t, D.fin t ∈ times (ofPts l) ↔ t ∈ l.map Prod.fst := by
    intro l t
    unfold times
    rw [ofPts_times]
    simp [D.fin.injEq]
  exact ⟨fun t ht hd => (mem _ _).1 (k1.2 _ ((mem _ _).2 ht) (inRange_of_dom hz hd)),
    fun t ht hd => (mem _ _).1 (k2.2 _ ((mem _ _).2 ht) (inRange_of_dom hz hd))⟩

/-- A function with all its breakpoints among the samples of another one is below it if it is below it at
the samples. -/
theorem le_of_samples {as zs : List (K × K)} (ha : Increasing as) (hz : Increasing zs)
    (hd : ∀ t ∈ dom zs, t ∈ dom as) (hk : ∀ t ∈ as.map Prod.fst, t ∈ dom zs → t ∈ zs.map Prod.fst)
    (hle : ∀ p ∈ zs, eval as p.1 ≤ p.2) {t : K} (ht : t ∈ dom zs) : eval as t ≤ eval zs t := by
  have hts : (zs.map Prod.fst).Pairwise (· < ·) := hz
  have hdom : ∀ s, s ∈ dom (sampleAt (eval as) (zs.map Prod.fst)) ↔ s ∈ dom zs := by
    intro s; rw [mem_dom_sampleAt]; simp [dom]
  have e := eval_sampleAt ha hts (fun a h => hd a (mem_dom_of_mem h))
    (fun p hp hp' => hk p.1 (List.mem_map_of_mem hp) ((hdom _).1 hp')) ((hdom t).2 ht)
  rw [← e]
  refine eval_mono (by simp [sampleAt, Function.comp_def]) ?_ ((increasing_sampleAt _ _).2 hts) ((hdom t).2 ht)
  have : ∀ l : List (K × K), (∀ p ∈ l, eval as p.1 ≤ p.2) →
      List.Forall₂ (fun p q : K × K => p.2 ≤ q.2) (sampleAt (eval as) (l.map Prod.fst)) l := by
    intro l
    induction l with
    | nil => intro _; exact .nil
    | cons p l ih => intro h; exact .cons (h p (by simp)) (ih fun q hq => h q (by simp [hq]))
  exact this zs hle

theorem sufPts_min_isLeast {xs : List (K × K)} (h : Increasing xs) {p : K × K} (hp : p ∈ sufPts min xs) :
    IsLeast {w | ∃ s ∈ dom xs, p.1 ≤ s ∧ w = eval xs s} p.2 := by
  rw [sufPts_min] at hp
  obtain ⟨q, hq, rfl⟩ := List.mem_map.1 hp
  obtain ⟨⟨s, h1, h2, h3⟩, h4⟩ := sufPts_max_isGreatest (increasing_negPts.2 h) hq
  refine ⟨⟨s, by rwa [dom_negPts] at h1, h2, ?_⟩, ?_⟩
  · simp only [h3, eval_negPts, neg_neg]
  · rintro w ⟨s, h5, h6, rfl⟩
    have := h4 ⟨s, by rwa [dom_negPts], h6, (eval_negPts _ _).symm⟩
    exact neg_le.1 this

theorem sufPts_min_bound {xs : List (K × K)} (h : Increasing xs) {s t : K} (hs : s ∈ dom xs)
    (ht : t ∈ dom xs) (hst : s ≤ t) : eval (sufPts min xs) s ≤ eval xs t := by
  have := sufPts_max_bound (increasing_negPts.2 h) (by rwa [dom_negPts]) (by rwa [dom_negPts]) hst
  rw [eval_negPts] at this
  rw [sufPts_min, eval_negPts]
  exact neg_le.1 this
theorem startsAt_sufPts {op : K → K → K} {t0 : K} {xs : List (K × K)} (h : StartsAt t0 xs) : StartsAt t0 (sufPts op xs) := by
  obtain ⟨v, r, rfl⟩ := h
  have := sufPts_fst op ((t0, v) :: r)
  rw [List.map_cons] at this
  obtain ⟨p, l, e, e1, -⟩ := List.map_eq_cons_iff.1 this
  simp only at e1
  exact ⟨p.2, l, by rw [e, ← e1]⟩

/-- A conjunction and a disjunction of signals with a common start. -/
theorem pair_at {nd : Bool} {fuel : Nat} {trace : Trace K} {sy : Bool} {t0 : K} {phi psi : Expr K}
    {x y : Signal K} {xs ys : List (K × K)}
    (h1 : computeRobustness nd fuel phi trace sy = .ok x) (hx : Represents x xs) (sx : StartsAt t0 xs)
    (h2 : computeRobustness nd fuel psi trace sy = .ok y) (hy : Represents y ys) (sy' : StartsAt t0 ys) :
    (∃ zs, computeRobustness nd fuel (.and [phi, psi]) trace sy = .ok (ofPts zs) ∧ Increasing zs ∧ zs ≠ [] ∧
      (∀ t, t ∈ dom zs ↔ t ∈ dom xs ∧ t ∈ dom ys) ∧
      (∀ t ∈ dom zs, eval zs t = min (eval xs t) (eval ys t)) ∧
      (∀ t ∈ xs.map Prod.fst, t ∈ dom zs → t ∈ zs.map Prod.fst) ∧
      (∀ t ∈ ys.map Prod.fst, t ∈ dom zs → t ∈ zs.map Prod.fst)) ∧
    (∃ zs, computeRobustness nd fuel (.or [phi, psi]) trace sy = .ok (ofPts zs) ∧ Increasing zs ∧ zs ≠ [] ∧
      (∀ t, t ∈ dom zs ↔ t ∈ dom xs ∧ t ∈ dom ys) ∧
      (∀ t ∈ dom zs, eval zs t = max (eval xs t) (eval ys t)) ∧
      (∀ t ∈ xs.map Prod.fst, t ∈ dom zs → t ∈ zs.map Prod.fst) ∧
      (∀ t ∈ ys.map Prod.fst, t ∈ dom zs → t ∈ zs.map Prod.fst)) := by
  obtain ⟨ix, rfl⟩ := (represents_iff _ _).1 hx
  obtain ⟨iy, rfl⟩ := (represents_iff _ _).1 hy
  have hb : ∀ t, t ∈ dom xs ∧ t ∈ dom ys → t0 ≤ t := fun t ht => sx.le ix ht.1
  have hne : ∀ zs : List (K × K), (∀ t, t ∈ dom zs ↔ t ∈ dom xs ∧ t ∈ dom ys) → zs ≠ [] := by
    rintro zs hd rfl
    have := (hd t0).2 ⟨mem_dom_of_mem sx.mem, mem_dom_of_mem sy'.mem⟩
    simp [dom] at this
  unfold computeRobustness at h1 h2 ⊢
  constructor
  · obtain ⟨zs, e, iz, hd, hv⟩ := minmaxPair_le_fin nd ix iy t0 sx.mem sy'.mem hb
    obtain ⟨k1, k2⟩ := pair_kept ix iy iz e
    exact ⟨zs, by rw [compute_and_pair h1 h2]; exact e, iz, hne zs hd, hd, hv, k1, k2⟩
  · obtain ⟨zs, e, iz, hd, hv⟩ := minmaxPair_ge_fin nd ix iy t0 sx.mem sy'.mem hb
    obtain ⟨k1, k2⟩ := pair_kept ix iy iz e
    exact ⟨zs, by rw [compute_or_pair h1 h2]; exact e, iz, hne zs hd, hd, hv, k1, k2⟩

end exact
end Verif
