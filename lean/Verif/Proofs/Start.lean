import Verif.Proofs.Temporal
import Verif.Proofs.Neg
import Verif.Proofs.Semantics

/-!
# Running extrema of functions that agree with a signal at its samples
-/

namespace Verif
open Spec

theorem sufPts_max_witness {pts : List (ℝ × ℝ)} (h : Increasing pts) {z : ℝ × ℝ}
    (hz : z ∈ sufPts max pts) : ∃ q ∈ pts, z.1 ≤ q.1 ∧ z.2 = q.2 := by
  induction pts with
  | nil => simp [sufPts] at hz
  | cons p r ih =>
    rw [sufPts_max_cons] at hz
    rcases List.mem_cons.1 hz with rfl | hz
    · obtain ⟨q, hq, e⟩ := sufMax_mem (pts := p :: r) (by simp)
      refine ⟨q, hq, ?_, e⟩
      rcases List.mem_cons.1 hq with rfl | hq
      · exact le_rfl
      · exact ((increasing_cons.1 h).1 q hq).le
    · obtain ⟨q, hq, h1, h2⟩ := ih (increasing_cons.1 h).2 hz
      exact ⟨q, by simp [hq], h1, h2⟩

/-- The function `f` has the values of the signal at the samples and is the signal or is monotone. -/
def Agrees (zs : List (ℝ × ℝ)) (f : ℝ → EReal) : Prop :=
  (∀ p ∈ zs, (p.2 : EReal) = f p.1) ∧
    ((∀ t ∈ dom zs, ((eval zs t : ℝ) : EReal) = f t) ∨ AntitoneOn f (dom zs) ∨ MonotoneOn f (dom zs))

theorem Agrees.neg {zs : List (ℝ × ℝ)} {f : ℝ → EReal} (h : Agrees zs f) :
    Agrees (negPts zs) (fun t => - f t) := by
  refine ⟨?_, ?_⟩
  · intro p hp
    obtain ⟨q, hq, rfl⟩ := List.mem_map.1 hp
    simp only [EReal.coe_neg]
    rw [h.1 q hq]
  · rw [dom_negPts]
    rcases h.2 with h | h | h
    · left; intro t ht; rw [eval_negPts, EReal.coe_neg, h t ht]
    · right; right; intro a ha b hb hab; exact EReal.neg_le_neg_iff.2 (h ha hb hab)
    · right; left; intro a ha b hb hab; exact EReal.neg_le_neg_iff.2 (h ha hb hab)

theorem Agrees.sup {zs : List (ℝ × ℝ)} {f : ℝ → EReal} {t0 T : ℝ} (h : Agrees zs f)
    (hinc : Increasing zs) (hd : dom zs = Set.Icc t0 T) :
    Agrees (sufPts max zs) (fun t => ⨆ t' ∈ Set.Icc t T, f t') := by
  constructor
  · intro p hp
    obtain ⟨q, hq, hpq, hv⟩ := sufPts_max_witness hinc hp
    have hg := sufPts_max_isGreatest hinc hp
    have hub : ∀ q ∈ zs, p.1 ≤ q.1 → (f q.1 : EReal) ≤ p.2 := by
      intro q hq hpq
      rw [← h.1 q hq, EReal.coe_le_coe_iff]
      exact hg.2 ⟨q.1, mem_dom_of_mem' hq, hpq, (eval_mem hinc hq).symm⟩
    have hpd : p.1 ∈ Set.Icc t0 T := by
      rw [← hd, ← dom_sufPts max]; exact mem_dom_of_mem' hp
    have hmem : ∃ q ∈ zs, q.1 = p.1 := by
      have : p.1 ∈ zs.map Prod.fst := by rw [← sufPts_fst max]; exact List.mem_map_of_mem hp
      simpa using this
    have hlast : ∃ q ∈ zs, q.1 = T := by
      have hT : T ∈ dom zs := by rw [hd]; exact ⟨hpd.1.trans hpd.2, le_rfl⟩
      obtain ⟨q, hq, hTq⟩ := hT.2
      have := mem_dom_of_mem' hq
      rw [hd] at this
      exact ⟨q, hq, le_antisymm this.2 hTq⟩
    apply le_antisymm
    · rw [hv, h.1 q hq]
      have := mem_dom_of_mem' hq
      rw [hd] at this
      exact le_iSup₂ (f := fun t' _ => f t') q.1 ⟨hpq, this.2⟩
    · refine iSup₂_le fun t' ht' => ?_
      have htd : t' ∈ dom zs := by rw [hd]; exact ⟨hpd.1.trans ht'.1, ht'.2⟩
      rcases h.2 with he | he | he
      · rw [← he t' htd, EReal.coe_le_coe_iff]
        exact hg.2 ⟨t', htd, ht'.1, rfl⟩
      · obtain ⟨q, hq, e⟩ := hmem
        exact (he (hd ▸ hpd) htd ht'.1).trans (e ▸ hub q hq e.ge)
      · obtain ⟨q, hq, e⟩ := hlast
        exact (he htd (by rw [hd]; exact ⟨hpd.1.trans hpd.2, le_rfl⟩) ht'.2).trans
          (e ▸ hub q hq (e.symm ▸ hpd.2))
  · right; left
    intro a _ b _ hab
    exact iSup₂_le fun t' ht' => le_iSup₂ (f := fun t' _ => f t') t' ⟨hab.trans ht'.1, ht'.2⟩

theorem neg_iSup₂ (f : ℝ → EReal) (s : Set ℝ) : - (⨆ t ∈ s, f t) = ⨅ t ∈ s, - f t := by
  apply le_antisymm
  · exact le_iInf₂ fun t ht => EReal.neg_le_neg_iff.2 (le_iSup₂ (f := fun t _ => f t) t ht)
  · rw [EReal.le_neg]
    refine iSup₂_le fun t ht => ?_
    rw [EReal.le_neg]
    exact iInf₂_le (f := fun t _ => - f t) t ht

theorem Agrees.inf {zs : List (ℝ × ℝ)} {f : ℝ → EReal} {t0 T : ℝ} (h : Agrees zs f)
    (hinc : Increasing zs) (hd : dom zs = Set.Icc t0 T) :
    Agrees (sufPts min zs) (fun t => ⨅ t' ∈ Set.Icc t T, f t') := by
  have := (h.neg.sup (increasing_negPts.2 hinc) (by rwa [dom_negPts])).neg
  rw [sufPts_min]
  convert this using 2 with t
  rw [neg_iSup₂]
  simp only [neg_neg]

/-- The window of `[0, inf)`. -/
theorem window_default (T t : ℝ) : window T ⟨.dbl 0, .dbl .pinf⟩ t = Set.Icc t T := by
  ext t'
  simp only [window, Interval.asDouble, Interval.numAsDouble, Set.mem_ofPred_eq, Set.mem_Icc]
  have h1 : ((0 : D ℝ).le (.fin (t' - t)) = true) ↔ t ≤ t' := by
    simp [D.zero_def]
  have h2 : (D.fin (t' - t)).le .pinf = true := by simp [D.le, D.lt]
  rw [h1, h2]; simp

end Verif
