import Verif.Spec.Semantics
import Verif.Proofs.Num

/-!
# Facts about the dense-time semantics
-/

namespace Verif
open Spec

namespace Spec

theorem holds_of_margin (op : ComparisonOp) (v : ℝ) (c : D ℝ) :
    (0 < margin op v c → holds op v c) ∧ (margin op v c < 0 → ¬ holds op v c) := by
  cases c with
  | fin c =>
    have e0 : (0 : EReal) = ((0 : ℝ) : EReal) := rfl
    have hle : ∀ a b : ℝ, ((D.fin a).le (.fin b) = true) = (a ≤ b) := by
      intro a b; simp [D.le, D.lt, D.eq, le_iff_lt_or_eq]
    cases op <;> simp only [margin, holds, hle, D.lt, e0, EReal.coe_lt_coe_iff, decide_eq_true_eq] <;>
      constructor <;> intro h <;> linarith
  | pinf => cases op <;> simp [margin, holds, D.le, D.lt, D.eq]
  | ninf => cases op <;> simp [margin, holds, D.le, D.lt, D.eq]
  | nan => cases op <;> simp [margin, holds, D.le, D.lt, D.eq]

mutual
theorem rob_sat (T : ℝ) (x : String → ℝ → ℝ) : ∀ (e : Expr ℝ) (t : ℝ),
    (0 < rob T x e t → Sat T x e t) ∧ (rob T x e t < 0 → ¬ Sat T x e t)
  | .const b, t => by cases b <;> simp [rob, Sat]
  | .pred n op c, t => by simp only [rob, Sat]; exact holds_of_margin _ _ _
  | .not e, t => by
    have ih := rob_sat T x e t
    simp only [rob, Sat, not_not]
    refine ⟨fun h => ih.2 ?_, fun h => ih.1 ?_⟩
    · rw [EReal.lt_neg_comm] at h; simpa using h
    · rw [EReal.neg_lt_comm] at h; simpa using h
  | .and args, t => by simp only [rob, Sat]; exact robAll_sat T x args t
  | .or args, t => by simp only [rob, Sat]; exact robAny_sat T x args t
  | .always e i, t => by
    simp only [rob, Sat]
    refine ⟨fun h t' ht' => (rob_sat T x e t').1 (h.trans_le (iInf₂_le t' ht')), fun h => ?_⟩
    rw [iInf_lt_iff] at h
    obtain ⟨t', h⟩ := h
    rw [iInf_lt_iff] at h
    obtain ⟨ht', h⟩ := h
    exact fun hs => (rob_sat T x e t').2 h (hs t' ht')
  | .eventually e i, t => by
    simp only [rob, Sat]
    refine ⟨fun h => ?_, ?_⟩
    · rw [lt_iSup_iff] at h
      obtain ⟨t', h⟩ := h
      rw [lt_iSup_iff] at h
      obtain ⟨ht', h⟩ := h
      exact ⟨t', ht', (rob_sat T x e t').1 h⟩
    · rintro h ⟨t', ht', hs⟩
      exact (rob_sat T x e t').2 ((le_iSup₂ (f := fun t' _ => rob T x e t') t' ht').trans_lt h) hs
  | .untl e e' i, t => by
    simp only [rob, Sat]
    refine ⟨fun h => ?_, ?_⟩
    · rw [lt_iSup_iff] at h
      obtain ⟨t', h⟩ := h
      rw [lt_iSup_iff] at h
      obtain ⟨ht', h⟩ := h
      rw [lt_inf_iff] at h
      exact ⟨t', ht', (rob_sat T x e' t').1 h.1, fun u hu =>
        (rob_sat T x e u).1 (h.2.trans_le (iInf₂_le u hu))⟩
    · rintro h ⟨t', ht', hs, hu⟩
      have h := (le_iSup₂ (f := fun t' _ => rob T x e' t' ⊓ ⨅ u ∈ Set.Icc t t', rob T x e u) t' ht').trans_lt h
      rw [inf_lt_iff] at h
      rcases h with h | h
      · exact (rob_sat T x e' t').2 h hs
      · rw [iInf_lt_iff] at h
        obtain ⟨u, h⟩ := h
        rw [iInf_lt_iff] at h
        obtain ⟨hu', h⟩ := h
        exact (rob_sat T x e u).2 h (hu u hu')

theorem robAll_sat (T : ℝ) (x : String → ℝ → ℝ) : ∀ (es : List (Expr ℝ)) (t : ℝ),
    (0 < robAll T x es t → SatAll T x es t) ∧ (robAll T x es t < 0 → ¬ SatAll T x es t)
  | [], t => by simp [robAll, SatAll]
  | e :: es, t => by
    have h1 := rob_sat T x e t
    have h2 := robAll_sat T x es t
    simp only [robAll, SatAll, lt_inf_iff, inf_lt_iff]
    exact ⟨fun h => ⟨h1.1 h.1, h2.1 h.2⟩, fun h hs => h.elim (fun h => h1.2 h hs.1) fun h => h2.2 h hs.2⟩

theorem robAny_sat (T : ℝ) (x : String → ℝ → ℝ) : ∀ (es : List (Expr ℝ)) (t : ℝ),
    (0 < robAny T x es t → SatAny T x es t) ∧ (robAny T x es t < 0 → ¬ SatAny T x es t)
  | [], t => by simp [robAny, SatAny]
  | e :: es, t => by
    have h1 := rob_sat T x e t
    have h2 := robAny_sat T x es t
    simp only [robAny, SatAny, lt_sup_iff, sup_lt_iff]
    exact ⟨fun h => h.imp h1.1 h2.1, fun h hs => hs.elim (fun hs => h1.2 h.1 hs) fun hs => h2.2 h.2 hs⟩
end

theorem le_robAll {T : ℝ} {x : String → ℝ → ℝ} {es : List (Expr ℝ)} {t : ℝ} {v : EReal} :
    v ≤ robAll T x es t ↔ ∀ e ∈ es, v ≤ rob T x e t := by
  induction es with
  | nil => simp [robAll]
  | cons e es ih => simp [robAll, ih]

theorem robAll_le {T : ℝ} {x : String → ℝ → ℝ} {es : List (Expr ℝ)} {t : ℝ} {e : Expr ℝ} (he : e ∈ es) :
    robAll T x es t ≤ rob T x e t := le_robAll.1 le_rfl e he

theorem robAny_le {T : ℝ} {x : String → ℝ → ℝ} {es : List (Expr ℝ)} {t : ℝ} {v : EReal} :
    robAny T x es t ≤ v ↔ ∀ e ∈ es, rob T x e t ≤ v := by
  induction es with
  | nil => simp [robAny]
  | cons e es ih => simp [robAny, ih]

theorem le_robAny {T : ℝ} {x : String → ℝ → ℝ} {es : List (Expr ℝ)} {t : ℝ} {e : Expr ℝ} (he : e ∈ es) :
    rob T x e t ≤ robAny T x es t := robAny_le.1 le_rfl e he

end Spec
end Verif
