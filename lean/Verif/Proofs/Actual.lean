import Verif.Proofs.Sampling
import Verif.Spec.Actual
import Mathlib.Data.Set.Finite.Lemmas

/-! # Until over samples and in dense time -/

set_option linter.unusedSectionVars false

namespace Verif
open Spec

/-- `e` is a sample and there is no sample between `t` and `e`. -/
def Beside (S : Set ℝ) (t e : ℝ) : Prop := e ∈ S ∧ ∀ u ∈ S, (u ≤ e ∧ u ≤ t) ∨ (e ≤ u ∧ t ≤ u)

/-- Two signals with samples at `S` that change by at most `δ` between neighbours. -/
structure StepCells (S : Set ℝ) (t0 T δ : ℝ) (f g : ℝ → ℝ) : Prop where
  fin : S.Finite
  sub : ∀ t ∈ S, t ∈ Set.Icc t0 T
  first : t0 ∈ S
  last : T ∈ S
  left : ∀ t ∈ Set.Icc t0 T, ∀ e, Beside S t e → |f t - f e| ≤ δ
  right : ∀ t ∈ Set.Icc t0 T, ∀ e, Beside S t e → |g t - g e| ≤ δ

/-- The set whose greatest element is the value of Until over the samples `S` at `t`. -/
def weakAt (S : Set ℝ) (f g : ℝ → ℝ) (t : ℝ) : Set ℝ :=
  {w | (∃ s ∈ S, t ≤ s ∧ ∃ m, IsGreatest {v | ∃ u ∈ S, s ≤ u ∧ v = g u} m ∧
      IsLeast {v | v = max (g s) (-m) ∨ ∃ u ∈ S, t ≤ u ∧ u < s ∧ v = f u} w) ∨
    IsLeast {v | ∃ u ∈ S, t ≤ u ∧ v = f u} w}

section
variable {S : Set ℝ} {t0 T δ ε : ℝ} {f g : ℝ → ℝ}

theorem beside_self {t : ℝ} (h : t ∈ S) : Beside S t t :=
  ⟨h, fun u _ => (le_total u t).imp (fun h => ⟨h, h⟩) fun h => ⟨h, h⟩⟩

theorem Beside.symm {t e : ℝ} (h : Beside S t e) (ht : t ∈ S) : Beside S e t :=
  ⟨ht, fun u hu => (h.2 u hu).imp And.symm And.symm⟩

theorem exists_greatest {P : ℝ → Prop} {h : ℝ → ℝ} (hS : S.Finite) (hne : ∃ u ∈ S, P u) :
    ∃ m, IsGreatest {v | ∃ u ∈ S, P u ∧ v = h u} m := by
  have hf : (h '' {u ∈ S | P u}).Finite := (hS.subset fun u hu => hu.1).image h
  obtain ⟨u, hu, hp⟩ := hne
  obtain ⟨m, hm, hmax⟩ := Set.exists_max_image _ id hf ⟨h u, u, ⟨hu, hp⟩, rfl⟩
  obtain ⟨w, ⟨hw, hpw⟩, rfl⟩ := hm
  exact ⟨h w, ⟨w, hw, hpw, rfl⟩, by rintro _ ⟨u, hu, hp, rfl⟩; exact hmax _ ⟨u, ⟨hu, hp⟩, rfl⟩⟩

theorem exists_least' {A : Set ℝ} (hA : A.Finite) (hne : A.Nonempty) : ∃ m, IsLeast A m := by
  obtain ⟨m, hm, hmin⟩ := Set.exists_min_image A id hA hne
  exact ⟨m, hm, fun a ha => hmin a ha⟩

namespace StepCells
variable (c : StepCells S t0 T δ f g)
include c

theorem above {t : ℝ} (ht : t ∈ Set.Icc t0 T) : ∃ e, t ≤ e ∧ Beside S t e := by
  obtain ⟨e, he, hmin⟩ := Set.exists_min_image {u ∈ S | t ≤ u} id (c.fin.subset fun u hu => hu.1) ⟨T, c.last, ht.2⟩
  refine ⟨e, he.2, he.1, fun u hu => ?_⟩
  rcases le_or_gt t u with h | h
  · exact .inr ⟨hmin u ⟨hu, h⟩, h⟩
  · exact .inl ⟨h.le.trans he.2, h.le⟩

theorem below {t : ℝ} (ht : t ∈ Set.Icc t0 T) : ∃ e, e ≤ t ∧ Beside S t e := by
  obtain ⟨e, he, hmax⟩ := Set.exists_max_image {u ∈ S | u ≤ t} id (c.fin.subset fun u hu => hu.1) ⟨t0, c.first, ht.1⟩
  refine ⟨e, he.2, he.1, fun u hu => ?_⟩
  rcases le_or_gt u t with h | h
  · exact .inl ⟨hmax u ⟨hu, h⟩, h⟩
  · exact .inr ⟨he.2.trans h.le, h.le⟩

/-- A time before a sample, not before `t`. -/
theorem before {t d : ℝ} (hd : d ∈ S) (h : t < d) : ∃ s, t ≤ s ∧ s < d ∧ Beside S s d := by
  by_cases hne : {u ∈ S | u < d}.Nonempty
  · obtain ⟨e, he, hmax⟩ := Set.exists_max_image {u ∈ S | u < d} id (c.fin.subset fun u hu => hu.1) hne
    refine ⟨max t e, le_max_left _ _, max_lt h he.2, hd, fun u hu => ?_⟩
    rcases lt_or_ge u d with h' | h'
    · exact .inl ⟨h'.le, (hmax u ⟨hu, h'⟩).trans (le_max_right _ _)⟩
    · exact .inr ⟨h', (max_lt h he.2).le.trans h'⟩
  · refine ⟨t, le_rfl, h, hd, fun u hu => ?_⟩
    rcases lt_or_ge u d with h' | h'
    · exact absurd ⟨u, hu, h'⟩ hne
    · exact .inr ⟨h', h.le.trans h'⟩

theorem later_le {s e m : ℝ} (hs : s ∈ Set.Icc t0 T) (hb : Beside S s e)
    (hm : IsGreatest {v | ∃ u ∈ S, e ≤ u ∧ v = g u} m) {u : ℝ} (hu : u ∈ Set.Icc s T) : g u ≤ m + δ := by
  have hu' : u ∈ Set.Icc t0 T := ⟨hs.1.trans hu.1, hu.2⟩
  obtain ⟨d, hd, hbd⟩ := c.above hu'
  rcases hb.2 d hbd.1 with ⟨h1, h2⟩ | ⟨h1, -⟩
  · have : u = s := le_antisymm (hd.trans h2) hu.1
    subst this
    have k1 := abs_le.1 (c.right u hu' e hb)
    have k2 := hm.2 ⟨e, hb.1, le_rfl, rfl⟩
    linarith
  · have k1 := abs_le.1 (c.right u hu' d hbd)
    have k2 := hm.2 ⟨d, hbd.1, h1, rfl⟩
    linarith

theorem max_exists {e : ℝ} (he : e ∈ S) : ∃ m, IsGreatest {v | ∃ u ∈ S, e ≤ u ∧ v = g u} m :=
  exists_greatest c.fin ⟨e, he, le_rfl⟩

/-- What the greatest element of `weakAt` bounds. -/
theorem weak_bounds {e z : ℝ} (he : e ∈ S) (hz : IsGreatest (weakAt S f g e) z) :
    (∀ s ∈ S, e ≤ s → ∀ m, IsGreatest {v | ∃ u ∈ S, s ≤ u ∧ v = g u} m →
      max (g s) (-m) ≤ z ∨ ∃ u ∈ S, e ≤ u ∧ u < s ∧ f u ≤ z) ∧ ∃ u ∈ S, e ≤ u ∧ f u ≤ z := by
  constructor
  · intro s hs hes m hm
    obtain ⟨w, hw⟩ : ∃ w, IsLeast {v | v = max (g s) (-m) ∨ ∃ u ∈ S, e ≤ u ∧ u < s ∧ v = f u} w := by
      refine exists_least' ?_ ⟨_, .inl rfl⟩
      refine ((Set.finite_singleton (max (g s) (-m))).union (c.fin.image f)).subset ?_
      rintro v (rfl | ⟨u, hu, -, -, rfl⟩)
      · exact .inl rfl
      · exact .inr ⟨u, hu, rfl⟩
    have := hz.2 (.inl ⟨s, hs, hes, m, hm, hw⟩)
    rcases hw.1 with h | ⟨u, hu, h1, h2, h⟩
    · exact .inl (h ▸ this)
    · exact .inr ⟨u, hu, h1, h2, h ▸ this⟩
  · obtain ⟨w, hw⟩ : ∃ w, IsLeast {v | ∃ u ∈ S, e ≤ u ∧ v = f u} w := by
      refine exists_least' ((c.fin.image f).subset ?_) ⟨_, e, he, le_rfl, rfl⟩
      rintro v ⟨u, hu, -, rfl⟩
      exact ⟨u, hu, rfl⟩
    have := hz.2 (.inr hw)
    obtain ⟨u, hu, h1, h⟩ := hw.1
    exact ⟨u, hu, h1, h ▸ this⟩

theorem weak_step' {e e' z z' : ℝ} (hb : Beside S e' e) (he' : e' ∈ S) (hz : IsGreatest (weakAt S f g e) z)
    (hz' : IsGreatest (weakAt S f g e') z') : z' ≤ z + δ := by
  obtain ⟨H1, H2⟩ := c.weak_bounds hb.1 hz
  have hδ : 0 ≤ δ := (abs_nonneg _).trans (c.left e' (c.sub e' he') e hb)
  have kf := abs_le.1 (c.left e' (c.sub e' he') e hb)
  have kg := abs_le.1 (c.right e' (c.sub e' he') e hb)
  rcases hz'.1 with ⟨s, hs, hes, m, hm, hw⟩ | hw
  · have w1 := hw.2 (.inl rfl)
    rcases eq_or_lt_of_le hes with rfl | hlt
    · obtain ⟨m0, hm0⟩ := c.max_exists hb.1
      have hP : max (g e) (-m0) ≤ z := by
        rcases H1 e hb.1 le_rfl m0 hm0 with h | ⟨u, -, h1, h2, -⟩
        · exact h
        · exact absurd h2 (not_lt.2 h1)
      have k1 := le_max_left (g e) (-m0)
      have k2 := le_max_right (g e) (-m0)
      obtain ⟨u, hu, h1, h2⟩ := hm0.1
      have k3 : m0 ≤ m + δ := by
        have := c.later_le (c.sub e hb.1) (hb.symm he') hm (u := u) ⟨h1, (c.sub u hu).2⟩
        rw [h2]; exact this
      have : max (g e') (-m) ≤ z + δ := max_le (by linarith) (by linarith)
      linarith
    · have hes' : e ≤ s := by
        rcases hb.2 s hs with ⟨-, h⟩ | ⟨h, -⟩
        · exact absurd h (not_le.2 hlt)
        · exact h
      rcases H1 s hs hes' m hm with h | ⟨u, hu, h1, h2, h⟩
      · linarith
      · rcases le_or_gt e' u with h3 | h3
        · have := hw.2 (.inr ⟨u, hu, h3, h2, rfl⟩)
          linarith
        · have : u = e := by
            rcases hb.2 u hu with ⟨h4, -⟩ | ⟨-, h4⟩
            · exact le_antisymm h4 h1
            · exact absurd h4 (not_le.2 h3)
          subst this
          have := hw.2 (.inr ⟨e', he', le_rfl, hlt, rfl⟩)
          linarith
  · obtain ⟨u, hu, h1, h⟩ := H2
    rcases le_or_gt e' u with h3 | h3
    · have := hw.2 ⟨u, hu, h3, rfl⟩
      linarith
    · have : u = e := by
        rcases hb.2 u hu with ⟨h4, -⟩ | ⟨-, h4⟩
        · exact le_antisymm h4 h1
        · exact absurd h4 (not_le.2 h3)
      subst this
      have := hw.2 ⟨e', he', le_rfl, rfl⟩
      linarith

theorem weak_step {e e' z z' : ℝ} (hb : Beside S e' e) (he' : e' ∈ S) (hz : IsGreatest (weakAt S f g e) z)
    (hz' : IsGreatest (weakAt S f g e') z') : |z' - z| ≤ δ := by
  have h1 := c.weak_step' hb he' hz hz'
  have h2 := c.weak_step' (hb.symm he') hb.1 hz' hz
  rw [abs_le]; constructor <;> linarith

variable {F G : ℝ → EReal} (hF : ∀ t ∈ Set.Icc t0 T, Near ε (f t) (F t)) (hG : ∀ t ∈ Set.Icc t0 T, Near ε (g t) (G t))

include hG in
theorem near_psi {s e m : ℝ} (hs : s ∈ Set.Icc t0 T) (hb : Beside S s e)
    (hm : IsGreatest {v | ∃ u ∈ S, e ≤ u ∧ v = g u} m) :
    Near (ε + δ) (max (g e) (-m)) (G s ⊔ ⨅ u ∈ Set.Icc s T, - G u) := by
  have kg := abs_le.1 (c.right s hs e hb)
  constructor
  · rcases max_choice (g e) (-m) with h | h <;> rw [h]
    · exact ((EReal.coe_le_coe_iff.2 (by linarith)).trans (hG s hs).1).trans le_sup_left
    · refine le_trans (le_iInf₂ fun u hu => ?_) le_sup_right
      rw [EReal.le_neg, ← EReal.coe_neg]
      refine (hG u ⟨hs.1.trans hu.1, hu.2⟩).2.trans (EReal.coe_le_coe_iff.2 ?_)
      linarith [c.later_le hs hb hm hu]
  · refine sup_le ((hG s hs).2.trans (EReal.coe_le_coe_iff.2 (by linarith [le_max_left (g e) (-m)]))) ?_
    have key : ∀ u ∈ Set.Icc s T, m ≤ g u + δ → (⨅ u ∈ Set.Icc s T, - G u) ≤ ((max (g e) (-m) + (ε + δ) : ℝ) : EReal) := by
      intro u hu h
      refine (iInf₂_le u hu).trans ?_
      rw [EReal.neg_le, ← EReal.coe_neg]
      refine le_trans (EReal.coe_le_coe_iff.2 ?_) (hG u ⟨hs.1.trans hu.1, hu.2⟩).1
      linarith [le_max_right (g e) (-m)]
    obtain ⟨w, hw, h1, rfl⟩ := hm.1
    rcases le_or_gt s w with h | h
    · have hδ : 0 ≤ δ := (abs_nonneg _).trans (c.left s hs e hb)
      exact key w ⟨h, (c.sub w hw).2⟩ (by linarith)
    · have : w = e := by
        rcases hb.2 w hw with ⟨h4, -⟩ | ⟨-, h4⟩
        · exact le_antisymm h4 h1
        · exact absurd h4 (not_le.2 h)
      subst this
      exact key s ⟨le_rfl, hs.2⟩ (by linarith)

include hF hG in
theorem near_weak {t e z : ℝ} (ht : t ∈ Set.Icc t0 T) (hb : Beside S t e) (hz : IsGreatest (weakAt S f g e) z) :
    Near (ε + δ) z ((G t ⊔ ⨅ u ∈ Set.Icc t T, - G u) ⊔
      ((⨆ s ∈ Set.Icc t T, ((G s ⊔ ⨅ u ∈ Set.Icc s T, - G u) ⊓ ⨅ u ∈ Set.Icc t s, F u)) ⊔
        ⨅ u ∈ Set.Icc t T, F u)) := by
  have kf := abs_le.1 (c.left t ht e hb)
  have hδ : 0 ≤ δ := (abs_nonneg _).trans (c.left t ht e hb)
  constructor
  · rcases hz.1 with ⟨s, hs, hes, m, hm, hw⟩ | hw
    · have w1 := hw.2 (.inl rfl)
      have hts : s = e ∨ t ≤ s := by
        rcases hb.2 s hs with ⟨h, -⟩ | ⟨-, h⟩
        · exact .inl (le_antisymm h hes)
        · exact .inr h
      have hq : ∀ s', s' ∈ Set.Icc t0 T → Beside S s' s →
          ((z - (ε + δ) : ℝ) : EReal) ≤ G s' ⊔ ⨅ u ∈ Set.Icc s' T, - G u := fun s' h1 h2 =>
        (EReal.coe_le_coe_iff.2 (by linarith)).trans (c.near_psi hG h1 h2 hm).1
      by_cases h1 : s = e
      · subst h1
        exact (hq t ht hb).trans le_sup_left
      · have hts := hts.resolve_left h1
        have hlt : e < s := lt_of_le_of_ne hes (Ne.symm h1)
        rcases eq_or_lt_of_le hts with rfl | hts
        · exact (hq t ht (beside_self hs)).trans le_sup_left
        · obtain ⟨s', k1, k2, k3⟩ := c.before hs hts
          have hs' : s' ∈ Set.Icc t0 T := ⟨ht.1.trans k1, k2.le.trans (c.sub s hs).2⟩
          refine le_trans (le_trans ?_ (le_iSup₂ (f := fun s _ => (G s ⊔ ⨅ u ∈ Set.Icc s T, - G u) ⊓
            ⨅ u ∈ Set.Icc t s, F u) s' ⟨k1, hs'.2⟩)) (le_trans le_sup_left le_sup_right)
          refine le_inf (hq s' hs' k3) (le_iInf₂ fun u hu => ?_)
          have hu' : u ∈ Set.Icc t0 T := ⟨ht.1.trans hu.1, hu.2.trans hs'.2⟩
          refine le_trans (EReal.coe_le_coe_iff.2 ?_) (hF u hu').1
          have key : ∀ e', Beside S u e' → e ≤ e' → e' < s → z ≤ f u + δ := by
            intro e' h1 h2 h3
            have := hw.2 (.inr ⟨e', h1.1, h2, h3, rfl⟩)
            have := abs_le.1 (c.left u hu' e' h1)
            linarith
          obtain ⟨e', h4, h5⟩ := c.below hu'
          rcases le_or_gt e e' with h6 | h6
          · linarith [key e' h5 h6 (lt_of_le_of_lt (h4.trans hu.2) k2)]
          · have h7 : u ≤ e := by
              rcases h5.2 e hb.1 with ⟨h, -⟩ | ⟨-, h⟩
              · exact absurd h (not_le.2 h6)
              · exact h
            have hbe : Beside S u e := by
              refine ⟨hb.1, fun w hw => ?_⟩
              rcases hb.2 w hw with ⟨h8, h9⟩ | ⟨h8, h9⟩
              · exact .inl ⟨h8, h9.trans hu.1⟩
              · exact .inr ⟨h8, h7.trans h8⟩
            linarith [key e hbe le_rfl hlt]
    · refine le_trans (le_iInf₂ fun u hu => ?_) (le_trans le_sup_right le_sup_right)
      have hu' : u ∈ Set.Icc t0 T := ⟨ht.1.trans hu.1, hu.2⟩
      refine le_trans (EReal.coe_le_coe_iff.2 ?_) (hF u hu').1
      obtain ⟨d, h1, h2⟩ := c.above hu'
      rcases hb.2 d h2.1 with ⟨-, h3⟩ | ⟨h3, -⟩
      · have : u = t := le_antisymm (h1.trans h3) hu.1
        subst this
        have := hw.2 ⟨e, hb.1, le_rfl, rfl⟩
        linarith
      · have := hw.2 ⟨d, h2.1, h3, rfl⟩
        have := abs_le.1 (c.left u hu' d h2)
        linarith
  · obtain ⟨H1, H2⟩ := c.weak_bounds hb.1 hz
    -- a sample at which the first operand is small
    have hsmall : ∀ s, t ≤ s → ∀ u ∈ S, e ≤ u → u ≤ s → f u ≤ z →
        (⨅ u ∈ Set.Icc t s, F u) ≤ ((z + (ε + δ) : ℝ) : EReal) := by
      intro s hs u hu h1 h2 h
      rcases le_or_gt t u with h3 | h3
      · refine (iInf₂_le u ⟨h3, h2⟩).trans ((hF u (c.sub u hu)).2.trans (EReal.coe_le_coe_iff.2 ?_))
        linarith
      · have : u = e := by
          rcases hb.2 u hu with ⟨h4, -⟩ | ⟨-, h4⟩
          · exact le_antisymm h4 h1
          · exact absurd h4 (not_le.2 h3)
        subst this
        refine (iInf₂_le t ⟨le_rfl, hs⟩).trans ((hF t ht).2.trans (EReal.coe_le_coe_iff.2 ?_))
        linarith
    have hpsi : ∀ s', s' ∈ Set.Icc t0 T → ∀ s m, Beside S s' s → IsGreatest {v | ∃ u ∈ S, s ≤ u ∧ v = g u} m →
        max (g s) (-m) ≤ z → (G s' ⊔ ⨅ u ∈ Set.Icc s' T, - G u) ≤ ((z + (ε + δ) : ℝ) : EReal) :=
      fun s' h1 s m h2 hm h => (c.near_psi hG h1 h2 hm).2.trans (EReal.coe_le_coe_iff.2 (by linarith))
    have h0 : (G t ⊔ ⨅ u ∈ Set.Icc t T, - G u) ≤ ((z + (ε + δ) : ℝ) : EReal) := by
      obtain ⟨m, hm⟩ := c.max_exists hb.1
      rcases H1 e hb.1 le_rfl m hm with h | ⟨u, -, h1, h2, -⟩
      · exact hpsi t ht e m hb hm h
      · exact absurd h2 (not_lt.2 h1)
    refine sup_le h0 (sup_le (iSup₂_le fun s hs => ?_) ?_)
    · have hs' : s ∈ Set.Icc t0 T := ⟨ht.1.trans hs.1, hs.2⟩
      obtain ⟨d, h1, h2⟩ := c.above hs'
      rcases hb.2 d h2.1 with ⟨-, h3⟩ | ⟨h3, -⟩
      · have : s = t := le_antisymm (h1.trans h3) hs.1
        subst this
        exact inf_le_left.trans h0
      · obtain ⟨m, hm⟩ := c.max_exists h2.1
        rcases H1 d h2.1 h3 m hm with h | ⟨u, hu, k1, k2, h⟩
        · exact inf_le_left.trans (hpsi s hs' d m h2 hm h)
        · have h4 : u ≤ s := by
            rcases h2.2 u hu with ⟨-, h⟩ | ⟨h, -⟩
            · exact h
            · exact absurd h (not_le.2 k2)
          exact inf_le_right.trans (hsmall s hs.1 u hu k1 h4 h)
    · obtain ⟨u, hu, k1, h⟩ := H2
      exact hsmall T ht.2 u hu k1 (c.sub u hu).2 h

end StepCells
end
end Verif
