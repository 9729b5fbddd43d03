import Verif.Spec.OneSided
import Verif.Proofs.EvalReal
import Verif.Props.Until
import Verif.Props.Soundness
import Verif.Proofs.Start

/-!
# Helper lemmas for C128: upper bounds of the semantics between samples
-/

set_option linter.unusedSectionVars false

namespace Verif
open Spec

section
variable {K : Type} [Field K] [LinearOrder K] [IsStrictOrderedRing K] [Arith K] {ι : K →+* ℝ}

/-- Between neighbouring times `a`, `b` of `ts` (or at one of them) `F` is at most the greater one of the values `v` at
these times. -/
def Upper (ι : K →+* ℝ) (ts : List K) (F : ℝ → EReal) (v : K → K) : Prop :=
  ∀ a ∈ ts, ∀ b ∈ ts, a ≤ b → (∀ c ∈ ts, c ≤ a ∨ b ≤ c) → ∀ s : ℝ, ι a ≤ s → s ≤ ι b →
    F s ≤ ((max (ι (v a)) (ι (v b)) : ℝ) : EReal)

theorem Upper.at {ts : List K} {F : ℝ → EReal} {v : K → K} (h : Upper ι ts F v) {a : K} (ha : a ∈ ts) :
    F (ι a) ≤ ((ι (v a) : ℝ) : EReal) := by
  have := h a ha a ha le_rfl (fun c _ => le_total c a) (ι a) le_rfl le_rfl
  rwa [max_self] at this

theorem Upper.congr {ts : List K} {F : ℝ → EReal} {v w : K → K} (h : Upper ι ts F v) (e : ∀ a ∈ ts, v a = w a) :
    Upper ι ts F w := by
  intro a ha b hb hab hn s h1 h2
  rw [← e a ha, ← e b hb]
  exact h a ha b hb hab hn s h1 h2

/-- The neighbouring times around an instant. -/
theorem around {ts : List K} {a T : K} (ha : a ∈ ts) (hT : T ∈ ts) {r : ℝ} (h1 : ι a ≤ r) (h2 : r ≤ ι T) :
    ∃ c ∈ ts, ∃ d ∈ ts, a ≤ c ∧ ι c ≤ r ∧ r ≤ ι d ∧ (∀ e ∈ ts, ι e ≤ r → e ≤ c) ∧ ∀ e ∈ ts, r ≤ ι e → d ≤ e := by
  classical
  obtain ⟨c, hc, hc'⟩ := (ts.toFinset.filter fun e => ι e ≤ r).exists_max_image id ⟨a, by simp [ha, h1]⟩
  obtain ⟨d, hd, hd'⟩ := (ts.toFinset.filter fun e => r ≤ ι e).exists_min_image id ⟨T, by simp [hT, h2]⟩
  simp only [Finset.mem_filter, List.mem_toFinset, id, and_imp] at hc hc' hd hd'
  exact ⟨c, hc.1, d, hd.1, hc' a ha h1, hc.2, hd.2, hc', hd'⟩

variable (hι : StrictMono ι)
include hι

/-- The bound of the neighbouring times of an instant. -/
theorem Upper.near {ts : List K} {F : ℝ → EReal} {v : K → K} (h : Upper ι ts F v) {a T : K} (ha : a ∈ ts)
    (hT : T ∈ ts) {r : ℝ} (h1 : ι a ≤ r) (h2 : r ≤ ι T) :
    ∃ c ∈ ts, ∃ d ∈ ts, a ≤ c ∧ c ≤ d ∧ ι c ≤ r ∧ (∀ e ∈ ts, e ≤ c ∨ d ≤ e) ∧
      F r ≤ ((max (ι (v c)) (ι (v d)) : ℝ) : EReal) := by
  obtain ⟨c, hc, d, hd, hac, hcr, hrd, hc', hd'⟩ := around ha hT h1 h2
  have hn : ∀ e ∈ ts, e ≤ c ∨ d ≤ e := fun e he => (le_total (ι e) r).imp (hc' e he) (hd' e he)
  have hcd : c ≤ d := hι.le_iff_le.1 (hcr.trans hrd)
  exact ⟨c, hc, d, hd, hac, hcd, hcr, hn, h c hc d hd hcd hn r hcr hrd⟩

theorem upper_eventually {ts : List K} {F : ℝ → EReal} {v w : K → K} (h : Upper ι ts F v) {T : K} (hT : T ∈ ts)
    {W : ℝ → Set ℝ} (hW : ∀ t, ∀ t' ∈ W t, t ≤ t' ∧ t' ≤ ι T)
    (hw : ∀ a ∈ ts, ∀ c ∈ ts, a ≤ c → v c ≤ w a) : Upper ι ts (fun t => ⨆ t' ∈ W t, F t') w := by
  intro a ha b hb hab hn s h1 h2
  refine iSup₂_le fun r hr => ?_
  obtain ⟨h3, h4⟩ := hW s r hr
  obtain ⟨c, hc, d, hd, hac, hcd, -, -, hF⟩ := h.near hι ha hT (h1.trans h3) h4
  refine hF.trans (EReal.coe_le_coe_iff.2 (max_le ?_ ?_)) <;> refine le_max_of_le_left (hι.monotone ?_)
  · exact hw a ha c hc hac
  · exact hw a ha d hd (hac.trans hcd)

theorem upper_always {ts : List K} {F : ℝ → EReal} {v w : K → K} (h : Upper ι ts F v) {T : K}
    (hT : ∀ a ∈ ts, a ≤ T) {W : ℝ → Set ℝ} (hW : ∀ t t', t ≤ t' → t' ≤ ι T → t' ∈ W t)
    (hw : ∀ a ∈ ts, ∃ c ∈ ts, a ≤ c ∧ v c ≤ w a) : Upper ι ts (fun t => ⨅ t' ∈ W t, F t') w := by
  intro a ha b hb hab hn s h1 h2
  obtain ⟨c, hc, hbc, hv⟩ := hw b hb
  refine (iInf₂_le (ι c) (hW _ _ (h2.trans (hι.monotone hbc)) (hι.monotone (hT c hc)))).trans ?_
  exact (h.at hc).trans (EReal.coe_le_coe_iff.2 (le_max_of_le_right (hι.monotone hv)))

theorem upper_until {ts : List K} {F G : ℝ → EReal} {x y w : K → K} (hx : Upper ι ts F x) (hy : Upper ι ts G y) {T : K}
    (hT : T ∈ ts) {W : ℝ → Set ℝ} (hW : ∀ t, ∀ t' ∈ W t, t ≤ t' ∧ t' ≤ ι T)
    (hw : ∀ a ∈ ts, ∀ c ∈ ts, a ≤ c → y c ≤ w a ∨ ∃ u ∈ ts, a ≤ u ∧ u < c ∧ x u ≤ w a) :
    Upper ι ts (fun t => ⨆ t' ∈ W t, (G t' ⊓ ⨅ u ∈ Set.Icc t t', F u)) w := by
  have key : ∀ a ∈ ts, ∀ r : ℝ, ι a ≤ r → r ≤ ι T →
      (G r ⊓ ⨅ u ∈ Set.Icc (ι a) r, F u) ≤ ((ι (w a) : ℝ) : EReal) := by
    intro a ha r h1 h2
    obtain ⟨c, hc, d, hd, hac, hcd, hcr, hn, hG⟩ := hy.near hι ha hT h1 h2
    have hF : ∀ u ∈ ts, a ≤ u → u ≤ c → x u ≤ w a →
        (G r ⊓ ⨅ u ∈ Set.Icc (ι a) r, F u) ≤ ((ι (w a) : ℝ) : EReal) := by
      intro u hu hau huc hxu
      refine inf_le_right.trans ((iInf₂_le (ι u) ⟨hι.monotone hau, (hι.monotone huc).trans hcr⟩).trans ?_)
      exact (hx.at hu).trans (EReal.coe_le_coe_iff.2 (hι.monotone hxu))
    rcases hw a ha c hc hac with h3 | ⟨u, hu, hau, huc, hxu⟩
    · rcases hw a ha d hd (hac.trans hcd) with h4 | ⟨u, hu, hau, hud, hxu⟩
      · exact inf_le_left.trans (hG.trans (EReal.coe_le_coe_iff.2 (max_le (hι.monotone h3) (hι.monotone h4))))
      · exact hF u hu hau ((hn u hu).resolve_right (not_le.2 hud)) hxu
    · exact hF u hu hau huc.le hxu
  have hyw : ∀ a ∈ ts, y a ≤ w a := fun a ha =>
    (hw a ha a ha le_rfl).resolve_right fun ⟨u, _, h1, h2, _⟩ => absurd h2 (not_lt.2 h1)
  intro a ha b hb hab hn s h1 h2
  refine iSup₂_le fun r hr => ?_
  obtain ⟨h3, h4⟩ := hW s r hr
  rcases le_total r (ι b) with hrb | hrb
  · refine inf_le_left.trans ((hy a ha b hb hab hn r (h1.trans h3) hrb).trans (EReal.coe_le_coe_iff.2 ?_))
    exact max_le_max (hι.monotone (hyw a ha)) (hι.monotone (hyw b hb))
  · refine le_trans ?_ ((key b hb r hrb h4).trans (EReal.coe_le_coe_iff.2 (le_max_right _ _)))
    refine inf_le_inf le_rfl (le_iInf₂ fun u hu => iInf₂_le u ⟨h2.trans hu.1, hu.2⟩)

/-- Between neighbouring times a piecewise linear function is between its values at these times. -/
theorem eval_between {pts : List (K × K)} (hi : Increasing pts) {a b : K} (ha : a ∈ pts.map Prod.fst)
    (hb : b ∈ pts.map Prod.fst) (hab : a ≤ b) (hn : ∀ c ∈ pts.map Prod.fst, c ≤ a ∨ b ≤ c) {s : ℝ} (h1 : ι a ≤ s)
    (h2 : s ≤ ι b) :
    eval (castPts ι pts) s ≤ max (ι (eval pts a)) (ι (eval pts b)) ∧
      min (ι (eval pts a)) (ι (eval pts b)) ≤ eval (castPts ι pts) s := by
  rcases hab.eq_or_lt with rfl | hab
  · have := le_antisymm h2 h1
    subst this
    rw [eval_castPts ι hι, max_self, min_self]
    exact ⟨le_rfl, le_rfl⟩
  have hm : ∀ t ∈ pts.map Prod.fst, ι t ∈ dom (castPts ι pts) := by
    intro t ht
    obtain ⟨p, hp, rfl⟩ := List.mem_map.1 ht
    exact mem_dom_of_mem' (p := (ι p.1, ι p.2)) (List.mem_map.2 ⟨p, hp, rfl⟩)
  have hl := eval_affine (castPts_increasing hι hi) (hm a ha) (hm b hb) (hι hab) (by
    intro p hp
    obtain ⟨q, hq, rfl⟩ := List.mem_map.1 hp
    rintro ⟨h3, h4⟩
    rcases hn q.1 (List.mem_map_of_mem hq) with h | h
    · exact absurd h (not_le.2 (hι.lt_iff_lt.1 h3))
    · exact absurd h (not_le.2 (hι.lt_iff_lt.1 h4))) h1 h2
  rw [hl, eval_castPts ι hι, eval_castPts ι hι]
  simp only [line]
  have hd : 0 < ι b - ι a := sub_pos.2 (hι hab)
  set A := ι (eval pts a)
  set B := ι (eval pts b)
  set k := (s - ι a) / (ι b - ι a) with hk
  have hk0 : 0 ≤ k := div_nonneg (sub_nonneg.2 h1) hd.le
  have hk1 : k ≤ 1 := (div_le_one hd).2 (by linarith)
  have e : A + (B - A) * k = (1 - k) * A + k * B := by ring
  constructor
  · rw [e]
    have h3 := mul_le_mul_of_nonneg_left (le_max_left A B) (sub_nonneg.2 hk1)
    have h4 := mul_le_mul_of_nonneg_left (le_max_right A B) hk0
    linarith
  · rw [e]
    have h3 := mul_le_mul_of_nonneg_left (min_le_left A B) (sub_nonneg.2 hk1)
    have h4 := mul_le_mul_of_nonneg_left (min_le_right A B) hk0
    linarith

theorem castInterval_built {i : Interval K} (h : IntervalBuilt i) : IntervalBuilt (castInterval ι i) := by
  have hlt : ∀ a b : D K, (castD ι a).lt (castD ι b) = a.lt b := by
    intro a b
    cases a <;> cases b <;> simp [castD, D.lt, hι.lt_iff_lt]
  have hle : ∀ a b : D K, (castD ι a).le (castD ι b) = a.le b := by
    intro a b
    have heq : (castD ι a).eq (castD ι b) = a.eq b := by
      cases a <;> cases b <;> simp [castD, D.eq, hι.injective.eq_iff]
    unfold D.le
    rw [hlt, heq]
  have h0 : castD ι (0 : D K) = 0 := by simp [castD, D.zero_def]
  rcases h with rfl | ⟨a, b, h⟩ | ⟨a, b, h⟩
  · left
    simp [castInterval, Interval.default, castNum, castD, D.zero_def]
  · right; left
    refine ⟨a, b, ?_⟩
    simp only [Interval.ofULL, Outcome.ok.injEq] at h ⊢
    subst h
    rfl
  · right; right
    refine ⟨castD ι a, castD ι b, ?_⟩
    unfold Interval.ofDouble at h ⊢
    rw [← h0]
    simp only [hlt, hle] at h ⊢
    split at h
    · cases h
    · next h1 =>
      rw [if_neg h1]
      split at h
      · cases h
      · next h2 =>
        rw [if_neg h2]
        simp only [Outcome.ok.injEq] at h ⊢
        subst h
        rfl

end

section
variable {K : Type} [Field K] [LinearOrder K] [IsStrictOrderedRing K] [Arith K] [ExactArith K] {ι : K →+* ℝ}

theorem _root_.Verif.Spec.OneSided.plain {b : Bool} {e : Expr K} (h : OneSided b e) : Plain e := by
  induction h with
  | pred _ n op c => exact .pred n op c
  | not _ ih => exact .not ih
  | always hi _ ih => exact .always hi ih
  | eventually hi _ ih => exact .eventually hi ih
  | globally _ ih => exact .always (.inl rfl) ih
  | sometime _ ih => exact .eventually (.inl rfl) ih
  | untl hi _ _ ih ih' => exact .untl hi ih ih'

/-- `Upper`, or the same for the negated functions. -/
def SideOf (ι : K →+* ℝ) (pol : Bool) (ts : List K) (F : ℝ → EReal) (v : K → K) : Prop :=
  if pol then Upper ι ts (fun t => - F t) (fun t => - v t) else Upper ι ts F v

theorem sideOf_neg {pol : Bool} {ts : List K} {F : ℝ → EReal} {v : K → K} :
    SideOf ι (!pol) ts (fun t => - F t) (fun t => - v t) ↔ SideOf ι pol ts F v := by
  cases pol <;> simp [SideOf]

theorem SideOf.congr {pol : Bool} {ts : List K} {F : ℝ → EReal} {v w : K → K} (h : SideOf ι pol ts F v)
    (e : ∀ a ∈ ts, v a = w a) : SideOf ι pol ts F w := by
  cases pol
  · exact Upper.congr h e
  · exact Upper.congr h fun a ha => by rw [e a ha]

theorem sufPts_min_witness {pts : List (K × K)} (h : Increasing pts) {z : K × K} (hz : z ∈ sufPts min pts) :
    ∃ q ∈ pts, z.1 ≤ q.1 ∧ z.2 = q.2 := by
  have key : ∀ {pts : List (K × K)}, Increasing pts → ∀ {z : K × K}, z ∈ sufPts max pts →
      ∃ q ∈ pts, z.1 ≤ q.1 ∧ z.2 = q.2 := by
    intro pts h z hz
    induction pts with
    | nil => simp [sufPts] at hz
    | cons p r ih =>
      rw [sufPts_max_cons, List.mem_cons] at hz
      rcases hz with rfl | hz
      · obtain ⟨q, hq, e⟩ := sufMax_mem (pts := p :: r) (by simp)
        refine ⟨q, hq, ?_, e⟩
        rcases List.mem_cons.1 hq with rfl | hq
        · exact le_rfl
        · exact ((increasing_cons.1 h).1 q hq).le
      · obtain ⟨q, hq, h1, h2⟩ := ih (increasing_cons.1 h).2 hz
        exact ⟨q, List.mem_cons_of_mem _ hq, h1, h2⟩
  rw [sufPts_min] at hz
  obtain ⟨z', hz', rfl⟩ := List.mem_map.1 hz
  obtain ⟨q, hq, h1, h2⟩ := key (increasing_negPts.2 h) hz'
  obtain ⟨q', hq', rfl⟩ := List.mem_map.1 hq
  exact ⟨q', hq', h1, by simp [h2]⟩

/-- Always on a signal with an upper bound, or with a lower bound. -/
theorem side_always (hι : StrictMono ι) {pol : Bool} {ts : List K} {T : K} (hT : ts.getLast? = some T)
    {zs : List (K × K)} (hi : Increasing zs) (ht : zs.map Prod.fst = ts) {F : ℝ → EReal} {i : Interval K}
    (hb : IntervalBuilt i) (hp : pol = true ∨ i = Interval.default) (h : SideOf ι pol ts F (eval zs)) :
    SideOf ι pol ts (fun t => ⨅ t' ∈ window (ι T) (castInterval ι i) t, F t') (eval (sufPts min zs)) := by
  have hTm : T ∈ ts := List.mem_of_getLast? hT
  cases pol
  · obtain rfl := hp.resolve_left (by simp)
    refine upper_always hι h (T := T) (fun a ha => ?_) (fun t t' h1 h2 => ?_) (fun a ha => ?_)
    · obtain ⟨l, rfl⟩ := List.getLast?_eq_some_iff.1 hT
      rcases List.mem_append.1 ha with h | h
      · have hi' : (l ++ [T]).Pairwise (· < ·) := ht ▸ hi
        exact ((List.pairwise_append.1 hi').2.2 a h T (by simp)).le
      · simp at h; exact h.le
    · rw [show castInterval ι (Interval.default : Interval K) = ⟨.dbl 0, .dbl .pinf⟩ by
        simp [castInterval, Interval.default, castNum, castD, D.zero_def], window_default]
      exact ⟨h1, h2⟩
    · rw [← ht, ← sufPts_fst min] at ha
      obtain ⟨z, hz, rfl⟩ := List.mem_map.1 ha
      obtain ⟨q, hq, h1, h2⟩ := sufPts_min_witness hi hz
      refine ⟨q.1, ht ▸ List.mem_map_of_mem hq, h1, ?_⟩
      rw [eval_mem hi hq, eval_mem (increasing_sufPts.2 hi) hz, h2]
  · unfold SideOf at h ⊢
    rw [if_pos rfl] at h ⊢
    have htn : (negPts zs).map Prod.fst = ts := by simpa [negPts, Function.comp_def] using ht
    have := upper_eventually hι (h.congr fun t _ => (eval_negPts _ _).symm) hTm
      (W := window (ι T) (castInterval ι i)) (fun t t' ht' => window_ge (castInterval_built hι hb) ht')
      (w := eval (sufPts max (negPts zs))) (fun a ha c hc hac => by
        rw [← htn] at ha hc
        exact sufPts_max_bound (increasing_negPts.2 hi) (mem_dom_of_mem ha) (mem_dom_of_mem hc) hac)
    have h3 : ∀ t, -(⨅ t' ∈ window (ι T) (castInterval ι i) t, F t') =
        ⨆ t' ∈ window (ι T) (castInterval ι i) t, -F t' := by
      intro t
      rw [← neg_inj, neg_neg, neg_iSup₂]
      simp only [neg_neg]
    simp only [h3]
    exact this.congr fun t _ => by rw [sufPts_min, eval_negPts, neg_neg]

/-- Eventually on such signals. -/
theorem side_eventually (hι : StrictMono ι) {pol : Bool} {ts : List K} {T : K} (hT : ts.getLast? = some T)
    {zs : List (K × K)} (hi : Increasing zs) (ht : zs.map Prod.fst = ts) {F : ℝ → EReal} {i : Interval K}
    (hb : IntervalBuilt i) (hp : pol = false ∨ i = Interval.default) (h : SideOf ι pol ts F (eval zs)) :
    SideOf ι pol ts (fun t => ⨆ t' ∈ window (ι T) (castInterval ι i) t, F t') (eval (sufPts max zs)) := by
  have htn : (negPts zs).map Prod.fst = ts := by simpa [negPts, Function.comp_def] using ht
  have := side_always hι hT (increasing_negPts.2 hi) htn hb (pol := !pol) (by simpa using hp)
    ((sideOf_neg.2 h).congr fun t _ => (eval_negPts _ _).symm)
  rw [← sideOf_neg]
  simp only [neg_iSup₂]
  exact this.congr fun t _ => by rw [sufPts_min, negPts_negPts, eval_negPts]

theorem represents_unique' {z : Signal K} {a b : List (K × K)} (ha : Represents z a) (hb : Represents z b) : a = b :=
  (List.map_injective_iff.2 lift_injective) (ha.2.symm.trans hb.2)

theorem until_weak {xs ys zs : List (K × K)} (hz : Increasing zs)
    (hw : ∀ p ∈ zs, IsGreatest (weakUntilSet xs ys {t | t ∈ zs.map Prod.fst} p.1) p.2) :
    ∀ a ∈ zs.map Prod.fst, ∀ c ∈ zs.map Prod.fst, a ≤ c →
      eval ys c ≤ eval zs a ∨ ∃ u ∈ zs.map Prod.fst, a ≤ u ∧ u < c ∧ eval xs u ≤ eval zs a := by
  intro a ha c hc hac
  obtain ⟨p, hp, rfl⟩ := List.mem_map.1 ha
  rw [eval_mem hz hp]
  have hfin : ∀ (P : K → Prop) (h : K → K), {v | ∃ u ∈ {t | t ∈ zs.map Prod.fst}, P u ∧ v = h u}.Finite := by
    intro P h
    refine (List.finite_toSet ((zs.map Prod.fst).map h)).subset ?_
    rintro v ⟨u, hu, -, rfl⟩
    exact List.mem_map_of_mem hu
  obtain ⟨m, hm⟩ : ∃ m, IsGreatest {v | ∃ u ∈ {t | t ∈ zs.map Prod.fst}, c ≤ u ∧ v = eval ys u} m := by
    obtain ⟨m, hm, h⟩ := (hfin (c ≤ ·) (eval ys)).exists_maximalFor id _ ⟨eval ys c, c, hc, le_refl c, rfl⟩
    exact ⟨m, hm, fun v hv => (le_total v m).elim id fun h' => h hv h'⟩
  obtain ⟨w, hl⟩ := exists_isLeast (S := {v | v = max (eval ys c) (-m) ∨
      ∃ u ∈ {t | t ∈ zs.map Prod.fst}, p.1 ≤ u ∧ u < c ∧ v = eval xs u}) (by
    refine ((hfin (fun u => p.1 ≤ u ∧ u < c) (eval xs)).insert (max (eval ys c) (-m))).subset ?_
    rintro v (rfl | ⟨u, hu, h1, h2, rfl⟩)
    · exact Set.mem_insert _ _
    · exact Set.mem_insert_of_mem _ ⟨u, hu, ⟨h1, h2⟩, rfl⟩) ⟨_, .inl rfl⟩
  have h1 := (hw p hp).2 (.inl ⟨c, hc, hac, m, hm, hl⟩)
  rcases hl.1 with h | ⟨u, hu, h2, h3, h⟩
  · exact .inl ((le_max_left _ _).trans (h ▸ h1))
  · exact .inr ⟨u, hu, h2, h3, h ▸ h1⟩

theorem increasing_ext {l l' : List K} (h : l.Pairwise (· < ·)) (h' : l'.Pairwise (· < ·)) (e : ∀ t, t ∈ l ↔ t ∈ l') :
    l = l' := by
  have hp : l.Perm l' := (List.perm_ext_iff_of_nodup (h.imp fun h => ne_of_lt h) (h'.imp fun h => ne_of_lt h)).2 e
  exact hp.eq_of_pairwise (fun a b _ _ h1 h2 => absurd h1 (not_lt.2 h2.le)) h h'

theorem oneSided_core (hι : StrictMono ι) (nd : Bool) (fuel : Nat) (trace : Trace K) (sy : Bool) (T : K) (ts : List K)
    (hT : ts.getLast? = some T) (sig : String → List (K × K)) {pol : Bool} {phi : Expr K} (hp : OneSided pol phi)
    (hs : ∀ n, Uses n phi → ∃ x, trace.lookup n = some x ∧ Represents x (sig n) ∧ (sig n).map Prod.fst = ts) :
    ∃ z zs, computeRobustness nd fuel phi trace sy = .ok z ∧ Represents z zs ∧ zs.map Prod.fst = ts ∧
      SideOf ι pol ts (rob (ι T) (fun n => eval (castPts ι (sig n))) (castExpr ι phi)) (eval zs) := by
  have hTm : T ∈ ts := List.mem_of_getLast? hT
  have hne : ∀ zs : List (K × K), zs.map Prod.fst = ts → zs ≠ [] := by
    rintro zs e rfl
    simp at e
    subst e
    simp at hTm
  induction hp with
  | pred pol n op c =>
    obtain ⟨x, hx, hrx, htx⟩ := hs n (.pred op _)
    obtain ⟨z, zs, e, hz, htm, hdm, hv⟩ := C20_predicate nd fuel trace sy n op c x (sig n) hx hrx
    refine ⟨z, zs, e, hz, htm.trans htx, ?_⟩
    have hi : Increasing (sig n) := ((represents_iff _ _).1 hrx).1
    have key : ∀ pol : Bool, Upper ι ts (fun t => if pol then ((eval (castPts ι (sig n)) t - ι c : ℝ) : EReal)
        else ((ι c - eval (castPts ι (sig n)) t : ℝ) : EReal))
        (fun t => if pol then eval (sig n) t - c else c - eval (sig n) t) := by
      intro pol a ha b hb hab hn s h1 h2
      rw [← htx] at ha hb hn
      obtain ⟨g1, g2⟩ := eval_between hι hi ha hb hab hn h1 h2
      cases pol
      · simp only [Bool.false_eq_true, if_false, EReal.coe_le_coe_iff, map_sub]
        rcases min_choice (ι (eval (sig n) a)) (ι (eval (sig n) b)) with h | h <;> rw [h] at g2
        · exact le_max_of_le_left (by linarith)
        · exact le_max_of_le_right (by linarith)
      · simp only [if_true, EReal.coe_le_coe_iff, map_sub]
        rcases max_choice (ι (eval (sig n) a)) (ι (eval (sig n) b)) with h | h <;> rw [h] at g1
        · exact le_max_of_le_left (by linarith)
        · exact le_max_of_le_right (by linarith)
    have hd : ∀ t ∈ ts, t ∈ dom (sig n) := fun t ht => mem_dom_of_mem (htx ▸ ht)
    have e1 : ∀ t, rob (ι T) (fun n => eval (castPts ι (sig n))) (castExpr ι (.pred n op (.fin c))) t =
        (match op with
        | .GE | .GT => ((eval (castPts ι (sig n)) t - ι c : ℝ) : EReal)
        | .LE | .LT => ((ι c - eval (castPts ι (sig n)) t : ℝ) : EReal)) := by
      intro t
      rw [castExpr, rob]
      cases op <;> rfl
    unfold SideOf
    simp only [e1]
    have flip : ∀ a b : ℝ, -((a - b : ℝ) : EReal) = ((b - a : ℝ) : EReal) := fun a b => by
      rw [← EReal.coe_neg, neg_sub]
    cases op <;> cases pol <;> simp only [Bool.false_eq_true, if_false, if_true, flip] at hv ⊢
    all_goals first
      | exact (key true).congr fun t ht => by rw [hv t (hd t ht)]; rfl
      | exact (key false).congr fun t ht => by rw [hv t (hd t ht)]; rfl
      | exact (key true).congr fun t ht => by rw [hv t (hd t ht), neg_sub]; rfl
      | exact (key false).congr fun t ht => by rw [hv t (hd t ht), neg_sub]; rfl
  | @not pol e he ih =>
    obtain ⟨z1, zs1, e1, hz1, ht1, hu⟩ := ih fun n hn => hs n (.not hn)
    obtain ⟨i1, rfl⟩ := (represents_iff _ _).1 hz1
    have e2 : computeRobustness nd fuel (.not e) trace sy = .ok (ofPts (negPts zs1)) := by
      rw [C21_not_negates, e1]; exact congrArg Outcome.ok (negSig_ofPts i1)
    refine ⟨_, _, e2, represents_ofPts (increasing_negPts.2 i1), by simpa [negPts, Function.comp_def] using ht1, ?_⟩
    unfold SideOf at hu ⊢
    rw [castExpr]
    cases pol
    · simp only [Bool.not_false, if_true, Bool.false_eq_true, if_false, rob] at hu ⊢
      exact hu.congr fun t _ => (eval_negPts _ _).symm
    · simp only [Bool.not_true, if_true, Bool.false_eq_true, if_false, rob, neg_neg] at hu ⊢
      exact hu.congr fun t _ => by rw [eval_negPts, neg_neg]
  | @always e i hi he ih =>
    obtain ⟨z1, zs1, e1, hz1, ht1, hu⟩ := ih fun n hn => hs n (.always hn)
    have i1 := ((represents_iff _ _).1 hz1).1
    have e2 := (eventually_fin e1 hz1 (hne _ ht1) i (intervalBuilt_high hi)).2
    refine ⟨_, _, e2, represents_ofPts (increasing_sufPts.2 i1), (sufPts_fst _ _).trans ht1, ?_⟩
    rw [castExpr]
    simp only [rob]
    exact side_always hι hT i1 ht1 hi (.inl rfl) hu
  | @eventually e i hi he ih =>
    obtain ⟨z1, zs1, e1, hz1, ht1, hu⟩ := ih fun n hn => hs n (.eventually hn)
    have i1 := ((represents_iff _ _).1 hz1).1
    have e2 := (eventually_fin e1 hz1 (hne _ ht1) i (intervalBuilt_high hi)).1
    refine ⟨_, _, e2, represents_ofPts (increasing_sufPts.2 i1), (sufPts_fst _ _).trans ht1, ?_⟩
    rw [castExpr]
    simp only [rob]
    exact side_eventually hι hT i1 ht1 hi (.inl rfl) hu
  | @globally pol e he ih =>
    obtain ⟨z1, zs1, e1, hz1, ht1, hu⟩ := ih fun n hn => hs n (.always hn)
    have i1 := ((represents_iff _ _).1 hz1).1
    have e2 := (eventually_fin e1 hz1 (hne _ ht1) _ (intervalBuilt_high (.inl rfl))).2
    refine ⟨_, _, e2, represents_ofPts (increasing_sufPts.2 i1), (sufPts_fst _ _).trans ht1, ?_⟩
    rw [castExpr]
    simp only [rob]
    exact side_always hι hT i1 ht1 (.inl rfl) (.inr rfl) hu
  | @sometime pol e he ih =>
    obtain ⟨z1, zs1, e1, hz1, ht1, hu⟩ := ih fun n hn => hs n (.eventually hn)
    have i1 := ((represents_iff _ _).1 hz1).1
    have e2 := (eventually_fin e1 hz1 (hne _ ht1) _ (intervalBuilt_high (.inl rfl))).1
    refine ⟨_, _, e2, represents_ofPts (increasing_sufPts.2 i1), (sufPts_fst _ _).trans ht1, ?_⟩
    rw [castExpr]
    simp only [rob]
    exact side_eventually hι hT i1 ht1 (.inl rfl) (.inr rfl) hu
  | @untl e e' i hi he he' ih ih' =>
    obtain ⟨z1, zs1, e1, hz1, ht1, hu⟩ := ih fun n hn => hs n (.untl_left hn)
    obtain ⟨z2, zs2, e2, hz2, ht2, hu'⟩ := ih' fun n hn => hs n (.untl_right hn)
    obtain ⟨t0, ts', rfl⟩ := List.exists_cons_of_ne_nil (l := ts) (by rintro rfl; simp at hTm)
    obtain ⟨z, zs, e3, hz, -⟩ := C34_total nd fuel trace sy t0 sig (.untl e e' i) (.untl hi he.plain he'.plain) (by
      intro n hn
      obtain ⟨x, h1, h2, h3⟩ := hs n hn
      obtain ⟨p, r, h4, h5, -⟩ := List.map_eq_cons_iff.1 h3
      exact ⟨x, h1, h2, p.2, r, by rw [h4, ← h5]⟩)
    obtain ⟨zs', hz', h4, h5⟩ := C32_exact_partial nd fuel e e' trace sy z1 z2 z zs1 zs2 e1 hz1 e2 hz2 i e3
    obtain rfl := represents_unique' hz hz'
    have iz := ((represents_iff _ _).1 hz).1
    have i1 := ((represents_iff _ _).1 hz1).1
    have htz : zs.map Prod.fst = t0 :: ts' := by
      refine increasing_ext iz (ht1 ▸ i1) fun t => ?_
      rw [h4, ht1, ht2, or_self]
      exact ⟨fun h => h.1, fun h => ⟨h, mem_dom_of_mem (ht1 ▸ h), mem_dom_of_mem (ht2 ▸ h)⟩⟩
    refine ⟨z, zs, e3, hz, htz, ?_⟩
    have hw := until_weak iz h5
    rw [htz] at hw
    unfold SideOf at hu hu' ⊢
    simp only [Bool.false_eq_true, if_false, castExpr, rob] at hu hu' ⊢
    exact upper_until hι hu hu' hTm (fun t t' ht' => window_ge (castInterval_built hι hi) ht') hw

end

end Verif
