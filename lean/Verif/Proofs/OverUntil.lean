import Verif.Spec.OverUntil
import Verif.Proofs.OneSided
import Verif.Props.Start

/-!
# Helper lemmas for C129
-/

set_option linter.unusedSectionVars false

namespace Verif
open Spec

theorem _root_.Verif.Spec.OverUntil.plain {K : Type} [Field K] [LinearOrder K] [Arith K] {b : Bool} {e : Expr K} (h : OverUntil b e) : Plain e := by
  induction h with
  | base h => exact h.plain
  | untl hi h h' => exact .untl hi h.plain h'.plain
  | not _ ih => exact .not ih
  | always hi _ ih => exact .always hi ih
  | eventually hi _ ih => exact .eventually hi ih
  | globally _ ih => exact .always (.inl rfl) ih
  | sometime _ ih => exact .eventually (.inl rfl) ih

theorem _root_.Verif.Spec.MixUntil.plain {K : Type} [Field K] [LinearOrder K] [Arith K] {b : Bool} {e : Expr K} (h : MixUntil b e) : Plain e := by
  induction h with
  | base h => exact h.plain
  | not _ ih => exact .not ih
  | and hl _ ih => exact .and hl ih
  | or hl _ ih => exact .or hl ih

theorem castInterval_id (i : Interval ℝ) : castInterval (RingHom.id ℝ) i = i := by
  obtain ⟨a, b⟩ := i
  have : ∀ n : INum ℝ, castNum (RingHom.id ℝ) n = n := by
    rintro (n | d)
    · rfl
    · cases d <;> rfl
  rw [castInterval, this, this]

/-- A bound at all times by a piecewise linear function, on a finer grid. -/
theorem dense_upper {pts : List (ℝ × ℝ)} (hi : Increasing pts) {ts : List ℝ} (hd : ∀ t ∈ ts, t ∈ dom pts)
    (hsub : ∀ p ∈ pts, p.1 ∈ ts) {F : ℝ → EReal} (hF : ∀ t ∈ dom pts, F t ≤ ((eval pts t : ℝ) : EReal)) :
    Upper (RingHom.id ℝ) ts F (eval pts) := by
  intro a ha b hb hab hn s h1 h2
  simp only [RingHom.id_apply] at h1 h2 ⊢
  have hs : s ∈ dom pts := by
    obtain ⟨⟨p, hp, hp'⟩, -⟩ := hd a ha
    obtain ⟨-, ⟨q, hq, hq'⟩⟩ := hd b hb
    exact ⟨⟨p, hp, hp'.trans h1⟩, q, hq, h2.trans hq'⟩
  refine (hF s hs).trans (EReal.coe_le_coe_iff.2 ?_)
  rcases hab.eq_or_lt with rfl | hab
  · obtain rfl := le_antisymm h2 h1
    rw [max_self]
  rw [eval_affine hi (hd a ha) (hd b hb) hab (by
    rintro p hp ⟨h3, h4⟩
    rcases hn p.1 (hsub p hp) with h | h
    · exact absurd h (not_le.2 h3)
    · exact absurd h (not_le.2 h4)) h1 h2]
  simp only [line]
  have hd : 0 < b - a := sub_pos.2 hab
  set A := eval pts a
  set B := eval pts b
  set k := (s - a) / (b - a) with hk
  have hk0 : 0 ≤ k := div_nonneg (sub_nonneg.2 h1) hd.le
  have hk1 : k ≤ 1 := (div_le_one hd).2 (by linarith)
  have e : A + (B - A) * k = (1 - k) * A + k * B := by ring
  rw [e]
  have h3 := mul_le_mul_of_nonneg_left (le_max_left A B) (sub_nonneg.2 hk1)
  have h4 := mul_le_mul_of_nonneg_left (le_max_right A B) hk0
  linarith

theorem getLast_of_dom {zs : List (ℝ × ℝ)} {t0 T : ℝ} (hi : Increasing zs) (hne : zs ≠ []) (hd : dom zs = Set.Icc t0 T) :
    (zs.map Prod.fst).getLast? = some T := by
  obtain ⟨l, b, rfl⟩ := List.eq_nil_or_concat zs |>.resolve_left hne
  rw [List.concat_eq_append] at *
  have hb : b.1 ∈ dom (l ++ [b]) := mem_dom_of_mem' (by simp)
  have hb' := hb
  rw [hd] at hb'
  have hT : T ∈ dom (l ++ [b]) := by rw [hd]; exact ⟨hb'.1.trans hb'.2, le_rfl⟩
  obtain ⟨-, q, hq, hqT⟩ := hT
  have : q.1 ≤ b.1 := by
    rcases List.mem_append.1 hq with h | h
    · exact ((increasing_append.1 hi).2.2 q h b (by simp)).le
    · simp at h; rw [h]
  simp [le_antisymm (hqT.trans this) hb'.2]

theorem overUntil_core (nd : Bool) (fuel : Nat) (trace : Trace ℝ) (sy : Bool) (t0 T : ℝ)
    (sig : String → List (ℝ × ℝ)) (phi : Expr ℝ) (pol : Bool) (hp : OverUntil pol phi) (hs : Aligned trace t0 sig phi)
    (hT : ∀ n, Uses n phi → dom (sig n) = Set.Icc t0 T) :
    ∀ z zs, computeRobustness nd fuel phi trace sy = .ok z → Represents z zs →
      SideOf (RingHom.id ℝ) pol (zs.map Prod.fst) (rob T (fun n => eval (sig n)) phi) (eval zs) := by
  have hι : StrictMono (RingHom.id ℝ) := fun _ _ h => h
  induction hp with
  | @base pol e he =>
    intro z zs hz hr
    have hb := bound_core nd fuel trace sy t0 T sig e pol he hs (.inr hT) z zs hz hr
    have hi := ((represents_iff _ _).1 hr).1
    cases pol
    · exact dense_upper hi (fun t ht => mem_dom_of_mem ht) (fun p hp => List.mem_map_of_mem hp) hb
    · unfold SideOf
      rw [if_pos rfl]
      have htn : (negPts zs).map Prod.fst = zs.map Prod.fst := by simp [negPts, Function.comp_def]
      rw [← htn]
      refine (dense_upper (increasing_negPts.2 hi) (fun t ht => mem_dom_of_mem ht) (fun p hp => List.mem_map_of_mem hp)
        fun t ht => ?_).congr fun t _ => eval_negPts _ _
      rw [eval_negPts, EReal.coe_neg, EReal.neg_le_neg_iff]
      exact hb t (by rwa [dom_negPts] at ht)
  | @untl e e' i hi he he' =>
    intro z zs hz hr
    have hs1 : Aligned trace t0 sig e := fun n hn => hs n (.untl_left hn)
    have hs2 : Aligned trace t0 sig e' := fun n hn => hs n (.untl_right hn)
    have hT1 : ∀ n, Uses n e → dom (sig n) = Set.Icc t0 T := fun n hn => hT n (.untl_left hn)
    have hT2 : ∀ n, Uses n e' → dom (sig n) = Set.Icc t0 T := fun n hn => hT n (.untl_right hn)
    obtain ⟨z1, zs1, e1, hz1, h01, hd1⟩ := C34_total nd fuel trace sy t0 sig e he.plain hs1
    obtain ⟨z2, zs2, e2, hz2, h02, hd2⟩ := C34_total nd fuel trace sy t0 sig e' he'.plain hs2
    obtain ⟨z', zs', e3, hz', h03, hd3⟩ := C34_total nd fuel trace sy t0 sig (.untl e e' i)
      (.untl hi he.plain he'.plain) hs
    have hdz := dom_common (.untl hi he.plain he'.plain) hT hd3
    rw [hz] at e3
    simp only [Outcome.ok.injEq] at e3; subst e3
    obtain rfl := represents_unique hr hz'
    have hd1 := dom_common he.plain hT1 hd1
    have hd2 := dom_common he'.plain hT2 hd2
    have i1 := ((represents_iff _ _).1 hz1).1
    have i2 := ((represents_iff _ _).1 hz2).1
    have iz := ((represents_iff _ _).1 hr).1
    obtain ⟨zs', hz'', h4, h5⟩ := C32_exact_partial nd fuel e e' trace sy z1 z2 z zs1 zs2 e1 hz1 e2 hz2 i hz
    obtain rfl := represents_unique hr hz''
    have hw := until_weak iz h5
    have hl := getLast_of_dom iz (by obtain ⟨v, r, rfl⟩ := h03; simp) hdz
    have b1 := bound_core nd fuel trace sy t0 T sig e false he hs1 (.inr hT1) z1 zs1 e1 hz1
    have b2 := bound_core nd fuel trace sy t0 T sig e' false he' hs2 (.inr hT2) z2 zs2 e2 hz2
    have u1 := dense_upper i1 (ts := zs.map Prod.fst) (fun t ht => ((h4 t).1 ht).2.1) (fun p hp => (h4 p.1).2
      ⟨.inl (List.mem_map_of_mem hp), mem_dom_of_mem' hp, by rw [hd2, ← hd1]; exact mem_dom_of_mem' hp⟩) b1
    have u2 := dense_upper i2 (ts := zs.map Prod.fst) (fun t ht => ((h4 t).1 ht).2.2) (fun p hp => (h4 p.1).2
      ⟨.inr (List.mem_map_of_mem hp), by rw [hd1, ← hd2]; exact mem_dom_of_mem' hp, mem_dom_of_mem' hp⟩) b2
    have := upper_until hι u1 u2 (List.mem_of_getLast? hl) (W := window T i) (fun t t' ht' => window_ge hi ht') hw
    unfold SideOf
    simp only [Bool.false_eq_true, if_false, rob]
    exact this
  | @not pol e he ih =>
    intro z zs hz hr
    have hs' : Aligned trace t0 sig e := fun n hn => hs n (.not hn)
    obtain ⟨z1, zs1, e1, hz1, -, -⟩ := C34_total nd fuel trace sy t0 sig e he.plain hs'
    have hu := ih hs' (fun n hn => hT n (.not hn)) z1 zs1 e1 hz1
    obtain ⟨i1, rfl⟩ := (represents_iff _ _).1 hz1
    have e2 : computeRobustness nd fuel (.not e) trace sy = .ok (ofPts (negPts zs1)) := by
      rw [C21_not_negates, e1]; exact congrArg Outcome.ok (negSig_ofPts i1)
    rw [hz] at e2
    simp only [Outcome.ok.injEq] at e2; subst e2
    obtain rfl := represents_unique hr (represents_ofPts (increasing_negPts.2 i1))
    rw [show (negPts zs1).map Prod.fst = zs1.map Prod.fst by simp [negPts, Function.comp_def]]
    rw [← sideOf_neg] at hu
    simp only [Bool.not_not] at hu
    simp only [rob]
    exact hu.congr fun t _ => (eval_negPts _ _).symm
  | @always e i hi he ih =>
    intro z zs hz hr
    have hs' : Aligned trace t0 sig e := fun n hn => hs n (.always hn)
    have hT' : ∀ n, Uses n e → dom (sig n) = Set.Icc t0 T := fun n hn => hT n (.always hn)
    obtain ⟨z1, zs1, e1, hz1, h0, hdz⟩ := C34_total nd fuel trace sy t0 sig e he.plain hs'
    have i1 := ((represents_iff _ _).1 hz1).1
    have e2 := (eventually_fin e1 hz1 (StartsAt.ne h0) i (intervalBuilt_high hi)).2
    rw [hz] at e2
    simp only [Outcome.ok.injEq] at e2; subst e2
    obtain rfl := represents_unique hr (represents_ofPts (increasing_sufPts.2 i1))
    have hl := getLast_of_dom i1 (StartsAt.ne h0) (dom_common he.plain hT' hdz)
    have := side_always hι hl i1 rfl hi (.inl rfl) (ih hs' hT' _ _ e1 hz1)
    rw [castInterval_id] at this
    rw [sufPts_fst]
    simp only [rob]
    exact this
  | @eventually e i hi he ih =>
    intro z zs hz hr
    have hs' : Aligned trace t0 sig e := fun n hn => hs n (.eventually hn)
    have hT' : ∀ n, Uses n e → dom (sig n) = Set.Icc t0 T := fun n hn => hT n (.eventually hn)
    obtain ⟨z1, zs1, e1, hz1, h0, hdz⟩ := C34_total nd fuel trace sy t0 sig e he.plain hs'
    have i1 := ((represents_iff _ _).1 hz1).1
    have e2 := (eventually_fin e1 hz1 (StartsAt.ne h0) i (intervalBuilt_high hi)).1
    rw [hz] at e2
    simp only [Outcome.ok.injEq] at e2; subst e2
    obtain rfl := represents_unique hr (represents_ofPts (increasing_sufPts.2 i1))
    have hl := getLast_of_dom i1 (StartsAt.ne h0) (dom_common he.plain hT' hdz)
    have := side_eventually hι hl i1 rfl hi (.inl rfl) (ih hs' hT' _ _ e1 hz1)
    rw [castInterval_id] at this
    rw [sufPts_fst]
    simp only [rob]
    exact this
  | @globally pol e he ih =>
    intro z zs hz hr
    have hs' : Aligned trace t0 sig e := fun n hn => hs n (.always hn)
    have hT' : ∀ n, Uses n e → dom (sig n) = Set.Icc t0 T := fun n hn => hT n (.always hn)
    obtain ⟨z1, zs1, e1, hz1, h0, hdz⟩ := C34_total nd fuel trace sy t0 sig e he.plain hs'
    have i1 := ((represents_iff _ _).1 hz1).1
    have e2 := (eventually_fin e1 hz1 (StartsAt.ne h0) _ default_high).2
    rw [hz] at e2
    simp only [Outcome.ok.injEq] at e2; subst e2
    obtain rfl := represents_unique hr (represents_ofPts (increasing_sufPts.2 i1))
    have hl := getLast_of_dom i1 (StartsAt.ne h0) (dom_common he.plain hT' hdz)
    have := side_always hι hl i1 rfl (.inl rfl) (.inr rfl) (ih hs' hT' _ _ e1 hz1)
    rw [castInterval_id] at this
    rw [sufPts_fst]
    simp only [rob]
    exact this
  | @sometime pol e he ih =>
    intro z zs hz hr
    have hs' : Aligned trace t0 sig e := fun n hn => hs n (.eventually hn)
    have hT' : ∀ n, Uses n e → dom (sig n) = Set.Icc t0 T := fun n hn => hT n (.eventually hn)
    obtain ⟨z1, zs1, e1, hz1, h0, hdz⟩ := C34_total nd fuel trace sy t0 sig e he.plain hs'
    have i1 := ((represents_iff _ _).1 hz1).1
    have e2 := (eventually_fin e1 hz1 (StartsAt.ne h0) _ default_high).1
    rw [hz] at e2
    simp only [Outcome.ok.injEq] at e2; subst e2
    obtain rfl := represents_unique hr (represents_ofPts (increasing_sufPts.2 i1))
    have hl := getLast_of_dom i1 (StartsAt.ne h0) (dom_common he.plain hT' hdz)
    have := side_eventually hι hl i1 rfl (.inl rfl) (.inr rfl) (ih hs' hT' _ _ e1 hz1)
    rw [castInterval_id] at this
    rw [sufPts_fst]
    simp only [rob]
    exact this

theorem mixUntil_core (nd : Bool) (fuel : Nat) (trace : Trace ℝ) (sy : Bool) (t0 T : ℝ)
    (sig : String → List (ℝ × ℝ)) (phi : Expr ℝ) (pol : Bool) (hp : MixUntil pol phi) (hs : Aligned trace t0 sig phi)
    (hT : ∀ n, Uses n phi → dom (sig n) = Set.Icc t0 T) :
    ∀ z zs, computeRobustness nd fuel phi trace sy = .ok z → Represents z zs →
      Bound pol (eval zs t0 : ℝ) (rob T (fun n => eval (sig n)) phi t0) := by
  induction hp with
  | @base pol e he =>
    intro z zs hz hr
    obtain ⟨z', zs', e1, hz', h0, hd⟩ := C34_total nd fuel trace sy t0 sig e he.plain hs
    rw [hz] at e1
    simp only [Outcome.ok.injEq] at e1; subst e1
    obtain rfl := represents_unique hr hz'
    have := overUntil_core nd fuel trace sy t0 T sig e pol he hs hT z zs hz hr
    have hm : t0 ∈ zs.map Prod.fst := by obtain ⟨v, r, rfl⟩ := h0; simp
    cases pol
    · exact Upper.at (ι := RingHom.id ℝ) this hm
    · have := Upper.at (ι := RingHom.id ℝ) this hm
      simp only [RingHom.id_apply, EReal.coe_neg, EReal.neg_le_neg_iff] at this
      exact this
  | @not pol e he ih =>
    intro z zs hz hr
    have hs' : Aligned trace t0 sig e := fun n hn => hs n (.not hn)
    obtain ⟨z1, zs1, e1, hz1, -, -⟩ := C34_total nd fuel trace sy t0 sig e he.plain hs'
    obtain ⟨i1, rfl⟩ := (represents_iff _ _).1 hz1
    have e2 : computeRobustness nd fuel (.not e) trace sy = .ok (ofPts (negPts zs1)) := by
      rw [C21_not_negates, e1]; exact congrArg Outcome.ok (negSig_ofPts i1)
    rw [hz] at e2
    simp only [Outcome.ok.injEq] at e2; subst e2
    obtain rfl := represents_unique hr (represents_ofPts (increasing_negPts.2 i1))
    have := ih hs' (fun n hn => hT n (.not hn)) _ _ e1 hz1
    rw [eval_negPts, rob, EReal.coe_neg]
    cases pol <;> simpa [Bound] using this
  | @and pol args hl hsub ih =>
    intro z zs hz hr
    have ih' : ∀ e : Expr ℝ, ∃ zs : List (ℝ × ℝ), e ∈ args → ∃ x,
        computeRobustness nd fuel e trace sy = .ok x ∧ Represents x zs ∧ (∃ v r, zs = (t0, v) :: r) := by
      intro e
      by_cases he : e ∈ args
      · obtain ⟨z, zs, h1, h2, h3, h4⟩ :=
          C34_total nd fuel trace sy t0 sig e (hsub e he).plain fun n hn => hs n (.and he hn)
        exact ⟨zs, fun _ => ⟨z, h1, h2, h3⟩⟩
      · exact ⟨[], fun h => absurd h he⟩
    choose p hpe using ih'
    have hne : args ≠ [] := by rintro rfl; simp at hl
    obtain ⟨z', zs', e1, hz', h0, hdz, hv⟩ := C24_and_nary nd fuel trace sy t0 p args hne hpe
    rw [hz] at e1
    simp only [Outcome.ok.injEq] at e1; subst e1
    obtain rfl := represents_unique hr hz'
    obtain ⟨r, -, ht⟩ := eval_start h0 ((represents_iff _ _).1 hr).1
    have hb : ∀ e ∈ args, Bound pol (eval (p e) t0 : ℝ) (rob T (fun n => eval (sig n)) e t0) := by
      intro e he
      obtain ⟨x, h1, h2, -⟩ := hpe e he
      exact ih e he (fun n hn => hs n (.and he hn)) (fun n hn => hT n (.and he hn)) _ _ h1 h2
    have hv := hv t0 ht
    rw [rob]
    cases pol with
    | true =>
      simp only [Bound, if_true] at hb ⊢
      rw [le_robAll]
      intro e he
      exact (EReal.coe_le_coe_iff.2 (hv.2 ⟨e, he, rfl⟩)).trans (hb e he)
    | false =>
      obtain ⟨e, he, hee⟩ := hv.1
      have := hb e he
      simp only [Bound, Bool.false_eq_true, if_false] at this ⊢
      rw [hee]
      exact (robAll_le he).trans this
  | @or pol args hl hsub ih =>
    intro z zs hz hr
    have ih' : ∀ e : Expr ℝ, ∃ zs : List (ℝ × ℝ), e ∈ args → ∃ x,
        computeRobustness nd fuel e trace sy = .ok x ∧ Represents x zs ∧ (∃ v r, zs = (t0, v) :: r) := by
      intro e
      by_cases he : e ∈ args
      · obtain ⟨z, zs, h1, h2, h3, h4⟩ :=
          C34_total nd fuel trace sy t0 sig e (hsub e he).plain fun n hn => hs n (.or he hn)
        exact ⟨zs, fun _ => ⟨z, h1, h2, h3⟩⟩
      · exact ⟨[], fun h => absurd h he⟩
    choose p hpe using ih'
    have hne : args ≠ [] := by rintro rfl; simp at hl
    obtain ⟨z', zs', e1, hz', h0, hdz, hv⟩ := C24_or_nary nd fuel trace sy t0 p args hne hpe
    rw [hz] at e1
    simp only [Outcome.ok.injEq] at e1; subst e1
    obtain rfl := represents_unique hr hz'
    obtain ⟨r, -, ht⟩ := eval_start h0 ((represents_iff _ _).1 hr).1
    have hb : ∀ e ∈ args, Bound pol (eval (p e) t0 : ℝ) (rob T (fun n => eval (sig n)) e t0) := by
      intro e he
      obtain ⟨x, h1, h2, -⟩ := hpe e he
      exact ih e he (fun n hn => hs n (.or he hn)) (fun n hn => hT n (.or he hn)) _ _ h1 h2
    have hv := hv t0 ht
    rw [rob]
    cases pol with
    | false =>
      simp only [Bound, Bool.false_eq_true, if_false] at hb ⊢
      rw [robAny_le]
      intro e he
      exact (hb e he).trans (EReal.coe_le_coe_iff.2 (hv.2 ⟨e, he, rfl⟩))
    | true =>
      obtain ⟨e, he, hee⟩ := hv.1
      have := hb e he
      simp only [Bound, if_true] at this ⊢
      rw [hee]
      exact this.trans (le_robAny he)

end Verif
