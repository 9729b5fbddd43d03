import Verif.Proofs.Actual
import Verif.Props.Sampling
import Verif.Props.Until

/-! # Until over signals and in dense time -/

set_option linter.unusedSectionVars false

namespace Verif
open Spec

theorem actuals_eq {K : Type} [Field K] [LinearOrder K] : ∀ args : List (Expr K), actuals args = args.map actual
  | [] => rfl
  | e :: es => by rw [actuals, actuals_eq es]; rfl

theorem _root_.Verif.Spec.Levels.plain {K : Type} [Field K] [LinearOrder K] [Arith K] {d : Nat} {e : Expr K}
    (h : Levels d e) : Plain e := by
  induction h with
  | pred _ n op c => exact .pred n op c
  | not _ ih => exact .not ih
  | and hl _ ih => exact .and hl ih
  | or hl _ ih => exact .or hl ih
  | always hi _ ih => exact .always hi ih
  | eventually hi _ ih => exact .eventually hi ih
  | untl hi _ _ ih ih' => exact .untl hi ih ih'

theorem _root_.Verif.Spec.Levels.mono {K : Type} [Field K] [LinearOrder K] {d : Nat} {e : Expr K} (h : Levels d e) :
    ∀ {d' : Nat}, d ≤ d' → Levels d' e := by
  induction h with
  | pred _ n op c => exact fun _ => .pred _ n op c
  | not _ ih => exact fun h => .not (ih h)
  | and hl _ ih => exact fun h => .and hl fun e he => ih e he h
  | or hl _ ih => exact fun h => .or hl fun e he => ih e he h
  | always hi _ ih =>
    intro d' h
    obtain ⟨k, rfl⟩ := Nat.exists_eq_add_of_le h
    rw [Nat.add_right_comm]
    exact .always hi (ih (Nat.le_add_right _ _))
  | eventually hi _ ih =>
    intro d' h
    obtain ⟨k, rfl⟩ := Nat.exists_eq_add_of_le h
    rw [Nat.add_right_comm]
    exact .eventually hi (ih (Nat.le_add_right _ _))
  | untl hi _ _ ih ih' =>
    intro d' h
    obtain ⟨k, rfl⟩ := Nat.exists_eq_add_of_le h
    rw [Nat.add_right_comm]
    exact .untl hi (ih (Nat.le_add_right _ _)) (ih' (Nat.le_add_right _ _))

theorem plain_levels {K : Type} [Field K] [LinearOrder K] {e : Expr K} (h : Plain e) : ∃ d, Levels d e := by
  have hlist : ∀ args : List (Expr K), (∀ e ∈ args, ∃ d, Levels d e) → ∃ d, ∀ e ∈ args, Levels d e := by
    intro args
    induction args with
    | nil => exact fun _ => ⟨0, by simp⟩
    | cons a l ih =>
      intro h
      obtain ⟨d, hd⟩ := h a (by simp)
      obtain ⟨d', hd'⟩ := ih fun e he => h e (by simp [he])
      refine ⟨max d d', fun e he => ?_⟩
      rcases List.mem_cons.1 he with rfl | he
      · exact hd.mono (le_max_left _ _)
      · exact (hd' e he).mono (le_max_right _ _)
  induction h with
  | pred n op c => exact ⟨0, .pred 0 n op c⟩
  | not _ ih => obtain ⟨d, h⟩ := ih; exact ⟨d, .not h⟩
  | and hl _ ih => obtain ⟨d, h⟩ := hlist _ ih; exact ⟨d, .and hl h⟩
  | or hl _ ih => obtain ⟨d, h⟩ := hlist _ ih; exact ⟨d, .or hl h⟩
  | always hi _ ih => obtain ⟨d, h⟩ := ih; exact ⟨_, .always hi h⟩
  | eventually hi _ ih => obtain ⟨d, h⟩ := ih; exact ⟨_, .eventually hi h⟩
  | untl hi _ _ ih ih' =>
    obtain ⟨d, h⟩ := ih
    obtain ⟨d', h'⟩ := ih'
    exact ⟨_, .untl hi (h.mono (le_max_left d d')) (h'.mono (le_max_right d d'))⟩

theorem built_default {K : Type} [Field K] [LinearOrder K] : IntervalBuilt (⟨.dbl 0, .dbl .pinf⟩ : Interval K) := .inl rfl

theorem actual_plain {K : Type} [Field K] [LinearOrder K] {e : Expr K} (h : Plain e) : Plain (actual e) := by
  induction h with
  | pred n op c => exact .pred n op c
  | not _ ih => exact .not ih
  | and hl _ ih =>
    rw [actual, actuals_eq]
    refine .and (by simpa using hl) fun e he => ?_
    obtain ⟨a, ha, rfl⟩ := List.mem_map.1 he
    exact ih a ha
  | or hl _ ih =>
    rw [actual, actuals_eq]
    refine .or (by simpa using hl) fun e he => ?_
    obtain ⟨a, ha, rfl⟩ := List.mem_map.1 he
    exact ih a ha
  | always _ _ ih => exact .always built_default ih
  | eventually _ _ ih => exact .eventually built_default ih
  | @untl e e' i _ _ _ ih ih' =>
    have hpsi : Plain (.or [actual e', .always (.not (actual e')) ⟨.dbl 0, .dbl .pinf⟩]) := by
      refine .or (by simp) fun a ha => ?_
      simp only [List.mem_cons, List.not_mem_nil, or_false] at ha
      rcases ha with rfl | rfl
      · exact ih'
      · exact .always built_default (.not ih')
    rw [actual]
    refine .or (by simp) fun a ha => ?_
    simp only [List.mem_cons, List.not_mem_nil, or_false] at ha
    rcases ha with rfl | rfl | rfl
    · exact hpsi
    · exact .untl built_default ih hpsi
    · exact .always built_default ih

/-- The translation uses the same signals. -/
theorem uses_actual {K : Type} [Field K] [LinearOrder K] {n : String} {e : Expr K} (hp : Plain e) :
    Uses n (actual e) → Uses n e := by
  induction hp with
  | pred n op c => exact id
  | not _ ih => intro h; cases h with | not h => exact .not (ih h)
  | and hl _ ih =>
    intro h
    rw [actual, actuals_eq] at h
    cases h with
    | and hm h => obtain ⟨a, ha, rfl⟩ := List.mem_map.1 hm; exact .and ha (ih a ha h)
  | or hl _ ih =>
    intro h
    rw [actual, actuals_eq] at h
    cases h with
    | or hm h => obtain ⟨a, ha, rfl⟩ := List.mem_map.1 hm; exact .or ha (ih a ha h)
  | always _ _ ih => intro h; cases h with | always h => exact .always (ih h)
  | eventually _ _ ih => intro h; cases h with | eventually h => exact .eventually (ih h)
  | @untl e e' i _ _ _ ih ih' =>
    have hpsi : Uses n (.or [actual e', .always (.not (actual e')) ⟨.dbl 0, .dbl .pinf⟩]) → Uses n e' := by
      intro h
      cases h with
      | or hm h =>
        simp only [List.mem_cons, List.not_mem_nil, or_false] at hm
        rcases hm with rfl | rfl
        · exact ih' h
        · cases h with | always h => cases h with | not h => exact ih' h
    intro h
    rw [actual] at h
    cases h with
    | or hm h =>
      simp only [List.mem_cons, List.not_mem_nil, or_false] at hm
      rcases hm with rfl | rfl | rfl
      · exact .untl_right (hpsi h)
      · cases h with
        | untl_left h => exact .untl_left (ih h)
        | untl_right h => exact .untl_right (hpsi h)
      · cases h with | always h => exact .untl_left (ih h)

theorem near_line {ε t : ℝ} {p q : ℝ × ℝ} {w : EReal} (hpq : p.1 < q.1) (h1 : p.1 ≤ t) (h2 : t ≤ q.1)
    (hp : Near ε p.2 w) (hq : Near ε q.2 w) : Near ε (line p q t) w := by
  obtain ⟨r, rfl, k1⟩ := hp.real
  obtain ⟨r', hr, k2⟩ := hq.real
  rw [EReal.coe_eq_coe_iff] at hr; subst hr
  rw [abs_le] at k1 k2
  have hd : 0 < q.1 - p.1 := sub_pos.2 hpq
  set a := (t - p.1) / (q.1 - p.1) with ha
  have a0 : 0 ≤ a := div_nonneg (by linarith) hd.le
  have a1 : a ≤ 1 := by rw [ha, div_le_one hd]; linarith
  have e : line p q t = (1 - a) * p.2 + a * q.2 := by rw [ha]; simp only [line]; field_simp; ring
  rw [e]
  constructor <;> rw [EReal.coe_le_coe_iff] <;> nlinarith

/-- One Until: the computed signal, joined by straight lines, and the dense-time value of the translation. -/
theorem near_until {nd : Bool} {fuel : Nat} {phi psi : Expr ℝ} {trace : Trace ℝ} {sy : Bool} {x y z : Signal ℝ}
    {xs ys zs : List (ℝ × ℝ)} {t0 T δ ε : ℝ} (hδ : 0 ≤ δ)
    (h1 : computeRobustness nd fuel phi trace sy = .ok x) (hx : Represents x xs)
    (h2 : computeRobustness nd fuel psi trace sy = .ok y) (hy : Represents y ys) (i : Interval ℝ)
    (h3 : computeRobustness nd fuel (.untl phi psi i) trace sy = .ok z) (hz : Represents z zs)
    (hdx : dom xs = Set.Icc t0 T) (hdy : dom ys = Set.Icc t0 T) (hdz : dom zs = Set.Icc t0 T)
    (sx : StepAtMost δ xs) (sy' : StepAtMost δ ys) (h0 : t0 ≤ T) {F G : ℝ → EReal}
    (hF : ∀ t ∈ Set.Icc t0 T, Near ε (eval xs t) (F t)) (hG : ∀ t ∈ Set.Icc t0 T, Near ε (eval ys t) (G t)) :
    StepAtMost δ zs ∧ ∀ t ∈ Set.Icc t0 T, Near (ε + δ) (eval zs t) ((G t ⊔ ⨅ u ∈ Set.Icc t T, - G u) ⊔
      ((⨆ s ∈ Set.Icc t T, ((G s ⊔ ⨅ u ∈ Set.Icc s T, - G u) ⊓ ⨅ u ∈ Set.Icc t s, F u)) ⊔
        ⨅ u ∈ Set.Icc t T, F u)) := by
  obtain ⟨zs', hz', hS, hv⟩ := C32_exact_partial nd fuel phi psi trace sy x y z xs ys h1 hx h2 hy i h3
  obtain rfl := represents_unique hz hz'
  have ix := ((represents_iff _ _).1 hx).1
  have iy := ((represents_iff _ _).1 hy).1
  have iz := ((represents_iff _ _).1 hz).1
  set S : Set ℝ := {t | t ∈ zs.map Prod.fst} with hSdef
  have hsub : ∀ t ∈ S, t ∈ Set.Icc t0 T := fun t ht => by rw [← hdx]; exact ((hS t).1 ht).2.1
  have hmx : ∀ p ∈ xs, p.1 ∈ S := fun p hp => (hS p.1).2 ⟨.inl (List.mem_map_of_mem hp), mem_dom_of_mem' hp, by
    rw [hdy, ← hdx]; exact mem_dom_of_mem' hp⟩
  have hmy : ∀ p ∈ ys, p.1 ∈ S := fun p hp => (hS p.1).2 ⟨.inr (List.mem_map_of_mem hp), by
    rw [hdx, ← hdy]; exact mem_dom_of_mem' hp, mem_dom_of_mem' hp⟩
  have hcell : ∀ {ws : List (ℝ × ℝ)}, Increasing ws → dom ws = Set.Icc t0 T → StepAtMost δ ws → (∀ p ∈ ws, p.1 ∈ S) →
      ∀ t ∈ Set.Icc t0 T, ∀ e, Beside S t e → |eval ws t - eval ws e| ≤ δ := by
    intro ws hi hd hst hm t ht e hb
    have he := hsub e hb.1
    rcases le_total t e with h | h
    · rw [abs_sub_comm]
      exact step_cell hδ hi hst (hd ▸ ht) (hd ▸ he) h fun p hp =>
        (hb.2 p.1 (hm p hp)).imp (fun h => h.2) fun h => h.1
    · exact step_cell hδ hi hst (hd ▸ he) (hd ▸ ht) h fun p hp =>
        (hb.2 p.1 (hm p hp)).imp (fun h => h.1) fun h => h.2
  have hends : t0 ∈ S ∧ T ∈ S := by
    have k1 : t0 ∈ dom xs := by rw [hdx]; exact ⟨le_rfl, h0⟩
    have k2 : T ∈ dom xs := by rw [hdx]; exact ⟨h0, le_rfl⟩
    obtain ⟨⟨p, hp, hpt⟩, -⟩ := k1
    obtain ⟨-, q, hq, hqt⟩ := k2
    have e1 : p.1 = t0 := le_antisymm hpt (hsub _ (hmx p hp)).1
    have e2 : q.1 = T := le_antisymm (hsub _ (hmx q hq)).2 hqt
    exact ⟨e1 ▸ hmx p hp, e2 ▸ hmx q hq⟩
  have c : StepCells S t0 T δ (eval xs) (eval ys) :=
    ⟨List.finite_toSet _, hsub, hends.1, hends.2, hcell ix hdx sx hmx, hcell iy hdy sy' hmy⟩
  have hw : ∀ p ∈ zs, IsGreatest (weakAt S (eval xs) (eval ys) p.1) p.2 := hv
  have hadj : ∀ {l p q r}, zs = l ++ p :: q :: r → ∀ u ∈ S, u ≤ p.1 ∨ q.1 ≤ u := by
    intro l p q r e u hu
    obtain ⟨a, ha, rfl⟩ := List.mem_map.1 hu
    subst e
    exact increasing_adjacent iz a ha
  have hlt : ∀ {l p q r}, zs = l ++ p :: q :: r → p.1 < q.1 := by
    intro l p q r e
    rw [e] at iz
    exact (increasing_cons.1 (increasing_append.1 iz).2.1).1 q (by simp)
  refine ⟨isChain_of_adjacent fun l p q r e => ?_, fun t ht => ?_⟩
  · have hp : p ∈ zs := by rw [e]; simp
    have hq : q ∈ zs := by rw [e]; simp
    refine c.weak_step ⟨List.mem_map_of_mem hp, fun u hu => ?_⟩ (List.mem_map_of_mem hq) (hw p hp) (hw q hq)
    have := hlt e
    rcases hadj e u hu with h | h
    · exact .inl ⟨h, h.trans this.le⟩
    · exact .inr ⟨this.le.trans h, h⟩
  · rcases dom_cases iz (hdz ▸ ht : t ∈ dom zs) with ⟨p, hp, rfl⟩ | ⟨l, p, q, r, e, k1, k2⟩
    · have hpm : p ∈ zs := by rw [hp]; simp
      rw [eval_mem iz hpm]
      exact c.near_weak hF hG ht (beside_self (List.mem_map_of_mem hpm)) (hw p hpm)
    · have hp : p ∈ zs := by rw [e]; simp
      have hq : q ∈ zs := by rw [e]; simp
      have : eval zs t = line p q t := by rw [e] at iz ⊢; exact eval_seg _ _ _ _ iz k1 k2
      rw [this]
      refine near_line (hlt e) k1 k2 (c.near_weak hF hG ht ⟨List.mem_map_of_mem hp, fun u hu => ?_⟩ (hw p hp))
        (c.near_weak hF hG ht ⟨List.mem_map_of_mem hq, fun u hu => ?_⟩ (hw q hq))
      · rcases hadj e u hu with h | h
        · exact .inl ⟨h, h.trans k1⟩
        · exact .inr ⟨(hlt e).le.trans h, k2.trans h⟩
      · rcases hadj e u hu with h | h
        · exact .inl ⟨h.trans (hlt e).le, h.trans k1⟩
        · exact .inr ⟨h, k2.trans h⟩

end Verif
