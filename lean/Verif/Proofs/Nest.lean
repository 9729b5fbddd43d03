import Verif.Spec.Nest
import Verif.Proofs.SyncAcc
import Verif.Proofs.MarginPair
import Verif.Props.Ast

/-! # The rounding errors of nested Boolean formulas, at all real times -/

set_option linter.unusedSectionVars false
set_option exponentiation.threshold 1100

namespace Verif
open Spec

section
variable {K : Type} [Field K] [LinearOrder K] [Arith K]

theorem vec_snoc {nd : Bool} {comp : Cmp K} {xs : List (Signal K)} (h : xs ≠ []) {y z : Signal K}
    (hz : minmaxVec nd comp (xs ++ [y]) false = .ok z) :
    ∃ x, minmaxVec nd comp xs false = .ok x ∧ minmaxPair nd comp x y false = .ok z := by
  match xs, h with
  | [x], _ => exact ⟨x, rfl, hz⟩
  | x :: x' :: xs, _ =>
    rw [minmaxVec_snoc _ _ _ _ (by simp), Outcome.bind_eq_ok] at hz
    obtain ⟨a, h1, h2⟩ := hz
    exact ⟨a, h1, h2⟩

theorem args_snoc {r : RobustnessOp K} {es : List (Expr K)} {e : Expr K} (hne : es ≠ []) {comp : Cmp K} {z : Signal K}
    (h : (r.computeArgs (es ++ [e]) >>= fun ys => minmaxVec r.ndebug comp ys false) = .ok z) :
    ∃ x y, (r.computeArgs es >>= fun ys => minmaxVec r.ndebug comp ys false) = .ok x ∧ r.compute e = .ok y ∧
      minmaxPair r.ndebug comp x y false = .ok z := by
  rw [computeArgs_append] at h
  simp only [Outcome.bind_eq_ok, RobustnessOp.computeArgs, Outcome.pure_eq_ok, Outcome.ok.injEq] at h
  obtain ⟨ys, ⟨xs, h1, l, ⟨y, h2, m, rfl, rfl⟩, rfl⟩, h3⟩ := h
  have hx : xs ≠ [] := by
    rintro rfl
    have := computeArgs_len r es [] h1
    exact hne (List.length_eq_zero_iff.1 this.symm)
  obtain ⟨x, h4, h5⟩ := vec_snoc hx h3
  exact ⟨x, y, Outcome.bind_eq_ok.2 ⟨xs, h1, h4⟩, h2, h5⟩

theorem nest_and_ne {C : K → Prop} {R : Expr K → Expr K → Prop} {k : Nat} {es : List (Expr K)}
    (h : Nest C R k (.and es)) : es ≠ [] := by
  generalize he : Expr.and es = e at h
  cases h <;> simp_all

theorem nest_or_ne {C : K → Prop} {R : Expr K → Expr K → Prop} {k : Nat} {es : List (Expr K)}
    (h : Nest C R k (.or es)) : es ≠ [] := by
  generalize he : Expr.or es = e at h
  cases h <;> simp_all

end

theorem robAll_append (T : ℝ) (x : String → ℝ → ℝ) (t : ℝ) (e : Expr ℝ) : ∀ es : List (Expr ℝ),
    robAll T x (es ++ [e]) t = robAll T x es t ⊓ rob T x e t
  | [] => by simp [robAll]
  | a :: es => by rw [List.cons_append, robAll, robAll, robAll_append T x t e es, inf_assoc]

theorem robAny_append (T : ℝ) (x : String → ℝ → ℝ) (t : ℝ) (e : Expr ℝ) : ∀ es : List (Expr ℝ),
    robAny T x (es ++ [e]) t = robAny T x es t ⊔ rob T x e t
  | [] => by simp [robAny]
  | a :: es => by rw [List.cons_append, robAny, robAny, robAny_append T x t e es, sup_assoc]

theorem castExprs_append {K : Type} (ι : K → ℝ) (e : Expr K) : ∀ es : List (Expr K),
    castExprs ι (es ++ [e]) = castExprs ι es ++ [castExpr ι e]
  | [] => rfl
  | a :: es => by rw [List.cons_append, castExprs, castExprs, castExprs_append ι e es]; rfl

theorem Nearby.mono {d d' : ℝ} {f g : EReal} (h : Nearby d f g) (hd : d ≤ d') : Nearby d' f g :=
  ⟨h.1.trans (add_le_add_right (EReal.coe_le_coe_iff.2 hd) _), h.2.trans (add_le_add_right (EReal.coe_le_coe_iff.2 hd) _)⟩

theorem Nearby.min {d a b : ℝ} {f g : EReal} (h : Nearby d a f) (h' : Nearby d b g) :
    Nearby d (min a b : ℝ) (f ⊓ g) := by
  have := (Nearby.max (a := -a) (b := -b) (by simpa using h.neg) (by simpa using h'.neg)).neg
  rw [max_neg_neg] at this
  have e : -(-f ⊔ -g) = f ⊓ g := by
    rcases le_total f g with e | e
    · rw [inf_eq_left.2 e, sup_eq_left.2 (EReal.neg_le_neg_iff.2 e), neg_neg]
    · rw [inf_eq_right.2 e, sup_eq_right.2 (EReal.neg_le_neg_iff.2 e), neg_neg]
  rw [e] at this
  simpa using this

theorem Nearby.shift {d b u v : ℝ} {g : EReal} (h : Nearby d v g) (huv : |u - v| ≤ b) : Nearby (d + b) u g := by
  obtain ⟨h1, h2⟩ := abs_le.1 huv
  constructor
  · have e1 : (u : EReal) ≤ (v : EReal) + (b : ℝ) := by
      rw [← EReal.coe_add, EReal.coe_le_coe_iff]; linarith
    refine e1.trans ((add_mono' b h.1).trans ?_)
    rw [EReal.coe_add, add_assoc]
  · refine h.2.trans ?_
    rw [← EReal.coe_add, ← EReal.coe_add, EReal.coe_le_coe_iff]; linarith

namespace B64

/-- From the rational times to the real ones. -/
theorem real_of_rat {zs : List (ℚ × ℚ)} (iz : Increasing zs) {F : ℝ → ℝ} (hF : Continuous F) {b : ℝ}
    (h : ∀ t ∈ dom zs, |eval (rpts zs) (t : ℝ) - F (t : ℝ)| ≤ b) :
    ∀ t ∈ dom (rpts zs), |eval (rpts zs) t - F t| ≤ b := by
  intro t ht
  have zne : zs ≠ [] := by
    rintro rfl
    obtain ⟨⟨q, hq, -⟩, -⟩ := ht
    simp [rpts, castPts] at hq
  obtain ⟨q, l, hq⟩ := List.exists_cons_of_ne_nil zne
  obtain ⟨⟨T, w⟩, hw⟩ : ∃ p, zs.getLast? = some p := by
    cases h : zs.getLast? with
    | none => exact absurd (List.getLast?_eq_none_iff.1 h) zne
    | some p => exact ⟨p, rfl⟩
  have mq : q ∈ zs := by rw [hq]; simp
  have mT : (T, w) ∈ zs := List.mem_of_getLast? hw
  have cz := eval_continuous (castPts_increasing rat_mono iz)
  have cont : Continuous fun t => |eval (rpts zs) t - F t| := (cz.sub hF).abs
  have hqT : q.1 ≤ T := by
    rw [hq] at mT iz
    rcases List.mem_cons.1 mT with e | e
    · rw [← e]
    · exact ((increasing_cons.1 iz).1 _ e).le
  rw [castPts_dom rat_mono iz hq hw] at ht
  exact dense_bound hqT cont (fun t h0 h1 => h t ⟨⟨q, mq, h0⟩, _, mT, h1⟩) t ht.1 ht.2

theorem last_of_dom {xs zs : List (ℚ × ℚ)} (ix : Increasing xs) (iz : Increasing zs) (hd : dom zs = dom xs) {T : ℚ}
    (hT : ∃ v, xs.getLast? = some (T, v)) : ∃ v, zs.getLast? = some (T, v) := by
  obtain ⟨v, hv⟩ := hT
  have top : ∀ {l : List (ℚ × ℚ)} {p : ℚ × ℚ}, Increasing l → l.getLast? = some p → p ∈ l ∧ ∀ q ∈ l, q.1 ≤ p.1 := by
    intro l p il hp
    refine ⟨List.mem_of_getLast? hp, fun q hq => ?_⟩
    obtain ⟨l', rfl⟩ := List.getLast?_eq_some_iff.1 hp
    rcases List.mem_append.1 hq with hq | hq
    · exact ((increasing_append.1 il).2.2 q hq p (by simp)).le
    · simp only [List.mem_singleton] at hq; rw [hq]
  obtain ⟨mT, hx⟩ := top ix hv
  have h1 : T ∈ dom zs := by rw [hd]; exact ⟨⟨_, mT, le_rfl⟩, _, mT, le_rfl⟩
  have zne : zs ≠ [] := by obtain ⟨⟨q, hq, -⟩, -⟩ := h1; exact List.ne_nil_of_mem hq
  obtain ⟨q, hq⟩ : ∃ q, zs.getLast? = some q := by
    cases h : zs.getLast? with
    | none => exact absurd (List.getLast?_eq_none_iff.1 h) zne
    | some q => exact ⟨q, rfl⟩
  obtain ⟨mq, hz⟩ := top iz hq
  have h2 : q.1 ∈ dom xs := by rw [← hd]; exact ⟨⟨_, mq, le_rfl⟩, _, mq, le_rfl⟩
  obtain ⟨-, r, hr, hTr⟩ := h1
  obtain ⟨-, r', hr', hqr⟩ := h2
  have e : q.1 = T := le_antisymm (hqr.trans (hx r' hr')) (hTr.trans (hz r hr))
  exact ⟨q.2, by rw [hq, ← e]⟩

/-- The error of one And or Or. -/
def step (V H d : ℚ) : ℚ := 1 / 2 ^ 46 * V * (1 + H / d)

/-- One And or Or at all real times. -/
theorem sync_real {sd : Side ℚ} {opR : ℝ → ℝ → ℝ} (hop : ∀ a b : ℚ, ((sd.op a b : ℚ) : ℝ) = opR a b)
    (hc : Continuous fun p : ℝ × ℝ => opR p.1 p.2)
    (hl : ∀ a b c e : ℚ, |sd.op a b - sd.op c e| ≤ max |a - c| |b - e|) {nd : Bool} {x y z : Signal B64}
    {xs ys : List (ℚ × ℚ)} {V H d : ℚ} (hd : 0 < d) (rx : Represents (K := B64) x xs) (ry : Represents (K := B64) y ys)
    (tx : Gentle V H xs) (ty : Gentle V H ys) (ha : Apart d xs ys)
    (hz : minmaxPair nd (scomp sd) x y false = .ok z) :
    ∃ zs : List (ℚ × ℚ), Represents (K := B64) z zs ∧ dom zs = dom xs ∩ dom ys ∧
      ∀ t ∈ dom (rpts zs), |eval (rpts zs) t - opR (eval (rpts xs) t) (eval (rpts ys) t)| ≤ ((step V H d : ℚ) : ℝ) := by
  obtain ⟨zs, z1, z2, z3⟩ := sync_acc syncBudget_mild sd
    (fun a b a' b' e h1 h2 => (hl a b a' b').trans (max_le h1 h2)) hd rx ry tx ty ha hz
  have ix := (represents_lq.1 rx).1
  have iy := (represents_lq.1 ry).1
  have iz := (represents_lq.1 z1).1
  refine ⟨zs, z1, z2, real_of_rat iz ?_ fun t ht => ?_⟩
  · exact hc.comp ((eval_continuous (castPts_increasing rat_mono ix)).prodMk
      (eval_continuous (castPts_increasing rat_mono iy)))
  · have c : ∀ l, eval (rpts l) (t : ℝ) = ((eval l t : ℚ) : ℝ) :=
      fun l => eval_castPts (Rat.castHom ℝ) rat_mono l t
    rw [c, c, c, ← hop]
    exact_mod_cast z3 t ht

/-- The rounding error of a predicate. -/
def LitNear (V r m : ℚ) : Prop := |r - m| ≤ 1 / 2 ^ 52 * V

theorem litNear_neg {V : ℚ} (a b : ℚ) (h : LitNear V a b) : LitNear V (-a) (-b) := by
  unfold LitNear at *
  rwa [neg_sub_neg, abs_sub_comm]

theorem mild_marg (op : ComparisonOp) {c v V : ℚ} (hc : Mild c ∧ |c| ≤ V) (hv : Mild v ∧ |v| ≤ V) :
    ∃ r, rnd (marg op c v) = .fin r ∧ LitNear V r (marg op c v) := by
  have h1 : Fx (-100) 40 c := hc.1
  have h2 : Fx (-100) 40 v := hv.1
  have hf : Fx (-100) 41 (marg op c v) ∧ |marg op c v| ≤ 2 * V := by
    have a1 : Fx (-100) 41 (v - c) := by rw [sub_eq_add_neg]; exact h2.add h1.neg
    have a2 : Fx (-100) 41 (c - v) := by rw [sub_eq_add_neg]; exact h1.add h2.neg
    have a3 : |v - c| ≤ 2 * V := (abs_sub v c).trans (by linarith [hc.2, hv.2])
    have a4 : |c - v| ≤ 2 * V := (abs_sub c v).trans (by linarith [hc.2, hv.2])
    cases op
    · exact ⟨a1, a3⟩
    · exact ⟨a1, a3⟩
    · exact ⟨a2, a4⟩
    · exact ⟨a2, a4⟩
  obtain ⟨r, e1, e2, -⟩ := rnd_fx hf.1 (by norm_num) (by norm_num) (by norm_num)
  refine ⟨r, e1, e2.trans ?_⟩
  calc (1 : ℚ) / 2 ^ 53 * |marg op c v| ≤ 1 / 2 ^ 53 * (2 * V) :=
        mul_le_mul_of_nonneg_left hf.2 (by positivity)
    _ = 1 / 2 ^ 52 * V := by ring

theorem step_le {V H d : ℚ} (hV : 0 ≤ V) (hH : 0 ≤ H) (hd : 0 < d) : 1 / 2 ^ 52 * V ≤ step V H d := by
  have h1 : 0 ≤ H / d := div_nonneg hH hd.le
  have h2 : 0 ≤ V * (H / d) := mul_nonneg hV h1
  have e : step V H d = 1 / 2 ^ 46 * V + 1 / 2 ^ 46 * (V * (H / d)) := by unfold step; ring
  rw [e]
  linarith

theorem nest_uses_ne {C : B64 → Prop} {R : Expr B64 → Expr B64 → Prop} {k : Nat} {e : Expr B64} (h : Nest C R k e) :
    ∃ n, Uses n e := by
  induction h with
  | pred n op _ => exact ⟨n, .pred op _⟩
  | not _ ih => obtain ⟨n, h⟩ := ih; exact ⟨n, .not h⟩
  | andOne _ ih => obtain ⟨n, h⟩ := ih; exact ⟨n, .and (by simp) h⟩
  | orOne _ ih => obtain ⟨n, h⟩ := ih; exact ⟨n, .or (by simp) h⟩
  | and _ _ _ _ ih => obtain ⟨n, h⟩ := ih; exact ⟨n, .and (by simp) h⟩
  | or _ _ _ _ ih => obtain ⟨n, h⟩ := ih; exact ⟨n, .or (by simp) h⟩

theorem uses_and_left {es : List (Expr B64)} {e : Expr B64} {n : String} (h : Uses n (.and es)) :
    Uses n (.and (es ++ [e])) := by
  cases h with
  | and hm hn => exact .and (by simp [hm]) hn

theorem uses_or_left {es : List (Expr B64)} {e : Expr B64} {n : String} (h : Uses n (.or es)) :
    Uses n (.or (es ++ [e])) := by
  cases h with
  | or hm hn => exact .or (by simp [hm]) hn

theorem dom_real {xs zs : List (ℚ × ℚ)} (hd : dom zs ⊆ dom xs) {t : ℝ} (ht : t ∈ dom (rpts zs)) :
    t ∈ dom (rpts xs) := by
  obtain ⟨⟨_, h1, h2⟩, _, h3, h4⟩ := ht
  obtain ⟨p, hp, rfl⟩ := List.mem_map.1 h1
  obtain ⟨q, hq, rfl⟩ := List.mem_map.1 h3
  have a := hd ⟨⟨p, hp, le_rfl⟩, p, hp, le_rfl⟩
  have b := hd ⟨⟨q, hq, le_rfl⟩, q, hq, le_rfl⟩
  obtain ⟨⟨p', hp', e1⟩, -⟩ := a
  obtain ⟨-, q', hq', e2⟩ := b
  exact ⟨⟨_, List.mem_map_of_mem hp', (Rat.cast_le (K := ℝ).2 e1).trans h2⟩, _, List.mem_map_of_mem hq',
    h4.trans (Rat.cast_le (K := ℝ).2 e2)⟩

/-- One more And or Or. -/
theorem nest_step {sd : Side ℚ} {opR : ℝ → ℝ → ℝ} {opE : EReal → EReal → EReal}
    (hop : ∀ a b : ℚ, ((sd.op a b : ℚ) : ℝ) = opR a b)
    (hc : Continuous fun p : ℝ × ℝ => opR p.1 p.2)
    (hl : ∀ a b c e : ℚ, |sd.op a b - sd.op c e| ≤ max |a - c| |b - e|)
    (hE : ∀ {e a b : ℝ} {f g : EReal}, Nearby e a f → Nearby e b g → Nearby e (opR a b : ℝ) (opE f g))
    {nd : Bool} {x y z : Signal B64}
    {xs ys : List (ℚ × ℚ)} {V H d : ℚ} (hd : 0 < d) (rx : Represents (K := B64) x xs) (ry : Represents (K := B64) y ys)
    (tx : Gentle V H xs) (ty : Gentle V H ys) (ha : Apart d xs ys) {T : ℚ} (hT : ∃ v, xs.getLast? = some (T, v))
    (hxy : dom ys = dom xs) {F G : ℝ → EReal} {k l : ℕ}
    (hF : ∀ t ∈ dom (rpts xs), Nearby (((k + 1) * step V H d : ℚ) : ℝ) (eval (rpts xs) t : ℝ) (F t))
    (hG : ∀ t ∈ dom (rpts ys), Nearby (((l + 1) * step V H d : ℚ) : ℝ) (eval (rpts ys) t : ℝ) (G t))
    (hz : minmaxPair nd (scomp sd) x y false = .ok z) :
    ∃ zs : List (ℚ × ℚ), Represents (K := B64) z zs ∧ (∃ v, zs.getLast? = some (T, v)) ∧ dom zs = dom xs ∧
      ∀ t ∈ dom (rpts zs), Nearby ((((max k l + 1 : ℕ) + 1) * step V H d : ℚ) : ℝ) (eval (rpts zs) t : ℝ)
        (opE (F t) (G t)) := by
  obtain ⟨zs, z1, z2, z3⟩ := sync_real hop hc hl hd rx ry tx ty ha hz
  rw [hxy, Set.inter_self] at z2
  refine ⟨zs, z1, last_of_dom (represents_lq.1 rx).1 (represents_lq.1 z1).1 z2 hT, z2, fun t ht => ?_⟩
  have hx := dom_real z2.le ht
  have hy := dom_real (z2.trans hxy.symm).le ht
  have s0 : 0 ≤ step V H d := by
    obtain ⟨v, hv⟩ := hT
    have hm := tx _ (List.mem_of_getLast? hv)
    have V0 : 0 ≤ V := (abs_nonneg _).trans hm.2.2.2
    have H0 : 0 ≤ H := (abs_nonneg _).trans hm.2.2.1
    unfold step
    positivity
  have mono : ∀ {m : ℕ}, m ≤ max k l → (((m + 1) * step V H d : ℚ) : ℝ) ≤ ((((max k l : ℕ) + 1) * step V H d : ℚ) : ℝ) := by
    intro m hm
    refine Rat.cast_le.2 (mul_le_mul_of_nonneg_right ?_ s0)
    have : (m : ℚ) ≤ (max k l : ℕ) := Nat.cast_le.2 hm
    linarith
  have := Nearby.shift (hE ((hF t hx).mono (mono (le_max_left k l))) ((hG t hy).mono (mono (le_max_right k l)))) (z3 t ht)
  refine this.mono (le_of_eq ?_)
  push_cast; ring

/-- Nested Boolean formulas. -/
theorem nest_within (nd : Bool) (fuel : Nat) (trace : Trace B64) (sy : Bool) {C : B64 → Prop} {V H d : ℚ} (hd : 0 < d)
    (hC : ∀ c : B64, C c → Mild c ∧ |(c : ℚ)| ≤ V) (T : B64) (sig : String → List (B64 × B64)) (dm : Set B64)
    {k : Nat} {phi : Expr B64} (hp : Nest C (Feeds nd fuel trace sy V H d) k phi) :
    (∀ n, Uses n phi → (∃ x, trace.lookup n = some x ∧ Represents x (sig n)) ∧
      (∃ v, (sig n).getLast? = some (T, v)) ∧ dom (sig n) = dm ∧ Gentle V H (sig n)) →
    ∀ z, computeRobustness nd fuel phi trace sy = .ok z →
    ∃ zs : List (B64 × B64), Represents z zs ∧ (∃ v, zs.getLast? = some (T, v)) ∧ dom zs = dm ∧
      ∀ t ∈ dom (castPts b64Cast zs), Nearby (((k + 1) * step V H d : ℚ) : ℝ) (eval (castPts b64Cast zs) t : ℝ)
        (rob (b64Cast T) (fun n => eval (castPts b64Cast (sig n))) (castExpr b64Cast phi) t) := by
  induction hp with
  | @pred n op c hc =>
    intro hs z hz
    obtain ⟨⟨x, h1, h2⟩, h3, h4, h5⟩ := hs n (.pred op _)
    have hne : sig n ≠ [] := by rintro h; obtain ⟨v, hv⟩ := h3; rw [h] at hv; simp at hv
    obtain ⟨m, f, g, g1, g2, g3, g4⟩ := literal_spec (ι := b64Cast) (C := C)
      (Q := fun v : B64 => Mild v ∧ |(v : ℚ)| ≤ V) (P := fun a b : B64 => LitNear V a b)
      (fun a b h => litNear_neg a b h)
      (fun op c v hc hv => mild_marg op (hC c hc) hv)
      ⟨nd, fuel, (minMaxTime trace).1, (minMaxTime trace).2, trace⟩ (b64Cast T) sig (.pred n op hc)
      (fun m hm => by
        cases hm
        exact ⟨⟨x, h1, h2⟩, hne, fun p hp => ⟨(h5 p hp).2.1, (h5 p hp).2.2.2⟩⟩)
    cases g1
    have iX : Increasing (K := ℚ) (sig n) := (represents_lq.1 h2).1
    have rz := g2 z hz
    have fstf : ∀ (l : List (ℚ × ℚ)) (f : ℚ → ℚ), (l.map fun p => (p.1, f p.2)).map Prod.fst = l.map Prod.fst := by
      intro l f; rw [List.map_map]; rfl
    have V0 : 0 ≤ V ∧ 0 ≤ H := by
      obtain ⟨p, l, hp⟩ := List.exists_cons_of_ne_nil hne
      have hm : p ∈ sig n := by rw [hp]; simp
      exact ⟨(abs_nonneg _).trans (h5 p hm).2.2.2, (abs_nonneg _).trans (h5 p hm).2.2.1⟩
    refine ⟨_, rz, getLast_fst b64Cast_strictMono (fstf (sig n) f) h3, Eq.trans ?_ h4, fun t ht => ?_⟩
    · exact dom_of_fst (K := ℚ) (fstf (sig n) f)
    · rw [← g3 t]
      refine Nearby.mono (within_of_abs ?_) (d := ((1 / 2 ^ 52 * V : ℚ) : ℝ)) ?_
      · have incg : Increasing (K := ℚ) ((sig n).map fun p => (p.1, g p.2)) := by
          unfold Increasing at *
          rw [List.map_map]; exact iX
        refine real_of_rat (represents_lq.1 rz).1 (eval_continuous (castPts_increasing rat_mono incg)) (fun t ht => ?_) t ht
        have c : ∀ l, eval (rpts l) (t : ℝ) = ((eval l t : ℚ) : ℝ) :=
          fun l => eval_castPts (Rat.castHom ℝ) rat_mono l t
        have ht' : t ∈ dom (K := ℚ) (sig n) := by
          rw [← dom_of_fst (K := ℚ) (fstf (sig n) f)]; exact ht
        have := eval_near (K := ℚ) iX hne g4 t ht'.1 ht'.2
        have e := c ((sig n).map fun p => (p.1, f p.2))
        have e' := c ((sig n).map fun p => (p.1, g p.2))
        refine (congrArg₂ (fun a b => |a - b|) e e').le.trans ?_
        exact_mod_cast this
      · have := step_le V0.1 V0.2 hd
        rw [Nat.cast_zero, zero_add, one_mul]
        exact Rat.cast_le.2 this
  | @not k e _ ih =>
    intro hs z hz
    obtain ⟨y, h1, h2⟩ := not_ok hz
    obtain ⟨zs, i1, i2, i3, i4⟩ := ih (fun n hn => hs n (.not hn)) y h1
    have hfst : (negPts zs).map Prod.fst = zs.map Prod.fst := by simp [negPts, Function.comp_def]
    refine ⟨negPts zs, ⟨compute_wf _ _ _ hz, ?_⟩, getLast_fst b64Cast_strictMono hfst i2, ?_, ?_⟩
    · rw [h2, map_samples (f := D.fin) i1.2 (fun v => -v)]
      simp [negPts, lift, Function.comp_def]
    · rw [← i3]; exact dom_of_fst hfst
    · intro t ht
      rw [castExpr, rob, castPts_negPts, eval_negPts, EReal.coe_neg]
      exact (i4 t (by rwa [dom_castPts_fst b64Cast_strictMono hfst] at ht)).neg
  | @andOne k e _ ih =>
    intro hs z hz
    have h1 : computeRobustness nd fuel e trace sy = .ok z := by
      unfold computeRobustness at hz ⊢
      rw [compute_and_vec] at hz
      simp only [RobustnessOp.computeArgs, Outcome.bind_eq_ok, Outcome.pure_eq_ok, Outcome.ok.injEq] at hz
      obtain ⟨_, ⟨x, h1, _, rfl, rfl⟩, h2⟩ := hz
      simp only [minmaxVec, Outcome.ok.injEq] at h2
      rw [← h2]; exact h1
    obtain ⟨zs, i1, i2, i3, i4⟩ := ih (fun n hn => hs n (.and (by simp) hn)) z h1
    refine ⟨zs, i1, i2, i3, fun t ht => ?_⟩
    have := i4 t ht
    rw [castExpr, castExprs, castExprs, rob, robAll, robAll, inf_top_eq]
    exact this
  | @orOne k e _ ih =>
    intro hs z hz
    have h1 : computeRobustness nd fuel e trace sy = .ok z := by
      unfold computeRobustness at hz ⊢
      rw [compute_or_vec] at hz
      simp only [RobustnessOp.computeArgs, Outcome.bind_eq_ok, Outcome.pure_eq_ok, Outcome.ok.injEq] at hz
      obtain ⟨_, ⟨x, h1, _, rfl, rfl⟩, h2⟩ := hz
      simp only [minmaxVec, Outcome.ok.injEq] at h2
      rw [← h2]; exact h1
    obtain ⟨zs, i1, i2, i3, i4⟩ := ih (fun n hn => hs n (.or (by simp) hn)) z h1
    refine ⟨zs, i1, i2, i3, fun t ht => ?_⟩
    have := i4 t ht
    rw [castExpr, castExprs, castExprs, rob, robAny, robAny, sup_bot_eq]
    exact this
  | @and k l es e hes he hR ih ih' =>
    intro hs z hz
    unfold computeRobustness at hz
    rw [compute_and_vec] at hz
    obtain ⟨x, y, hx, hy, hm⟩ := args_snoc (nest_and_ne hes) hz
    rw [← compute_and_vec] at hx
    obtain ⟨xs, x1, x2, x3, x4⟩ := ih (fun n hn => hs n (uses_and_left hn)) x hx
    obtain ⟨ys, y1, y2, y3, y4⟩ := ih' (fun n hn => hs n (.and (by simp) hn)) y hy
    obtain ⟨f1, f2, f3⟩ := hR x y xs ys hx hy x1 y1
    obtain ⟨zs, z1, z2, z3, z4⟩ := nest_step (sd := .min) (opE := (· ⊓ ·)) minmax_op.2 (by fun_prop)
      abs_min_sub_min_le_max Nearby.min hd x1 y1 f1 f2 f3 x2 (y3.trans x3.symm) x4 y4 hm
    refine ⟨zs, z1, z2, Eq.trans z3 x3, fun t ht => ?_⟩
    have := z4 t ht
    rw [castExpr, castExprs_append, rob, robAll_append]
    exact this
  | @or k l es e hes he hR ih ih' =>
    intro hs z hz
    unfold computeRobustness at hz
    rw [compute_or_vec] at hz
    obtain ⟨x, y, hx, hy, hm⟩ := args_snoc (nest_or_ne hes) hz
    rw [← compute_or_vec] at hx
    obtain ⟨xs, x1, x2, x3, x4⟩ := ih (fun n hn => hs n (uses_or_left hn)) x hx
    obtain ⟨ys, y1, y2, y3, y4⟩ := ih' (fun n hn => hs n (.or (by simp) hn)) y hy
    obtain ⟨f1, f2, f3⟩ := hR x y xs ys hx hy x1 y1
    obtain ⟨zs, z1, z2, z3, z4⟩ := nest_step (sd := .max) (opE := (· ⊔ ·)) minmax_op.1 (by fun_prop)
      abs_max_sub_max_le_max Nearby.max hd x1 y1 f1 f2 f3 x2 (y3.trans x3.symm) x4 y4 hm
    refine ⟨zs, z1, z2, Eq.trans z3 x3, fun t ht => ?_⟩
    have := z4 t ht
    rw [castExpr, castExprs_append, rob, robAny_append]
    exact this

end B64
end Verif
