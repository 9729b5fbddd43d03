import Verif.Proofs.AccuracyPair
import Verif.Proofs.Margin
import Verif.Props.Constants
import Verif.Props.Rounding

/-! # The rounding errors of And and Or of two literals, at all real times -/

set_option linter.unusedSectionVars false
set_option exponentiation.threshold 1100

namespace Verif
open Spec
namespace B64

theorem fx_of_moderate {q V : ℚ} (h : Moderate q) (hq : |q| ≤ V) (hV : V ≤ 2 ^ 98) : Fx (-150) 98 q :=
  ⟨h.1, (hq.trans hV).trans (by norm_num)⟩

/-- What is known about the computed margin `r` of a predicate and the exact one. -/
def LitErr (V r m : ℚ) : Prop := |r - m| ≤ 1 / 2 ^ 52 * V ∧ |r| ≤ 3 * V ∧ Moderate r

theorem litErr_neg {V : ℚ} (r m : ℚ) (h : LitErr V r m) : LitErr V (-r) (-m) := by
  obtain ⟨h1, h2, ⟨n, hn⟩, h3⟩ := h
  refine ⟨?_, by rwa [abs_neg], ⟨-n, by rw [hn]; push_cast; ring⟩, by rwa [abs_neg]⟩
  rwa [neg_sub_neg, abs_sub_comm]

theorem marg_spec (op : ComparisonOp) {c v V : ℚ} (hV : V ≤ 2 ^ 98) (hc : Moderate c ∧ |c| ≤ V)
    (hv : Moderate v ∧ |v| ≤ V) : ∃ r, rnd (marg op c v) = .fin r ∧ LitErr V r (marg op c v) := by
  have h1 := fx_of_moderate hc.1 hc.2 hV
  have h2 := fx_of_moderate hv.1 hv.2 hV
  have hf : Fx (-150) 99 (marg op c v) ∧ |marg op c v| ≤ 2 * V := by
    have a1 : Fx (-150) 99 (v - c) := by rw [sub_eq_add_neg]; exact h2.add h1.neg
    have a2 : Fx (-150) 99 (c - v) := by rw [sub_eq_add_neg]; exact h1.add h2.neg
    have a3 : |v - c| ≤ 2 * V := (abs_sub v c).trans (by linarith [hc.2, hv.2])
    have a4 : |c - v| ≤ 2 * V := (abs_sub c v).trans (by linarith [hc.2, hv.2])
    cases op
    · exact ⟨a1, a3⟩
    · exact ⟨a1, a3⟩
    · exact ⟨a2, a4⟩
    · exact ⟨a2, a4⟩
  obtain ⟨r, e1, e2, e3⟩ := rnd_fx hf.1 (by norm_num) (by norm_num) (by norm_num)
  refine ⟨r, e1, ?_, ?_, ?_⟩
  · refine e2.trans ?_
    calc (1 : ℚ) / 2 ^ 53 * |marg op c v| ≤ 1 / 2 ^ 53 * (2 * V) :=
          mul_le_mul_of_nonneg_left hf.2 (by positivity)
      _ = 1 / 2 ^ 52 * V := by ring
  · have := e2.abs_le'
    have h0 := abs_nonneg (marg op c v)
    linarith [hf.2]
  · have := e3.mono (k' := -150) (l' := 100) le_rfl (by norm_num)
    exact ⟨this.1, this.2⟩

/-- The real function through rational points. -/
noncomputable abbrev rpts (pts : List (ℚ × ℚ)) : List (ℝ × ℝ) := castPts (Rat.castHom ℝ) pts

theorem rat_mono : StrictMono (Rat.castHom ℝ) := Rat.cast_strictMono (K := ℝ)

theorem tame_map {V V' H d : ℚ} {l : List (ℚ × ℚ)} {f : ℚ → ℚ} (h : Tame V H d l)
    (hf : ∀ p ∈ l, |f p.2| ≤ V' ∧ Moderate (f p.2)) : Tame V' H d (l.map fun p => (p.1, f p.2)) := by
  constructor
  · intro p hp
    obtain ⟨q, hq, rfl⟩ := List.mem_map.1 hp
    exact ⟨(h.1 q hq).1, (hf q hq).2, (h.1 q hq).2.2.1, (hf q hq).1⟩
  · rw [List.isChain_map]; exact h.2

/-- From the rational times to the real ones. -/
theorem pair_real {opR : ℝ → ℝ → ℝ} {op : ℚ → ℚ → ℚ} (hop : ∀ a b : ℚ, ((op a b : ℚ) : ℝ) = opR a b)
    (hc : Continuous fun p : ℝ × ℝ => opR p.1 p.2)
    (hl : ∀ a b c e : ℚ, |op a b - op c e| ≤ max |a - c| |b - e|) {X Y zs : List (ℚ × ℚ)} {f f' g g' : ℚ → ℚ}
    {b1 b2 T : ℚ} (iX : Increasing X) (iY : Increasing Y) (ht : X.map Prod.fst = Y.map Prod.fst) (hne : X ≠ [])
    (iz : Increasing zs) (hd : dom zs = dom X)
    (hz : ∀ t ∈ dom X, |eval zs t - op (eval (X.map fun p => (p.1, f p.2)) t)
      (eval (Y.map fun p => (p.1, f' p.2)) t)| ≤ b1)
    (hf : ∀ p ∈ X, |f p.2 - g p.2| ≤ b2) (hf' : ∀ p ∈ Y, |f' p.2 - g' p.2| ≤ b2)
    (hT : ∃ v, X.getLast? = some (T, v)) :
    (∃ v, zs.getLast? = some (T, v)) ∧ ∀ t ∈ dom (rpts zs), |eval (rpts zs) t -
      opR (eval (rpts (X.map fun p => (p.1, g p.2))) t) (eval (rpts (Y.map fun p => (p.1, g' p.2))) t)| ≤
        ((b1 + b2 : ℚ) : ℝ) := by
  have hY : Y ≠ [] := by rintro rfl; simp at ht; exact hne ht
  have domXY : dom X = dom Y := dom_of_fst ht
  obtain ⟨v, hv⟩ := hT
  obtain ⟨l, hl'⟩ := List.getLast?_eq_some_iff.1 hv
  obtain ⟨p, l2, hp⟩ := List.exists_cons_of_ne_nil hne
  have top : ∀ q ∈ X, q.1 ≤ T := by
    intro q hq
    rw [hl'] at hq iX
    rcases List.mem_append.1 hq with hq | hq
    · exact ((increasing_append.1 iX).2.2 q hq (T, v) (by simp)).le
    · simp only [List.mem_singleton] at hq; rw [hq]
  have bot : ∀ q ∈ X, p.1 ≤ q.1 := by
    intro q hq
    rw [hp] at hq iX
    rcases List.mem_cons.1 hq with rfl | hq
    · exact le_rfl
    · exact ((increasing_cons.1 iX).1 q hq).le
  have mT : (T, v) ∈ X := List.mem_of_getLast? hv
  have mp : p ∈ X := by rw [hp]; simp
  have icc : ∀ t, t ∈ dom X ↔ p.1 ≤ t ∧ t ≤ T := by
    intro t
    constructor
    · rintro ⟨⟨q, hq, h⟩, q', hq', h'⟩
      exact ⟨(bot q hq).trans h, h'.trans (top q' hq')⟩
    · rintro ⟨h, h'⟩
      exact ⟨⟨p, mp, h⟩, (T, v), mT, h'⟩
  have zlast : ∃ w, zs.getLast? = some (T, w) := by
    have h1 : T ∈ dom zs := by rw [hd]; exact (icc T).2 ⟨bot _ mT, le_rfl⟩
    have zne : zs ≠ [] := by obtain ⟨⟨q, hq, -⟩, -⟩ := h1; exact List.ne_nil_of_mem hq
    obtain ⟨q, hq⟩ : ∃ q, zs.getLast? = some q := by
      cases h : zs.getLast? with
      | none => exact absurd (List.getLast?_eq_none_iff.1 h) zne
      | some q => exact ⟨q, rfl⟩
    have hqm : q ∈ zs := List.mem_of_getLast? hq
    have h2 : q.1 ∈ dom zs := ⟨⟨q, hqm, le_rfl⟩, q, hqm, le_rfl⟩
    rw [hd, icc] at h2
    obtain ⟨-, r, hr, hTr⟩ := h1
    have h3 : r.1 ≤ q.1 := by
      obtain ⟨l, hl⟩ := List.getLast?_eq_some_iff.1 hq
      rw [hl] at hr iz
      rcases List.mem_append.1 hr with hr | hr
      · exact ((increasing_append.1 iz).2.2 r hr q (by simp)).le
      · simp only [List.mem_singleton] at hr; rw [hr]
    have h4 : q.1 = T := le_antisymm h2.2 (hTr.trans h3)
    exact ⟨q.2, by rw [hq, ← h4]⟩
  refine ⟨zlast, ?_⟩
  have incmap : ∀ {l : List (ℚ × ℚ)} (h : ℚ → ℚ), Increasing l → Increasing (l.map fun p => (p.1, h p.2)) := by
    intro l h hl
    unfold Increasing at *
    rw [List.map_map]; exact hl
  have cz := eval_continuous (castPts_increasing rat_mono iz)
  have cx := eval_continuous (castPts_increasing rat_mono (incmap g iX))
  have cy := eval_continuous (castPts_increasing rat_mono (incmap g' iY))
  have cont : Continuous fun t => |eval (rpts zs) t -
      opR (eval (rpts (X.map fun p => (p.1, g p.2))) t) (eval (rpts (Y.map fun p => (p.1, g' p.2))) t)| :=
    (cz.sub (hc.comp (cx.prodMk cy))).abs
  have bound : ∀ t : ℚ, p.1 ≤ t → t ≤ T → |eval (rpts zs) t -
      opR (eval (rpts (X.map fun p => (p.1, g p.2))) t) (eval (rpts (Y.map fun p => (p.1, g' p.2))) t)| ≤
        ((b1 + b2 : ℚ) : ℝ) := by
    intro t h0 h1
    have ht' : t ∈ dom X := (icc t).2 ⟨h0, h1⟩
    have ht'' : t ∈ dom Y := by rw [← domXY]; exact ht'
    have e1 := hz t ht'
    have e2 := eval_near iX hne hf t ht'.1 ht'.2
    have e3 := eval_near iY hY hf' t ht''.1 ht''.2
    have e4 := (hl _ _ _ _).trans (max_le e2 e3)
    have e5 := (abs_sub_le _ _ _).trans (add_le_add e1 e4)
    have c : ∀ l, eval (rpts l) (t : ℝ) = ((eval l t : ℚ) : ℝ) :=
      fun l => eval_castPts (Rat.castHom ℝ) rat_mono l t
    rw [c, c, c, ← hop]
    exact_mod_cast e5
  have hpT : p.1 ≤ T := bot _ mT
  intro t ht
  obtain ⟨w, hw⟩ := zlast
  have zne : zs ≠ [] := by rintro rfl; simp at hw
  obtain ⟨q, l3, hq⟩ := List.exists_cons_of_ne_nil zne
  rw [castPts_dom rat_mono iz hq hw] at ht
  have hq1 : p.1 ≤ q.1 := by
    have : q.1 ∈ dom zs := ⟨⟨q, by rw [hq]; simp, le_rfl⟩, q, by rw [hq]; simp, le_rfl⟩
    rw [hd, icc] at this
    exact this.1
  refine dense_bound hpT cont bound t (le_trans ?_ ht.1) ht.2
  exact Rat.cast_le.2 hq1

theorem castHom_eq : (b64Cast : B64 → ℝ) = (Rat.castHom ℝ : ℚ → ℝ) := rfl

theorem within_of_abs {a b d : ℝ} (h : |a - b| ≤ d) : Nearby d a b := by
  rw [abs_le] at h
  constructor
  · rw [← EReal.coe_add, EReal.coe_le_coe_iff]; linarith
  · rw [← EReal.coe_add, EReal.coe_le_coe_iff]; linarith

/-- The bound. -/
def margin' (V H d : ℚ) : ℚ := 1 / 2 ^ 45 * V * (1 + H / d)

theorem bound_le {V H d : ℚ} (hV : 0 ≤ V) (hH : 0 ≤ H) (hd : 0 < d) :
    bound (3 * V) H d + 1 / 2 ^ 52 * V ≤ margin' V H d := by
  unfold bound margin'
  have h1 : 0 ≤ H / d := div_nonneg hH hd.le
  have h2 : 0 ≤ V * (H / d) := mul_nonneg hV h1
  have e1 : (1 : ℚ) / 2 ^ 47 * (3 * V) * (1 + H / d) = 3 / 2 ^ 47 * V + 3 / 2 ^ 47 * (V * (H / d)) := by ring
  have e2 : (1 : ℚ) / 2 ^ 45 * V * (1 + H / d) = 1 / 2 ^ 45 * V + 1 / 2 ^ 45 * (V * (H / d)) := by ring
  rw [e1, e2]
  nlinarith

theorem args_two {r : RobustnessOp B64} {e e' : Expr B64} {z : Signal B64}
    (h : r.compute (.and [e, e']) = .ok z ∨ r.compute (.or [e, e']) = .ok z) :
    ∃ x y, r.compute e = .ok x ∧ r.compute e' = .ok y := by
  rcases h with h | h <;>
  · rw [RobustnessOp.compute] at h
    simp only [RobustnessOp.computeArgs, Outcome.bind_eq_ok] at h
    obtain ⟨_, ⟨x, h1, _, ⟨y, h2, _⟩, _⟩, _⟩ := h
    exact ⟨x, y, h1, h2⟩

theorem minmax_op : (∀ a b : ℚ, ((max a b : ℚ) : ℝ) = max (a : ℝ) b) ∧
    ∀ a b : ℚ, ((min a b : ℚ) : ℝ) = min (a : ℝ) b :=
  ⟨fun a b => Rat.cast_max a b, fun a b => Rat.cast_min a b⟩

/-- And and Or of two literals. -/
theorem literalPair_within (r : RobustnessOp B64) {C : B64 → Prop} {V H d : ℚ} (hV : V ≤ 2 ^ 98) (hd : 0 < d)
    (hC : ∀ c : B64, C c → Moderate c ∧ |(c : ℚ)| ≤ V) (T : B64) (times : List ℚ) (ht : times.getLast? = some T)
    (sig : String → List (B64 × B64)) (phi : Expr B64) (hp : LiteralPair C phi)
    (hs : ∀ n, Uses n phi → (∃ x, r.trace.lookup n = some x ∧ Represents x (sig n)) ∧
      (sig n).map Prod.fst = times ∧ Tame V H d (sig n)) (dm : Set B64)
    (hdm : ∀ n, Uses n phi → dom (sig n) = dm)
    (z : Signal B64) (hz : r.compute phi = .ok z) :
    ∃ zs : List (B64 × B64), Represents z zs ∧ (∃ v, zs.getLast? = some (T, v)) ∧ dom zs = dm ∧
      ∀ t ∈ dom (castPts b64Cast zs), Nearby ((margin' V H d : ℚ) : ℝ) (eval (castPts b64Cast zs) t : ℝ)
        (rob (b64Cast T) (fun n => eval (castPts b64Cast (sig n))) (castExpr b64Cast phi) t) := by
  have tne : times ≠ [] := by rintro rfl; simp at ht
  have lit : ∀ e, Literal C e → (∀ n, Uses n e → Uses n phi) →
      ∃ (n : String) (f g : ℚ → ℚ), Uses n phi ∧
        (∀ z, r.compute e = .ok z → Represents (K := B64) z ((sig n).map fun p => (p.1, f p.2))) ∧
        (∀ t, ((eval (rpts ((sig n).map fun p => (p.1, g p.2))) t : ℝ) : EReal) =
          rob (b64Cast T) (fun n => eval (castPts b64Cast (sig n))) (castExpr b64Cast e) t) ∧
        ∀ p ∈ sig n, LitErr V (f p.2) (g p.2) := by
    intro e he hu
    obtain ⟨n, f, g, h1, h2, h3, h4⟩ := literal_spec (ι := b64Cast) (C := C)
      (Q := fun v : B64 => Moderate v ∧ |(v : ℚ)| ≤ V) (P := fun a b : B64 => LitErr V a b)
      (fun a b h => litErr_neg a b h) (fun op c v hc hv => marg_spec op hV (hC c hc) hv) r (b64Cast T) sig he
      (fun n hn => by
        obtain ⟨h1, h2, h3⟩ := hs n (hu n hn)
        refine ⟨h1, fun h => tne ?_, fun p hp => ⟨(h3.1 p hp).2.1, (h3.1 p hp).2.2.2⟩⟩
        rw [← h2, h]; rfl)
    exact ⟨n, f, g, hu n h1, h2, h3, h4⟩
  have V0 : ∀ n, Uses n phi → 0 ≤ V ∧ 0 ≤ H ∧ Increasing (K := ℚ) (sig n) ∧ sig n ≠ [] := by
    intro n hn
    obtain ⟨⟨x, -, hx⟩, h2, h3⟩ := hs n hn
    have hne : sig n ≠ [] := fun h => tne (by rw [← h2, h]; rfl)
    obtain ⟨p, l, hp⟩ := List.exists_cons_of_ne_nil hne
    have hm : p ∈ sig n := by rw [hp]; simp
    have := h3.1 p hm
    exact ⟨(abs_nonneg _).trans this.2.2.2, (abs_nonneg _).trans this.2.2.1, (represents_lq.1 hx).1, hne⟩
  have last : ∀ n, Uses n phi → ∃ v, (sig n).getLast? = some (T, v) := by
    intro n hn
    have h1 : ((sig n).map Prod.fst).getLast? = some T := by rw [(hs n hn).2.1]; exact ht
    rw [List.getLast?_map, Option.map_eq_some_iff] at h1
    obtain ⟨⟨a, b⟩, h3, h4⟩ := h1
    exact ⟨b, by rw [h3, ← h4]⟩
  have main : ∀ (sd : Side ℚ) (opR : ℝ → ℝ → ℝ) (e e' : Expr B64) (x y : Signal B64), Literal C e → Literal C e' →
      (∀ n, Uses n e → Uses n phi) → (∀ n, Uses n e' → Uses n phi) → r.compute e = .ok x → r.compute e' = .ok y →
      minmaxPair r.ndebug (scomp sd) x y false = .ok z →
      (∀ a b : ℚ, ((sd.op a b : ℚ) : ℝ) = opR a b) → (Continuous fun p : ℝ × ℝ => opR p.1 p.2) →
      (∀ a b c e : ℚ, |sd.op a b - sd.op c e| ≤ max |a - c| |b - e|) →
      ∃ zs : List (ℚ × ℚ), Represents (K := B64) z zs ∧ (∃ v, zs.getLast? = some (T, v)) ∧
        (∀ n, Uses n phi → dom zs = dom (K := ℚ) (sig n)) ∧ ∃ a b : ℝ → ℝ,
          (∀ t, (a t : EReal) = rob (b64Cast T) (fun n => eval (castPts b64Cast (sig n))) (castExpr b64Cast e) t) ∧
          (∀ t, (b t : EReal) = rob (b64Cast T) (fun n => eval (castPts b64Cast (sig n))) (castExpr b64Cast e') t) ∧
          ∀ t ∈ dom (rpts zs), |eval (rpts zs) t - opR (a t) (b t)| ≤ ((margin' V H d : ℚ) : ℝ) := by
    intro sd opR e e' x y he he' hu hu' hx hy hm hop hc hl
    obtain ⟨n, f, g, h1, h2, h3, h4⟩ := lit e he hu
    obtain ⟨n', f', g', h1', h2', h3', h4'⟩ := lit e' he' hu'
    obtain ⟨p1, p2, iX, p4⟩ := V0 n h1
    obtain ⟨-, -, iY, -⟩ := V0 n' h1'
    have tt : (sig n).map Prod.fst = (sig n').map Prod.fst := by
      rw [(hs n h1).2.1]; exact (hs n' h1').2.1.symm
    have fstf : ∀ (l : List (ℚ × ℚ)) (f : ℚ → ℚ), (l.map fun p => (p.1, f p.2)).map Prod.fst = l.map Prod.fst := by
      intro l f; rw [List.map_map]; rfl
    have dX : ∀ (l : List (ℚ × ℚ)) (f : ℚ → ℚ), dom (l.map fun p => (p.1, f p.2)) = dom l :=
      fun l f => dom_of_fst (fstf l f)
    obtain ⟨zs, z1, z2, z3⟩ := pair_acc (V := 3 * V) (H := H) sd hd (h2 x hx) (h2' y hy)
      ((fstf (sig n) f).trans (Eq.trans tt (fstf (sig n') f').symm))
      (tame_map (hs n h1).2.2 fun p hp => ⟨(h4 p hp).2.1, (h4 p hp).2.2⟩)
      (tame_map (hs n' h1').2.2 fun p hp => ⟨(h4' p hp).2.1, (h4' p hp).2.2⟩)
      (fun h => p4 (List.map_eq_nil_iff.1 h)) hm
    have z2 := z2.trans (dX (sig n) f)
    have z3 := fun t (ht : t ∈ dom (K := ℚ) (sig n)) => z3 t ((Set.ext_iff.1 (dX (sig n) f) t).2 ht)
    obtain ⟨l1, l2⟩ := pair_real hop hc hl iX iY tt p4 (represents_lq.1 z1).1 z2 z3 (fun p hp => (h4 p hp).1)
      (fun p hp => (h4' p hp).1) (last n h1)
    refine ⟨zs, z1, l1, fun m hm => ?_, _, _, h3, h3', fun t ht => (l2 t ht).trans (Rat.cast_le.2 (bound_le p1 p2 hd))⟩
    rw [z2]
    exact dom_of_fst (K := ℚ) ((hs n h1).2.1.trans (hs m hm).2.1.symm)
  cases hp with
  | @and e e' he he' =>
    obtain ⟨x, y, hx, hy⟩ := args_two (.inl hz)
    rw [compute_and_two hx hy] at hz
    obtain ⟨zs, z1, z2, z3, a, b, ha, hb, hab⟩ := main .min min e e' x y he he' (fun n hn => .and (by simp) hn)
      (fun n hn => .and (by simp) hn) hx hy hz minmax_op.2 (by fun_prop) abs_min_sub_min_le_max
    refine ⟨zs, z1, z2, ?_, fun t ht => ?_⟩
    · obtain ⟨n, -, -, hn, -⟩ := lit e he fun n hn => .and (by simp) hn
      exact (z3 n hn).trans (hdm n hn)
    · have : rob (b64Cast T) (fun n => eval (castPts b64Cast (sig n))) (castExpr b64Cast (.and [e, e'])) t =
          ((min (a t) (b t) : ℝ) : EReal) := by
        rw [castExpr, castExprs, castExprs, castExprs, rob, robAll, robAll, robAll, ← ha, ← hb, inf_top_eq]
        rcases le_total (a t) (b t) with h | h
        · rw [min_eq_left h, inf_eq_left.2 (EReal.coe_le_coe_iff.2 h)]
        · rw [min_eq_right h, inf_eq_right.2 (EReal.coe_le_coe_iff.2 h)]
      rw [this]
      exact within_of_abs (hab t ht)
  | @or e e' he he' =>
    obtain ⟨x, y, hx, hy⟩ := args_two (.inr hz)
    rw [compute_or_two hx hy] at hz
    obtain ⟨zs, z1, z2, z3, a, b, ha, hb, hab⟩ := main .max max e e' x y he he' (fun n hn => .or (by simp) hn)
      (fun n hn => .or (by simp) hn) hx hy hz minmax_op.1 (by fun_prop) abs_max_sub_max_le_max
    refine ⟨zs, z1, z2, ?_, fun t ht => ?_⟩
    · obtain ⟨n, -, -, hn, -⟩ := lit e he fun n hn => .or (by simp) hn
      exact (z3 n hn).trans (hdm n hn)
    · have : rob (b64Cast T) (fun n => eval (castPts b64Cast (sig n))) (castExpr b64Cast (.or [e, e'])) t =
          ((max (a t) (b t) : ℝ) : EReal) := by
        rw [castExpr, castExprs, castExprs, castExprs, rob, robAny, robAny, robAny, ← ha, ← hb, sup_bot_eq]
        rcases le_total (a t) (b t) with h | h
        · rw [max_eq_right h, sup_eq_right.2 (EReal.coe_le_coe_iff.2 h)]
        · rw [max_eq_left h, sup_eq_left.2 (EReal.coe_le_coe_iff.2 h)]
      rw [this]
      exact within_of_abs (hab t ht)

end B64
end Verif
