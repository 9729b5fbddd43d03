import Verif.Spec.TextRound
import Verif.Proofs.Meaning
import Verif.Props.Rounding

/-! # Rounding the thresholds of a text does not change the sign of the robustness -/

set_option linter.unusedSectionVars false
set_option exponentiation.threshold 1100

namespace Verif
open Spec

/-! ## Signs -/

/-- If `a` is not zero, `b` has the same sign. -/
def Sgn {β : Type} [Zero β] [LT β] (a b : β) : Prop := (0 < a → 0 < b) ∧ (a < 0 → b < 0)

section
variable {β : Type} [LinearOrder β] [Zero β]

theorem Sgn.max {a b a' b' : β} (h : Sgn a b) (h' : Sgn a' b') : Sgn (max a a') (max b b') := by
  refine ⟨fun h0 => ?_, fun h0 => ?_⟩
  · rcases lt_max_iff.1 h0 with h0 | h0
    · exact lt_max_of_lt_left (h.1 h0)
    · exact lt_max_of_lt_right (h'.1 h0)
  · rw [max_lt_iff] at h0 ⊢
    exact ⟨h.2 h0.1, h'.2 h0.2⟩

theorem Sgn.min {a b a' b' : β} (h : Sgn a b) (h' : Sgn a' b') : Sgn (min a a') (min b b') := by
  refine ⟨fun h0 => ?_, fun h0 => ?_⟩
  · rw [lt_min_iff] at h0 ⊢
    exact ⟨h.1 h0.1, h'.1 h0.2⟩
  · rcases min_lt_iff.1 h0 with h0 | h0
    · exact min_lt_of_left_lt (h.2 h0)
    · exact min_lt_of_right_lt (h'.2 h0)

theorem Sgn.refl (a : β) : Sgn a a := ⟨id, id⟩
end

theorem Sgn.neg {a b : EReal} (h : Sgn a b) : Sgn (-a) (-b) := by
  constructor
  · intro h0
    rw [← neg_zero, EReal.neg_lt_neg_iff] at h0 ⊢
    exact h.2 h0
  · intro h0
    rw [← neg_zero, EReal.neg_lt_neg_iff] at h0 ⊢
    exact h.1 h0

theorem Sgn.negR {a b : ℝ} (h : Sgn a b) : Sgn (-a) (-b) := by
  constructor
  · intro h0
    have := h.2 (by linarith); linarith
  · intro h0
    have := h.1 (by linarith); linarith

theorem Sgn.coe {a b : ℝ} (h : Sgn a b) : Sgn (a : EReal) (b : EReal) := by
  constructor
  · intro h0; exact EReal.coe_pos.2 (h.1 (EReal.coe_pos.1 h0))
  · intro h0; exact EReal.coe_neg'.2 (h.2 (EReal.coe_neg'.1 h0))

/-- Points at the same times whose values have the same signs. -/
def SamePts (l l' : List (ℝ × ℝ)) : Prop := List.Forall₂ (fun p p' => p.1 = p'.1 ∧ Sgn p.2 p'.2) l l'

theorem SamePts.fst {l l' : List (ℝ × ℝ)} (h : SamePts l l') : l.map Prod.fst = l'.map Prod.fst := by
  induction h with
  | nil => rfl
  | cons h _ ih => rw [List.map_cons, List.map_cons, h.1, ih]

theorem SamePts.neg {l l' : List (ℝ × ℝ)} (h : SamePts l l') : SamePts (negPts l) (negPts l') := by
  unfold SamePts negPts
  rw [List.forall₂_map_left_iff, List.forall₂_map_right_iff]
  exact h.imp fun _ _ h => ⟨h.1, h.2.negR⟩

theorem SamePts.sufPts {op : ℝ → ℝ → ℝ}
    (hop : ∀ a b a' b' : ℝ, Sgn a b → Sgn a' b' → Sgn (op a a') (op b b')) {l l' : List (ℝ × ℝ)}
    (h : SamePts l l') : SamePts (sufPts op l) (Verif.sufPts op l') := by
  have hf : ∀ {l l' : List (ℝ × ℝ)}, SamePts l l' → ∀ {v v' : ℝ}, Sgn v v' →
      Sgn (l.foldr (fun q w => op q.2 w) v) (l'.foldr (fun q w => op q.2 w) v') := by
    intro l l' h v v' hv
    induction h with
    | nil => exact hv
    | cons h _ ih => exact hop _ _ _ _ h.2 ih
  have hs : ∀ {l l' : List (ℝ × ℝ)}, SamePts l l' → ∀ {v v' : ℝ}, Sgn v v' →
      SamePts (suf op v l) (suf op v' l') := by
    intro l l' h v v' hv
    induction h with
    | nil => exact .nil
    | @cons p p' l l' h hl ih => exact .cons ⟨h.1, hf (.cons h hl) hv⟩ ih
  have hlast : ∀ {l l' : List (ℝ × ℝ)}, SamePts l l' →
      (l.getLast? = none ∧ l'.getLast? = none) ∨
      ∃ p p', l.getLast? = some p ∧ l'.getLast? = some p' ∧ Sgn p.2 p'.2 := by
    intro l l' h
    induction h with
    | nil => exact .inl ⟨rfl, rfl⟩
    | @cons p p' l l' h hl ih =>
      right
      rcases ih with ⟨e, e'⟩ | ⟨q, q', e, e', hq⟩
      · rw [List.getLast?_eq_none_iff] at e e'
        subst e; subst e'
        exact ⟨p, p', rfl, rfl, h.2⟩
      · refine ⟨q, q', ?_, ?_, hq⟩
        · rw [List.getLast?_cons, e]; rfl
        · rw [List.getLast?_cons, e']; rfl
  unfold Verif.sufPts
  rcases hlast h with ⟨e, e'⟩ | ⟨p, p', e, e', hp⟩
  · rw [e, e']; exact .nil
  · rw [e, e']; exact hs h hp

/-- At one of the times. -/
theorem SamePts.at {l l' : List (ℝ × ℝ)} (h : SamePts l l') {f g : ℝ → EReal} (hf : Agrees l f)
    (hg : Agrees l' g) {t : ℝ} (ht : t ∈ l.map Prod.fst) : Sgn (f t) (g t) := by
  have : ∃ p p', p ∈ l ∧ p' ∈ l' ∧ p.1 = t ∧ p'.1 = t ∧ Sgn p.2 p'.2 := by
    clear hf hg
    induction h with
    | nil => simp at ht
    | @cons p p' l l' h _ ih =>
      rw [List.map_cons, List.mem_cons] at ht
      rcases ht with rfl | ht
      · exact ⟨p, p', by simp, by simp, rfl, h.1.symm, h.2⟩
      · obtain ⟨q, q', h1, h2, h3⟩ := ih ht
        exact ⟨q, q', by simp [h1], by simp [h2], h3⟩
  obtain ⟨p, p', h1, h2, e1, e2, hs⟩ := this
  have a1 := hf.1 p h1
  have a2 := hg.1 p' h2
  rw [e1] at a1
  rw [e2] at a2
  rw [← a1, ← a2]
  exact hs.coe

/-! ## Predicates -/

theorem NumLit.val_cast (l : NumLit) : (l.val : ℝ) = ((l.val : ℚ) : ℝ) := by
  cases l with
  | int n => simp [NumLit.val]
  | dec i f e => simp [NumLit.val]
  | sci i d e => simp [NumLit.val]

theorem pred_agrees {pts : List (ℝ × ℝ)} (hi : Increasing pts) (hne : pts ≠ []) (op : ComparisonOp) (c : ℝ) :
    Agrees (pts.map fun p => (p.1, marg op c p.2)) (fun s => margin op (eval pts s) (.fin c)) := by
  obtain ⟨a, b, hab, hm⟩ := marg_cast (ι := RingHom.id ℝ) op c
  simp only [RingHom.id_apply] at hab hm
  have e : (pts.map fun p => (p.1, marg op c p.2)) = pts.map fun p => (p.1, a * p.2 + b) := by simp [hab]
  have hev : ∀ t, ((eval (pts.map fun p => (p.1, marg op c p.2)) t : ℝ) : EReal) =
      margin op (eval pts t) (.fin c) := by
    intro t
    rw [hm, e, eval_affine_map a b _ _ hne]
  refine ⟨fun p hp => ?_, .inl fun t _ => hev t⟩
  beta_reduce
  rw [← hev, eval_mem (by unfold Increasing; rw [List.map_map]; exact hi) hp]

/-- A binary64 number compared with a threshold and with the rounded threshold. -/
theorem rnd_sgn {q c v : ℚ} (hv : IsB64 v) (h : B64.rnd q = .fin c) : Sgn (v - c) (v - q) := by
  have hs := B64.rnd_self hv
  constructor
  · intro h0
    by_contra hc
    have := b64_mono v q (by linarith)
    rw [hs, h, D.le_fin, decide_eq_true_eq] at this
    linarith
  · intro h0
    by_contra hc
    have := b64_mono q v (by linarith)
    rw [hs, h, D.le_fin, decide_eq_true_eq] at this
    linarith

theorem rnd_sgn_marg {q c v : ℚ} (hv : IsB64 v) (h : B64.rnd q = .fin c) (op : ComparisonOp) :
    Sgn (marg op (c : ℝ) (v : ℝ)) (marg op (q : ℝ) (v : ℝ)) := by
  have h1 := rnd_sgn hv h
  have h2 : Sgn ((v : ℝ) - c) (v - q) := by
    constructor
    · intro h0
      have : 0 < v - c := by exact_mod_cast h0
      exact_mod_cast h1.1 this
    · intro h0
      have : v - c < 0 := by exact_mod_cast h0
      exact_mod_cast h1.2 this
  have h3 : Sgn ((c : ℝ) - v) (q - v) := by
    have := h2.negR
    rwa [neg_sub, neg_sub] at this
  cases op <;> assumption

variable [Strtod B64]

theorem numLit_b64 {l : NumLit} {d : D B64} (h : l.eval = .ok d) :
    ∃ c : ℚ, d = .fin c ∧ B64.rnd l.val = .fin c := by
  have key : ∀ q : ℚ, B64.rnd q ≠ .pinf → B64.rnd q ≠ .ninf → ∃ c, B64.rnd q = .fin c := by
    intro q h1 h2
    cases hr : B64.rnd q with
    | fin c => exact ⟨c, rfl⟩
    | pinf => exact absurd hr h1
    | ninf => exact absurd hr h2
    | nan => exact absurd hr (B64.rnd_ne_nan q)
  have big : (0 : ℚ) < 2 ^ 1024 - 2 ^ 970 - 2 ^ 63 := by
    have h1 : (2 : ℚ) ^ 1024 = 2 ^ 54 * 2 ^ 970 := by rw [← pow_add]
    have h2 : (2 : ℚ) ^ 63 < 2 ^ 970 := pow_lt_pow_right₀ (by norm_num) (by norm_num)
    rw [h1]; linarith
  have other : ∀ q : B64, (if (Arith.rnd q : D B64).isinf || Strtod.underflow q then
      (.throw .outOfRange : Outcome (D B64)) else .ok (Arith.rnd q)) = .ok d →
      ∃ c : ℚ, d = .fin c ∧ B64.rnd q = .fin c := by
    intro q h
    split at h
    · cases h
    · next hn =>
      rw [Bool.or_eq_true, not_or] at hn
      have hn : ¬ (B64.rnd q).isinf = true := hn.1
      obtain ⟨c, hc⟩ := key q (fun e => by rw [e] at hn; exact hn rfl) (fun e => by rw [e] at hn; exact hn rfl)
      simp only [Outcome.ok.injEq] at h
      exact ⟨c, h.symm.trans hc, hc⟩
  cases l with
  | int n =>
    simp only [NumLit.eval] at h
    split at h
    · next hn =>
      simp only [Outcome.ok.injEq] at h
      have hn' : ((NumLit.int n).val : ℚ) < 2 ^ 63 := by
        show ((n.val : ℕ) : ℚ) < _
        exact_mod_cast hn
      have hn0 : (0 : ℚ) ≤ ((NumLit.int n).val : ℚ) := Nat.cast_nonneg _
      obtain ⟨c, hc⟩ := key ((NumLit.int n).val) (fun e => by have := B64.rnd_pinf.1 e; linarith)
        (fun e => by have := B64.rnd_ninf.1 e; linarith [show (0:ℚ) < 2 ^ 63 by positivity])
      exact ⟨c, h.symm.trans hc, hc⟩
    · cases h
  | dec i f e => exact other _ h
  | sci i d e => exact other _ h

/-! ## Terms -/

section terms
variable (T t : B64) (sig : String → List (B64 × B64))

/-- What is needed of a signal. -/
def GoodSig (pts : List (B64 × B64)) : Prop :=
  Increasing pts ∧ (∃ v, pts.getLast? = some (T, v)) ∧ (∀ p ∈ pts, IsB64 p.2) ∧ t ∈ pts.map Prod.fst

/-- The robustness of the expression. -/
noncomputable def robOf (e : Expr B64) : ℝ → EReal :=
  rob (b64Cast T) (fun n => eval (castPts b64Cast (sig n))) (castExpr b64Cast e)

/-- The expression has the shape `l`, and its robustness is related to the meaning `m` of the text. -/
def LayerRel (e : Expr B64) (m : ℝ → EReal) (names : List String) : Layer → Prop
  | .chain => Chain (fun c : B64 => IsB64 c) e ∧ ∃ k ∈ names, ∃ pts pts' : List (ℝ × ℝ),
      pts.map Prod.fst = (castPts b64Cast (sig k)).map Prod.fst ∧ SamePts pts pts' ∧
      Agrees pts (robOf T sig e) ∧ Agrees pts' m
  | .mixed => Layered (fun c : B64 => IsB64 c) e ∧ Sgn (robOf T sig e (b64Cast t)) (m (b64Cast t))
  | .other => True

variable {T t sig}

theorem LayerRel.mixed {e : Expr B64} {m : ℝ → EReal} {names : List String} {l : Layer}
    (h : LayerRel T t sig e m names l) (hl : l ≠ .other) (hg : ∀ n ∈ names, GoodSig T t (sig n)) :
    LayerRel T t sig e m names .mixed := by
  cases l with
  | other => exact absurd rfl hl
  | mixed => exact h
  | chain =>
    obtain ⟨h1, k, hk, pts, pts', h2, h3, h4, h5⟩ := h
    refine ⟨.chain h1, h3.at h4 h5 ?_⟩
    rw [h2]
    obtain ⟨p, hp, hpt⟩ := List.mem_map.1 (hg k hk).2.2.2
    exact List.mem_map.2 ⟨_, List.mem_map.2 ⟨p, hp, rfl⟩, by rw [← hpt]⟩

theorem layered_not_const {e : Expr B64} {C : B64 → Prop} (h : Layered C e) (b : Bool) : e ≠ .const b := by
  rintro rfl
  cases h with
  | chain h => cases h

theorem Not_not {K : Type} {e : Expr K} (h : ∀ b, e ≠ .const b) : Expr.Not e = .not e := by
  cases e with
  | const b => exact (h b rfl).elim
  | _ => rfl

theorem robOf_not (e : Expr B64) (s : ℝ) : robOf T sig (.not e) s = - robOf T sig e s := by
  unfold robOf; rw [castExpr, rob]

theorem castExprs_app (as bs : List (Expr B64)) :
    castExprs b64Cast (as ++ bs) = castExprs b64Cast as ++ castExprs b64Cast bs := by
  induction as with
  | nil => rfl
  | cons a as ih => rw [List.cons_append, castExprs, ih, castExprs, List.cons_append]

theorem robOf_andOp {a b r : Expr B64} (h : Expr.andOp a b = .ok r) (s : ℝ) :
    robOf T sig r s = robOf T sig a s ⊓ robOf T sig b s := by
  unfold robOf
  cases and_form h <;> simp [rob, robAll, robAll_app, castExpr, castExprs, castExprs_app]

theorem robOf_orOp {a b r : Expr B64} (h : Expr.orOp a b = .ok r) (s : ℝ) :
    robOf T sig r s = robOf T sig a s ⊔ robOf T sig b s := by
  unfold robOf
  cases or_form h <;> simp [rob, robAny, robAny_app, castExpr, castExprs, castExprs_app]

theorem layered_and {C : B64 → Prop} {as : List (Expr B64)} (h : Layered C (.and as)) :
    as ≠ [] ∧ ∀ e ∈ as, Layered C e := by
  cases h with
  | chain h => cases h
  | and h1 h2 => exact ⟨h1, h2⟩

theorem layered_or {C : B64 → Prop} {as : List (Expr B64)} (h : Layered C (.or as)) :
    as ≠ [] ∧ ∀ e ∈ as, Layered C e := by
  cases h with
  | chain h => cases h
  | or h1 h2 => exact ⟨h1, h2⟩

theorem layered_andOp {C : B64 → Prop} {a b r : Expr B64} (h : Expr.andOp a b = .ok r) (ha : Layered C a)
    (hb : Layered C b) : Layered C r := by
  cases and_form h with
  | tru => exact (layered_not_const ha _ rfl).elim
  | fls => exact (layered_not_const ha _ rfl).elim
  | skip as => exact ha
  | append as bs =>
    refine .and (by simp [(layered_and ha).1]) fun e he => ?_
    rcases List.mem_append.1 he with he | he
    · exact (layered_and ha).2 e he
    · exact (layered_and hb).2 e he
  | snoc as b =>
    refine .and (by simp) fun e he => ?_
    rcases List.mem_append.1 he with he | he
    · exact (layered_and ha).2 e he
    · rw [List.mem_singleton] at he; rw [he]; exact hb
  | pair a b =>
    refine .and (by simp) fun e he => ?_
    simp only [List.mem_cons, List.not_mem_nil, or_false] at he
    rcases he with rfl | rfl <;> assumption

theorem layered_orOp {C : B64 → Prop} {a b r : Expr B64} (h : Expr.orOp a b = .ok r) (ha : Layered C a)
    (hb : Layered C b) : Layered C r := by
  cases or_form h with
  | tru => exact (layered_not_const ha _ rfl).elim
  | fls => exact (layered_not_const ha _ rfl).elim
  | skip as => exact ha
  | append as bs =>
    refine .or (by simp [(layered_or ha).1]) fun e he => ?_
    rcases List.mem_append.1 he with he | he
    · exact (layered_or ha).2 e he
    · exact (layered_or hb).2 e he
  | snoc as b =>
    refine .or (by simp) fun e he => ?_
    rcases List.mem_append.1 he with he | he
    · exact (layered_or ha).2 e he
    · rw [List.mem_singleton] at he; rw [he]; exact hb
  | pair a b =>
    refine .or (by simp) fun e he => ?_
    simp only [List.mem_cons, List.not_mem_nil, or_false] at he
    rcases he with rfl | rfl <;> assumption

theorem layerRel_Not {e : Expr B64} {m : ℝ → EReal} {names : List String} {l : Layer}
    (h : LayerRel T t sig e m names l) : LayerRel T t sig (.Not e) (fun s => - m s) names l := by
  cases l with
  | other => trivial
  | chain =>
    obtain ⟨h1, k, hk, pts, pts', h2, h3, h4, h5⟩ := h
    rw [Not_not (layered_not_const (.chain h1))]
    refine ⟨.not h1, k, hk, negPts pts, negPts pts', ?_, h3.neg, ?_, h5.neg⟩
    · rw [← h2]; simp [negPts, Function.comp_def]
    · convert h4.neg using 2 with s
      exact robOf_not e s
  | mixed =>
    obtain ⟨h1, h2⟩ := h
    rw [Not_not (layered_not_const h1)]
    exact ⟨.not h1, by rw [robOf_not]; exact h2.neg⟩

theorem layerRel_pred {k : String} (hg : GoodSig T t (sig k)) (o : ComparisonOp) {c : ℚ} {l : NumLit}
    (hc : B64.rnd l.val = .fin c) :
    LayerRel T t sig (.pred k o (D.fin (K := B64) c))
      (fun s => margin o (eval (castPts b64Cast (sig k)) s) (.fin l.val)) [k] .chain := by
  have hne : castPts b64Cast (sig k) ≠ [] := by
    obtain ⟨v, hv⟩ := hg.2.1
    intro h
    rw [castPts, List.map_eq_nil_iff] at h
    rw [h] at hv; simp at hv
  have hi := castPts_increasing b64Cast_strictMono hg.1
  refine ⟨.pred k o (B64.rnd_fin hc).1, k, by simp,
    (castPts b64Cast (sig k)).map fun p => (p.1, marg o (c : ℝ) p.2),
    (castPts b64Cast (sig k)).map fun p => (p.1, marg o (l.val : ℝ) p.2), by simp [Function.comp_def], ?_,
    pred_agrees hi hne o _, pred_agrees hi hne o _⟩
  unfold SamePts
  rw [List.forall₂_map_left_iff, List.forall₂_map_right_iff, List.forall₂_same]
  intro p hp
  obtain ⟨q, hq, rfl⟩ := List.mem_map.1 hp
  refine ⟨rfl, ?_⟩
  rw [NumLit.val_cast]
  exact rnd_sgn_marg (hg.2.2.1 q hq) hc o

theorem layerRel_dom {k : String} (hg : GoodSig T t (sig k)) {pts : List (ℝ × ℝ)}
    (h : pts.map Prod.fst = (castPts b64Cast (sig k)).map Prod.fst) :
    Increasing pts ∧ ∃ t0, dom pts = Set.Icc t0 (b64Cast T) := by
  obtain ⟨h1, ⟨v, hv⟩, -, -⟩ := hg
  have hne : sig k ≠ [] := by intro h; rw [h] at hv; simp at hv
  obtain ⟨p0, r0, hp0⟩ := List.exists_cons_of_ne_nil hne
  refine ⟨?_, b64Cast p0.1, ?_⟩
  · have := castPts_increasing b64Cast_strictMono h1
    unfold Increasing at *
    rwa [h]
  · rw [dom_of_fst h]
    exact castPts_dom b64Cast_strictMono h1 hp0 hv

theorem robOf_Always (e : Expr B64) (s : ℝ) :
    robOf T sig (.Always e) s = ⨅ t' ∈ Set.Icc s (b64Cast T), robOf T sig e t' := by
  have : castInterval b64Cast (Interval.default : Interval B64) = ⟨.dbl 0, .dbl .pinf⟩ := by
    simp [castInterval, Interval.default, castNum, castD, D.zero_def]
  unfold robOf
  rw [Expr.Always, castExpr, rob, this, window_default]

theorem robOf_Eventually (e : Expr B64) (s : ℝ) :
    robOf T sig (.Eventually e) s = ⨆ t' ∈ Set.Icc s (b64Cast T), robOf T sig e t' := by
  have : castInterval b64Cast (Interval.default : Interval B64) = ⟨.dbl 0, .dbl .pinf⟩ := by
    simp [castInterval, Interval.default, castNum, castD, D.zero_def]
  unfold robOf
  rw [Expr.Eventually, castExpr, rob, this, window_default]

theorem layerRel_always {e : Expr B64} {m : ℝ → EReal} {names : List String} {l : Layer}
    (hg : ∀ n ∈ names, GoodSig T t (sig n)) (h : LayerRel T t sig e m names l) :
    LayerRel T t sig (.Always e) (fun s => ⨅ t' ∈ Set.Icc s (b64Cast T), m t') names l.temporal := by
  cases l with
  | other => trivial
  | mixed => trivial
  | chain =>
    obtain ⟨h1, k, hk, pts, pts', h2, h3, h4, h5⟩ := h
    obtain ⟨i1, t0, i2⟩ := layerRel_dom (hg k hk) h2
    obtain ⟨i3, t0', i4⟩ := layerRel_dom (hg k hk) (h3.fst.symm.trans h2)
    refine ⟨.always h1, k, hk, _, _, ?_, h3.sufPts (op := min) (fun _ _ _ _ => Sgn.min), ?_, h5.inf i3 i4⟩
    · rw [sufPts_fst, h2]
    · convert h4.inf i1 i2 using 2 with s
      exact robOf_Always e s

theorem layerRel_eventually {e : Expr B64} {m : ℝ → EReal} {names : List String} {l : Layer}
    (hg : ∀ n ∈ names, GoodSig T t (sig n)) (h : LayerRel T t sig e m names l) :
    LayerRel T t sig (.Eventually e) (fun s => ⨆ t' ∈ Set.Icc s (b64Cast T), m t') names l.temporal := by
  cases l with
  | other => trivial
  | mixed => trivial
  | chain =>
    obtain ⟨h1, k, hk, pts, pts', h2, h3, h4, h5⟩ := h
    obtain ⟨i1, t0, i2⟩ := layerRel_dom (hg k hk) h2
    obtain ⟨i3, t0', i4⟩ := layerRel_dom (hg k hk) (h3.fst.symm.trans h2)
    refine ⟨.eventually h1, k, hk, _, _, ?_, h3.sufPts (op := max) (fun _ _ _ _ => Sgn.max), ?_, h5.sup i3 i4⟩
    · rw [sufPts_fst, h2]
    · convert h4.sup i1 i2 using 2 with s
      exact robOf_Eventually e s

theorem LayerRel.names {e : Expr B64} {m : ℝ → EReal} {names names' : List String} {l : Layer}
    (h : LayerRel T t sig e m names l) (hn : ∀ n ∈ names, n ∈ names') : LayerRel T t sig e m names' l := by
  cases l with
  | other => trivial
  | mixed => exact h
  | chain =>
    obtain ⟨h1, k, hk, h2⟩ := h
    exact ⟨h1, k, hn k hk, h2⟩

theorem join_ne {l l' : Layer} (h : l.join l' ≠ .other) : l ≠ .other ∧ l' ≠ .other ∧ l.join l' = .mixed := by
  revert h
  cases l <;> cases l' <;> decide

/-- Two operands. -/
theorem layerRel_join {a b r : Expr B64} {m m' f : ℝ → EReal} {names names' : List String} {l l' : Layer}
    (hg : ∀ n ∈ names ++ names', GoodSig T t (sig n)) (ha : LayerRel T t sig a m names l)
    (hb : LayerRel T t sig b m' names' l')
    (h : Layered (fun c : B64 => IsB64 c) a → Layered (fun c : B64 => IsB64 c) b →
      Sgn (robOf T sig a (b64Cast t)) (m (b64Cast t)) → Sgn (robOf T sig b (b64Cast t)) (m' (b64Cast t)) →
      Layered (fun c : B64 => IsB64 c) r ∧ Sgn (robOf T sig r (b64Cast t)) (f (b64Cast t))) :
    LayerRel T t sig r f (names ++ names') (l.join l') := by
  by_cases ho : l.join l' = .other
  · rw [ho]; trivial
  obtain ⟨h1, h2, h3⟩ := join_ne ho
  rw [h3]
  have ha := ha.mixed h1 fun n hn => hg n (List.mem_append.2 (.inl hn))
  have hb := hb.mixed h2 fun n hn => hg n (List.mem_append.2 (.inr hn))
  exact h ha.1 hb.1 ha.2 hb.2

/-- The operands of And and Or. -/
theorem layerRel_list {env : String → Layer × (ℝ → EReal) × List String} {es : List (Expr B64)} {ts : List Syn}
    (h : List.Forall₂ (fun e a =>
      (∀ n ∈ signals (fun k => (env k).2.2) a, GoodSig T t (sig n)) →
        LayerRel T t sig e (synRob (b64Cast T) (fun n => eval (castPts b64Cast (sig n))) (fun k => (env k).2.1) a)
          (signals (fun k => (env k).2.2) a) (layer (fun k => (env k).1) a)) es ts)
    (hg : ∀ n ∈ signalsAll (fun k => (env k).2.2) ts, GoodSig T t (sig n))
    (hl : layerAll (fun k => (env k).1) ts ≠ .other) :
    layerAll (fun k => (env k).1) ts = .mixed ∧ (∀ e ∈ es, Layered (fun c : B64 => IsB64 c) e) ∧
    Sgn (robAll (b64Cast T) (fun n => eval (castPts b64Cast (sig n))) (castExprs b64Cast es) (b64Cast t))
      (synRobAll (b64Cast T) (fun n => eval (castPts b64Cast (sig n))) (fun k => (env k).2.1) ts (b64Cast t)) ∧
    Sgn (robAny (b64Cast T) (fun n => eval (castPts b64Cast (sig n))) (castExprs b64Cast es) (b64Cast t))
      (synRobAny (b64Cast T) (fun n => eval (castPts b64Cast (sig n))) (fun k => (env k).2.1) ts (b64Cast t)) := by
  induction h with
  | nil => exact ⟨rfl, by simp, by simpa [castExprs, robAll, synRobAll] using Sgn.refl _,
      by simpa [castExprs, robAny, synRobAny] using Sgn.refl _⟩
  | @cons e a es ts h _ ih =>
    rw [layerAll] at hl ⊢
    rw [signalsAll] at hg
    obtain ⟨h1, h2, h3⟩ := join_ne hl
    obtain ⟨-, i2, i3, i4⟩ := ih (fun n hn => hg n (List.mem_append.2 (.inr hn))) h2
    have hg' := fun n hn => hg n (List.mem_append.2 (.inl hn))
    obtain ⟨j1, j2⟩ := (h hg').mixed h1 hg'
    refine ⟨h3, ?_, ?_, ?_⟩
    · intro e' he'
      rcases List.mem_cons.1 he' with rfl | he'
      · exact j1
      · exact i2 e' he'
    · rw [castExprs, robAll, synRobAll]
      exact j2.min i3
    · rw [castExprs, robAny, synRobAny]
      exact j2.max i4

/-- Shape, robustness and signals of a term. -/
noncomputable def layerMean (T : B64) (sig : String → List (B64 × B64))
    (env : String → Layer × (ℝ → EReal) × List String) (a : Syn) : Layer × (ℝ → EReal) × List String :=
  (layer (fun k => (env k).1) a,
    synRob (b64Cast T) (fun n => eval (castPts b64Cast (sig n))) (fun k => (env k).2.1) a,
    signals (fun k => (env k).2.2) a)

theorem layerRespects : Respects (layerMean T sig) (fun e m =>
    (∀ n ∈ m.2.2, GoodSig T t (sig n)) → LayerRel T t sig e m.2.1 m.2.2 m.1) := by
  intro envE env henv
  suffices H : ∀ (n : Nat) (a : Syn), sizeOf a < n → ∀ e, denote reversed envE a = .ok e →
      (∀ n ∈ signals (fun k => (env k).2.2) a, GoodSig T t (sig n)) →
      LayerRel T t sig e (synRob (b64Cast T) (fun n => eval (castPts b64Cast (sig n))) (fun k => (env k).2.1) a)
        (signals (fun k => (env k).2.2) a) (layer (fun k => (env k).1) a) from
    fun a e => H _ a (Nat.lt_succ_self _) e
  intro n
  induction n with
  | zero => intro a ha; omega
  | succ n ih =>
    intro a ha e he hg
    cases a with
    | tru => trivial
    | fls => trivial
    | ref k =>
      simp only [denote] at he
      split at he
      · next e' h =>
        cases he
        rw [signals] at hg ⊢
        rw [layer]
        exact henv _ _ h hg
      · cases he
    | cmp o k c =>
      simp only [denote, Outcome.bind_eq_ok, Outcome.pure_eq_ok] at he
      obtain ⟨d, hd, he⟩ := he
      cases he
      obtain ⟨q, rfl, hq⟩ := numLit_b64 hd
      rw [signals] at hg ⊢
      rw [layer]
      exact layerRel_pred (hg k (by simp)) o hq
    | rcmp o c k =>
      simp only [denote, Outcome.bind_eq_ok] at he
      obtain ⟨d, hd, he⟩ := he
      cases he
      obtain ⟨q, rfl, hq⟩ := numLit_b64 hd
      rw [signals] at hg ⊢
      rw [layer]
      exact layerRel_pred (hg k (by simp)) (mirror o) hq
    | not a =>
      simp only [denote, Outcome.bind_eq_ok, Outcome.pure_eq_ok] at he
      obtain ⟨y, hy, he⟩ := he
      cases he
      simp at ha
      rw [signals] at hg ⊢
      rw [layer]
      exact layerRel_Not (ih a (by omega) y hy hg)
    | and ts =>
      simp only [denote, Outcome.bind_eq_ok] at he
      obtain ⟨es, hes, he⟩ := he
      split at he
      · cases he
      · obtain ⟨rfl, h2⟩ := And_ok he
        simp at ha
        rw [signals] at hg ⊢
        rw [layer]
        by_cases ho : layerAll (fun k => (env k).1) ts = .other
        · rw [ho]; trivial
        have := layerRel_list (listForm (fun t' ht' e' he' => ih t' (by
          have := List.sizeOf_lt_of_mem ht'; omega) e' he') hes) hg ho
        rw [this.1]
        exact ⟨.and (by rintro rfl; simp at h2) this.2.1, this.2.2.1⟩
    | or ts =>
      simp only [denote, Outcome.bind_eq_ok] at he
      obtain ⟨es, hes, he⟩ := he
      split at he
      · cases he
      · obtain ⟨rfl, h2⟩ := Or_ok he
        simp at ha
        rw [signals] at hg ⊢
        rw [layer]
        by_cases ho : layerAll (fun k => (env k).1) ts = .other
        · rw [ho]; trivial
        have := layerRel_list (listForm (fun t' ht' e' he' => ih t' (by
          have := List.sizeOf_lt_of_mem ht'; omega) e' he') hes) hg ho
        rw [this.1]
        exact ⟨.or (by rintro rfl; simp at h2) this.2.1, this.2.2.2⟩
    | implies a b =>
      simp only [denote, Outcome.bind_eq_ok] at he
      obtain ⟨y, hy, z, hz, he⟩ := he
      simp at ha
      rw [signals] at hg ⊢
      rw [layer]
      refine layerRel_join hg (ih a (by omega) y hy fun n hn => hg n (List.mem_append.2 (.inl hn)))
        (ih b (by omega) z hz fun n hn => hg n (List.mem_append.2 (.inr hn))) fun h1 h2 h3 h4 => ?_
      have hn := Not_not (layered_not_const h1)
      rw [Expr.Implies, hn] at he
      refine ⟨layered_orOp he (.not h1) h2, ?_⟩
      rw [robOf_orOp he, robOf_not, synRob]
      exact h3.neg.max h4
    | iff a b =>
      simp only [denote, Outcome.bind_eq_ok, Expr.Iff] at he
      obtain ⟨y, hy, z, hz, p, hp, q, hq, he⟩ := he
      simp at ha
      rw [signals] at hg ⊢
      rw [layer]
      refine layerRel_join hg (ih a (by omega) y hy fun n hn => hg n (List.mem_append.2 (.inl hn)))
        (ih b (by omega) z hz fun n hn => hg n (List.mem_append.2 (.inr hn))) fun h1 h2 h3 h4 => ?_
      rw [Not_not (layered_not_const h1), Not_not (layered_not_const h2)] at hq
      refine ⟨layered_orOp he (layered_andOp hp h1 h2) (layered_andOp hq (.not h1) (.not h2)), ?_⟩
      rw [robOf_orOp he, robOf_andOp hp, robOf_andOp hq, robOf_not, robOf_not, synRob]
      exact (h3.min h4).max (h3.neg.min h4.neg)
    | xor a b =>
      simp only [denote, Outcome.bind_eq_ok, Expr.Xor] at he
      obtain ⟨y, hy, z, hz, p, hp, q, hq, he⟩ := he
      simp at ha
      rw [signals] at hg ⊢
      rw [layer]
      refine layerRel_join hg (ih a (by omega) y hy fun n hn => hg n (List.mem_append.2 (.inl hn)))
        (ih b (by omega) z hz fun n hn => hg n (List.mem_append.2 (.inr hn))) fun h1 h2 h3 h4 => ?_
      rw [Not_not (layered_not_const h1), Not_not (layered_not_const h2)] at hq
      refine ⟨layered_andOp he (layered_orOp hp h1 h2) (layered_orOp hq (.not h1) (.not h2)), ?_⟩
      rw [robOf_andOp he, robOf_orOp hp, robOf_orOp hq, robOf_not, robOf_not, synRob]
      exact (h3.max h4).min (h3.neg.max h4.neg)
    | always a =>
      simp only [denote, Outcome.bind_eq_ok, Outcome.pure_eq_ok] at he
      obtain ⟨y, hy, he⟩ := he
      cases he
      simp at ha
      rw [signals] at hg ⊢
      rw [layer]
      exact layerRel_always hg (ih a (by omega) y hy hg)
    | eventually a =>
      simp only [denote, Outcome.bind_eq_ok, Outcome.pure_eq_ok] at he
      obtain ⟨y, hy, he⟩ := he
      cases he
      simp at ha
      rw [signals] at hg ⊢
      rw [layer]
      exact layerRel_eventually hg (ih a (by omega) y hy hg)
    | untl a b => trivial

end terms

/-! ## Meanings of texts -/

/-- Reading the assertions with a projection of the meaning. -/
theorem asserted_map {α β : Type} {mean : (String → α) → Syn → α} {mean' : (String → β) → Syn → β} (f : α → β)
    (h : ∀ env a, f (mean env a) = mean' (fun k => f (env k)) a) :
    ∀ (cs : List Cmd) (env : String → α), (asserted mean env cs).map (fun p => (p.1, f p.2)) =
      asserted mean' (fun k => f (env k)) cs := by
  intro cs
  induction cs with
  | nil => intro env; rfl
  | cons c cs ih =>
    intro env
    cases c with
    | define n a =>
      simp only [asserted]
      rw [ih]
      congr 1
      funext k
      unfold bindName
      split
      · exact h env a
      · rfl
    | assert n a => simp only [asserted, List.map_cons, ih, h]

end Verif
