import Verif.Proofs.Safe
import Verif.Proofs.Derived
import Verif.Props.Totality
import Verif.Props.AnyRound

/-!
# Evaluation of signals that fit together, exact arithmetic (helper lemmas for C114)
-/

set_option linter.unusedSectionVars false

namespace Verif
open Spec

variable {K : Type} [Field K] [LinearOrder K] [IsStrictOrderedRing K] [Arith K] [ExactArith K]

theorem good_common {P Q : Signal K → Prop} {xs ys : List (K × K)} (hx : Increasing xs) (hy : Increasing ys)
    (gx : Good P (ofPts xs)) (gy : Good Q (ofPts ys))
    (hfit : ∀ a b, P a → Q b → D.max a.beginTime b.beginTime ∈ times a ∧ D.max a.beginTime b.beginTime ∈ times b) :
    ∃ b, b ∈ xs.map Prod.fst ∧ b ∈ ys.map Prod.fst ∧ (∀ t, t ∈ dom xs ∧ t ∈ dom ys → b ≤ t) := by
  have hm := good_meet gx gy hfit
  obtain ⟨r, hr⟩ := (synchronize_ok_iff _ _ gx.fin.sorted gy.fin.sorted gx.fin.2.noNaN gy.fin.2.noNaN gx.ne gy.ne).2
    ⟨by obtain ⟨a, ha, e⟩ := List.mem_map.1 hm.1; exact ⟨a, ha, e⟩,
     by obtain ⟨a, ha, e⟩ := List.mem_map.1 hm.2; exact ⟨a, ha, e⟩⟩
  exact sync_fin_ok hx hy hr

theorem pair_fits {nd : Bool} {comp : Cmp K} {op : K → K → K} {pick : D K → D K → D K} (hp : OfValues comp pick)
    (hop : PairOp nd comp op) {P Q : Signal K → Prop} {xs ys : List (K × K)} (hx : Increasing xs) (hy : Increasing ys)
    (gx : Good P (ofPts xs)) (gy : Good Q (ofPts ys))
    (hfit : ∀ a b, P a → Q b → D.max a.beginTime b.beginTime ∈ times a ∧ D.max a.beginTime b.beginTime ∈ times b) :
    ∃ zs, minmaxPair nd comp (ofPts xs) (ofPts ys) false = .ok (ofPts zs) ∧ Increasing zs ∧
      (∀ t, t ∈ dom zs ↔ t ∈ dom xs ∧ t ∈ dom ys) ∧ Good (fun s => P s ∨ Q s) (ofPts zs) := by
  obtain ⟨b, b1, b2, b3⟩ := good_common hx hy gx gy hfit
  obtain ⟨zs, e, iz, hd, -⟩ := hop hx hy b b1 b2 b3
  have := pair_tidy (nd := nd) hp gx gy hfit
  rw [e] at this
  exact ⟨zs, e, iz, hd, this⟩

theorem fold_fits {nd : Bool} {comp : Cmp K} {op : K → K → K} {pick : D K → D K → D K} (hp : OfValues comp pick)
    (hop : PairOp nd comp op) {α : Type} (L : α → Signal K → Prop) :
    ∀ (es : List α) (ls : List (List (K × K))) (P : Signal K → Prop) (acc : List (K × K)),
    List.Forall₂ (fun e l => Increasing l ∧ Good (L e) (ofPts l)) es ls → Increasing acc → Good P (ofPts acc) →
    (∀ a b, (P a ∨ ∃ e ∈ es, L e a) → (P b ∨ ∃ e ∈ es, L e b) →
      D.max a.beginTime b.beginTime ∈ times a ∧ D.max a.beginTime b.beginTime ∈ times b) →
    ∃ zs, minmaxFold nd comp false (ofPts acc) (ls.map ofPts) = .ok (ofPts zs) ∧ Increasing zs ∧
      ∀ t, t ∈ dom zs ↔ t ∈ dom acc ∧ ∀ l ∈ ls, t ∈ dom l := by
  intro es
  induction es with
  | nil =>
    intro ls P acc h ia g _
    cases h
    exact ⟨acc, by simp [minmaxFold], ia, fun t => by simp⟩
  | cons e es ih =>
    intro ls P acc h ia g hfit
    cases h with | cons h1 h2 => ?_
    obtain ⟨zs, e1, iz, hd, gz⟩ := pair_fits hp hop ia h1.1 g h1.2
      fun a b ha hb => hfit a b (.inl ha) (.inr ⟨e, by simp, hb⟩)
    obtain ⟨ws, e2, iw, hw⟩ := ih _ (fun s => P s ∨ L e s) zs h2 iz gz (by
      intro a b ha hb
      refine hfit a b ?_ ?_
      · rcases ha with (h | h) | ⟨e', h, h'⟩
        · exact .inl h
        · exact .inr ⟨e, by simp, h⟩
        · exact .inr ⟨e', by simp [h], h'⟩
      · rcases hb with (h | h) | ⟨e', h, h'⟩
        · exact .inl h
        · exact .inr ⟨e, by simp, h⟩
        · exact .inr ⟨e', by simp [h], h'⟩)
    refine ⟨ws, ?_, iw, fun t => ?_⟩
    · rw [List.map_cons, minmaxFold, e1, Outcome.bind_ok, e2]
    · rw [hw, hd]; simp [and_assoc]

theorem vec_fits {nd : Bool} {comp : Cmp K} {op : K → K → K} {pick : D K → D K → D K} (hp : OfValues comp pick)
    (hop : PairOp nd comp op) {α : Type} (L : α → Signal K → Prop) {es : List α} {ls : List (List (K × K))}
    (hes : es ≠ []) (h : List.Forall₂ (fun e l => Increasing l ∧ Good (L e) (ofPts l)) es ls)
    (hfit : ∀ a b, (∃ e ∈ es, L e a) → (∃ e ∈ es, L e b) →
      D.max a.beginTime b.beginTime ∈ times a ∧ D.max a.beginTime b.beginTime ∈ times b) :
    ∃ zs, minmaxVec nd comp (ls.map ofPts) false = .ok (ofPts zs) ∧ Increasing zs ∧
      ∀ t, t ∈ dom zs ↔ ∀ l ∈ ls, t ∈ dom l := by
  cases h with
  | nil => exact absurd rfl hes
  | @cons e x es xs h1 h2 =>
    obtain ⟨zs, e1, iz, hd⟩ := fold_fits hp hop L es xs (L e) x h2 h1.1 h1.2 (by
      intro a b ha hb
      refine hfit a b ?_ ?_
      · rcases ha with h | ⟨e', h, h'⟩
        · exact ⟨e, by simp, h⟩
        · exact ⟨e', by simp [h], h'⟩
      · rcases hb with h | ⟨e', h, h'⟩
        · exact ⟨e, by simp, h⟩
        · exact ⟨e', by simp [h], h'⟩)
    refine ⟨zs, ?_, iz, fun t => by rw [hd]; simp⟩
    rw [← e1]
    unfold minmaxVec
    cases xs with
    | nil => simp [minmaxFold]
    | cons y xs =>
      cases xs with
      | nil => simp [minmaxFold, Outcome.bind_ok_right]
      | cons w xs => rfl

theorem args_fits {r : RobustnessOp K} {Q : Expr K → List (K × K) → Prop} : ∀ (es : List (Expr K)),
    (∀ e ∈ es, ∃ l, r.compute e = .ok (ofPts l) ∧ Q e l) →
    ∃ ls, r.computeArgs es = .ok (ls.map ofPts) ∧ List.Forall₂ Q es ls
  | [], _ => ⟨[], by rw [RobustnessOp.computeArgs]; rfl, .nil⟩
  | e :: es, h => by
    obtain ⟨l, h1, h2⟩ := h e (by simp)
    obtain ⟨ls, h3, h4⟩ := args_fits es fun e' he' => h e' (by simp [he'])
    exact ⟨l :: ls, by rw [RobustnessOp.computeArgs, h1, Outcome.bind_ok, h3, Outcome.bind_ok]; rfl, .cons h2 h4⟩

theorem fit_sub {P Q : Signal K → Prop} (h : Fit Q) (hs : ∀ x, P x → Q x) : Fit P :=
  ⟨fun x hx => h.1 x (hs x hx), fun x y hx hy => h.2 x y (hs x hx) (hs y hy)⟩

theorem forall₂_dom {es : List (Expr K)} {ls : List (List (K × K))} {R : Expr K → List (K × K) → Prop}
    {S : Expr K → K → Prop} (h : List.Forall₂ R es ls) (hR : ∀ e l, R e l → ∀ t, t ∈ dom l ↔ S e t) (t : K) :
    (∀ l ∈ ls, t ∈ dom l) ↔ ∀ e ∈ es, S e t := by
  induction h with
  | nil => simp
  | cons h1 _ ih => simp only [List.mem_cons, forall_eq_or_imp, ih, hR _ _ h1 t]

/-- A plain formula over signals that fit together has a value. -/
theorem compute_fits {nd : Bool} {fuel : Nat} {trace : Trace K} {sy : Bool} (ht : FiniteTimes trace)
    (sig : String → List (K × K)) (phi : Expr K) (hp : Plain phi)
    (hs : ∀ n, Uses n phi → ∃ x, trace.lookup n = some x ∧ Represents x (sig n))
    (hfit : Fit (Leaf trace (minMaxTime trace).1 (minMaxTime trace).2 phi)) :
    ∃ zs, computeRobustness nd fuel phi trace sy = .ok (ofPts zs) ∧ Increasing zs ∧
      ∀ t, t ∈ dom zs ↔ ∀ n, Uses n phi → t ∈ dom (sig n) := by
  have hf : AllFin (K := K) ⟨nd, fuel, (minMaxTime trace).1, (minMaxTime trace).2, trace⟩ := allFin ht
  have good : ∀ {e : Expr K} {zs : List (K × K)}, Plain e →
      Fit (Leaf trace (minMaxTime trace).1 (minMaxTime trace).2 e) →
      computeRobustness nd fuel e trace sy = .ok (ofPts zs) →
      Good (Leaf trace (minMaxTime trace).1 (minMaxTime trace).2 e) (ofPts zs) := by
    intro e zs he hfe h
    have := compute_tidy hf e (plain_arity he) hfe
    unfold computeRobustness at h
    simp only at h
    rw [h] at this
    exact this
  have hne : ∀ {e : Expr K} {zs : List (K × K)}, Plain e →
      Fit (Leaf trace (minMaxTime trace).1 (minMaxTime trace).2 e) →
      computeRobustness nd fuel e trace sy = .ok (ofPts zs) → zs ≠ [] := by
    rintro e zs he hfe h rfl
    exact (good he hfe h).ne (by simp [ofPts])
  induction hp with
  | pred n op c =>
    obtain ⟨x, hx, hr⟩ := hs n (.pred op _)
    obtain ⟨z, zs, e, hz, ht, hd, -⟩ := C20_predicate nd fuel trace sy n op c x (sig n) hx hr
    obtain ⟨iz, rfl⟩ := (represents_iff _ _).1 hz
    refine ⟨zs, e, iz, fun t => ?_⟩
    rw [hd]
    constructor
    · rintro h m hm
      cases hm; exact h
    · intro h; exact h n (.pred op _)
  | @not e _ ih =>
    obtain ⟨zs, e1, iz, hd⟩ := ih (fun n hn => hs n (.not hn)) (fit_sub hfit fun _ h => .not h)
    refine ⟨negPts zs, ?_, increasing_negPts.2 iz, fun t => ?_⟩
    · rw [C21_not_negates, e1]
      exact congrArg Outcome.ok (negSig_ofPts iz)
    · rw [dom_negPts, hd]
      exact ⟨fun h n hn => by cases hn with | not hn => exact h n hn, fun h n hn => h n (.not hn)⟩
  | @and args hl hpl ih =>
    have hall : ∀ e ∈ args, ∃ l, RobustnessOp.compute ⟨nd, fuel, (minMaxTime trace).1, (minMaxTime trace).2, trace⟩ e =
        .ok (ofPts l) ∧ ((Increasing l ∧ Good (Leaf trace (minMaxTime trace).1 (minMaxTime trace).2 e) (ofPts l)) ∧
          ∀ t, t ∈ dom l ↔ ∀ n, Uses n e → t ∈ dom (sig n)) := by
      intro e he
      have hfe := fit_sub hfit fun _ h => Leaf.and he h
      obtain ⟨l, e1, il, hd⟩ := ih e he (fun n hn => hs n (.and he hn)) hfe
      exact ⟨l, e1, ⟨il, good (hpl e he) hfe e1⟩, hd⟩
    obtain ⟨ls, e1, h2⟩ := args_fits args hall
    have hne' : args ≠ [] := by rintro rfl; simp at hl
    obtain ⟨zs, e2, iz, hd⟩ := vec_fits (nd := nd) ofValues_le (pairOp_le nd)
      (Leaf trace (minMaxTime trace).1 (minMaxTime trace).2) hne' (h2.imp fun _ _ h => h.1)
      fun a b ⟨e, he, h⟩ ⟨e', he', h'⟩ => hfit.2 a b (.and he h) (.and he' h')
    refine ⟨zs, ?_, iz, fun t => ?_⟩
    · unfold computeRobustness; simp only
      rw [RobustnessOp.compute, e1, Outcome.bind_ok, assert_true, Outcome.bind_ok]
      · exact e2
      · simp [h2.length_eq]
    · rw [hd, forall₂_dom h2 (fun e l h => h.2)]
      exact ⟨fun h n hn => by cases hn with | and he hn => exact h _ he n hn, fun h e he n hn => h n (.and he hn)⟩
  | @or args hl hpl ih =>
    have hall : ∀ e ∈ args, ∃ l, RobustnessOp.compute ⟨nd, fuel, (minMaxTime trace).1, (minMaxTime trace).2, trace⟩ e =
        .ok (ofPts l) ∧ ((Increasing l ∧ Good (Leaf trace (minMaxTime trace).1 (minMaxTime trace).2 e) (ofPts l)) ∧
          ∀ t, t ∈ dom l ↔ ∀ n, Uses n e → t ∈ dom (sig n)) := by
      intro e he
      have hfe := fit_sub hfit fun _ h => Leaf.or he h
      obtain ⟨l, e1, il, hd⟩ := ih e he (fun n hn => hs n (.or he hn)) hfe
      exact ⟨l, e1, ⟨il, good (hpl e he) hfe e1⟩, hd⟩
    obtain ⟨ls, e1, h2⟩ := args_fits args hall
    have hne' : args ≠ [] := by rintro rfl; simp at hl
    obtain ⟨zs, e2, iz, hd⟩ := vec_fits (nd := nd) ofValues_ge (pairOp_ge nd)
      (Leaf trace (minMaxTime trace).1 (minMaxTime trace).2) hne' (h2.imp fun _ _ h => h.1)
      fun a b ⟨e, he, h⟩ ⟨e', he', h'⟩ => hfit.2 a b (.or he h) (.or he' h')
    refine ⟨zs, ?_, iz, fun t => ?_⟩
    · unfold computeRobustness; simp only
      rw [RobustnessOp.compute, e1, Outcome.bind_ok, assert_true, Outcome.bind_ok]
      · exact e2
      · simp [h2.length_eq]
    · rw [hd, forall₂_dom h2 (fun e l h => h.2)]
      exact ⟨fun h n hn => by cases hn with | or he hn => exact h _ he n hn, fun h e he n hn => h n (.or he hn)⟩
  | @always e i hi hpe ih =>
    have hfe := fit_sub hfit fun _ h => Leaf.always h
    obtain ⟨zs, e1, iz, hd⟩ := ih (fun n hn => hs n (.always hn)) hfe
    refine ⟨sufPts min zs, (eventually_fin e1 (represents_ofPts iz) (hne hpe hfe e1) i (intervalBuilt_high hi)).2,
      increasing_sufPts.2 iz, fun t => ?_⟩
    rw [dom_sufPts, hd]
    exact ⟨fun h n hn => by cases hn with | always hn => exact h n hn, fun h n hn => h n (.always hn)⟩
  | @eventually e i hi hpe ih =>
    have hfe := fit_sub hfit fun _ h => Leaf.eventually h
    obtain ⟨zs, e1, iz, hd⟩ := ih (fun n hn => hs n (.eventually hn)) hfe
    refine ⟨sufPts max zs, (eventually_fin e1 (represents_ofPts iz) (hne hpe hfe e1) i (intervalBuilt_high hi)).1,
      increasing_sufPts.2 iz, fun t => ?_⟩
    rw [dom_sufPts, hd]
    exact ⟨fun h n hn => by cases hn with | eventually hn => exact h n hn, fun h n hn => h n (.eventually hn)⟩
  | @untl a b i hi hpa hpb ih1 ih2 =>
    have hfa := fit_sub hfit fun _ h => Leaf.untl_left h
    have hfb := fit_sub hfit fun _ h => Leaf.untl_right h
    obtain ⟨xs, e1, ix, hdx⟩ := ih1 (fun n hn => hs n (.untl_left hn)) hfa
    obtain ⟨ys, e2, iy, hdy⟩ := ih2 (fun n hn => hs n (.untl_right hn)) hfb
    rw [compute_until_ok e1 e2]
    obtain ⟨b0, b1, b2, b3⟩ := good_common ix iy (good hpa hfa e1) (good hpb hfb e2)
      fun a b ha hb => hfit.2 a b (.untl_left ha) (.untl_right hb)
    obtain ⟨ts, t1, t2, t3, t4, t5, -, -⟩ := computeUntil_pts nd ix iy b0 b1 b2 b3
    have hfst : (untilPts (sample2 (eval xs) (eval ys) ts)).map Prod.fst = ts := by
      rw [untilPts_fst]; simp [sample2, Function.comp_def]
    have hi : Increasing (untilPts (sample2 (eval xs) (eval ys) ts)) := by
      unfold Increasing; rw [hfst]; exact t1
    have hdz : ∀ t, t ∈ dom (untilPts (sample2 (eval xs) (eval ys) ts)) ↔ t ∈ dom xs ∧ t ∈ dom ys := by
      intro t
      rw [dom_of_fst (zs := sampleAt (eval xs) ts) (by rw [hfst]; simp [sampleAt, Function.comp_def])]
      exact t5 _ t
    refine ⟨_, t4, hi, fun t => ?_⟩
    rw [hdz, hdx, hdy]
    constructor
    · rintro ⟨h1, h2⟩ n hn
      cases hn with
      | untl_left hn => exact h1 n hn
      | untl_right hn => exact h2 n hn
    · intro h; exact ⟨fun n hn => h n (.untl_left hn), fun n hn => h n (.untl_right hn)⟩

end Verif
