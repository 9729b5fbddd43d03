import Verif.Proofs.Build
import Verif.Model.Robustness

/-! # Every signal returned by the robustness computation is well formed (any rounding) -/

set_option linter.unusedSectionVars false

namespace Verif
open Spec

variable {K : Type} [Field K] [LinearOrder K] [Arith K]

theorem minmaxPairLoop_cons (comp : Cmp K) (out : Signal K) (c : Chosen) (pi pj : Option (Sample K))
    (i j : Sample K) (is js : List (Sample K)) :
    minmaxPairLoop comp out c pi pj (i :: is) (j :: js) =
      if comp i j then
        ((if c = .Y then insertCrossing out pj pi i.time else .ok out) >>= fun out =>
          out.pushBack i >>= fun out => minmaxPairLoop comp out .X (some i) (some j) is js)
      else
        ((if c = .X then insertCrossing out pi pj j.time else .ok out) >>= fun out =>
          out.pushBack j >>= fun out => minmaxPairLoop comp out .Y (some i) (some j) is js) := by
  rw [minmaxPairLoop]
  split_ifs <;> rfl

theorem minmaxPair_eq (nd : Bool) (comp : Cmp K) (x y : Signal K) (s : Bool) :
    minmaxPair nd comp x y s =
      ((if s then .ok (x, y) else synchronize x y) >>= fun p =>
        assert_ nd (p.1.size == p.2.size) >>= fun _ =>
        assert_ nd (p.1.beginTime.eq p.2.beginTime) >>= fun _ =>
        assert_ nd (p.1.endTime.eq p.2.endTime) >>= fun _ =>
        minmaxPairLoop comp Signal.empty .NONE none none p.1.samples p.2.samples) := by
  rw [minmaxPair]
  split_ifs <;> rfl

theorem minmaxSeqWindow_eq (fuel : Nat) (comp : Cmp K) (x : Signal K) (a b : D K) :
    minmaxSeqWindow fuel comp x a b =
      ((if a.eq 0 then .ok x else x.back >>= fun l =>
          x.resizeShift (x.beginTime + (b - a)) (x.endTime + (b - a)) l.value (-(b - a))) >>= fun x' =>
        windowFill comp (x.beginTime + (b - a)) none x'.samples [] >>= fun p =>
        windowLoop comp a fuel p.1 p.2.1 p.2.2 Signal.empty >>= fun z => z.simplify) := by
  rw [minmaxSeqWindow]
  split_ifs
  · rfl
  · simp only [Outcome.bind_assoc']

theorem wf_empty : WF (Signal.empty : Signal K) := ⟨trivial, trivial⟩

theorem wf_insertCrossing {out out' : Signal K} {a b : Option (Sample K)} {t : D K} (h : WF out)
    (e : insertCrossing out a b t = .ok out') : WF out' := by
  unfold insertCrossing at e
  simp only [Outcome.bind_eq_ok] at e
  obtain ⟨s, -, p, -, e⟩ := e
  split at e
  · exact (wf_pushBack h e).1
  · simp only [Outcome.pure_eq_ok, Outcome.ok.injEq] at e; subst e; exact h

theorem wf_minmaxPairLoop (comp : Cmp K) : ∀ (is js : List (Sample K)) (out : Signal K) (c : Chosen)
    (pi pj : Option (Sample K)) (z : Signal K), WF out →
    minmaxPairLoop comp out c pi pj is js = .ok z → WF z := by
  intro is
  induction is with
  | nil => intro js out c pi pj z h e; simp [minmaxPairLoop] at e; subst e; exact h
  | cons i is ih =>
    intro js out c pi pj z h e
    cases js with
    | nil => simp [minmaxPairLoop] at e; subst e; exact h
    | cons j js =>
      rw [minmaxPairLoop_cons] at e
      split at e
      · simp only [Outcome.bind_eq_ok] at e
        obtain ⟨o1, e1, o2, e2, e3⟩ := e
        have h1 : WF o1 := by
          split at e1
          · exact wf_insertCrossing h e1
          · simp only [Outcome.ok.injEq] at e1; subst e1; exact h
        exact ih _ _ _ _ _ _ (wf_pushBack h1 e2).1 e3
      · simp only [Outcome.bind_eq_ok] at e
        obtain ⟨o1, e1, o2, e2, e3⟩ := e
        have h1 : WF o1 := by
          split at e1
          · exact wf_insertCrossing h e1
          · simp only [Outcome.ok.injEq] at e1; subst e1; exact h
        exact ih _ _ _ _ _ _ (wf_pushBack h1 e2).1 e3

theorem wf_minmaxPair {nd : Bool} {comp : Cmp K} {x y z : Signal K} {s : Bool}
    (e : minmaxPair nd comp x y s = .ok z) : WF z := by
  rw [minmaxPair_eq] at e
  simp only [Outcome.bind_eq_ok] at e
  obtain ⟨p, -, u, -, v, -, w, -, e⟩ := e
  exact wf_minmaxPairLoop comp _ _ _ _ _ _ _ wf_empty e

theorem wf_minmaxFold {nd : Bool} {comp : Cmp K} {s : Bool} : ∀ (xs : List (Signal K)) (acc z : Signal K),
    WF acc → minmaxFold nd comp s acc xs = .ok z → WF z := by
  intro xs
  induction xs with
  | nil => intro acc z h e; simp [minmaxFold] at e; subst e; exact h
  | cons x xs ih =>
    intro acc z h e
    rw [minmaxFold] at e
    simp only [Outcome.bind_eq_ok] at e
    obtain ⟨a, e1, e2⟩ := e
    exact ih a z (wf_minmaxPair e1) e2

theorem wf_minmaxVec {nd : Bool} {comp : Cmp K} {s : Bool} {xs : List (Signal K)} {z : Signal K}
    (h : ∀ x ∈ xs, WF x) (e : minmaxVec nd comp xs s = .ok z) : WF z := by
  unfold minmaxVec at e
  split at e
  · exact (wf_pushBack wf_empty e).1
  · simp only [Outcome.ok.injEq] at e; subst e; exact h _ (by simp)
  · exact wf_minmaxPair e
  · exact wf_minmaxFold _ _ _ (h _ (by simp)) e

theorem wf_minmaxSeq {comp : Cmp K} {x z : Signal K} (e : minmaxSeq comp x = .ok z) : WF z := by
  unfold minmaxSeq at e
  simp only [Outcome.bind_eq_ok] at e
  obtain ⟨b, -, e⟩ := e
  exact wf_ofSamples e

theorem wf_simplifyLoop : ∀ (l : List (Sample K)) (s z : Signal K), WF s →
    Signal.simplifyLoop s l = .ok z → WF z := by
  intro l
  induction l with
  | nil => intro s z h e; simp [Signal.simplifyLoop] at e; subst e; exact h
  | cons a l ih =>
    intro s z h e
    rw [Signal.simplifyLoop] at e
    split at e
    · simp only [Outcome.bind_eq_ok] at e
      obtain ⟨s', e1, e2⟩ := e
      exact ih _ _ (wf_pushBack h e1).1 e2
    · split at e
      · simp only [Outcome.bind_eq_ok] at e
        obtain ⟨s', e1, e2⟩ := e
        exact ih _ _ (wf_pushBack h e1).1 e2
      · exact ih _ _ h e

theorem wf_simplify {s z : Signal K} (e : s.simplify = .ok z) : WF z := by
  unfold Signal.simplify at e
  simp only [Outcome.bind_eq_ok] at e
  obtain ⟨s', e1, e2⟩ := e
  have h := wf_simplifyLoop _ _ _ wf_empty e1
  split at e2
  · simp only [Outcome.bind_eq_ok] at e2
    obtain ⟨b, -, e3⟩ := e2
    exact (wf_pushBack h e3).1
  · simp only [Outcome.pure_eq_ok, Outcome.ok.injEq] at e2; subst e2; exact h

theorem wf_minmaxSeqWindow {fuel : Nat} {comp : Cmp K} {x z : Signal K} {a b : D K}
    (e : minmaxSeqWindow fuel comp x a b = .ok z) : WF z := by
  rw [minmaxSeqWindow_eq] at e
  simp only [Outcome.bind_eq_ok] at e
  obtain ⟨x', -, p, -, w, -, e⟩ := e
  exact wf_simplify e

theorem wf_temporal {r : RobustnessOp K} {comp : Cmp K} {y z : Signal K} {i : Interval K} (h : WF y)
    (e : r.temporal comp y i = .ok z) : WF z := by
  unfold RobustnessOp.temporal at e
  split at e
  · exact wf_minmaxSeq e
  · simp only at e
    split at e
    · simp at e
    · split at e
      · simp only [Outcome.ok.injEq] at e; subst e; exact h
      · split at e
        · exact wf_minmaxSeq e
        · exact wf_minmaxSeqWindow e

theorem wf_computeUntil {nd : Bool} {x y z : Signal K} (e : computeUntil nd x y = .ok z) : WF z := by
  unfold computeUntil at e
  simp only [Outcome.bind_eq_ok] at e
  obtain ⟨p, -, u, -, v, -, w, -, e⟩ := e
  exact wf_ofSamples e

theorem wf_untilOp {r : RobustnessOp K} {x y z : Signal K} {i : Interval K}
    (e : r.untilOp x y i = .ok z) : WF z := by
  unfold RobustnessOp.untilOp at e
  split at e
  · exact wf_computeUntil e
  · simp only at e
    split at e
    · exact wf_computeUntil e
    · simp [computeUntilBounded] at e

mutual

theorem compute_wf (r : RobustnessOp K) : ∀ (e : Expr K) (z : Signal K), r.compute e = .ok z → WF z
  | .const b, z, h => by rw [RobustnessOp.compute] at h; exact wf_ofSamples h
  | .pred n op c, z, h => by
    rw [RobustnessOp.compute, RobustnessOp.pred] at h
    simp only [Outcome.bind_eq_ok] at h
    obtain ⟨x, -, h⟩ := h
    exact wf_ofSamples h
  | .not e, z, h => by
    rw [RobustnessOp.compute] at h
    simp only [Outcome.bind_eq_ok] at h
    obtain ⟨x, -, h⟩ := h
    exact wf_ofSamples h
  | .and args, z, h => by
    rw [RobustnessOp.compute] at h
    simp only [Outcome.bind_eq_ok] at h
    obtain ⟨ys, h1, -, -, h⟩ := h
    exact wf_minmaxVec (computeArgs_wf r args ys h1) h
  | .or args, z, h => by
    rw [RobustnessOp.compute] at h
    simp only [Outcome.bind_eq_ok] at h
    obtain ⟨ys, h1, -, -, h⟩ := h
    exact wf_minmaxVec (computeArgs_wf r args ys h1) h
  | .always e i, z, h => by
    rw [RobustnessOp.compute] at h
    simp only [Outcome.bind_eq_ok] at h
    obtain ⟨x, h1, h⟩ := h
    exact wf_temporal (compute_wf r e x h1) h
  | .eventually e i, z, h => by
    rw [RobustnessOp.compute] at h
    simp only [Outcome.bind_eq_ok] at h
    obtain ⟨x, h1, h⟩ := h
    exact wf_temporal (compute_wf r e x h1) h
  | .untl a b i, z, h => by
    rw [RobustnessOp.compute] at h
    simp only [Outcome.bind_eq_ok] at h
    obtain ⟨x, -, y, -, h⟩ := h
    exact wf_untilOp h

theorem computeArgs_wf (r : RobustnessOp K) : ∀ (es : List (Expr K)) (ys : List (Signal K)),
    r.computeArgs es = .ok ys → ∀ y ∈ ys, WF y
  | [], ys, h => by
    simp [RobustnessOp.computeArgs] at h; subst h; simp
  | e :: es, ys, h => by
    rw [RobustnessOp.computeArgs] at h
    simp only [Outcome.bind_eq_ok] at h
    obtain ⟨y, h1, ys', h2, h3⟩ := h
    simp only [Outcome.pure_eq_ok, Outcome.ok.injEq] at h3; subst h3
    intro z hz
    rcases List.mem_cons.1 hz with rfl | hz
    · exact compute_wf r e _ h1
    · exact computeArgs_wf r es ys' h2 z hz

end

end Verif
