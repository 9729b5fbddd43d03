import Verif.Proofs.SignedPair

/-! # Evaluation of formulas with signed zeros -/

set_option linter.unusedSectionVars false

namespace Verif
namespace Signed
open Outcome Spec

variable {K : Type} [Field K] [LinearOrder K] [Arith K]

mutual
/-- A formula without the signs of the zeros of its numbers. -/
def Expr.erase : Expr K → Verif.Expr K
  | .const b => .const b
  | .pred n op rhs => .pred n op rhs.val
  | .not e => .not e.erase
  | .and es => .and (Expr.eraseList es)
  | .or es => .or (Expr.eraseList es)
  | .always e i => .always e.erase i.bounds
  | .eventually e i => .eventually e.erase i.bounds
  | .untl e f i => .untl e.erase f.erase i.bounds

@[inherit_doc Expr.erase] def Expr.eraseList : List (Expr K) → List (Verif.Expr K)
  | [] => []
  | e :: es => e.erase :: Expr.eraseList es
end

theorem eraseList_length : ∀ es : List (Expr K), (Expr.eraseList es).length = es.length
  | [] => rfl
  | _ :: es => by simp [Expr.eraseList, eraseList_length es]

/-- A trace without the signs of zeros. -/
def Trace.erase (t : Trace K) : Verif.Trace K := t.map fun e => (e.1, Signed.erase e.2)

theorem trace_at (t : Trace K) (n : String) :
    Verif.Trace.at_ (Trace.erase t) n = (Trace.at_ t n).map' Signed.erase := by
  unfold Verif.Trace.at_ Trace.at_
  have : List.lookup n (Trace.erase t) = (List.lookup n t).map Signed.erase := by
    induction t with
    | nil => rfl
    | cons e t ih =>
      obtain ⟨m, x⟩ := e
      simp only [Trace.erase, List.map_cons, List.lookup] at ih ⊢
      cases n == m
      · exact ih
      · rfl
  rw [this]
  cases List.lookup n t <;> rfl

theorem minMaxTime_er (t : Trace K) :
    Verif.minMaxTime (Trace.erase t) = ((minMaxTime t).1.val, (minMaxTime t).2.val) := by
  unfold Verif.minMaxTime minMaxTime Trace.erase
  have : ∀ (t : Trace K) (a b : SD K),
      (t.map fun e => (e.1, Signed.erase e.2)).foldl (fun acc e => (D.min acc.1 e.2.beginTime, D.max acc.2 e.2.endTime))
        (a.val, b.val) =
      ((t.foldl (fun acc e => (SD.min acc.1 e.2.beginTime, SD.max acc.2 e.2.endTime)) (a, b)).1.val,
        (t.foldl (fun acc e => (SD.min acc.1 e.2.beginTime, SD.max acc.2 e.2.endTime)) (a, b)).2.val) := by
    intro t
    induction t with
    | nil => intro a b; rfl
    | cons e t ih =>
      intro a b
      simp only [List.map_cons, List.foldl_cons, Er.beginTime, Er.endTime, ← Er.min_val, ← Er.max_val]
      exact ih _ _
  exact this t .pinf .ninf

/-- `RobustnessOp` without signs. -/
def RobustnessOp.erase (r : RobustnessOp K) : Verif.RobustnessOp K :=
  ⟨r.ndebug, r.fuel, r.minTime.val, r.maxTime.val, r.trace.erase⟩

section
variable [IsStrictOrderedRing K]

theorem const_er (r : RobustnessOp K) (b : Bool) : r.erase.const b = (r.const b).map' Signed.erase := by
  unfold Verif.RobustnessOp.const RobustnessOp.const
  rw [← Er.ofSamples]
  cases b <;> rfl

theorem predValue_er (op : ComparisonOp) (rhs v : SD K) :
    Verif.RobustnessOp.predValue op rhs.val v.val = (RobustnessOp.predValue op rhs v).val := by
  cases op <;> rfl

theorem pred_er (r : RobustnessOp K) (n : String) (op : ComparisonOp) (rhs : SD K) :
    r.erase.pred n op rhs.val = (r.pred n op rhs).map' Signed.erase := by
  unfold Verif.RobustnessOp.pred RobustnessOp.pred
  have : r.erase.trace.at_ n = (r.trace.at_ n).map' Signed.erase := trace_at _ _
  rw [this, bind_map', map'_bind]
  congr 1; funext x
  rw [← Er.ofSamples]
  congr 1
  simp [Signed.erase, er, ← predValue_er, Function.comp_def]

theorem negate_er (x : Signal K) :
    Verif.RobustnessOp.negate (Signed.erase x) = (RobustnessOp.negate x).map' Signed.erase := by
  unfold Verif.RobustnessOp.negate RobustnessOp.negate
  rw [← Er.ofSamples]
  congr 1
  simp [Signed.erase, er, Function.comp_def, Verif.Sample.neg, Sample.neg]

theorem temporal_er (r : RobustnessOp K) {comp : Cmp K} {comp' : Verif.Cmp K} (hc : Comps comp comp')
    (y : Signal K) (i : Interval K) :
    r.erase.temporal comp' (Signed.erase y) i.bounds = (r.temporal comp y i).map' Signed.erase := by
  unfold Verif.RobustnessOp.temporal RobustnessOp.temporal
  have e1 : i.hasValue = i.bounds.hasValue := rfl
  have e2 : i.asDouble = (⟨i.bounds.asDouble.1, i.lowNeg⟩, ⟨i.bounds.asDouble.2, i.highNeg⟩) := rfl
  rw [e1, e2]
  generalize i.bounds.asDouble = ab
  obtain ⟨a, b⟩ := ab
  have h1 : ((⟨b, i.highNeg⟩ : SD K) - ⟨a, i.lowNeg⟩).lt 0 = (b - a).lt 0 := rfl
  have h2 : ((⟨b, i.highNeg⟩ : SD K) - ⟨a, i.lowNeg⟩).eq 0 = (b - a).eq 0 := rfl
  have h3 : (y.endTime - y.beginTime).le ((⟨b, i.highNeg⟩ : SD K) - ⟨a, i.lowNeg⟩) =
      (y.endTime.val - y.beginTime.val).le (b - a) := rfl
  simp only [h1, h2, h3, Er.endTime, Er.beginTime]
  split
  · exact Er.minmaxSeq hc.er y
  · split
    · rfl
    · split
      · rfl
      · split
        · exact Er.minmaxSeq hc.er y
        · exact Er.minmaxSeqWindow hc.er r.fuel y ⟨a, i.lowNeg⟩ ⟨b, i.highNeg⟩

theorem untilLoop_er : ∀ (is js : List (Sample K)) (p m : SD K),
    Verif.untilLoop p.val m.val (is.map er) (js.map er) = (untilLoop p m is js).map er
  | [], _, _, _ => by simp [Verif.untilLoop, untilLoop]
  | _ :: _, [], _, _ => by simp [Verif.untilLoop, untilLoop]
  | i :: is, j :: js, p, m => by
    simp only [List.map_cons, Verif.untilLoop, untilLoop, Er.er_value, Er.er_time, ← Er.max_val, ← Er.min_val,
      ← Er.val_neg, Er.er_mk2]
    exact congrArg _ (untilLoop_er is js _ _)

theorem computeUntil_er (nd : Bool) (x y : Signal K) :
    Verif.computeUntil nd (Signed.erase x) (Signed.erase y) = (computeUntil nd x y).map' Signed.erase := by
  unfold Verif.computeUntil computeUntil
  rw [Er.synchronize, bind_map', map'_bind]
  congr 1; funext p
  simp only [Er.sig2, Er.size, Er.beginTime, Er.endTime, ← Er.eq_val, map'_bind, Er.erase_samples,
    ← List.map_reverse]
  congr 1; funext _
  congr 1; funext _
  congr 1; funext _
  have := untilLoop_er p.1.samples.reverse p.2.samples.reverse .pinf .ninf
  rw [← Er.ofSamples]
  congr 1
  rw [List.map_reverse (f := er) (l := untilLoop _ _ _ _), ← this]
  rfl

theorem untilOp_er (r : RobustnessOp K) (x y : Signal K) (i : Interval K) :
    r.erase.untilOp (Signed.erase x) (Signed.erase y) i.bounds = (r.untilOp x y i).map' Signed.erase := by
  unfold Verif.RobustnessOp.untilOp RobustnessOp.untilOp
  have e1 : i.hasValue = i.bounds.hasValue := rfl
  have e2 : i.asDouble = (⟨i.bounds.asDouble.1, i.lowNeg⟩, ⟨i.bounds.asDouble.2, i.highNeg⟩) := rfl
  rw [e1, e2]
  generalize i.bounds.asDouble = ab
  obtain ⟨a, b⟩ := ab
  have h1 : ((⟨b, i.highNeg⟩ : SD K).isinf && (⟨a, i.lowNeg⟩ : SD K).eq 0) = (b.isinf && a.eq 0) := rfl
  simp only [h1]
  split
  · exact computeUntil_er _ x y
  · split
    · exact computeUntil_er _ x y
    · rfl

/-- The hypotheses under which evaluation is considered. -/
structure Good (P : Prop) (r : RobustnessOp K) : Prop where
  fin : ∀ (e : Verif.Expr K) (z : Verif.Signal K), r.erase.compute e = .ok z → FinT z
  le : CrossOk P (Sample.le : Cmp K)
  ge : CrossOk P (Sample.ge : Cmp K)

theorem computeArgs_fin {P : Prop} {r : RobustnessOp K} (g : Good P r) : ∀ (es : List (Verif.Expr K))
    (zs : List (Verif.Signal K)), r.erase.computeArgs es = .ok zs → ∀ z ∈ zs, FinT z := by
  intro es
  induction es with
  | nil =>
    intro zs h
    simp only [Verif.RobustnessOp.computeArgs, Outcome.ok.injEq] at h; subst h; simp
  | cons e es ih =>
    intro zs h
    rw [Verif.RobustnessOp.computeArgs] at h
    simp only [Outcome.bind_eq_ok, Outcome.pure_eq_ok, Outcome.ok.injEq] at h
    obtain ⟨y, h1, ys, h2, rfl⟩ := h
    intro z hz
    rcases List.mem_cons.1 hz with rfl | hz
    · exact g.fin _ _ h1
    · exact ih ys h2 z hz

mutual
theorem compute_rel {P : Prop} {r : RobustnessOp K} (g : Good P r) :
    ∀ e : Expr K, Rel P Signed.erase (r.compute e) (r.erase.compute e.erase)
  | .const b => by
    rw [Expr.erase, Verif.RobustnessOp.compute, RobustnessOp.compute]
    exact .inl (const_er r b)
  | .pred n op rhs => by
    rw [Expr.erase, Verif.RobustnessOp.compute, RobustnessOp.compute]
    exact .inl (pred_er r n op rhs)
  | .not e => by
    rw [Expr.erase, Verif.RobustnessOp.compute, RobustnessOp.compute]
    exact Rel.bind (compute_rel g e) (fun x _ _ => .inl (negate_er x))
  | .and es => by
    rw [Expr.erase, Verif.RobustnessOp.compute, RobustnessOp.compute]
    refine Rel.bind (computeArgs_rel g es) (fun ys _ h => ?_)
    rw [List.length_map, eraseList_length]
    refine assert_bind _ _ ?_
    exact minmaxVec_rel (.inl ⟨rfl, rfl⟩) g.le _ ys (fun y hy => computeArgs_fin g _ _ h _ (List.mem_map_of_mem hy))
  | .or es => by
    rw [Expr.erase, Verif.RobustnessOp.compute, RobustnessOp.compute]
    refine Rel.bind (computeArgs_rel g es) (fun ys _ h => ?_)
    rw [List.length_map, eraseList_length]
    refine assert_bind _ _ ?_
    exact minmaxVec_rel (.inr ⟨rfl, rfl⟩) g.ge _ ys (fun y hy => computeArgs_fin g _ _ h _ (List.mem_map_of_mem hy))
  | .always e i => by
    rw [Expr.erase, Verif.RobustnessOp.compute, RobustnessOp.compute]
    exact Rel.bind (compute_rel g e) (fun x _ _ => .inl (temporal_er r (.inl ⟨rfl, rfl⟩) x i))
  | .eventually e i => by
    rw [Expr.erase, Verif.RobustnessOp.compute, RobustnessOp.compute]
    exact Rel.bind (compute_rel g e) (fun x _ _ => .inl (temporal_er r (.inr ⟨rfl, rfl⟩) x i))
  | .untl e f i => by
    rw [Expr.erase, Verif.RobustnessOp.compute, RobustnessOp.compute]
    exact Rel.bind (compute_rel g e) (fun x _ _ => Rel.bind (compute_rel g f) (fun y _ _ => .inl (untilOp_er r x y i)))

theorem computeArgs_rel {P : Prop} {r : RobustnessOp K} (g : Good P r) :
    ∀ es : List (Expr K), Rel P (List.map Signed.erase) (r.computeArgs es) (r.erase.computeArgs (Expr.eraseList es))
  | [] => by
    rw [Expr.eraseList, Verif.RobustnessOp.computeArgs, RobustnessOp.computeArgs]
    exact .inl rfl
  | e :: es => by
    rw [Expr.eraseList, Verif.RobustnessOp.computeArgs, RobustnessOp.computeArgs]
    exact Rel.bind (compute_rel g e) (fun x _ _ => Rel.bind (computeArgs_rel g es) (fun xs _ _ => .inl rfl))
end

theorem computeRobustness_rel {P : Prop} [SaneArith K] (nd : Bool) (fuel : Nat) (phi : Expr K) (trace : Trace K)
    (sy : Bool) (ht : TraceFin trace.erase) (hl : CrossOk P (Sample.le : Cmp K)) (hg : CrossOk P (Sample.ge : Cmp K)) :
    Rel P Signed.erase (computeRobustness nd fuel phi trace sy)
      (Verif.computeRobustness nd fuel phi.erase trace.erase sy) := by
  unfold Verif.computeRobustness computeRobustness
  have hm := minMaxTime_er trace
  have e : (⟨nd, fuel, (Verif.minMaxTime trace.erase).1, (Verif.minMaxTime trace.erase).2, trace.erase⟩ :
      Verif.RobustnessOp K) = RobustnessOp.erase ⟨nd, fuel, (minMaxTime trace).1, (minMaxTime trace).2, trace⟩ := by
    rw [hm]; rfl
  simp only [e]
  refine compute_rel ⟨?_, hl, hg⟩ phi
  intro e' z h
  rw [← e] at h
  exact (compute_any ⟨nd, fuel, (Verif.minMaxTime trace.erase).1, (Verif.minMaxTime trace.erase).2, trace.erase⟩
    (fun n => ((trace.erase.lookup n).map fun x => x.samples.length).getD 0) ht
    (minMaxTime_fin ht) (by intro n x h; simp only at h; simp [h]) e' z h).1

end
end Signed
end Verif
