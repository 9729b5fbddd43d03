import Verif.Proofs.FinT

/-! # The assertions of the robustness computation cannot fail -/

set_option linter.unusedSectionVars false

namespace Verif
open Spec

variable {K : Type} [Field K] [LinearOrder K] [IsStrictOrderedRing K] [Arith K]

theorem consPair_eq_ok {a b : Sample K} {r : Outcome (List (Sample K) × List (Sample K))}
    {xv yv : List (Sample K)} (h : consPair a b r = .ok (xv, yv)) :
    ∃ xs ys, r = .ok (xs, ys) ∧ xv = a :: xs ∧ yv = b :: ys := by
  unfold consPair at h
  simp only [Outcome.bind_eq_ok, Outcome.pure_eq_ok, Outcome.ok.injEq, Prod.mk.injEq] at h
  obtain ⟨⟨xs, ys⟩, h1, rfl, rfl⟩ := h
  exact ⟨xs, ys, h1, rfl, rfl⟩

/-- The samples appended by the loop of `synchronize` come in pairs with the same time. -/
def Paired (xv yv : List (Sample K)) : Prop :=
  xv.map Sample.time = yv.map Sample.time ∧ ∀ a ∈ xv, a.time ≠ .nan

theorem Paired.cons {a b : Sample K} {xv yv : List (Sample K)} (h : Paired xv yv) (e : a.time = b.time)
    (hn : a.time ≠ .nan) : Paired (a :: xv) (b :: yv) :=
  ⟨by simp [e, h.1], by simpa [hn] using h.2⟩

theorem syncLoop_paired : ∀ (is : List (Sample K)) (pi pj : Option (Sample K)) (js xv yv : List (Sample K)),
    syncLoop pi is pj js = .ok (xv, yv) → Paired xv yv := by
  intro is
  induction is with
  | nil =>
    intro pi pj js xv yv h
    simp only [syncLoop, Outcome.ok.injEq, Prod.mk.injEq] at h
    obtain ⟨rfl, rfl⟩ := h
    exact ⟨rfl, by simp⟩
  | cons i is ih =>
    intro pi pj js
    rw [syncLoop]
    induction js generalizing pj with
    | nil =>
      intro xv yv h
      simp only [syncInner, Outcome.ok.injEq, Prod.mk.injEq] at h
      obtain ⟨rfl, rfl⟩ := h
      exact ⟨rfl, by simp⟩
    | cons j js ihj =>
      intro xv yv h
      rw [syncInner] at h
      split at h
      · rename_i he
        obtain ⟨e, hn⟩ := D.eq_iff.1 he
        obtain ⟨xs, ys, h1, rfl, rfl⟩ := consPair_eq_ok h
        exact (ih _ _ _ _ _ h1).cons e hn
      split at h
      · rename_i hl
        obtain ⟨p, -, h⟩ := Outcome.bind_eq_ok.1 h
        obtain ⟨xs, ys, h1, rfl, rfl⟩ := consPair_eq_ok h
        refine (ih _ _ _ _ _ h1).cons rfl ?_
        intro hn; rw [hn] at hl; simp [D.lt] at hl
      split at h
      · rename_i hl
        obtain ⟨p, -, h⟩ := Outcome.bind_eq_ok.1 h
        obtain ⟨xs, ys, h1, rfl, rfl⟩ := consPair_eq_ok h
        refine (ihj _ _ _ h1).cons rfl ?_
        intro hn; simp only [Sample.mk2] at hn; rw [hn] at hl; simp [D.lt] at hl
      · cases h

theorem syncHead_eq_ok {b : D K} {prev prevI : Option (Sample K)} {rest v : List (Sample K)}
    (h : syncHead b prev rest prevI = .ok v) :
    ∃ a r, rest = a :: r ∧
      (v = [] ∨ b.lt a.time = true ∧ prevI ≠ none ∧ prev ≠ none ∧ ∃ x d, v = [⟨b, x, d⟩]) := by
  unfold syncHead at h
  split at h
  · cases h
  · rename_i a r
    refine ⟨a, r, rfl, ?_⟩
    split at h
    · rename_i hl
      split at h
      · cases h; exact .inl rfl
      · obtain ⟨q, hq, h⟩ := Outcome.bind_eq_ok.1 h
        simp only [Outcome.pure_eq_ok, Outcome.ok.injEq] at h
        refine .inr ⟨hl, ?_, by simp, _, _, h.symm⟩
        rintro rfl; simp [derefPrev] at hq
    · cases h; exact .inl rfl

theorem prevAt_zero (l : List (Sample K)) : prevAt l 0 = none := rfl

theorem lowerBound_first {l : List (Sample K)} {b : D K} {k : Nat} {a : Sample K} {r : List (Sample K)}
    (hl : l = a :: r) (hb : a.time.lt b = false) (h : lowerBound (fun a => a.time.lt b) l = .ok k) : k = 0 := by
  obtain ⟨l₁, l₂, e, h1, -, rfl⟩ := lowerBound_ok h
  cases l₁ with
  | nil => rfl
  | cons c l₁ =>
    rw [hl] at e
    simp only [List.cons_append, List.cons.injEq] at e
    have := h1 c (by simp)
    rw [← e.1, hb] at this
    cases this

/-- Whatever the two signals are: if `synchronize` succeeds, its results have the same timestamps. -/
theorem synchronize_paired {x y x' y' : Signal K} (h : synchronize x y = .ok (x', y')) :
    Paired x'.samples y'.samples ∧ x'.samples ≠ [] := by
  unfold synchronize at h
  simp only [Outcome.bind_eq_ok] at h
  obtain ⟨i, hi, xv0, hx0, j, hj, yv0, hy0, ⟨xs, ys⟩, hl, hf⟩ := h
  generalize hm : D.max x.beginTime y.beginTime = b at hi hx0 hj hy0
  obtain ⟨a, is, ea, hxv⟩ := syncHead_eq_ok hx0
  obtain ⟨c, js, ec, hyv⟩ := syncHead_eq_ok hy0
  have hp := syncLoop_paired _ _ _ _ _ _ hl
  -- nothing is inserted before the loop
  have h0 : xv0 = [] ∧ yv0 = [] := by
    by_cases hb : x.beginTime.lt y.beginTime = true
    · -- the begin time is that of `y`
      obtain rfl : y.beginTime = b := by rw [← hm]; simp [D.max, hb]
      have hyne : y.samples ≠ [] := by
        intro hn; rw [hn] at ec; simp at ec
      obtain ⟨c0, js0, hy⟩ := List.exists_cons_of_ne_nil hyne
      have hby : y.beginTime = c0.time := by simp [Signal.beginTime, hy]
      obtain rfl := lowerBound_first hy (by rw [hby]; exact D.lt_irrefl _) hj
      have hyv0 : yv0 = [] := by
        rcases hyv with h | ⟨-, -, h, -⟩
        · exact h
        · exact (h rfl).elim
      refine ⟨?_, hyv0⟩
      rcases hxv with h | ⟨hlt, -, -, v, d, h⟩
      · exact h
      · exfalso
        rw [List.drop_zero, hy] at ec
        obtain ⟨rfl, rfl⟩ := List.cons.inj ec
        rw [ea, List.drop_zero, hy, syncLoop, syncInner] at hl
        rw [hby] at hlt hb
        have e1 : a.time.eq c0.time = false := by
          by_contra hc
          obtain ⟨e, -⟩ := D.eq_iff.1 (by simpa using hc)
          rw [e, D.lt_irrefl] at hlt; cases hlt
        have e2 : a.time.lt c0.time = false := by
          by_contra hc
          have := D.lt_trans (by simpa using hc) hlt
          rw [D.lt_irrefl] at this; cases this
        rw [e1, e2, hlt] at hl
        simp only [Bool.false_eq_true, if_false, if_true] at hl
        obtain ⟨p, -, hl⟩ := Outcome.bind_eq_ok.1 hl
        obtain ⟨xs', ys', -, rfl, rfl⟩ := consPair_eq_ok hl
        rw [h] at hf
        unfold syncFinish at hf
        simp only [Outcome.bind_eq_ok] at hf
        obtain ⟨xb, -, yb, -, yb', -, xb', -, sx, hsx, -⟩ := hf
        rw [ofSamples_ok_iff] at hsx
        have hnn : c0.time ≠ .nan := by
          intro hn; rw [hn] at hlt; simp [D.lt] at hlt
        have := hsx.1
        split at this <;> simp [tv, Sample.mk2, hby, D.le_refl hnn] at this
    · obtain rfl : x.beginTime = b := by rw [← hm]; simp [D.max, hb]
      have hxne : x.samples ≠ [] := by
        intro hn; rw [hn] at ea; simp at ea
      obtain ⟨a0, is0, hx⟩ := List.exists_cons_of_ne_nil hxne
      have hbx : x.beginTime = a0.time := by simp [Signal.beginTime, hx]
      obtain rfl := lowerBound_first hx (by rw [hbx]; exact D.lt_irrefl _) hi
      refine ⟨?_, ?_⟩
      · rcases hxv with h | ⟨-, h, -⟩
        · exact h
        · exact (h rfl).elim
      · rcases hyv with h | ⟨-, h, -⟩
        · exact h
        · exact (h rfl).elim
  obtain ⟨rfl, rfl⟩ := h0
  rw [List.nil_append, List.nil_append] at hf
  unfold syncFinish at hf
  simp only [Outcome.bind_eq_ok] at hf
  obtain ⟨xb, hxb, yb, hyb, hf⟩ := hf
  have hlast : ∀ {l : List (Sample K)} {b : Sample K}, vback l = .ok b → l.getLast? = some b := by
    intro l b hv
    unfold vback at hv
    split at hv
    · cases hv
    · rename_i e; cases hv; exact e
  have hxl := hlast hxb
  have hyl := hlast hyb
  have het : xb.time = yb.time := by
    have : (xs.map Sample.time).getLast? = (ys.map Sample.time).getLast? := by rw [hp.1]
    rw [List.getLast?_map, List.getLast?_map, hxl, hyl] at this
    simpa using this
  rw [het, D.lt_irrefl] at hf
  simp only [Bool.false_eq_true, if_false] at hf
  obtain ⟨yb', hyb', xb', hxb', hf⟩ := hf
  rw [hyb] at hyb'; rw [hxb] at hxb'
  cases hyb'; cases hxb'
  rw [het, D.lt_irrefl] at hf
  simp only [Bool.false_eq_true, if_false] at hf
  obtain ⟨sx, hsx, sy, hsy, hf⟩ := hf
  simp only [Outcome.pure_eq_ok, Outcome.ok.injEq, Prod.mk.injEq] at hf
  obtain ⟨rfl, rfl⟩ := hf
  have e1 := ofSamples_times hsx
  have e2 := ofSamples_times hsy
  refine ⟨⟨by rw [e1, e2, hp.1], ?_⟩, ?_⟩
  · intro a ha
    have : a.time ∈ sx.samples.map Sample.time := List.mem_map_of_mem ha
    rw [e1] at this
    obtain ⟨b, hb, e⟩ := List.mem_map.1 this
    rw [← e]; exact hp.2 b hb
  · intro hn
    rw [hn] at e1
    have : xs = [] := by simpa using e1.symm
    rw [this] at hxl; simp at hxl

/-- So the assertions after `synchronize` hold. -/
theorem synchronize_asserts {x y x' y' : Signal K} (h : synchronize x y = .ok (x', y')) :
    (x'.size == y'.size) = true ∧ x'.beginTime.eq y'.beginTime = true ∧ x'.endTime.eq y'.endTime = true := by
  obtain ⟨⟨h1, h2⟩, h3⟩ := synchronize_paired h
  obtain ⟨a, l, e⟩ := List.exists_cons_of_ne_nil h3
  have hy : y'.samples ≠ [] := by
    intro hn; rw [hn, e] at h1; simp at h1
  obtain ⟨b, l', e'⟩ := List.exists_cons_of_ne_nil hy
  refine ⟨?_, ?_, ?_⟩
  · have := congrArg List.length h1
    simpa [Signal.size] using this
  · simp only [Signal.beginTime, e, e', List.head?_cons]
    rw [e, e'] at h1
    simp only [List.map_cons, List.cons.injEq] at h1
    exact D.eq_iff.2 ⟨h1.1, h2 a (by simp [e])⟩
  · obtain ⟨a', ha⟩ : ∃ a', x'.samples.getLast? = some a' := by
      rw [← Option.isSome_iff_exists]; simp [h3]
    obtain ⟨b', hb⟩ : ∃ b', y'.samples.getLast? = some b' := by
      rw [← Option.isSome_iff_exists]; simp [hy]
    have : (x'.samples.map Sample.time).getLast? = (y'.samples.map Sample.time).getLast? := by rw [h1]
    rw [List.getLast?_map, List.getLast?_map, ha, hb] at this
    simp only [Signal.endTime, ha, hb]
    exact D.eq_iff.2 ⟨by simpa using this, h2 a' (List.mem_of_getLast? ha)⟩

theorem assert_true (nd : Bool) {c : Bool} (h : c = true) : assert_ nd c = .ok () := by simp [assert_, h]

theorem minmaxPair_unsynced (nd : Bool) (comp : Cmp K) (x y : Signal K) :
    minmaxPair nd comp x y false = (synchronize x y >>= fun p =>
      minmaxPairLoop comp Signal.empty .NONE none none p.1.samples p.2.samples) := by
  unfold minmaxPair
  simp only [Bool.false_eq_true, if_false]
  apply Outcome.bind_congr_ok
  rintro ⟨x', y'⟩ h
  obtain ⟨h1, h2, h3⟩ := synchronize_asserts h
  simp only [assert_true nd h1, assert_true nd h2, assert_true nd h3, Outcome.bind_ok]

theorem computeUntil_unsynced (nd : Bool) (x y : Signal K) :
    computeUntil nd x y = (synchronize x y >>= fun p =>
      Signal.ofSamples (untilLoop .pinf .ninf p.1.samples.reverse p.2.samples.reverse).reverse) := by
  unfold computeUntil
  apply Outcome.bind_congr_ok
  rintro ⟨x', y'⟩ h
  obtain ⟨h1, h2, h3⟩ := synchronize_asserts h
  simp only [assert_true nd h1, assert_true nd h2, assert_true nd h3, Outcome.bind_ok]

theorem minmaxFold_nd (nd nd' : Bool) (comp : Cmp K) : ∀ (xs : List (Signal K)) (acc : Signal K),
    minmaxFold nd comp false acc xs = minmaxFold nd' comp false acc xs
  | [], _ => rfl
  | x :: xs, acc => by
    simp only [minmaxFold, minmaxPair_unsynced nd, minmaxPair_unsynced nd', minmaxFold_nd nd nd' comp xs]

theorem minmaxVec_nd (nd nd' : Bool) (comp : Cmp K) (xs : List (Signal K)) :
    minmaxVec nd comp xs false = minmaxVec nd' comp xs false := by
  unfold minmaxVec
  split
  · rfl
  · rfl
  · rw [minmaxPair_unsynced nd, minmaxPair_unsynced nd']
  · exact minmaxFold_nd nd nd' comp _ _

theorem computeArgs_size {r : RobustnessOp K} : ∀ {es : List (Expr K)} {ys : List (Signal K)},
    RobustnessOp.computeArgs r es = .ok ys → ys.length = es.length
  | [], ys, h => by simp only [RobustnessOp.computeArgs, Outcome.ok.injEq] at h; subst h; rfl
  | e :: es, ys, h => by
    simp only [RobustnessOp.computeArgs, Outcome.bind_eq_ok, Outcome.pure_eq_ok, Outcome.ok.injEq] at h
    obtain ⟨y, -, ys', h1, rfl⟩ := h
    simp [computeArgs_size h1]

mutual
/-- The build mode does not matter. -/
theorem compute_nd (nd nd' : Bool) (fuel : Nat) (a b : D K) (tr : Trace K) : ∀ phi : Expr K,
    RobustnessOp.compute ⟨nd, fuel, a, b, tr⟩ phi = RobustnessOp.compute ⟨nd', fuel, a, b, tr⟩ phi
  | .const _ => by simp only [RobustnessOp.compute, RobustnessOp.const]
  | .pred _ _ _ => by simp only [RobustnessOp.compute, RobustnessOp.pred]
  | .not e => by simp only [RobustnessOp.compute, compute_nd nd nd' fuel a b tr e]
  | .and es => by
    simp only [RobustnessOp.compute, computeArgs_nd nd nd' fuel a b tr es]
    apply Outcome.bind_congr_ok
    intro ys h
    have := computeArgs_size h
    simp only [elementwiseMin, minmaxVec_nd nd nd', assert_true nd (beq_iff_eq.2 this),
      assert_true nd' (beq_iff_eq.2 this)]
  | .or es => by
    simp only [RobustnessOp.compute, computeArgs_nd nd nd' fuel a b tr es]
    apply Outcome.bind_congr_ok
    intro ys h
    have := computeArgs_size h
    simp only [elementwiseMax, minmaxVec_nd nd nd', assert_true nd (beq_iff_eq.2 this),
      assert_true nd' (beq_iff_eq.2 this)]
  | .always e i => by
    simp only [RobustnessOp.compute, compute_nd nd nd' fuel a b tr e, RobustnessOp.temporal]
  | .eventually e i => by
    simp only [RobustnessOp.compute, compute_nd nd nd' fuel a b tr e, RobustnessOp.temporal]
  | .untl e e' i => by
    simp only [RobustnessOp.compute, compute_nd nd nd' fuel a b tr e, compute_nd nd nd' fuel a b tr e',
      RobustnessOp.untilOp, computeUntil_unsynced nd, computeUntil_unsynced nd']
theorem computeArgs_nd (nd nd' : Bool) (fuel : Nat) (a b : D K) (tr : Trace K) : ∀ es : List (Expr K),
    RobustnessOp.computeArgs ⟨nd, fuel, a, b, tr⟩ es = RobustnessOp.computeArgs ⟨nd', fuel, a, b, tr⟩ es
  | [] => rfl
  | e :: es => by
    simp only [RobustnessOp.computeArgs, compute_nd nd nd' fuel a b tr e, computeArgs_nd nd nd' fuel a b tr es]
end

end Verif
