import Verif.Proofs.SignalOps
import Verif.Props.Container

/-!
# Operations on signals: C07, C11 - C15

Finite signals in ideal arithmetic.  `Represents s pts` says that `s` is a well-formed signal through
the points `pts`; `eval pts t` is the piecewise linear function through them, `dom pts` its domain.
-/

set_option linter.unusedSectionVars false

namespace Verif
open Spec

variable {K : Type} [Field K] [LinearOrder K] [IsStrictOrderedRing K] [Arith K] [ExactArith K]

/-- A signal used in the examples: points (0,0), (1,2), (2,2), (3,2), (4,0). -/
def exPts : List (ℚ × ℚ) := [(0, 0), (1, 2), (2, 2), (3, 2), (4, 0)]

/-- The signal through `exPts`, as stored. -/
def exSig : Signal ℚ := ⟨[⟨.fin 0, .fin 0, .fin 2⟩, ⟨.fin 1, .fin 2, .fin 0⟩, ⟨.fin 2, .fin 2, .fin 0⟩,
  ⟨.fin 3, .fin 2, .fin (-2)⟩, ⟨.fin 4, .fin 0, .fin 0⟩]⟩

theorem exSig_represents : Represents exSig exPts := by
  rw [represents_iff]
  exact ⟨by unfold Increasing exPts; decide +kernel, by decide +kernel⟩

theorem strictTimes_ofPts {pts : List (K × K)} (h : Increasing pts) : StrictTimes (ofPts pts) :=
  ⟨ofPts_noNaNT pts, ofPts_sortedT h⟩

/-! ## C07: at(t) between samples

`lower_bound` finds the first sample with time `>= t`, and signal.cc:28 extrapolates backwards from
that sample instead of forwards from its predecessor. -/

/-- Full statement of **C07**. -/
def C07_statement (K : Type) [Field K] [LinearOrder K] [Arith K] : Prop :=
  ∀ (s : Signal K) (pts : List (K × K)), Represents s pts → ∀ t ∈ dom pts,
    ∃ a, s.at_ (.fin t) = .ok a ∧ a.value = .fin (eval pts t)

/-- **C07** is false: for the signal (0,0), (1,2), ... `at(1/2)` is 2 instead of 1. -/
theorem C07_refuted : ¬ C07_statement ℚ := by
  intro h
  obtain ⟨a, h1, h2⟩ := h exSig exPts exSig_represents (1 / 2)
    ⟨⟨(0, 0), by decide +kernel, by decide +kernel⟩, ⟨(4, 0), by decide +kernel, by decide +kernel⟩⟩
  have e1 : exSig.at_ (.fin (1 / 2)) = .ok ⟨.fin (1 / 2), .fin 2, .fin 0⟩ := by decide +kernel
  have e2 : eval exPts (1 / 2) = 1 := by decide +kernel
  rw [e1] at h1; simp only [Outcome.ok.injEq] at h1; subst h1
  rw [e2] at h2; revert h2; decide +kernel

theorem at_between {l rest : List (K × K)} {p q : K × K} {t : K}
    (hinc : Increasing (l ++ p :: q :: rest)) (h1 : p.1 < t) (h2 : t < q.1) :
    ∃ d, (ofPts (q :: rest)).samples = ⟨.fin q.1, .fin q.2, d⟩ :: (ofPts rest).samples ∧
    (ofPts (l ++ p :: q :: rest)).at_ (.fin t) =
      .ok ⟨.fin t, (⟨.fin q.1, .fin q.2, d⟩ : Sample K).interpolate (.fin t), d⟩ := by
  obtain ⟨d, hd⟩ := samples_cons q rest
  refine ⟨d, hd, ?_⟩
  have hsplit : ∀ l : List (K × K), ∃ l', (ofPts (l ++ p :: q :: rest)).samples =
      l' ++ (ofPts (q :: rest)).samples ∧ l'.map Sample.time = (l ++ [p]).map fun x => .fin x.1 := by
    intro l
    induction l with
    | nil =>
      obtain ⟨d', hd'⟩ := samples_cons p (q :: rest)
      exact ⟨[⟨.fin p.1, .fin p.2, d'⟩], by rw [List.nil_append, hd']; rfl, rfl⟩
    | cons x l ih =>
      obtain ⟨l', h1, h2⟩ := ih
      obtain ⟨d', hd'⟩ := samples_cons x (l ++ p :: q :: rest)
      exact ⟨⟨.fin x.1, .fin x.2, d'⟩ :: l', by rw [List.cons_append, hd', h1]; rfl, by simp [h2]⟩
  obtain ⟨l', e1, e2⟩ := hsplit l
  rw [at_split _ (strictTimes_ofPts hinc) (.fin t) l' _ e1, hd]
  · simp [h2.ne']
  · intro a ha
    have : a.time ∈ l'.map Sample.time := List.mem_map_of_mem ha
    rw [e2] at this
    obtain ⟨x, hx, hx'⟩ := List.mem_map.1 this
    rw [← hx', D.lt_fin, decide_eq_true_eq]
    rcases List.mem_append.1 hx with hx | hx
    · exact ((increasing_append.1 hinc).2.2 x hx p (by simp)).trans h1
    · simp at hx; subst hx; exact h1
  · intro a ha
    have : a.time ∈ (ofPts (q :: rest)).samples.map Sample.time := List.mem_map_of_mem ha
    rw [ofPts_times] at this
    obtain ⟨x, hx, hx'⟩ := List.mem_map.1 this
    rw [← hx', D.lt_fin, decide_eq_false_iff_not, not_lt]
    rcases List.mem_cons.1 hx with rfl | hx
    · exact h2.le
    · have := (increasing_append.1 hinc).2.1
      exact h2.le.trans ((increasing_cons.1 (increasing_cons.1 this).2).1 x hx).le

/-- What holds of **C07** (missing: times strictly between samples, where the claim is false): at a
sample time `at` returns the value of the function. -/
theorem C07_at_partial (s : Signal K) (pts : List (K × K)) (h : Represents s pts) (p : K × K)
    (hp : p ∈ pts) : ∃ a, s.at_ (.fin p.1) = .ok a ∧ a.time = .fin p.1 ∧ a.value = .fin (eval pts p.1) := by
  obtain ⟨hinc, rfl⟩ := (represents_iff s pts).1 h
  have hm : lift p ∈ (ofPts pts).samples.map tv := by
    rw [h.2]; exact List.mem_map_of_mem hp
  obtain ⟨a, ha, ea⟩ := List.mem_map.1 hm
  obtain ⟨i, hi, rfl⟩ := List.getElem_of_mem ha
  have := C06_at_sample_time (ofPts pts) (strictTimes_ofPts hinc) i hi
  have et : ((ofPts pts).samples[i]).time = .fin p.1 := congrArg Prod.fst ea
  have ev : ((ofPts pts).samples[i]).value = .fin p.2 := congrArg Prod.snd ea
  rw [et] at this
  exact ⟨_, this, et, by rw [ev, eval_mem hinc hp]⟩

/-- What the code computes strictly between two samples `p`, `q`: the line through `q` and its
successor `r`, prolonged backwards. It is the right value iff the three points are collinear. -/
theorem C07_at_between_partial (s : Signal K) (l rest : List (K × K)) (p q r : K × K) (t : K)
    (h : Represents s (l ++ p :: q :: r :: rest)) (h1 : p.1 < t) (h2 : t < q.1) :
    ∃ a, s.at_ (.fin t) = .ok a ∧ a.value = .fin (line q r t) ∧
      (a.value = .fin (eval (l ++ p :: q :: r :: rest) t) ↔
        (r.2 - q.2) / (r.1 - q.1) = (q.2 - p.2) / (q.1 - p.1)) := by
  obtain ⟨hinc, rfl⟩ := (represents_iff _ _).1 h
  have hqr : q.1 < r.1 := by
    have := (increasing_append.1 hinc).2.1
    exact (increasing_cons.1 (increasing_cons.1 this).2).1 r (by simp)
  obtain ⟨d, hd, e⟩ := at_between hinc h1 h2
  rw [samples_cons₂ rest hqr] at hd
  simp only [List.cons.injEq, Sample.mk.injEq, true_and] at hd
  refine ⟨_, e, ?_, ?_⟩
  · rw [← hd.1, interpolate_fin, ← line_eq]
  · rw [← hd.1, interpolate_fin, ← line_eq, D.fin.injEq, eval_seg l p q (r :: rest) hinc h1.le h2.le]
    have hq : t - q.1 ≠ 0 := (sub_neg.2 h2).ne
    have hlq : line p q t = q.2 + (q.2 - p.2) / (q.1 - p.1) * (t - q.1) := by
      have : q.1 - p.1 ≠ 0 := (sub_pos.2 (h1.trans h2)).ne'
      rw [line_eq]; field_simp; ring
    rw [line_eq q r, hlq, add_right_inj, mul_left_inj' hq]

/-- And before the last sample it is the last value. -/
theorem C07_at_last_partial (s : Signal K) (l : List (K × K)) (p q : K × K) (t : K)
    (h : Represents s (l ++ [p, q])) (h1 : p.1 < t) (h2 : t < q.1) :
    ∃ a, s.at_ (.fin t) = .ok a ∧ a.value = .fin q.2 := by
  obtain ⟨hinc, rfl⟩ := (represents_iff _ _).1 h
  obtain ⟨d, hd, e⟩ := at_between hinc h1 h2
  refine ⟨_, e, ?_⟩
  have hd' : (0 : D K) = d := by
    have e1 : (ofPts [q]).samples = [⟨.fin q.1, .fin q.2, 0⟩] := rfl
    rw [e1] at hd
    simp only [List.cons.injEq, Sample.mk.injEq, true_and] at hd; exact hd.1
  rw [← hd', interp_last q (t, 0)]

example : Represents exSig ([(0, 0)] ++ (1, 2) :: (2, 2) :: (3, 2) :: [(4, 0)]) := exSig_represents

/-! ## C11 - C13: simplify -/

/-- **C11**: `simplify()` returns a signal with the same domain and the same value at all times of the
domain. -/
theorem C11_simplify_preserves (s : Signal K) (pts : List (K × K)) (h : Represents s pts)
    (hne : pts ≠ []) :
    ∃ s' pts', s.simplify = .ok s' ∧ Represents s' pts' ∧ s'.beginTime = s.beginTime ∧
      s'.endTime = s.endTime ∧ dom pts' = dom pts ∧ ∀ t ∈ dom pts, eval pts' t = eval pts t := by
  obtain ⟨hinc, rfl⟩ := (represents_iff s pts).1 h
  cases pts with
  | nil => exact absurd rfl hne
  | cons p rest =>
    have hsub : (p :: keep p.2 rest).Sublist (p :: rest) := (keep_sublist rest p.2).cons_cons p
    have hinc' : Increasing (p :: keep p.2 rest) := List.Pairwise.sublist (hsub.map Prod.fst) hinc
    have hlast : (p :: keep p.2 rest).getLast? = (p :: rest).getLast? := by
      rw [List.getLast?_cons, List.getLast?_cons, keep_getLast?]
    refine ⟨_, p :: keep p.2 rest, simplify_fin p rest hinc,
      (represents_iff _ _).2 ⟨hinc', rfl⟩, ?_, ?_, ?_, ?_⟩
    · rw [ofPts_beginTime, ofPts_beginTime]
    · rw [endTime_eq, endTime_eq, hlast]
    · ext t
      rw [dom_cons hinc, dom_cons hinc']
      refine and_congr_right fun _ => ⟨?_, ?_⟩
      · rintro ⟨q, hq, hle⟩; exact ⟨q, hsub.subset hq, hle⟩
      · rintro ⟨q, hq, hle⟩
        obtain ⟨l, z, hz⟩ : ∃ l z, p :: rest = l ++ [z] := by
          rcases List.eq_nil_or_concat (p :: rest) with hn | ⟨l, z, hw⟩
          · simp at hn
          · exact ⟨l, z, by simpa using hw⟩
        have hz' : (p :: keep p.2 rest).getLast? = some z := by rw [hlast, hz]; simp
        refine ⟨z, List.mem_of_getLast? hz', hle.trans ?_⟩
        rw [hz] at hq hinc
        rcases List.mem_append.1 hq with hq | hq
        · exact ((increasing_append.1 hinc).2.2 q hq z (by simp)).le
        · simp at hq; subst hq; exact le_refl _
    · intro t ht
      exact eval_keep rest p hinc t ((dom_cons hinc).1 ht).1

/-- **C12**: the points of `simplify()` are a sub-sequence which keeps the first and the last point. -/
theorem C12_simplify_subsequence (s : Signal K) (pts : List (K × K)) (h : Represents s pts)
    (hne : pts ≠ []) :
    ∃ s' pts', s.simplify = .ok s' ∧ Represents s' pts' ∧ pts'.Sublist pts ∧
      pts'.head? = pts.head? ∧ pts'.getLast? = pts.getLast? := by
  obtain ⟨hinc, rfl⟩ := (represents_iff s pts).1 h
  cases pts with
  | nil => exact absurd rfl hne
  | cons p rest =>
    have hsub : (p :: keep p.2 rest).Sublist (p :: rest) := (keep_sublist rest p.2).cons_cons p
    have hinc' : Increasing (p :: keep p.2 rest) := List.Pairwise.sublist (hsub.map Prod.fst) hinc
    refine ⟨_, p :: keep p.2 rest, simplify_fin p rest hinc,
      (represents_iff _ _).2 ⟨hinc', rfl⟩, hsub, rfl, ?_⟩
    rw [List.getLast?_cons, List.getLast?_cons, keep_getLast?]

/-- **C12**: `simplify()` is idempotent. -/
theorem C12_simplify_idempotent (s : Signal K) (pts : List (K × K)) (h : Represents s pts)
    (hne : pts ≠ []) : ∃ s', s.simplify = .ok s' ∧ s'.simplify = .ok s' := by
  obtain ⟨hinc, rfl⟩ := (represents_iff s pts).1 h
  cases pts with
  | nil => exact absurd rfl hne
  | cons p rest =>
    have hsub : (p :: keep p.2 rest).Sublist (p :: rest) := (keep_sublist rest p.2).cons_cons p
    have hinc' : Increasing (p :: keep p.2 rest) := List.Pairwise.sublist (hsub.map Prod.fst) hinc
    refine ⟨_, simplify_fin p rest hinc, ?_⟩
    rw [simplify_fin p _ hinc', keep_keep]

-- the point (2,2) is dropped, the others are kept
example : exSig.simplify = .ok (ofPts [(0, 0), (1, 2), (3, 2), (4, 0)]) := by decide +kernel

/-- Full statement of **C13**: no interior point of the result lies on the line through its
neighbours. -/
def C13_statement (K : Type) [Field K] [LinearOrder K] [Arith K] : Prop :=
  ∀ (s s' : Signal K) (pts pts' : List (K × K)), Represents s pts → s.simplify = .ok s' →
    Represents s' pts' → ∀ l₁ a b c l₂, pts' = l₁ ++ a :: b :: c :: l₂ → b.2 ≠ line a c b.1

/-- **C13** is false: (0,0), (1,1), (2,2) is left as it is. -/
theorem C13_refuted : ¬ C13_statement ℚ := by
  intro h
  have hr : Represents (⟨[⟨.fin 0, .fin 0, .fin 1⟩, ⟨.fin 1, .fin 1, .fin 1⟩, ⟨.fin 2, .fin 2, .fin 0⟩]⟩ :
      Signal ℚ) [(0, 0), (1, 1), (2, 2)] :=
    (represents_iff _ _).2 ⟨by unfold Increasing; decide +kernel, by decide +kernel⟩
  exact h _ _ _ _ hr (by decide +kernel) hr [] (0, 0) (1, 1) (2, 2) [] rfl (by decide +kernel)

/-- What holds of **C13** (missing: redundant points on a line with non-zero slope): in the result no
point has the same value as both of its neighbours. -/
theorem C13_simplify_partial (s s' : Signal K) (pts pts' : List (K × K)) (h : Represents s pts)
    (he : s.simplify = .ok s') (h' : Represents s' pts') (l₁ l₂ : List (K × K)) (a b c : K × K)
    (e : pts' = l₁ ++ a :: b :: c :: l₂) : ¬ (a.2 = b.2 ∧ b.2 = c.2) := by
  obtain ⟨hinc, rfl⟩ := (represents_iff s pts).1 h
  cases pts with
  | nil =>
    have : Signal.simplify (ofPts ([] : List (K × K))) = .ok ⟨[]⟩ := by
      simp [Signal.simplify, ofPts, Signal.simplifyLoop, Signal.empty, Signal.endTime, D.zero_def]
    rw [this] at he; simp only [Outcome.ok.injEq] at he; subst he
    have := congrArg List.length h'.2
    rw [e] at this; simp at this
  | cons p rest =>
    rw [simplify_fin p rest hinc] at he
    simp only [Outcome.ok.injEq] at he; subst he
    have hp : pts' = p :: keep p.2 rest := by
      have h1 := h'.2
      have h2 : (ofPts (p :: keep p.2 rest)).samples.map tv = (p :: keep p.2 rest).map lift :=
        build_map_tv _
      rw [h2] at h1
      have hinj : Function.Injective (lift : K × K → D K × D K) := by
        rintro ⟨a, b⟩ ⟨c, d⟩ hcd
        simp only [lift, Prod.mk.injEq, D.fin.injEq] at hcd
        rw [hcd.1, hcd.2]
      exact (List.map_injective_iff.2 hinj h1).symm
    rw [hp] at e
    exact keep_no_flat rest p l₁ l₂ a b c e

/-- `z` is inside a constant stretch of the points. -/
def InFlat (pts : List (K × K)) (z : K × K) : Prop :=
  ∃ l₁ x y l₂, pts = l₁ ++ x :: z :: y :: l₂ ∧ x.2 = z.2 ∧ z.2 = y.2

theorem inFlat_cons {a p z : K × K} {l : List (K × K)} (h : z ≠ p) :
    InFlat (a :: p :: l) z ↔ InFlat (p :: l) z := by
  constructor
  · rintro ⟨l₁, x, y, l₂, e, h1, h2⟩
    cases l₁ with
    | nil =>
      simp only [List.nil_append, List.cons.injEq] at e
      exact absurd e.2.1.symm h
    | cons w l₁ =>
      simp only [List.cons_append, List.cons.injEq] at e
      exact ⟨l₁, x, y, l₂, e.2, h1, h2⟩
  · rintro ⟨l₁, x, y, l₂, e, h1, h2⟩
    exact ⟨a :: l₁, x, y, l₂, by rw [e]; rfl, h1, h2⟩

theorem mem_keep : ∀ (l : List (K × K)) (a : K × K), Increasing (a :: l) → ∀ z,
    z ∈ keep a.2 l ↔ z ∈ l ∧ ¬ InFlat (a :: l) z
  | [], a, _, z => by simp [keep]
  | [p], a, _, z => by
    simp only [keep, List.mem_singleton, iff_self_and]
    rintro rfl ⟨l₁, x, y, l₂, e, -⟩
    have := congrArg List.length e
    simp at this; omega
  | p :: q :: r, a, h, z => by
    have hr := (increasing_cons.1 h).2
    have hlt := (increasing_cons.1 hr).1
    have hn : p ∉ q :: r := fun hc => lt_irrefl _ (hlt p hc)
    rw [keep]
    by_cases hc : p.2 = a.2 ∧ q.2 = p.2
    · rw [if_pos hc, ← hc.1, mem_keep (q :: r) p hr z]
      by_cases hz : z = p
      · subst hz
        constructor
        · intro hc; exact absurd hc.1 hn
        · intro hc'
          exact absurd ⟨[], a, q, r, rfl, hc.1.symm, hc.2.symm⟩ hc'.2
      · rw [inFlat_cons hz]
        simp [hz]
    · rw [if_neg hc, List.mem_cons, mem_keep (q :: r) p hr z]
      by_cases hz : z = p
      · subst hz
        refine ⟨fun _ => ⟨by simp, ?_⟩, fun _ => .inl rfl⟩
        rintro ⟨l₁, x, y, l₂, e, h1, h2⟩
        cases l₁ with
        | nil =>
          simp only [List.nil_append, List.cons.injEq] at e
          exact hc ⟨by rw [e.1, h1], by rw [e.2.2.1, h2]⟩
        | cons w l₁ =>
          simp only [List.cons_append, List.cons.injEq] at e
          cases l₁ with
          | nil =>
            simp only [List.nil_append, List.cons.injEq] at e
            exact hn (by rw [e.2.2.1]; simp)
          | cons w' l₁ =>
            simp only [List.cons_append, List.cons.injEq] at e
            exact hn (by rw [e.2.2]; simp)
      · rw [inFlat_cons hz]
        simp [hz]

/-- **C13**, what `simplify` does exactly: it drops the samples inside constant stretches (those whose two
neighbours have the same value) and no other.  So the claim holds of a signal if and only if no sample is on
a sloped line through its neighbours. -/
theorem C13_exactly_partial (s : Signal K) (pts : List (K × K)) (h : Represents s pts) (hne : pts ≠ []) :
    ∃ s' pts', s.simplify = .ok s' ∧ Represents s' pts' ∧
      ∀ z, z ∈ pts' ↔ z ∈ pts ∧ ¬ ∃ l₁ x y l₂, pts = l₁ ++ x :: z :: y :: l₂ ∧ x.2 = z.2 ∧ z.2 = y.2 := by
  obtain ⟨hinc, rfl⟩ := (represents_iff _ _).1 h
  cases pts with
  | nil => exact absurd rfl hne
  | cons p rest =>
    refine ⟨_, p :: keep p.2 rest, simplify_fin p rest hinc, (represents_iff _ _).2 ⟨?_, rfl⟩, ?_⟩
    · exact List.Pairwise.sublist (((keep_sublist rest p.2).cons_cons p).map _) hinc
    · intro z
      rw [List.mem_cons, mem_keep rest p hinc z, List.mem_cons]
      have hn : p ∉ rest := fun hc => lt_irrefl _ ((increasing_cons.1 hinc).1 p hc)
      by_cases hz : z = p
      · subst hz
        refine ⟨fun _ => ⟨.inl rfl, ?_⟩, fun _ => .inl rfl⟩
        rintro ⟨l₁, x, y, l₂, e, -⟩
        cases l₁ with
        | nil =>
          simp only [List.nil_append, List.cons.injEq] at e
          exact hn (by rw [e.2]; simp)
        | cons w l₁ =>
          simp only [List.cons_append, List.cons.injEq] at e
          exact hn (by rw [e.2]; simp)
      · simp only [hz, false_or]; rfl

example : exSig.simplify = .ok (ofPts [(0, 0), (1, 2), (3, 2), (4, 0)]) := by decide +kernel

/-! ## C14: resize -/

/-- Full statement of **C14**. -/
def C14_statement (K : Type) [Field K] [LinearOrder K] [Arith K] : Prop :=
  ∀ (s : Signal K) (pts : List (K × K)), Represents s pts → pts ≠ [] → ∀ a b fill, a < b →
    ∃ s' pts', s.resize (.fin a) (.fin b) (.fin fill) = .ok s' ∧ Represents s' pts' ∧
      dom pts' = {t | a ≤ t ∧ t ≤ b} ∧
      ∀ t ∈ dom pts', (t ∈ dom pts → eval pts' t = eval pts t) ∧ (t ∉ dom pts → eval pts' t = fill)

/-- **C14** is false: `resize(0, 3, 9)` of the example signal throws. -/
theorem C14_refuted : ¬ C14_statement ℚ := by
  intro h
  obtain ⟨s', -, hs, -⟩ := h exSig exPts exSig_represents (by decide +kernel) 0 3 9 (by decide +kernel)
  have : exSig.resize (.fin 0) (.fin 3) (.fin 9) = .throw .invalidArgument := by decide +kernel
  rw [this] at hs; simp at hs

/-- What holds of **C14**: if exactly one sample is later than `start` and one is not, then the result
is the restriction of the signal to [start, min(end, end_time)].  (So the claim holds if moreover
`end <= end_time()`.  All the other cases are in the next theorems.) -/
theorem C14_resize_partial (s : Signal K) (l : List (K × K)) (p q : K × K)
    (h : Represents s (l ++ [p, q])) (a b fill : K) (hab : a < b) (hp : p.1 ≤ a) (hq : a < q.1) :
    ∃ s' pts', s.resize (.fin a) (.fin b) (.fin fill) = .ok s' ∧ Represents s' pts' ∧
      dom pts' = {t | a ≤ t ∧ t ≤ min b q.1} ∧
      ∀ t ∈ dom pts', t ∈ dom (l ++ [p, q]) ∧ eval pts' t = eval (l ++ [p, q]) t := by
  obtain ⟨hinc, rfl⟩ := (represents_iff _ _).1 h
  obtain ⟨prev, hskip⟩ := resizeLoop_skip a b hab Signal.empty p [q] hp l none hinc
  have hpq := hp.trans_lt hq
  set z : K × K := if q.1 ≤ b then q else (b, line p q b) with hz
  have hz1 : z.1 = min b q.1 := by
    rw [hz]; split
    · rename_i hc; rw [min_eq_right hc]
    · rename_i hc; rw [min_eq_left (not_le.1 hc).le]
  have hz2 : z.2 = line p q z.1 := by
    rw [hz]; split
    · exact (line_right hpq).symm
    · rfl
  have haz : a < z.1 := by rw [hz1]; exact lt_min hab hq
  have hinc' : Increasing [(a, line p q a), z] := by simp [Increasing, haz]
  have hdom : dom [(a, line p q a), z] = {t | a ≤ t ∧ t ≤ min b q.1} := by
    ext t
    rw [dom_cons hinc', ← hz1]
    simp only [List.mem_cons, List.not_mem_nil, or_false, exists_eq_or_imp, exists_eq_left,
      Set.mem_ofPred_eq]
    exact and_congr_right fun _ => ⟨fun h => h.elim (fun h => h.trans haz.le) id, .inr⟩
  refine ⟨ofPts [(a, line p q a), z], _, ?_, (represents_iff _ _).2 ⟨hinc', rfl⟩, hdom, ?_⟩
  · unfold Signal.resize
    rw [beginTime_le hinc hp]
    simp only [Bool.false_eq_true, if_false, Outcome.bind_ok]
    rw [hskip, resizeLoop_two a b hab p q hp hq]
  · intro t ht
    rw [hdom] at ht
    have h1 : p.1 ≤ t := hp.trans ht.1
    have h2 : t ≤ q.1 := ht.2.trans (min_le_right _ _)
    refine ⟨⟨⟨p, by simp, h1⟩, ⟨q, by simp, h2⟩⟩, ?_⟩
    rw [eval_snoc_right hinc h1 h2, eval, if_pos (by rw [hz1]; exact ht.2)]
    have : z = (z.1, line p q z.1) := by rw [← hz2]
    rw [this, line_sub hpq haz]

/-- Whenever two samples are later than `start` and one is not, `resize` throws. -/
theorem C14_resize_throws (s : Signal K) (l rest : List (K × K)) (p q r : K × K)
    (h : Represents s (l ++ p :: q :: r :: rest)) (a b fill : K) (hab : a < b) (hp : p.1 ≤ a)
    (hq : a < q.1) : s.resize (.fin a) (.fin b) (.fin fill) = .throw .invalidArgument := by
  obtain ⟨hinc, rfl⟩ := (represents_iff _ _).1 h
  obtain ⟨prev, hskip⟩ := resizeLoop_skip a b hab Signal.empty p (q :: r :: rest) hp l none hinc
  have hqr : q.1 < r.1 := by
    have := (increasing_append.1 hinc).2.1
    exact (increasing_cons.1 (increasing_cons.1 this).2).1 r (by simp)
  unfold Signal.resize
  rw [beginTime_le hinc hp]
  simp only [Bool.false_eq_true, if_false, Outcome.bind_ok]
  rw [hskip, resizeLoop_throw a b p q r rest hp hq hqr]

/-- Whenever `start` is before the first of at least two samples (the case in which `fill` should be
used), `resize` throws. -/
theorem C14_resize_throws_fill (s : Signal K) (p q : K × K) (rest : List (K × K))
    (h : Represents s (p :: q :: rest)) (a b fill : K) (hp : a < p.1) :
    s.resize (.fin a) (.fin b) (.fin fill) = .throw .invalidArgument := by
  obtain ⟨hinc, rfl⟩ := (represents_iff _ _).1 h
  have hpq : p.1 < q.1 := (increasing_cons.1 hinc).1 q (by simp)
  unfold Signal.resize
  rw [ofPts_beginTime, D.lt_fin, decide_eq_true hp, if_pos rfl]
  have e : Signal.empty.pushBack (⟨.fin a, .fin fill, 0⟩ : Sample K) = .ok (ofPts [(a, fill)]) := rfl
  rw [e, Outcome.bind_ok]
  exact resizeLoop_again a b fill p q rest hpq (hp.trans hpq) none

/-- The last point not after `a`, if the last but one is after `a`. -/
theorem last_le {a : K} {p q : K × K} : ∀ {l : List (K × K)}, Increasing (l ++ [p, q]) → a < p.1 →
    (∃ x ∈ l ++ [p, q], x.1 ≤ a) → ∃ l₁ x y z l₂, l ++ [p, q] = l₁ ++ x :: y :: z :: l₂ ∧ x.1 ≤ a ∧ a < y.1
  | [], hinc, hp, ⟨x, hx, hxa⟩ => by
    have hpq : p.1 < q.1 := (increasing_cons.1 hinc).1 q (by simp)
    simp only [List.nil_append, List.mem_cons, List.not_mem_nil, or_false] at hx
    rcases hx with rfl | rfl
    · exact absurd hxa (not_le.2 hp)
    · exact absurd hxa (not_le.2 (hp.trans hpq))
  | w :: l, hinc, hp, ⟨x, hx, hxa⟩ => by
    by_cases hex : ∃ x ∈ l ++ [p, q], x.1 ≤ a
    · obtain ⟨l₁, x, y, z, l₂, e, h1, h2⟩ := last_le (increasing_cons.1 hinc).2 hp hex
      exact ⟨w :: l₁, x, y, z, l₂, by rw [List.cons_append, e]; rfl, h1, h2⟩
    · obtain ⟨y, z, r, e⟩ : ∃ y z r, l ++ [p, q] = y :: z :: r := by
        match l with
        | [] => exact ⟨p, q, [], rfl⟩
        | [x] => exact ⟨x, p, [q], rfl⟩
        | x :: y :: r => exact ⟨x, y, r ++ [p, q], rfl⟩
      refine ⟨[], w, y, z, r, by rw [List.cons_append, e]; rfl, ?_, not_le.1 fun hc => hex ⟨y, by rw [e]; simp, hc⟩⟩
      rcases List.mem_cons.1 hx with rfl | hx
      · exact hxa
      · exact absurd ⟨x, hx, hxa⟩ hex

/-- If `start` is the time of the last sample, the result has this sample only; if it is later, the result is
empty. -/
theorem C14_resize_late (s : Signal K) (l : List (K × K)) (q : K × K) (h : Represents s (l ++ [q]))
    (a b fill : K) (hab : a < b) (hq : q.1 ≤ a) :
    ∃ s', s.resize (.fin a) (.fin b) (.fin fill) = .ok s' ∧ Represents s' (if q.1 = a then [q] else []) := by
  obtain ⟨hinc, rfl⟩ := (represents_iff _ _).1 h
  obtain ⟨prev, hskip⟩ := resizeLoop_skip a b hab Signal.empty q [] hq l none hinc
  refine ⟨ofPts (if q.1 = a then [q] else []), ?_, (represents_iff _ _).2 ⟨?_, rfl⟩⟩
  · unfold Signal.resize
    rw [beginTime_le hinc hq]
    simp only [Bool.false_eq_true, if_false, Outcome.bind_ok]
    have e : (ofPts [q]).samples = [⟨.fin q.1, .fin q.2, 0⟩] := rfl
    rw [hskip, e, resizeLoop_cons _ _ _ _ _ _ _ rfl]
    simp only [Bool.false_eq_true, if_false, D.le_fin, D.lt_fin, (hq.trans hab.le), not_lt.2 (hq.trans hab.le),
      decide_true, decide_false, Bool.and_true]
    by_cases hc : q.1 = a
    · rw [if_pos (by simp [hc]), if_pos hc]; rfl
    · rw [if_neg (by simpa using lt_of_le_of_ne hq hc), if_neg hc]; rfl
  · split <;> simp [Increasing]

/-- If there is one sample only and `start` is before it, the result begins with `fill` at `start`; the sample
is kept if it is not after `end`. -/
theorem C14_resize_single (s : Signal K) (q : K × K) (h : Represents s [q]) (a b fill : K) (hq : a < q.1) :
    ∃ s', s.resize (.fin a) (.fin b) (.fin fill) = .ok s' ∧
      Represents s' ((a, fill) :: if q.1 ≤ b then [q] else []) := by
  obtain ⟨hinc, rfl⟩ := (represents_iff _ _).1 h
  refine ⟨ofPts ((a, fill) :: if q.1 ≤ b then [q] else []), ?_, (represents_iff _ _).2 ⟨?_, rfl⟩⟩
  · unfold Signal.resize
    rw [ofPts_beginTime, D.lt_fin, decide_eq_true hq, if_pos rfl]
    have e : Signal.empty.pushBack (⟨.fin a, .fin fill, 0⟩ : Sample K) = .ok (ofPts [(a, fill)]) := rfl
    have e' : (ofPts [q]).samples = [⟨.fin q.1, .fin q.2, 0⟩] := rfl
    rw [e, Outcome.bind_ok, e']
    dsimp only
    rw [resizeLoop_cons _ _ _ _ _ _ _ rfl]
    simp only [Bool.false_eq_true, if_false, D.le_fin, D.lt_fin, hq.le, decide_true, Bool.true_and]
    by_cases hc : q.1 ≤ b
    · simp only [hc, decide_true, if_true]
      rw [show ofPts [(a, fill)] = ofPts ([] ++ [(a, fill)]) from rfl]
      have e3 := pushBack_snoc [] (a, fill) q 0 hq
      simp only [List.nil_append] at e3 ⊢
      rw [e3]; rfl
    · simp [hc, not_le.1 hc]
  · split <;> simp [Increasing, hq]

/-- Without samples the result has the sample `fill` at `start` if `start` is negative (`begin_time()` of an
empty signal is 0), and none otherwise. -/
theorem C14_resize_empty (a b fill : K) :
    (Signal.empty : Signal K).resize (.fin a) (.fin b) (.fin fill) = .ok (ofPts (if a < 0 then [(a, fill)] else [])) := by
  unfold Signal.resize
  have : (Signal.empty : Signal K).beginTime = .fin 0 := rfl
  rw [this, D.lt_fin]
  by_cases h : a < 0 <;> simp [h] <;> rfl

/-- **C14**, exactly when it holds: the claim is right of a signal and of `start < end` if and only if `start` is
between the last two samples and `end` is not after the last, or the signal consists of the value `fill` at
`end`. -/
theorem C14_exactly_partial (s : Signal K) (pts : List (K × K)) (h : Represents s pts) (hne : pts ≠ [])
    (a b fill : K) (hab : a < b) :
    (∃ s' pts', s.resize (.fin a) (.fin b) (.fin fill) = .ok s' ∧ Represents s' pts' ∧
      dom pts' = {t | a ≤ t ∧ t ≤ b} ∧
      ∀ t ∈ dom pts', (t ∈ dom pts → eval pts' t = eval pts t) ∧ (t ∉ dom pts → eval pts' t = fill)) ↔
    (∃ l p q, pts = l ++ [p, q] ∧ p.1 ≤ a ∧ a < q.1 ∧ b ≤ q.1) ∨ pts = [(b, fill)] := by
  have hinc := ((represents_iff _ _).1 h).1
  constructor
  · rintro ⟨s', pts', hs, hr, hd, hv⟩
    have uniq : ∀ s'' pts'', s.resize (.fin a) (.fin b) (.fin fill) = .ok s'' → Represents s'' pts'' → pts'' = pts' := by
      intro s'' pts'' h1 h2
      rw [hs] at h1
      injection h1 with h1
      subst h1
      exact List.map_injective_iff.2 (fun x y e => by simpa [lift, Prod.ext_iff] using e) (h2.2.symm.trans hr.2)
    have hb : b ∈ dom pts' := by rw [hd]; exact ⟨hab.le, le_refl b⟩
    rcases List.eq_nil_or_concat' pts with rfl | ⟨l, q, rfl⟩
    · exact absurd rfl hne
    rcases lt_or_ge a q.1 with hq | hq
    · rcases List.eq_nil_or_concat' l with rfl | ⟨l, p, rfl⟩
      · right
        obtain ⟨s'', h1, h2⟩ := C14_resize_single s q h a b fill hq
        have e := uniq _ _ h1 h2
        subst e
        by_cases hc : q.1 ≤ b
        · rw [if_pos hc] at hb hv
          obtain ⟨-, w, hw, hbw⟩ := hb
          simp only [List.mem_cons, List.not_mem_nil, or_false] at hw
          have hqb : q.1 = b := by
            rcases hw with rfl | rfl
            · exact absurd hbw (not_le.2 hab)
            · exact le_antisymm hc hbw
          have hm : (a + b) / 2 ∈ dom [(a, fill), q] := by
            refine ⟨⟨(a, fill), by simp, ?_⟩, ⟨q, by simp, ?_⟩⟩
            · simp only; linarith
            · rw [hqb]; linarith
          have h3 := (hv _ hm).2 (by
            rintro ⟨⟨w, hw, hw'⟩, -⟩
            simp only [List.nil_append, List.mem_singleton] at hw
            subst hw
            rw [hqb] at hw'; linarith)
          rw [eval, if_pos (by rw [hqb]; linarith), line, hqb] at h3
          have hba : b - a ≠ 0 := sub_ne_zero.2 hab.ne'
          have h4 : (q.2 - fill) * (((a + b) / 2 - a) / (b - a)) = 0 := by linarith
          rcases mul_eq_zero.1 h4 with h5 | h5
          · rw [List.nil_append]
            congr 1
            exact Prod.ext hqb (by linarith)
          · rcases div_eq_zero_iff.1 h5 with h6 | h6
            · exact absurd h6 (by intro h; linarith)
            · exact absurd h6 hba
        · rw [if_neg hc] at hb
          obtain ⟨-, w, hw, hbw⟩ := hb
          simp only [List.mem_singleton] at hw
          subst hw
          exact absurd hbw (not_le.2 hab)
      · left
        rw [List.append_assoc] at h hinc
        simp only [List.cons_append, List.nil_append] at h hinc
        have hpq : p.1 < q.1 := by
          have := (increasing_append.1 hinc).2.1
          exact (increasing_cons.1 this).1 q (by simp)
        rcases lt_or_ge a p.1 with hp | hp
        · exfalso
          -- two samples are later than `start`
          by_cases hex : ∃ x ∈ l ++ [p, q], x.1 ≤ a
          · obtain ⟨x, hx, hxa⟩ := hex
            obtain ⟨l₁, x, y, z, l₂, e, h1, h2⟩ := last_le (l := l) hinc hp ⟨x, hx, hxa⟩
            rw [e] at h
            rw [C14_resize_throws s l₁ l₂ x y z h a b fill hab h1 h2] at hs
            cases hs
          · obtain ⟨x, y, r, e⟩ : ∃ x y r, l ++ [p, q] = x :: y :: r := by
              match l with
              | [] => exact ⟨p, q, [], rfl⟩
              | [x] => exact ⟨x, p, [q], rfl⟩
              | x :: y :: r => exact ⟨x, y, r ++ [p, q], rfl⟩
            have hx : a < x.1 := not_le.1 fun hc => hex ⟨x, by rw [e]; simp, hc⟩
            rw [e] at h
            rw [C14_resize_throws_fill s x y r h a b fill hx] at hs
            cases hs
        · obtain ⟨s'', pts'', h1, h2, h3, -⟩ := C14_resize_partial s l p q h a b fill hab hp hq
          have e := uniq _ _ h1 h2
          subst e
          rw [h3] at hb
          exact ⟨l, p, q, by simp, hp, hq, hb.2.trans (min_le_right _ _)⟩
    · exfalso
      obtain ⟨s'', h1, h2⟩ := C14_resize_late s l q h a b fill hab hq
      have e := uniq _ _ h1 h2
      subst e
      obtain ⟨-, w, hw, hbw⟩ := hb
      split at hw
      · simp only [List.mem_singleton] at hw
        subst hw
        exact absurd (hbw.trans hq) (not_le.2 hab)
      · cases hw
  · rintro (⟨l, p, q, rfl, hp, hq, hb⟩ | rfl)
    · obtain ⟨s', pts', h1, h2, h3, h4⟩ := C14_resize_partial s l p q h a b fill hab hp hq
      rw [min_eq_left hb] at h3
      exact ⟨s', pts', h1, h2, h3, fun t ht => ⟨fun _ => (h4 t ht).2, fun hn => absurd (h4 t ht).1 hn⟩⟩
    · obtain ⟨s', h1, h2⟩ := C14_resize_single s (b, fill) h a b fill hab
      rw [if_pos (le_refl b)] at h2
      have hdom : dom [(a, fill), (b, fill)] = {t | a ≤ t ∧ t ≤ b} := by
        ext t
        constructor
        · rintro ⟨⟨w, hw, h3⟩, ⟨w', hw', h4⟩⟩
          simp only [List.mem_cons, List.not_mem_nil, or_false] at hw hw'
          constructor
          · rcases hw with rfl | rfl
            · exact h3
            · exact hab.le.trans h3
          · rcases hw' with rfl | rfl
            · exact h4.trans hab.le
            · exact h4
        · rintro ⟨h3, h4⟩
          exact ⟨⟨(a, fill), by simp, h3⟩, ⟨(b, fill), by simp, h4⟩⟩
      refine ⟨s', _, h1, h2, hdom, ?_⟩
      intro t ht
      rw [hdom] at ht
      have : eval [(a, fill), (b, fill)] t = fill := by
        rw [eval, if_pos ht.2, line]; simp
      rw [this]
      exact ⟨fun _ => rfl, fun _ => rfl⟩

example : Represents exSig ([(0, 0), (1, 2), (2, 2)] ++ [(3, 2), (4, 0)]) := exSig_represents
example : exSig.resize (.fin 3) (.fin (7 / 2)) (.fin 9) = .ok (ofPts [(3, 2), (7 / 2, 1)]) := by
  decide +kernel
example : exSig.resize (.fin 4) (.fin 5) (.fin 9) = .ok (ofPts [(4, 0)]) := by decide +kernel
example : Represents (ofPts [((2 : ℚ), 9)]) [(2, 9)] := (represents_iff _ _).2 ⟨by simp [Increasing], rfl⟩
example : (ofPts [((2 : ℚ), 9)]).resize (.fin 1) (.fin 2) (.fin 9) = .ok (ofPts [(1, 9), (2, 9)]) := by decide +kernel

/-! ## C15: shift -/

/-- **C15**: `shift(dt)` succeeds, moves the domain by `dt`, and has the same values. -/
theorem C15_shift (s : Signal K) (pts : List (K × K)) (h : Represents s pts) (dt : K) :
    ∃ s' pts', s.shift (.fin dt) = .ok s' ∧ Represents s' pts' ∧
      s'.samples.map Sample.value = s.samples.map Sample.value ∧
      (∀ t, t + dt ∈ dom pts' ↔ t ∈ dom pts) ∧ ∀ t, eval pts' (t + dt) = eval pts t := by
  obtain ⟨hinc, rfl⟩ := (represents_iff s pts).1 h
  have hinc' := (increasing_shiftPts dt pts).2 hinc
  refine ⟨ofPts (shiftPts dt pts), shiftPts dt pts, ?_, (represents_iff _ _).2 ⟨hinc', rfl⟩, ?_,
    fun t => dom_shiftPts pts dt t, fun t => eval_shiftPts pts dt t⟩
  · unfold Signal.shift
    rw [ofSamples_wf h.1, Outcome.bind_ok, addTime_ofPts pts dt hinc]; rfl
  · rw [ofPts_values, ofPts_values]; simp [shiftPts]

/-- **C15**: shifting by 0 is the identity. -/
theorem C15_shift_zero (s : Signal K) (pts : List (K × K)) (h : Represents s pts) :
    s.shift (.fin 0) = .ok s := by
  obtain ⟨hinc, rfl⟩ := (represents_iff s pts).1 h
  unfold Signal.shift
  rw [ofSamples_wf h.1, Outcome.bind_ok, addTime_ofPts pts 0 hinc]
  simp [shiftPts]

/-- **C15**: shifting by `a` and then by `b` is shifting by `a + b`. -/
theorem C15_shift_add (s : Signal K) (pts : List (K × K)) (h : Represents s pts) (a b : K) :
    (s.shift (.fin a) >>= fun s' => s'.shift (.fin b)) = s.shift (.fin (a + b)) := by
  obtain ⟨hinc, rfl⟩ := (represents_iff s pts).1 h
  have hinc' := (increasing_shiftPts a pts).2 hinc
  have hwf : WF (ofPts (shiftPts a pts)) := ((represents_iff _ _).2 ⟨hinc', rfl⟩).1
  unfold Signal.shift
  rw [ofSamples_wf h.1, Outcome.bind_ok, Outcome.bind_ok, addTime_ofPts pts a hinc,
    addTime_ofPts pts (a + b) hinc, Outcome.pure_eq_ok, Outcome.bind_ok, ofSamples_wf hwf,
    Outcome.bind_ok, addTime_ofPts _ b hinc']
  congr 2
  simp [shiftPts, add_assoc]

example : exSig.shift (.fin 3) = .ok (ofPts [(3, 0), (4, 2), (5, 2), (6, 2), (7, 0)]) := by
  decide +kernel

end Verif
