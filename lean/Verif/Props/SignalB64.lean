import Verif.Proofs.SimplifyAny
import Verif.Proofs.AreaAcc
import Verif.Props.AccuracySync
import Verif.Props.Binary64
import Verif.Proofs.Crossing

/-!
# C126: `simplify()` and `area()` in binary64

`simplify()` decides by computed values and slopes which points are redundant.  C11 and C12 say that this is right in
exact arithmetic.  Here is what holds with rounding: the structure of the result for every rounding, and in binary64
that the function changes only where a slope underflows, and by how much.  And C71 with rounding errors.
-/

set_option linter.unusedSectionVars false
set_option exponentiation.threshold 1100

namespace Verif
open Spec

/-! ## simplify -/

section any
variable {K : Type} [Field K] [LinearOrder K] [IsStrictOrderedRing K] [Arith K]

/-- **C126, every rounding.**  `simplify()` succeeds; its points are a sub-sequence of those of the signal with the same
first and last point. -/
theorem C126_simplify (s : Signal K) (pts : List (K × K)) (h : Represents s pts) :
    ∃ s' pts', s.simplify = .ok s' ∧ Represents s' pts' ∧ pts'.Sublist pts ∧
      pts'.head? = pts.head? ∧ pts'.getLast? = pts.getLast? := by
  obtain ⟨hinc, rfl⟩ := (represents_iff s pts).1 h
  cases pts with
  | nil =>
    refine ⟨ofPts [], [], ?_, (represents_iff _ _).2 ⟨hinc, rfl⟩, List.Sublist.refl _, rfl, rfl⟩
    simp [Signal.simplify, ofPts, Signal.simplifyLoop, Signal.empty, Signal.endTime, D.zero_def]
  | cons p rest =>
    have hsub : (p :: AnySimp.keepG p rest).Sublist (p :: rest) := (AnySimp.keepG_sublist rest p).cons_cons p
    refine ⟨_, p :: AnySimp.keepG p rest, AnySimp.simplify_any p rest hinc, (represents_iff _ _).2 ⟨?_, rfl⟩, hsub, rfl, ?_⟩
    · exact List.Pairwise.sublist (hsub.map Prod.fst) hinc
    · rw [List.getLast?_cons, AnySimp.keepG_getLast?, ← List.getLast?_cons]

end any

/-- The times and values of the points are doubles of magnitude at most `2^1022`. -/
def HalfRange (pts : List (ℚ × ℚ)) : Prop :=
  ∀ p ∈ pts, (IsB64 p.1 ∧ |p.1| ≤ 2 ^ 1022) ∧ IsB64 p.2 ∧ |p.2| ≤ 2 ^ 1022

theorem simplify_b64 {s : Signal B64} {p : ℚ × ℚ} {rest : List (ℚ × ℚ)} (h : Represents (K := B64) s (p :: rest)) :
    Increasing (p :: rest) ∧ s.simplify = .ok (ofPts (K := B64) (p :: AnySimp.keepG (K := B64) p rest)) := by
  obtain ⟨hinc, rfl⟩ := (represents_iff (K := B64) s (p :: rest)).1 h
  exact ⟨hinc, AnySimp.simplify_any (K := B64) p rest hinc⟩

theorem B64.points_inj {z : Signal B64} {a b : List (ℚ × ℚ)} (ha : Represents (K := B64) z a)
    (hb : Represents (K := B64) z b) : a = b := by
  have h := ha.2.symm.trans hb.2
  refine List.map_injective_iff.2 (fun p q h => ?_) h
  have h1 : (D.fin (p.1 : B64), D.fin (p.2 : B64)) = (D.fin (q.1 : B64), D.fin (q.2 : B64)) := h
  exact Prod.ext (D.fin.inj (Prod.mk.inj h1).1) (D.fin.inj (Prod.mk.inj h1).2)

theorem dom_sublist {l l' : List (ℚ × ℚ)} (hi : Increasing l) (hs : l'.Sublist l) (h1 : l'.head? = l.head?)
    (h2 : l'.getLast? = l.getLast?) : dom l' = dom l := by
  ext t
  refine ⟨fun ⟨⟨p, hp, h⟩, q, hq, h'⟩ => ⟨⟨p, hs.subset hp, h⟩, q, hs.subset hq, h'⟩, ?_⟩
  rintro ⟨⟨p, hp, h⟩, q, hq, h'⟩
  constructor
  · cases l with
    | nil => simp at hp
    | cons a l =>
      have ha : a ∈ l' := List.mem_of_mem_head? (by rw [h1]; rfl)
      refine ⟨a, ha, le_trans ?_ h⟩
      rcases List.mem_cons.1 hp with rfl | hp
      · exact le_refl _
      · exact ((increasing_cons.1 hi).1 p hp).le
  · rcases List.eq_nil_or_concat l with rfl | ⟨w, z, rfl⟩
    · simp at hq
    · have hz : z ∈ l' := List.mem_of_getLast? (by rw [h2]; simp)
      refine ⟨z, hz, h'.trans ?_⟩
      rw [List.concat_eq_append] at hq hi
      rcases List.mem_append.1 hq with hq | hq
      · exact ((increasing_append.1 hi).2.2 q hq z (by simp)).le
      · simp at hq; rw [hq]

theorem simplify_error {s : Signal B64} {pts : List (ℚ × ℚ)} (h : Represents (K := B64) s pts)
    (hh : HalfRange pts) {e : ℚ} (he : 0 ≤ e)
    (hc : pts.IsChain fun p q => |q.2 - p.2| < 2 ^ (-1074 : ℤ) * (q.1 - p.1) → |q.2 - p.2| ≤ e) :
    ∃ (s' : Signal B64) (pts' : List (ℚ × ℚ)), s.simplify = .ok s' ∧ Represents (K := B64) s' pts' ∧ pts'.Sublist pts ∧
      dom pts' = dom pts ∧ ∀ t ∈ dom pts, |eval pts' t - eval pts t| ≤ e := by
  obtain ⟨s2, pts2, e2, e3, e4, e5, e6⟩ := C126_simplify (K := B64) s pts h
  have hinc : Increasing pts := ((represents_iff (K := B64) s pts).1 h).1
  refine ⟨s2, pts2, e2, e3, e4, dom_sublist hinc e4 e5 e6, ?_⟩
  cases pts with
  | nil => intro t ht; obtain ⟨⟨p, hp, -⟩, -⟩ := ht; simp at hp
  | cons p rest =>
    intro t ht
    obtain ⟨-, e1⟩ := simplify_b64 h
    have e7 : pts2 = p :: AnySimp.keepG (K := B64) p rest := by
      have : s2 = ofPts (K := B64) (p :: AnySimp.keepG (K := B64) p rest) := Outcome.ok.inj (e2.symm.trans e1)
      rw [this] at e3
      have hi' : Increasing (p :: AnySimp.keepG (K := B64) p rest) :=
        List.Pairwise.sublist (((AnySimp.keepG_sublist (K := B64) rest p).cons_cons p).map Prod.fst) hinc
      exact B64.points_inj e3 ((represents_iff (K := B64) _ _).2 ⟨hi', rfl⟩)
    rw [e7]
    refine AnySimp.keep_error (f := AnySimp.flat (K := B64)) (k := AnySimp.keepG (K := B64))
      (P := fun p => (IsB64 p.1 ∧ |p.1| ≤ 2 ^ 1022) ∧ IsB64 p.2 ∧ |p.2| ≤ 2 ^ 1022) (fun _ => rfl) (fun _ _ => rfl)
      (fun _ _ _ _ => rfl) (fun a p q ha hf => B64.flat_value ha.2.1 hf) he rest.length rest p (le_refl _) hinc hh ?_ t
      (by
        obtain ⟨⟨x, hx, hxt⟩, -⟩ := ht
        rcases List.mem_cons.1 hx with rfl | hx
        · exact hxt
        · exact ((increasing_cons.1 hinc).1 x hx).le.trans hxt)
    have hc' := hc.tail
    have hi' : Increasing rest := (increasing_cons.1 hinc).2
    have hh' : HalfRange rest := fun x hx => hh x (List.mem_cons_of_mem _ hx)
    simp only [List.tail_cons] at hc'
    clear e1 e2 e3 e4 e5 e6 e7 h hc hinc ht hh
    induction rest with
    | nil => simp
    | cons a rest ih =>
      cases rest with
      | nil => simp
      | cons b rest =>
        rw [List.isChain_cons_cons] at hc' ⊢
        refine ⟨fun c hf => hc'.1 ?_, ih hc'.2 (increasing_cons.1 hi').2 fun x hx => hh' x (List.mem_cons_of_mem _ hx)⟩
        exact B64.slope_zero ((increasing_cons.1 hi').1 b (by simp)) (hh' a (by simp)) (hh' b (by simp))
          (Bool.and_eq_true _ _ ▸ hf :).2

/-- **C126, the error of `simplify()`.**  If successive timestamps are at most `L` apart, then the function changes by at
most `2^-1074 L` anywhere. -/
theorem C126_simplify_error (s : Signal B64) (pts : List (ℚ × ℚ)) (h : Represents (K := B64) s pts) (hh : HalfRange pts)
    (L : ℚ) (L0 : 0 ≤ L) (hL : pts.IsChain fun p q => q.1 - p.1 ≤ L) :
    ∃ (s' : Signal B64) (pts' : List (ℚ × ℚ)), s.simplify = .ok s' ∧ Represents (K := B64) s' pts' ∧ pts'.Sublist pts ∧
      dom pts' = dom pts ∧ ∀ t ∈ dom pts, |eval pts' t - eval pts t| ≤ 2 ^ (-1074 : ℤ) * L := by
  have hp := B64.two_zpow_pos (-1074)
  refine simplify_error h hh (mul_nonneg hp.le L0) (hL.imp fun p q hpq hlt => ?_)
  exact hlt.le.trans (mul_le_mul_of_nonneg_left hpq hp.le)

/-- **C126, exactness of `simplify()`.**  If no slope of the signal is smaller than the smallest positive double (and
not zero), then the function does not change, as in exact arithmetic. -/
theorem C126_simplify_exact (s : Signal B64) (pts : List (ℚ × ℚ)) (h : Represents (K := B64) s pts) (hh : HalfRange pts)
    (hs : pts.IsChain fun p q => q.2 = p.2 ∨ 2 ^ (-1074 : ℤ) ≤ |(q.2 - p.2) / (q.1 - p.1)|) :
    ∃ (s' : Signal B64) (pts' : List (ℚ × ℚ)), s.simplify = .ok s' ∧ Represents (K := B64) s' pts' ∧ pts'.Sublist pts ∧
      dom pts' = dom pts ∧ ∀ t ∈ dom pts, eval pts' t = eval pts t := by
  obtain ⟨s', pts', h1, h2, h3, h4, h5⟩ := simplify_error h hh (le_refl 0) (hs.imp fun p q hpq hlt => by
    rcases hpq with e | hge
    · rw [e]; simp
    · exfalso
      rcases lt_trichotomy (q.1 - p.1) 0 with hn | hn | hn
      · have := B64.two_zpow_pos (-1074)
        have := abs_nonneg (q.2 - p.2)
        nlinarith
      · rw [hn] at hge
        have := B64.two_zpow_pos (-1074)
        simp at hge
        linarith
      · rw [abs_div, abs_of_pos hn, le_div_iff₀ hn] at hge
        linarith)
  exact ⟨s', pts', h1, h2, h3, h4, fun t ht => sub_eq_zero.1 (abs_nonpos_iff.1 (h5 t ht))⟩

/-- The hypotheses hold for a signal with a redundant point, and the point is removed. -/
example : HalfRange [(0, 1), (1, 1), (2, 1), (3, 2)] ∧
    [((0 : ℚ), (1 : ℚ)), (1, 1), (2, 1), (3, 2)].IsChain (fun p q => q.1 - p.1 ≤ 1) ∧
    (ofPts (K := B64) [(0, 1), (1, 1), (2, 1), (3, 2)]).simplify = .ok (ofPts (K := B64) [(0, 1), (2, 1), (3, 2)]) := by
  refine ⟨?_, by norm_num, by decide +kernel⟩
  have f : ∀ n : ℤ, |n| < 2 ^ 53 → IsB64 (n : ℚ) ∧ |(n : ℚ)| ≤ 2 ^ 1022 := fun n hn => by
    refine ⟨⟨n, 0, by norm_num, hn, by norm_num, by norm_num⟩, ?_⟩
    have : |(n : ℚ)| < 2 ^ 53 := by exact_mod_cast hn
    exact this.le.trans (pow_le_pow_right₀ (by norm_num) (by norm_num))
  have f0 := f 0 (by norm_num)
  have f1 := f 1 (by norm_num)
  have f2 := f 2 (by norm_num)
  have f3 := f 3 (by norm_num)
  simp only [HalfRange, List.mem_cons, List.not_mem_nil, or_false, forall_eq_or_imp, forall_eq]
  push_cast at f0 f1 f2 f3
  exact ⟨⟨f0, f1⟩, ⟨f1, f1⟩, ⟨f2, f1⟩, f3, f2⟩

/-- **C126, the condition is needed.**  The slope of the last segment underflows to zero, so that the point in the middle
is removed, and the function changes. -/
theorem C126_simplify_underflow :
    HalfRange [(0, 0), (1, 0), (2 ^ 1000, 1 / 2 ^ 80)] ∧
    (ofPts (K := B64) [(0, 0), (1, 0), ((2 ^ 1000 : ℚ), (1 / 2 ^ 80 : ℚ))]).simplify =
      .ok (ofPts (K := B64) [(0, 0), ((2 ^ 1000 : ℚ), (1 / 2 ^ 80 : ℚ))]) ∧
    eval [((0 : ℚ), (0 : ℚ)), (2 ^ 1000, 1 / 2 ^ 80)] 1 ≠ eval [((0 : ℚ), (0 : ℚ)), (1, 0), (2 ^ 1000, 1 / 2 ^ 80)] 1 := by
  refine ⟨?_, by decide +kernel, ?_⟩
  · simp only [HalfRange, List.mem_cons, List.not_mem_nil, or_false, forall_eq_or_imp, forall_eq]
    have z : IsB64 0 ∧ |(0 : ℚ)| ≤ 2 ^ 1022 := ⟨isB64_zero, by norm_num⟩
    have z1 : IsB64 1 := ⟨1, 0, by norm_num, by norm_num, by norm_num, by norm_num⟩
    refine ⟨⟨z, z⟩, ⟨⟨z1, ?_⟩, z⟩, ⟨?_, ?_⟩, ?_, ?_⟩
    · rw [abs_one]; exact one_le_pow₀ (by norm_num)
    · exact B64.isB64_two_zpow (l := 1000) (by norm_num) (by norm_num)
    · rw [abs_of_pos (by positivity)]; exact pow_le_pow_right₀ (by norm_num) (by norm_num)
    · exact ⟨1, -80, by norm_num, by norm_num, by norm_num, by norm_num⟩
    · rw [abs_of_pos (by positivity)]
      exact (div_le_one (by positivity)).2 (one_le_pow₀ (by norm_num)) |>.trans (one_le_pow₀ (by norm_num))
  · rw [B64.eval_cons_le (by exact one_le_pow₀ (by norm_num)), B64.eval_cons_le (by norm_num)]
    simp [line]

/-- **C126, `simplify()` twice.**  A second call changes nothing. -/
theorem C126_simplify_idempotent (s : Signal B64) (pts : List (ℚ × ℚ)) (h : Represents (K := B64) s pts)
    (hh : HalfRange pts) : ∃ s', s.simplify = .ok s' ∧ s'.simplify = .ok s' := by
  cases pts with
  | nil =>
    obtain ⟨-, rfl⟩ := (represents_iff (K := B64) s []).1 h
    exact ⟨⟨[]⟩, by decide +kernel, by decide +kernel⟩
  | cons p rest =>
    obtain ⟨hinc, e1⟩ := simplify_b64 h
    have hsub := (AnySimp.keepG_sublist (K := B64) rest p).cons_cons p
    have hi' : Increasing (p :: AnySimp.keepG (K := B64) p rest) := List.Pairwise.sublist (hsub.map Prod.fst) hinc
    refine ⟨_, e1, ?_⟩
    have e2 := (simplify_b64 ((represents_iff (K := B64) _ _).2 ⟨hi', rfl⟩)).2
    rw [AnySimp.keepG_keepG (K := B64)
      (P := fun p => (IsB64 p.1 ∧ |p.1| ≤ 2 ^ 1022) ∧ IsB64 p.2 ∧ |p.2| ≤ 2 ^ 1022)
      (fun a p q ha hf => B64.flat_value ha.2.1 hf)
      (fun p q hp hq hlt e => B64.slope_equal hlt hp.1 hq.1 e) rest p (increasing_cons.1 hinc).2
      (fun x hx => hh x (List.mem_cons_of_mem _ hx))] at e2
    exact e2

/-! ## area -/

/-- **C126, `area()`.**  The area below a segment, up to a time on it, is computed with an error of at most
`2^-49 V (t - t_i)`, where `V` bounds the values. -/
theorem C126_area (s : Signal B64) (l r : List (ℚ × ℚ)) (p q : ℚ × ℚ) (V H t : ℚ)
    (h : Represents (K := B64) s (l ++ p :: q :: r)) (g : Gentle V H (l ++ p :: q :: r)) (mt : Mild t)
    (h0 : p.1 < t) (h1 : t ≤ q.1) :
    ∃ a : ℚ, s.areaIdx (.fin (t : B64)) l.length = .ok (.fin (a : B64)) ∧
      |a - (p.2 + eval (l ++ p :: q :: r) t) / 2 * (t - p.1)| ≤ 1 / 2 ^ 49 * V * (t - p.1) := by
  obtain ⟨hinc, rfl⟩ := B64.represents_lq.1 h
  have hpq : p.1 < q.1 := h0.trans_le h1
  obtain ⟨gp1, gp2, -, gp3⟩ := g p (by simp)
  obtain ⟨gq1, gq2, -, gq3⟩ := g q (by simp)
  obtain ⟨a, ha, hb⟩ := B64.area_spec hpq gp1 gq1 gp2 gq2 mt gp3 gq3 h0 h1
  refine ⟨a, ?_, ?_⟩
  · obtain ⟨pre, e, hl⟩ := build_append (K := B64) (l.map B64.lq) (B64.lq p) ((q :: r).map B64.lq)
    have e' : build ((l ++ p :: q :: r).map B64.lq) = pre ++ B64.smp p.1 q.1 p.2 q.2 :: build ((q :: r).map B64.lq) := by
      rw [List.map_append, List.map_cons, e]; rfl
    have hx : (⟨build ((l ++ p :: q :: r).map B64.lq)⟩ : Signal B64).atIdx l.length = .ok (B64.smp p.1 q.1 p.2 q.2) := by
      rw [Signal.atIdx, e']
      have : l.length = pre.length := by rw [hl, List.length_map]
      simp [this]
    rw [Signal.areaIdx, hx, Outcome.bind_ok]
    exact congrArg Outcome.ok ha
  · rw [eval_mid hinc h0.le h1]
    have e : (p.2 + line p q t) / 2 * (t - p.1) = (p.2 + line (p.1, p.2) (q.1, q.2) t) * (t - p.1) / 2 := by ring
    rw [e]; exact hb

/-- The area below the line from `(0, 1)` to `(3, 0)` up to the time 1; the slope is rounded. -/
example : ∃ a : ℚ, (⟨build (syncX.map B64.lq)⟩ : Signal B64).areaIdx (.fin ((1 : ℚ) : B64)) 0 = .ok (.fin (a : B64)) ∧
    |a - 5 / 6| ≤ 1 / 2 ^ 48 := by
  have h := C126_area _ [] [] (0, 1) (3, 0) 2 3 1
    (B64.represents_lq.2 ⟨by simp [Increasing], rfl⟩) sync_gentle.1 (by simpa using mild_int 1 (by norm_num))
    (by norm_num) (by norm_num)
  obtain ⟨a, h1, h2⟩ := h
  refine ⟨a, h1, ?_⟩
  have e : eval [((0 : ℚ), (1 : ℚ)), (3, 0)] 1 = 2 / 3 := by
    rw [B64.eval_cons_le (by norm_num)]; norm_num [line]
  rw [List.nil_append, e] at h2
  norm_num at h2 ⊢
  exact h2

end Verif
