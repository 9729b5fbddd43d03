import Verif.Proofs.FinT

/-! # The unbounded temporal operators: suffix maxima and minima -/

set_option linter.unusedSectionVars false

namespace Verif
open Spec

/-- The values combined with all later values, and the seed. -/
def suf {T V : Type} (op : V → V → V) (v : V) : List (T × V) → List (T × V)
  | [] => []
  | p :: r => (p.1, (p :: r).foldr (fun q w => op q.2 w) v) :: suf op v r

section generic
variable {T V : Type} {op : V → V → V}

theorem suf_snoc (v : V) (l : List (T × V)) (a : T × V) :
    suf op v (l ++ [a]) = suf op (op a.2 v) l ++ [(a.1, op a.2 v)] := by
  induction l with
  | nil => rfl
  | cons p l ih => rw [List.cons_append, suf, ih, suf]; simp

theorem suf_fst (v : V) (l : List (T × V)) : (suf op v l).map Prod.fst = l.map Prod.fst := by
  induction l with
  | nil => rfl
  | cons p l ih => simp [suf, ih]

theorem suf_append (v : V) (l r : List (T × V)) :
    suf op v (l ++ r) = suf op (r.foldr (fun q w => op q.2 w) v) l ++ suf op v r := by
  induction l with
  | nil => rfl
  | cons p l ih => rw [List.cons_append, suf, ih, suf]; simp

theorem suf_length (v : V) (l : List (T × V)) : (suf op v l).length = l.length := by
  rw [← List.length_map (f := Prod.fst), suf_fst, List.length_map]

end generic

/-- The comparison selects by `op` on the values. -/
def Selects {K : Type} (comp : Cmp K) (op : D K → D K → D K) : Prop :=
  ∀ i o : Sample K, (if comp i o then i else o).value = op i.value o.value

section any
variable {K : Type} [Field K] [LinearOrder K]

theorem selects_ge : Selects (K := K) Sample.ge D.max := by
  intro i o
  simp only [Sample.ge, Sample.lt, D.max]
  by_cases h : i.value.lt o.value = true <;> simp [h]

theorem selects_le : Selects (K := K) Sample.le D.min := by
  intro i o
  simp only [Sample.le, Sample.gt, Sample.lt, D.min]
  by_cases h : o.value.lt i.value = true <;> simp [h]

theorem minmaxSeqLoop_tv {comp : Cmp K} {op : D K → D K → D K} (hc : Selects comp op)
    (l : List (Sample K)) : ∀ opt : Sample K,
    (minmaxSeqLoop comp opt l).reverse.map tv = suf op opt.value (l.reverse.map tv) := by
  induction l with
  | nil => intro _; rfl
  | cons a l ih =>
    intro opt
    rw [minmaxSeqLoop, List.reverse_cons, List.map_append, ih, List.reverse_cons, List.map_append,
      List.map_singleton, List.map_singleton, suf_snoc]
    simp only [tv, Sample.mk2]
    rw [hc]

variable [IsStrictOrderedRing K] [Arith K]

theorem incr_suf {l l' : List (D K × D K)}
    (h : l.map Prod.fst = l'.map Prod.fst) : Incr l ↔ Incr l' := by
  induction l generalizing l' with
  | nil => cases l' with
    | nil => exact Iff.rfl
    | cons => simp at h
  | cons p l ih =>
    cases l' with
    | nil => simp at h
    | cons p' l' =>
      simp only [List.map_cons, List.cons.injEq] at h
      have ih := ih h.2
      cases l with
      | nil =>
        have : l' = [] := by simpa using h.2.symm
        subst this; simp
      | cons q l =>
        cases l' with
        | nil => simp at h
        | cons q' l' =>
          simp only [List.map_cons, List.cons.injEq] at h
          rw [incr_cons₂, incr_cons₂, h.1, h.2.1, ih]

/-- Closed form of the unbounded `compute_minmax_seq`, for any rounding and all values. -/
theorem minmaxSeq_build {comp : Cmp K} {op : D K → D K → D K} (hc : Selects comp op)
    (l : List (D K × D K)) (b : D K × D K) (hi : Incr (l ++ [b])) :
    minmaxSeq comp ⟨build (l ++ [b])⟩ = .ok ⟨build (suf op b.2 l ++ [b])⟩ := by
  unfold minmaxSeq
  rw [show (⟨build (l ++ [b])⟩ : Signal K).back = .ok ⟨b.1, b.2, 0⟩ by
    simp [Signal.back, build_append_singleton], Outcome.bind_ok]
  rw [ofSamples_eq]
  have h1 : ((build (l ++ [b])).reverse.tail).reverse.map tv = l := by
    rw [List.map_reverse, List.map_tail, List.map_reverse, build_map_tv]
    simp
  have key : ((⟨b.1, b.2, 0⟩ : Sample K) :: minmaxSeqLoop comp ⟨b.1, b.2, 0⟩
      (build (l ++ [b])).reverse.tail).reverse.map tv = suf op b.2 l ++ [b] := by
    rw [List.reverse_cons, List.map_append, minmaxSeqLoop_tv hc, h1]
    simp [tv]
  rw [key, if_pos ((incr_suf (by simp [suf_fst])).1 hi)]

end any

section fin
variable {K : Type} [Field K] [LinearOrder K] [IsStrictOrderedRing K] [Arith K]

theorem suf_lift {op : D K → D K → D K} {opK : K → K → K}
    (ho : ∀ a b : K, op (.fin a) (.fin b) = .fin (opK a b)) (v : K) (l : List (K × K)) :
    suf op (.fin v) (l.map lift) = (suf opK v l).map lift := by
  have hf : ∀ r : List (K × K), (r.map lift).foldr (fun q w => op q.2 w) (.fin v) =
      .fin (r.foldr (fun q w => opK q.2 w) v) := by
    intro r
    induction r with
    | nil => rfl
    | cons p r ih => simp only [List.map_cons, List.foldr_cons, ih]; simp [lift, ho]
  induction l with
  | nil => rfl
  | cons p l ih =>
    rw [List.map_cons, suf, ← List.map_cons, hf, ih, suf]
    simp [lift]

/-- The result of the unbounded temporal operators on finite points. -/
def sufPts (opK : K → K → K) (pts : List (K × K)) : List (K × K) :=
  match pts.getLast? with
  | none => []
  | some b => suf opK b.2 pts

theorem sufPts_snoc (opK : K → K → K) (hid : ∀ a, opK a a = a) (l : List (K × K)) (b : K × K) :
    sufPts opK (l ++ [b]) = suf opK b.2 l ++ [b] := by
  simp [sufPts, suf_snoc, hid]

theorem sufPts_fst (opK : K → K → K) (pts : List (K × K)) :
    (sufPts opK pts).map Prod.fst = pts.map Prod.fst := by
  unfold sufPts
  split
  · rename_i h; rw [List.getLast?_eq_none_iff.1 h]
  · exact suf_fst _ _

theorem increasing_sufPts {opK : K → K → K} {pts : List (K × K)} :
    Increasing (sufPts opK pts) ↔ Increasing pts := by
  unfold Increasing; rw [sufPts_fst]

theorem minmaxSeq_pts {comp : Cmp K} {op : D K → D K → D K} {opK : K → K → K} (hc : Selects comp op)
    (ho : ∀ a b : K, op (.fin a) (.fin b) = .fin (opK a b)) (hid : ∀ a, opK a a = a)
    {pts : List (K × K)} (h : Increasing pts) (hne : pts ≠ []) :
    minmaxSeq comp (ofPts pts) = .ok (ofPts (sufPts opK pts)) := by
  rcases List.eq_nil_or_concat pts with rfl | ⟨l, b, rfl⟩
  · exact absurd rfl hne
  rw [List.concat_eq_append] at *
  have hi := (incr_lift _).2 h
  unfold ofPts
  rw [List.map_append, List.map_singleton] at hi ⊢
  rw [minmaxSeq_build hc _ _ hi, sufPts_snoc opK hid, List.map_append, List.map_singleton]
  rw [← suf_lift ho]
  rfl

theorem minmaxSeq_ge_pts {pts : List (K × K)} (h : Increasing pts) (hne : pts ≠ []) :
    minmaxSeq Sample.ge (ofPts pts) = .ok (ofPts (sufPts max pts)) :=
  minmaxSeq_pts selects_ge D.max_fin max_self h hne

theorem minmaxSeq_le_pts {pts : List (K × K)} (h : Increasing pts) (hne : pts ≠ []) :
    minmaxSeq Sample.le (ofPts pts) = .ok (ofPts (sufPts min pts)) :=
  minmaxSeq_pts selects_le D.min_fin min_self h hne

theorem sufPts_min (pts : List (K × K)) : sufPts min pts = negPts (sufPts max (negPts pts)) := by
  rcases List.eq_nil_or_concat pts with rfl | ⟨l, b, rfl⟩
  · rfl
  rw [List.concat_eq_append]
  have hs : ∀ (v : K) (l : List (K × K)), suf min v l = negPts (suf max (-v) (negPts l)) := by
    intro v l
    have hf : ∀ r : List (K × K), r.foldr (fun q w => min q.2 w) v =
        -((negPts r).foldr (fun q w => max q.2 w) (-v)) := by
      intro r
      induction r with
      | nil => simp [negPts]
      | cons p r ih =>
        simp only [negPts, List.map_cons, List.foldr_cons] at ih ⊢
        rw [ih]
        generalize List.foldr (fun (q : K × K) w => max q.2 w) (-v) (List.map (fun p => (p.1, -p.2)) r) = y
        rcases le_total (-p.2) y with h | h
        · rw [max_eq_right h, min_eq_right (by linarith)]
        · rw [max_eq_left h, min_eq_left (by linarith), neg_neg]
    induction l with
    | nil => rfl
    | cons p l ih =>
      rw [suf, hf, ih]
      simp only [negPts, List.map_cons, suf]
  rw [sufPts_snoc min min_self, hs]
  have : negPts (l ++ [b]) = negPts l ++ [(b.1, -b.2)] := by simp [negPts]
  rw [this, sufPts_snoc max max_self]
  simp [negPts]

/-! ### Values of the running maximum -/

theorem mem_dom_of_mem' {pts : List (K × K)} {p : K × K} (hp : p ∈ pts) : p.1 ∈ dom pts :=
  ⟨⟨p, hp, le_rfl⟩, ⟨p, hp, le_rfl⟩⟩


theorem foldr_max_ge (v : K) : ∀ (r : List (K × K)), v ≤ r.foldr (fun q w => max q.2 w) v ∧
    ∀ q ∈ r, q.2 ≤ r.foldr (fun q w => max q.2 w) v := by
  intro r
  induction r with
  | nil => simp
  | cons p r ih =>
    simp only [List.foldr_cons]
    exact ⟨ih.1.trans (le_max_right _ _), fun q hq => by
      rcases List.mem_cons.1 hq with rfl | hq
      · exact le_max_left _ _
      · exact (ih.2 q hq).trans (le_max_right _ _)⟩

theorem foldr_max_mem (v : K) : ∀ (r : List (K × K)), r.foldr (fun q w => max q.2 w) v = v ∨
    ∃ q ∈ r, r.foldr (fun q w => max q.2 w) v = q.2 := by
  intro r
  induction r with
  | nil => simp
  | cons p r ih =>
    simp only [List.foldr_cons]
    rcases max_choice p.2 (r.foldr (fun q w => max q.2 w) v) with h | h
    · exact .inr ⟨p, by simp, h⟩
    · rw [h]
      rcases ih with h' | ⟨q, hq, h'⟩
      · exact .inl h'
      · exact .inr ⟨q, by simp [hq], h'⟩

/-- The running maximum of a suffix. -/
def sufMax (pts : List (K × K)) : K := match pts.getLast? with
  | none => 0
  | some b => pts.foldr (fun q w => max q.2 w) b.2

theorem sufMax_ge {pts : List (K × K)} {q : K × K} (hq : q ∈ pts) : q.2 ≤ sufMax pts := by
  unfold sufMax
  split
  · rename_i h; rw [List.getLast?_eq_none_iff.1 h] at hq; simp at hq
  · exact (foldr_max_ge _ _).2 q hq

theorem sufMax_mem {pts : List (K × K)} (hne : pts ≠ []) : ∃ q ∈ pts, sufMax pts = q.2 := by
  unfold sufMax
  split
  · rename_i h; exact absurd (List.getLast?_eq_none_iff.1 h) hne
  · rename_i b h
    rcases foldr_max_mem b.2 pts with h' | h'
    · exact ⟨b, List.mem_of_getLast? h, h'⟩
    · exact h'

theorem sufMax_cons (p q : K × K) (r : List (K × K)) :
    sufMax (p :: q :: r) = max p.2 (sufMax (q :: r)) := by
  unfold sufMax
  rw [List.getLast?_cons_cons]
  cases h : (q :: r).getLast? with
  | none => simp at h
  | some b => simp

theorem sufPts_max_cons (p : K × K) (r : List (K × K)) :
    sufPts max (p :: r) = (p.1, sufMax (p :: r)) :: sufPts max r := by
  unfold sufPts sufMax
  cases r with
  | nil => simp [suf]
  | cons q r =>
    rw [List.getLast?_cons_cons]
    cases h : (q :: r).getLast? with
    | none => simp at h
    | some b => simp only [suf]

theorem sufPts_max_append (l r : List (K × K)) (hr : r ≠ []) : ∃ l', sufPts max (l ++ r) = l' ++ sufPts max r
    ∧ l'.map Prod.fst = l.map Prod.fst := by
  induction l with
  | nil => exact ⟨[], rfl, rfl⟩
  | cons p l ih =>
    obtain ⟨l', h, h'⟩ := ih
    rw [List.cons_append, sufPts_max_cons, h]
    exact ⟨(p.1, sufMax (p :: (l ++ r))) :: l', rfl, by simp [h']⟩

/-- A piecewise linear function does not exceed its largest sample. -/
theorem eval_le_of_forall {pts : List (K × K)} (h : Increasing pts) {t c : K} (ht : t ∈ dom pts)
    (hc : ∀ q ∈ pts, q.2 ≤ c) : eval pts t ≤ c := by
  rcases dom_cases h ht with ⟨p, rfl, rfl⟩ | ⟨l, p, q, r, rfl, h1, h2⟩
  · exact hc p (by simp)
  · rw [eval_seg l p q r h h1 h2]
    have hpq : p.1 < q.1 := (increasing_append.1 h).2.1 |> fun h => (increasing_cons.1 h).1 q (by simp)
    exact (line_le_max hpq h1 h2).trans (max_le (hc p (by simp)) (hc q (by simp)))

/-- The sample values of `sufPts max` are the greatest values of the operand from then on. -/
theorem sufPts_max_isGreatest {pts : List (K × K)} (h : Increasing pts) {z : K × K}
    (hz : z ∈ sufPts max pts) :
    IsGreatest {w | ∃ s ∈ dom pts, z.1 ≤ s ∧ w = eval pts s} z.2 := by
  obtain ⟨l, p, r, rfl, rfl⟩ : ∃ l p r, pts = l ++ p :: r ∧ z = (p.1, sufMax (p :: r)) := by
    clear h
    induction pts with
    | nil => simp [sufPts] at hz
    | cons p r ih =>
      rw [sufPts_max_cons] at hz
      rcases List.mem_cons.1 hz with rfl | hz
      · exact ⟨[], p, r, rfl, rfl⟩
      · obtain ⟨l, p', r', rfl, h⟩ := ih hz
        exact ⟨p :: l, p', r', rfl, h⟩
  have hr := (increasing_append.1 h).2.1
  constructor
  · obtain ⟨q, hq, e⟩ := sufMax_mem (pts := p :: r) (by simp)
    have hm : q ∈ l ++ p :: r := by simp at hq ⊢; right; exact hq
    refine ⟨q.1, mem_dom_of_mem' hm, ?_, ?_⟩
    · rcases List.mem_cons.1 hq with rfl | hq
      · exact le_rfl
      · exact ((increasing_cons.1 hr).1 q hq).le
    · rw [eval_mem h hm]; exact e
  · rintro w ⟨s, hs, hps, rfl⟩
    simp only at hps
    rw [eval_append_of_le l p r h hps]
    apply eval_le_of_forall hr _ (fun q hq => sufMax_ge hq)
    rw [dom_cons hr]
    refine ⟨hps, ?_⟩
    obtain ⟨q, hq, hsq⟩ := hs.2
    rcases List.mem_append.1 hq with hq | hq
    · exact ⟨p, by simp, hsq.trans ((increasing_append.1 h).2.2 q hq p (by simp)).le⟩
    · exact ⟨q, hq, hsq⟩

theorem line_antitone {p q : K × K} (h : p.1 < q.1) (hv : q.2 ≤ p.2) {s t : K} (hst : s ≤ t) :
    line p q t ≤ line p q s := by
  have hd : 0 < q.1 - p.1 := sub_pos.2 h
  have : (s - p.1) / (q.1 - p.1) ≤ (t - p.1) / (q.1 - p.1) := by
    apply div_le_div_of_nonneg_right _ hd.le; linarith
  simp only [line]
  nlinarith

/-- Non-increasing sample values. -/
def Falling (pts : List (K × K)) : Prop := (pts.map Prod.snd).Pairwise (· ≥ ·)

theorem eval_antitone {pts : List (K × K)} (h : Increasing pts) (hf : Falling pts) {s t : K}
    (hs : s ∈ dom pts) (ht : t ∈ dom pts) (hst : s ≤ t) : eval pts t ≤ eval pts s := by
  induction pts generalizing s t with
  | nil => simp [dom] at hs
  | cons p r ih =>
    cases r with
    | nil => simp [eval]
    | cons q r =>
      have hpq : p.1 < q.1 := (increasing_cons.1 h).1 q (by simp)
      have hf' : q.2 ≤ p.2 := by
        have := hf; unfold Falling at this
        simp only [List.map_cons, List.pairwise_cons] at this
        exact this.1 q.2 (by simp)
      have hft : Falling (q :: r) := by
        have := hf; unfold Falling at this ⊢
        rw [List.map_cons, List.pairwise_cons] at this; exact this.2
      have hi := (increasing_cons.1 h).2
      have hdom : ∀ u, q.1 ≤ u → u ∈ dom (p :: q :: r) → u ∈ dom (q :: r) := by
        intro u hu hd
        rw [dom_cons hi]
        refine ⟨hu, ?_⟩
        obtain ⟨q', hq', h'⟩ := hd.2
        rcases List.mem_cons.1 hq' with rfl | hq'
        · exact ⟨q, by simp, h'.trans hpq.le⟩
        · exact ⟨q', hq', h'⟩
      rcases le_total t q.1 with htq | htq
      · rw [eval, if_pos htq, eval, if_pos (hst.trans htq)]
        exact line_antitone hpq hf' hst
      · rw [eval_cons_of_le h htq]
        have ht' := hdom t htq ht
        rcases le_total s q.1 with hsq | hsq
        · have h1 := ih hi hft (mem_dom_of_mem' (p := q) (by simp)) ht' htq
          rw [eval_head q r hi] at h1
          rw [eval, if_pos hsq]
          have := line_antitone hpq hf' hsq
          rw [line_right hpq] at this
          exact h1.trans this
        · rw [eval_cons_of_le h hsq]
          exact ih hi hft (hdom s hsq hs) ht' hst

theorem falling_sufPts (pts : List (K × K)) : Falling (sufPts max pts) := by
  unfold Falling
  induction pts with
  | nil => simp [sufPts]
  | cons p r ih =>
    rw [sufPts_max_cons, List.map_cons, List.pairwise_cons]
    refine ⟨?_, ih⟩
    intro v hv
    have : ∀ r : List (K × K), ∀ v ∈ (sufPts max r).map Prod.snd, ∃ q ∈ r, v = q.2 := by
      intro r
      induction r with
      | nil => simp [sufPts]
      | cons q r ih2 =>
        intro v hv
        rw [sufPts_max_cons, List.map_cons, List.mem_cons] at hv
        rcases hv with rfl | hv
        · exact (sufMax_mem (pts := q :: r) (by simp)).imp fun _ h => h
        · obtain ⟨q', h, e⟩ := ih2 v hv
          exact ⟨q', by simp [h], e⟩
    obtain ⟨q, hq, rfl⟩ := this r v hv
    exact sufMax_ge (List.mem_cons_of_mem _ hq)

theorem eval_mono {xs zs : List (K × K)} (ht : xs.map Prod.fst = zs.map Prod.fst)
    (hv : List.Forall₂ (fun p q : K × K => p.2 ≤ q.2) xs zs) (h : Increasing xs) {t : K}
    (hd : t ∈ dom xs) : eval xs t ≤ eval zs t := by
  induction hv with
  | nil => simp [dom] at hd
  | @cons p q xs zs hpq hv ih =>
    simp only [List.map_cons, List.cons.injEq] at ht
    cases hv with
    | nil => exact hpq
    | @cons p' q' xs zs hpq' hv =>
      have hp : p.1 < p'.1 := (increasing_cons.1 h).1 p' (by simp)
      have ht' := ht.2
      simp only [List.map_cons, List.cons.injEq] at ht'
      rcases le_total t p'.1 with h1 | h1
      · rw [eval, if_pos h1, eval, if_pos (ht'.1 ▸ h1)]
        have := line_mono hp hpq hpq' (t := t) ((dom_cons h).1 hd).1 h1
        have e1 : q = (p.1, q.2) := by rw [ht.1]
        have e2 : q' = (p'.1, q'.2) := by rw [ht'.1]
        rw [e1, e2]; exact this
      · have hi := (increasing_cons.1 h).2
        have hz : Increasing (q :: q' :: zs) := by
          unfold Increasing at h ⊢
          simp only [List.map_cons] at h ⊢
          rw [← ht.1, ← ht'.1, ← ht'.2]; exact h
        rw [eval_cons_of_le h h1, eval_cons_of_le hz (ht'.1 ▸ h1)]
        apply ih ht.2 hi
        rw [dom_cons hi]
        refine ⟨h1, ?_⟩
        obtain ⟨a, ha, h'⟩ := hd.2
        rcases List.mem_cons.1 ha with rfl | ha
        · exact ⟨p', by simp, h'.trans hp.le⟩
        · exact ⟨a, ha, h'⟩

theorem sufPts_max_ge (xs : List (K × K)) :
    List.Forall₂ (fun p q : K × K => p.2 ≤ q.2) xs (sufPts max xs) := by
  induction xs with
  | nil => exact .nil
  | cons p r ih =>
    rw [sufPts_max_cons]
    exact .cons (sufMax_ge (List.mem_cons_self)) ih

theorem dom_of_fst {xs zs : List (K × K)} (h : xs.map Prod.fst = zs.map Prod.fst) : dom xs = dom zs := by
  have : ∀ l : List (K × K), dom l = {t | (∃ a ∈ l.map Prod.fst, a ≤ t) ∧ ∃ a ∈ l.map Prod.fst, t ≤ a} := by
    intro l; ext t; simp [dom]
  rw [this, this, h]

theorem dom_sufPts (opK : K → K → K) (xs : List (K × K)) : dom (sufPts opK xs) = dom xs :=
  dom_of_fst (sufPts_fst opK xs)

/-- Upper bound at all times. -/
theorem sufPts_max_bound {xs : List (K × K)} (h : Increasing xs) {s t : K} (hs : s ∈ dom xs)
    (ht : t ∈ dom xs) (hst : s ≤ t) : eval xs t ≤ eval (sufPts max xs) s :=
  (eval_mono (sufPts_fst _ _).symm (sufPts_max_ge xs) h ht).trans
    (eval_antitone (increasing_sufPts.2 h) (falling_sufPts xs) (by rwa [dom_sufPts])
      (by rwa [dom_sufPts]) hst)

/-- On the segment from `p` to `q` the result is the supremum at all times unless the operand falls
below a value `z` between both that is attained after `q`. -/
theorem sufPts_max_exact_seg {l r : List (K × K)} {p q : K × K} (h : Increasing (l ++ p :: q :: r)) :
    (∀ t, p.1 ≤ t → t ≤ q.1 → IsGreatest {w | ∃ s ∈ dom (l ++ p :: q :: r), t ≤ s ∧
        w = eval (l ++ p :: q :: r) s} (eval (sufPts max (l ++ p :: q :: r)) t)) ↔
      ¬ (q.2 < sufMax (q :: r) ∧ sufMax (q :: r) < p.2) := by
  have hpqr := (increasing_append.1 h).2.1
  have hqr := (increasing_cons.1 hpqr).2
  have hpq : p.1 < q.1 := (increasing_cons.1 hpqr).1 q (by simp)
  obtain ⟨l', hl', hlt⟩ := sufPts_max_append l (p :: q :: r) (by simp)
  have hz : Increasing (l' ++ sufPts max (p :: q :: r)) := by rw [← hl']; exact increasing_sufPts.2 h
  set V := sufMax (q :: r) with hV
  have hzc : sufPts max (p :: q :: r) = (p.1, max p.2 V) :: (q.1, V) :: sufPts max r := by
    rw [sufPts_max_cons, sufPts_max_cons, sufMax_cons]
  rw [hzc] at hz
  have hez : ∀ t, p.1 ≤ t → t ≤ q.1 → eval (sufPts max (l ++ p :: q :: r)) t =
      line (p.1, max p.2 V) (q.1, V) t := by
    intro t h1 h2
    rw [hl', hzc, eval_seg _ _ _ _ hz h1 h2]
  have hex : ∀ t, p.1 ≤ t → t ≤ q.1 → eval (l ++ p :: q :: r) t = line p q t :=
    fun t h1 h2 => eval_seg _ _ _ _ h h1 h2
  have hqV : q.2 ≤ V := sufMax_ge (by simp)
  have hVatt : ∃ s ∈ dom (l ++ p :: q :: r), q.1 ≤ s ∧ V = eval (l ++ p :: q :: r) s := by
    obtain ⟨u, hu, e⟩ := sufMax_mem (pts := q :: r) (by simp)
    have hm : u ∈ l ++ p :: q :: r := by simp at hu ⊢; tauto
    refine ⟨u.1, mem_dom_of_mem' hm, ?_, ?_⟩
    · rcases List.mem_cons.1 hu with rfl | hu
      · exact le_rfl
      · exact ((increasing_cons.1 hqr).1 u hu).le
    · rw [eval_mem h hm]; exact e
  have hVle : ∀ s ∈ dom (l ++ p :: q :: r), q.1 ≤ s → eval (l ++ p :: q :: r) s ≤ V := by
    have : (q.1, V) ∈ sufPts max (l ++ p :: q :: r) := by rw [hl', hzc]; simp
    intro s hs hqs
    exact (sufPts_max_isGreatest h this).2 ⟨s, hs, hqs, rfl⟩
  have hpdom : p.1 ∈ dom (l ++ p :: q :: r) := mem_dom_of_mem' (by simp)
  have hqdom : q.1 ∈ dom (l ++ p :: q :: r) := mem_dom_of_mem' (by simp)
  have hmid : ∀ t, p.1 ≤ t → t ≤ q.1 → t ∈ dom (l ++ p :: q :: r) := fun t h1 h2 =>
    ⟨⟨p, by simp, h1⟩, ⟨q, by simp, h2⟩⟩
  have hd : 0 < q.1 - p.1 := sub_pos.2 hpq
  constructor
  · rintro H ⟨h1, h2⟩
    -- take the time where the operand crosses the value V
    set w := (p.2 - V) / (p.2 - q.2) with hw
    have hpq2 : 0 < p.2 - q.2 := by linarith
    have w0 : 0 < w := div_pos (by linarith) hpq2
    have w1 : w < 1 := by rw [hw, div_lt_one hpq2]; linarith
    set t := p.1 + w * (q.1 - p.1) with ht
    have ht1 : p.1 ≤ t := by nlinarith
    have ht2 : t ≤ q.1 := by nlinarith
    have hwt : (t - p.1) / (q.1 - p.1) = w := by rw [ht]; field_simp; ring
    have hxt : line p q t = V := by
      simp only [line, hwt]; rw [hw]; field_simp; ring
    obtain ⟨s, hs, hts, e⟩ := (H t ht1 ht2).1
    rw [hez t ht1 ht2] at e
    have h3 : eval (l ++ p :: q :: r) s ≤ V := by
      rcases le_total q.1 s with h3 | h3
      · exact hVle s hs h3
      · rw [hex s (ht1.trans hts) h3, ← hxt]
        exact line_antitone hpq (by linarith) hts
    rw [← e] at h3
    simp only [line, max_eq_left h2.le, hwt] at h3
    nlinarith
  · intro H t h1 h2
    constructor
    · rw [hez t h1 h2]
      rcases le_or_gt p.2 V with h3 | h3
      · rw [max_eq_right h3]
        obtain ⟨s, hs, hqs, e⟩ := hVatt
        refine ⟨s, hs, h2.trans hqs, ?_⟩
        rw [← e]; simp [line]
      · have h4 : V = q.2 := by
          by_contra hne
          exact H ⟨lt_of_le_of_ne hqV (Ne.symm hne), h3⟩
        refine ⟨t, hmid t h1 h2, le_rfl, ?_⟩
        rw [hex t h1 h2, max_eq_left h3.le, h4]
    · rintro w ⟨s, hs, hts, rfl⟩
      exact sufPts_max_bound h (hmid t h1 h2) hs hts

end fin

theorem lift_injective {K : Type} : Function.Injective (lift (K := K)) := by
  rintro ⟨a, b⟩ ⟨c, d⟩ h
  simpa [lift] using h

/-! ### Unfolding `compute` -/

section
variable {K : Type} [Field K] [LinearOrder K] [Arith K] (r : RobustnessOp K)

theorem compute_not (e : Expr K) : r.compute (.not e) = r.compute e >>= RobustnessOp.negate := by
  rw [RobustnessOp.compute]
theorem compute_always (e : Expr K) (i : Interval K) : r.compute (.always e i) =
    r.compute e >>= fun y => r.temporal Sample.le y i := by
  rw [RobustnessOp.compute]
theorem compute_eventually (e : Expr K) (i : Interval K) : r.compute (.eventually e i) =
    r.compute e >>= fun y => r.temporal Sample.ge y i := by
  rw [RobustnessOp.compute]
theorem compute_untl (a b : Expr K) (i : Interval K) : r.compute (.untl a b i) =
    r.compute a >>= fun y1 => r.compute b >>= fun y2 => r.untilOp y1 y2 i := by
  rw [RobustnessOp.compute]

end

/-! ### Any rounding, any values -/

section any
variable {K : Type} [Field K] [LinearOrder K] [IsStrictOrderedRing K] [Arith K]

theorem temporal_default (r : RobustnessOp K) (comp : Cmp K) (y : Signal K)
    (h : y.endTime - y.beginTime ≠ .nan) : r.temporal comp y Interval.default = minmaxSeq comp y := by
  have e : ((.pinf : D K) - 0) = .pinf := rfl
  have h1 : (y.endTime - y.beginTime).le .pinf = true := by
    revert h; generalize y.endTime - y.beginTime = d
    cases d <;> simp [D.le, D.lt, D.eq]
  have hv : (Interval.default : Interval K).hasValue = true := by
    simp [Interval.default, Interval.hasValue, Interval.isZeroToInf, Interval.numIsZero,
      Interval.numAsDouble, D.isinf, D.zero_def]
  have ha : (Interval.default : Interval K).asDouble = (0, .pinf) := rfl
  unfold RobustnessOp.temporal
  simp only [hv, ha, e, h1]
  simp [D.lt, D.eq, D.zero_def]

theorem dmax_absorb (a b : D K) : D.max (D.max a b) b = D.max a b := by
  unfold D.max
  by_cases h : a.lt b = true
  · simp [h]
  · simp [h]

theorem dmin_absorb (a b : D K) : D.min (D.min a b) b = D.min a b := by
  unfold D.min
  by_cases h : b.lt a = true
  · simp [h]
  · simp [h]

theorem foldr_suf {T V : Type} {op : V → V → V} (ha : ∀ a b, op (op a b) b = op a b) (v : V) :
    ∀ r : List (T × V), (suf op v r).foldr (fun q w => op q.2 w) v = r.foldr (fun q w => op q.2 w) v := by
  intro r
  induction r with
  | nil => rfl
  | cons p r ih => simp only [suf, List.foldr_cons, ih, ha]

theorem suf_idem {T V : Type} {op : V → V → V} (ha : ∀ a b, op (op a b) b = op a b) (v : V) :
    ∀ r : List (T × V), suf op v (suf op v r) = suf op v r := by
  intro r
  induction r with
  | nil => rfl
  | cons p r ih =>
    rw [suf, suf, ih]
    congr 2
    simp only [List.foldr_cons, foldr_suf ha, ha]

/-- The unbounded operators are idempotent. -/
theorem minmaxSeq_idem {comp : Cmp K} {op : D K → D K → D K} (hc : Selects comp op)
    (ha : ∀ a b, op (op a b) b = op a b) {x z : Signal K} (hw : WF x) (h : minmaxSeq comp x = .ok z) :
    minmaxSeq comp z = .ok z := by
  obtain ⟨l, hl, rfl⟩ := (wf_iff x).1 hw
  rcases List.eq_nil_or_concat l with rfl | ⟨l, b, rfl⟩
  · simp [minmaxSeq, Signal.back] at h
  rw [List.concat_eq_append] at *
  rw [minmaxSeq_build hc l b hl] at h
  simp only [Outcome.ok.injEq] at h; subst h
  rw [minmaxSeq_build hc _ b ((incr_suf (by simp [suf_fst])).1 hl), suf_idem ha]

theorem minmaxSeq_duration {comp : Cmp K} {x z : Signal K} (h : minmaxSeq comp x = .ok z) :
    z.endTime = x.endTime ∧ z.beginTime = x.beginTime := by
  have ht := (minmaxSeq_times h).1
  have h1 : ∀ s : Signal K, s.beginTime = ((s.samples.map Sample.time).head?).getD 0 := by
    intro s; unfold Signal.beginTime; cases s.samples <;> rfl
  have h2 : ∀ s : Signal K, s.endTime = ((s.samples.map Sample.time).getLast?).getD 0 := by
    intro s; unfold Signal.endTime
    rw [List.getLast?_map]
    cases s.samples.getLast? <;> rfl
  exact ⟨by rw [h2, h2, ht], by rw [h1, h1, ht]⟩

/-- `R` holds between all earlier and later values of the result. -/
theorem suf_pairwise {T V : Type} {op : V → V → V} {ok : V → Prop} {R : V → V → Prop}
    (hop : ∀ a b, ok a → ok b → ok (op a b) ∧ R (op a b) b) (hrefl : ∀ a, ok a → R a a)
    (htr : ∀ a b c, R a b → R b c → R a c) (v : V) (hv : ok v) :
    ∀ l : List (T × V), (∀ p ∈ l, ok p.2) →
      ok (l.foldr (fun q w => op q.2 w) v) ∧ R (l.foldr (fun q w => op q.2 w) v) v ∧
      (∀ w ∈ (suf op v l).map Prod.snd, R (l.foldr (fun q w => op q.2 w) v) w ∧ R w v) ∧
      ((suf op v l).map Prod.snd).Pairwise R := by
  intro l
  induction l with
  | nil => intro _; exact ⟨hv, hrefl v hv, by simp [suf], by simp [suf]⟩
  | cons p l ih =>
    intro h
    obtain ⟨i1, i2, i3, i4⟩ := ih fun q hq => h q (by simp [hq])
    obtain ⟨o1, o2⟩ := hop p.2 _ (h p (by simp)) i1
    refine ⟨o1, htr _ _ _ o2 i2, ?_, ?_⟩
    · intro w hw
      rw [suf, List.map_cons, List.mem_cons] at hw
      rcases hw with rfl | hw
      · exact ⟨hrefl _ o1, htr _ _ _ o2 i2⟩
      · exact ⟨htr _ _ _ o2 (i3 w hw).1, (i3 w hw).2⟩
    · rw [suf, List.map_cons, List.pairwise_cons]
      exact ⟨fun w hw => htr _ _ _ o2 (i3 w hw).1, i4⟩

theorem minmaxSeq_pairwise {comp : Cmp K} {op : D K → D K → D K} (hc : Selects comp op)
    {R : D K → D K → Prop}
    (hop : ∀ a b, a ≠ .nan → b ≠ .nan → op a b ≠ .nan ∧ R (op a b) b) (hrefl : ∀ a, a ≠ .nan → R a a)
    (htr : ∀ a b c, R a b → R b c → R a c)
    {x z : Signal K} (hw : WF x) (hn : ∀ a ∈ x.samples, a.value ≠ .nan) (h : minmaxSeq comp x = .ok z) :
    (z.samples.map Sample.value).Pairwise R := by
  obtain ⟨l, hl, rfl⟩ := (wf_iff x).1 hw
  rcases List.eq_nil_or_concat l with rfl | ⟨l, b, rfl⟩
  · simp [minmaxSeq, Signal.back] at h
  rw [List.concat_eq_append] at *
  rw [minmaxSeq_build hc l b hl] at h
  simp only [Outcome.ok.injEq] at h; subst h
  have hv : ∀ l : List (D K × D K), (build l).map Sample.value = l.map Prod.snd := by
    intro l
    have := congrArg (List.map Prod.snd) (build_map_tv l)
    rw [List.map_map] at this
    exact this
  have hn' : ∀ p ∈ l ++ [b], p.2 ≠ .nan := by
    intro p hp
    have : p.2 ∈ (build (l ++ [b])).map Sample.value := by rw [hv]; exact List.mem_map_of_mem hp
    obtain ⟨a, ha, e⟩ := List.mem_map.1 this
    rw [← e]; exact hn a ha
  rw [hv]
  obtain ⟨-, -, h3, h4⟩ := suf_pairwise (ok := (· ≠ .nan)) hop hrefl htr b.2 (hn' b (by simp)) l
    (fun p hp => hn' p (by simp [hp]))
  rw [List.map_append, List.pairwise_append]
  exact ⟨h4, by simp, fun a ha c hc' => by simp at hc'; subst hc'; exact (h3 a ha).2⟩

end any

end Verif
