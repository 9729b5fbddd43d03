import Verif.Proofs.Const
import Verif.Proofs.Until
import Verif.Proofs.Future

/-! # Until with a Boolean constant -/

set_option linter.unusedSectionVars false

namespace Verif
open Spec

section any
variable {K : Type} [Field K] [LinearOrder K] [IsStrictOrderedRing K] [Arith K]

/-- The result of the loop on synchronised signals. -/
theorem until_sync_tv {nd : Bool} {x y x' y' : Signal K} (hx : FinT x) (hy : FinT y)
    (h : synchronize x y = .ok (x', y')) :
    ∃ z, computeUntil nd x y = .ok z ∧ z.samples.map tv =
      (suf uStep (.pinf, .ninf) (List.zipWith (fun i j : Sample K => (i.time, (i.value, j.value)))
        x'.samples y'.samples)).map fun p => (p.1, p.2.1) := by
  obtain ⟨hs, hwf, -⟩ := synchronize_synced hx hy h
  have hl := synced_length _ _ hs
  have e := untilLoop_tv x'.samples.reverse y'.samples.reverse (.pinf, .ninf) (by simp [hl])
  rw [← List.reverse_zipWith hl, List.reverse_reverse] at e
  have ht := untilLoop_times x'.samples.reverse y'.samples.reverse .pinf .ninf (by simp [hl])
  refine ⟨⟨build ((untilLoop .pinf .ninf x'.samples.reverse y'.samples.reverse).reverse.map tv)⟩, ?_, ?_⟩
  · rw [computeUntil_finT nd hx hy, h, Outcome.bind_ok, ofSamples_ok_iff]
    refine ⟨?_, rfl⟩
    refine incr_of_fst (l := x'.samples.map tv) ?_ ((ordered_iff _).1 hwf.1)
    have e1 : ∀ l : List (Sample K), (l.map tv).map Prod.fst = l.map Sample.time := fun l => by
      rw [List.map_map]; rfl
    rw [e1, e1, List.map_reverse, ht, List.map_reverse, List.reverse_reverse]
  · rw [build_map_tv]; exact e

theorem untilSuf_getElem {T V : Type} {op : V → V → V} (v : V) : ∀ (l : List (T × V)) (k : Nat) (hk : k < l.length)
    (hk' : k < (suf op v l).length),
    (suf op v l)[k] = (l[k].1, (l.drop k).foldr (fun q w => op q.2 w) v)
  | [], k, hk, _ => by simp at hk
  | p :: r, 0, hk, _ => by simp [suf]
  | p :: r, k + 1, hk, hk' => by
    simp only [suf, List.getElem_cons_succ, List.drop_succ_cons]
    exact untilSuf_getElem v r k (by simpa using hk) _

/-- The state of the loop over samples with the constant on the left: NaN between the ends. -/
theorem foldr_left (c w : D K) (hc : c = .pinf ∨ c = .ninf) (hw : w ≠ .nan) (z : D K) :
    ∀ mid : List (D K × D K), (∀ p ∈ mid, p.2 ≠ .nan) →
    ∃ m, (mid.map (fun p => (p.1, ((.nan : D K), p.2))) ++ [(z, (c, w))]).foldr (fun q u => uStep q.2 u)
        (.pinf, .ninf) = (match mid with
          | [] => if c = .pinf then .pinf else D.max w (-m)
          | p :: _ => D.max p.2 (-m), m) ∧
      (m ∈ (mid.map Prod.snd ++ [w]) ∧ ∀ u ∈ mid.map Prod.snd ++ [w], u.le m = true)
  | [], _ => by
    refine ⟨w, ?_, by simp, by simpa using D.le_refl hw⟩
    rcases hc with rfl | rfl <;> cases w <;> simp_all [uStep, D.max, D.min, D.lt]
  | p :: mid, h => by
    obtain ⟨m, e, h1, h2⟩ := foldr_left c w hc hw z mid fun q hq => h q (by simp [hq])
    have hp := h p (by simp)
    have hm : m ≠ .nan := by
      rcases List.mem_append.1 h1 with h1 | h1
      · obtain ⟨q, hq, rfl⟩ := List.mem_map.1 h1; exact h q (by simp [hq])
      · rw [List.mem_singleton.1 h1]; exact hw
    refine ⟨D.max m p.2, ?_, ?_, ?_⟩
    · rw [List.map_cons, List.cons_append, List.foldr_cons, e]
      have : ∀ a : D K, D.max p.2 (D.min .nan a) = p.2 := by
        intro a; cases a <;> cases p.2 <;> simp [D.max, D.min, D.lt]
      simp only [uStep, this]
    · rcases D.max_eq_or m p.2 with e | e <;> rw [e]
      · simp only [List.map_cons, List.cons_append]; exact List.mem_cons_of_mem _ h1
      · simp
    · intro u hu
      simp only [List.map_cons, List.cons_append, List.mem_cons] at hu
      rcases hu with rfl | hu
      · exact D.le_max_right hm hp
      · exact D.le_trans (h2 u hu) (D.le_max_left hm)

/-- With the constant on the right. -/
theorem foldr_right (c w : D K) (hc : c = .pinf ∨ c = .ninf) (z : D K) :
    ∀ mid : List (D K × D K),
    (mid.map (fun p => (p.1, (p.2, (.nan : D K)))) ++ [(z, (w, c))]).foldr (fun q u => uStep q.2 u)
        (.pinf, .ninf) = (match mid with
          | [] => .pinf
          | _ :: _ => .nan, c)
  | [] => by rcases hc with rfl | rfl <;> cases w <;> simp [uStep, D.max, D.min, D.lt]
  | p :: mid => by
    rw [List.map_cons, List.cons_append, List.foldr_cons, foldr_right c w hc z mid]
    rcases hc with rfl | rfl <;> simp [uStep, D.max, D.lt]

end any
end Verif
