import Verif.Proofs.Laws
import Verif.Props.Keep

/-!
# Laws of Eventually and Always: C89
-/

set_option linter.unusedSectionVars false

namespace Verif
open Spec

section exact
variable {K : Type} [Field K] [LinearOrder K] [IsStrictOrderedRing K] [Arith K] [ExactArith K]

/-- The statement "Always distributes over And", where `R` relates the value of `G φ ∧ G ψ` (left) to that of
`G (φ ∧ ψ)`, at all instants. -/
def AlwaysAnd (K : Type) [Field K] [LinearOrder K] [Arith K] (R : K → K → Prop) : Prop :=
  ∀ (phi psi : Expr K) (trace : Trace K) (x y z w : Signal K) (xs ys zs ws : List (K × K)),
    computeRobustness false 0 phi trace false = .ok x → Represents x xs →
    computeRobustness false 0 psi trace false = .ok y → Represents y ys → dom xs = dom ys →
    computeRobustness false 0 (.and [.Always phi, .Always psi]) trace false = .ok w → Represents w ws →
    computeRobustness false 0 (.Always (.and [phi, psi])) trace false = .ok z → Represents z zs →
    ∀ t ∈ dom zs, R (eval ws t) (eval zs t)

/-- The statement "Eventually distributes over Or", likewise. -/
def EventuallyOr (K : Type) [Field K] [LinearOrder K] [Arith K] (R : K → K → Prop) : Prop :=
  ∀ (phi psi : Expr K) (trace : Trace K) (x y z w : Signal K) (xs ys zs ws : List (K × K)),
    computeRobustness false 0 phi trace false = .ok x → Represents x xs →
    computeRobustness false 0 psi trace false = .ok y → Represents y ys → dom xs = dom ys →
    computeRobustness false 0 (.or [.Eventually phi, .Eventually psi]) trace false = .ok w → Represents w ws →
    computeRobustness false 0 (.Eventually (.or [phi, psi])) trace false = .ok z → Represents z zs →
    ∀ t ∈ dom zs, R (eval ws t) (eval zs t)

/-- **C89, what holds of `G (φ ∧ ψ) = G φ ∧ G ψ`.** For operands with a common start both sides evaluate, on the
common domain; at the samples of `G (φ ∧ ψ)` the right side is at most the left side; and if both operands have
the same domain, both sides agree at every instant that is a timestamp of both operands.  (Missing: equality at
all instants, which is false.) -/
theorem C89_always_and_partial (nd : Bool) (fuel : Nat) (phi psi : Expr K) (trace : Trace K) (sy : Bool) (t0 : K)
    (x y : Signal K) (xs ys : List (K × K))
    (h1 : computeRobustness nd fuel phi trace sy = .ok x) (hx : Represents x xs) (sx : ∃ v r, xs = (t0, v) :: r)
    (h2 : computeRobustness nd fuel psi trace sy = .ok y) (hy : Represents y ys) (sy' : ∃ v r, ys = (t0, v) :: r) :
    ∃ z w zs ws, computeRobustness nd fuel (.Always (.and [phi, psi])) trace sy = .ok z ∧ Represents z zs ∧
      computeRobustness nd fuel (.and [.Always phi, .Always psi]) trace sy = .ok w ∧ Represents w ws ∧
      dom zs = dom xs ∩ dom ys ∧ dom ws = dom xs ∩ dom ys ∧
      (∀ t ∈ zs.map Prod.fst, eval ws t ≤ eval zs t) ∧
      (dom xs = dom ys → ∀ t, t ∈ xs.map Prod.fst → t ∈ ys.map Prod.fst → eval ws t = eval zs t) := by
  have ix := ((represents_iff _ _).1 hx).1
  have iy := ((represents_iff _ _).1 hy).1
  have nx : xs ≠ [] := by obtain ⟨v, r, rfl⟩ := sx; simp
  have ny : ys ≠ [] := by obtain ⟨v, r, rfl⟩ := sy'; simp
  obtain ⟨⟨cs, ec, ic, nc, dc, vc, k1, k2⟩, -⟩ := pair_at h1 hx sx h2 hy sy'
  have a1 := (eventually_fin h1 hx nx _ default_high).2
  have a2 := (eventually_fin h2 hy ny _ default_high).2
  have a3 := (eventually_fin ec (represents_ofPts ic) nc _ default_high).2
  obtain ⟨⟨ws, ew, iw, nw, dw, vw, -⟩, -⟩ := pair_at a1 (represents_ofPts (increasing_sufPts.2 ix))
    (startsAt_sufPts sx) a2 (represents_ofPts (increasing_sufPts.2 iy)) (startsAt_sufPts sy')
  simp only [dom_sufPts] at dw
  have iz : Increasing (sufPts min cs) := increasing_sufPts.2 ic
  have hle : ∀ t ∈ (sufPts min cs).map Prod.fst, eval ws t ≤ eval (sufPts min cs) t := by
    intro t ht
    obtain ⟨p, hp, rfl⟩ := List.mem_map.1 ht
    obtain ⟨⟨s, hs, hts, e⟩, -⟩ := sufPts_min_isLeast ic hp
    have hpd : p.1 ∈ dom cs := by
      have := mem_dom_of_mem' hp
      rwa [dom_sufPts] at this
    obtain ⟨d1, d2⟩ := (dc _).1 hpd
    obtain ⟨e1, e2⟩ := (dc _).1 hs
    rw [eval_mem iz hp, e, vc s hs, vw p.1 ((dw _).2 ⟨d1, d2⟩)]
    exact le_min ((min_le_left _ _).trans (sufPts_min_bound ix d1 e1 hts))
      ((min_le_right _ _).trans (sufPts_min_bound iy d2 e2 hts))
  refine ⟨_, _, sufPts min cs, ws, a3, represents_ofPts iz, ew, represents_ofPts iw, ?_, ?_, hle, ?_⟩
  · rw [dom_sufPts]; ext t; exact dc t
  · ext t; exact dw t
  · intro hd t tx ty
    have hdt : t ∈ dom cs := (dc t).2 ⟨mem_dom_of_mem tx, mem_dom_of_mem ty⟩
    refine le_antisymm (hle t (by rw [sufPts_fst]; exact k1 t tx hdt)) ?_
    rw [vw t ((dw t).2 ((dc t).1 hdt))]
    refine le_min ?_ ?_
    · obtain ⟨p, hp, rfl⟩ := List.mem_map.1 (by rw [sufPts_fst]; exact tx : t ∈ (sufPts min xs).map Prod.fst)
      obtain ⟨⟨s, hs, hts, e⟩, -⟩ := sufPts_min_isLeast ix hp
      have hsc : s ∈ dom cs := (dc s).2 ⟨hs, hd ▸ hs⟩
      rw [eval_mem (increasing_sufPts.2 ix) hp, e]
      exact (sufPts_min_bound ic hdt hsc hts).trans (by rw [vc s hsc]; exact min_le_left _ _)
    · obtain ⟨p, hp, rfl⟩ := List.mem_map.1 (by rw [sufPts_fst]; exact ty : t ∈ (sufPts min ys).map Prod.fst)
      obtain ⟨⟨s, hs, hts, e⟩, -⟩ := sufPts_min_isLeast iy hp
      have hsc : s ∈ dom cs := (dc s).2 ⟨hd ▸ hs, hs⟩
      rw [eval_mem (increasing_sufPts.2 iy) hp, e]
      exact (sufPts_min_bound ic hdt hsc hts).trans (by rw [vc s hsc]; exact min_le_right _ _)

/-- **C89, what holds of `F (φ ∨ ψ) = F φ ∨ F ψ`:** dually. -/
theorem C89_eventually_or_partial (nd : Bool) (fuel : Nat) (phi psi : Expr K) (trace : Trace K) (sy : Bool) (t0 : K)
    (x y : Signal K) (xs ys : List (K × K))
    (h1 : computeRobustness nd fuel phi trace sy = .ok x) (hx : Represents x xs) (sx : ∃ v r, xs = (t0, v) :: r)
    (h2 : computeRobustness nd fuel psi trace sy = .ok y) (hy : Represents y ys) (sy' : ∃ v r, ys = (t0, v) :: r) :
    ∃ z w zs ws, computeRobustness nd fuel (.Eventually (.or [phi, psi])) trace sy = .ok z ∧ Represents z zs ∧
      computeRobustness nd fuel (.or [.Eventually phi, .Eventually psi]) trace sy = .ok w ∧ Represents w ws ∧
      dom zs = dom xs ∩ dom ys ∧ dom ws = dom xs ∩ dom ys ∧
      (∀ t ∈ zs.map Prod.fst, eval zs t ≤ eval ws t) ∧
      (dom xs = dom ys → ∀ t, t ∈ xs.map Prod.fst → t ∈ ys.map Prod.fst → eval ws t = eval zs t) := by
  have ix := ((represents_iff _ _).1 hx).1
  have iy := ((represents_iff _ _).1 hy).1
  have nx : xs ≠ [] := by obtain ⟨v, r, rfl⟩ := sx; simp
  have ny : ys ≠ [] := by obtain ⟨v, r, rfl⟩ := sy'; simp
  obtain ⟨-, ⟨cs, ec, ic, nc, dc, vc, k1, k2⟩⟩ := pair_at h1 hx sx h2 hy sy'
  have a1 := (eventually_fin h1 hx nx _ default_high).1
  have a2 := (eventually_fin h2 hy ny _ default_high).1
  have a3 := (eventually_fin ec (represents_ofPts ic) nc _ default_high).1
  obtain ⟨-, ⟨ws, ew, iw, nw, dw, vw, -⟩⟩ := pair_at a1 (represents_ofPts (increasing_sufPts.2 ix))
    (startsAt_sufPts sx) a2 (represents_ofPts (increasing_sufPts.2 iy)) (startsAt_sufPts sy')
  simp only [dom_sufPts] at dw
  have iz : Increasing (sufPts max cs) := increasing_sufPts.2 ic
  have hle : ∀ t ∈ (sufPts max cs).map Prod.fst, eval (sufPts max cs) t ≤ eval ws t := by
    intro t ht
    obtain ⟨p, hp, rfl⟩ := List.mem_map.1 ht
    obtain ⟨⟨s, hs, hts, e⟩, -⟩ := sufPts_max_isGreatest ic hp
    have hpd : p.1 ∈ dom cs := by
      have := mem_dom_of_mem' hp
      rwa [dom_sufPts] at this
    obtain ⟨d1, d2⟩ := (dc _).1 hpd
    obtain ⟨e1, e2⟩ := (dc _).1 hs
    rw [eval_mem iz hp, e, vc s hs, vw p.1 ((dw _).2 ⟨d1, d2⟩)]
    exact max_le ((sufPts_max_bound ix d1 e1 hts).trans (le_max_left _ _))
      ((sufPts_max_bound iy d2 e2 hts).trans (le_max_right _ _))
  refine ⟨_, _, sufPts max cs, ws, a3, represents_ofPts iz, ew, represents_ofPts iw, ?_, ?_, hle, ?_⟩
  · rw [dom_sufPts]; ext t; exact dc t
  · ext t; exact dw t
  · intro hd t tx ty
    have hdt : t ∈ dom cs := (dc t).2 ⟨mem_dom_of_mem tx, mem_dom_of_mem ty⟩
    refine le_antisymm ?_ (hle t (by rw [sufPts_fst]; exact k1 t tx hdt))
    rw [vw t ((dw t).2 ((dc t).1 hdt))]
    refine max_le ?_ ?_
    · obtain ⟨p, hp, rfl⟩ := List.mem_map.1 (by rw [sufPts_fst]; exact tx : t ∈ (sufPts max xs).map Prod.fst)
      obtain ⟨⟨s, hs, hts, e⟩, -⟩ := sufPts_max_isGreatest ix hp
      have hsc : s ∈ dom cs := (dc s).2 ⟨hs, hd ▸ hs⟩
      rw [eval_mem (increasing_sufPts.2 ix) hp, e]
      exact (by rw [vc s hsc]; exact le_max_left _ _ : eval xs s ≤ eval cs s).trans (sufPts_max_bound ic hdt hsc hts)
    · obtain ⟨p, hp, rfl⟩ := List.mem_map.1 (by rw [sufPts_fst]; exact ty : t ∈ (sufPts max ys).map Prod.fst)
      obtain ⟨⟨s, hs, hts, e⟩, -⟩ := sufPts_max_isGreatest iy hp
      have hsc : s ∈ dom cs := (dc s).2 ⟨hd ▸ hs, hs⟩
      rw [eval_mem (increasing_sufPts.2 iy) hp, e]
      exact (by rw [vc s hsc]; exact le_max_right _ _ : eval ys s ≤ eval cs s).trans (sufPts_max_bound ic hdt hsc hts)

/-- **C89.** `G φ ∨ G ψ` is at most `G (φ ∨ ψ)`, at every instant, also between the samples. -/
theorem C89_always_or (nd : Bool) (fuel : Nat) (phi psi : Expr K) (trace : Trace K) (sy : Bool) (t0 : K)
    (x y : Signal K) (xs ys : List (K × K))
    (h1 : computeRobustness nd fuel phi trace sy = .ok x) (hx : Represents x xs) (sx : ∃ v r, xs = (t0, v) :: r)
    (h2 : computeRobustness nd fuel psi trace sy = .ok y) (hy : Represents y ys) (sy' : ∃ v r, ys = (t0, v) :: r) :
    ∃ z w zs ws, computeRobustness nd fuel (.Always (.or [phi, psi])) trace sy = .ok z ∧ Represents z zs ∧
      computeRobustness nd fuel (.or [.Always phi, .Always psi]) trace sy = .ok w ∧ Represents w ws ∧
      dom zs = dom xs ∩ dom ys ∧ dom ws = dom xs ∩ dom ys ∧ ∀ t ∈ dom zs, eval ws t ≤ eval zs t := by
  have ix := ((represents_iff _ _).1 hx).1
  have iy := ((represents_iff _ _).1 hy).1
  have nx : xs ≠ [] := by obtain ⟨v, r, rfl⟩ := sx; simp
  have ny : ys ≠ [] := by obtain ⟨v, r, rfl⟩ := sy'; simp
  obtain ⟨-, ⟨cs, ec, ic, nc, dc, vc, k1, k2⟩⟩ := pair_at h1 hx sx h2 hy sy'
  have a1 := (eventually_fin h1 hx nx _ default_high).2
  have a2 := (eventually_fin h2 hy ny _ default_high).2
  have a3 := (eventually_fin ec (represents_ofPts ic) nc _ default_high).2
  obtain ⟨-, ⟨ws, ew, iw, nw, dw, vw, -⟩⟩ := pair_at a1 (represents_ofPts (increasing_sufPts.2 ix))
    (startsAt_sufPts sx) a2 (represents_ofPts (increasing_sufPts.2 iy)) (startsAt_sufPts sy')
  simp only [dom_sufPts] at dw
  have iz : Increasing (sufPts min cs) := increasing_sufPts.2 ic
  have key : ∀ (as : List (K × K)), Increasing as → (∀ t ∈ dom cs, t ∈ dom as) →
      (∀ t ∈ dom cs, eval as t ≤ eval cs t) → (∀ t ∈ as.map Prod.fst, t ∈ dom cs → t ∈ cs.map Prod.fst) →
      ∀ t ∈ dom cs, eval (sufPts min as) t ≤ eval (sufPts min cs) t := by
    intro as ia hd hv hk t ht
    refine le_of_samples (increasing_sufPts.2 ia) iz ?_ ?_ ?_ (by rwa [dom_sufPts])
    · intro t ht; rw [dom_sufPts] at ht ⊢; exact hd t ht
    · intro t ht htd; rw [sufPts_fst] at ht ⊢; rw [dom_sufPts] at htd; exact hk t ht htd
    · intro p hp
      obtain ⟨⟨s, hs, hts, e⟩, -⟩ := sufPts_min_isLeast ic hp
      have hpd : p.1 ∈ dom cs := by
        have := mem_dom_of_mem' hp
        rwa [dom_sufPts] at this
      rw [e]
      exact (sufPts_min_bound ia (hd _ hpd) (hd _ hs) hts).trans (hv s hs)
  refine ⟨_, _, sufPts min cs, ws, a3, represents_ofPts iz, ew, represents_ofPts iw, ?_, ?_, ?_⟩
  · rw [dom_sufPts]; ext t; exact dc t
  · ext t; exact dw t
  · intro t ht
    rw [dom_sufPts] at ht
    rw [vw t ((dw t).2 ((dc t).1 ht))]
    refine max_le (key xs ix (fun t ht => ((dc t).1 ht).1) (fun t ht => ?_) k1 t ht)
      (key ys iy (fun t ht => ((dc t).1 ht).2) (fun t ht => ?_) k2 t ht)
    · rw [vc t ht]; exact le_max_left _ _
    · rw [vc t ht]; exact le_max_right _ _

/-- **C89.** `F (φ ∧ ψ)` is at most `F φ ∧ F ψ`, at every instant, also between the samples. -/
theorem C89_eventually_and (nd : Bool) (fuel : Nat) (phi psi : Expr K) (trace : Trace K) (sy : Bool) (t0 : K)
    (x y : Signal K) (xs ys : List (K × K))
    (h1 : computeRobustness nd fuel phi trace sy = .ok x) (hx : Represents x xs) (sx : ∃ v r, xs = (t0, v) :: r)
    (h2 : computeRobustness nd fuel psi trace sy = .ok y) (hy : Represents y ys) (sy' : ∃ v r, ys = (t0, v) :: r) :
    ∃ z w zs ws, computeRobustness nd fuel (.Eventually (.and [phi, psi])) trace sy = .ok z ∧ Represents z zs ∧
      computeRobustness nd fuel (.and [.Eventually phi, .Eventually psi]) trace sy = .ok w ∧ Represents w ws ∧
      dom zs = dom xs ∩ dom ys ∧ dom ws = dom xs ∩ dom ys ∧ ∀ t ∈ dom zs, eval zs t ≤ eval ws t := by
  have ix := ((represents_iff _ _).1 hx).1
  have iy := ((represents_iff _ _).1 hy).1
  have nx : xs ≠ [] := by obtain ⟨v, r, rfl⟩ := sx; simp
  have ny : ys ≠ [] := by obtain ⟨v, r, rfl⟩ := sy'; simp
  obtain ⟨⟨cs, ec, ic, nc, dc, vc, k1, k2⟩, -⟩ := pair_at h1 hx sx h2 hy sy'
  have a1 := (eventually_fin h1 hx nx _ default_high).1
  have a2 := (eventually_fin h2 hy ny _ default_high).1
  have a3 := (eventually_fin ec (represents_ofPts ic) nc _ default_high).1
  obtain ⟨⟨ws, ew, iw, nw, dw, vw, -⟩, -⟩ := pair_at a1 (represents_ofPts (increasing_sufPts.2 ix))
    (startsAt_sufPts sx) a2 (represents_ofPts (increasing_sufPts.2 iy)) (startsAt_sufPts sy')
  simp only [dom_sufPts] at dw
  have iz : Increasing (sufPts max cs) := increasing_sufPts.2 ic
  have key : ∀ (as : List (K × K)), Increasing as → (∀ t ∈ dom cs, t ∈ dom as) →
      (∀ t ∈ dom cs, eval cs t ≤ eval as t) → (∀ t ∈ as.map Prod.fst, t ∈ dom cs → t ∈ cs.map Prod.fst) →
      ∀ t ∈ dom cs, eval (sufPts max cs) t ≤ eval (sufPts max as) t := by
    intro as ia hd hv hk t ht
    have h : eval (negPts (sufPts max as)) t ≤ eval (negPts (sufPts max cs)) t := by
      refine le_of_samples (increasing_negPts.2 (increasing_sufPts.2 ia)) (increasing_negPts.2 iz) ?_ ?_ ?_
        (by rwa [dom_negPts, dom_sufPts])
      · intro t ht; rw [dom_negPts, dom_sufPts] at ht ⊢; exact hd t ht
      · intro t ht htd; rw [negPts_times, sufPts_fst] at ht ⊢; rw [dom_negPts, dom_sufPts] at htd; exact hk t ht htd
      · intro q hq
        obtain ⟨p, hp, rfl⟩ := List.mem_map.1 hq
        obtain ⟨⟨s, hs, hts, e⟩, -⟩ := sufPts_max_isGreatest ic hp
        have hpd : p.1 ∈ dom cs := by
          have := mem_dom_of_mem' hp
          rwa [dom_sufPts] at this
        rw [eval_negPts]
        simp only [e]
        exact neg_le_neg ((hv s hs).trans (sufPts_max_bound ia (hd _ hpd) (hd _ hs) hts))
    rw [eval_negPts, eval_negPts] at h
    exact neg_le_neg_iff.1 h
  refine ⟨_, _, sufPts max cs, ws, a3, represents_ofPts iz, ew, represents_ofPts iw, ?_, ?_, ?_⟩
  · rw [dom_sufPts]; ext t; exact dc t
  · ext t; exact dw t
  · intro t ht
    rw [dom_sufPts] at ht
    rw [vw t ((dw t).2 ((dc t).1 ht))]
    refine le_min (key xs ix (fun t ht => ((dc t).1 ht).1) (fun t ht => ?_) k1 t ht)
      (key ys iy (fun t ht => ((dc t).1 ht).2) (fun t ht => ?_) k2 t ht)
    · rw [vc t ht]; exact min_le_left _ _
    · rw [vc t ht]; exact min_le_right _ _

end exact

section any
variable {K : Type} [Field K] [LinearOrder K] [IsStrictOrderedRing K] [Arith K] [SaneArith K]

/-- **C89.** On finite traces "infinitely often" and "from some time on" both mean "at the end": `G F φ` and
`F G φ` have the timestamps of `φ` and everywhere the last value of `φ`.  With any rounding. -/
theorem C89_final (nd : Bool) (fuel : Nat) (phi : Expr K) (trace : Trace K) (sy : Bool) (ht : FiniteTimes trace)
    (y : Signal K) (h : computeRobustness nd fuel phi trace sy = .ok y)
    (hn : ∀ a ∈ y.samples, a.value ≠ .nan) (l : List (Sample K)) (b : Sample K) (hb : y.samples = l ++ [b]) :
    ∃ z w, computeRobustness nd fuel (.Always (.Eventually phi)) trace sy = .ok z ∧
      computeRobustness nd fuel (.Eventually (.Always phi)) trace sy = .ok w ∧
      z.samples.map tv = y.samples.map (fun a => (a.time, b.value)) ∧
      w.samples.map tv = y.samples.map (fun a => (a.time, b.value)) := by
  have hne : y.samples ≠ [] := by rw [hb]; simp
  have ext : ∀ z : Signal K, z.samples.map Sample.time = y.samples.map Sample.time →
      (∀ a ∈ z.samples, a.value = b.value) → z.samples.map tv = y.samples.map (fun a => (a.time, b.value)) := by
    intro z h1 h2
    have : z.samples.map tv = (z.samples.map Sample.time).map fun t => (t, b.value) := by
      rw [List.map_map]; exact List.map_congr_left fun a ha => by simp [tv, h2 a ha]
    rw [this, h1, List.map_map]; rfl
  have last : ∀ z : Signal K, z.samples.map Sample.time = y.samples.map Sample.time → z.samples ≠ [] :=  by
    intro z h1 e; rw [e, hb] at h1; simp at h1
  have val : ∀ z : Signal K, (hl : z.samples.length = y.samples.length) →
      (∀ k (hk : k < z.samples.length), ∃ s ∈ y.samples.drop k, z.samples[k].value = s.value) →
      (∀ a ∈ z.samples, a.value ≠ .nan) ∧ ∃ l' c, z.samples = l' ++ [c] ∧ c.value = b.value := by
    intro z hl hv
    constructor
    · intro a ha
      obtain ⟨k, hk, rfl⟩ := List.getElem_of_mem ha
      obtain ⟨s, hs, e⟩ := hv k hk
      rw [e]; exact hn s (List.mem_of_mem_drop hs)
    · rcases List.eq_nil_or_concat z.samples with e | ⟨l', c, e⟩
      · rw [e, hb] at hl; simp at hl
      · rw [List.concat_eq_append] at e
        refine ⟨l', c, e, ?_⟩
        have hll : l'.length = l.length := by rw [e, hb] at hl; simpa using hl
        obtain ⟨s, hs, e'⟩ := hv l'.length (by rw [e]; simp)
        rw [hb, hll, List.drop_left, List.mem_singleton] at hs
        subst hs
        simpa [e] using e'
  have fin : ∀ (u z : Signal K) (le : D K → D K → Bool), (∀ a b : D K, a ≠ .nan → b ≠ .nan → le a b = true → le b a = true → a = b) →
      (∀ a ∈ u.samples, a.value ≠ .nan ∧ le b.value a.value = true) → (∃ l' c, u.samples = l' ++ [c] ∧ c.value = b.value) →
      z.samples.length = u.samples.length →
      (∀ k (hk : k < z.samples.length), (∃ s ∈ u.samples.drop k, z.samples[k].value = s.value) ∧
        ∀ s ∈ u.samples.drop k, le z.samples[k].value s.value = true) → ∀ a ∈ z.samples, a.value = b.value := by
    intro u z le anti hu hc hl hv a ha
    obtain ⟨k, hk, rfl⟩ := List.getElem_of_mem ha
    obtain ⟨⟨s, hs, e⟩, h2⟩ := hv k hk
    obtain ⟨l', c, eu, ec⟩ := hc
    have h3 := h2 c (by
      rw [hl, eu] at hk
      rw [eu, List.drop_append]
      simp at hk
      have : k - l'.length = 0 := by omega
      simp [this])
    have h4 := hu s (List.mem_of_mem_drop hs)
    have h5 := hu c (by rw [eu]; simp)
    rw [← ec]
    refine anti _ _ (e ▸ h4.1) h5.1 h3 ?_
    rw [e, ec]; exact h4.2
  have hd : (Interval.default : Interval K).asDouble.2 ≠ .ninf := by
    simp [Interval.default, Interval.asDouble, Interval.numAsDouble]
  have anti : ∀ a b : D K, a ≠ .nan → b ≠ .nan → D.le a b = true → D.le b a = true → a = b :=
    fun a b ha hb h1 h2 => D.le_antisymm h1 h2
  obtain ⟨u, e1, t1, v1⟩ := C65_eventually nd fuel phi trace sy ht Interval.default hd y h hne hn
  have l1 : u.samples.length = y.samples.length := by simpa using congrArg List.length t1
  obtain ⟨n1, c1⟩ := val u l1 fun k hk => (v1 k hk).1
  obtain ⟨z, e2, t2, v2⟩ := C65_always nd fuel _ trace sy ht Interval.default hd u e1 (last u t1) n1
  have l2 : z.samples.length = u.samples.length := by simpa using congrArg List.length t2
  obtain ⟨u', e1', t1', v1'⟩ := C65_always nd fuel phi trace sy ht Interval.default hd y h hne hn
  have l1' : u'.samples.length = y.samples.length := by simpa using congrArg List.length t1'
  obtain ⟨n1', c1'⟩ := val u' l1' fun k hk => (v1' k hk).1
  obtain ⟨w, e2', t2', v2'⟩ := C65_eventually nd fuel _ trace sy ht Interval.default hd u' e1' (last u' t1') n1'
  have l2' : w.samples.length = u'.samples.length := by simpa using congrArg List.length t2'
  have bmem : ∀ k, k < y.samples.length → b ∈ y.samples.drop k := by
    intro k hk
    rw [hb] at hk ⊢
    simp at hk
    rw [List.drop_append]
    have : k - l.length = 0 := by omega
    simp [this]
  refine ⟨z, w, e2, e2', ext z (t2.trans t1) ?_, ext w (t2'.trans t1') ?_⟩
  · refine fin u z D.le anti ?_ c1 l2 v2
    intro a ha
    refine ⟨n1 a ha, ?_⟩
    obtain ⟨k, hk, rfl⟩ := List.getElem_of_mem ha
    exact (v1 k hk).2 b (bmem k (l1 ▸ hk))
  · refine fin u' w (fun a b => D.le b a) (fun a b ha hb h1 h2 => anti a b ha hb h2 h1) ?_ c1' l2' v2'
    intro a ha
    refine ⟨n1' a ha, ?_⟩
    obtain ⟨k, hk, rfl⟩ := List.getElem_of_mem ha
    exact (v1' k hk).2 b (bmem k (l1' ▸ hk))

end any

/-! ## The laws do not hold between the samples -/

/-- The laws of distribution fail in both directions, already for predicates with the same timestamps. -/
theorem C89_refuted : ¬ AlwaysAnd ℚ (· ≤ ·) ∧ ¬ AlwaysAnd ℚ (· ≥ ·) ∧
    ¬ EventuallyOr ℚ (· ≤ ·) ∧ ¬ EventuallyOr ℚ (· ≥ ·) := by
  have inc : ∀ l : List (ℚ × ℚ), (l.map Prod.fst).Pairwise (· < ·) → Increasing l := fun l h => h
  refine ⟨fun H => ?_, fun H => ?_, fun H => ?_, fun H => ?_⟩
  · have := H (.pred "x" .GE 0) (.pred "y" .GE 0)
      [("x", ofPts [(0, 0), (1, 3), (2, 3)]), ("y", ofPts [(0, 2), (1, 5), (2, 1)])]
      (ofPts [(0, 0), (1, 3), (2, 3)]) (ofPts [(0, 2), (1, 5), (2, 1)])
      (ofPts [(0, 0), (1, 1), (3/2, 1), (2, 1)]) (ofPts [(0, 0), (1/3, 1), (1, 1), (2, 1)]) _ _ _ _
      (by decide +kernel) (represents_ofPts (inc _ (by decide +kernel)))
      (by decide +kernel) (represents_ofPts (inc _ (by decide +kernel))) (by simp [dom])
      (by decide +kernel) (represents_ofPts (inc _ (by decide +kernel)))
      (by decide +kernel) (represents_ofPts (inc _ (by decide +kernel)))
      (1/3) ⟨⟨(0, 0), by simp, by norm_num⟩, ⟨(1, 1), by simp, by norm_num⟩⟩
    revert this; decide +kernel
  · have := H (.pred "x" .GE 0) (.pred "y" .GE 0)
      [("x", ofPts [(0, 0), (1, 4), (2, 1)]), ("y", ofPts [(0, 3), (1, 2), (2, 2)])]
      (ofPts [(0, 0), (1, 4), (2, 1)]) (ofPts [(0, 3), (1, 2), (2, 2)])
      (ofPts [(0, 0), (3/5, 1), (1, 1), (5/3, 1), (2, 1)]) (ofPts [(0, 0), (1, 1), (2, 1)]) _ _ _ _
      (by decide +kernel) (represents_ofPts (inc _ (by decide +kernel)))
      (by decide +kernel) (represents_ofPts (inc _ (by decide +kernel))) (by simp [dom])
      (by decide +kernel) (represents_ofPts (inc _ (by decide +kernel)))
      (by decide +kernel) (represents_ofPts (inc _ (by decide +kernel)))
      (3/5) ⟨⟨(0, 0), by simp, by norm_num⟩, ⟨(1, 1), by simp, by norm_num⟩⟩
    revert this; decide +kernel
  · have := H (.pred "x" .GE 0) (.pred "y" .GE 0)
      [("x", ofPts [(0, 0), (1, -4), (2, -1)]), ("y", ofPts [(0, -3), (1, -2), (2, -2)])]
      (ofPts [(0, 0), (1, -4), (2, -1)]) (ofPts [(0, -3), (1, -2), (2, -2)])
      (ofPts [(0, 0), (3/5, -1), (1, -1), (5/3, -1), (2, -1)]) (ofPts [(0, 0), (1, -1), (2, -1)]) _ _ _ _
      (by decide +kernel) (represents_ofPts (inc _ (by decide +kernel)))
      (by decide +kernel) (represents_ofPts (inc _ (by decide +kernel))) (by simp [dom])
      (by decide +kernel) (represents_ofPts (inc _ (by decide +kernel)))
      (by decide +kernel) (represents_ofPts (inc _ (by decide +kernel)))
      (3/5) ⟨⟨(0, 0), by simp, by norm_num⟩, ⟨(1, -1), by simp, by norm_num⟩⟩
    revert this; decide +kernel
  · have := H (.pred "x" .GE 0) (.pred "y" .GE 0)
      [("x", ofPts [(0, 0), (1, -3), (2, -3)]), ("y", ofPts [(0, -2), (1, -5), (2, -1)])]
      (ofPts [(0, 0), (1, -3), (2, -3)]) (ofPts [(0, -2), (1, -5), (2, -1)])
      (ofPts [(0, 0), (1, -1), (3/2, -1), (2, -1)]) (ofPts [(0, 0), (1/3, -1), (1, -1), (2, -1)]) _ _ _ _
      (by decide +kernel) (represents_ofPts (inc _ (by decide +kernel)))
      (by decide +kernel) (represents_ofPts (inc _ (by decide +kernel))) (by simp [dom])
      (by decide +kernel) (represents_ofPts (inc _ (by decide +kernel)))
      (by decide +kernel) (represents_ofPts (inc _ (by decide +kernel)))
      (1/3) ⟨⟨(0, 0), by simp, by norm_num⟩, ⟨(1, -1), by simp, by norm_num⟩⟩
    revert this; decide +kernel

/-- Operands to which the theorems apply: both start at 0. -/
example : computeRobustness false 100 (.pred "x" .GE (.fin (1 : ℚ))) keepTrace false =
      .ok (ofPts [(0, -1), (2, 3), (4, -1)]) ∧
    computeRobustness false 100 (.pred "y" .GE 0) keepTrace false =
      .ok (ofPts [((0 : ℚ), (3 : ℚ)), (1, 0), (3, 2)]) := by decide +kernel

/-- `G F φ` and `F G φ` of the latter are 2. -/
example : computeRobustness false 100 (.Always (.Eventually (.pred "y" .GE 0))) keepTrace false =
      .ok (ofPts [((0 : ℚ), (2 : ℚ)), (1, 2), (3, 2)]) ∧
    computeRobustness false 100 (.Eventually (.Always (.pred "y" .GE 0))) keepTrace false =
      .ok (ofPts [((0 : ℚ), (2 : ℚ)), (1, 2), (3, 2)]) := by decide +kernel

end Verif
