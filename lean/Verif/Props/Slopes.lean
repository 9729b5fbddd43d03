import Verif.Props.Container

/-! # The derivatives as numbers: C03 in ideal arithmetic -/

namespace Verif
open Spec

variable {K : Type} [Field K] [LinearOrder K] [IsStrictOrderedRing K] [Arith K]

theorem slopes_getElem [ExactArith K] : ∀ (l : List (Sample K)) (i : Nat) (t v u w : K) (d d' : D K), Ordered l → Slopes l →
    l[i]? = some ⟨.fin t, .fin v, d⟩ → l[i + 1]? = some ⟨.fin u, .fin w, d'⟩ → t < u ∧ d = .fin ((w - v) / (u - t))
  | [], i, t, v, u, w, d, d', _, _, h1, _ => by simp at h1
  | [a], i, t, v, u, w, d, d', _, _, _, h2 => by simp at h2
  | a :: b :: l, 0, t, v, u, w, d, d', ho, hs, h1, h2 => by
    simp only [List.getElem?_cons_zero, List.getElem?_cons_succ, Option.some.injEq, zero_add] at h1 h2
    subst h1; subst h2
    have h : t < u := by simpa [Ordered] using ho.1
    refine ⟨h, ?_⟩
    have := hs.1
    simpa [D.div_fin _ _ (sub_pos.2 h).ne'] using this
  | a :: b :: l, i + 1, t, v, u, w, d, d', ho, hs, h1, h2 => by
    rw [List.getElem?_cons_succ] at h1 h2
    exact slopes_getElem (b :: l) i t v u w d d' ho.2 hs.2 h1 h2

omit [IsStrictOrderedRing K] in
theorem slopes_last : ∀ (l : List (Sample K)) (a : Sample K), Slopes l → l.getLast? = some a → a.derivative = 0
  | [], a, _, h => by simp at h
  | [b], a, hs, h => by simp at h; subst h; exact hs
  | b :: c :: l, a, hs, h => slopes_last (c :: l) a hs.2 (by simpa using h)

/-- **C03**, in ideal arithmetic, as numbers: after any history of calls of `push_back`, if the sample at an index is
`(t, v)` and the next one is `(u, w)`, then `t < u` and the stored derivative is `(w - v) / (u - t)`; that of the last
sample is 0. -/
theorem C03_slope_value [ExactArith K] (ops : List (D K × D K)) :
    (∀ (i : Nat) (t v u w : K) (d d' : D K), (Signal.history ops).samples[i]? = some ⟨.fin t, .fin v, d⟩ →
      (Signal.history ops).samples[i + 1]? = some ⟨.fin u, .fin w, d'⟩ → t < u ∧ d = .fin ((w - v) / (u - t))) ∧
    ∀ a, (Signal.history ops).samples.getLast? = some a → a.derivative = .fin 0 := by
  have h : WF (Signal.history ops) := by
    suffices ∀ s : Signal K, WF s → WF (ops.foldl (fun s p => (s.pushBackStep ⟨p.1, p.2, 0⟩).1) s) from
      this Signal.empty ⟨trivial, trivial⟩
    induction ops with
    | nil => intro s h; exact h
    | cons p ops ih => intro s h; exact ih _ (history_step s ⟨p.1, p.2, 0⟩ h).1
  exact ⟨fun i t v u w d d' h1 h2 => slopes_getElem _ i t v u w d d' h.1 h.2 h1 h2, fun a ha => slopes_last _ a h.2 ha⟩

-- two segments with different slopes
example : (Signal.history [(.fin 0, .fin 1), (.fin 2, .fin 5), (.fin 5, .fin 4)] : Signal ℚ).samples[1]? =
    some ⟨.fin 2, .fin 5, .fin (-1 / 3)⟩ := by decide +kernel

end Verif
