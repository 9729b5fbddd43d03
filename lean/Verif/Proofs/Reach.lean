import Verif.Spec.Reach
import Verif.Proofs.WF
import Verif.Proofs.Shift
import Verif.Proofs.RelErr

/-! # Lemmas on the signals that a program can obtain -/

set_option linter.unusedSectionVars false
set_option exponentiation.threshold 1100

namespace Verif
open Spec

section any
variable {K : Type} [Field K] [LinearOrder K] [IsStrictOrderedRing K] [Arith K]

theorem wf_resizeLoop (a b : D K) : ∀ (l : List (Sample K)) (sg : Signal K) (prev : Option (Sample K)) (z : Signal K),
    WF sg → Signal.resizeLoop a b sg prev l = .ok z → WF z
  | [], sg, prev, z, h, e => by simp [Signal.resizeLoop] at e; subst e; exact h
  | i :: rest, sg, prev, z, h, e => by
    rw [SMap.resizeLoop_cons'] at e
    split at e
    · rw [Outcome.bind_eq_ok] at e
      obtain ⟨u, e1, e2⟩ := e
      exact wf_resizeLoop a b rest _ _ _ (wf_pushBack h e1).1 e2
    · split at e
      · rw [Outcome.bind_eq_ok] at e
        obtain ⟨u, e1, e2⟩ := e
        exact wf_resizeLoop a b rest _ _ _ (wf_pushBack h e1).1 e2
      · split at e
        · split at e
          · split at e
            · rw [Outcome.bind_eq_ok] at e
              obtain ⟨u, e1, e2⟩ := e
              exact wf_resizeLoop a b rest _ _ _ (wf_pushBack h e1).1 e2
            · cases e; exact h
          · cases e; exact h
        · exact wf_resizeLoop a b rest _ _ _ h e

theorem wf_resize {s z : Signal K} {a b fill : D K} (e : s.resize a b fill = .ok z) : WF z := by
  unfold Signal.resize at e
  dsimp only at e
  split at e
  · rw [Outcome.bind_eq_ok] at e
    obtain ⟨u, e1, e2⟩ := e
    exact wf_resizeLoop a b _ _ _ _ (wf_pushBack wf_empty e1).1 e2
  · exact wf_resizeLoop a b _ _ _ _ wf_empty e

theorem wf_syncFinish {xv yv : List (Sample K)} {z z' : Signal K} (e : syncFinish xv yv = .ok (z, z')) :
    WF z ∧ WF z' := by
  unfold syncFinish at e
  simp only [Outcome.bind_eq_ok] at e
  obtain ⟨_, -, _, -, _, -, _, -, sx, e1, sy, e2, e3⟩ := e
  cases e3
  exact ⟨wf_ofSamples e1, wf_ofSamples e2⟩

theorem wf_synchronize {x y z z' : Signal K} (e : synchronize x y = .ok (z, z')) : WF z ∧ WF z' := by
  unfold synchronize at e
  simp only [Outcome.bind_eq_ok] at e
  obtain ⟨i, -, xv, -, j, -, yv, -, p, -, e⟩ := e
  exact wf_syncFinish e

theorem shift_wf {s : Signal K} (h : WF s) (dt : D K) : s.shift dt = .ok (s.addTime dt) := by
  unfold Signal.shift
  rw [ofSamples_wf h]
  rfl

/-- Whatever is obtained is well formed, if moving the timestamps by the permitted amounts keeps it so. -/
theorem wf_obtainable {P : D K → Prop} (hP : ∀ dt, P dt → ∀ s : Signal K, WF s → WF (s.addTime dt)) {s : Signal K}
    (h : Obtainable P s) : WF s := by
  induction h with
  | empty => exact wf_empty
  | pushBack a _ e ih => exact (wf_pushBack ih e).1
  | ofSamples e => exact wf_ofSamples e
  | ofPoints e =>
    unfold Signal.ofPoints at e
    split at e
    · cases e
    · exact wf_ofSamples e
  | simplify _ e _ => exact wf_simplify e
  | resize a b f _ e _ => exact wf_resize e
  | shift hd _ e ih =>
    rw [shift_wf ih] at e
    cases e
    exact hP _ hd _ ih
  | resizeShift a b f hd _ e _ =>
    unfold Signal.resizeShift at e
    rw [Outcome.bind_eq_ok] at e
    obtain ⟨u, e1, e2⟩ := e
    cases e2
    exact hP _ hd _ (wf_resize e1)
  | synchronizeLeft _ _ e _ _ => exact (wf_synchronize e).1
  | synchronizeRight _ _ e _ _ => exact (wf_synchronize e).2
  | robustness _ e _ => exact compute_wf _ _ _ e

end any

section exact
variable {K : Type} [Field K] [LinearOrder K] [IsStrictOrderedRing K] [Arith K] [ExactArith K]

theorem wf_addTime (dt : K) {s : Signal K} (h : WF s) : WF (s.addTime (.fin dt)) := (shiftMap dt).wf h

end exact

namespace B64

/-- Doubles are multiples of the smallest one. -/
theorem isB64_multiple {q : ℚ} (h : IsB64 q) : ∃ n : ℤ, q = n * (2 : ℚ) ^ (-1074 : ℤ) := by
  obtain ⟨m, e, rfl, -, h1, -⟩ := h
  exact multiple_mono h1 ⟨m, rfl⟩

/-- The sum of two doubles below the overflow threshold is rounded with a relative error. -/
theorem rnd_sum {a b : ℚ} (ha : IsB64 a) (hb : IsB64 b) (h : |a + b| ≤ 2 ^ 1023) :
    ∃ r, rnd (a + b) = .fin r ∧ Near r (a + b) := by
  obtain ⟨n, hn⟩ := isB64_multiple ha
  obtain ⟨m, hm⟩ := isB64_multiple hb
  obtain ⟨r, h1, h2, -⟩ := rnd_fx (k := -1074) (l := 1023) (q := a + b)
    ⟨⟨n + m, by rw [hn, hm]; push_cast; ring⟩, by rw [show (1023 : ℤ) = ((1023 : ℕ) : ℤ) from rfl, zpow_natCast]; exact h⟩
    (le_refl _) (by norm_num) (le_refl _)
  exact ⟨r, h1, h2⟩

theorem near_strict {a b c d H : ℚ} (ha : Near c a) (hb : Near d b) (h1 : |a| ≤ H) (h2 : |b| ≤ H)
    (h : 1 / 2 ^ 52 * H < b - a) : c < d := by
  unfold Near at *
  have e1 := (abs_le.1 (ha.trans (mul_le_mul_of_nonneg_left h1 (by norm_num)))).2
  have e2 := (abs_le.1 (hb.trans (mul_le_mul_of_nonneg_left h2 (by norm_num)))).1
  norm_num at e1 e2 h
  linarith

end B64

end Verif
