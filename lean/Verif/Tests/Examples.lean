import Verif.Tests.Append
import Verif.Props.Container

/-!
# `tests/test_signals.cc`, `examples/basic_signal.cc` and `examples/basic_robustness.cc`, run on the model

Tests of the *model*, not properties (`push_back` with an arbitrary time is proved for all signals in C02).
-/

namespace Verif
namespace Tests

/-! ## test_signals.cc:55-71 -/

def sig : Outcome (Signal B64) := Signal.ofPoints (doubles [25.0, 15.0, 22.0, -1.0]) (doubles [0, 0.25, 5, 6.25])

example : sig.map' Signal.size = .ok 4 ∧ sig.map' Signal.beginTime = .ok 0 ∧
    sig.map' Signal.endTime = .ok (dbl 6.25) := by decide +kernel

/-- The test draws 100 times between 0 and 6.25; here they are all of them. -/
example (s : Signal B64) (h : sig = .ok s) (t : B64) (ht : t ≤ (25 / 4 : B64)) :
    s.pushBackTV (.fin t) 0 = .throw .invalidArgument := by
  have he : s.endTime = .fin (25 / 4 : B64) := by
    have : sig.map' Signal.endTime = .ok (.fin (25 / 4 : B64)) := by decide +kernel
    rw [h] at this
    exact Outcome.ok.inj this
  have hn : s.samples.getLast? ≠ none := by
    intro h0
    have : sig.map' Signal.size = .ok 4 := by decide +kernel
    rw [h] at this
    have h4 : s.samples.length = 4 := Outcome.ok.inj this
    rw [List.getLast?_eq_none_iff] at h0
    rw [h0] at h4; simp at h4
  have hle : (D.fin t).le s.endTime = true := by
    rw [he, D.le_fin, decide_eq_true_eq]; exact ht
  unfold Signal.pushBackTV Signal.pushBack
  split
  · rename_i h0; exact absurd h0 hn
  · exact if_pos hle

/-! ## basic_signal.cc and basic_robustness.cc -/

def xs : Outcome (Signal B64) := Signal.ofPoints (doubles [0, 2, 1, -2, -1]) (doubles [0, 2.5, 4.5, 6.5, 9])
def ys : Outcome (Signal B64) := Signal.ofPoints (doubles [0, -2, 2, 1, -1.5]) (doubles [0, 2, 6, 8.5, 11])
def phiAB : Outcome (Expr B64) := Expr.orOp (Expr.Predicate "a") (Expr.Predicate "b")

def synced : Outcome (Signal B64 × Signal B64) := do synchronize (← xs) (← ys)

/-- The timestamps of both after `synchronize`. -/
example : synced.map' (fun p => (p.1.samples.map Sample.time, p.2.samples.map Sample.time)) =
    .ok (doubles [0, 2, 2.5, 4.5, 6, 6.5, 8.5, 9], doubles [0, 2, 2.5, 4.5, 6, 6.5, 8.5, 9]) := by decide +kernel

def unsynchedRobustness : Outcome (Signal B64) := do
  computeRobustness false 0 (← phiAB) [("a", ← xs), ("b", ← ys)] false
def synchedRobustness : Outcome (Signal B64) := do
  let (x, y) ← synced
  computeRobustness false 0 (← phiAB) [("a", x), ("b", y)] true

/-- The two results of the example program are the same, bit for bit.  The crossing is at the double next to
4.7, with the value next to 0.7. -/
example : unsynchedRobustness = synchedRobustness ∧
    unsynchedRobustness.map' (fun z => z.samples.map Sample.time) =
      .ok (doubles [0, 2, 2.5, 4.5, 4.7, 6, 6.5, 8.5, 9]) ∧
    unsynchedRobustness.map' (fun z => z.samples.map Sample.value) =
      .ok (doubles [0, 1.6, 2, 1, 1576259869579673 / 2251799813685248, 2, 1.8, 1, 0.5]) := by decide +kernel

end Tests
end Verif
