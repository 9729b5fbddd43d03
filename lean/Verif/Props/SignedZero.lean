import Verif.Proofs.SignedEval
import Verif.Props.AnyRound
import Verif.Props.Rounding
import Verif.Model.Exact

/-!
# The sign of zero (C113)

The other properties are about numbers with one zero.  These theorems say what that leaves out.
-/

set_option linter.unusedSectionVars false
set_option exponentiation.threshold 1100

namespace Verif
open Spec Signed

instance : Gradual B64 where
  sub_ne q r a b ha hb h := by
    obtain ⟨fa, -⟩ := B64.rnd_fin ha
    obtain ⟨fb, -⟩ := B64.rnd_fin hb
    have := tinyMultiple_sub (tinyMultiple_of_isB64 fa) (tinyMultiple_of_isB64 fb)
    exact sub_eq_zero.1 ((rnd_zero_iff this).1 h)

section any
variable {K : Type} [Field K] [LinearOrder K] [IsStrictOrderedRing K] [Arith K]

/-- **C113.** The member functions of `Signal`, and `synchronize`, do the same with signed zeros, whatever the numbers
(also infinities and NaN) and the rounding: forgetting the signs in the arguments or in the result is the same. -/
theorem C113_signals (x y : Signed.Signal K) (s : Signed.Sample K) (t u v w : SD K) (ps ts : List (SD K)) (n : Nat) :
    Signal.pushBack (erase x) (er s) = (x.pushBack s).map' erase ∧
    Signal.ofPoints (ps.map SD.val) (ts.map SD.val) = (Signed.Signal.ofPoints ps ts).map' erase ∧
    Signal.copy (erase x) = x.copy.map' erase ∧
    Signal.beginTime (erase x) = x.beginTime.val ∧
    Signal.endTime (erase x) = x.endTime.val ∧
    Signal.front (erase x) = x.front.map' er ∧
    Signal.back (erase x) = x.back.map' er ∧
    Signal.atIdx (erase x) n = (x.atIdx n).map' er ∧
    Signal.at_ (erase x) t.val = (x.at_ t).map' er ∧
    Signal.simplify (erase x) = x.simplify.map' erase ∧
    Signal.resize (erase x) t.val u.val v.val = (x.resize t u v).map' erase ∧
    Signal.shift (erase x) t.val = (x.shift t).map' erase ∧
    Signal.resizeShift (erase x) t.val u.val v.val w.val = (x.resizeShift t u v w).map' erase ∧
    synchronize (erase x) (erase y) = (Signed.synchronize x y).map' (fun p => (erase p.1, erase p.2)) :=
  ⟨Er.pushBack x s, Er.ofPoints ps ts, Er.copy x, Er.beginTime x, Er.endTime x, Er.front x, Er.back x, Er.atIdx x n,
    Er.at_ x t, Er.simplify x, Er.resize x t u v, Er.shift x t, Er.resizeShift x t u v w, Er.synchronize x y⟩

/-- **C113.** So do the sliding and the unbounded maximum and minimum, and Until. -/
theorem C113_sequences (x y : Signed.Signal K) (nd : Bool) (fuel : Nat) (a b : SD K) :
    maxSeq (erase x) = (Signed.maxSeq x).map' erase ∧
    minSeq (erase x) = (Signed.minSeq x).map' erase ∧
    maxSeqWindow fuel (erase x) a.val b.val = (Signed.maxSeqWindow fuel x a b).map' erase ∧
    minSeqWindow fuel (erase x) a.val b.val = (Signed.minSeqWindow fuel x a b).map' erase ∧
    computeUntil nd (erase x) (erase y) = (Signed.computeUntil nd x y).map' erase :=
  ⟨Er.minmaxSeq (fun _ _ => rfl) x, Er.minmaxSeq (fun _ _ => rfl) x, Er.minmaxSeqWindow (fun _ _ => rfl) fuel x a b,
    Er.minmaxSeqWindow (fun _ _ => rfl) fuel x a b, computeUntil_er nd x y⟩

/-- **C113.** `compute_robustness`, for any formula and any trace with finite timestamps, with monotone rounding and
gradual underflow (as binary64 has): with signed zeros the outcome is the same, or else it is the exception
`std::invalid_argument`. -/
theorem C113_evaluation [SaneArith K] [MonoArith K] [Gradual K] (nd : Bool) (fuel : Nat)
    (phi : Signed.Expr K) (trace : Signed.Trace K) (sy : Bool) (ht : FiniteTimes trace.erase) :
    computeRobustness nd fuel phi.erase trace.erase sy =
        (Signed.computeRobustness nd fuel phi trace sy).map' erase ∨
      Signed.computeRobustness nd fuel phi trace sy = .throw .invalidArgument := by
  rcases computeRobustness_rel nd fuel phi trace sy ht (crossOk_le (K := K)) (crossOk_ge True) with h | h
  · exact .inl h
  · exact .inr h.2

/-- **C113.** What is proved of a returned signal holds with signed zeros: if the evaluation returns `z`, then the
evaluation with one zero returns the same signal. -/
theorem C113_returned [SaneArith K] [MonoArith K] [Gradual K] (nd : Bool) (fuel : Nat)
    (phi : Signed.Expr K) (trace : Signed.Trace K) (sy : Bool) (ht : FiniteTimes trace.erase) (z : Signed.Signal K)
    (h : Signed.computeRobustness nd fuel phi trace sy = .ok z) :
    computeRobustness nd fuel phi.erase trace.erase sy = .ok (erase z) := by
  rcases C113_evaluation nd fuel phi trace sy ht with h' | h'
  · rw [h', h]; rfl
  · rw [h] at h'; cases h'

/-- **C113.** The signs of the zeros in the formula and in the trace are irrelevant for a result: two inputs that differ
only in them cannot lead to results that differ in more than them. -/
theorem C113_inputs [SaneArith K] [MonoArith K] [Gradual K] (nd : Bool) (fuel : Nat)
    (phi phi' : Signed.Expr K) (trace trace' : Signed.Trace K) (sy : Bool) (ht : FiniteTimes trace.erase)
    (hp : phi.erase = phi'.erase) (hr : trace.erase = trace'.erase) (z z' : Signed.Signal K)
    (h : Signed.computeRobustness nd fuel phi trace sy = .ok z)
    (h' : Signed.computeRobustness nd fuel phi' trace' sy = .ok z') : erase z = erase z' := by
  have h1 := C113_returned nd fuel phi trace sy ht z h
  have h2 := C113_returned nd fuel phi' trace' sy (hr ▸ ht) z' h'
  rw [hp, hr, h2] at h1
  simpa using h1.symm

/-- **C113.** Elementwise maximum: always the same. -/
theorem C113_or [SaneArith K] [MonoArith K] [Gradual K] (nd : Bool) (xs : List (Signed.Signal K))
    (hx : ∀ x ∈ xs, WF (erase x) ∧ ∀ a ∈ (erase x).samples, ∃ t, a.time = .fin t) :
    elementwiseMax nd (xs.map erase) = (Signed.elementwiseMax nd xs).map' erase := by
  rcases minmaxVec_rel (.inr ⟨rfl, rfl⟩) (crossOk_ge False) nd xs hx with h | h
  · exact h
  · exact h.1.elim

/-- **C113.** With exact arithmetic the outcomes are the same in all cases. -/
theorem C113_exact [ExactArith K] (nd : Bool) (fuel : Nat) (phi : Signed.Expr K) (trace : Signed.Trace K) (sy : Bool)
    (ht : FiniteTimes trace.erase) :
    computeRobustness nd fuel phi.erase trace.erase sy =
      (Signed.computeRobustness nd fuel phi trace sy).map' erase := by
  rcases computeRobustness_rel nd fuel phi trace sy ht (crossOk_exact (.inl ⟨rfl, rfl⟩))
    (crossOk_exact (.inr ⟨rfl, rfl⟩)) with h | h
  · exact h
  · exact h.1.elim

end any

/-! ### The exception -/

/-- The smallest positive double. -/
def szTiny : B64 := (1 / 2 ^ 1074 : ℚ)

/-- Two signals that cross with slopes that underflow to `+0.0` and `-0.0`. -/
def szTrace : Signed.Trace B64 :=
  [("x", ⟨[⟨.of (.fin (0 : ℚ)), .of (.fin (0 : ℚ)), .of (.fin (0 : ℚ))⟩, ⟨.of (.fin (4 : ℚ)), .of (.fin szTiny), .of (.fin (0 : ℚ))⟩]⟩),
   ("y", ⟨[⟨.of (.fin (0 : ℚ)), .of (.fin szTiny), .of (.fin (0 : ℚ))⟩, ⟨.of (.fin (4 : ℚ)), .of (.fin (0 : ℚ)), .of (.fin (0 : ℚ))⟩]⟩)]

/-- `x >= 0 and y >= 0`. -/
def szPhi : Signed.Expr B64 :=
  .and [.pred "x" .GE (.of (.fin (0 : ℚ))), .pred "y" .GE (.of (.fin (0 : ℚ)))]

theorem szTrace_fin : FiniteTimes szTrace.erase := by
  intro e he a ha
  simp only [szTrace, Signed.Trace.erase, List.map_cons, List.map_nil, List.mem_cons, List.not_mem_nil, or_false] at he
  rcases he with rfl | rfl <;>
  · simp only [erase, List.map_cons, List.map_nil, List.mem_cons, List.not_mem_nil, or_false] at ha
    rcases ha with rfl | rfl <;> exact ⟨_, rfl⟩

/-- **C113.** The exception occurs, with binary64 numbers, for And. The trace has finite values of at most the smallest positive double;
with one zero the result is returned; with signed zeros the computed crossing time is `-d / -0.0`, which is `+inf`, and
the evaluation throws `std::invalid_argument`. -/
theorem C113_and_throws :
    Signed.computeRobustness false 0 szPhi szTrace false = .throw .invalidArgument ∧
    ∃ z, computeRobustness false 0 szPhi.erase szTrace.erase false = .ok z := by
  refine ⟨by decide +kernel, ⟨⟨[⟨.fin (0 : ℚ), .fin (0 : ℚ), .fin (0 : ℚ)⟩, ⟨.fin (4 : ℚ), .fin (0 : ℚ), .fin (0 : ℚ)⟩]⟩, ?_⟩⟩
  decide +kernel

/-! ### Examples -/

-- the rules for signs: 1 / -0.0, -0.0 + -0.0, -0.0 + 0.0, 0.0 * -1, an underflow to -0.0
example : (SD.of (.fin (1 : ℚ)) / (⟨.fin 0, true⟩ : SD ℚ)).val = .ninf ∧
    ((⟨.fin 0, true⟩ : SD ℚ) + ⟨.fin 0, true⟩) = ⟨.fin 0, true⟩ ∧
    ((⟨.fin 0, true⟩ : SD ℚ) + ⟨.fin 0, false⟩) = ⟨.fin 0, false⟩ ∧
    ((⟨.fin 0, false⟩ : SD ℚ) * .of (.fin (-1))) = ⟨.fin 0, true⟩ := by decide +kernel

example : ((⟨.fin (0 : ℚ), false⟩ - ⟨.fin szTiny, false⟩ : SD B64) / ⟨.fin (4 : ℚ), false⟩) = ⟨.fin (0 : ℚ), true⟩ := by
  decide +kernel

/-- A trace whose signals cross at time 2. -/
def szCross : Signed.Trace B64 :=
  [("x", ⟨[⟨⟨.fin (0 : ℚ), true⟩, ⟨.fin (0 : ℚ), true⟩, .of (.fin (0 : ℚ))⟩, ⟨.of (.fin (4 : ℚ)), .of (.fin (4 : ℚ)), .of (.fin (0 : ℚ))⟩]⟩),
   ("y", ⟨[⟨.of (.fin (0 : ℚ)), .of (.fin (4 : ℚ)), .of (.fin (0 : ℚ))⟩, ⟨.of (.fin (4 : ℚ)), .of (.fin (0 : ℚ)), .of (.fin (0 : ℚ))⟩]⟩)]

-- the hypotheses of `C113_returned`: `szCross` contains -0.0, and the minimum of its signals is returned
example : FiniteTimes szCross.erase ∧ Signed.computeRobustness false 0 szPhi szCross false =
    .ok ⟨[⟨⟨.fin (0 : ℚ), true⟩, ⟨.fin (0 : ℚ), true⟩, ⟨.fin (1 : ℚ), false⟩⟩,
      ⟨⟨.fin (2 : ℚ), false⟩, ⟨.fin (2 : ℚ), false⟩, ⟨.fin (-1 : ℚ), true⟩⟩,
      ⟨⟨.fin (4 : ℚ), false⟩, ⟨.fin (0 : ℚ), false⟩, ⟨.fin (0 : ℚ), false⟩⟩]⟩ := by
  refine ⟨?_, by decide +kernel⟩
  intro e he a ha
  simp only [szCross, Signed.Trace.erase, List.map_cons, List.map_nil, List.mem_cons, List.not_mem_nil, or_false] at he
  rcases he with rfl | rfl <;>
  · simp only [erase, List.map_cons, List.map_nil, List.mem_cons, List.not_mem_nil, or_false] at ha
    rcases ha with rfl | rfl <;> exact ⟨_, rfl⟩

end Verif
