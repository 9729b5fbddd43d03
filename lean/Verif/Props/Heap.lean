import Verif.Proofs.Heap
import Verif.Proofs.HeapUB
import Verif.Model.Exact

/-!
# Signals in memory: aliasing and mutation (C111, C112)

The other properties treat a `SignalPtr` as the signal it points to.  These theorems justify that.
-/

set_option linter.unusedSectionVars false

namespace Verif
open Mem

variable {K : Type} [Field K] [LinearOrder K] [Arith K]

/-- The signal a pointer leads to. -/
def pointee (h : Heap K) (p : Ptr) : Option (Signal K) := p.bind fun n => h[n]?

/-- A trace of pointers, as a trace of signals; `none` if one of the pointers is null. -/
def contents (h : Heap K) : PTrace → Option (Trace K)
  | [] => some []
  | e :: rest =>
    match pointee h e.2, contents h rest with
    | some s, some vt => some ((e.1, s) :: vt)
    | _, _ => none

theorem holds_iff {h : Heap K} {p : Ptr} {s : Signal K} : Holds h p s ↔ pointee h p = some s := by
  unfold Holds pointee
  cases p <;> simp

theorem points_iff {h : Heap K} : ∀ {pt : PTrace} {vt : Trace K}, contents h pt = some vt → Points h pt vt
  | [], vt, hc => by cases hc; exact .nil
  | e :: pt, vt, hc => by
    rw [contents] at hc
    split at hc
    · rename_i s vt' h1 h2
      cases hc
      exact .cons ⟨rfl, holds_iff.2 h1⟩ (points_iff h2)
    · cases hc

theorem contents_none {h : Heap K} : ∀ {pt : PTrace}, contents h pt = none ↔ ∃ e ∈ pt, pointee h e.2 = none
  | [] => by simp [contents]
  | e :: pt => by
    have ih := contents_none (h := h) (pt := pt)
    rw [contents]
    cases h1 : pointee h e.2 with
    | none => simp [h1]
    | some s =>
      cases h2 : contents h pt with
      | none => simpa [h1, h2] using ih
      | some vt => simpa [h1, h2] using ih

/-- Started in the memory `h`, the computation `m` of a pointer ends like the computation `o` of a signal; the pointer
leads to that signal, which is a new object; and no object that existed before is changed, however `m` ends. -/
def AgreesIn (h : Heap K) (m : Mem K Ptr) (o : Outcome (Signal K)) : Prop :=
  (m h).1.map' (pointee (m h).2) = o.map' some ∧ (∀ p, (m h).1 = .ok p → ∃ n, p = some n ∧ h.length ≤ n) ∧
    h <+: (m h).2

theorem agreesIn {h : Heap K} {m : Mem K Ptr} {o : Outcome (Signal K)} (hs : Sim h h m o (Fresh h)) : AgreesIn h m o := by
  refine ⟨hs.result fun a b hr => holds_iff.1 hr.holds, fun p hp => ?_, hs.1⟩
  obtain ⟨b, -, n, h1, h2, -⟩ := hs.of_ok hp
  exact ⟨n, h1, h2⟩

/-- **C111**, evaluation. -/
theorem C111_evaluation (h : Heap K) (pt : PTrace) (vt : Trace K) (hc : contents h pt = some vt) (nd : Bool)
    (fuel : Nat) (phi : Expr K) (sync : Bool) :
    AgreesIn h (Mem.computeRobustness nd fuel phi pt sync) (computeRobustness nd fuel phi vt sync) :=
  agreesIn (computeRobustness_sim nd fuel phi (points_iff hc) sync)

/-- **C111**, the copy constructor and the members of `Signal` that return pointers. -/
theorem C111_members (h : Heap K) (p : Ptr) (s : Signal K) (hp : pointee h p = some s) :
    AgreesIn h (Mem.copy p) s.copy ∧ AgreesIn h (Mem.simplify p) s.simplify ∧
    (∀ a b c, AgreesIn h (Mem.resize p a b c) (s.resize a b c)) ∧ (∀ d, AgreesIn h (Mem.shift p d) (s.shift d)) ∧
    ∀ a b c d, AgreesIn h (Mem.resizeShift p a b c d) (s.resizeShift a b c d) := by
  have hp := holds_iff.2 hp
  exact ⟨agreesIn (copy_sim hp).fresh, agreesIn (simplify_sim hp).fresh, fun _ _ _ => agreesIn (resize_sim hp _ _ _).fresh,
    fun _ => agreesIn (shift_sim hp _).fresh, fun _ _ _ _ => agreesIn (resizeShift_sim hp _ _ _ _).fresh⟩

/-- **C111**, minimum and maximum of two signals, which may be the same object. -/
theorem C111_pair (h : Heap K) (p q : Ptr) (x y : Signal K) (hp : pointee h p = some x) (hq : pointee h q = some y)
    (nd : Bool) (comp : Cmp K) (synced : Bool) :
    AgreesIn h (Mem.minmaxPair nd comp p q synced) (minmaxPair nd comp x y synced) :=
  agreesIn (minmaxPair_sim (holds_iff.2 hp) (holds_iff.2 hq) nd comp synced)

/-- **C111**: the minimum or maximum of a list of signals is a new object only if the list does not have exactly one
element: for one signal the result is that signal itself, so what is appended to it is appended to the operand. -/
theorem C111_alias (h : Heap K) (p : Ptr) (nd : Bool) (comp : Cmp K) (synced : Bool) :
    Mem.minmaxVec nd comp [p] synced h = (.ok p, h) := rfl

/-- **C111**, `synchronize`: two different new objects, also if both arguments are the same object. -/
theorem C111_synchronize (h : Heap K) (p q : Ptr) (x y : Signal K) (hp : pointee h p = some x)
    (hq : pointee h q = some y) :
    let run := Mem.synchronize p q h
    run.1.map' (fun r => (pointee run.2 r.1, pointee run.2 r.2)) =
        (synchronize x y).map' (fun r => (some r.1, some r.2)) ∧
      (∀ r, run.1 = .ok r → r.1 ≠ r.2 ∧ (∃ n, r.1 = some n ∧ h.length ≤ n) ∧ ∃ n, r.2 = some n ∧ h.length ≤ n) ∧
      h <+: run.2 := by
  have hs := synchronize_sim (holds_iff.2 hp) (holds_iff.2 hq)
  refine ⟨hs.result fun a b hr => ?_, fun r hr => ?_, hs.1⟩
  · rw [holds_iff.1 hr.1.holds, holds_iff.1 hr.2.1.holds]
  · obtain ⟨b, -, ⟨n, h1, h2, -⟩, ⟨m, h3, h4, -⟩, h5⟩ := hs.of_ok hr
    exact ⟨h5, ⟨n, h1, h2⟩, ⟨m, h3, h4⟩⟩

/-- The samples a sequence of calls pushes to the object at `n`, in order. -/
def pushesTo (n : Nat) : List (Call K) → List (Sample K)
  | [] => []
  | .pushBack x a :: cs => if x = some n then a :: pushesTo n cs else pushesTo n cs
  | _ :: cs => pushesTo n cs

/-- **C111**, frame: whatever calls a program makes with whatever pointers, an object is afterwards what its own
`push_back`s have made of it; no other call, and no `push_back` to another object, has an effect on it. -/
theorem C111_frame (n : Nat) : ∀ (cs : List (Call K)) (h : Heap K) (s : Signal K), h[n]? = some s →
    (Call.runAll h cs)[n]? = some ((pushesTo n cs).foldl (fun s a => (s.pushBackStep a).1) s)
  | [], h, s, hs => hs
  | c :: cs, h, s, hs => by
    have keep : (∀ x a, c ≠ .pushBack x a) → ((c.run h).2)[n]? = some s := fun hc => by
      obtain ⟨t, ht⟩ := call_keeps c hc h
      rw [← ht, List.getElem?_append_left (List.getElem?_eq_some_iff.1 hs).1]
      exact hs
    rw [Call.runAll]
    cases c with
    | pushBack x a =>
      have e : (((Call.pushBack x a).run h).2) = (Mem.pushBack x a h).2 := mem_bind_heap fun _ _ => rfl
      rw [e, pushesTo]
      split
      · rename_i hx
        subst hx
        rw [List.foldl_cons]
        refine C111_frame n cs _ _ ?_
        unfold Mem.pushBack
        simp only [hs]
        rw [List.getElem?_set_self (List.getElem?_eq_some_iff.1 hs).1]
      · rename_i hx
        refine C111_frame n cs _ _ ?_
        cases x with
        | none => exact hs
        | some m => rw [pushBack_other m n (fun h => hx (by rw [h]))]; exact hs
    | _ => exact C111_frame n cs _ _ (keep fun _ _ h => by cases h)

/-- **C111**, Python: no function of the bindings changes a signal (`push_back` is not bound, pysignal.cc:44-68). -/
theorem C111_python (cs : List (Call K)) (hc : ∀ c ∈ cs, ∀ x a, c ≠ .pushBack x a) (h : Heap K) :
    h <+: Call.runAll h cs := by
  induction cs generalizing h with
  | nil => exact List.prefix_refl _
  | cons c cs ih =>
    exact (call_keeps c (hc c List.mem_cons_self) h).trans (ih (fun d hd => hc d (List.mem_cons_of_mem _ hd)) _)

/-- **C111**, repetition: after an evaluation the caller may do anything with the result (append to it, evaluate, shift it);
if nothing is appended to the signals of the trace, evaluating again gives an equal signal. -/
theorem C111_repeat (h : Heap K) (pt : PTrace) (vt : Trace K) (hc : contents h pt = some vt) (cs : List (Call K))
    (hn : ∀ x a, Call.pushBack x a ∈ cs → ∀ e ∈ pt, x ≠ e.2) :
    contents (Call.runAll h cs) pt = some vt := by
  induction pt generalizing vt with
  | nil => exact hc
  | cons e pt ih =>
    rw [contents] at hc ⊢
    split at hc
    · rename_i s vt' h1 h2
      cases hc
      have hp : pointee (Call.runAll h cs) e.2 = some s := by
        obtain ⟨n, he, hs⟩ := holds_iff.2 h1
        have hno : pushesTo n cs = [] := by
          have hn' : ∀ x a, Call.pushBack x a ∈ cs → x ≠ some n := fun x a hm =>
            he ▸ hn x a hm e List.mem_cons_self
          clear hn ih h1
          induction cs with
          | nil => rfl
          | cons c cs ih =>
            have := ih fun x a hm => hn' x a (List.mem_cons_of_mem _ hm)
            cases c with
            | pushBack x a => rw [pushesTo, if_neg (hn' x a List.mem_cons_self)]; exact this
            | _ => exact this
        have := C111_frame n cs h s hs
        rw [hno] at this
        exact holds_iff.1 ⟨n, he, this⟩
      rw [hp, ih vt' h2 fun x a hm e' he' => hn x a hm e' (List.mem_cons_of_mem _ he')]
    · cases hc

/-- **C112**: if one pointer of the trace is null, every evaluation is undefined behaviour, also of a formula that does not
mention the signal. -/
theorem C112_null (h : Heap K) (pt : PTrace) (hp : ∃ e ∈ pt, pointee h e.2 = none) (nd : Bool) (fuel : Nat)
    (phi : Expr K) (sync : Bool) : (Mem.computeRobustness nd fuel phi pt sync h).1 = .ub .nullPointer := by
  obtain ⟨e, he, hn⟩ := hp
  rw [robustness_bad nd fuel phi ⟨e, he, fun s hs => by rw [holds_iff.1 hs] at hn; cases hn⟩ sync]

/-- **C112**: this is the only way to a null pointer, and no iterator is used after the vector it walks over has
been changed. -/
theorem C112_only (h : Heap K) (pt : PTrace) (nd : Bool) (fuel : Nat) (phi : Expr K) (sync : Bool) (vt : Trace K)
    (hc : contents h pt = some vt) :
    (Mem.computeRobustness nd fuel phi pt sync h).1 ≠ .ub .nullPointer ∧
    (Mem.computeRobustness nd fuel phi pt sync h).1 ≠ .ub .invalidIterator := by
  have h1 := (C111_evaluation h pt vt hc nd fuel phi sync).1
  have h2 := Tame.computeRobustness nd fuel phi vt sync
  constructor
  all_goals
    intro hu
    rw [hu] at h1
    simp only [Outcome.map'] at h1
    cases hr : computeRobustness nd fuel phi vt sync <;> rw [hr] at h1 <;> cases h1
  · exact h2.1 hr
  · exact h2.2 hr

/-! ## Examples -/

section examples

/-- A memory with two signals. -/
def twoSignals : Heap ℚ := [⟨[⟨.fin 0, .fin 1, .fin 1⟩, ⟨.fin 1, .fin 2, 0⟩]⟩, ⟨[⟨.fin 0, .fin 3, .fin (-1)⟩, ⟨.fin 1, .fin 2, 0⟩]⟩]

/-- Two names for the same object. -/
example : contents twoSignals [("a", some 0), ("b", some 0)] =
    some [("a", ⟨[⟨.fin 0, .fin 1, .fin 1⟩, ⟨.fin 1, .fin 2, 0⟩]⟩), ("b", ⟨[⟨.fin 0, .fin 1, .fin 1⟩, ⟨.fin 1, .fin 2, 0⟩]⟩)] := rfl

example : contents twoSignals [("a", some 0), ("b", none)] = none := rfl

/-- `always (a >= 0)`: two new objects, the last of which is the result. -/
example : Mem.computeRobustness true 0 (.always (.pred "a" .GE (.fin 0)) Interval.default) [("a", some 0)] false
    twoSignals = (.ok (some 3), twoSignals ++ [⟨[⟨.fin 0, .fin 1, .fin 1⟩, ⟨.fin 1, .fin 2, 0⟩]⟩,
      ⟨[⟨.fin 0, .fin 1, .fin 1⟩, ⟨.fin 1, .fin 2, 0⟩]⟩]) := by decide +kernel

/-- A `push_back` to one of two signals. -/
example : Call.runAll twoSignals [.pushBack (some 1) ⟨.fin 2, .fin 2, 0⟩, .shift (some 0) (.fin 1)] =
    [⟨[⟨.fin 0, .fin 1, .fin 1⟩, ⟨.fin 1, .fin 2, 0⟩]⟩,
     ⟨[⟨.fin 0, .fin 3, .fin (-1)⟩, ⟨.fin 1, .fin 2, 0⟩, ⟨.fin 2, .fin 2, 0⟩]⟩,
     ⟨[⟨.fin 1, .fin 1, .fin 1⟩, ⟨.fin 2, .fin 2, 0⟩]⟩] := by decide +kernel

/-- A null pointer in the trace, under a name the formula does not mention. -/
example : (Mem.computeRobustness true 0 (.const true) [("a", some 0), ("b", none)] false twoSignals).1 =
    .ub .nullPointer := C112_null _ _ ⟨("b", none), by simp, rfl⟩ _ _ _ _

end examples

end Verif
