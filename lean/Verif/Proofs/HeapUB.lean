import Verif.Model.Robustness

/-!
# On signals as values there are no null pointers and no invalid iterators
-/

set_option linter.unusedSectionVars false

namespace Verif
namespace Tame
variable {α β K : Type}

/-- No null pointer and no invalid iterator is used. -/
def _root_.Verif.Tame (o : Outcome α) : Prop := o ≠ .ub .nullPointer ∧ o ≠ .ub .invalidIterator

theorem ok (a : α) : Tame (.ok a) := ⟨nofun, nofun⟩

theorem throw (e : Exn) : Tame (.throw e : Outcome α) := ⟨nofun, nofun⟩

theorem bind {o : Outcome α} {f : α → Outcome β} (h : Tame o) (hf : ∀ a, Tame (f a)) : Tame (o >>= f) := by
  cases o with
  | ok a => exact hf a
  | ub u => exact ⟨fun e => h.1 (by cases e; rfl), fun e => h.2 (by cases e; rfl)⟩
  | _ => exact ⟨nofun, nofun⟩

theorem map {o : Outcome α} (f : α → β) (h : Tame o) : Tame (o.map' f) := by
  cases o with
  | ub u => exact ⟨fun e => h.1 (by cases e; rfl), fun e => h.2 (by cases e; rfl)⟩
  | _ => exact ⟨nofun, nofun⟩

theorem ite {c : Prop} [Decidable c] {a b : Outcome α} (ha : Tame a) (hb : Tame b) : Tame (if c then a else b) := by
  split
  · exact ha
  · exact hb

theorem assert (nd c : Bool) : Tame (assert_ nd c) := by
  unfold assert_
  split
  · exact ok _
  · exact ⟨nofun, nofun⟩

theorem lowerBound (p : α → Bool) (l : List α) : Tame (Verif.lowerBound p l) := by
  unfold Verif.lowerBound
  split
  · exact ok _
  · exact ⟨nofun, nofun⟩

theorem searchLoop (comp : α → α → Bool) (w : List α) (value : α) : ∀ fuel i,
    Tame (monoWedgeSearchLoop comp w value fuel i)
  | 0, i => by
    rw [monoWedgeSearchLoop.eq_def]
    dsimp only
    generalize decide (((w.length - i) >>> i) > 0) = b
    cases b
    · exact lowerBound _ _
    · exact ⟨nofun, nofun⟩
  | fuel + 1, i => by
    rw [monoWedgeSearchLoop.eq_def]
    dsimp only
    generalize decide (((w.length - i) >>> i) > 0) = b
    cases b
    · exact lowerBound _ _
    · dsimp only
      split
      · exact ⟨nofun, nofun⟩
      · split
        · exact ok _
        · exact searchLoop comp w value fuel (i + 1)

theorem update (comp : α → α → Bool) (w : List α) (value : α) : Tame (monoWedgeUpdate comp w value) := by
  refine bind ?_ fun _ => ok _
  unfold monoWedgeSearch
  split
  · exact ok _
  · exact searchLoop _ _ _ _ _

section
variable [Field K] [LinearOrder K] [Arith K]

theorem back (s : Signal K) : Tame s.back := by
  unfold Signal.back
  split
  · exact ⟨nofun, nofun⟩
  · exact ok _

theorem vback (l : List (Sample K)) : Tame (Verif.vback l) := by
  unfold Verif.vback
  split
  · exact ⟨nofun, nofun⟩
  · exact ok _

theorem derefPrev (p : Option (Sample K)) : Tame (Verif.derefPrev p) := by
  cases p
  · exact ⟨nofun, nofun⟩
  · exact ok _

theorem pushBack (s : Signal K) (x : Sample K) : Tame (s.pushBack x) := by
  unfold Signal.pushBack
  split
  · exact ok _
  · split
    · exact throw _
    · exact ok _

theorem pushAll : ∀ (xs : List (Sample K)) (s : Signal K), Tame (s.pushAll xs)
  | [], _ => ok _
  | _ :: xs, _ => bind (pushBack _ _) fun _ => pushAll xs _

theorem ofSamples (xs : List (Sample K)) : Tame (Signal.ofSamples xs) := pushAll xs _

theorem simplifyLoop : ∀ (xs : List (Sample K)) (s : Signal K), Tame (s.simplifyLoop xs)
  | [], _ => ok _
  | x :: xs, s => by
    simp only [Signal.simplifyLoop]
    split
    · exact bind (pushBack _ _) fun _ => simplifyLoop xs _
    · exact ite (bind (pushBack _ _) fun _ => simplifyLoop xs _) (simplifyLoop xs _)

theorem simplify (s : Signal K) : Tame s.simplify :=
  bind (simplifyLoop _ _) fun _ => ite (bind (back _) fun _ => pushBack _ _) (ok _)

theorem resizeLoop (start end_ : D K) : ∀ (xs : List (Sample K)) (s : Signal K) (prev : Option (Sample K)),
    Tame (Signal.resizeLoop start end_ s prev xs)
  | [], s, prev => by
    simp only [Signal.resizeLoop]
    exact ok _
  | x :: xs, s, prev => by
    simp only [Signal.resizeLoop]
    refine ite (bind (pushBack _ _) fun _ => resizeLoop start end_ xs _ _) (ite (bind (pushBack _ _) fun _ =>
      resizeLoop start end_ xs _ _) (ite ?_ (resizeLoop start end_ xs _ _)))
    split
    · exact ite (bind (pushBack _ _) fun _ => resizeLoop start end_ xs _ _) (ok _)
    · exact ok _

theorem resizeShift (s : Signal K) (a b c d : D K) : Tame (s.resizeShift a b c d) := by
  refine bind ?_ fun _ => ok _
  unfold Signal.resize
  dsimp only
  exact ite (bind (pushBack _ _) fun _ => resizeLoop _ _ _ _ _) (bind (ok _) fun _ => resizeLoop _ _ _ _ _)

theorem syncHead (t : D K) (prev : Option (Sample K)) (rest : List (Sample K)) (pi : Option (Sample K)) :
    Tame (Verif.syncHead t prev rest pi) := by
  unfold Verif.syncHead
  split
  · exact ⟨nofun, nofun⟩
  · refine ite ?_ (ok _)
    split
    · exact ok _
    · exact bind (derefPrev _) fun _ => ok _

theorem consPair (a b : Sample K) {r : Outcome (List (Sample K) × List (Sample K))} (h : Tame r) :
    Tame (Verif.consPair a b r) := bind h fun _ => ok _

theorem syncInner {next : Option (Sample K) → List (Sample K) → Outcome (List (Sample K) × List (Sample K))}
    (hn : ∀ p l, Tame (next p l)) (pi : Option (Sample K)) (i : Sample K) : ∀ (js : List (Sample K))
    (pj : Option (Sample K)), Tame (Verif.syncInner next pi i pj js)
  | [], _ => ok _
  | j :: js, pj => by
    rw [Verif.syncInner]
    exact ite (consPair _ _ (hn _ _)) (ite (bind (derefPrev _) fun _ => consPair _ _ (hn _ _))
      (ite (bind (derefPrev _) fun _ => consPair _ _ (syncInner hn pi i js _)) ⟨nofun, nofun⟩))

theorem syncLoop : ∀ (is : List (Sample K)) (pi pj : Option (Sample K)) (js : List (Sample K)),
    Tame (Verif.syncLoop pi is pj js)
  | [], _, _, _ => ok _
  | i :: is, pi, pj, js => syncInner (fun p l => syncLoop is _ p l) pi i js pj

theorem synchronize (x y : Signal K) : Tame (Verif.synchronize x y) :=
  bind (lowerBound _ _) fun _ => bind (syncHead _ _ _ _) fun _ => bind (lowerBound _ _) fun _ =>
    bind (syncHead _ _ _ _) fun _ => bind (syncLoop _ _ _ _) fun _ => bind (vback _) fun _ => bind (vback _) fun _ =>
    bind (vback _) fun _ => bind (vback _) fun _ => bind (ofSamples _) fun _ => bind (ofSamples _) fun _ => ok _

theorem insertCrossing (s : Signal K) (p q : Option (Sample K)) (t : D K) : Tame (Verif.insertCrossing s p q t) :=
  bind (derefPrev _) fun _ => bind (derefPrev _) fun _ => ite (pushBack _ _) (ok _)

theorem minmaxPairLoop (comp : Cmp K) : ∀ (is js : List (Sample K)) (s : Signal K) (last : Chosen)
    (pi pj : Option (Sample K)), Tame (Verif.minmaxPairLoop comp s last pi pj is js)
  | [], _, _, _, _, _ => by
    simp only [Verif.minmaxPairLoop]
    exact ok _
  | _ :: _, [], _, _, _, _ => by
    simp only [Verif.minmaxPairLoop]
    exact ok _
  | i :: is, j :: js, s, last, pi, pj => by
    rw [Verif.minmaxPairLoop]
    dsimp only
    exact ite (ite (bind (insertCrossing _ _ _ _) fun _ => bind (pushBack _ _) fun _ => minmaxPairLoop comp is js _ _ _ _)
        (bind (ok _) fun _ => bind (pushBack _ _) fun _ => minmaxPairLoop comp is js _ _ _ _))
      (ite (bind (insertCrossing _ _ _ _) fun _ => bind (pushBack _ _) fun _ => minmaxPairLoop comp is js _ _ _ _)
        (bind (ok _) fun _ => bind (pushBack _ _) fun _ => minmaxPairLoop comp is js _ _ _ _))

theorem minmaxPair (nd : Bool) (comp : Cmp K) (x y : Signal K) (synced : Bool) :
    Tame (Verif.minmaxPair nd comp x y synced) := by
  unfold Verif.minmaxPair
  dsimp only
  refine ite (bind (ok _) fun v => ?_) (bind (synchronize _ _) fun v => ?_)
  all_goals exact bind (assert _ _) fun _ => bind (assert _ _) fun _ => bind (assert _ _) fun _ =>
    minmaxPairLoop comp _ _ _ _ _ _

theorem minmaxFold (nd : Bool) (comp : Cmp K) (synced : Bool) : ∀ (xs : List (Signal K)) (a : Signal K),
    Tame (Verif.minmaxFold nd comp synced a xs)
  | [], _ => ok _
  | _ :: xs, _ => bind (minmaxPair _ _ _ _ _) fun _ => minmaxFold nd comp synced xs _

theorem minmaxVec (nd : Bool) (comp : Cmp K) (xs : List (Signal K)) (synced : Bool) :
    Tame (Verif.minmaxVec nd comp xs synced) := by
  unfold Verif.minmaxVec
  split
  · exact pushBack _ _
  · exact ok _
  · exact minmaxPair _ _ _ _ _
  · exact minmaxFold _ _ _ _ _

theorem minmaxSeq (comp : Cmp K) (x : Signal K) : Tame (Verif.minmaxSeq comp x) := bind (back _) fun _ => ofSamples _

theorem windowFill (comp : Cmp K) (limit : D K) : ∀ (l : List (Sample K)) (prev : Option (Sample K))
    (w : List (Sample K)), Tame (Verif.windowFill comp limit prev l w)
  | [], _, _ => ⟨nofun, nofun⟩
  | i :: l, prev, w => by
    rw [Verif.windowFill]
    exact ite (bind (update _ _ _) fun _ => windowFill comp limit l _ _) (ok _)

theorem popExpired (bound : D K) : ∀ w : List (Sample K), Tame (Verif.popExpired bound w)
  | [] => ⟨nofun, nofun⟩
  | f :: w => by
    rw [Verif.popExpired]
    exact ite (popExpired bound w) (ok _)

theorem windowLoop (comp : Cmp K) (a : D K) : ∀ (fuel : Nat) (prev : Option (Sample K)) (l w : List (Sample K))
    (z : Signal K), Tame (Verif.windowLoop comp a fuel prev l w z)
  | 0, _, [], _, _ => by rw [Verif.windowLoop]; exact ok _
  | _ + 1, _, [], _, _ => by rw [Verif.windowLoop]; exact ok _
  | 0, _, _ :: _, _, _ => by rw [Verif.windowLoop]; exact ⟨nofun, nofun⟩
  | n + 1, prev, i :: rest, w, z => by
    rw [Verif.windowLoop]
    dsimp only
    refine bind (vback _) fun f => ite (bind (map _ (derefPrev _)) fun _ => ?_) (bind (ok _) fun _ => ?_)
    all_goals exact bind (update _ _ _) fun _ => bind (popExpired _ _) fun _ => bind (pushBack _ _) fun _ =>
      windowLoop comp a n _ _ _ _

theorem minmaxSeqWindow (fuel : Nat) (comp : Cmp K) (x : Signal K) (a b : D K) :
    Tame (Verif.minmaxSeqWindow fuel comp x a b) := by
  unfold Verif.minmaxSeqWindow
  dsimp only
  refine ite (bind (ok _) fun _ => ?_) (bind (back _) fun _ => bind (resizeShift _ _ _ _ _) fun _ => ?_)
  all_goals exact bind (windowFill _ _ _ _ _) fun _ => bind (windowLoop _ _ _ _ _ _ _) fun _ => simplify _

theorem computeUntil (nd : Bool) (x y : Signal K) : Tame (Verif.computeUntil nd x y) :=
  bind (synchronize _ _) fun _ => bind (assert _ _) fun _ => bind (assert _ _) fun _ => bind (assert _ _) fun _ =>
    ofSamples _

variable (r : RobustnessOp K)

theorem temporal (comp : Cmp K) (y : Signal K) (i : Interval K) : Tame (r.temporal comp y i) :=
  ite (minmaxSeq _ _) (ite (throw _) (ite (ok _) (ite (minmaxSeq _ _) (minmaxSeqWindow _ _ _ _ _))))

theorem untilOp (x y : Signal K) (i : Interval K) : Tame (r.untilOp x y i) :=
  ite (computeUntil _ _ _) (ite (computeUntil _ _ _) (throw _))

mutual

theorem compute : ∀ e : Expr K, Tame (r.compute e)
  | .const b => by rw [RobustnessOp.compute]; exact ofSamples _
  | .pred name op rhs => by
    rw [RobustnessOp.compute]
    refine bind ?_ fun _ => ofSamples _
    unfold Trace.at_
    split
    · exact throw _
    · exact ok _
  | .not e => by
    rw [RobustnessOp.compute]
    exact bind (compute e) fun _ => ofSamples _
  | .and args => by
    rw [RobustnessOp.compute]
    exact bind (computeArgs args) fun _ => bind (assert _ _) fun _ => minmaxVec _ _ _ _
  | .or args => by
    rw [RobustnessOp.compute]
    exact bind (computeArgs args) fun _ => bind (assert _ _) fun _ => minmaxVec _ _ _ _
  | .always e i => by
    rw [RobustnessOp.compute]
    exact bind (compute e) fun _ => temporal r _ _ _
  | .eventually e i => by
    rw [RobustnessOp.compute]
    exact bind (compute e) fun _ => temporal r _ _ _
  | .untl e1 e2 i => by
    rw [RobustnessOp.compute]
    exact bind (compute e1) fun _ => bind (compute e2) fun _ => untilOp r _ _ _

theorem computeArgs : ∀ es : List (Expr K), Tame (r.computeArgs es)
  | [] => by rw [RobustnessOp.computeArgs]; exact ok _
  | e :: es => by
    rw [RobustnessOp.computeArgs]
    exact bind (compute e) fun _ => bind (computeArgs es) fun _ => ok _

end

theorem computeRobustness (nd : Bool) (fuel : Nat) (phi : Expr K) (vt : Trace K) (sync : Bool) :
    Tame (Verif.computeRobustness nd fuel phi vt sync) := compute _ phi

end
end Tame
end Verif
