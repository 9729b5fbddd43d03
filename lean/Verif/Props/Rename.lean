import Verif.Props.Totality
import Verif.Spec.Rename
import Mathlib.Data.List.Perm.Basic

/-!
# Renaming the signals: C77
-/

set_option linter.unusedSectionVars false

namespace Verif
open Spec

variable {K : Type} [Field K] [LinearOrder K] [Arith K]

theorem lookup_iff {l : Trace K} (h : (l.map Prod.fst).Nodup) (n : String) (x : Signal K) :
    l.lookup n = some x ↔ (n, x) ∈ l := by
  induction l with
  | nil => simp
  | cons e l ih =>
    simp only [List.map_cons, List.nodup_cons] at h
    rw [List.lookup]
    by_cases hn : n = e.1
    · subst hn
      simp only [beq_self_eq_true, Option.some.injEq, List.mem_cons]
      constructor
      · rintro rfl; exact .inl rfl
      · rintro (he | he)
        · rw [← he]
        · exact absurd (List.mem_map_of_mem (f := Prod.fst) he) h.1
    · have : (n == e.1) = false := by simpa using hn
      simp only [this, ih h.2, List.mem_cons]
      constructor
      · exact .inr
      · rintro (rfl | he)
        · exact absurd rfl hn
        · exact he

theorem min_right_comm' (a b c : D K) : D.min (D.min a b) c = D.min (D.min a c) b := by
  cases a <;> cases b <;> cases c
  case fin.fin.fin a b c => rw [D.min_fin, D.min_fin, D.min_fin, D.min_fin, min_right_comm]
  all_goals simp only [D.min, D.lt]
  all_goals simp
  all_goals split_ifs <;> simp
  · exact absurd ‹_› (lt_asymm ‹_›)
  · exact le_antisymm (not_lt.1 ‹_›) (not_lt.1 ‹_›)

theorem max_right_comm' (a b c : D K) : D.max (D.max a b) c = D.max (D.max a c) b := by
  cases a <;> cases b <;> cases c
  case fin.fin.fin a b c => rw [D.max_fin, D.max_fin, D.max_fin, D.max_fin, max_right_comm]
  all_goals simp only [D.max, D.lt]
  all_goals simp
  all_goals split_ifs <;> simp
  · exact absurd ‹_› (lt_asymm ‹_›)
  · exact le_antisymm (not_lt.1 ‹_›) (not_lt.1 ‹_›)

theorem minMaxTime_perm {l l' : Trace K} (h : l.Perm l') : minMaxTime l = minMaxTime l' := by
  unfold minMaxTime
  refine h.foldl_eq' ?_ _
  intro x _ y _ z
  exact Prod.ext (min_right_comm' _ _ _) (max_right_comm' _ _ _)

theorem minMaxTime_map (f : String → String) (l : Trace K) :
    minMaxTime (l.map fun e => (f e.1, e.2)) = minMaxTime l := by
  unfold minMaxTime
  rw [List.foldl_map]

theorem renames_eq (f : String → String) (es : List (Expr K)) : renames f es = es.map (rename f) := by
  induction es with
  | nil => rfl
  | cons e es ih => rw [renames, ih]; rfl

mutual
theorem compute_rename {r r' : RobustnessOp K} {f : String → String} (hd : r'.ndebug = r.ndebug)
    (hf : r'.fuel = r.fuel) (h1 : r'.minTime = r.minTime) (h2 : r'.maxTime = r.maxTime) :
    ∀ (e : Expr K), (∀ n, Uses n e → r'.trace.lookup (f n) = r.trace.lookup n) →
      r'.compute (rename f e) = r.compute e
  | .const b, _ => by
    rw [rename, RobustnessOp.compute, RobustnessOp.compute, RobustnessOp.const, RobustnessOp.const, h1, h2]
  | .pred n op c, h => by
    rw [rename, RobustnessOp.compute, RobustnessOp.compute, RobustnessOp.pred, RobustnessOp.pred, Trace.at_,
      Trace.at_, h n (.pred op c)]
  | .not e, h => by
    rw [rename, RobustnessOp.compute, RobustnessOp.compute,
      compute_rename hd hf h1 h2 e fun n hn => h n (.not hn)]
  | .and args, h => by
    rw [rename, RobustnessOp.compute, RobustnessOp.compute,
      computeArgs_rename hd hf h1 h2 args fun e he n hn => h n (.and he hn), renames_eq, List.length_map, hd]
  | .or args, h => by
    rw [rename, RobustnessOp.compute, RobustnessOp.compute,
      computeArgs_rename hd hf h1 h2 args fun e he n hn => h n (.or he hn), renames_eq, List.length_map, hd]
  | .always e i, h => by
    rw [rename, RobustnessOp.compute, RobustnessOp.compute,
      compute_rename hd hf h1 h2 e fun n hn => h n (.always hn)]
    simp only [RobustnessOp.temporal, hf]
  | .eventually e i, h => by
    rw [rename, RobustnessOp.compute, RobustnessOp.compute,
      compute_rename hd hf h1 h2 e fun n hn => h n (.eventually hn)]
    simp only [RobustnessOp.temporal, hf]
  | .untl e e' i, h => by
    rw [rename, RobustnessOp.compute, RobustnessOp.compute,
      compute_rename hd hf h1 h2 e fun n hn => h n (.untl_left hn),
      compute_rename hd hf h1 h2 e' fun n hn => h n (.untl_right hn)]
    simp only [RobustnessOp.untilOp, hd]

theorem computeArgs_rename {r r' : RobustnessOp K} {f : String → String} (hd : r'.ndebug = r.ndebug)
    (hf : r'.fuel = r.fuel) (h1 : r'.minTime = r.minTime) (h2 : r'.maxTime = r.maxTime) :
    ∀ (es : List (Expr K)), (∀ e ∈ es, ∀ n, Uses n e → r'.trace.lookup (f n) = r.trace.lookup n) →
      r'.computeArgs (renames f es) = r.computeArgs es
  | [], _ => by rw [renames, RobustnessOp.computeArgs, RobustnessOp.computeArgs]
  | e :: es, h => by
    rw [renames, RobustnessOp.computeArgs, RobustnessOp.computeArgs,
      compute_rename hd hf h1 h2 e (h e (by simp)),
      computeArgs_rename hd hf h1 h2 es fun e' he' => h e' (by simp [he'])]
end

/-! ## C77 -/

/-- **C77.** Renaming the signals in the formula and in the trace (by a function that does not identify names)
does not change the outcome, although it changes the order in which the map of signals is traversed.  For every
rounding and every signal, NaN included. -/
theorem C77_rename (nd : Bool) (fuel : Nat) (f : String → String) (phi : Expr K) (trace trace' : Trace K) (sy : Bool)
    (hk : (trace.map Prod.fst).Nodup)
    (hf : Set.InjOn f {n | n ∈ trace.map Prod.fst ∨ Uses n phi})
    (hp : trace'.Perm (trace.map fun e => (f e.1, e.2))) :
    computeRobustness nd fuel (rename f phi) trace' sy = computeRobustness nd fuel phi trace sy := by
  have hkeys : ((trace.map fun e => (f e.1, e.2)).map Prod.fst) = (trace.map Prod.fst).map f := by
    rw [List.map_map, List.map_map]; rfl
  have hn : ((trace.map fun e => (f e.1, e.2)).map Prod.fst).Nodup := by
    rw [hkeys]
    exact List.Nodup.map_on (fun x hx y hy h => hf (.inl hx) (.inl hy) h) hk
  have hn' : (trace'.map Prod.fst).Nodup := (hp.map Prod.fst).nodup_iff.2 hn
  have hm : minMaxTime trace' = minMaxTime trace := by rw [minMaxTime_perm hp, minMaxTime_map]
  unfold computeRobustness
  simp only [hm]
  refine compute_rename (r := ⟨nd, fuel, _, _, trace⟩) (r' := ⟨nd, fuel, _, _, trace'⟩) rfl rfl rfl rfl phi ?_
  intro n hu
  simp only
  apply Option.ext
  intro x
  rw [lookup_iff hn', lookup_iff hk, hp.mem_iff, List.mem_map]
  constructor
  · rintro ⟨e, he, h⟩
    simp only [Prod.mk.injEq] at h
    have := hf (.inl (List.mem_map_of_mem (f := Prod.fst) he)) (.inr hu) h.1
    rw [← this, ← h.2]; exact he
  · intro h
    exact ⟨_, h, rfl⟩

theorem rename_id (e : Expr K) : rename (fun n => n) e = e := by
  refine Expr.rec (motive_1 := fun e => rename (fun n => n) e = e) (motive_2 := fun es => renames (fun n => n) es = es)
    ?_ ?_ ?_ ?_ ?_ ?_ ?_ ?_ ?_ ?_ e
  all_goals intros; simp_all [rename, renames]

/-- **C77.** The order of the signals in the trace is irrelevant. -/
theorem C77_order (nd : Bool) (fuel : Nat) (phi : Expr K) (trace trace' : Trace K) (sy : Bool)
    (hk : (trace.map Prod.fst).Nodup) (hp : trace'.Perm trace) :
    computeRobustness nd fuel phi trace' sy = computeRobustness nd fuel phi trace sy := by
  have := C77_rename nd fuel (fun n => n) phi trace trace' sy hk (fun _ _ _ _ h => h) (by simpa using hp)
  rwa [rename_id] at this

-- x and y are exchanged
example : let f := fun n => if n = "x" then "y" else if n = "y" then "x" else n
    let tr : Trace ℚ := [("x", ofPts [(0, 0), (2, 4)]), ("y", ofPts [(0, 1), (3, 1)])]
    let tr' : Trace ℚ := [("x", ofPts [(0, 1), (3, 1)]), ("y", ofPts [(0, 0), (2, 4)])]
    let phi : Expr ℚ := .or [.untl (.pred "x" .GE 0) (.pred "y" .LT (.fin 2)) Interval.default, .const false]
    rename f phi = .or [.untl (.pred "y" .GE 0) (.pred "x" .LT (.fin 2)) Interval.default, .const false] ∧
    tr'.Perm (tr.map fun e => (f e.1, e.2)) ∧
    computeRobustness false 0 (rename f phi) tr' false = computeRobustness false 0 phi tr false := by
  refine ⟨rfl, List.Perm.swap _ _ _, ?_⟩
  apply C77_rename
  · decide
  · intro a _ b _ h
    simp only at h
    split_ifs at h <;> simp_all
  · exact List.Perm.swap _ _ _
-- with a function that identifies names it would be false
example : let f := fun _ => "x"
    let tr : Trace ℚ := [("x", ofPts [(0, 0), (2, 4)]), ("y", ofPts [(0, 1), (3, 1)])]
    let phi : Expr ℚ := .pred "y" .GE 0
    computeRobustness false 0 (rename f phi) (tr.map fun e => (f e.1, e.2)) false ≠
      computeRobustness false 0 phi tr false := by decide +kernel

end Verif
