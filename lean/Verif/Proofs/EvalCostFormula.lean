import Verif.Proofs.EvalCost
import Verif.Props.AnyRound

/-!
# The rounds of the evaluation of a formula
-/

set_option linter.unusedSectionVars false

namespace Verif
open Spec Steps

section
variable {K : Type} [Field K] [LinearOrder K] [Arith K]
open RobustnessOp

/-- A set of formulas, closed under subformulas and under taking the first operands of And and Or, whose results
have at most `B` samples. -/
structure Sized (r : RobustnessOp K) (B : Nat) (P : Expr K → Prop) : Prop where
  size : ∀ {e y}, P e → r.compute e = .ok y → y.samples.length ≤ B
  sig : ∀ {n op c x}, P (.pred n op c) → r.trace.at_ n = .ok x → x.samples.length ≤ B
  not : ∀ {e}, P (.not e) → P e
  always : ∀ {e i}, P (.always e i) → P e
  eventually : ∀ {e i}, P (.eventually e i) → P e
  untl : ∀ {a b i}, P (.untl a b i) → P a ∧ P b
  and : ∀ {args}, P (.and args) → (∀ e ∈ args, P e) ∧ ∀ m, 2 ≤ m → P (.and (args.take m))
  or : ∀ {args}, P (.or args) → (∀ e ∈ args, P e) ∧ ∀ m, 2 ≤ m → P (.or (args.take m))

theorem vec_count {r : RobustnessOp K} {B : Nat} {P : Expr K → Prop} (h : Sized r B P) {comp : Cmp K}
    {args : List (Expr K)} {ys : List (Signal K)} (hys : r.computeArgs args = .ok ys) (hmem : ∀ e ∈ args, P e)
    (hpre : ∀ m, 2 ≤ m → ∀ z, minmaxVec r.ndebug comp (ys.take m) false = .ok z → z.samples.length ≤ B) :
    (minmaxVecS r.ndebug comp ys false).count + (10 * B + 6) ≤ args.length * (10 * B + 6) + (10 * B + 6) := by
  have hl := computeArgs_same_length r hys
  have hm : ∀ y ∈ ys, y.samples.length ≤ B := fun y hy => by
    obtain ⟨e, he, h'⟩ := computeArgs_mem r hys y hy
    exact h.size (hmem e he) h'
  cases ys with
  | nil => simp [minmaxVecS]
  | cons y ys =>
    have := minmaxVecS_fold r.ndebug comp false y ys
    have := minmaxFoldS_count r.ndebug comp false B ys y (hm y (by simp)) (fun x hx => hm x (by simp [hx]))
      fun m z hz => by
        rcases m with _ | m
        · simp only [List.take_zero, minmaxFold] at hz
          cases hz; exact hm _ (by simp)
        · refine hpre (m + 2) (by omega) z ?_
          rw [List.take_succ_cons, minmaxVec_cons_fold]; exact hz
    have : ys.length * (10 * B + 6) ≤ args.length * (10 * B + 6) := Nat.mul_le_mul_right _ (by simp at hl; omega)
    omega

mutual
theorem computeS_count {r : RobustnessOp K} {B : Nat} {P : Expr K → Prop} (h : Sized r B P) : ∀ e : Expr K, P e →
    (computeS r e).count + (10 * B + 6) ≤ (11 * B + 9) * e.nodes
  | .const b, hp => by
    rw [computeS, Expr.nodes]
    have : (tick >>= fun _ => r.constS b).count ≤ 3 := tick_bind_le (constS_count r b) (by omega)
    omega
  | .pred n o c, hp => by
    rw [computeS, Expr.nodes]
    have : (tick >>= fun _ => r.predS n o c).count ≤ B + 1 :=
      tick_bind_le (predS_count r n o c fun x hx => h.sig hp hx) (by omega)
    omega
  | .not e, hp => by
    have ih := computeS_count h e (h.not hp)
    rw [computeS, Expr.nodes]
    have : (tick >>= fun _ => computeS r e >>= fun x => negateS x).count ≤ 1 + ((computeS r e).count + 2 * B) :=
      tick_bind_le (bind_le le_rfl fun y hy => by
        rw [computeS_out] at hy
        have := h.size (h.not hp) hy
        have := negateS_count y
        omega) le_rfl
    rw [Nat.mul_add]; omega
  | .and es, hp => by
    have ih := computeArgsS_count h es (h.and hp).1
    rw [computeS, Expr.nodes, Nat.mul_add]
    refine le_trans (Nat.add_le_add_right (tick_bind_le (k := (computeArgsS r es).count + es.length * (10 * B + 6))
      (bind_le le_rfl fun ys hys => lift_bind_le fun _ ha => ?_) le_rfl) _) (by omega)
    rw [computeArgsS_out] at hys
    have := vec_count h (comp := Sample.le) hys (h.and hp).1 fun m hm z hz => by
      refine h.size ((h.and hp).2 m hm) (y := z) ?_
      have hl := computeArgs_same_length r hys
      rw [compute, computeArgs_take r hys m, Outcome.bind_ok]
      simp only [List.length_take, hl, assert_, beq_self_eq_true, Bool.or_true, if_true, Outcome.bind_ok, elementwiseMin]
      exact hz
    dsimp only
    omega
  | .or es, hp => by
    have ih := computeArgsS_count h es (h.or hp).1
    rw [computeS, Expr.nodes, Nat.mul_add]
    refine le_trans (Nat.add_le_add_right (tick_bind_le (k := (computeArgsS r es).count + es.length * (10 * B + 6))
      (bind_le le_rfl fun ys hys => lift_bind_le fun _ ha => ?_) le_rfl) _) (by omega)
    rw [computeArgsS_out] at hys
    have := vec_count h (comp := Sample.ge) hys (h.or hp).1 fun m hm z hz => by
      refine h.size ((h.or hp).2 m hm) (y := z) ?_
      have hl := computeArgs_same_length r hys
      rw [compute, computeArgs_take r hys m, Outcome.bind_ok]
      simp only [List.length_take, hl, assert_, beq_self_eq_true, Bool.or_true, if_true, Outcome.bind_ok, elementwiseMax]
      exact hz
    dsimp only
    omega
  | .always e i, hp => by
    have ih := computeS_count h e (h.always hp)
    rw [computeS, Expr.nodes]
    have : (tick >>= fun _ => computeS r e >>= fun y => temporalS r Sample.le y i).count ≤
        1 + ((computeS r e).count + 3 * B) :=
      tick_bind_le (bind_le le_rfl fun y hy => by
        rw [computeS_out] at hy
        have := h.size (h.always hp) hy
        have := temporalS_count r Sample.le y i
        omega) le_rfl
    rw [Nat.mul_add]; omega
  | .eventually e i, hp => by
    have ih := computeS_count h e (h.eventually hp)
    rw [computeS, Expr.nodes]
    have : (tick >>= fun _ => computeS r e >>= fun y => temporalS r Sample.ge y i).count ≤
        1 + ((computeS r e).count + 3 * B) :=
      tick_bind_le (bind_le le_rfl fun y hy => by
        rw [computeS_out] at hy
        have := h.size (h.eventually hp) hy
        have := temporalS_count r Sample.ge y i
        omega) le_rfl
    rw [Nat.mul_add]; omega
  | .untl a b i, hp => by
    have iha := computeS_count h a (h.untl hp).1
    have ihb := computeS_count h b (h.untl hp).2
    rw [computeS, Expr.nodes]
    have : (tick >>= fun _ => computeS r a >>= fun x => computeS r b >>= fun y => untilOpS r x y i).count ≤
        1 + ((computeS r a).count + ((computeS r b).count + (14 * B + 10))) :=
      tick_bind_le (bind_le le_rfl fun x hx => bind_le le_rfl fun y hy => by
        rw [computeS_out] at hx hy
        have := h.size (h.untl hp).1 hx
        have := h.size (h.untl hp).2 hy
        have := untilOpS_count r x y i
        omega) le_rfl
    rw [Nat.mul_add, Nat.mul_add]; omega
theorem computeArgsS_count {r : RobustnessOp K} {B : Nat} {P : Expr K → Prop} (h : Sized r B P) :
    ∀ es : List (Expr K), (∀ e ∈ es, P e) →
    (computeArgsS r es).count + es.length * (10 * B + 6) ≤ (11 * B + 9) * Expr.nodesAll es
  | [], _ => by simp [computeArgsS]
  | e :: es, hp => by
    have iha := computeS_count h e (hp e (by simp))
    have ihb := computeArgsS_count h es fun e' he' => hp e' (by simp [he'])
    rw [computeArgsS, Expr.nodesAll, List.length_cons]
    have : (computeS r e >>= fun y => computeArgsS r es >>= fun ys => pure (y :: ys)).count ≤
        (computeS r e).count + ((computeArgsS r es).count + 0) :=
      bind_le le_rfl fun _ _ => bind_le le_rfl fun _ _ => by simp
    rw [Nat.succ_mul, Nat.mul_add (11 * B + 9)]; omega
end

theorem computeRobustnessS_count {nd : Bool} {fuel : Nat} {trace : Trace K} {B : Nat} {P : Expr K → Prop}
    (h : Sized ⟨nd, fuel, (minMaxTime trace).1, (minMaxTime trace).2, trace⟩ B P) {phi : Expr K} (hp : P phi) :
    (computeRobustnessS nd fuel phi trace).count ≤ trace.length + (11 * B + 9) * phi.nodes := by
  have := computeS_count h phi hp
  exact tick_bind_le (k := (11 * B + 9) * phi.nodes) (by omega) le_rfl

end

/-! ## The set of plain formulas -/

section counts
variable {K : Type}

theorem predCount_le : ∀ {args : List (Expr K)} {e : Expr K}, e ∈ args → predCount e ≤ predCounts args
  | a :: args, e, h => by
    rw [predCounts]
    rcases List.mem_cons.1 h with rfl | h
    · omega
    · have := predCount_le h; omega

theorem predCounts_take : ∀ (args : List (Expr K)) (m : Nat), predCounts (args.take m) ≤ predCounts args
  | [], m => by simp
  | a :: args, 0 => by simp [predCounts]
  | a :: args, m + 1 => by
    have := predCounts_take args m
    rw [List.take_succ_cons, predCounts, predCounts]; omega

theorem temporalDepth_le : ∀ {args : List (Expr K)} {e : Expr K}, e ∈ args → temporalDepth e ≤ temporalDepths args
  | a :: args, e, h => by
    rw [temporalDepths]
    rcases List.mem_cons.1 h with rfl | h
    · omega
    · have := temporalDepth_le h; omega

theorem temporalDepths_take : ∀ (args : List (Expr K)) (m : Nat), temporalDepths (args.take m) ≤ temporalDepths args
  | [], m => by simp
  | a :: args, 0 => by simp [temporalDepths]
  | a :: args, m + 1 => by
    have := temporalDepths_take args m
    rw [List.take_succ_cons, temporalDepths, temporalDepths]; omega

end counts

section exact
variable {K : Type} [Field K] [LinearOrder K] [IsStrictOrderedRing K] [Arith K] [ExactArith K]

theorem sized_plain (nd : Bool) (fuel : Nat) (trace : Trace K) (t0 : K)
    (sig : String → List (K × K)) (n p d : Nat) (hp1 : 1 ≤ p) :
    Sized ⟨nd, fuel, (minMaxTime trace).1, (minMaxTime trace).2, trace⟩ (n * p ^ (2 * d + 3))
      fun e => Plain e ∧ predCount e ≤ p ∧ temporalDepth e ≤ d ∧
        ∀ m, Uses m e → ∃ x, trace.lookup m = some x ∧ Represents x (sig m) ∧ (sig m).length ≤ n ∧
          ∃ v r, sig m = (t0, v) :: r where
  size := by
    rintro e y ⟨h1, h2, h3, h4⟩ h
    refine (C108_polynomial nd fuel trace true t0 sig n e h1 h4 y h).trans (Nat.mul_le_mul_left _ ?_)
    exact (Nat.pow_le_pow_left h2 _).trans (Nat.pow_le_pow_right hp1 (by omega))
  sig := by
    rintro m op c x ⟨-, -, -, h⟩ hx
    obtain ⟨x', h1, h2, h3, -⟩ := h m (.pred op c)
    unfold Trace.at_ at hx
    rw [h1] at hx
    cases hx
    obtain ⟨-, rfl⟩ := (represents_iff _ _).1 h2
    have := congrArg List.length (represents_ofPts (K := K) (represents_iff _ _ |>.1 h2).1).2
    simp only [List.length_map] at this
    rw [this]
    exact h3.trans (Nat.le_mul_of_pos_right _ (Nat.pow_pos hp1))
  not := by
    rintro e ⟨h1, h2, h3, h4⟩
    cases h1 with | not h1 => exact ⟨h1, h2, h3, fun m hm => h4 m (.not hm)⟩
  always := by
    rintro e i ⟨h1, h2, h3, h4⟩
    rw [temporalDepth] at h3
    cases h1 with | always _ h1 => exact ⟨h1, h2, by omega, fun m hm => h4 m (.always hm)⟩
  eventually := by
    rintro e i ⟨h1, h2, h3, h4⟩
    rw [temporalDepth] at h3
    cases h1 with | eventually _ h1 => exact ⟨h1, h2, by omega, fun m hm => h4 m (.eventually hm)⟩
  untl := by
    rintro a b i ⟨h1, h2, h3, h4⟩
    rw [temporalDepth] at h3
    rw [predCount] at h2
    cases h1 with
    | untl _ h1 h1' =>
      exact ⟨⟨h1, by omega, by omega, fun m hm => h4 m (.untl_left hm)⟩,
        h1', by omega, by omega, fun m hm => h4 m (.untl_right hm)⟩
  and := by
    rintro args ⟨h1, h2, h3, h4⟩
    rw [temporalDepth] at h3
    rw [predCount] at h2
    cases h1 with
    | and hl h1 =>
      refine ⟨fun e he => ⟨h1 e he, (predCount_le he).trans h2, (temporalDepth_le he).trans h3,
        fun m hm => h4 m (.and he hm)⟩, fun m hm => ⟨.and ?_ fun e he => h1 e (List.mem_of_mem_take he), ?_, ?_, ?_⟩⟩
      · simp; omega
      · rw [predCount]; exact (predCounts_take _ _).trans h2
      · rw [temporalDepth]; exact (temporalDepths_take _ _).trans h3
      · intro k hk
        cases hk with | and he hk => exact h4 k (.and (List.mem_of_mem_take he) hk)
  or := by
    rintro args ⟨h1, h2, h3, h4⟩
    rw [temporalDepth] at h3
    rw [predCount] at h2
    cases h1 with
    | or hl h1 =>
      refine ⟨fun e he => ⟨h1 e he, (predCount_le he).trans h2, (temporalDepth_le he).trans h3,
        fun m hm => h4 m (.or he hm)⟩, fun m hm => ⟨.or ?_ fun e he => h1 e (List.mem_of_mem_take he), ?_, ?_, ?_⟩⟩
      · simp; omega
      · rw [predCount]; exact (predCounts_take _ _).trans h2
      · rw [temporalDepth]; exact (temporalDepths_take _ _).trans h3
      · intro k hk
        cases hk with | or he hk => exact h4 k (.or (List.mem_of_mem_take he) hk)

end exact

/-! ## Every formula, with every rounding -/

section any
variable {K : Type} [Field K] [LinearOrder K] [IsStrictOrderedRing K] [Arith K]

theorem foldl_ge : ∀ (l : List Nat) (n : Nat), n ≤ l.foldl (fun m k => 2 * (m + k)) n
  | [], n => by simp
  | k :: l, n => by
    have := foldl_ge l (2 * (n + k))
    rw [List.foldl_cons]; omega

theorem foldl_mem : ∀ (l : List Nat) (n : Nat), ∀ k ∈ l, k ≤ l.foldl (fun m k => 2 * (m + k)) n
  | j :: l, n, k, h => by
    rw [List.foldl_cons]
    rcases List.mem_cons.1 h with rfl | h
    · have := foldl_ge l (2 * (n + k)); omega
    · exact foldl_mem l _ k h

theorem foldl_take : ∀ (l : List Nat) (n m : Nat),
    (l.take m).foldl (fun m k => 2 * (m + k)) n ≤ l.foldl (fun m k => 2 * (m + k)) n
  | [], n, m => by simp
  | k :: l, n, 0 => by simpa using foldl_ge (k :: l) n
  | k :: l, n, m + 1 => by
    rw [List.take_succ_cons, List.foldl_cons, List.foldl_cons]; exact foldl_take l _ m

theorem naryBound_mem {l : List Nat} {k : Nat} (h : k ∈ l) : k ≤ naryBound l := by
  cases l with
  | nil => simp at h
  | cons n l =>
    rw [naryBound]
    rcases List.mem_cons.1 h with rfl | h
    · exact foldl_ge l _
    · exact foldl_mem l _ k h

theorem naryBound_take {l : List Nat} {m : Nat} (hm : 2 ≤ m) : naryBound (l.take m) ≤ naryBound l := by
  cases l with
  | nil => simp
  | cons n l =>
    obtain ⟨m, rfl⟩ : ∃ k, m = k + 1 := ⟨m - 1, by omega⟩
    rw [List.take_succ_cons, naryBound, naryBound]; exact foldl_take l n m

theorem sampleBounds_map (count : String → Nat) : ∀ args : List (Expr K), sampleBounds count args = args.map (sampleBound count)
  | [] => rfl
  | e :: es => by rw [sampleBounds, List.map_cons, sampleBounds_map count es]

theorem sized_any [SaneArith K] (nd : Bool) (fuel : Nat) (trace : Trace K) (ht : FiniteTimes trace) (count : String → Nat)
    (hc : ∀ n x, trace.lookup n = some x → x.samples.length ≤ count n) (B : Nat) :
    Sized ⟨nd, fuel, (minMaxTime trace).1, (minMaxTime trace).2, trace⟩ B fun e => sampleBound count e ≤ B where
  size := fun h1 h => (C63_sample_count nd fuel _ trace true ht count hc _ h).trans h1
  sig := by
    intro n op c x h hx
    unfold Trace.at_ at hx
    split at hx
    · cases hx
    · rename_i x' hx'
      cases hx
      exact (hc n _ hx').trans h
  not := fun h => h
  always := fun h => h
  eventually := fun h => h
  untl := fun h => by rw [sampleBound] at h; omega
  and := by
    intro args h
    rw [sampleBound, sampleBounds_map] at h
    refine ⟨fun e he => (naryBound_mem (List.mem_map_of_mem he)).trans h, fun m hm => ?_⟩
    rw [sampleBound, sampleBounds_map, List.map_take]
    exact (naryBound_take hm).trans h
  or := by
    intro args h
    rw [sampleBound, sampleBounds_map] at h
    refine ⟨fun e he => (naryBound_mem (List.mem_map_of_mem he)).trans h, fun m hm => ?_⟩
    rw [sampleBound, sampleBounds_map, List.map_take]
    exact (naryBound_take hm).trans h

end any
end Verif
