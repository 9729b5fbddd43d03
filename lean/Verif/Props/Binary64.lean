import Verif.Proofs.Binary64
import Verif.Proofs.Const
import Verif.Proofs.WF
import Verif.Props.Constants
import Mathlib.Tactic.Push
import Mathlib.Tactic.ByContra

/-!
# And/Or of signals with identical timestamps, with rounding: C43

C43 is false in binary64: the time of a crossing, computed from rounded slopes, may be later than the
next sample, and then appending the next sample throws.  `C43_late_partial` says, for *every* rounding, exactly
when the call throws.
-/

set_option linter.unusedSectionVars false
set_option exponentiation.threshold 1100

namespace Verif
open Spec

namespace B64
instance : DecidableEq B64 := inferInstanceAs (DecidableEq ℚ)
instance (n : ℕ) : OfNat B64 n := inferInstanceAs (OfNat ℚ n)
end B64

/-! ## The arithmetic of `Model/Binary64.lean` is that of the standard -/

/-- The basic operations of binary64 round the exact result to the nearest representable number, ties
to even; they overflow exactly from `2^1024 - 2^970` on; and representable results are exact. -/
theorem binary64_rounding (q : ℚ) :
    (∀ r, B64.rnd q = .fin r → IsB64 r ∧ (∀ f, IsB64 f → |r - q| ≤ |f - q|) ∧
      ∀ f, IsB64 f → f ≠ r → |f - q| = |r - q| → EvenB64 r) ∧
    (B64.rnd q = .pinf ↔ 2 ^ 1024 - 2 ^ 970 ≤ q) ∧
    (B64.rnd q = .ninf ↔ q ≤ -(2 ^ 1024 - 2 ^ 970)) ∧
    B64.rnd q ≠ .nan ∧
    (IsB64 q → B64.rnd q = .fin q) :=
  ⟨fun _ h => B64.rnd_fin h, B64.rnd_pinf, B64.rnd_ninf, B64.rnd_ne_nan q, B64.rnd_self⟩

/-! ## The refutation -/

/-- Every time and value of the signal is a finite binary64 number. -/
def Representable (s : Signal B64) : Prop :=
  ∀ a ∈ s.samples, ∃ t v : ℚ, a.time = .fin t ∧ a.value = .fin v ∧ IsB64 t ∧ IsB64 v

theorem representable_ofPts {pts : List (ℚ × ℚ)} (h : ∀ p ∈ pts, IsB64 p.1 ∧ IsB64 p.2) :
    Representable (ofPts (K := B64) pts) := by
  intro a ha
  have h1 : tv a ∈ (build (List.map (lift (K := B64)) pts)).map tv := List.mem_map_of_mem (f := tv) ha
  rw [build_map_tv] at h1
  obtain ⟨p, hp, he⟩ := List.mem_map.1 h1
  obtain ⟨h2, h3⟩ := h p hp
  have e1 : a.time = (lift (K := B64) p).1 := by rw [he]; rfl
  have e2 : a.value = (lift (K := B64) p).2 := by rw [he]; rfl
  exact ⟨p.1, p.2, e1, e2, h2, h3⟩

/-- The claim of C43, for one operator. -/
def C43Claim (op : Expr B64 → Expr B64 → Expr B64) : Prop :=
  ∀ (nd : Bool) (fuel : Nat) (x y : Signal B64) (sy : Bool),
    WF x → WF y → Representable x → Representable y →
    x.samples.map Sample.time = y.samples.map Sample.time →
    computeRobustness nd fuel (op (.pred "x" .GE 0) (.pred "y" .GE 0)) [("x", x), ("y", y)] sy ≠
      .throw .invalidArgument

/-- First operands of the witnesses. -/
def lateX : Signal B64 := ofPts (K := B64) [((0 : ℚ), (1 / 2 ^ 60 : ℚ)), ((7 / 4 : ℚ), (2 - 1 / 2 ^ 52 : ℚ))]
def lateY : Signal B64 := ofPts (K := B64) [((0 : ℚ), (0 : ℚ)), ((7 / 4 : ℚ), (2 : ℚ))]
def lateX' : Signal B64 := ofPts (K := B64) [((0 : ℚ), (1 / 2 ^ 51 : ℚ)), ((7 / 4 : ℚ), (2 - 1 / 2 ^ 52 : ℚ))]

theorem isB64_zero : IsB64 0 := ⟨0, 0, by norm_num, by norm_num, by norm_num, by norm_num⟩
theorem isB64_two : IsB64 2 := ⟨2, 0, by norm_num, by norm_num, by norm_num, by norm_num⟩
theorem isB64_seven4 : IsB64 (7 / 4) := ⟨7, -2, by norm_num, by norm_num, by norm_num, by norm_num⟩
theorem isB64_pow60 : IsB64 (1 / 2 ^ 60) := ⟨1, -60, by norm_num, by norm_num, by norm_num, by norm_num⟩
theorem isB64_pow51 : IsB64 (1 / 2 ^ 51) := ⟨1, -51, by norm_num, by norm_num, by norm_num, by norm_num⟩
theorem isB64_near2 : IsB64 (2 - 1 / 2 ^ 52) :=
  ⟨2 ^ 53 - 1, -52, by norm_num, by norm_num, by norm_num, by norm_num⟩

/-- **C43 is false**, for `Or` and for `And`: two signals with two samples at the same binary64 times and
binary64 values, whose disjunction (conjunction) throws `invalid_argument`. -/
theorem C43_refuted :
    ¬ C43Claim (fun a b => .or [a, b]) ∧ ¬ C43Claim (fun a b => .and [a, b]) := by
  have w : ∀ p : ℚ × ℚ, ∀ q : ℚ × ℚ, p.1 < q.1 → WF (ofPts (K := B64) [p, q]) := by
    intro p q h
    refine (wf_iff _).2 ⟨_, ?_, rfl⟩
    refine ⟨?_, trivial⟩
    show D.le (.fin (q.1 : B64)) (.fin p.1) = false
    rw [D.le_fin]; exact decide_eq_false (not_le.2 h)
  have r : ∀ p q : ℚ × ℚ, IsB64 p.1 → IsB64 p.2 → IsB64 q.1 → IsB64 q.2 →
      Representable (ofPts (K := B64) [p, q]) := by
    intro p q h1 h2 h3 h4
    refine representable_ofPts fun s hs => ?_
    rcases List.mem_cons.1 hs with rfl | hs
    · exact ⟨h1, h2⟩
    · rw [List.mem_singleton.1 hs]; exact ⟨h3, h4⟩
  constructor
  · intro h
    refine h true 0 lateX lateY false (w _ _ (by norm_num)) (w _ _ (by norm_num))
      (r _ _ isB64_zero isB64_pow60 isB64_seven4 isB64_near2)
      (r _ _ isB64_zero isB64_zero isB64_seven4 isB64_two) (by decide +kernel) ?_
    decide +kernel
  · intro h
    refine h true 0 lateX' lateY false (w _ _ (by norm_num)) (w _ _ (by norm_num))
      (r _ _ isB64_zero isB64_pow51 isB64_seven4 isB64_near2)
      (r _ _ isB64_zero isB64_zero isB64_seven4 isB64_two) (by decide +kernel) ?_
    decide +kernel

/-! ## Exactly when it throws, for every rounding -/

section any
variable {K : Type} [Field K] [LinearOrder K] [IsStrictOrderedRing K] [Arith K]

/-- At no change of the winner (according to `comp`) between two consecutive samples of the lists is the
crossing, as computed by the code, after the later sample. -/
def NoLateCrossing (comp : Cmp K) : List (Sample K) → List (Sample K) → Prop
  | p :: i :: is, q :: j :: js =>
    (comp p q = true → comp i j = false → i.time.lt (p.timeIntersect q) = false) ∧
    (comp p q = false → comp i j = true → i.time.lt (q.timeIntersect p) = false) ∧
    NoLateCrossing comp (i :: is) (j :: js)
  | _, _ => True

/-- `insertCrossing` followed by the `push_back` of the winner. -/
theorem insert_push (l : List (D K × D K)) (e : D K × D K) (s p w : Sample K)
    (hl : l.getLast? = some e) (hlt : e.1.lt w.time = true) :
    (w.time.lt (s.timeIntersect p) = false →
      ∃ l', (do let out ← insertCrossing ⟨build l⟩ (some s) (some p) w.time
                out.pushBack w) = .ok ⟨build (l' ++ [tv w])⟩) ∧
    (w.time.lt (s.timeIntersect p) = true →
      (do let out ← insertCrossing ⟨build l⟩ (some s) (some p) w.time
          out.pushBack w) = .throw .invalidArgument) := by
  obtain ⟨l, rfl⟩ : ∃ l₀, l = l₀ ++ [e] := by
    rcases List.eq_nil_or_concat l with rfl | ⟨l₀, a, rfl⟩
    · simp at hl
    · rw [List.concat_eq_append] at *; simp at hl; subst hl; exact ⟨l₀, rfl⟩
  have hnan := D.lt_ne_nan hlt
  have hle : w.time.le e.1 = false := (D.not_le_iff_lt hnan.1 hnan.2).2 hlt
  have hend : (⟨build (l ++ [e])⟩ : Signal K).endTime = e.1 := endTime_build l e
  have hplain : Signal.pushBack ⟨build (l ++ [e])⟩ w = .ok ⟨build (l ++ [e] ++ [tv w])⟩ := by
    rw [pushBack_build, if_pos]; simpa using hle
  simp only [insertCrossing, derefPrev, Outcome.bind_ok, hend]
  set t := s.timeIntersect p with ht
  by_cases hc : (e.1.lt t && !t.eq w.time) = true
  · rw [if_pos hc]
    simp only [Bool.and_eq_true, Bool.not_eq_true'] at hc
    obtain ⟨c1, c2⟩ := hc
    have tn := D.lt_ne_nan c1
    have hins : Signal.pushBack ⟨build (l ++ [e])⟩ (.mk2 t (s.interpolate t)) =
        .ok ⟨build (l ++ [e] ++ [tv (.mk2 t (s.interpolate t))])⟩ := by
      rw [pushBack_build, if_pos]
      simpa [Sample.mk2] using (D.not_le_iff_lt tn.1 tn.2).2 c1
    rw [hins, Outcome.bind_ok, pushBack_build]
    constructor
    · intro h
      rw [if_pos]
      · exact ⟨_, rfl⟩
      · simp only [List.getLast?_append, List.getLast?_singleton, Option.some_or, Option.some.injEq,
          forall_eq']
        rw [D.not_le_iff_lt (by exact tn.2) hnan.2]
        rcases D.trichotomy tn.2 hnan.2 with h' | h' | h'
        · exact h'
        · rw [D.eq_iff.2 ⟨h', tn.2⟩] at c2; simp at c2
        · rw [h'] at h; simp at h
    · intro h
      rw [if_neg]
      intro h'
      have := h' _ (by simp; rfl)
      rw [show (tv (Sample.mk2 t (s.interpolate t))).1 = t from rfl, D.le_of_lt h] at this
      simp at this
  · rw [if_neg hc]
    simp only [Outcome.pure_eq_ok, Outcome.bind_ok]
    rw [hplain]
    refine ⟨fun _ => ⟨_, rfl⟩, fun h => ?_⟩
    exfalso
    apply hc
    have h1 := D.lt_trans hlt h
    have h2 : t.eq w.time = false := by
      rw [Bool.eq_false_iff]
      intro h2
      rw [(D.eq_iff.1 h2).1, D.lt_irrefl] at h; simp at h
    simp [h1, h2]

theorem loop_late (comp : Cmp K) : ∀ (is js : List (Sample K)) (p q : Sample K) (l : List (D K × D K))
    (e : D K × D K), l.getLast? = some e → e.1 = p.time → SortedT (p :: is) →
    is.map Sample.time = js.map Sample.time →
    (NoLateCrossing comp (p :: is) (q :: js) → ∃ z,
      minmaxPairLoop comp ⟨build l⟩ (if comp p q then .X else .Y) (some p) (some q) is js = .ok z) ∧
    (¬ NoLateCrossing comp (p :: is) (q :: js) →
      minmaxPairLoop comp ⟨build l⟩ (if comp p q then .X else .Y) (some p) (some q) is js =
        .throw .invalidArgument) := by
  intro is
  induction is with
  | nil =>
    intro js p q l e hl he hs ht
    have : js = [] := by simpa using ht.symm
    subst this
    simp [NoLateCrossing, minmaxPairLoop]
  | cons i is ih =>
    intro js p q l e hl he hs ht
    cases js with
    | nil => simp at ht
    | cons j js =>
    simp only [List.map_cons, List.cons.injEq] at ht
    obtain ⟨hij, ht⟩ := ht
    obtain ⟨hs1, hs2⟩ := sortedT_cons.1 hs
    have hlt : e.1.lt i.time = true := by rw [he]; exact hs1 i (by simp)
    have next : ∀ (l' : List (D K × D K)) (w : Sample K), w.time = i.time →
        (NoLateCrossing comp (i :: is) (j :: js) → ∃ z,
          minmaxPairLoop comp ⟨build (l' ++ [tv w])⟩ (if comp i j then .X else .Y) (some i) (some j) is js =
            .ok z) ∧
        (¬ NoLateCrossing comp (i :: is) (j :: js) →
          minmaxPairLoop comp ⟨build (l' ++ [tv w])⟩ (if comp i j then .X else .Y) (some i) (some j) is js =
            .throw .invalidArgument) :=
      fun l' w hw => ih js i j (l' ++ [tv w]) (tv w) (by simp) hw hs2 ht
    obtain ⟨l₀, rfl⟩ : ∃ l₀, l = l₀ ++ [e] := by
      rcases List.eq_nil_or_concat l with rfl | ⟨l₀, a, rfl⟩
      · simp at hl
      · rw [List.concat_eq_append] at *; simp at hl; subst hl; exact ⟨l₀, rfl⟩
    have plain : ∀ w : Sample K, w.time = i.time →
        Signal.pushBack ⟨build (l₀ ++ [e])⟩ w = .ok ⟨build (l₀ ++ [e] ++ [tv w])⟩ := by
      intro w hw
      rw [pushBack_build, if_pos]
      have hn := D.lt_ne_nan hlt
      simpa [hw] using (D.not_le_iff_lt hn.1 hn.2).2 hlt
    rw [minmaxPairLoop]
    simp only [NoLateCrossing]
    cases hpq : comp p q <;> cases hc : comp i j <;>
      simp only [hpq, hc, if_true, if_false, Bool.false_eq_true, reduceCtorEq, Bool.true_eq_false, false_implies,
        true_implies, true_and, Outcome.bind_ok] at *
    · rw [plain j hij.symm, Outcome.bind_ok]
      exact next _ j hij.symm
    · obtain ⟨c1, c2⟩ := insert_push (l₀ ++ [e]) e q p i (by simp) hlt
      rw [← Outcome.bind_assoc']
      cases hlate : i.time.lt (q.timeIntersect p)
      · obtain ⟨l', hl'⟩ := c1 hlate
        rw [hl', Outcome.bind_ok]
        simpa using next l' i rfl
      · rw [c2 hlate]
        simp
    · obtain ⟨c1, c2⟩ := insert_push (l₀ ++ [e]) e p q j (by simp) (by rw [← hij]; exact hlt)
      rw [← Outcome.bind_assoc']
      rw [hij] at *
      cases hlate : j.time.lt (p.timeIntersect q)
      · obtain ⟨l', hl'⟩ := c1 hlate
        rw [hl', Outcome.bind_ok]
        simpa using next l' j rfl
      · rw [c2 hlate]
        simp
    · rw [plain i rfl, Outcome.bind_ok]
      exact next _ i rfl

theorem mergeT_self : ∀ l : List (D K), (∀ a ∈ l, a ≠ .nan) → mergeT l l = l
  | [], _ => by simp
  | a :: l, h => by
    rw [mergeT_cons, if_pos (D.eq_iff.2 ⟨rfl, h a (by simp)⟩), mergeT_self l fun b hb => h b (by simp [hb])]

theorem noNaNT_of_times {l l' : List (Sample K)} (h : l.map Sample.time = l'.map Sample.time) (hn : NoNaNT l) :
    NoNaNT l' := by
  intro a ha e
  have : a.time ∈ l.map Sample.time := by rw [h]; exact List.mem_map_of_mem ha
  obtain ⟨b, hb, hbe⟩ := List.mem_map.1 this
  exact hn b hb (by rw [hbe, e])

/-- Signals with the same timestamps are not changed by `synchronize`, whatever the rounding. -/
theorem synchronize_same_times {x y : Signal K} (wx : WF x) (wy : WF y) (hne : x.samples ≠ [])
    (hn : NoNaNT x.samples) (ht : x.samples.map Sample.time = y.samples.map Sample.time) :
    synchronize x y = .ok (x, y) := by
  have hny := noNaNT_of_times ht hn
  have sx := sortedT_of_ordered _ wx.1 hn
  have sy := sortedT_of_ordered _ wy.1 hny
  obtain ⟨xs⟩ := x
  obtain ⟨ys⟩ := y
  cases xs with
  | nil => exact absurd rfl hne
  | cons i is =>
  cases ys with
  | nil => simp at ht
  | cons j js =>
  have hij : i.time = j.time := by simpa using (List.cons.inj ht).1
  have hb : D.max (Signal.beginTime ⟨i :: is⟩) (Signal.beginTime ⟨j :: js⟩) = i.time := by
    simp only [Signal.beginTime, List.head?_cons, ← hij, D.max, D.lt_irrefl]; simp
  have hni := hn i (by simp)
  rw [synchronize_split ⟨i :: is⟩ ⟨j :: js⟩ [] is [] js i j rfl rfl sx sy hb.symm (by rw [hb, hij])
    (by rw [hb]; exact hni)]
  have hfx := filter_split [] i is hni sx
  have hfy := filter_split [] j js (hij ▸ hni) sy
  simp only [List.nil_append] at hfx hfy
  have hsync : syncTimes i.time (i :: is) (j :: js) = (i :: is).map Sample.time := by
    rw [syncTimes, hfx, hij, hfy]
    simp only at ht
    rw [ht, mergeT_self]
    intro a ha
    obtain ⟨b, hb, rfl⟩ := List.mem_map.1 ha
    exact hny b hb
  rw [hb]
  simp only
  rw [hsync]
  simp only at ht
  rw [resample_self _ hn sx, ht, resample_self _ hny sy]
  rw [← (slopes_iff _).1 wx.2, ← (slopes_iff _).1 wy.2]

theorem minmaxPair_late (nd : Bool) (comp : Cmp K) (sy : Bool) {x y : Signal K} (wx : WF x) (wy : WF y)
    (hn : NoNaNT x.samples) (ht : x.samples.map Sample.time = y.samples.map Sample.time) :
    (NoLateCrossing comp x.samples y.samples → x.samples ≠ [] → ∃ z, minmaxPair nd comp x y sy = .ok z) ∧
    (¬ NoLateCrossing comp x.samples y.samples → minmaxPair nd comp x y sy = .throw .invalidArgument) := by
  have hny := noNaNT_of_times ht hn
  have sx := sortedT_of_ordered _ wx.1 hn
  by_cases hne : x.samples = []
  · refine ⟨fun _ h => absurd hne h, fun h => absurd ?_ h⟩
    rw [hne]; simp [NoLateCrossing]
  have hpair : minmaxPair nd comp x y sy = (do
      assert_ nd (x.size == y.size)
      assert_ nd (x.beginTime.eq y.beginTime)
      assert_ nd (x.endTime.eq y.endTime)
      minmaxPairLoop comp Signal.empty .NONE none none x.samples y.samples) := by
    unfold minmaxPair
    cases sy <;> simp [synchronize_same_times wx wy hne hn ht]
  rw [hpair]
  obtain ⟨xs⟩ := x
  obtain ⟨ys⟩ := y
  simp only at *
  cases xs with
  | nil => exact absurd rfl hne
  | cons i is =>
  cases ys with
  | nil => simp at ht
  | cons j js =>
  have hlen : (i :: is).length = (j :: js).length := by
    have := congrArg List.length ht
    simpa using this
  have hij : i.time = j.time := by simpa using (List.cons.inj ht).1
  have ht' : is.map Sample.time = js.map Sample.time := (List.cons.inj ht).2
  have hlast : (Signal.endTime ⟨i :: is⟩ : D K) = Signal.endTime ⟨j :: js⟩ := by
    have h1 : ∀ s : Signal K, s.samples ≠ [] →
        s.endTime = ((s.samples.map Sample.time).getLast?).getD 0 := by
      intro s hs
      rcases List.eq_nil_or_concat s.samples with h | ⟨l, a, h⟩
      · exact absurd h hs
      · rw [List.concat_eq_append] at h
        simp [Signal.endTime, h]
    rw [h1 _ (by simp), h1 _ (by simp)]
    simp only
    rw [ht]
  have hen : Signal.endTime ⟨i :: is⟩ ≠ (.nan : D K) := by
    rcases List.eq_nil_or_concat (i :: is) with h | ⟨l, a, h⟩
    · simp at h
    · rw [List.concat_eq_append] at h
      simp only [Signal.endTime, h]
      simpa using hn a (by rw [h]; simp)
  have a1 : (Signal.size (⟨i :: is⟩ : Signal K) == Signal.size ⟨j :: js⟩) = true := by
    simp only [Signal.size, beq_iff_eq]; exact hlen
  have a2 : (Signal.beginTime (⟨i :: is⟩ : Signal K)).eq (Signal.beginTime ⟨j :: js⟩) = true := by
    rw [D.eq_iff]; simp only [Signal.beginTime, List.head?_cons]
    exact ⟨hij, hn i (by simp)⟩
  have a3 : (Signal.endTime (⟨i :: is⟩ : Signal K)).eq (Signal.endTime ⟨j :: js⟩) = true :=
    D.eq_iff.2 ⟨hlast, hen⟩
  have asrt : ∀ b : Bool, b = true → assert_ nd b = .ok () := by rintro b rfl; simp [assert_]
  simp only [Outcome.bind_ok, asrt _ a1, asrt _ a2, asrt _ a3]
  rw [minmaxPairLoop]
  have first : ∀ w : Sample K, Signal.pushBack Signal.empty w = .ok ⟨build [tv w]⟩ := by
    intro w; simp [Signal.pushBack, Signal.empty, tv]
  have key : ∀ w : Sample K, w.time = i.time → _ := fun w hw =>
    loop_late comp is js i j [tv w] (tv w) rfl hw sx ht'
  cases hc : comp i j
  · have := key j hij.symm
    rw [hc] at this
    simpa [first] using this
  · have := key i rfl
    rw [hc] at this
    simpa [first] using this

/-- **C43, what holds for every rounding.**  If the operands of a conjunction or disjunction have the
same (not NaN) timestamps, then the only way in which the call fails is that the computed time of a
crossing between two consecutive samples is after the later one, and then it throws
`invalid_argument`; in every other case it returns.

The full claim (`C43Claim`) is that in binary64 the computed crossing is never late; that is refuted by
`C43_refuted`. -/
theorem C43_late_partial (nd : Bool) (fuel : Nat) (phi psi : Expr K) (trace : Trace K) (sy : Bool)
    (x y : Signal K) (hx : computeRobustness nd fuel phi trace sy = .ok x)
    (hy : computeRobustness nd fuel psi trace sy = .ok y) (hne : x.samples ≠ [])
    (hn : ∀ s ∈ x.samples, s.time ≠ .nan)
    (ht : x.samples.map Sample.time = y.samples.map Sample.time) :
    ((∃ z, computeRobustness nd fuel (.and [phi, psi]) trace sy = .ok z) ↔
      NoLateCrossing Sample.le x.samples y.samples) ∧
    ((∃ z, computeRobustness nd fuel (.or [phi, psi]) trace sy = .ok z) ↔
      NoLateCrossing Sample.ge x.samples y.samples) ∧
    ((∀ z, computeRobustness nd fuel (.and [phi, psi]) trace sy ≠ .ok z) →
      computeRobustness nd fuel (.and [phi, psi]) trace sy = .throw .invalidArgument) ∧
    ((∀ z, computeRobustness nd fuel (.or [phi, psi]) trace sy ≠ .ok z) →
      computeRobustness nd fuel (.or [phi, psi]) trace sy = .throw .invalidArgument) := by
  unfold computeRobustness at hx hy ⊢
  simp only at hx hy ⊢
  rw [compute_and_two hx hy, compute_or_two hx hy]
  have wx := compute_wf _ _ _ hx
  have wy := compute_wf _ _ _ hy
  have main : ∀ comp : Cmp K,
      ((∃ z, minmaxPair nd comp x y false = .ok z) ↔ NoLateCrossing comp x.samples y.samples) ∧
      ((∀ z, minmaxPair nd comp x y false ≠ .ok z) →
        minmaxPair nd comp x y false = .throw .invalidArgument) := by
    intro comp
    obtain ⟨h1, h2⟩ := minmaxPair_late nd comp false wx wy hn ht
    by_cases hl : NoLateCrossing comp x.samples y.samples
    · obtain ⟨z, hz⟩ := h1 hl hne
      exact ⟨⟨fun _ => hl, fun _ => ⟨z, hz⟩⟩, fun h => absurd hz (h z)⟩
    · exact ⟨⟨fun ⟨z, hz⟩ => (by rw [h2 hl] at hz; cases hz), fun h => absurd h hl⟩, fun _ => h2 hl⟩
  exact ⟨(main _).1, (main _).1, (main _).2, (main _).2⟩

/-- The winner is the same at all samples. -/
def SameWinner (comp : Cmp K) (b : Bool) : List (Sample K) → List (Sample K) → Prop
  | i :: is, j :: js => comp i j = b ∧ SameWinner comp b is js
  | _, _ => True

theorem noLate_of_sameWinner (comp : Cmp K) (b : Bool) : ∀ xs ys : List (Sample K), SameWinner comp b xs ys →
    NoLateCrossing comp xs ys
  | [], _, _ => by simp [NoLateCrossing]
  | [_], _, _ => by simp [NoLateCrossing]
  | _ :: _ :: _, [], _ => by simp [NoLateCrossing]
  | _ :: _ :: _, [_], _ => by simp [NoLateCrossing]
  | p :: i :: is, q :: j :: js, h => by
    have ih := noLate_of_sameWinner comp b (i :: is) (j :: js) h.2
    simp only [SameWinner] at h
    refine ⟨fun h1 h2 => ?_, fun h1 h2 => ?_, ih⟩
    · rw [h.1] at h1; rw [h.2.1] at h2; simp_all
    · rw [h.1] at h1; rw [h.2.1] at h2; simp_all

/-- **C43, a sufficient condition for every rounding** (in particular binary64): if one operand has the
smaller value at every sample, neither the conjunction nor the disjunction can fail.  (The full claim,
without this condition, is refuted by `C43_refuted`.) -/
theorem C43_dominated_partial (nd : Bool) (fuel : Nat) (phi psi : Expr K) (trace : Trace K) (sy : Bool)
    (x y : Signal K) (hx : computeRobustness nd fuel phi trace sy = .ok x)
    (hy : computeRobustness nd fuel psi trace sy = .ok y) (hne : x.samples ≠ [])
    (hn : ∀ s ∈ x.samples, s.time ≠ .nan)
    (ht : x.samples.map Sample.time = y.samples.map Sample.time) :
    (∀ b, SameWinner Sample.le b x.samples y.samples →
      ∃ z, computeRobustness nd fuel (.and [phi, psi]) trace sy = .ok z) ∧
    (∀ b, SameWinner Sample.ge b x.samples y.samples →
      ∃ z, computeRobustness nd fuel (.or [phi, psi]) trace sy = .ok z) := by
  have h := C43_late_partial nd fuel phi psi trace sy x y hx hy hne hn ht
  exact ⟨fun b hb => h.1.2 (noLate_of_sameWinner _ b _ _ hb),
    fun b hb => h.2.1.2 (noLate_of_sameWinner _ b _ _ hb)⟩

end any

/-! ## Concrete cases -/

/-- A conjunction in binary64 with a crossing that is rounded and not late. -/
example : (computeRobustness false 0 (.and [.pred "x" .GE 0, .pred "y" .GE 0])
    [("x", ofPts (K := B64) [((0 : ℚ), (1 : ℚ)), ((1 : ℚ), (0 : ℚ))]),
     ("y", ofPts (K := B64) [((0 : ℚ), (0 : ℚ)), ((1 : ℚ), (2 : ℚ))])] false).map'
      (fun z => z.samples.map Sample.time) =
    .ok [.fin (0 : ℚ), .fin (6004799503160661 / 2 ^ 54 : ℚ), .fin (1 : ℚ)] := by decide +kernel

/-- The two witnesses satisfy the hypotheses of `C43_late_partial`, and the crossing is late. -/
example : computeRobustness true 0 (.pred "x" .GE 0) [("x", lateX), ("y", lateY)] false = .ok lateX ∧
    computeRobustness true 0 (.pred "y" .GE 0) [("x", lateX), ("y", lateY)] false = .ok lateY ∧
    lateX.samples.map Sample.time = lateY.samples.map Sample.time ∧
    ¬ NoLateCrossing Sample.ge lateX.samples lateY.samples :=
  ⟨by decide +kernel, by decide +kernel, by decide +kernel, fun h => by
    have := h.1 (by decide +kernel) (by decide +kernel)
    exact absurd this (by decide +kernel)⟩

/-- One third is not representable, and is rounded down. -/
example : B64.rnd (1 / 3) = .fin (6004799503160661 / 2 ^ 54) := by decide +kernel

/-- A tie goes to the even neighbour. -/
example : B64.rnd (2 ^ 53 + 1) = .fin (2 ^ 53) ∧ B64.rnd (2 ^ 53 + 3) = .fin (2 ^ 53 + 4) := by decide +kernel

/-- The smallest positive number is `2^-1074`, and half of it underflows to zero. -/
example : B64.rnd (1 / 2 ^ 1074) = .fin (1 / 2 ^ 1074) ∧ B64.rnd (1 / 2 ^ 1075) = .fin 0 := by decide +kernel

end Verif
