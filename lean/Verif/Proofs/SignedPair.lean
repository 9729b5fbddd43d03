import Verif.Proofs.SignedZero
import Verif.Proofs.AnyRound
import Verif.Proofs.Rounding

/-!
# Minimum and maximum of two signals with signed zeros

The only division of the library that can have the divisor `-0.0` is the one of `Sample::time_intersect`.
-/

set_option linter.unusedSectionVars false

namespace Verif

namespace Spec

/-- Gradual underflow: the difference of two distinct numbers does not round to zero. -/
class Gradual (K : Type) [Field K] [LinearOrder K] [Arith K] : Prop where
  sub_ne : ∀ q r a b : K, Arith.rnd q = .fin a → Arith.rnd r = .fin b → Arith.rnd (a - b) = .fin 0 → a = b

end Spec

namespace Signed
open Outcome Spec

variable {K : Type} [Field K] [LinearOrder K] [Arith K]

/-- Two outcomes are the same once the signs of zeros are forgotten; or (if `P` holds) the first one is the exception
`std::invalid_argument`. -/
def Rel (P : Prop) {α β : Type} (f : α → β) (o : Outcome α) (o' : Outcome β) : Prop :=
  o' = o.map' f ∨ (P ∧ o = .throw .invalidArgument)

theorem Rel.of_eq {P : Prop} {α β : Type} {f : α → β} {o : Outcome α} {o' : Outcome β} (h : o' = o.map' f) :
    Rel P f o o' := .inl h

theorem Rel.bind {P : Prop} {α β γ δ : Type} {f : α → β} {g : γ → δ} {o : Outcome α} {o' : Outcome β}
    {k : α → Outcome γ} {k' : β → Outcome δ} (h : Rel P f o o')
    (hk : ∀ a, o = .ok a → o' = .ok (f a) → Rel P g (k a) (k' (f a))) : Rel P g (o >>= k) (o' >>= k') := by
  rcases h with h | ⟨h, h2⟩
  · cases o with
    | ok a => rw [h]; exact hk a rfl (by rw [h]; rfl)
    | _ => left; rw [h]; rfl
  · right; exact ⟨h, by rw [h2]; rfl⟩

/-- The derivative of a sample, given the next one. -/
def Link (a b : Sample K) : Prop := a.derivative = (b.value - a.value) / (b.time - a.time)

theorem isChain_append_two {α : Type} {R : α → α → Prop} {l : List α} {a a' b : α}
    (hr : ∀ c, R c a → R c a') (h : (l ++ [a]).IsChain R) (hb : R a' b) : (l ++ [a', b]).IsChain R := by
  induction l with
  | nil => simpa using hb
  | cons c l ih =>
    cases l with
    | nil =>
      simp only [List.nil_append, List.cons_append, List.isChain_cons_cons] at h ⊢
      simp [hr _ h.1, hb]
    | cons d l =>
      simp only [List.cons_append, List.isChain_cons_cons] at h ih ⊢
      exact ⟨h.1, ih h.2⟩

theorem pushBack_chain {s z : Signal K} {x : Sample K} (hs : s.samples.IsChain Link)
    (h : s.pushBack x = .ok z) : z.samples.IsChain Link := by
  obtain ⟨l⟩ := s
  rcases List.eq_nil_or_concat l with rfl | ⟨l, a, rfl⟩
  · simp only [Signal.pushBack, List.getLast?_nil, Outcome.ok.injEq] at h; subst h; simp
  · rw [List.concat_eq_append] at h hs
    simp only [Signal.pushBack, List.getLast?_append, List.getLast?_singleton, Option.some_or] at h
    split at h
    · simp at h
    · simp only [Outcome.ok.injEq] at h; subst h
      simp only [List.dropLast_concat]
      refine isChain_append_two (a := a) ?_ hs rfl
      intro c hc; exact hc

theorem pushAll_chain (xs : List (Sample K)) : ∀ {s z : Signal K}, s.samples.IsChain Link →
    s.pushAll xs = .ok z → z.samples.IsChain Link := by
  induction xs with
  | nil => intro s z hs h; simp only [Signal.pushAll, Outcome.ok.injEq] at h; subst h; exact hs
  | cons x xs ih =>
    intro s z hs h
    rw [Signal.pushAll] at h
    simp only [Outcome.bind_eq_ok] at h
    obtain ⟨s', h1, h2⟩ := h
    exact ih (pushBack_chain hs h1) h2

theorem synchronize_chain {x y x' y' : Signal K} (h : synchronize x y = .ok (x', y')) :
    x'.samples.IsChain Link ∧ y'.samples.IsChain Link := by
  unfold synchronize at h
  simp only [Outcome.bind_eq_ok] at h
  obtain ⟨_, -, _, -, _, -, _, -, p, -, hf⟩ := h
  unfold syncFinish at hf
  simp only [Outcome.bind_eq_ok] at hf
  obtain ⟨xb, e1, yb, e2, yb', e3, xb', e4, sx, e5, sy, e6, e7⟩ := hf
  simp only [Outcome.pure_eq_ok, Outcome.ok.injEq, Prod.mk.injEq] at e7
  obtain ⟨rfl, rfl⟩ := e7
  exact ⟨pushAll_chain _ (by simp [Signal.empty]) e5, pushAll_chain _ (by simp [Signal.empty]) e6⟩

section
variable [IsStrictOrderedRing K]

/-- The comparisons of the code, with and without signs. -/
def Comps (comp : Cmp K) (comp' : Verif.Cmp K) : Prop :=
  comp = Sample.le ∧ comp' = Verif.Sample.le ∨ comp = Sample.ge ∧ comp' = Verif.Sample.ge

theorem Comps.er {comp : Cmp K} {comp' : Verif.Cmp K} (h : Comps comp comp') (a b : Sample K) :
    comp' (er a) (er b) = comp a b := by
  rcases h with ⟨rfl, rfl⟩ | ⟨rfl, rfl⟩ <;> rfl

/-- The divisor of `s.time_intersect(p)` is `-0.0`. -/
def NegZeroDiv (s p : Sample K) : Prop :=
  (p.derivative - s.derivative).val = .fin 0 ∧ (p.derivative - s.derivative).neg0 = true

theorem timeIntersect_same {s p : Sample K} (h : ¬ NegZeroDiv s p) :
    (er s).timeIntersect (er p) = (s.timeIntersect p).val := by
  unfold Sample.timeIntersect
  rw [Er.val_div h]
  rfl

/-- The dividend of `s.time_intersect(p)`. -/
def num (s p : Verif.Sample K) : D K :=
  s.value - p.value + (p.derivative * p.time) - (s.derivative * s.time)

theorem timeIntersect_neg {s p : Sample K} (h : NegZeroDiv s p) :
    (er s).timeIntersect (er p) = num (er s) (er p) / .fin 0 ∧
      (s.timeIntersect p).val = -(num (er s) (er p) / .fin 0) := by
  constructor
  · unfold Verif.Sample.timeIntersect
    have : (er p).derivative - (er s).derivative = .fin 0 := h.1
    rw [this]; rfl
  · unfold Sample.timeIntersect
    exact if_pos h

theorem insertCrossing_same {s p : Sample K} (h : (er s).timeIntersect (er p) = (s.timeIntersect p).val)
    (out : Signal K) (t : SD K) :
    Verif.insertCrossing (erase out) (some (er s)) (some (er p)) t.val =
      (insertCrossing out (some s) (some p) t).map' erase := by
  unfold Verif.insertCrossing insertCrossing
  simp only [Verif.derefPrev, derefPrev, Outcome.bind_ok, h, Er.endTime, ← Er.lt_val, ← Er.eq_val, Er.interpolate,
    ← Er.er_mk2, Er.pushBack]
  split <;> simp

/-- A crossing at infinity makes the next `push_back` throw. -/
theorem insertCrossing_pinf {s p i : Sample K} {out : Signal K} {t : SD K} {u : K}
    (hi : i.time.val = .fin u) (h : out.endTime.lt (s.timeIntersect p) && !(s.timeIntersect p).eq t)
    (ht : (s.timeIntersect p).val = .pinf) :
    (insertCrossing out (some s) (some p) t >>= fun o => o.pushBack i) = .throw .invalidArgument := by
  unfold insertCrossing
  simp only [derefPrev, Outcome.bind_ok, h, if_true]
  generalize hx : Sample.mk2 (s.timeIntersect p) (s.interpolate (s.timeIntersect p)) = x
  have hxt : x.time.val = .pinf := by rw [← hx]; exact ht
  have key : ∀ z : Signal K, z.samples.getLast?.map Sample.time = some x.time →
      z.pushBack i = .throw .invalidArgument := by
    intro z hz
    cases hl : z.samples.getLast? with
    | none => rw [hl] at hz; simp at hz
    | some a =>
      rw [hl] at hz
      simp only [Option.map_some, Option.some.injEq] at hz
      have he : z.endTime = x.time := by simp [Signal.endTime, hl, hz]
      have : i.time.le z.endTime = true := by rw [Er.le_val, he, hi, hxt]; rfl
      simp [Signal.pushBack, hl, this]
  obtain ⟨l⟩ := out
  rcases List.eq_nil_or_concat l with rfl | ⟨l, a, rfl⟩
  · rw [show (⟨[]⟩ : Signal K).pushBack x = .ok ⟨[⟨x.time, x.value, 0⟩]⟩ from rfl, Outcome.bind_ok]
    exact key _ (by simp)
  · rw [List.concat_eq_append]
    have h2 : (⟨l ++ [a]⟩ : Signal K).samples.getLast? = some a := by simp
    simp only [Signal.pushBack, h2]
    split
    · rfl
    · rw [Outcome.bind_ok]
      have := key ⟨l ++ [⟨a.time, a.value, (x.value - a.value) / (x.time - a.time)⟩, ⟨x.time, x.value, 0⟩]⟩ (by simp)
      simpa [Signal.pushBack] using this

/-- One crossing and the following `push_back`. -/
theorem crossing_rel {P : Prop} {s p i : Sample K} {u : K} (hi : i.time.val = .fin u) (out : Signal K) (t : SD K)
    (hn : NegZeroDiv s p → P ∧ (num (er s) (er p) / .fin 0 = .nan ∨ num (er s) (er p) / .fin 0 = .ninf)) :
    Rel P erase (insertCrossing out (some s) (some p) t >>= fun o => o.pushBack i)
      (Verif.insertCrossing (erase out) (some (er s)) (some (er p)) t.val >>= fun o => o.pushBack (er i)) := by
  by_cases h : NegZeroDiv s p
  · obtain ⟨hP, hd⟩ := hn h
    obtain ⟨h1, h2⟩ := timeIntersect_neg h
    rcases hd with hd | hd
    · rw [hd] at h1 h2
      have : (er s).timeIntersect (er p) = (s.timeIntersect p).val := by rw [h1, h2]; rfl
      left
      rw [insertCrossing_same this, bind_map', map'_bind]
      congr 1; funext o; exact Er.pushBack o i
    · rw [hd] at h1 h2
      have h2 : (s.timeIntersect p).val = .pinf := h2
      by_cases hc : (out.endTime.lt (s.timeIntersect p) && !(s.timeIntersect p).eq t) = true
      · right
        exact ⟨hP, insertCrossing_pinf hi hc h2⟩
      · left
        have e1 : insertCrossing out (some s) (some p) t = .ok out := by
          unfold insertCrossing
          simp only [derefPrev, Outcome.bind_ok]
          rw [if_neg hc]; rfl
        have e2 : Verif.insertCrossing (erase out) (some (er s)) (some (er p)) t.val = .ok (erase out) := by
          unfold Verif.insertCrossing
          simp only [Verif.derefPrev, Outcome.bind_ok, h1]
          have : ∀ a : D K, a.lt .ninf = false := by intro a; cases a <;> rfl
          rw [this]; rfl
        rw [e1, e2, Outcome.bind_ok, Outcome.bind_ok]
        exact Er.pushBack out i
  · left
    rw [insertCrossing_same (timeIntersect_same h), bind_map', map'_bind]
    congr 1; funext o; exact Er.pushBack o i

/-- What the loop needs to know about a change of the smaller (or larger) signal. -/
def CrossOk (P : Prop) (comp : Cmp K) : Prop :=
  ∀ p q i j : Sample K, Adj (er p) (er q) (er i) (er j) → Link p i → Link q j →
    (comp p q = true → comp i j = false → NegZeroDiv p q →
      P ∧ (num (er p) (er q) / .fin 0 = .nan ∨ num (er p) (er q) / .fin 0 = .ninf)) ∧
    (comp p q = false → comp i j = true → NegZeroDiv q p →
      P ∧ (num (er q) (er p) / .fin 0 = .nan ∨ num (er q) (er p) / .fin 0 = .ninf))

theorem minmaxPairLoop_cons (comp : Cmp K) (out : Signal K) (c : Chosen) (pi pj : Option (Sample K))
    (i j : Sample K) (is js : List (Sample K)) :
    minmaxPairLoop comp out c pi pj (i :: is) (j :: js) =
      if comp i j then
        ((if c = .Y then insertCrossing out pj pi i.time else .ok out) >>= fun out =>
          out.pushBack i >>= fun out => minmaxPairLoop comp out .X (some i) (some j) is js)
      else
        ((if c = .X then insertCrossing out pi pj j.time else .ok out) >>= fun out =>
          out.pushBack j >>= fun out => minmaxPairLoop comp out .Y (some i) (some j) is js) := by
  rw [minmaxPairLoop]
  split_ifs <;> rfl

theorem minmaxPairLoop_rel {P : Prop} {comp : Cmp K} {comp' : Verif.Cmp K} (hc : Comps comp comp')
    (hx : CrossOk P comp) :
    ∀ (is js : List (Sample K)) (p q : Sample K) (out : Signal K) (c : Chosen),
      Synced ((p :: is).map er) ((q :: js).map er) → (p :: is).IsChain Link → (q :: js).IsChain Link →
      (c = .X ∧ comp p q = true ∨ c = .Y ∧ comp p q = false) →
      Rel P erase (minmaxPairLoop comp out c (some p) (some q) is js)
        (Verif.minmaxPairLoop comp' (erase out) c (some (er p)) (some (er q)) (is.map er) (js.map er)) := by
  intro is
  induction is with
  | nil => intro js p q out c _ _ _ _; left; simp [Verif.minmaxPairLoop, minmaxPairLoop]
  | cons i is ih =>
    intro js p q out c hs h1 h2 hcc
    cases js with
    | nil => left; simp [Verif.minmaxPairLoop, minmaxPairLoop]
    | cons j js =>
      obtain ⟨hadj, hs'⟩ := hs
      rw [List.isChain_cons_cons] at h1 h2
      have hX := hx p q i j hadj h1.1 h2.1
      have hadj' := hadj
      obtain ⟨t0, t1, -, -, -, ei, ej, -⟩ := hadj'
      rw [List.map_cons, List.map_cons, Verif.minmaxPairLoop_cons, minmaxPairLoop_cons, hc.er]
      by_cases hij : comp i j = true
      · rw [if_pos hij, if_pos hij]
        rw [← bind_assoc', ← bind_assoc']
        refine Rel.bind (f := erase) ?_ (fun o _ _ => ?_)
        · by_cases hY : c = .Y
          · rw [if_pos hY, if_pos hY]
            refine crossing_rel ei out i.time (fun hn => hX.2 ?_ hij hn)
            rcases hcc with ⟨h, -⟩ | ⟨-, h⟩
            · rw [hY] at h; cases h
            · exact h
          · rw [if_neg hY, if_neg hY, Outcome.bind_ok, Outcome.bind_ok]
            exact .inl (Er.pushBack out i)
        · exact ih js i j o .X hs' h1.2 h2.2 (.inl ⟨rfl, hij⟩)
      · rw [if_neg hij, if_neg hij]
        rw [← bind_assoc', ← bind_assoc']
        have hij : comp i j = false := by simpa using hij
        refine Rel.bind (f := erase) ?_ (fun o _ _ => ?_)
        · by_cases hY : c = .X
          · rw [if_pos hY, if_pos hY]
            refine crossing_rel ej out j.time (fun hn => hX.1 ?_ hij hn)
            rcases hcc with ⟨-, h⟩ | ⟨h, -⟩
            · exact h
            · rw [hY] at h; cases h
          · rw [if_neg hY, if_neg hY, Outcome.bind_ok, Outcome.bind_ok]
            exact .inl (Er.pushBack out j)
        · exact ih js i j o .Y hs' h1.2 h2.2 (.inr ⟨rfl, hij⟩)

theorem minmaxPairLoop_start {P : Prop} {comp : Cmp K} {comp' : Verif.Cmp K} (hc : Comps comp comp')
    (hx : CrossOk P comp) (is js : List (Sample K)) (hs : Synced (is.map er) (js.map er))
    (h1 : is.IsChain Link) (h2 : js.IsChain Link) :
    Rel P erase (minmaxPairLoop comp Signal.empty .NONE none none is js)
      (Verif.minmaxPairLoop comp' Verif.Signal.empty .NONE none none (is.map er) (js.map er)) := by
  cases is with
  | nil => left; simp [Verif.minmaxPairLoop, minmaxPairLoop]
  | cons i is =>
    cases js with
    | nil => left; simp [Verif.minmaxPairLoop, minmaxPairLoop]
    | cons j js =>
      rw [List.map_cons, List.map_cons, Verif.minmaxPairLoop_cons, minmaxPairLoop_cons, hc.er]
      simp only [reduceCtorEq, if_false, Outcome.bind_ok, ← Er.erase_empty, Er.pushBack]
      split
      · rename_i hij
        refine Rel.bind (f := erase) (.inl rfl) (fun o _ _ => ?_)
        exact minmaxPairLoop_rel hc hx is js i j o .X hs h1 h2 (.inl ⟨rfl, hij⟩)
      · rename_i hij
        refine Rel.bind (f := erase) (.inl rfl) (fun o _ _ => ?_)
        exact minmaxPairLoop_rel hc hx is js i j o .Y hs h1 h2 (.inr ⟨rfl, by simpa using hij⟩)

theorem minmaxPair_eq (nd : Bool) (comp : Cmp K) (x y : Signal K) (s : Bool) :
    minmaxPair nd comp x y s =
      ((if s then .ok (x, y) else synchronize x y) >>= fun p =>
        assert_ nd (p.1.size == p.2.size) >>= fun _ =>
        assert_ nd (p.1.beginTime.eq p.2.beginTime) >>= fun _ =>
        assert_ nd (p.1.endTime.eq p.2.endTime) >>= fun _ =>
        minmaxPairLoop comp Signal.empty .NONE none none p.1.samples p.2.samples) := by
  rw [minmaxPair]
  split_ifs <;> rfl

theorem assert_bind {P : Prop} {α β : Type} {f : α → β} (nd b : Bool) {k : Unit → Outcome α} {k' : Unit → Outcome β}
    (h : Rel P f (k ()) (k' ())) : Rel P f (assert_ nd b >>= k) (assert_ nd b >>= k') :=
  Rel.bind (f := id) (.inl (by cases assert_ nd b <;> rfl)) (fun _ _ _ => h)

theorem minmaxPair_rel {P : Prop} {comp : Cmp K} {comp' : Verif.Cmp K} (hc : Comps comp comp')
    (hx : CrossOk P comp) (nd : Bool) {x y : Signal K} (fx : FinT (erase x)) (fy : FinT (erase y)) :
    Rel P erase (minmaxPair nd comp x y false) (Verif.minmaxPair nd comp' (erase x) (erase y) false) := by
  rw [minmaxPair_eq, Verif.minmaxPair_eq]
  simp only [Bool.false_eq_true, if_false]
  refine Rel.bind (f := Er.sig2) (.inl (Er.synchronize x y)) ?_
  rintro ⟨x', y'⟩ h h'
  obtain ⟨hs, -⟩ := synchronize_synced fx fy h'
  obtain ⟨h1, h2⟩ := synchronize_chain h
  simp only [Er.sig2, Er.size, Er.beginTime, Er.endTime, ← Er.eq_val]
  exact assert_bind _ _ (assert_bind _ _ (assert_bind _ _ (minmaxPairLoop_start hc hx _ _ hs h1 h2)))

theorem Comps.ofValues {comp : Cmp K} {comp' : Verif.Cmp K} (hc : Comps comp comp') :
    ∃ pick : D K → D K → D K, OfValues comp' pick := by
  rcases hc with ⟨-, rfl⟩ | ⟨-, rfl⟩
  · exact ⟨_, ofValues_le⟩
  · exact ⟨_, ofValues_ge⟩

theorem minmaxFold_rel {P : Prop} {comp : Cmp K} {comp' : Verif.Cmp K} (hc : Comps comp comp')
    (hx : CrossOk P comp) (nd : Bool) : ∀ (xs : List (Signal K)) (acc : Signal K), FinT (erase acc) →
    (∀ x ∈ xs, FinT (erase x)) →
    Rel P erase (minmaxFold nd comp false acc xs) (Verif.minmaxFold nd comp' false (erase acc) (xs.map erase)) := by
  intro xs
  induction xs with
  | nil => intro acc _ _; left; rfl
  | cons x xs ih =>
    intro acc fa fx
    rw [List.map_cons, Verif.minmaxFold, minmaxFold]
    refine Rel.bind (minmaxPair_rel hc hx nd fa (fx x (by simp))) ?_
    intro z h h'
    obtain ⟨pick, hp⟩ := hc.ofValues
    exact ih z (pair_any hp fa (fx x (by simp)) h').1 (fun y hy => fx y (by simp [hy]))

theorem minmaxVec_rel {P : Prop} {comp : Cmp K} {comp' : Verif.Cmp K} (hc : Comps comp comp')
    (hx : CrossOk P comp) (nd : Bool) (xs : List (Signal K)) (fx : ∀ x ∈ xs, FinT (erase x)) :
    Rel P erase (minmaxVec nd comp xs false) (Verif.minmaxVec nd comp' (xs.map erase) false) := by
  match xs, fx with
  | [], _ => left; rfl
  | [x], _ => left; rfl
  | [x, y], fx => exact minmaxPair_rel hc hx nd (fx x (by simp)) (fx y (by simp))
  | x :: y :: z :: rest, fx =>
    exact minmaxFold_rel hc hx nd (y :: z :: rest) x (fx x (by simp)) (fun a ha => fx a (List.mem_cons_of_mem _ ha))

/-! ### The divisor `-0.0` -/

theorem sub_zero_neg0 [Gradual K] {a b : SD K} {q r : K} (ha : a.val = .fin 0 ∨ a.val = Arith.rnd q)
    (hb : b.val = .fin 0 ∨ b.val = Arith.rnd r) (h0 : (Arith.rnd 0 : D K) = .fin 0)
    (h1 : (a - b).val = .fin 0) (h2 : (a - b).neg0 = true) :
    a.val = .fin 0 ∧ b.val = .fin 0 ∧ a.neg0 = true ∧ b.neg0 = false := by
  obtain ⟨a, s⟩ := a
  obtain ⟨b, t⟩ := b
  have h1 : a - b = .fin 0 := h1
  have h2 : (SD.add (⟨a, s⟩ : SD K) (SD.neg ⟨b, t⟩)).neg0 = true := h2
  have ha : ∃ q, a = Arith.rnd q := ha.elim (fun h => ⟨0, by rw [h0]; exact h⟩) (fun h => ⟨q, h⟩)
  have hb : ∃ q, b = Arith.rnd q := hb.elim (fun h => ⟨0, by rw [h0]; exact h⟩) (fun h => ⟨r, h⟩)
  rcases a with p | _ | _ | _ <;> rcases b with q | _ | _ | _
  case fin.fin =>
    obtain ⟨a', ha⟩ := ha
    obtain ⟨b', hb⟩ := hb
    have h1 : Arith.rnd (p + -q) = D.fin 0 := h1
    rw [← sub_eq_add_neg] at h1
    have e := Gradual.sub_ne a' b' p q ha.symm hb.symm h1
    subst e
    have h2 : (if p + -p = 0 then decide (p = 0) && s && !t else decide (p + -p < 0)) = true := h2
    rw [add_neg_cancel, if_pos rfl] at h2
    simp only [Bool.and_eq_true, decide_eq_true_eq, Bool.not_eq_true'] at h2
    obtain ⟨⟨rfl, rfl⟩, rfl⟩ := h2
    simp
  all_goals exact absurd h2 (by simp [SD.add, SD.neg, D.neg, Neg.neg])

theorem div_cases {a : D K} {b : D K} {c : K} (h : a / b = .fin c) :
    (∃ p q, a = .fin p ∧ b = .fin q ∧ q ≠ 0 ∧ a / b = Arith.rnd (p / q)) ∨
      (∃ p, a = .fin p ∧ (b = .pinf ∨ b = .ninf) ∧ c = 0) := by
  rcases a with p | _ | _ | _ <;> rcases b with q | _ | _ | _
  case fin.fin =>
    left
    have e : (D.fin p : D K) / .fin q = if q = 0 then (if p = 0 then .nan else if 0 < p then .pinf else .ninf)
      else Arith.rnd (p / q) := rfl
    rw [e] at h
    split at h
    · split at h
      · cases h
      · split at h <;> cases h
    · rename_i hq; exact ⟨p, q, rfl, rfl, hq, by rw [e, if_neg hq]⟩
  case fin.pinf =>
    right; have h : (D.fin 0 : D K) = .fin c := h
    cases h; exact ⟨p, rfl, .inl rfl, rfl⟩
  case fin.ninf =>
    right; have h : (D.fin 0 : D K) = .fin c := h
    cases h; exact ⟨p, rfl, .inr rfl, rfl⟩
  case pinf.fin =>
    exfalso
    have h : (if q < 0 then (.ninf : D K) else .pinf) = .fin c := h
    split at h <;> cases h
  case ninf.fin =>
    exfalso
    have h : (if q < 0 then (.pinf : D K) else .ninf) = .fin c := h
    split at h <;> cases h
  all_goals (exfalso; have h : (D.nan : D K) = .fin c := h; cases h)

theorem add_fin_left {a b : D K} {c : K} (h : a + b = .fin c) : ∃ p q, a = .fin p ∧ b = .fin q := by
  rcases a with p | _ | _ | _ <;> rcases b with q | _ | _ | _
  case fin.fin => exact ⟨p, q, rfl, rfl⟩
  all_goals (exfalso; cases (show (_ : D K) = .fin c from h))

theorem le_fin_iff (a b : K) : (D.fin a).le (.fin b) = true ↔ a ≤ b := by
  simp [D.le, D.lt, D.eq, le_iff_lt_or_eq]

/-- A slope that is zero, and its sign. -/
theorem slope_sign [SaneArith K] [MonoArith K] {a b : Sample K} {t0 t1 : K} (hl : Link a b) (ht : t0 < t1)
    (h0 : a.time.val = .fin t0) (h1 : b.time.val = .fin t1) (hz : a.derivative.val = .fin 0) :
    ∃ u v, a.value.val = .fin u ∧ b.value.val = .fin v ∧
      (a.derivative.neg0 = true → v ≤ u) ∧ (a.derivative.neg0 = false → u ≤ v) := by
  have hden : ¬ ((b.time - a.time).val = .fin 0 ∧ (b.time - a.time).neg0 = true) := by
    apply Er.sub_pos_zero
    rw [Er.le_val, h0, h1]
    simp [D.le, D.lt, D.eq, ht.le, ht.ne']
  have e1 : a.derivative.val = (b.value.val - a.value.val) / (b.time.val - a.time.val) := by
    rw [hl, Er.val_div hden]; rfl
  have hd : b.time.val - a.time.val = Arith.rnd (t1 - t0) := by
    rw [h0, h1, sub_eq_add_neg]; rfl
  have hsd : (b.time - a.time).signbit = false := by
    have hv : (b.time - a.time).val = Arith.rnd (t1 - t0) := hd
    have hm := MonoArith.rnd_mono (0 : K) (t1 - t0) (by linarith)
    rw [SaneArith.rnd_zero, ← hv] at hm
    unfold SD.signbit
    cases hc : (b.time - a.time).val with
    | fin q =>
      rw [hc] at hm hden
      have hq : 0 ≤ q := by exact (le_fin_iff _ _).1 hm
      simp only
      split
      · rename_i h; rw [h] at hden; simpa using hden
      · simpa using hq
    | pinf => rfl
    | ninf => rw [hc] at hm; exact absurd hm (by simp [D.le, D.lt, D.eq])
    | nan => rfl
  have hnum : ∃ c, b.value.val - a.value.val = .fin c := by
    rw [e1] at hz
    rcases div_cases hz with ⟨p, q, hp, -⟩ | ⟨p, hp, -⟩ <;> exact ⟨p, hp⟩
  obtain ⟨c, hcn⟩ := hnum
  obtain ⟨v, nu, hv, hu⟩ := add_fin_left (show b.value.val + -a.value.val = .fin c from hcn)
  have hu' : ∃ u, a.value.val = .fin u := by
    cases ha : a.value.val with
    | fin u => exact ⟨u, rfl⟩
    | _ => rw [ha] at hu; cases (show (_ : D K) = .fin nu from hu)
  obtain ⟨u, hu'⟩ := hu'
  refine ⟨u, v, hu', hv, ?_⟩
  have e2 : a.derivative.neg0 = (b.value - a.value).signbit := by
    rw [hl]
    show ((b.value - a.value).signbit != (b.time - a.time).signbit) = _
    rw [hsd]; simp
  have e3 : (b.value - a.value).val = Arith.rnd (v - u) := by
    show b.value.val - a.value.val = _
    rw [hu', hv, sub_eq_add_neg]; rfl
  have e4 : (b.value - a.value).neg0 =
      (if v + -u = 0 then decide (v = 0) && b.value.neg0 && !a.value.neg0 else decide (v + -u < 0)) := by
    show (SD.add b.value (SD.neg a.value)).neg0 = _
    unfold SD.add SD.neg
    rw [hv, hu']
    rfl
  have hcv : (b.value - a.value).val = .fin c := hcn
  have e5 : (b.value - a.value).signbit = (if c = 0 then (b.value - a.value).neg0 else decide (c < 0)) := by
    unfold SD.signbit
    rw [hcv]
  rw [hcv] at e3
  rw [e2, e5, e4]
  have m1 : 0 ≤ v - u → 0 ≤ c := by
    intro h
    have hm := MonoArith.rnd_mono (0 : K) (v - u) h
    rw [SaneArith.rnd_zero, ← e3] at hm
    exact (le_fin_iff _ _).1 hm
  have m2 : v - u ≤ 0 → c ≤ 0 := by
    intro h
    have hm := MonoArith.rnd_mono (v - u) (0 : K) h
    rw [SaneArith.rnd_zero, ← e3] at hm
    exact (le_fin_iff _ _).1 hm
  constructor
  · intro h
    by_contra hlt
    have hlt := not_le.1 hlt
    split_ifs at h with h1 h2
    · have : v = u := by linarith
      exact hlt.ne' this
    · have := of_decide_eq_true h; linarith
    · have h3 := of_decide_eq_true h
      exact absurd (m1 (by linarith)) (not_le.2 h3)
  · intro h
    by_contra hlt
    have hlt := not_le.1 hlt
    split_ifs at h with h1 h2
    · have : v = u := by linarith
      exact hlt.ne this
    · have := of_decide_eq_false h; exact this (by linarith)
    · have h3 := not_lt.1 (of_decide_eq_false h)
      exact h1 (le_antisymm (m2 (by linarith)) h3)

theorem nonpos_add_zero [SaneArith K] [MonoArith K] {a : D K} (h : a.le (.fin 0) = true) :
    (a + .fin 0).le (.fin 0) = true ∧ (a - .fin 0).le (.fin 0) = true := by
  cases a with
  | fin q =>
    have hq : q ≤ 0 := by exact (le_fin_iff _ _).1 h
    have h1 := MonoArith.rnd_mono q 0 hq
    rw [SaneArith.rnd_zero] at h1
    constructor
    · show (Arith.rnd (q + 0) : D K).le (.fin 0) = true
      rw [add_zero]; exact h1
    · show (Arith.rnd (q + -0) : D K).le (.fin 0) = true
      rw [neg_zero, add_zero]; exact h1
  | ninf => exact ⟨rfl, rfl⟩
  | pinf => cases h
  | nan => cases h

theorem nonpos_div_zero {a : D K} (h : a.le (.fin 0) = true) : a / .fin 0 = .nan ∨ a / .fin 0 = .ninf := by
  cases a with
  | fin q =>
    have hq : q ≤ 0 := by exact (le_fin_iff _ _).1 h
    have e : (D.fin q : D K) / .fin 0 = if q = 0 then .nan else if 0 < q then .pinf else .ninf := by
      show (if (0 : K) = 0 then (if q = 0 then (.nan : D K) else if 0 < q then .pinf else .ninf)
        else Arith.rnd (q / 0)) = _
      rw [if_pos rfl]
    rw [e]
    split
    · exact .inl rfl
    · rw [if_neg (not_lt.2 hq)]; exact .inr rfl
  | ninf =>
    right
    show (if (0 : K) < 0 then (.pinf : D K) else .ninf) = _
    rw [if_neg (lt_irrefl 0)]
  | pinf => cases h
  | nan => cases h

theorem div_zero_or_rnd [SaneArith K] {a b : D K} {c : K} (h : a / b = .fin c) : ∃ q, a / b = Arith.rnd q := by
  rcases div_cases h with ⟨p, q, -, -, -, h'⟩ | ⟨-, -, -, rfl⟩
  · exact ⟨_, h'⟩
  · exact ⟨0, by rw [h, SaneArith.rnd_zero]⟩

/-- If the divisor is `-0.0`, the slopes are `-0.0` and `+0.0`. -/
theorem negZeroDiv_slopes [SaneArith K] [Gradual K] {s p s' p' : Sample K} {t0 t1 : K} (ht : t0 < t1)
    (hs0 : s.time.val = .fin t0) (hp0 : p.time.val = .fin t0) (hs1 : s'.time.val = .fin t1)
    (hp1 : p'.time.val = .fin t1) (ls : Link s s') (lp : Link p p') (h : NegZeroDiv s p) :
    p.derivative.val = .fin 0 ∧ s.derivative.val = .fin 0 ∧ p.derivative.neg0 = true ∧ s.derivative.neg0 = false := by
  have hden : ∀ {a b : Sample K}, a.time.val = .fin t0 → b.time.val = .fin t1 →
      ¬ ((b.time - a.time).val = .fin 0 ∧ (b.time - a.time).neg0 = true) := by
    intro a b h0 h1
    apply Er.sub_pos_zero
    rw [Er.le_val, h0, h1]
    simp [D.le, D.lt, D.eq, ht.le, ht.ne']
  have hr : ∀ {a b : Sample K} {c : K}, a.time.val = .fin t0 → b.time.val = .fin t1 → Link a b →
      a.derivative.val = .fin c → ∃ q, a.derivative.val = Arith.rnd q := by
    intro a b c h0 h1 hl hc
    have e : a.derivative.val = (b.value.val - a.value.val) / (b.time.val - a.time.val) := by
      rw [hl, Er.val_div (hden h0 h1)]; rfl
    rw [e] at hc ⊢
    exact div_zero_or_rnd hc
  obtain ⟨c1, c2, h1, h2⟩ := add_fin_left (show p.derivative.val + -s.derivative.val = .fin 0 from h.1)
  have h2' : ∃ u, s.derivative.val = .fin u := by
    cases ha : s.derivative.val with
    | fin u => exact ⟨u, rfl⟩
    | _ => rw [ha] at h2; cases (show (_ : D K) = .fin c2 from h2)
  obtain ⟨c3, h3⟩ := h2'
  obtain ⟨q, hq⟩ := hr hp0 hp1 lp h1
  obtain ⟨r, hr⟩ := hr hs0 hs1 ls h3
  exact sub_zero_neg0 (.inr hq) (.inr hr) SaneArith.rnd_zero h.1 h.2

/-- The dividend, if both slopes are zero and the winner is smaller. -/
theorem num_nonpos [SaneArith K] [MonoArith K] {s p : Verif.Sample K} {u v t : K} (hs : s.value = .fin u)
    (hp : p.value = .fin v) (h : u ≤ v) (ds : s.derivative = .fin 0) (dp : p.derivative = .fin 0)
    (ts : s.time = .fin t) (tp : p.time = .fin t) : (num s p).le (.fin 0) = true := by
  unfold num
  rw [hs, hp, ds, dp, ts, tp]
  have e : (D.fin 0 : D K) * .fin t = .fin 0 := by
    show (Arith.rnd (0 * t) : D K) = _
    rw [zero_mul, SaneArith.rnd_zero]
  rw [e]
  apply (nonpos_add_zero _).2
  apply (nonpos_add_zero _).1
  show (Arith.rnd (u + -v) : D K).le (.fin 0) = true
  have := MonoArith.rnd_mono (u + -v) 0 (by linarith)
  rwa [SaneArith.rnd_zero] at this

/-- Minimum: the dividend is not positive. -/
theorem crossOk_le [SaneArith K] [MonoArith K] [Gradual K] : CrossOk True (Sample.le : Cmp K) := by
  rintro p q i j ⟨t0, t1, ht, ep, eq, ei, ej, -, -⟩ lp lq
  refine ⟨fun hpq hij hn => ⟨trivial, ?_⟩, fun hpq hij hn => ⟨trivial, ?_⟩⟩
  · obtain ⟨h1, h2, -, -⟩ := negZeroDiv_slopes ht ep eq ei ej lp lq hn
    obtain ⟨u, -, hu, -⟩ := slope_sign lp ht ep ei h2
    obtain ⟨v, -, hv, -⟩ := slope_sign lq ht eq ej h1
    refine nonpos_div_zero (num_nonpos hu hv ?_ h2 h1 ep eq)
    have : (!q.value.val.lt p.value.val) = true := hpq
    rw [hu, hv] at this
    simpa [D.lt] using this
  · obtain ⟨h1, h2, -, -⟩ := negZeroDiv_slopes ht eq ep ej ei lq lp hn
    obtain ⟨u, -, hu, -⟩ := slope_sign lq ht eq ej h2
    obtain ⟨v, -, hv, -⟩ := slope_sign lp ht ep ei h1
    refine nonpos_div_zero (num_nonpos hu hv ?_ h2 h1 eq ep)
    have : (!q.value.val.lt p.value.val) = false := hpq
    rw [hu, hv] at this
    have : u < v := by simpa [D.lt] using this
    exact this.le

/-- Maximum: the divisor is never `-0.0`. -/
theorem crossOk_ge [SaneArith K] [MonoArith K] [Gradual K] (P : Prop) : CrossOk P (Sample.ge : Cmp K) := by
  rintro p q i j ⟨t0, t1, ht, ep, eq, ei, ej, -, -⟩ lp lq
  refine ⟨fun hpq hij hn => ?_, fun hpq hij hn => ?_⟩
  · exfalso
    obtain ⟨h1, h2, h3, h4⟩ := negZeroDiv_slopes ht ep eq ei ej lp lq hn
    obtain ⟨u, u', hu, hu', -, hs⟩ := slope_sign lp ht ep ei h2
    obtain ⟨v, v', hv, hv', hs', -⟩ := slope_sign lq ht eq ej h1
    have a1 := hs h4
    have a2 := hs' h3
    have b1 : (!p.value.val.lt q.value.val) = true := hpq
    have b2 : (!i.value.val.lt j.value.val) = false := hij
    rw [hu, hv] at b1
    rw [hu', hv'] at b2
    have b1 : v ≤ u := by simpa [D.lt] using b1
    have b2 : u' < v' := by simpa [D.lt] using b2
    linarith
  · exfalso
    obtain ⟨h1, h2, h3, h4⟩ := negZeroDiv_slopes ht eq ep ej ei lq lp hn
    obtain ⟨u, u', hu, hu', -, hs⟩ := slope_sign lq ht eq ej h2
    obtain ⟨v, v', hv, hv', hs', -⟩ := slope_sign lp ht ep ei h1
    have a1 := hs h4
    have a2 := hs' h3
    have b1 : (!p.value.val.lt q.value.val) = false := hpq
    have b2 : (!i.value.val.lt j.value.val) = true := hij
    rw [hu, hv] at b1
    rw [hu', hv'] at b2
    have b1 : v < u := by simpa [D.lt] using b1
    have b2 : u' ≤ v' := by simpa [D.lt] using b2
    linarith

/-- With exact arithmetic the divisor is not zero. -/
theorem crossOk_exact [ExactArith K] {comp : Cmp K} {comp' : Verif.Cmp K} (hc : Comps comp comp') :
    CrossOk False comp := by
  intro p q i j hadj _ _
  have hm : MinOrMax comp' := by
    rcases hc with ⟨-, rfl⟩ | ⟨-, rfl⟩
    · exact .inl rfl
    · exact .inr rfl
  refine ⟨fun hpq hij hn => ?_, fun hpq hij hn => ?_⟩ <;> exfalso
  · refine den_ne hm hadj ?_ hn.1
    rw [Change, hc.er, hc.er, hpq, hij]; simp
  · refine den_ne' hm hadj ?_ hn.1
    rw [Change, hc.er, hc.er, hpq, hij]; simp

end
end Signed
end Verif
