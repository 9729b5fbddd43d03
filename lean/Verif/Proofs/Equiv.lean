import Verif.Proofs.WF

/-!
# Equivariance

Maps of samples (such as negation of the values, or a shift of the time) that commute with the
operations on signals.
-/

set_option linter.unusedSectionVars false

namespace Verif
open Spec

namespace Outcome
variable {α β γ : Type}

@[simp] theorem map'_ok (f : α → β) (a : α) : map' f (.ok a) = .ok (f a) := rfl
@[simp] theorem map'_throw (f : α → β) (e) : map' f (.throw e) = .throw e := rfl
@[simp] theorem map'_abort (f : α → β) : map' f .abort = .abort := rfl
@[simp] theorem map'_ub (f : α → β) (u) : map' f (.ub u) = .ub u := rfl
@[simp] theorem map'_diverge (f : α → β) : map' f .diverge = .diverge := rfl

theorem map'_bind (x : Outcome α) (f : α → Outcome β) (g : β → γ) :
    map' g (x >>= f) = (x >>= fun a => map' g (f a)) := by cases x <;> rfl

theorem bind_map' (x : Outcome α) (f : α → β) (g : β → Outcome γ) :
    (map' f x >>= g) = (x >>= fun a => g (f a)) := by cases x <;> rfl

theorem map'_map' (x : Outcome α) (f : α → β) (g : β → γ) :
    map' g (map' f x) = map' (fun a => g (f a)) x := by cases x <;> rfl

theorem bind_congr_ok {x : Outcome α} {f g : α → Outcome β} (h : ∀ a, x = .ok a → f a = g a) :
    (x >>= f) = (x >>= g) := by
  cases x with
  | ok a => exact h a rfl
  | _ => rfl

theorem map'_eq_ok {x : Outcome α} {f : α → β} {b : β} :
    map' f x = .ok b ↔ ∃ a, x = .ok a ∧ f a = b := by cases x <;> simp

end Outcome

variable {K L : Type} [Field K] [LinearOrder K] [Arith K] [Field L] [LinearOrder L] [Arith L]

/-- A map of samples (`α` for times, `ρ` for durations, `β` for values, `δ` for slopes), compatible with
order, slopes and interpolation. -/
structure SMap (K L : Type) [Field K] [LinearOrder K] [Arith K] [Field L] [LinearOrder L] [Arith L] where
  α : D K → D L
  ρ : D K → D L
  β : D K → D L
  δ : D K → D L
  lt' : ∀ a b, (α a).lt (α b) = a.lt b
  eq' : ∀ a b, (α a).eq (α b) = a.eq b
  diff' : ∀ a b, α a - α b = ρ (a - b)
  add' : ∀ t a, α t + ρ a = α (t + a)
  ρlt' : ∀ a b, (ρ a).lt (ρ b) = a.lt b
  ρeq' : ∀ a b, (ρ a).eq (ρ b) = a.eq b
  ρneg' : ∀ a, -ρ a = ρ (-a)
  ρsub' : ∀ a b, ρ a - ρ b = ρ (a - b)
  ρzero' : ρ 0 = 0
  slope' : ∀ x y t, (β x - β y) / ρ t = δ ((x - y) / t)
  interp' : ∀ v d t, β v + δ d * ρ t = β (v + d * t)
  zero' : δ 0 = 0
  veq' : ∀ a b, (β a).eq (β b) = a.eq b
  deq' : ∀ a b, (δ a).eq (δ b) = a.eq b

namespace SMap
variable (φ : SMap K L)

def smp (s : Sample K) : Sample L := ⟨φ.α s.time, φ.β s.value, φ.δ s.derivative⟩
def sig (s : Signal K) : Signal L := ⟨s.samples.map φ.smp⟩

theorem le' (a b : D K) : (φ.α a).le (φ.α b) = a.le b := by simp [D.le, φ.lt', φ.eq']
theorem sub' (t a : D K) : φ.α t - φ.ρ a = φ.α (t - a) := by
  rw [D.sub_def, D.sub_def, φ.ρneg', φ.add']
theorem ρle' (a b : D K) : (φ.ρ a).le (φ.ρ b) = a.le b := by simp [D.le, φ.ρlt', φ.ρeq']
theorem max' (a b : D K) : D.max (φ.α a) (φ.α b) = φ.α (D.max a b) := by
  simp only [D.max, φ.lt']; split <;> rfl

@[simp] theorem smp_time (s : Sample K) : (φ.smp s).time = φ.α s.time := rfl
@[simp] theorem smp_value (s : Sample K) : (φ.smp s).value = φ.β s.value := rfl
@[simp] theorem smp_derivative (s : Sample K) : (φ.smp s).derivative = φ.δ s.derivative := rfl
@[simp] theorem sig_samples (s : Signal K) : (φ.sig s).samples = s.samples.map φ.smp := rfl
theorem smp_mk2 (t v : D K) : φ.smp (.mk2 t v) = .mk2 (φ.α t) (φ.β v) := by
  simp [smp, Sample.mk2, φ.zero']
theorem smp_mk0 (t v : D K) : φ.smp ⟨t, v, 0⟩ = ⟨φ.α t, φ.β v, 0⟩ := by
  simp [smp, φ.zero']

theorem interpolate (s : Sample K) (t : D K) :
    (φ.smp s).interpolate (φ.α t) = φ.β (s.interpolate t) := by
  simp [Sample.interpolate, φ.diff', φ.interp']

@[simp] theorem sig_empty : φ.sig Signal.empty = Signal.empty := rfl

theorem beginTime {s : Signal K} (h : s.samples ≠ []) : (φ.sig s).beginTime = φ.α s.beginTime := by
  obtain ⟨l⟩ := s
  cases l with
  | nil => exact absurd rfl h
  | cons a l => rfl

theorem endTime {s : Signal K} (h : s.samples ≠ []) : (φ.sig s).endTime = φ.α s.endTime := by
  obtain ⟨l⟩ := s
  rcases List.eq_nil_or_concat l with rfl | ⟨l, a, rfl⟩
  · exact absurd rfl h
  · simp [Signal.endTime, smp]

theorem back (s : Signal K) : (φ.sig s).back = (s.back).map' φ.smp := by
  unfold Signal.back
  rw [sig_samples, List.getLast?_map]
  cases s.samples.getLast? <;> rfl

theorem pushBack (s : Signal K) (x : Sample K) :
    (φ.sig s).pushBack (φ.smp x) = (s.pushBack x).map' φ.sig := by
  obtain ⟨l⟩ := s
  rcases List.eq_nil_or_concat l with rfl | ⟨l, a, rfl⟩
  · simp [Signal.pushBack, sig, smp, φ.zero']
  · have he := φ.endTime (s := ⟨l ++ [a]⟩) (by simp)
    have h1 : (φ.sig ⟨l ++ [a]⟩).samples.getLast? = some (φ.smp a) := by simp [sig]
    have h2 : (⟨l ++ [a]⟩ : Signal K).samples.getLast? = some a := by simp
    rw [List.concat_eq_append]
    simp only [Signal.pushBack, h1, h2, he, smp_time, φ.le']
    split
    · rfl
    · simp [sig, smp, φ.diff', φ.slope', φ.zero']

theorem pushBackTV (s : Signal K) (t v : D K) :
    (φ.sig s).pushBackTV (φ.α t) (φ.β v) = (s.pushBackTV t v).map' φ.sig := by
  unfold Signal.pushBackTV
  rw [← φ.pushBack, smp_mk0]

theorem pushAll (xs : List (Sample K)) : ∀ s : Signal K,
    (φ.sig s).pushAll (xs.map φ.smp) = (s.pushAll xs).map' φ.sig := by
  induction xs with
  | nil => intro s; rfl
  | cons x xs ih =>
    intro s
    rw [List.map_cons, Signal.pushAll, Signal.pushAll, φ.pushBack, Outcome.bind_map',
      Outcome.map'_bind]
    exact congrArg _ (funext fun a => ih a)

theorem ofSamples (xs : List (Sample K)) :
    Signal.ofSamples (xs.map φ.smp) = (Signal.ofSamples xs).map' φ.sig :=
  φ.pushAll xs Signal.empty

theorem wf {s : Signal K} (h : WF s) : WF (φ.sig s) := by
  have := φ.ofSamples s.samples
  rw [ofSamples_wf h] at this
  exact wf_ofSamples this

theorem lowerBoundLoop_map {γ ε : Type} (f : γ → ε) (p : ε → Bool) (l : List γ) :
    ∀ n a b, lowerBoundLoop p (l.map f) n a b = lowerBoundLoop (fun x => p (f x)) l n a b := by
  intro n
  induction n with
  | zero => intros; rfl
  | succ n ih =>
    intro a b
    rw [lowerBoundLoop, lowerBoundLoop]
    split
    · rfl
    · simp only [List.getElem?_map, ih]
      cases l[a + b / 2]? <;> rfl

theorem isPartitioned_map {γ ε : Type} (f : γ → ε) (p : ε → Bool) (l : List γ) :
    isPartitioned p (l.map f) = isPartitioned (fun x => p (f x)) l := by
  induction l with
  | nil => rfl
  | cons a l ih => simp [isPartitioned, ih, Function.comp_def]

theorem lowerBound_map {γ ε : Type} (f : γ → ε) (p : ε → Bool) (l : List γ) :
    lowerBound p (l.map f) = lowerBound (fun x => p (f x)) l := by
  simp [lowerBound, isPartitioned_map, lowerBoundLoop_map]

theorem lowerBound (l : List (Sample K)) (t : D K) :
    Verif.lowerBound (fun a : Sample L => a.time.lt (φ.α t)) (l.map φ.smp) =
      Verif.lowerBound (fun a : Sample K => a.time.lt t) l := by
  rw [lowerBound_map]; simp [φ.lt']

def pair (p : List (Sample K) × List (Sample K)) := (p.1.map φ.smp, p.2.map φ.smp)

theorem consPair (a b : Sample K) (r) :
    consPair (φ.smp a) (φ.smp b) (r.map' φ.pair) = (consPair a b r).map' φ.pair := by
  cases r <;> rfl

theorem derefPrev (p : Option (Sample K)) :
    derefPrev (p.map φ.smp) = (derefPrev p).map' φ.smp := by cases p <;> rfl

theorem syncInner (next : Option (Sample K) → List (Sample K) → Outcome (List (Sample K) × List (Sample K)))
    (next' : Option (Sample L) → List (Sample L) → Outcome (List (Sample L) × List (Sample L))) (pi : Option (Sample K)) (i : Sample K)
    (hn : ∀ pj js, next' (pj.map φ.smp) (js.map φ.smp) = (next pj js).map' φ.pair) :
    ∀ (js : List (Sample K)) (pj : Option (Sample K)),
      syncInner next' (pi.map φ.smp) (φ.smp i) (pj.map φ.smp) (js.map φ.smp) =
        (syncInner next pi i pj js).map' φ.pair := by
  intro js
  induction js with
  | nil => intro pj; simp [Verif.syncInner, pair]
  | cons j js ih =>
    intro pj
    rw [List.map_cons, Verif.syncInner, Verif.syncInner]
    simp only [smp_time, φ.eq', φ.lt', φ.derefPrev]
    split
    · have := hn (some j) js
      rw [Option.map_some] at this
      rw [this, φ.consPair]
    · split
      · rw [Outcome.bind_map', Outcome.map'_bind]
        congr 1; funext p
        have := hn pj (j :: js)
        rw [List.map_cons] at this
        rw [this, φ.interpolate, ← smp_mk2, φ.consPair]
      · split
        · rw [Outcome.bind_map', Outcome.map'_bind]
          congr 1; funext p
          have := ih (some j)
          rw [Option.map_some] at this
          rw [this, φ.interpolate, ← smp_mk2, φ.consPair]
        · rfl

theorem syncLoop : ∀ (is : List (Sample K)) (pi pj : Option (Sample K)) (js : List (Sample K)),
    syncLoop (pi.map φ.smp) (is.map φ.smp) (pj.map φ.smp) (js.map φ.smp) =
      (syncLoop pi is pj js).map' φ.pair := by
  intro is
  induction is with
  | nil => intros; simp [Verif.syncLoop, pair]
  | cons i is ih =>
    intro pi pj js
    rw [List.map_cons, Verif.syncLoop, Verif.syncLoop]
    exact φ.syncInner _ _ pi i (fun pj js => ih (some i) pj js) js pj

theorem vback (l : List (Sample K)) : vback (l.map φ.smp) = (vback l).map' φ.smp := by
  unfold Verif.vback
  rw [List.getLast?_map]
  cases l.getLast? <;> rfl

theorem prevAt (l : List (Sample K)) (n : Nat) : prevAt (l.map φ.smp) n = (prevAt l n).map φ.smp := by
  cases n <;> simp [Verif.prevAt]

theorem syncHead (b : D K) (prev : Option (Sample K)) (rest : List (Sample K))
    (prevI : Option (Sample K)) :
    syncHead (φ.α b) (prev.map φ.smp) (rest.map φ.smp) (prevI.map φ.smp) =
      (syncHead b prev rest prevI).map' (fun l => l.map φ.smp) := by
  cases rest with
  | nil => rfl
  | cons a l =>
    simp only [List.map_cons, Verif.syncHead, smp_time, φ.lt']
    split
    · cases prev with
      | none => rfl
      | some p =>
        simp only [Option.map_some, φ.derefPrev]
        cases prevI with
        | none => rfl
        | some q => simp [Verif.derefPrev, smp, ← φ.interpolate]
    · rfl

def sig2 (p : Signal K × Signal K) := (φ.sig p.1, φ.sig p.2)

theorem syncFinish (xv yv : List (Sample K)) :
    syncFinish (xv.map φ.smp) (yv.map φ.smp) = (syncFinish xv yv).map' φ.sig2 := by
  unfold Verif.syncFinish
  rw [φ.vback, Outcome.bind_map', Outcome.map'_bind]
  congr 1; funext xb
  rw [φ.vback, Outcome.bind_map', Outcome.map'_bind]
  congr 1; funext yb
  simp only [smp_time, φ.lt', φ.interpolate]
  have e1 : (if yb.time.lt xb.time = true then
      yv.map φ.smp ++ [Sample.mk2 (φ.α xb.time) (φ.β (yb.interpolate xb.time))] else yv.map φ.smp) =
    (if yb.time.lt xb.time = true then
      yv ++ [Sample.mk2 xb.time (yb.interpolate xb.time)] else yv).map φ.smp := by
    split <;> simp [smp_mk2]
  rw [e1]
  generalize (if yb.time.lt xb.time = true then
      yv ++ [Sample.mk2 xb.time (yb.interpolate xb.time)] else yv) = yv'
  rw [φ.vback, Outcome.bind_map', Outcome.map'_bind]
  congr 1; funext yb'
  rw [Outcome.bind_map', Outcome.map'_bind]
  congr 1; funext xb'
  simp only [smp_time, φ.lt', φ.interpolate]
  have e1 : (if xb'.time.lt yb'.time = true then
      xv.map φ.smp ++ [Sample.mk2 (φ.α yb'.time) (φ.β (xb'.interpolate yb'.time))] else xv.map φ.smp) =
    (if xb'.time.lt yb'.time = true then
      xv ++ [Sample.mk2 yb'.time (xb'.interpolate yb'.time)] else xv).map φ.smp := by
    split <;> simp [smp_mk2]
  rw [e1, φ.ofSamples, Outcome.bind_map', Outcome.map'_bind]
  congr 1; funext sx
  rw [φ.ofSamples, Outcome.bind_map', Outcome.map'_bind]
  congr 1

theorem synchronize {x y : Signal K} (h : φ.α 0 = 0 ∨ x.samples ≠ [] ∧ y.samples ≠ []) :
    synchronize (φ.sig x) (φ.sig y) = (synchronize x y).map' φ.sig2 := by
  have hb : D.max (φ.sig x).beginTime (φ.sig y).beginTime = φ.α (D.max x.beginTime y.beginTime) := by
    have : ∀ s : Signal K, (φ.α 0 = 0 ∨ s.samples ≠ []) → (φ.sig s).beginTime = φ.α s.beginTime := by
      intro s hs
      by_cases h' : s.samples = []
      · obtain ⟨l⟩ := s
        simp only at h'; subst h'
        rcases hs with hs | hs
        · exact hs.symm
        · exact absurd rfl hs
      · exact φ.beginTime h'
    rw [this x (h.imp id And.left), this y (h.imp id And.right), φ.max']
  unfold Verif.synchronize
  simp only [hb, sig_samples, φ.lowerBound, ← List.map_drop, φ.prevAt, φ.syncHead]
  simp only [Outcome.map'_bind, Outcome.bind_map']
  congr 1; funext i
  congr 1; funext xv
  congr 1; funext j
  congr 1; funext yv
  rw [φ.syncLoop, Outcome.bind_map']
  congr 1; funext p
  rw [← φ.syncFinish]
  simp [pair]

/-! ### simplify, resize, windows -/

theorem simplifyLoop_cons (sg : Signal K) (s : Sample K) (rest : List (Sample K)) :
    Signal.simplifyLoop sg (s :: rest) = match sg.samples.getLast? with
      | none => sg.pushBack s >>= fun g => Signal.simplifyLoop g rest
      | some b => if !(b.interpolate s.time).eq s.value || !b.derivative.eq s.derivative then
          sg.pushBack s >>= fun g => Signal.simplifyLoop g rest
        else Signal.simplifyLoop sg rest := by
  rw [Signal.simplifyLoop]; rfl

theorem simplifyLoop (l : List (Sample K)) : ∀ sg : Signal K,
    (φ.sig sg).simplifyLoop (l.map φ.smp) = (sg.simplifyLoop l).map' φ.sig := by
  induction l with
  | nil => intro sg; rfl
  | cons s l ih =>
    intro sg
    rw [List.map_cons, simplifyLoop_cons, simplifyLoop_cons, sig_samples, List.getLast?_map]
    cases sg.samples.getLast? with
    | none =>
      simp only [Option.map_none, φ.pushBack, Outcome.bind_map', Outcome.map'_bind, ih]
    | some b =>
      simp only [Option.map_some, smp_time, φ.interpolate, smp_value, smp_derivative, φ.veq', φ.deq']
      split
      · simp only [φ.pushBack, Outcome.bind_map', Outcome.map'_bind, ih]
      · exact ih sg

theorem pushBack_ne {s z : Signal K} {x : Sample K} (h : s.pushBack x = .ok z) : z.samples ≠ [] := by
  unfold Signal.pushBack at h
  split at h
  · simp only [Outcome.ok.injEq] at h; subst h; simp
  · split at h
    · simp at h
    · simp only [Outcome.ok.injEq] at h; subst h; simp

theorem simplifyLoop_ne : ∀ (l : List (Sample K)) (sg z : Signal K), sg.samples ≠ [] →
    sg.simplifyLoop l = .ok z → z.samples ≠ [] := by
  intro l
  induction l with
  | nil => intro sg z h e; simp only [Signal.simplifyLoop, Outcome.ok.injEq] at e; subst e; exact h
  | cons s l ih =>
    intro sg z h e
    rw [simplifyLoop_cons] at e
    split at e
    · simp only [Outcome.bind_eq_ok] at e
      obtain ⟨g, e1, e2⟩ := e
      exact ih g z (pushBack_ne e1) e2
    · split at e
      · simp only [Outcome.bind_eq_ok] at e
        obtain ⟨g, e1, e2⟩ := e
        exact ih g z (pushBack_ne e1) e2
      · exact ih sg z h e

theorem simplify_eq (s : Signal K) : s.simplify =
    (Signal.empty.simplifyLoop s.samples >>= fun sg =>
      if !s.endTime.eq sg.endTime then s.back >>= fun b => sg.pushBack b else .ok sg) := by
  rfl

theorem simplify (s : Signal K) : (φ.sig s).simplify = s.simplify.map' φ.sig := by
  obtain ⟨l⟩ := s
  cases l with
  | nil =>
    simp [simplify_eq, Signal.simplifyLoop, Signal.endTime, Signal.empty, sig, D.zero_def]
  | cons a l =>
    rw [simplify_eq, simplify_eq]
    have := φ.simplifyLoop (a :: l) Signal.empty
    rw [sig_empty] at this
    rw [sig_samples, this, Outcome.bind_map', Outcome.map'_bind]
    apply Outcome.bind_congr_ok
    intro z hz
    have hne : z.samples ≠ [] := by
      rw [simplifyLoop_cons] at hz
      have : (Signal.empty : Signal K).samples.getLast? = none := rfl
      rw [this] at hz
      simp only [Outcome.bind_eq_ok] at hz
      obtain ⟨g, e1, e2⟩ := hz
      exact simplifyLoop_ne l g z (pushBack_ne e1) e2
    rw [φ.endTime (s := ⟨a :: l⟩) (by simp), φ.endTime hne, φ.eq', φ.back]
    split
    · rw [Outcome.bind_map', Outcome.map'_bind]
      congr 1; funext b; exact φ.pushBack _ _
    · rfl

def nextAfter (start : D K) : List (Sample K) → Bool
  | [] => false
  | n :: _ => start.lt n.time

theorem resizeLoop_cons' (start end_ : D K) (sg : Signal K) (prev : Option (Sample K)) (i : Sample K)
    (rest : List (Sample K)) : Signal.resizeLoop start end_ sg prev (i :: rest) =
    if nextAfter start rest then
      sg.pushBack (.mk2 start (i.interpolate start)) >>= fun g =>
        Signal.resizeLoop start end_ g (some i) rest
    else if start.le i.time && i.time.le end_ then
      sg.pushBack i >>= fun g => Signal.resizeLoop start end_ g (some i) rest
    else if end_.lt i.time then
      match prev with
      | some p => if p.time.lt end_ then
          sg.pushBack (.mk2 end_ (p.interpolate end_)) >>= fun g =>
            Signal.resizeLoop start end_ g (some i) rest
        else .ok sg
      | none => .ok sg
    else Signal.resizeLoop start end_ sg (some i) rest := by
  cases rest <;> rfl

theorem resizeLoop (start end_ : D K) (l : List (Sample K)) :
    ∀ (sg : Signal K) (prev : Option (Sample K)),
    Signal.resizeLoop (φ.α start) (φ.α end_) (φ.sig sg) (prev.map φ.smp) (l.map φ.smp) =
      (Signal.resizeLoop start end_ sg prev l).map' φ.sig := by
  induction l with
  | nil => intro sg prev; rfl
  | cons i l ih =>
    intro sg prev
    rw [List.map_cons, resizeLoop_cons', resizeLoop_cons']
    have hm : nextAfter (φ.α start) (l.map φ.smp) = nextAfter start l := by
      cases l <;> simp [nextAfter, φ.lt']
    have ih' := fun sg => ih sg (some i)
    simp only [Option.map_some] at ih'
    rw [hm]
    simp only [smp_time, φ.le', φ.lt', φ.interpolate, ← smp_mk2, φ.pushBack, Outcome.bind_map', ih']
    split
    · rw [Outcome.map'_bind]
    · split
      · rw [Outcome.map'_bind]
      · split
        · cases prev with
          | none => rfl
          | some p =>
            simp only [Option.map_some, smp_time, φ.lt', φ.interpolate, ← smp_mk2, φ.pushBack,
              Outcome.bind_map', ih']
            split
            · rw [Outcome.map'_bind]
            · rfl
        · rfl

theorem resize_eq (s : Signal K) (a b c : D K) : s.resize a b c =
    ((if a.lt s.beginTime then Signal.empty.pushBack ⟨a, c, 0⟩ else .ok Signal.empty) >>= fun g =>
      Signal.resizeLoop a b g none s.samples) := by
  unfold Signal.resize
  split_ifs <;> rfl

theorem resize {s : Signal K} (h : s.samples ≠ []) (start end_ fill : D K) :
    (φ.sig s).resize (φ.α start) (φ.α end_) (φ.β fill) = (s.resize start end_ fill).map' φ.sig := by
  rw [resize_eq, resize_eq, φ.beginTime h, φ.lt']
  have := φ.pushBack Signal.empty ⟨start, fill, 0⟩
  rw [smp_mk0, sig_empty] at this
  rw [this]
  have h2 := fun g => φ.resizeLoop start end_ s.samples g none
  simp only [Option.map_none] at h2
  split
  · rw [Outcome.bind_map', Outcome.map'_bind]
    congr 1; funext g; exact h2 g
  · simp only [Outcome.bind_ok, sig_samples]
    exact h2 Signal.empty

theorem addTime (s : Signal K) (dt : D K) : (φ.sig s).addTime (φ.ρ dt) = φ.sig (s.addTime dt) := by
  simp [Signal.addTime, sig, smp, φ.add', Function.comp_def]

theorem resizeShift {s : Signal K} (h : s.samples ≠ []) (start end_ fill dt : D K) :
    (φ.sig s).resizeShift (φ.α start) (φ.α end_) (φ.β fill) (φ.ρ dt) =
      (s.resizeShift start end_ fill dt).map' φ.sig := by
  unfold Signal.resizeShift
  rw [φ.resize h, Outcome.bind_map', Outcome.map'_bind]
  simp [φ.addTime]

section comp
variable {φ} {comp : Cmp K} {comp' : Cmp L} (hc : ∀ a b, comp' (φ.smp a) (φ.smp b) = comp a b)
include hc

theorem minmaxSeqLoop (l : List (Sample K)) : ∀ opt : Sample K,
    minmaxSeqLoop comp' (φ.smp opt) (l.map φ.smp) = (minmaxSeqLoop comp opt l).map φ.smp := by
  induction l with
  | nil => intro _; rfl
  | cons i l ih =>
    intro opt
    rw [List.map_cons, Verif.minmaxSeqLoop, Verif.minmaxSeqLoop]
    simp only [hc]
    split <;> simp [ih, smp_mk2]

theorem minmaxSeq (x : Signal K) :
    minmaxSeq comp' (φ.sig x) = (minmaxSeq comp x).map' φ.sig := by
  unfold Verif.minmaxSeq
  rw [φ.back, Outcome.bind_map', Outcome.map'_bind]
  congr 1; funext b
  dsimp only
  rw [sig_samples, ← List.map_reverse, ← List.map_tail, minmaxSeqLoop hc, ← List.map_cons,
    ← List.map_reverse, φ.ofSamples]

omit hc in
theorem monoWedgeSearchLoop_eq (comp : Cmp K) (w : List (Sample K)) (v : Sample K) (n i : Nat) :
    Verif.monoWedgeSearchLoop comp w v n i =
      if ((w.length - i) >>> i) > 0 then
        match n with
        | 0 => .diverge
        | n + 1 => match w[w.length - i]? with
          | none => .ub .derefEnd
          | some e => if comp e v then .ok (w.length - i + 1)
            else Verif.monoWedgeSearchLoop comp w v n (i + 1)
      else Verif.lowerBound (fun e => comp e v) (w.take (w.length - i + 1)) := by
  by_cases h : ((w.length - i) >>> i) > 0
  · rw [if_pos h]
    cases n with
    | zero => rw [Verif.monoWedgeSearchLoop.eq_def]; simp only [h, decide_true]
    | succ n => rw [Verif.monoWedgeSearchLoop.eq_def]; simp only [h, decide_true]; cases w[w.length - i]? <;> rfl
  · rw [if_neg h]
    cases n <;> (rw [Verif.monoWedgeSearchLoop.eq_def]; simp only [h, decide_false])

theorem monoWedgeSearchLoop (w : List (Sample K)) (v : Sample K) : ∀ n i,
    monoWedgeSearchLoop comp' (w.map φ.smp) (φ.smp v) n i = monoWedgeSearchLoop comp w v n i := by
  intro n
  induction n with
  | zero =>
    intro i
    rw [monoWedgeSearchLoop_eq, monoWedgeSearchLoop_eq]
    simp only [List.length_map, ← List.map_take, lowerBound_map, hc]
  | succ n ih =>
    intro i
    rw [monoWedgeSearchLoop_eq, monoWedgeSearchLoop_eq]
    simp only [List.length_map, ← List.map_take, lowerBound_map, hc, List.getElem?_map, ih]
    cases w[w.length - i]? with
    | none => rfl
    | some e => simp [hc]

theorem monoWedgeUpdate (w : List (Sample K)) (v : Sample K) :
    monoWedgeUpdate comp' (w.map φ.smp) (φ.smp v) =
      (monoWedgeUpdate comp w v).map' (fun l => l.map φ.smp) := by
  unfold Verif.monoWedgeUpdate Verif.monoWedgeSearch
  simp only [List.length_map, monoWedgeSearchLoop hc, Outcome.map'_bind]
  congr 1; funext i
  simp

omit hc in
theorem popExpired (b : D K) (w : List (Sample K)) :
    popExpired (φ.α b) (w.map φ.smp) = (popExpired b w).map' (fun l => l.map φ.smp) := by
  induction w with
  | nil => rfl
  | cons f w ih =>
    rw [List.map_cons, Verif.popExpired, Verif.popExpired]
    simp only [smp_time, φ.le', ih]
    split <;> simp

def fill (φ : SMap K L) (p : Option (Sample K) × List (Sample K) × List (Sample K)) :=
  (p.1.map φ.smp, p.2.1.map φ.smp, p.2.2.map φ.smp)

theorem windowFill (limit : D K) (l : List (Sample K)) : ∀ (prev : Option (Sample K))
    (w : List (Sample K)),
    windowFill comp' (φ.α limit) (prev.map φ.smp) (l.map φ.smp) (w.map φ.smp) =
      (windowFill comp limit prev l w).map' φ.fill := by
  induction l with
  | nil => intros; rfl
  | cons i l ih =>
    intro prev w
    rw [List.map_cons, Verif.windowFill, Verif.windowFill]
    simp only [smp_time, φ.lt', monoWedgeUpdate hc, Outcome.bind_map']
    split
    · rw [Outcome.map'_bind]
      congr 1; funext w'
      exact ih (some i) w'
    · simp [fill]

omit hc in
theorem windowLoop_cons (comp : Cmp K) (a : D K) (n : Nat) (prev : Option (Sample K)) (i : Sample K)
    (rest w : List (Sample K)) (z : Signal K) :
    windowLoop comp a (n + 1) prev (i :: rest) w z =
      (Verif.vback w.head?.toList >>= fun f =>
        (if f.time.lt (i.time - a) then
          (Verif.derefPrev prev).map' fun p => ⟨f.time + a, p.interpolate (f.time + a), 0⟩
          else .ok i) >>= fun i' =>
        Verif.monoWedgeUpdate comp w i' >>= fun w =>
        Verif.popExpired (i'.time - a) w >>= fun w =>
        z.pushBackTV i'.time i'.value >>= fun z =>
        windowLoop comp a n (some i') (if f.time.lt (i.time - a) then i :: rest else rest) w z) := by
  rw [windowLoop]
  congr 1; funext f
  by_cases h : f.time.lt (i.time - a) = true <;> simp only [h, if_true, if_false, Bool.false_eq_true]

theorem windowLoop (a : D K) : ∀ (n : Nat) (prev : Option (Sample K)) (l w : List (Sample K))
    (z : Signal K),
    windowLoop comp' (φ.ρ a) n (prev.map φ.smp) (l.map φ.smp) (w.map φ.smp) (φ.sig z) =
      (windowLoop comp a n prev l w z).map' φ.sig := by
  intro n
  induction n with
  | zero =>
    intro prev l w z
    cases l <;> simp [Verif.windowLoop]
  | succ n ih =>
    intro prev l w z
    cases l with
    | nil => simp [Verif.windowLoop]
    | cons i l =>
      rw [List.map_cons, windowLoop_cons, windowLoop_cons]
      have hw : (w.map φ.smp).head?.toList = (w.head?.toList).map φ.smp := by cases w <;> rfl
      rw [hw, φ.vback, Outcome.bind_map', Outcome.map'_bind]
      congr 1; funext f
      simp only [smp_time, φ.sub', φ.lt']
      have e1 : (if f.time.lt (i.time - a) = true then
          Outcome.map' (fun p => (⟨φ.α f.time + φ.ρ a, p.interpolate (φ.α f.time + φ.ρ a), 0⟩ : Sample L))
            (Verif.derefPrev (prev.map φ.smp)) else .ok (φ.smp i)) =
        (if f.time.lt (i.time - a) = true then
          Outcome.map' (fun p => (⟨f.time + a, p.interpolate (f.time + a), 0⟩ : Sample K))
            (Verif.derefPrev prev) else .ok i).map' φ.smp := by
        split
        · rw [φ.derefPrev, Outcome.map'_map', Outcome.map'_map']
          congr 1; funext p
          rw [smp_mk0, φ.add', φ.interpolate]
        · rfl
      rw [e1, Outcome.bind_map', Outcome.map'_bind]
      congr 1; funext i'
      rw [monoWedgeUpdate hc, Outcome.bind_map', Outcome.map'_bind]
      congr 1; funext w'
      rw [smp_time, φ.sub', popExpired, Outcome.bind_map', Outcome.map'_bind]
      congr 1; funext w''
      rw [smp_value, φ.pushBackTV, Outcome.bind_map', Outcome.map'_bind]
      congr 1; funext z'
      rw [← ih]
      congr 1
      split <;> rfl

theorem minmaxSeqWindow (n : Nat) (x : Signal K) (a b : D K) :
    minmaxSeqWindow n comp' (φ.sig x) (φ.ρ a) (φ.ρ b) = (minmaxSeqWindow n comp x a b).map' φ.sig := by
  by_cases hx : x.samples = []
  · obtain ⟨l⟩ := x
    simp only at hx; subst hx
    rw [minmaxSeqWindow_eq, minmaxSeqWindow_eq]
    have h0 : (φ.ρ a).eq 0 = a.eq 0 := by rw [← φ.ρeq' a 0, φ.ρzero']
    rw [h0]
    by_cases ha : a.eq 0 = true <;> simp [ha, sig, Verif.windowFill, Signal.back]
  · have h0 : (φ.ρ a).eq 0 = a.eq 0 := by rw [← φ.ρeq' a 0, φ.ρzero']
    rw [minmaxSeqWindow_eq, minmaxSeqWindow_eq, φ.beginTime hx, φ.endTime hx, φ.ρsub', φ.add', φ.add',
      φ.back, h0, φ.ρneg']
    have e1 : (if a.eq 0 = true then Outcome.ok (φ.sig x) else
        x.back.map' φ.smp >>= fun l => (φ.sig x).resizeShift (φ.α (x.beginTime + (b - a)))
          (φ.α (x.endTime + (b - a))) l.value (φ.ρ (-(b - a)))) =
      (if a.eq 0 = true then Outcome.ok x else
        x.back >>= fun l => x.resizeShift (x.beginTime + (b - a))
          (x.endTime + (b - a)) l.value (-(b - a))).map' φ.sig := by
      split
      · rfl
      · rw [Outcome.bind_map', Outcome.map'_bind]
        congr 1; funext l
        exact φ.resizeShift hx _ _ _ _
    rw [e1, Outcome.bind_map', Outcome.map'_bind]
    congr 1; funext x'
    have := windowFill hc (x.beginTime + (b - a)) x'.samples none []
    simp only [Option.map_none, List.map_nil] at this
    rw [sig_samples, this, Outcome.bind_map', Outcome.map'_bind]
    congr 1; funext p
    simp only [fill]
    have := windowLoop hc a n p.1 p.2.1 p.2.2 Signal.empty
    rw [sig_empty] at this
    rw [this, Outcome.bind_map', Outcome.map'_bind]
    congr 1; funext z
    exact φ.simplify z

theorem temporal (r : RobustnessOp K) (r' : RobustnessOp L) (hf : r'.fuel = r.fuel) (y : Signal K) (i : Interval K)
    (i' : Interval L)
    (hv : i'.hasValue = i.hasValue) (hd : i'.asDouble = (φ.ρ i.asDouble.1, φ.ρ i.asDouble.2)) :
    r'.temporal comp' (φ.sig y) i' = (r.temporal comp y i).map' φ.sig := by
  unfold RobustnessOp.temporal
  rw [hv]
  split
  · exact minmaxSeq hc y
  · simp only [hf, hd]
    have h1 : ∀ a : D K, (φ.ρ a).lt 0 = a.lt 0 := fun a => by rw [← φ.ρlt' a 0, φ.ρzero']
    have h2 : ∀ a : D K, (φ.ρ a).eq 0 = a.eq 0 := fun a => by rw [← φ.ρeq' a 0, φ.ρzero']
    simp only [φ.ρsub', h1, h2]
    split
    · rfl
    · split
      · rfl
      · have e : ((φ.sig y).endTime - (φ.sig y).beginTime) = φ.ρ (y.endTime - y.beginTime) := by
          by_cases hy : y.samples = []
          · obtain ⟨l⟩ := y
            simp only at hy; subst hy
            show (0 : D L) - 0 = φ.ρ ((0 : D K) - 0)
            rw [← φ.ρsub', φ.ρzero']
          · rw [φ.beginTime hy, φ.endTime hy, φ.diff']
        rw [e, φ.ρle']
        split
        · exact minmaxSeq hc y
        · exact minmaxSeqWindow hc _ _ _ _

end comp

end SMap

end Verif
