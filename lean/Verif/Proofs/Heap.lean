import Verif.Model.Heap
import Mathlib.Data.List.Forall2

/-!
# Signals in memory: the operations agree with those on values
-/

set_option linter.unusedSectionVars false

namespace Verif
namespace Mem
variable {K α β γ δ : Type}

/-- Two outcomes agree. -/
inductive Same (R : α → β → Prop) : Outcome α → Outcome β → Prop
  | ok {a : α} {b : β} : R a b → Same R (.ok a) (.ok b)
  | throw (e : Exn) : Same R (.throw e) (.throw e)
  | abort : Same R .abort .abort
  | ub (u : UB) : Same R (.ub u) (.ub u)
  | diverge : Same R .diverge .diverge

/-- Started in `h`, the computation `m` agrees with `o` and does not change the objects of `base`. -/
def Sim (base h : Heap K) (m : Mem K α) (o : Outcome β) (R : Heap K → α → β → Prop) : Prop :=
  base <+: (m h).2 ∧ Same (R (m h).2) (m h).1 o

variable {base h : Heap K} {m : Mem K α} {o : Outcome β} {R R' : Heap K → α → β → Prop}

theorem Sim.bind {f : α → Mem K γ} {g : β → Outcome δ} {Q : Heap K → γ → δ → Prop} (h1 : Sim base h m o R)
    (h2 : ∀ h' a b, base <+: h' → R h' a b → Sim base h' (f a) (g b) Q) : Sim base h (m >>= f) (o >>= g) Q := by
  obtain ⟨hb, hs⟩ := h1
  show Sim base h (Mem.bind m f) _ Q
  unfold Sim Mem.bind
  rcases hm : m h with ⟨x, h'⟩
  rw [hm] at hb hs
  cases hs with
  | ok hr => exact h2 h' _ _ hb hr
  | throw e => exact ⟨hb, .throw e⟩
  | abort => exact ⟨hb, .abort⟩
  | ub u => exact ⟨hb, .ub u⟩
  | diverge => exact ⟨hb, .diverge⟩

theorem Sim.pure {a : α} {b : β} (hb : base <+: h) (hr : R h a b) :
    Sim base h (Pure.pure a : Mem K α) (.ok b) R := ⟨hb, .ok hr⟩

theorem Sim.lift {o : Outcome α} {R : Heap K → α → α → Prop} (hb : base <+: h) (hr : ∀ a, o = .ok a → R h a a) :
    Sim base h (Mem.lift o) o R := by
  refine ⟨hb, ?_⟩
  show Same (R h) o o
  cases o with
  | ok a => exact .ok (hr a rfl)
  | throw e => exact .throw e
  | abort => exact .abort
  | ub u => exact .ub u
  | diverge => exact .diverge

theorem Sim.weaken (h1 : Sim base h m o R) (hr : ∀ h' a b, base <+: h' → R h' a b → R' h' a b) :
    Sim base h m o R' := by
  obtain ⟨hb, hs⟩ := h1
  refine ⟨hb, ?_⟩
  generalize (m h).1 = r at hs
  cases hs with
  | ok hr' => exact .ok (hr _ _ _ hb hr')
  | throw e => exact .throw e
  | abort => exact .abort
  | ub u => exact .ub u
  | diverge => exact .diverge

theorem Sim.rebase {base' : Heap K} (h1 : Sim base' h m o R) (hb : base <+: base') : Sim base h m o R :=
  ⟨hb.trans h1.1, h1.2⟩

theorem Sim.result (h1 : Sim base h m o R) {f : α → γ} {g : β → γ} (hr : ∀ a b, R (m h).2 a b → f a = g b) :
    (m h).1.map' f = o.map' g := by
  obtain ⟨-, hs⟩ := h1
  generalize (m h).1 = r at hs
  cases hs with
  | ok h' => exact congrArg Outcome.ok (hr _ _ h')
  | _ => rfl

theorem Sim.of_ok (h1 : Sim base h m o R) {a : α} (ha : (m h).1 = .ok a) : ∃ b, o = .ok b ∧ R (m h).2 a b := by
  obtain ⟨-, hs⟩ := h1
  generalize (m h).1 = r at hs ha
  subst ha
  cases hs with
  | ok h' => exact ⟨_, rfl, h'⟩

/-- A step without a counterpart. -/
theorem Sim.step {f : α → Mem K γ} {o' : Outcome δ} {Q : Heap K → γ → δ → Prop} {a : α} {h' : Heap K}
    (h1 : m h = (.ok a, h')) (h2 : Sim base h' (f a) o' Q) : Sim base h (m >>= f) o' Q := by
  show Sim base h (Mem.bind m f) _ Q
  unfold Sim Mem.bind
  rw [h1]
  exact h2

/-- The object at `p` is `s`. -/
def Holds (h : Heap K) (p : Ptr) (s : Signal K) : Prop := ∃ n, p = some n ∧ h[n]? = some s

/-- The object at `p` is `s`, and it was created after `base`. -/
def Fresh (base h : Heap K) (p : Ptr) (s : Signal K) : Prop := ∃ n, p = some n ∧ base.length ≤ n ∧ h[n]? = some s

theorem Fresh.holds {p : Ptr} {s : Signal K} (hf : Fresh base h p s) : Holds h p s :=
  let ⟨n, h1, _, h2⟩ := hf; ⟨n, h1, h2⟩

theorem Holds.mono {h' : Heap K} {p : Ptr} {s : Signal K} (hp : Holds h p s) (hh : h <+: h') : Holds h' p s := by
  obtain ⟨n, h1, h2⟩ := hp
  obtain ⟨t, rfl⟩ := hh
  exact ⟨n, h1, by rw [List.getElem?_append_left (List.getElem?_eq_some_iff.1 h2).1]; exact h2⟩

theorem Fresh.mono {h' : Heap K} {p : Ptr} {s : Signal K} (hp : Fresh base h p s) (hh : h <+: h') : Fresh base h' p s := by
  obtain ⟨n, h1, h2, h3⟩ := hp
  obtain ⟨n', h1', h3'⟩ := Holds.mono ⟨n, h1, h3⟩ hh
  rw [h1] at h1'; cases h1'
  exact ⟨n, h1, h2, h3'⟩

theorem Fresh.later {base' : Heap K} {p : Ptr} {s : Signal K} (hp : Fresh base' h p s) (hb : base <+: base') :
    Fresh base h p s := by
  obtain ⟨n, h1, h2, h3⟩ := hp
  exact ⟨n, h1, hb.length_le.trans h2, h3⟩

/-- The object `s` has been created at `p`, and nothing else. -/
def New (base h : Heap K) (p : Ptr) (s : Signal K) : Prop := p = some base.length ∧ h = base ++ [s]

/-- A new object. -/
theorem Fresh.last (h : Heap K) (s : Signal K) : Fresh h (h ++ [s]) (some h.length) s :=
  ⟨_, rfl, le_rfl, by simp⟩

theorem New.fresh {p : Ptr} {s : Signal K} (hn : New base h p s) : Fresh base h p s := by
  obtain ⟨rfl, rfl⟩ := hn
  exact .last _ _

theorem Sim.fresh {m : Mem K Ptr} {o : Outcome (Signal K)} (h1 : Sim base h m o (New base)) :
    Sim base h m o (Fresh base) := h1.weaken fun _ _ _ _ hn => hn.fresh

section
variable [Field K] [LinearOrder K]

theorem Sim.deref {p : Ptr} {s : Signal K} {f : Signal K → Mem K γ} {o' : Outcome δ} {Q : Heap K → γ → δ → Prop}
    (hp : Holds h p s) (h2 : Sim base h (f s) o' Q) : Sim base h (Mem.deref p >>= f) o' Q := by
  obtain ⟨n, rfl, hn⟩ := hp
  exact .step (by simp only [Mem.deref, hn]) h2

theorem Sim.still {p : Ptr} {s : Signal K} {f : Unit → Mem K γ} {o' : Outcome δ} {Q : Heap K → γ → δ → Prop}
    (hp : Holds h p s) (h2 : Sim base h (f ()) o' Q) : Sim base h (Mem.still p s >>= f) o' Q := by
  obtain ⟨n, rfl, hn⟩ := hp
  exact .step (by simp only [Mem.still, Mem.deref, hn, if_true]) h2

theorem Sim.alloc {f : Ptr → Mem K γ} {o' : Outcome δ} {Q : Heap K → γ → δ → Prop}
    (h2 : Sim base (h ++ [Signal.empty]) (f (some h.length)) o' Q) : Sim base h (Mem.alloc >>= f) o' Q :=
  .step rfl h2

/-- The object under construction. -/
def Building (base h : Heap K) (_ : Unit) (s : Signal K) : Prop := h = base ++ [s]

variable [Arith K] {s : Signal K} {x : Sample K}

theorem pushBack_sim (base : Heap K) (s : Signal K) (x : Sample K) :
    Sim base (base ++ [s]) (Mem.pushBack (some base.length) x) (s.pushBack x) (Building base) := by
  unfold Sim Mem.pushBack Signal.pushBack Signal.pushBackStep
  simp only [List.getElem?_append_right le_rfl, Nat.sub_self, List.getElem?_cons_zero, List.set_append_right, le_refl,
    List.set_cons_zero]
  cases hl : s.samples.getLast? with
  | none =>
    have : s.samples = [] := List.getLast?_eq_none_iff.1 hl
    exact ⟨List.prefix_append _ _, .ok (by simp [Building, this])⟩
  | some l =>
    simp only
    split
    · exact ⟨List.prefix_append _ _, .throw _⟩
    · refine ⟨List.prefix_append _ _, .ok ?_⟩
      simp [Building]

theorem Sim.pushBack {f : Unit → Mem K γ} {g : Signal K → Outcome δ} {Q : Heap K → γ → δ → Prop}
    (h2 : ∀ s', Sim base (base ++ [s']) (f ()) (g s') Q) :
    Sim base (base ++ [s]) (Mem.pushBack (some base.length) x >>= f) (s.pushBack x >>= g) Q :=
  .bind (pushBack_sim base s x) fun h' _ b _ hb => by cases hb; exact h2 b

theorem pushAll_sim : ∀ (xs : List (Sample K)) (s : Signal K),
    Sim base (base ++ [s]) (Mem.pushAll (some base.length) xs) (s.pushAll xs) (Building base)
  | [], _ => .pure (List.prefix_append _ _) rfl
  | _ :: xs, _ => .pushBack fun s' => pushAll_sim xs s'

/-- After the construction: the new object is returned. -/
theorem Sim.built {m : Mem K Unit} {o : Outcome (Signal K)} (h1 : Sim base h m o (Building base)) :
    Sim base h (m >>= fun _ => Pure.pure (some base.length : Ptr)) o (New base) := by
  have := Sim.bind (f := fun _ => (Pure.pure (some base.length) : Mem K Ptr)) (g := fun b => Outcome.ok b)
    (Q := New base) h1 fun h' _ b hb hr => by
      cases hr
      exact .pure hb ⟨rfl, rfl⟩
  rwa [Outcome.bind_ok_right] at this

theorem make_sim (h : Heap K) (v : List (Sample K)) : Sim h h (Mem.make v) (Signal.ofSamples v) (New h) :=
  .alloc (.built (pushAll_sim v _))

theorem copyLoop_sim {p : Ptr} {s : Signal K} (hp : Holds base p s) : ∀ (xs : List (Sample K)) (b : Signal K),
    Sim base (base ++ [b]) (Mem.copyLoop p s (some base.length) xs) (b.pushAll xs) (Building base)
  | [], _ => .pure (List.prefix_append _ _) rfl
  | _ :: xs, _ => .still (hp.mono (List.prefix_append _ _)) (.pushBack fun s' => copyLoop_sim hp xs s')

theorem copy_sim {p : Ptr} (hp : Holds h p s) : Sim h h (Mem.copy p) s.copy (New h) :=
  .deref hp (.alloc (.built (copyLoop_sim hp _ _)))

theorem Sim.last {f : Signal K → Mem K γ} {o' : Outcome δ} {Q : Heap K → γ → δ → Prop}
    (h2 : Sim base (base ++ [s]) (f s) o' Q) : Sim base (base ++ [s]) (Mem.deref (some base.length) >>= f) o' Q :=
  .deref (Fresh.last base s).holds h2

theorem simplifyLoop_sim {p : Ptr} {s : Signal K} (hp : Holds base p s) : ∀ (xs : List (Sample K)) (b : Signal K),
    Sim base (base ++ [b]) (Mem.simplifyLoop p s (some base.length) xs) (b.simplifyLoop xs) (Building base)
  | [], _ => .pure (List.prefix_append _ _) rfl
  | x :: xs, b => by
    refine .still (hp.mono (List.prefix_append _ _)) (.last ?_)
    simp only [Signal.simplifyLoop]
    cases b.samples.getLast? with
    | none => exact .pushBack fun s' => simplifyLoop_sim hp xs s'
    | some l =>
      simp only
      split
      · exact .pushBack fun s' => simplifyLoop_sim hp xs s'
      · exact simplifyLoop_sim hp xs b

theorem Sim.onlyIf {c : Bool} {m : Mem K Unit} {o : Outcome (Signal K)}
    (h1 : c = true → Sim base (base ++ [s]) m o (Building base)) :
    Sim base (base ++ [s]) (Mem.onlyIf c m) (if c then o else .ok s) (Building base) := by
  unfold Mem.onlyIf
  cases c with
  | true => exact h1 rfl
  | false => exact .pure (List.prefix_append _ _) rfl

theorem Sim.lifted {o : Outcome α} {f : α → Mem K γ} {g : α → Outcome δ} {Q : Heap K → γ → δ → Prop}
    (hb : base <+: h) (h2 : ∀ a, o = .ok a → Sim base h (f a) (g a) Q) : Sim base h (Mem.lift o >>= f) (o >>= g) Q :=
  .bind (.lift (R := fun h' a b => h' = h ∧ a = b ∧ o = .ok a) hb fun a ha => ⟨rfl, rfl, ha⟩)
    fun h' a b _ ⟨e1, e2, e3⟩ => by subst e1 e2; exact h2 a e3

theorem simplify_sim {p : Ptr} (hp : Holds h p s) : Sim h h (Mem.simplify p) s.simplify (New h) := by
  refine .deref hp (.alloc ?_)
  refine .bind (simplifyLoop_sim hp _ _) fun h' _ b _ hb => ?_
  cases hb
  refine .last (.built ?_)
  exact .onlyIf fun _ => .lifted (List.prefix_append _ _) fun a _ => pushBack_sim _ _ _

theorem resizeLoop_sim {p : Ptr} {s : Signal K} (hp : Holds base p s) (start end_ : D K) :
    ∀ (xs : List (Sample K)) (prev : Option (Sample K)) (b : Signal K),
    Sim base (base ++ [b]) (Mem.resizeLoop p s start end_ (some base.length) prev xs)
      (Signal.resizeLoop start end_ b prev xs) (Building base)
  | [], prev, b => by
    simp only [Signal.resizeLoop, Mem.resizeLoop]
    exact .pure (List.prefix_append _ _) rfl
  | x :: xs, prev, b => by
    simp only [Signal.resizeLoop, Mem.resizeLoop]
    refine .still (hp.mono (List.prefix_append _ _)) ?_
    have next := resizeLoop_sim hp start end_ xs
    rcases xs with _ | ⟨n, xs⟩
    all_goals
      dsimp only
      split
      · exact .pushBack fun s' => next _ s'
      · split
        · exact .pushBack fun s' => next _ s'
        · split
          · cases prev with
            | none => exact .pure (List.prefix_append _ _) rfl
            | some q =>
              dsimp only
              split
              · exact .pushBack fun s' => next _ s'
              · exact .pure (List.prefix_append _ _) rfl
          · exact next _ b

theorem resize_sim {p : Ptr} (hp : Holds h p s) (start end_ fill : D K) :
    Sim h h (Mem.resize p start end_ fill) (s.resize start end_ fill) (New h) := by
  have e : s.resize start end_ fill = ((if start.lt s.beginTime then Signal.empty.pushBack ⟨start, fill, 0⟩
      else .ok Signal.empty) >>= fun sig => Signal.resizeLoop start end_ sig none s.samples) := by
    unfold Signal.resize
    split <;> rfl
  rw [e]
  refine .deref hp (.alloc (.bind (.onlyIf fun _ => pushBack_sim _ _ _) fun h' _ b _ hb => ?_))
  cases hb
  exact .built (resizeLoop_sim hp start end_ _ _ _)

theorem addTime_sim (base : Heap K) (s : Signal K) (dt : D K) :
    Sim base (base ++ [s]) (Mem.addTime (some base.length) dt) (.ok (s.addTime dt)) (Building base) := by
  unfold Sim Mem.addTime
  simp only [List.getElem?_append_right le_rfl, Nat.sub_self, List.getElem?_cons_zero, List.set_append_right, le_refl,
    List.set_cons_zero]
  exact ⟨List.prefix_append _ _, .ok rfl⟩

theorem shift_sim {p : Ptr} (hp : Holds h p s) (dt : D K) : Sim h h (Mem.shift p dt) (s.shift dt) (New h) := by
  refine .bind (copy_sim hp) fun h' q b _ hn => ?_
  obtain ⟨rfl, rfl⟩ := hn
  exact .built (addTime_sim h b dt)

theorem resizeShift_sim {p : Ptr} (hp : Holds h p s) (start end_ fill dt : D K) :
    Sim h h (Mem.resizeShift p start end_ fill dt) (s.resizeShift start end_ fill dt) (New h) := by
  refine .bind (resize_sim hp start end_ fill) fun h' q b _ hn => ?_
  obtain ⟨rfl, rfl⟩ := hn
  exact .built (addTime_sim h b dt)

/-- Two new objects. -/
def New2 (base h : Heap K) (p : Ptr × Ptr) (s : Signal K × Signal K) : Prop :=
  Fresh base h p.1 s.1 ∧ Fresh base h p.2 s.2 ∧ p.1 ≠ p.2

theorem synchronize_vectors (x y : Signal K) : Verif.synchronize x y = syncVectors x y >>= fun v =>
    Signal.ofSamples v.1 >>= fun sx => Signal.ofSamples v.2 >>= fun sy => .ok (sx, sy) := by
  unfold Verif.synchronize syncVectors syncFinish
  simp only [Outcome.bind_assoc', Outcome.pure_eq_ok, Outcome.bind_ok]

theorem synchronize_sim {p q : Ptr} {x y : Signal K} (hp : Holds h p x) (hq : Holds h q y) :
    Sim h h (Mem.synchronize p q) (Verif.synchronize x y) (New2 h) := by
  rw [synchronize_vectors]
  refine .deref hp (.deref hq (.lifted (List.prefix_refl _) fun v _ => ?_))
  obtain ⟨xv, yv⟩ := v
  refine .bind (make_sim h xv) fun h' px sx _ hx => ?_
  obtain ⟨rfl, rfl⟩ := hx
  refine .bind ((make_sim (h ++ [sx]) yv).rebase (List.prefix_append _ _)) fun h' py sy hb hy => ?_
  obtain ⟨rfl, rfl⟩ := hy
  refine .pure hb ⟨(Fresh.last h sx).mono (List.prefix_append _ _), ?_, ?_⟩
  · exact (Fresh.last (h ++ [sx]) sy).later (List.prefix_append _ _)
  · simp

theorem insertCrossing_sim (self point : Option (Sample K)) (cur : D K) :
    Sim base (base ++ [s]) (Mem.insertCrossing (some base.length) self point cur)
      (Verif.insertCrossing s self point cur) (Building base) := by
  refine .lifted (List.prefix_append _ _) fun a _ => .lifted (List.prefix_append _ _) fun b _ => .last ?_
  exact .onlyIf fun _ => pushBack_sim _ _ _

theorem minmaxPairLoop_sim {p q : Ptr} {x y : Signal K} (hp : Holds base p x) (hq : Holds base q y) (comp : Cmp K) :
    ∀ (is js : List (Sample K)) (last : Chosen) (pi pj : Option (Sample K)) (s : Signal K),
    Sim base (base ++ [s]) (Mem.minmaxPairLoop comp p q x y (some base.length) last pi pj is js)
      (Verif.minmaxPairLoop comp s last pi pj is js) (Building base)
  | [], _, _, _, _, s => by
    simp only [Mem.minmaxPairLoop, Verif.minmaxPairLoop]
    exact .pure (List.prefix_append _ _) rfl
  | _ :: _, [], _, _, _, s => by
    simp only [Mem.minmaxPairLoop, Verif.minmaxPairLoop]
    exact .pure (List.prefix_append _ _) rfl
  | i :: is, j :: js, last, pi, pj, s => by
    have e : Verif.minmaxPairLoop comp s last pi pj (i :: is) (j :: js) =
        if comp i j then (if decide (last = .Y) then Verif.insertCrossing s pj pi i.time else .ok s) >>= fun out =>
          out.pushBack i >>= fun out => Verif.minmaxPairLoop comp out .X (some i) (some j) is js
        else (if decide (last = .X) then Verif.insertCrossing s pi pj j.time else .ok s) >>= fun out =>
          out.pushBack j >>= fun out => Verif.minmaxPairLoop comp out .Y (some i) (some j) is js := by
      rw [Verif.minmaxPairLoop]
      cases last <;> simp
    rw [e, Mem.minmaxPairLoop]
    refine .still (hp.mono (List.prefix_append _ _)) (.still (hq.mono (List.prefix_append _ _)) ?_)
    split
    · refine .bind (.onlyIf fun _ => insertCrossing_sim _ _ _) fun h' _ b _ hb => ?_
      cases hb
      exact .pushBack fun s' => minmaxPairLoop_sim hp hq comp is js _ _ _ s'
    · refine .bind (.onlyIf fun _ => insertCrossing_sim _ _ _) fun h' _ b _ hb => ?_
      cases hb
      exact .pushBack fun s' => minmaxPairLoop_sim hp hq comp is js _ _ _ s'

theorem minmaxPair_sim {p q : Ptr} {x y : Signal K} (hp : Holds h p x) (hq : Holds h q y) (nd : Bool) (comp : Cmp K)
    (synced : Bool) :
    Sim h h (Mem.minmaxPair nd comp p q synced) (Verif.minmaxPair nd comp x y synced) (Fresh h) := by
  have e : Verif.minmaxPair nd comp x y synced = (if synced then .ok (x, y) else Verif.synchronize x y) >>= fun v =>
      assert_ nd (v.1.size == v.2.size) >>= fun _ => assert_ nd (v.1.beginTime.eq v.2.beginTime) >>= fun _ =>
      assert_ nd (v.1.endTime.eq v.2.endTime) >>= fun _ =>
      Verif.minmaxPairLoop comp Signal.empty .NONE none none v.1.samples v.2.samples := by
    unfold Verif.minmaxPair
    cases synced <;> rfl
  rw [e]
  refine .bind (R := fun h' a b => Holds h' a.1 b.1 ∧ Holds h' a.2 b.2) ?_ fun h' a b hb hr => ?_
  · cases synced with
    | true => exact .pure (List.prefix_refl _) ⟨hp, hq⟩
    | false => exact (synchronize_sim hp hq).weaken fun _ _ _ _ hn => ⟨hn.1.holds, hn.2.1.holds⟩
  · obtain ⟨a1, a2⟩ := a
    obtain ⟨b1, b2⟩ := b
    refine .deref hr.1 (.deref hr.2 (.lifted hb fun _ _ => .lifted hb fun _ _ => .lifted hb fun _ _ => .alloc ?_))
    exact ((Sim.built (minmaxPairLoop_sim hr.1 hr.2 comp _ _ _ _ _ _)).fresh.weaken
      fun _ _ _ _ hf => hf.later hb).rebase hb

theorem holds_all {h' : Heap K} (hh : h <+: h') : ∀ {ps : List Ptr} {xs : List (Signal K)},
    List.Forall₂ (Holds h) ps xs → List.Forall₂ (Holds h') ps xs
  | _, _, .nil => .nil
  | _, _, .cons hp hs => .cons (hp.mono hh) (holds_all hh hs)

theorem minmaxFold_sim (nd : Bool) (comp : Cmp K) (synced : Bool) : ∀ (ps : List Ptr) (xs : List (Signal K)) (p : Ptr)
    (x : Signal K) (h : Heap K), base <+: h → Fresh base h p x → List.Forall₂ (Holds h) ps xs →
    Sim h h (Mem.minmaxFold nd comp synced p ps) (Verif.minmaxFold nd comp synced x xs) (Fresh base)
  | _, _, _, _, _, _, hp, .nil => .pure (List.prefix_refl _) hp
  | _, _, _, _, _, hb, hp, .cons hq hs =>
    .bind ((minmaxPair_sim hp.holds hq nd comp synced).weaken fun _ _ _ _ hf => hf.later hb)
      fun h' a b hb' hf => (minmaxFold_sim nd comp synced _ _ a b h' (hb.trans hb') hf (holds_all hb' hs)).rebase hb'

/-- All objects are new. -/
def FreshAll (base h : Heap K) (ps : List Ptr) (xs : List (Signal K)) : Prop := List.Forall₂ (Fresh base h) ps xs

theorem FreshAll.holds : ∀ {ps : List Ptr} {xs : List (Signal K)}, FreshAll base h ps xs → List.Forall₂ (Holds h) ps xs
  | _, _, .nil => .nil
  | _, _, .cons hp hs => .cons hp.holds (FreshAll.holds hs)

theorem minmaxVec_sim (nd : Bool) (comp : Cmp K) (synced : Bool) {ps : List Ptr} {xs : List (Signal K)}
    (hb : base <+: h) (hs : FreshAll base h ps xs) :
    Sim h h (Mem.minmaxVec nd comp ps synced) (Verif.minmaxVec nd comp xs synced) (Fresh base) := by
  match hs with
  | .nil => exact (Sim.alloc (Sim.built (pushBack_sim h _ _))).fresh.weaken fun _ _ _ _ hf => hf.later hb
  | .cons hp .nil => exact .pure (List.prefix_refl _) hp
  | .cons hp (.cons hq .nil) =>
    exact (minmaxPair_sim hp.holds hq.holds nd comp synced).weaken fun _ _ _ _ hf => hf.later hb
  | .cons hp (.cons hq (.cons hr hs)) =>
    exact minmaxFold_sim nd comp synced _ _ _ _ h hb hp (FreshAll.holds (.cons hq (.cons hr hs)))

theorem minmaxSeq_sim (comp : Cmp K) {p : Ptr} (hp : Holds h p s) :
    Sim h h (Mem.minmaxSeq comp p) (Verif.minmaxSeq comp s) (New h) :=
  .deref hp (.lifted (List.prefix_refl _) fun _ _ => make_sim _ _)

theorem windowLoop_sim (comp : Cmp K) (a : D K) : ∀ (fuel : Nat) (prev : Option (Sample K)) (l w : List (Sample K))
    (z : Signal K), Sim base (base ++ [z]) (Mem.windowLoop comp a (some base.length) fuel prev l w)
      (Verif.windowLoop comp a fuel prev l w z) (Building base)
  | 0, _, [], _, z => by
    simp only [Mem.windowLoop, Verif.windowLoop]
    exact .pure (List.prefix_append _ _) rfl
  | 0, _, _ :: _, _, z => by
    simp only [Mem.windowLoop, Verif.windowLoop]
    exact ⟨List.prefix_append _ _, .diverge⟩
  | n + 1, _, [], _, z => by
    simp only [Mem.windowLoop, Verif.windowLoop]
    exact .pure (List.prefix_append _ _) rfl
  | n + 1, prev, i :: rest, w, z => by
    have e : Verif.windowLoop comp a (n + 1) prev (i :: rest) w z = vback w.head?.toList >>= fun f =>
        (if f.time.lt (i.time - a) then
          (derefPrev prev).map' fun p => ⟨f.time + a, p.interpolate (f.time + a), 0⟩ else .ok i) >>= fun i' =>
        monoWedgeUpdate comp w i' >>= fun w => popExpired (i'.time - a) w >>= fun w =>
        z.pushBack ⟨i'.time, i'.value, 0⟩ >>= fun z =>
        Verif.windowLoop comp a n (some i') (if f.time.lt (i.time - a) then i :: rest else rest) w z := by
      rw [Verif.windowLoop]
      congr 1
      funext f
      split <;> simp_all [Signal.pushBackTV]
    rw [e, Mem.windowLoop]
    refine .lifted (List.prefix_append _ _) fun f _ => .lifted (List.prefix_append _ _) fun i' _ =>
      .lifted (List.prefix_append _ _) fun w _ => .lifted (List.prefix_append _ _) fun w _ => .pushBack fun s' => ?_
    exact windowLoop_sim comp a n _ _ _ s'

theorem minmaxSeqWindow_sim (fuel : Nat) (comp : Cmp K) {p : Ptr} (hp : Holds h p s) (a b : D K) :
    Sim h h (Mem.minmaxSeqWindow fuel comp p a b) (Verif.minmaxSeqWindow fuel comp s a b) (Fresh h) := by
  have e : Verif.minmaxSeqWindow fuel comp s a b = (if a.eq 0 then .ok s else s.back >>= fun back =>
      s.resizeShift (s.beginTime + (b - a)) (s.endTime + (b - a)) back.value (-(b - a))) >>= fun x' =>
      windowFill comp (s.beginTime + (b - a)) none x'.samples [] >>= fun v =>
      Verif.windowLoop comp a fuel v.1 v.2.1 v.2.2 Signal.empty >>= fun z => z.simplify := by
    unfold Verif.minmaxSeqWindow
    cases a.eq 0 <;> simp [Outcome.bind_assoc']
  rw [e]
  refine .deref hp (.bind (R := Holds) ?_ fun h' q x' hb hq => ?_)
  · cases a.eq 0 with
    | true => exact .pure (List.prefix_refl _) hp
    | false =>
      exact .lifted (List.prefix_refl _) fun back _ =>
        (resizeShift_sim hp _ _ _ _).weaken fun _ _ _ _ hn => hn.fresh.holds
  · refine .alloc (.deref (hq.mono (List.prefix_append _ _)) (.lifted (hb.trans (List.prefix_append _ _)) fun v _ => ?_))
    obtain ⟨prev, rest, w⟩ := v
    refine .bind ((windowLoop_sim comp a fuel prev rest w _).rebase hb) fun h'' _ z hb' hz => ?_
    cases hz
    exact (((simplify_sim (Fresh.last h' z).holds).fresh).weaken fun _ _ _ _ hf => hf.later hb').rebase hb'

theorem computeUntil_sim {p q : Ptr} {x y : Signal K} (hp : Holds h p x) (hq : Holds h q y) (nd : Bool) :
    Sim h h (Mem.computeUntil nd p q) (Verif.computeUntil nd x y) (Fresh h) := by
  refine .bind (synchronize_sim hp hq) fun h' a b hb hr => ?_
  obtain ⟨a1, a2⟩ := a
  obtain ⟨b1, b2⟩ := b
  refine .deref hr.1.holds (.deref hr.2.1.holds (.lifted hb fun _ _ => .lifted hb fun _ _ => .lifted hb fun _ _ => ?_))
  exact (((make_sim h' _).fresh).weaken fun _ _ _ _ hf => hf.later hb).rebase hb

/-- The pointers of a trace point to the signals of a trace. -/
def Points (h : Heap K) (pt : PTrace) (vt : Trace K) : Prop := List.Forall₂ (fun a b => a.1 = b.1 ∧ Holds h a.2 b.2) pt vt

theorem Points.mono {h' : Heap K} (hh : h <+: h') : ∀ {pt : PTrace} {vt : Trace K}, Points h pt vt → Points h' pt vt
  | _, _, .nil => .nil
  | _, _, .cons hp hs => .cons ⟨hp.1, hp.2.mono hh⟩ (Points.mono hh hs)

theorem traceAt_sim (name : String) : ∀ {pt : PTrace} {vt : Trace K}, Points h pt vt →
    Sim h h (Mem.traceAt pt name) (vt.at_ name) (fun h' p s => h' = h ∧ Holds h p s)
  | _, _, .nil => ⟨List.prefix_refl _, .throw _⟩
  | (k, p) :: pt, (k', s) :: vt, .cons hp hs => by
    obtain ⟨rfl, hp⟩ := hp
    have ih := traceAt_sim name hs
    unfold Mem.traceAt Trace.at_ at ih ⊢
    simp only [List.lookup_cons]
    cases name == k with
    | true => exact .pure (List.prefix_refl _) ⟨rfl, hp⟩
    | false => exact ih

theorem predLoop_sim {p : Ptr} {s : Signal K} (hp : Holds base p s) (op : ComparisonOp) (rhs : D K) :
    ∀ (xs : List (Sample K)) (b : Signal K),
    Sim base (base ++ [b]) (Mem.predLoop p s op rhs (some base.length) xs)
      (b.pushAll (xs.map fun s => ⟨s.time, RobustnessOp.predValue op rhs s.value, 0⟩)) (Building base)
  | [], _ => .pure (List.prefix_append _ _) rfl
  | _ :: xs, _ => .still (hp.mono (List.prefix_append _ _)) (.pushBack fun s' => predLoop_sim hp op rhs xs s')

/-- The same evaluation, on pointers and on values. -/
def SameOp (h : Heap K) (r : Op K) (v : RobustnessOp K) : Prop :=
  r.ndebug = v.ndebug ∧ r.fuel = v.fuel ∧ r.minTime = v.minTime ∧ r.maxTime = v.maxTime ∧ Points h r.trace v.trace

theorem SameOp.mono {h' : Heap K} (hh : h <+: h') {r : Op K} {v : RobustnessOp K} (hr : SameOp h r v) : SameOp h' r v :=
  ⟨hr.1, hr.2.1, hr.2.2.1, hr.2.2.2.1, hr.2.2.2.2.mono hh⟩

variable {r : Op K} {v : RobustnessOp K}

theorem pred_sim (hr : SameOp h r v) (name : String) (op : ComparisonOp) (rhs : D K) :
    Sim h h (Mem.pred r name op rhs) (v.pred name op rhs) (Fresh h) := by
  refine .bind (traceAt_sim name hr.2.2.2.2) fun h' p s hb hp => ?_
  obtain ⟨rfl, hp⟩ := hp
  exact (Sim.alloc (.deref (hp.mono (List.prefix_append _ _)) (.built (predLoop_sim hp op rhs _ _)))).fresh

theorem temporal_sim (hb : base <+: h) (hr : SameOp h r v) (comp : Cmp K) {p : Ptr} (hp : Fresh base h p s)
    (i : Interval K) : Sim h h (Mem.temporal r comp p i) (v.temporal comp s i) (Fresh base) := by
  have hseq : Sim h h (Mem.minmaxSeq comp p) (Verif.minmaxSeq comp s) (Fresh base) :=
    (minmaxSeq_sim comp hp.holds).fresh.weaken fun _ _ _ _ hf => hf.later hb
  unfold Mem.temporal RobustnessOp.temporal
  split
  · exact hseq
  · dsimp only
    split
    · exact ⟨List.prefix_refl _, .throw _⟩
    · split
      · exact .pure (List.prefix_refl _) hp
      · refine .deref hp.holds ?_
        split
        · exact hseq
        · rw [hr.2.1]
          exact (minmaxSeqWindow_sim v.fuel comp hp.holds _ _).weaken fun _ _ _ _ hf => hf.later hb

theorem untilOp_sim (hb : base <+: h) (hr : SameOp h r v) {p q : Ptr} {x y : Signal K} (hp : Fresh base h p x)
    (hq : Fresh base h q y) (i : Interval K) : Sim h h (Mem.untilOp r p q i) (v.untilOp x y i) (Fresh base) := by
  have hu : Sim h h (Mem.computeUntil r.ndebug p q) (Verif.computeUntil v.ndebug x y) (Fresh base) := by
    rw [hr.1]
    exact (computeUntil_sim hp.holds hq.holds v.ndebug).weaken fun _ _ _ _ hf => hf.later hb
  unfold Mem.untilOp RobustnessOp.untilOp
  split
  · exact hu
  · dsimp only
    split
    · exact hu
    · exact ⟨List.prefix_refl _, .throw _⟩

mutual

theorem compute_sim (r : Op K) (v : RobustnessOp K) : ∀ (e : Expr K) (h : Heap K), SameOp h r v →
    Sim h h (Mem.compute r e) (v.compute e) (Fresh h)
  | .const b, h, hr => by
    rw [Mem.compute, RobustnessOp.compute, Mem.const, RobustnessOp.const, hr.2.2.1, hr.2.2.2.1]
    exact (make_sim h _).fresh
  | .pred name op rhs, h, hr => by
    rw [Mem.compute, RobustnessOp.compute]
    exact pred_sim hr name op rhs
  | .not e, h, hr => by
    rw [Mem.compute, RobustnessOp.compute]
    refine .bind (compute_sim r v e h hr) fun h' p s hb hp => ?_
    exact (Sim.deref hp.holds ((make_sim h' _).fresh.weaken fun _ _ _ _ hf => hf.later hb)).rebase hb
  | .and args, h, hr => by
    rw [Mem.compute, RobustnessOp.compute]
    refine .bind (computeArgs_sim r v args h hr) fun h' ps xs hb hp => ?_
    rw [hr.1, hp.length_eq]
    refine .lifted hb fun _ _ => (minmaxVec_sim _ _ _ hb hp).rebase hb
  | .or args, h, hr => by
    rw [Mem.compute, RobustnessOp.compute]
    refine .bind (computeArgs_sim r v args h hr) fun h' ps xs hb hp => ?_
    rw [hr.1, hp.length_eq]
    refine .lifted hb fun _ _ => (minmaxVec_sim _ _ _ hb hp).rebase hb
  | .always e i, h, hr => by
    rw [Mem.compute, RobustnessOp.compute]
    exact .bind (compute_sim r v e h hr) fun h' p s hb hp => (temporal_sim hb (hr.mono hb) _ hp i).rebase hb
  | .eventually e i, h, hr => by
    rw [Mem.compute, RobustnessOp.compute]
    exact .bind (compute_sim r v e h hr) fun h' p s hb hp => (temporal_sim hb (hr.mono hb) _ hp i).rebase hb
  | .untl e1 e2 i, h, hr => by
    rw [Mem.compute, RobustnessOp.compute]
    refine .bind (compute_sim r v e1 h hr) fun h' p x hb hp => ?_
    refine .rebase ?_ hb
    refine .bind (compute_sim r v e2 h' (hr.mono hb)) fun h'' q y hb' hq => ?_
    exact (untilOp_sim (hb.trans hb') (hr.mono (hb.trans hb')) (hp.mono hb') (hq.later hb) i).rebase hb'

theorem computeArgs_sim (r : Op K) (v : RobustnessOp K) : ∀ (es : List (Expr K)) (h : Heap K), SameOp h r v →
    Sim h h (Mem.computeArgs r es) (v.computeArgs es) (FreshAll h)
  | [], h, hr => by
    rw [Mem.computeArgs, RobustnessOp.computeArgs]
    exact .pure (List.prefix_refl _) .nil
  | e :: es, h, hr => by
    rw [Mem.computeArgs, RobustnessOp.computeArgs]
    refine .bind (compute_sim r v e h hr) fun h' p x hb hp => .rebase ?_ hb
    refine .bind (computeArgs_sim r v es h' (hr.mono hb)) fun h'' ps xs hb' hs => ?_
    refine .pure hb' (.cons (hp.mono hb') ?_)
    clear hr
    induction hs with
    | nil => exact .nil
    | cons hq _ ih => exact .cons (hq.later hb) ih

end

theorem minMaxTime_sim : ∀ {pt : PTrace} {vt : Trace K} (acc : D K × D K), Points h pt vt →
    Mem.minMaxTime pt acc h =
      (.ok (vt.foldl (fun acc e => (D.min acc.1 e.2.beginTime, D.max acc.2 e.2.endTime)) acc), h)
  | _, _, acc, .nil => rfl
  | (k, p) :: pt, (k', s) :: vt, acc, .cons hp hs => by
    obtain ⟨n, hp1, hn⟩ := hp.2
    rw [Mem.minMaxTime, List.foldl_cons, ← minMaxTime_sim _ hs]
    show Mem.bind _ _ h = _
    unfold Mem.bind
    simp only at hp1 hn
    subst hp1
    simp only [Mem.deref, hn]

theorem computeRobustness_sim (nd : Bool) (fuel : Nat) (phi : Expr K) {pt : PTrace} {vt : Trace K} (hp : Points h pt vt)
    (sync : Bool) : Sim h h (Mem.computeRobustness nd fuel phi pt sync) (Verif.computeRobustness nd fuel phi vt sync)
      (Fresh h) :=
  .step (minMaxTime_sim _ hp) (compute_sim _ _ phi h ⟨rfl, rfl, rfl, rfl, hp⟩)

/-! ## Calls -/

theorem mem_bind_heap {m : Mem K α} {f : α → Mem K γ} (hf : ∀ a h', ((f a) h').2 = h') : ((m >>= f) h).2 = (m h).2 := by
  show (Mem.bind m f h).2 = _
  unfold Mem.bind
  rcases m h with ⟨_ | _ | _ | _ | _, h'⟩
  · exact hf _ _
  all_goals rfl

/-- Nothing points to `p`. -/
def Bad (h : Heap K) (p : Ptr) : Prop := ∀ s, ¬ Holds h p s

theorem bad_or (h : Heap K) (p : Ptr) : Bad h p ∨ ∃ s, Holds h p s := by
  by_cases hp : ∃ s, Holds h p s
  · exact .inr hp
  · exact .inl fun s hs => hp ⟨s, hs⟩

theorem deref_bad {p : Ptr} (hp : Bad h p) (f : Signal K → Mem K γ) : (Mem.deref p >>= f) h = (.ub .nullPointer, h) := by
  show Mem.bind _ _ h = _
  unfold Mem.bind Mem.deref
  cases p with
  | none => rfl
  | some n =>
    simp only
    cases hn : h[n]? with
    | none => rfl
    | some s => exact (hp s ⟨n, rfl, hn⟩).elim

theorem minMaxTime_bad : ∀ {pt : PTrace} (acc : D K × D K), (∃ e ∈ pt, Bad h e.2) →
    Mem.minMaxTime pt acc h = (.ub .nullPointer, h)
  | [], _, ⟨_, he, _⟩ => by cases he
  | e :: pt, acc, ⟨e', he, hb⟩ => by
    rcases bad_or h e.2 with hb' | ⟨s, n, hp, hn⟩
    · exact deref_bad hb' _
    · rcases List.mem_cons.1 he with rfl | he
      · exact (hb s ⟨n, hp, hn⟩).elim
      · rw [Mem.minMaxTime]
        show Mem.bind _ _ h = _
        unfold Mem.bind Mem.deref
        rw [hp]
        simp only [hn]
        exact minMaxTime_bad _ ⟨e', he, hb⟩

theorem robustness_bad (nd : Bool) (fuel : Nat) (phi : Expr K) {pt : PTrace} (hp : ∃ e ∈ pt, Bad h e.2) (sync : Bool) :
    Mem.computeRobustness nd fuel phi pt sync h = (.ub .nullPointer, h) := by
  show Mem.bind _ _ h = _
  unfold Mem.bind
  rw [minMaxTime_bad _ hp]

theorem points_or (h : Heap K) : ∀ pt : PTrace, (∃ e ∈ pt, Bad h e.2) ∨ ∃ vt, Points h pt vt
  | [] => .inr ⟨[], .nil⟩
  | e :: pt => by
    rcases bad_or h e.2 with hb | ⟨s, hs⟩
    · exact .inl ⟨e, List.mem_cons_self, hb⟩
    · rcases points_or h pt with ⟨e', he, hb⟩ | ⟨vt, hv⟩
      · exact .inl ⟨e', List.mem_cons_of_mem _ he, hb⟩
      · exact .inr ⟨(e.1, s) :: vt, .cons ⟨rfl, hs⟩ hv⟩

theorem robustness_keeps (nd : Bool) (fuel : Nat) (phi : Expr K) (pt : PTrace) (sync : Bool) (h : Heap K) :
    h <+: (Mem.computeRobustness nd fuel phi pt sync h).2 := by
  rcases points_or h pt with hb | ⟨vt, hv⟩
  · rw [robustness_bad nd fuel phi hb sync]
    exact List.prefix_refl _
  · exact (computeRobustness_sim nd fuel phi hv sync).1

/-- Every call except `push_back` keeps all objects. -/
theorem call_keeps (c : Call K) (hc : ∀ x a, c ≠ .pushBack x a) (h : Heap K) : h <+: (c.run h).2 := by
  have one : ∀ (x : Ptr) {f : Signal K → Mem K Ptr}, (∀ s, Holds h x s → h <+: ((Mem.deref x >>= f) h).2) →
      h <+: ((Mem.deref x >>= f) h).2 := fun x f hf => by
    rcases bad_or h x with hb | ⟨s, hs⟩
    · rw [deref_bad hb]
      exact List.prefix_refl _
    · exact hf s hs
  cases c with
  | pushBack x a => exact (hc x a rfl).elim
  | make v =>
    rw [Call.run, mem_bind_heap fun _ _ => rfl]
    exact (make_sim h v).1
  | copy x =>
    rw [Call.run, mem_bind_heap fun _ _ => rfl]
    exact one x fun s hs => (copy_sim hs).1
  | simplify x =>
    rw [Call.run, mem_bind_heap fun _ _ => rfl]
    exact one x fun s hs => (simplify_sim hs).1
  | resize x a b c =>
    rw [Call.run, mem_bind_heap fun _ _ => rfl]
    exact one x fun s hs => (resize_sim hs a b c).1
  | shift x dt =>
    rw [Call.run, mem_bind_heap fun _ _ => rfl]
    rcases bad_or h x with hb | ⟨s, hs⟩
    · have : Mem.shift x dt h = (.ub .nullPointer, h) := by
        show Mem.bind (Mem.copy x) _ h = _
        unfold Mem.bind
        rw [show Mem.copy x h = _ from deref_bad hb _]
      rw [this]
      exact List.prefix_refl _
    · exact (shift_sim hs dt).1
  | resizeShift x a b c dt =>
    rw [Call.run, mem_bind_heap fun _ _ => rfl]
    rcases bad_or h x with hb | ⟨s, hs⟩
    · have : Mem.resizeShift x a b c dt h = (.ub .nullPointer, h) := by
        show Mem.bind (Mem.resize x a b c) _ h = _
        unfold Mem.bind
        rw [show Mem.resize x a b c h = _ from deref_bad hb _]
      rw [this]
      exact List.prefix_refl _
    · exact (resizeShift_sim hs a b c dt).1
  | synchronize x y =>
    rw [Call.run, mem_bind_heap fun _ _ => rfl]
    rcases bad_or h x with hb | ⟨s, hs⟩
    · rw [show Mem.synchronize x y h = _ from deref_bad hb _]
      exact List.prefix_refl _
    · rcases bad_or h y with hb | ⟨t, ht⟩
      · have : Mem.synchronize x y h = (.ub .nullPointer, h) := by
          show Mem.bind (Mem.deref x) _ h = _
          obtain ⟨n, rfl, hn⟩ := hs
          unfold Mem.bind
          rw [show Mem.deref (some n) h = (.ok s, h) by simp only [Mem.deref, hn]]
          exact deref_bad hb _
        rw [this]
        exact List.prefix_refl _
      · exact (synchronize_sim hs ht).1
  | robustness nd fuel phi pt sync =>
    rw [Call.run, mem_bind_heap fun _ _ => rfl]
    exact robustness_keeps nd fuel phi pt sync h

theorem pushBack_other (n m : Nat) (hnm : n ≠ m) (x : Sample K) (h : Heap K) :
    ((Mem.pushBack (some n) x h).2)[m]? = h[m]? := by
  unfold Mem.pushBack
  simp only
  cases h[n]? with
  | none => rfl
  | some s => exact List.getElem?_set_ne hnm

end
end Mem
end Verif
