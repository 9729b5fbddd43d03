import Verif.Model.SignedZero
import Verif.Proofs.Equiv

/-!
# Forgetting the signs of zeros

Everything but the minimum and maximum of two signals does the same with signed zeros.
-/

set_option linter.unusedSectionVars false

namespace Verif
namespace Signed
open Outcome

variable {K : Type} [Field K] [LinearOrder K] [Arith K]

/-- A sample without the signs of its zeros. -/
def er (s : Sample K) : Verif.Sample K := ⟨s.time.val, s.value.val, s.derivative.val⟩

/-- A signal without the signs of its zeros. -/
def erase (s : Signal K) : Verif.Signal K := ⟨s.samples.map er⟩

namespace Er

@[simp] theorem er_time (s : Sample K) : (er s).time = s.time.val := by cases s; rfl
@[simp] theorem er_value (s : Sample K) : (er s).value = s.value.val := by cases s; rfl
@[simp] theorem er_derivative (s : Sample K) : (er s).derivative = s.derivative.val := by cases s; rfl
@[simp] theorem erase_samples (s : Signal K) : (erase s).samples = s.samples.map er := rfl
@[simp] theorem erase_empty : erase (Signal.empty : Signal K) = Verif.Signal.empty := rfl
@[simp] theorem val_add (a b : SD K) : (a + b).val = a.val + b.val := by cases a; rfl
@[simp] theorem val_sub (a b : SD K) : (a - b).val = a.val - b.val := by cases a; rfl
@[simp] theorem val_mul (a b : SD K) : (a * b).val = a.val * b.val := by cases a; rfl
@[simp] theorem val_neg (a : SD K) : (-a).val = -a.val := by cases a; rfl
@[simp] theorem val_zero : (0 : SD K).val = 0 := rfl
@[simp] theorem val_of (a : D K) : (SD.of a).val = a := rfl

theorem val_div {a b : SD K} (h : ¬ (b.val = .fin 0 ∧ b.neg0 = true)) : (a / b).val = a.val / b.val := by
  show (if b.val = .fin 0 ∧ b.neg0 = true then -(a.val / .fin 0) else a.val / b.val) = _
  rw [if_neg h]

theorem lt_val (a b : SD K) : a.lt b = a.val.lt b.val := by cases a; rfl
theorem le_val (a b : SD K) : a.le b = a.val.le b.val := by cases a; rfl
theorem eq_val (a b : SD K) : a.eq b = a.val.eq b.val := by cases a; rfl

theorem max_val (a b : SD K) : (SD.max a b).val = D.max a.val b.val := by
  unfold SD.max D.max
  rw [lt_val]
  split <;> rfl

theorem min_val (a b : SD K) : (SD.min a b).val = D.min a.val b.val := by
  unfold SD.min D.min
  rw [lt_val]
  split <;> rfl

theorem er_mk2 (t v : SD K) : er (.mk2 t v) = .mk2 t.val v.val := rfl
theorem er_mk0 (t v : SD K) : er ⟨t, v, 0⟩ = ⟨t.val, v.val, 0⟩ := rfl

theorem interpolate (s : Sample K) (t : SD K) : (er s).interpolate t.val = (s.interpolate t).val := rfl

theorem beginTime (s : Signal K) : (erase s).beginTime = s.beginTime.val := by
  obtain ⟨l⟩ := s
  cases l <;> rfl

theorem endTime (s : Signal K) : (erase s).endTime = s.endTime.val := by
  unfold Verif.Signal.endTime Signal.endTime
  rw [erase_samples, List.getLast?_map]
  cases s.samples.getLast? <;> rfl

theorem back (s : Signal K) : (erase s).back = s.back.map' er := by
  unfold Verif.Signal.back Signal.back
  rw [erase_samples, List.getLast?_map]
  cases s.samples.getLast? <;> rfl

theorem front (s : Signal K) : (erase s).front = s.front.map' er := by
  unfold Verif.Signal.front Signal.front
  rw [erase_samples, List.head?_map]
  cases s.samples.head? <;> rfl

theorem atIdx (s : Signal K) (i : Nat) : (erase s).atIdx i = (s.atIdx i).map' er := by
  unfold Verif.Signal.atIdx Signal.atIdx
  rw [erase_samples, List.getElem?_map]
  cases s.samples[i]? <;> rfl

theorem size (s : Signal K) : (erase s).size = s.size := by simp [Verif.Signal.size, Signal.size]

/-- The difference of a later and an earlier time is not `-0.0`. -/
theorem sub_pos_zero [IsStrictOrderedRing K] {a b : SD K} (h : a.le b = false) :
    ¬ ((a - b).val = .fin 0 ∧ (a - b).neg0 = true) := by
  rintro ⟨h1, h2⟩
  obtain ⟨a, s⟩ := a
  obtain ⟨b, t⟩ := b
  have h1 : a - b = .fin 0 := h1
  have h2 : (SD.add (⟨a, s⟩ : SD K) (SD.neg ⟨b, t⟩)).neg0 = true := h2
  have h : a.le b = false := h
  rcases a with p | _ | _ | _ <;> rcases b with q | _ | _ | _
  case fin.fin =>
    have hd : ¬ p ≤ q := by
      simp only [D.le, D.lt, D.eq, Bool.or_eq_false_iff, decide_eq_false_iff_not] at h
      intro hle
      rcases lt_or_eq_of_le hle with hlt | heq
      · exact h.1 hlt
      · exact h.2 heq
    have h2 : (if p + -q = 0 then decide (p = 0) && s && !t else decide (p + -q < 0)) = true := h2
    have hp : 0 < p + -q := by linarith [not_le.1 hd]
    rw [if_neg hp.ne'] at h2
    exact absurd (of_decide_eq_true h2) (not_lt.2 hp.le)
  all_goals exact absurd h2 (by simp [SD.add, SD.neg, D.neg, Neg.neg])

section
variable [IsStrictOrderedRing K]

theorem pushBack (s : Signal K) (x : Sample K) : (erase s).pushBack (er x) = (s.pushBack x).map' erase := by
  obtain ⟨l⟩ := s
  rcases List.eq_nil_or_concat l with rfl | ⟨l, a, rfl⟩
  · rfl
  · have h1 : (erase (⟨l ++ [a]⟩ : Signal K)).samples.getLast? = some (er a) := by simp [erase]
    have h2 : (⟨l ++ [a]⟩ : Signal K).samples.getLast? = some a := by simp
    have h3 : (⟨l ++ [a]⟩ : Signal K).endTime = a.time := by simp [Signal.endTime]
    rw [List.concat_eq_append]
    simp only [Verif.Signal.pushBack, Signal.pushBack, h1, h2, endTime, h3, er_time, ← le_val]
    by_cases hle : x.time.le a.time = true
    · simp [hle]
    · rw [if_neg hle, if_neg hle]
      have := val_div (a := x.value - a.value) (sub_pos_zero (by simpa using hle) : ¬ ((x.time - a.time).val = .fin 0 ∧ _))
      simp [erase, er, this]

theorem pushBackTV (s : Signal K) (t v : SD K) :
    (erase s).pushBackTV t.val v.val = (s.pushBackTV t v).map' erase := pushBack s ⟨t, v, 0⟩

theorem pushAll (xs : List (Sample K)) : ∀ s : Signal K,
    (erase s).pushAll (xs.map er) = (s.pushAll xs).map' erase := by
  induction xs with
  | nil => intro s; rfl
  | cons x xs ih =>
    intro s
    rw [List.map_cons, Verif.Signal.pushAll, Signal.pushAll, pushBack, bind_map', map'_bind]
    exact congrArg _ (funext fun a => ih a)

theorem ofSamples (xs : List (Sample K)) :
    Verif.Signal.ofSamples (xs.map er) = (Signal.ofSamples xs).map' erase := pushAll xs Signal.empty

theorem copy (s : Signal K) : (erase s).copy = s.copy.map' erase := ofSamples _

theorem ofPoints (p t : List (SD K)) :
    Verif.Signal.ofPoints (p.map SD.val) (t.map SD.val) = (Signal.ofPoints p t).map' erase := by
  unfold Verif.Signal.ofPoints Signal.ofPoints
  simp only [List.length_map]
  split
  · rfl
  · rw [← ofSamples]
    congr 1
    rw [List.map_map, List.zip_map, List.map_map]
    rfl

theorem lowerBound (l : List (Sample K)) (t : SD K) :
    Verif.lowerBound (fun a : Verif.Sample K => a.time.lt t.val) (l.map er) =
      Verif.lowerBound (fun a : Sample K => a.time.lt t) l := by
  rw [SMap.lowerBound_map]
  rfl

theorem at_ (s : Signal K) (t : SD K) : (erase s).at_ t.val = (s.at_ t).map' er := by
  unfold Verif.Signal.at_ Signal.at_
  rw [beginTime, endTime, ← lt_val, ← lt_val]
  split
  · rfl
  · rw [erase_samples, lowerBound, map'_bind]
    congr 1; funext i
    rw [List.getElem?_map]
    cases s.samples[i]? with
    | none => rfl
    | some a =>
      simp only [Option.map_some, er_time, eq_val]
      by_cases h : a.time.val.eq t.val = true
      · rw [if_pos h, if_pos h]; rfl
      · rw [if_neg h, if_neg h]; rfl

def pair (p : List (Sample K) × List (Sample K)) := (p.1.map er, p.2.map er)

theorem consPair (a b : Sample K) (r) :
    Verif.consPair (er a) (er b) (r.map' pair) = (Signed.consPair a b r).map' pair := by
  cases r <;> rfl

theorem derefPrev (p : Option (Sample K)) : Verif.derefPrev (p.map er) = (Signed.derefPrev p).map' er := by
  cases p <;> rfl

theorem syncInner (next : Option (Sample K) → List (Sample K) → Outcome (List (Sample K) × List (Sample K)))
    (next' : Option (Verif.Sample K) → List (Verif.Sample K) → Outcome (List (Verif.Sample K) × List (Verif.Sample K)))
    (pi : Option (Sample K)) (i : Sample K)
    (hn : ∀ pj js, next' (pj.map er) (js.map er) = (next pj js).map' pair) :
    ∀ (js : List (Sample K)) (pj : Option (Sample K)),
      Verif.syncInner next' (pi.map er) (er i) (pj.map er) (js.map er) =
        (Signed.syncInner next pi i pj js).map' pair := by
  intro js
  induction js with
  | nil => intro pj; simp [Verif.syncInner, Signed.syncInner, pair]
  | cons j js ih =>
    intro pj
    rw [List.map_cons, Verif.syncInner, Signed.syncInner]
    simp only [er_time, ← eq_val, ← lt_val, derefPrev]
    split
    · have := hn (some j) js
      rw [Option.map_some] at this
      rw [this, consPair]
    · split
      · rw [bind_map', map'_bind]
        congr 1; funext p
        have := hn pj (j :: js)
        rw [List.map_cons] at this
        rw [this, interpolate, ← er_mk2, consPair]
      · split
        · rw [bind_map', map'_bind]
          congr 1; funext p
          have := ih (some j)
          rw [Option.map_some] at this
          rw [this, interpolate, ← er_mk2, consPair]
        · rfl

theorem syncLoop : ∀ (is : List (Sample K)) (pi pj : Option (Sample K)) (js : List (Sample K)),
    Verif.syncLoop (pi.map er) (is.map er) (pj.map er) (js.map er) = (Signed.syncLoop pi is pj js).map' pair := by
  intro is
  induction is with
  | nil => intros; simp [Verif.syncLoop, Signed.syncLoop, pair]
  | cons i is ih =>
    intro pi pj js
    rw [List.map_cons, Verif.syncLoop, Signed.syncLoop]
    exact syncInner _ _ pi i (fun pj js => ih (some i) pj js) js pj

theorem vback (l : List (Sample K)) : Verif.vback (l.map er) = (Signed.vback l).map' er := by
  unfold Verif.vback Signed.vback
  rw [List.getLast?_map]
  cases l.getLast? <;> rfl

theorem prevAt (l : List (Sample K)) (n : Nat) : Verif.prevAt (l.map er) n = (Signed.prevAt l n).map er := by
  cases n <;> simp [Verif.prevAt, Signed.prevAt]

theorem syncHead (b : SD K) (prev : Option (Sample K)) (rest : List (Sample K)) (prevI : Option (Sample K)) :
    Verif.syncHead b.val (prev.map er) (rest.map er) (prevI.map er) =
      (Signed.syncHead b prev rest prevI).map' (fun l => l.map er) := by
  cases rest with
  | nil => rfl
  | cons a l =>
    simp only [List.map_cons, Verif.syncHead, Signed.syncHead, er_time, ← lt_val]
    split
    · cases prev with
      | none => rfl
      | some p => cases prevI <;> rfl
    · rfl

def sig2 (p : Signal K × Signal K) := (erase p.1, erase p.2)

theorem syncFinish (xv yv : List (Sample K)) :
    Verif.syncFinish (xv.map er) (yv.map er) = (Signed.syncFinish xv yv).map' sig2 := by
  unfold Verif.syncFinish Signed.syncFinish
  rw [vback, bind_map', map'_bind]
  congr 1; funext xb
  rw [vback, bind_map', map'_bind]
  congr 1; funext yb
  simp only [er_time, ← lt_val, interpolate]
  have e1 : (if yb.time.lt xb.time = true then
      yv.map er ++ [Verif.Sample.mk2 xb.time.val (yb.interpolate xb.time).val] else yv.map er) =
    (if yb.time.lt xb.time = true then
      yv ++ [Sample.mk2 xb.time (yb.interpolate xb.time)] else yv).map er := by
    split <;> simp [er_mk2]
  rw [e1]
  generalize (if yb.time.lt xb.time = true then
      yv ++ [Sample.mk2 xb.time (yb.interpolate xb.time)] else yv) = yv'
  rw [vback, bind_map', map'_bind]
  congr 1; funext yb'
  rw [bind_map', map'_bind]
  congr 1; funext xb'
  simp only [er_time, ← lt_val, interpolate]
  have e1 : (if xb'.time.lt yb'.time = true then
      xv.map er ++ [Verif.Sample.mk2 yb'.time.val (xb'.interpolate yb'.time).val] else xv.map er) =
    (if xb'.time.lt yb'.time = true then
      xv ++ [Sample.mk2 yb'.time (xb'.interpolate yb'.time)] else xv).map er := by
    split <;> simp [er_mk2]
  rw [e1, ofSamples, bind_map', map'_bind]
  congr 1; funext sx
  rw [ofSamples, bind_map', map'_bind]
  congr 1

theorem synchronize (x y : Signal K) :
    Verif.synchronize (erase x) (erase y) = (Signed.synchronize x y).map' sig2 := by
  have hb : D.max (erase x).beginTime (erase y).beginTime = (SD.max x.beginTime y.beginTime).val := by
    rw [beginTime, beginTime, max_val]
  unfold Verif.synchronize Signed.synchronize
  simp only [hb, erase_samples, lowerBound, ← List.map_drop, prevAt, syncHead]
  simp only [map'_bind, bind_map']
  congr 1; funext i
  congr 1; funext xv
  congr 1; funext j
  congr 1; funext yv
  rw [syncLoop, bind_map']
  congr 1; funext p
  rw [← syncFinish]
  simp [pair]

theorem simplifyLoop_cons (sg : Signal K) (s : Sample K) (rest : List (Sample K)) :
    Signal.simplifyLoop sg (s :: rest) = match sg.samples.getLast? with
      | none => sg.pushBack s >>= fun g => Signal.simplifyLoop g rest
      | some b => if !(b.interpolate s.time).eq s.value || !b.derivative.eq s.derivative then
          sg.pushBack s >>= fun g => Signal.simplifyLoop g rest
        else Signal.simplifyLoop sg rest := by
  rw [Signal.simplifyLoop]; rfl

theorem simplifyLoop (l : List (Sample K)) : ∀ sg : Signal K,
    (erase sg).simplifyLoop (l.map er) = (sg.simplifyLoop l).map' erase := by
  induction l with
  | nil => intro sg; rfl
  | cons s l ih =>
    intro sg
    rw [List.map_cons, SMap.simplifyLoop_cons, simplifyLoop_cons, erase_samples, List.getLast?_map]
    cases sg.samples.getLast? with
    | none => simp only [Option.map_none, pushBack, bind_map', map'_bind, ih]
    | some b =>
      simp only [Option.map_some, er_time, interpolate, er_value, er_derivative, ← eq_val]
      by_cases h : (!(b.interpolate s.time).eq s.value || !b.derivative.eq s.derivative) = true
      · rw [if_pos h, if_pos h]; simp only [pushBack, bind_map', map'_bind, ih]
      · rw [if_neg h, if_neg h]; exact ih sg

theorem simplify (s : Signal K) : (erase s).simplify = s.simplify.map' erase := by
  have e : s.simplify = (Signal.empty.simplifyLoop s.samples >>= fun sg =>
      if !s.endTime.eq sg.endTime then s.back >>= fun b => sg.pushBack b else .ok sg) := rfl
  rw [e, SMap.simplify_eq, map'_bind]
  have := simplifyLoop s.samples Signal.empty
  rw [erase_empty] at this
  rw [erase_samples, this, bind_map']
  congr 1; funext sg
  rw [endTime, endTime, ← eq_val, back]
  split
  · rw [bind_map', map'_bind]
    congr 1; funext b; exact pushBack _ _
  · rfl

def nextAfter (start : SD K) : List (Sample K) → Bool
  | [] => false
  | n :: _ => start.lt n.time

theorem resizeLoop_cons' (start end_ : SD K) (sg : Signal K) (prev : Option (Sample K)) (i : Sample K)
    (rest : List (Sample K)) : Signal.resizeLoop start end_ sg prev (i :: rest) =
    if nextAfter start rest then
      sg.pushBack (.mk2 start (i.interpolate start)) >>= fun g =>
        Signal.resizeLoop start end_ g (some i) rest
    else if start.le i.time && i.time.le end_ then
      sg.pushBack i >>= fun g => Signal.resizeLoop start end_ g (some i) rest
    else if end_.lt i.time then
      match prev with
      | some p => if p.time.lt end_ then
          sg.pushBack (.mk2 end_ (p.interpolate end_)) >>= fun g =>
            Signal.resizeLoop start end_ g (some i) rest
        else .ok sg
      | none => .ok sg
    else Signal.resizeLoop start end_ sg (some i) rest := by
  cases rest <;> rfl

theorem resizeLoop (start end_ : SD K) (l : List (Sample K)) :
    ∀ (sg : Signal K) (prev : Option (Sample K)),
    Verif.Signal.resizeLoop start.val end_.val (erase sg) (prev.map er) (l.map er) =
      (Signal.resizeLoop start end_ sg prev l).map' erase := by
  induction l with
  | nil => intro sg prev; rfl
  | cons i l ih =>
    intro sg prev
    rw [List.map_cons, SMap.resizeLoop_cons', resizeLoop_cons']
    have hm : SMap.nextAfter start.val (l.map er) = nextAfter start l := by
      cases l <;> rfl
    have ih' := fun sg => ih sg (some i)
    simp only [Option.map_some] at ih'
    rw [hm]
    simp only [er_time, ← le_val, ← lt_val, interpolate, ← er_mk2, pushBack, bind_map', ih']
    split
    · rw [map'_bind]
    · split
      · rw [map'_bind]
      · split
        · cases prev with
          | none => rfl
          | some p =>
            simp only [Option.map_some, er_time, ← lt_val, interpolate, ← er_mk2, pushBack, bind_map', ih']
            split
            · rw [map'_bind]
            · rfl
        · rfl

theorem resize (s : Signal K) (start end_ fill : SD K) :
    (erase s).resize start.val end_.val fill.val = (s.resize start end_ fill).map' erase := by
  have e : ∀ (s : Verif.Signal K) (a b c : D K), s.resize a b c =
      ((if a.lt s.beginTime then Verif.Signal.empty.pushBack ⟨a, c, 0⟩ else .ok Verif.Signal.empty) >>= fun g =>
        Verif.Signal.resizeLoop a b g none s.samples) := by
    intro s a b c
    unfold Verif.Signal.resize
    split_ifs <;> rfl
  have e' : ∀ (s : Signal K) (a b c : SD K), s.resize a b c =
      ((if a.lt s.beginTime then Signal.empty.pushBack ⟨a, c, 0⟩ else .ok Signal.empty) >>= fun g =>
        Signal.resizeLoop a b g none s.samples) := by
    intro s a b c
    unfold Signal.resize
    split_ifs <;> rfl
  rw [e, e', beginTime, ← lt_val]
  have := pushBack Signal.empty ⟨start, fill, 0⟩
  rw [er_mk0, erase_empty] at this
  rw [this]
  have h2 := fun g => resizeLoop start end_ s.samples g none
  simp only [Option.map_none] at h2
  split
  · rw [bind_map', map'_bind]
    congr 1; funext g; exact h2 g
  · simp only [bind_ok, erase_samples]
    exact h2 Signal.empty

theorem addTime (s : Signal K) (dt : SD K) : (erase s).addTime dt.val = erase (s.addTime dt) := by
  simp [Verif.Signal.addTime, Signal.addTime, erase, er, Function.comp_def]

theorem shift (s : Signal K) (dt : SD K) : (erase s).shift dt.val = (s.shift dt).map' erase := by
  unfold Verif.Signal.shift Signal.shift
  rw [erase_samples, ofSamples, bind_map', map'_bind]
  simp [addTime]

theorem resizeShift (s : Signal K) (start end_ fill dt : SD K) :
    (erase s).resizeShift start.val end_.val fill.val dt.val = (s.resizeShift start end_ fill dt).map' erase := by
  unfold Verif.Signal.resizeShift Signal.resizeShift
  rw [resize, bind_map', map'_bind]
  simp [addTime]

section comp
variable {comp' : Verif.Cmp K} {comp : Cmp K} (hc : ∀ a b, comp' (er a) (er b) = comp a b)
include hc

theorem minmaxSeqLoop (l : List (Sample K)) : ∀ opt : Sample K,
    Verif.minmaxSeqLoop comp' (er opt) (l.map er) = (Signed.minmaxSeqLoop comp opt l).map er := by
  induction l with
  | nil => intro _; rfl
  | cons i l ih =>
    intro opt
    rw [List.map_cons, Verif.minmaxSeqLoop, Signed.minmaxSeqLoop]
    simp only [hc]
    split <;> simp [ih, er_mk2]

theorem minmaxSeq (x : Signal K) : Verif.minmaxSeq comp' (erase x) = (Signed.minmaxSeq comp x).map' erase := by
  unfold Verif.minmaxSeq Signed.minmaxSeq
  rw [back, bind_map', map'_bind]
  congr 1; funext b
  dsimp only
  rw [erase_samples, ← List.map_reverse, ← List.map_tail, minmaxSeqLoop hc, ← List.map_cons,
    ← List.map_reverse, ofSamples]

omit hc in
theorem searchLoop_eq {α : Type} (comp : α → α → Bool) (w : List α) (v : α) (n i : Nat) :
    Verif.monoWedgeSearchLoop comp w v n i =
      if ((w.length - i) >>> i) > 0 then
        match n with
        | 0 => .diverge
        | n + 1 => match w[w.length - i]? with
          | none => .ub .derefEnd
          | some e => if comp e v then .ok (w.length - i + 1)
            else Verif.monoWedgeSearchLoop comp w v n (i + 1)
      else Verif.lowerBound (fun e => comp e v) (w.take (w.length - i + 1)) := by
  by_cases h : ((w.length - i) >>> i) > 0
  · rw [if_pos h]
    cases n with
    | zero => rw [Verif.monoWedgeSearchLoop.eq_def]; simp only [h, decide_true]
    | succ n => rw [Verif.monoWedgeSearchLoop.eq_def]; simp only [h, decide_true]; cases w[w.length - i]? <;> rfl
  · rw [if_neg h]
    cases n <;> (rw [Verif.monoWedgeSearchLoop.eq_def]; simp only [h, decide_false])

theorem monoWedgeSearchLoop (w : List (Sample K)) (v : Sample K) : ∀ n i,
    Verif.monoWedgeSearchLoop comp' (w.map er) (er v) n i = Verif.monoWedgeSearchLoop comp w v n i := by
  intro n
  induction n with
  | zero =>
    intro i
    rw [searchLoop_eq, searchLoop_eq]
    simp only [List.length_map, ← List.map_take, SMap.lowerBound_map, hc]
  | succ n ih =>
    intro i
    rw [searchLoop_eq, searchLoop_eq]
    simp only [List.length_map, ← List.map_take, SMap.lowerBound_map, hc, List.getElem?_map, ih]
    cases w[w.length - i]? with
    | none => rfl
    | some e => simp [hc]

theorem monoWedgeUpdate (w : List (Sample K)) (v : Sample K) :
    Verif.monoWedgeUpdate comp' (w.map er) (er v) = (Verif.monoWedgeUpdate comp w v).map' (fun l => l.map er) := by
  unfold Verif.monoWedgeUpdate Verif.monoWedgeSearch
  simp only [List.length_map, monoWedgeSearchLoop hc, map'_bind]
  congr 1; funext i
  simp

omit hc in
theorem popExpired (b : SD K) (w : List (Sample K)) :
    Verif.popExpired b.val (w.map er) = (Signed.popExpired b w).map' (fun l => l.map er) := by
  induction w with
  | nil => rfl
  | cons f w ih =>
    rw [List.map_cons, Verif.popExpired, Signed.popExpired]
    simp only [er_time, ← le_val, ih]
    split <;> simp

omit [Field K] [LinearOrder K] [Arith K] [IsStrictOrderedRing K] hc in
def fill (p : Option (Sample K) × List (Sample K) × List (Sample K)) :=
  (p.1.map er, p.2.1.map er, p.2.2.map er)

theorem windowFill (limit : SD K) (l : List (Sample K)) : ∀ (prev : Option (Sample K)) (w : List (Sample K)),
    Verif.windowFill comp' limit.val (prev.map er) (l.map er) (w.map er) =
      (Signed.windowFill comp limit prev l w).map' fill := by
  induction l with
  | nil => intros; rfl
  | cons i l ih =>
    intro prev w
    rw [List.map_cons, Verif.windowFill, Signed.windowFill]
    simp only [er_time, ← lt_val, monoWedgeUpdate hc, bind_map']
    split
    · rw [map'_bind]
      congr 1; funext w'
      exact ih (some i) w'
    · simp [fill]

omit hc in
theorem windowLoop_cons (comp : Cmp K) (a : SD K) (n : Nat) (prev : Option (Sample K)) (i : Sample K)
    (rest w : List (Sample K)) (z : Signal K) :
    Signed.windowLoop comp a (n + 1) prev (i :: rest) w z =
      (Signed.vback w.head?.toList >>= fun f =>
        (if f.time.lt (i.time - a) then
          (Signed.derefPrev prev).map' fun p => ⟨f.time + a, p.interpolate (f.time + a), 0⟩
          else .ok i) >>= fun i' =>
        Verif.monoWedgeUpdate comp w i' >>= fun w =>
        Signed.popExpired (i'.time - a) w >>= fun w =>
        z.pushBackTV i'.time i'.value >>= fun z =>
        Signed.windowLoop comp a n (some i') (if f.time.lt (i.time - a) then i :: rest else rest) w z) := by
  rw [Signed.windowLoop]
  congr 1; funext f
  by_cases h : f.time.lt (i.time - a) = true <;> simp only [h, if_true, if_false, Bool.false_eq_true]

theorem windowLoop (a : SD K) : ∀ (n : Nat) (prev : Option (Sample K)) (l w : List (Sample K)) (z : Signal K),
    Verif.windowLoop comp' a.val n (prev.map er) (l.map er) (w.map er) (erase z) =
      (Signed.windowLoop comp a n prev l w z).map' erase := by
  intro n
  induction n with
  | zero =>
    intro prev l w z
    cases l <;> simp [Verif.windowLoop, Signed.windowLoop]
  | succ n ih =>
    intro prev l w z
    cases l with
    | nil => simp [Verif.windowLoop, Signed.windowLoop]
    | cons i l =>
      rw [List.map_cons, SMap.windowLoop_cons, windowLoop_cons]
      have hw : (w.map er).head?.toList = (w.head?.toList).map er := by cases w <;> rfl
      rw [hw, vback, bind_map', map'_bind]
      congr 1; funext f
      simp only [er_time, ← val_sub, ← lt_val, ← val_add]
      have e1 : (if f.time.lt (i.time - a) = true then
          Outcome.map' (fun p => (⟨(f.time + a).val, p.interpolate (f.time + a).val, 0⟩ : Verif.Sample K))
            (Verif.derefPrev (prev.map er)) else .ok (er i)) =
        (if f.time.lt (i.time - a) = true then
          Outcome.map' (fun p => (⟨f.time + a, p.interpolate (f.time + a), 0⟩ : Sample K))
            (Signed.derefPrev prev) else .ok i).map' er := by
        split
        · rw [derefPrev, map'_map', map'_map']
          rfl
        · rfl
      rw [e1, bind_map', map'_bind]
      congr 1; funext i'
      rw [monoWedgeUpdate hc, bind_map', map'_bind]
      congr 1; funext w'
      rw [er_time, ← val_sub, popExpired, bind_map', map'_bind]
      congr 1; funext w''
      rw [er_value, pushBackTV, bind_map', map'_bind]
      congr 1; funext z'
      rw [← ih]
      congr 1
      split <;> rfl

theorem minmaxSeqWindow (n : Nat) (x : Signal K) (a b : SD K) :
    Verif.minmaxSeqWindow n comp' (erase x) a.val b.val = (Signed.minmaxSeqWindow n comp x a b).map' erase := by
  have e0 : Signed.minmaxSeqWindow n comp x a b =
      ((if a.eq 0 then .ok x else x.back >>= fun l => x.resizeShift (x.beginTime + (b - a)) (x.endTime + (b - a))
          l.value (-(b - a))) >>= fun x' =>
        Signed.windowFill comp (x.beginTime + (b - a)) none x'.samples [] >>= fun p =>
        Signed.windowLoop comp a n p.1 p.2.1 p.2.2 Signal.empty >>= fun z => z.simplify) := by
    unfold Signed.minmaxSeqWindow
    by_cases h : a.eq 0 = true
    · simp only [h, if_true]
    · simp only [h, if_false, Bool.false_eq_true, bind_assoc']
  rw [minmaxSeqWindow_eq, e0, beginTime, endTime, back]
  have e1 : (if a.val.eq 0 = true then Outcome.ok (erase x) else
      x.back.map' er >>= fun l => (erase x).resizeShift (x.beginTime.val + (b.val - a.val))
        (x.endTime.val + (b.val - a.val)) l.value (-(b.val - a.val))) =
    (if a.eq 0 = true then Outcome.ok x else
      x.back >>= fun l => x.resizeShift (x.beginTime + (b - a))
        (x.endTime + (b - a)) l.value (-(b - a))).map' erase := by
    have : a.eq 0 = a.val.eq 0 := rfl
    rw [this]
    split
    · rfl
    · rw [bind_map', map'_bind]
      congr 1; funext l
      exact resizeShift x (x.beginTime + (b - a)) (x.endTime + (b - a)) l.value (-(b - a))
  rw [e1, bind_map', map'_bind]
  congr 1; funext x'
  have := windowFill hc (x.beginTime + (b - a)) x'.samples none []
  simp only [Option.map_none, List.map_nil, val_add, val_sub] at this
  rw [erase_samples, this, bind_map', map'_bind]
  congr 1; funext p
  simp only [fill]
  have := windowLoop hc a n p.1 p.2.1 p.2.2 Signal.empty
  rw [erase_empty] at this
  rw [this, bind_map', map'_bind]
  congr 1; funext z
  exact simplify z

end comp
end
end Er
end Signed
end Verif
