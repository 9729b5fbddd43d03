import Verif.Model.PegTime
import Mathlib.Tactic.Linarith
import Mathlib.Tactic.Ring

/-!
# A static bound for the number of rules tried

`infer` computes, for a budget of `A` calls for each character, how much a rule may exceed the budget of what it
consumes when it matches, what it costs when it fails, and what it may exceed the budget of all the input
when it ends by an exception.
-/

set_option linter.unusedSectionVars false

namespace Verif
namespace Peg

variable {N S : Type}

/-- What a rule costs that fails locally. -/
inductive Fail where
  /-- it does not fail -/
  | never
  /-- at most so much -/
  | const (b : Int)
  /-- no more than an exception -/
  | any
  deriving DecidableEq

/-- The cost of a rule: `s` for a match, beyond what is consumed; `t` for an exception, beyond the
input; `m` characters are consumed at most. -/
structure Val where
  s : Int
  f : Fail
  t : Int
  m : Option Nat
  deriving DecidableEq

/-- A cost whose `t` is not less than `s` and 0. -/
def Val.mk' (s : Int) (f : Fail) (t : Int) (m : Option Nat) : Val := ⟨s, f, max t (max s 0), m⟩

/-- The rule `r` with cost `c` stays within `v`. -/
def Meets (A : Int) (v : Val) (r : Run S) (c : List Char → S → Nat) : Prop :=
  ∀ inp st, match r inp st with
    | .ok (some rest, _) => rest.length ≤ inp.length ∧ (∀ m, v.m = some m → inp.length ≤ rest.length + m) ∧
        (c inp st : Int) + A * rest.length ≤ A * inp.length + v.s
    | .ok (none, _) => match v.f with
        | .never => False
        | .const b => (c inp st : Int) ≤ b
        | .any => (c inp st : Int) ≤ A * inp.length + v.t
    | _ => (c inp st : Int) ≤ A * inp.length + v.t

/-- One more call. -/
def Val.bump (v : Val) : Val :=
  ⟨v.s + 1, match v.f with | .const b => .const (b + 1) | f => f, v.t + 1, v.m⟩

/-- The cost of a rule. -/
def infer (A : Int) (tbl : N → Option Val) : Exp N → Option Val
  | .one _ => some (.mk' (1 - A) (.const 1) 1 (some 1))
  | .ranges _ => some (.mk' (1 - A) (.const 1) 1 (some 1))
  | .str s => some (.mk' (1 - A * s.length) (.const 1) 1 (some s.length))
  | .eof => some (.mk' 1 (.const 1) 1 (some 0))
  | .eolf => some (.mk' 1 (.const 1) 1 (some 2))
  | .seq x y => do
    let x ← infer A tbl x
    let y ← infer A tbl y
    let m := match x.m, y.m with
      | some i, some j => some (i + j)
      | _, _ => none
    match x.f, y.f with
    | .never, .never => some (.mk' (1 + x.s + y.s) .never (max (1 + x.t) (1 + x.s + y.t)) m)
    | .const b, .never => some (.mk' (1 + x.s + y.s) (.const (1 + b)) (max (1 + x.t) (1 + x.s + y.t)) m)
    | .const b, .const c =>
      match x.m with
      | some i => some (.mk' (1 + x.s + y.s) (.const (max (1 + b) (1 + A * i + x.s + c)))
          (max (1 + x.t) (1 + x.s + y.t)) m)
      | none => some (.mk' (1 + x.s + y.s) .any (max (1 + b) (max (1 + x.t) (1 + x.s + max c y.t))) m)
    | .never, .const c =>
      match x.m with
      | some i => some (.mk' (1 + x.s + y.s) (.const (1 + A * i + x.s + c))
          (max (1 + x.t) (1 + x.s + y.t)) m)
      | none => some (.mk' (1 + x.s + y.s) .any (max (1 + x.t) (1 + x.s + max c y.t)) m)
    | .const b, .any => some (.mk' (1 + x.s + y.s) .any (max (1 + b) (max (1 + x.t) (1 + x.s + y.t))) m)
    | .never, .any => some (.mk' (1 + x.s + y.s) .any (max (1 + x.t) (1 + x.s + y.t)) m)
    | .any, _ => none
  | .sor x y => do
    let x ← infer A tbl x
    let y ← infer A tbl y
    let m := match x.m, y.m with
      | some i, some j => some (max i j)
      | _, _ => none
    match x.f with
    | .const b => some (.mk' (max (1 + x.s) (1 + b + y.s)) (match y.f with
        | .never => .never
        | .const c => .const (1 + b + c)
        | .any => .any) (max (1 + x.t) (1 + b + y.t)) m)
    | _ => none
  | .star x => do
    let x ← infer A tbl x
    match x.f with
    | .const b => if x.s ≤ -1 then some (.mk' (1 + b) .never (max (1 + x.t) (1 + b)) none) else none
    | _ => none
  | .plus x => do
    let x ← infer A tbl x
    match x.f with
    | .const b => if x.s ≤ -1 then
        some (.mk' (2 + x.s + b) (.const (1 + b)) (max (2 + x.t) (2 + b)) none) else none
    | _ => none
  | .opt x => do
    let x ← infer A tbl x
    match x.f with
    | .const b => some (.mk' (max (1 + x.s) (1 + b)) .never (1 + x.t) x.m)
    | _ => none
  | .notAt x => do
    let x ← infer A tbl x
    match x.f, x.m with
    | .const b, some i => some (.mk' (1 + b) (.const (1 + A * i + x.s)) (1 + x.t) (some 0))
    | _, _ => none
  | .untilAny .eolf => if 3 ≤ A then some (.mk' 2 .never 2 none) else none
  | .untilAny _ => none
  | .untl c x => do
    let c ← infer A tbl c
    let x ← infer A tbl x
    match c.f with
    | .const b => if 1 + b + x.s ≤ 0 then
        some (.mk' (1 + c.s) (match x.f with
          | .never => .never
          | _ => .any) (max (1 + c.t) (1 + b + max x.t (match x.f with | .const d => d | _ => 0))) none) else none
    | _ => none
  | .must x => do
    let x ← infer A tbl x
    some (.mk' (1 + x.s) .never (max (1 + x.t) (match x.f with | .const b => 1 + b | _ => 0)) x.m)
  | .disable x => (infer A tbl x).map Val.bump
  | .nt x => tbl x

/-- The costs `v` are no more than `w`. -/
def Val.le (v w : Val) : Bool :=
  v.s ≤ w.s && v.t ≤ w.t && (match v.f, w.f with
    | .never, _ => true
    | .const b, .const c => b ≤ c
    | .const b, .any => b ≤ w.t
    | .any, .any => true
    | _, _ => false) && (match v.m, w.m with
    | _, none => true
    | some i, some j => i ≤ j
    | none, some _ => false)

theorem infer_t {A : Int} {tbl : N → Option Val} (htbl : ∀ x v, tbl x = some v → 0 ≤ v.t ∧ v.s ≤ v.t) :
    ∀ (e : Exp N) (v : Val), infer A tbl e = some v → 0 ≤ v.t ∧ v.s ≤ v.t := by
  have hmk : ∀ s f t m, 0 ≤ (Val.mk' s f t m).t ∧ (Val.mk' s f t m).s ≤ (Val.mk' s f t m).t := by
    intro s f t m
    simp only [Val.mk']
    omega
  intro e
  induction e with
  | nt x => exact htbl x
  | disable x ih =>
    intro v h
    simp only [infer, Option.map_eq_some_iff] at h
    obtain ⟨w, hw, rfl⟩ := h
    have := ih w hw
    simp only [Val.bump]
    omega
  | one _ | ranges _ | str _ | eof | eolf =>
    intro v h
    simp only [infer, Option.some.injEq] at h
    exact h ▸ hmk _ _ _ _
  | untilAny x =>
    intro v h
    cases x <;> simp only [infer, reduceCtorEq] at h
    split at h
    · simp only [Option.some.injEq] at h
      exact h ▸ hmk _ _ _ _
    · simp at h
  | seq x y | sor x y | untl x y =>
    intro v h
    simp only [infer, Option.bind_eq_bind, Option.bind_eq_some_iff] at h
    obtain ⟨v1, -, v2, -, h⟩ := h
    repeat' split at h
    all_goals simp only [Option.some.injEq, reduceCtorEq] at h
    all_goals exact h ▸ hmk _ _ _ _
  | star x | plus x | opt x | notAt x | must x =>
    intro v h
    simp only [infer, Option.bind_eq_bind, Option.bind_eq_some_iff] at h
    obtain ⟨v1, -, h⟩ := h
    repeat' split at h
    all_goals simp only [Option.some.injEq, reduceCtorEq] at h
    all_goals exact h ▸ hmk _ _ _ _

theorem Meets.leaf {A : Int} {v : Val} {r : Run S} {c : List Char → S → Nat}
    (h : ∀ inp st, ∃ o, r inp st = .ok (o, st) ∧ c inp st = 1 ∧
      (∀ rest, o = some rest → rest.length ≤ inp.length ∧ (∀ m, v.m = some m → inp.length ≤ rest.length + m) ∧
        1 + A * rest.length ≤ A * inp.length + v.s)) (hf : v.f = .const 1) : Meets A v r c := by
  intro inp st
  obtain ⟨o, ho, hc, hs⟩ := h inp st
  rw [ho, hc]
  cases o with
  | none => simp only [hf]; omega
  | some rest => exact hs rest rfl

section
variable {A : Int} {v w : Val} {r q : Run S} {c d : List Char → S → Nat}

theorem mul_len (hA : 0 ≤ A) {i j k : Nat} (h : i ≤ j + k) : A * (i : Int) ≤ A * j + A * k := by
  have h' : (i : Int) ≤ j + k := by exact_mod_cast h
  nlinarith

theorem Meets.seq (hA : 0 ≤ A) (h1 : Meets A v r c) (h2 : Meets A w q d) {u : Val}
    (hs : 1 + v.s + w.s ≤ u.s) (ht : 1 + v.t ≤ u.t) (ht' : 1 + v.s + w.t ≤ u.t)
    (hm : ∀ m, u.m = some m → ∃ i j, v.m = some i ∧ w.m = some j ∧ i + j ≤ m)
    (hf : match v.f with
      | .never => True
      | .const b => match u.f with
        | .never => False
        | .const z => 1 + b ≤ z
        | .any => 1 + b ≤ u.t
      | .any => u.f = .any)
    (hg : match w.f with
      | .never => True
      | .const b => match u.f with
        | .never => False
        | .const z => ∃ i, v.m = some i ∧ 1 + A * i + v.s + b ≤ z
        | .any => 1 + v.s + b ≤ u.t
      | .any => u.f = .any) :
    Meets A u (thenR r q) fun inp st => 1 + c inp st + after (r inp st) d fun _ => 0 := by
  intro inp st
  have hx := h1 inp st
  simp only [thenR]
  rcases hr : r inp st with ⟨_ | rest, st'⟩ | e | _ | e | _
  · simp only [hr] at hx
    simp only [after, Outcome.bind_ok, Outcome.pure_eq_ok]
    have hl : 0 ≤ A * (inp.length : Int) := by positivity
    rcases hv : v.f with _ | b | _ <;> rcases hu : u.f with _ | z | _ <;>
      simp only [hv, hu, reduceCtorEq] at hx hf ⊢ <;> push_cast <;> omega
  · simp only [hr] at hx
    have hy := h2 rest st'
    simp only [after, Outcome.bind_ok]
    rcases hr' : q rest st' with ⟨_ | rest', st''⟩ | e | _ | e | _
    · simp only [hr'] at hy
      have hl : 0 ≤ A * (rest.length : Int) := by positivity
      rcases hv : w.f with _ | b | _ <;> rcases hu : u.f with _ | z | _ <;>
        simp only [hv, hu, reduceCtorEq] at hy hg ⊢
      · obtain ⟨i, hi, hz⟩ := hg
        have := mul_len hA (hx.2.1 i hi)
        push_cast
        omega
      · push_cast
        omega
      · push_cast
        omega
    · simp only [hr'] at hy
      simp only
      refine ⟨by omega, fun m h => ?_, by push_cast; omega⟩
      obtain ⟨i, j, hi, hj, hij⟩ := hm m h
      have := hx.2.1 i hi
      have := hy.2.1 j hj
      omega
    all_goals
      simp only [hr'] at hy
      simp only
      push_cast
      omega
  all_goals
    simp only [hr] at hx
    simp only [after]
    show ((_ : Nat) : Int) ≤ _
    push_cast
    omega

theorem Meets.sor (hA : 0 ≤ A) (h1 : Meets A v r c) (h2 : Meets A w q d) {u : Val} {b : Int}
    (hb : v.f = .const b) (hs : 1 + v.s ≤ u.s) (hs' : 1 + b + w.s ≤ u.s) (ht : 1 + v.t ≤ u.t)
    (ht' : 1 + b + w.t ≤ u.t)
    (hm : ∀ m, u.m = some m → ∃ i j, v.m = some i ∧ w.m = some j ∧ i ≤ m ∧ j ≤ m) (h0 : 0 ≤ w.t)
    (hf : match w.f with
      | .never => True
      | .const z => match u.f with
        | .never => False
        | .const y => 1 + b + z ≤ y
        | .any => 1 + b + z ≤ u.t
      | .any => u.f = .any) :
    Meets A u (elseR r q) fun inp st => 1 + c inp st + after (r inp st) (fun _ _ => 0) (d inp) := by
  intro inp st
  have hx := h1 inp st
  simp only [elseR]
  have hl : 0 ≤ A * (inp.length : Int) := by positivity
  rcases hr : r inp st with ⟨_ | rest, st'⟩ | e | _ | e | _
  · simp only [hr, hb] at hx
    have hy := h2 inp st'
    simp only [after, Outcome.bind_ok]
    rcases hr' : q inp st' with ⟨_ | rest', st''⟩ | e | _ | e | _
    · simp only [hr'] at hy
      rcases hv : w.f with _ | b | _ <;> rcases hu : u.f with _ | z | _ <;>
        simp only [hv, hu, reduceCtorEq] at hy hf ⊢ <;> push_cast <;> omega
    · simp only [hr'] at hy
      simp only
      refine ⟨by omega, fun m h => ?_, by push_cast; omega⟩
      obtain ⟨i, j, hi, hj, hij⟩ := hm m h
      have := hy.2.1 j hj
      omega
    all_goals
      simp only [hr'] at hy
      simp only
      push_cast
      omega
  · simp only [hr] at hx
    simp only [after, Outcome.bind_ok, Outcome.pure_eq_ok]
    refine ⟨by omega, fun m h => ?_, by push_cast; omega⟩
    obtain ⟨i, j, hi, hj, hij⟩ := hm m h
    have := hx.2.1 i hi
    omega
  all_goals
    simp only [hr] at hx
    simp only [after]
    show ((_ : Nat) : Int) ≤ _
    push_cast
    omega

/-- One round of `star` or `plus`. -/
theorem Meets.star (hA : 0 ≤ A) (h1 : Meets A v r c) (h2 : Meets A w q d) {u : Val} {b : Int}
    (hb : v.f = .const b) (hs : 1 + v.s + w.s ≤ u.s) (hs' : 1 + b ≤ u.s) (ht : 1 + v.t ≤ u.t)
    (ht' : 1 + v.s + w.t ≤ u.t) (hm : u.m = none) (hf : w.f = .never) :
    Meets A u (starR r q) fun inp st => 1 + c inp st + after (r inp st) d fun _ => 0 := by
  intro inp st
  have hx := h1 inp st
  simp only [starR]
  have hl : 0 ≤ A * (inp.length : Int) := by positivity
  rcases hr : r inp st with ⟨_ | rest, st'⟩ | e | _ | e | _
  · simp only [hr, hb] at hx
    simp only [after, Outcome.bind_ok, Outcome.pure_eq_ok]
    refine ⟨le_refl _, fun m h => by simp [hm] at h, by push_cast; omega⟩
  · simp only [hr] at hx
    have hy := h2 rest st'
    simp only [after, Outcome.bind_ok]
    rcases hr' : q rest st' with ⟨_ | rest', st''⟩ | e | _ | e | _
    · simp only [hr', hf] at hy
    · simp only [hr'] at hy
      simp only
      exact ⟨by omega, fun m h => by simp [hm] at h, by push_cast; omega⟩
    all_goals
      simp only [hr'] at hy
      simp only
      push_cast
      omega
  all_goals
    simp only [hr] at hx
    simp only [after]
    show ((_ : Nat) : Int) ≤ _
    push_cast
    omega

theorem Meets.opt (h1 : Meets A v r c) {u : Val} {b : Int}
    (hb : v.f = .const b) (hs : 1 + v.s ≤ u.s) (hs' : 1 + b ≤ u.s) (ht : 1 + v.t ≤ u.t) (hm : u.m = v.m) :
    Meets A u (optR r) fun inp st => 1 + c inp st := by
  intro inp st
  have hx := h1 inp st
  simp only [optR]
  rcases hr : r inp st with ⟨_ | rest, st'⟩ | e | _ | e | _
  · simp only [hr, hb] at hx
    simp only [Outcome.bind_ok, Outcome.pure_eq_ok]
    refine ⟨le_refl _, fun m h => by omega, by push_cast; omega⟩
  · simp only [hr] at hx
    simp only [Outcome.bind_ok, Outcome.pure_eq_ok]
    exact ⟨hx.1, hm ▸ hx.2.1, by push_cast; omega⟩
  all_goals
    simp only [hr] at hx
    show ((_ : Nat) : Int) ≤ _
    push_cast
    omega

theorem Meets.notAt (hA : 0 ≤ A) (h1 : Meets A v r c) {u : Val} {b z : Int} {i : Nat}
    (hb : v.f = .const b) (hi : v.m = some i) (hs' : 1 + b ≤ u.s) (ht : 1 + v.t ≤ u.t) (hm : u.m = some 0)
    (hz : u.f = .const z) (hz' : 1 + A * i + v.s ≤ z) :
    Meets A u (notAtR r) fun inp st => 1 + c inp st := by
  intro inp st
  have hx := h1 inp st
  simp only [notAtR]
  rcases hr : r inp st with ⟨_ | rest, st'⟩ | e | _ | e | _
  · simp only [hr, hb] at hx
    simp only [Outcome.bind_ok, Outcome.pure_eq_ok]
    refine ⟨le_refl _, fun m h => by omega, by push_cast; omega⟩
  · simp only [hr] at hx
    simp only [Outcome.bind_ok, Outcome.pure_eq_ok, hz]
    have := mul_len hA (hx.2.1 i hi)
    push_cast
    omega
  all_goals
    simp only [hr] at hx
    show ((_ : Nat) : Int) ≤ _
    push_cast
    omega

theorem Meets.must (hA : 0 ≤ A) (h1 : Meets A v r c) {u : Val} (hs : 1 + v.s ≤ u.s) (ht : 1 + v.t ≤ u.t)
    (hb : ∀ b, v.f = .const b → 1 + b ≤ u.t) (hm : u.m = v.m) :
    Meets A u (mustR r) fun inp st => 1 + c inp st := by
  intro inp st
  have hx := h1 inp st
  simp only [mustR]
  have hl : 0 ≤ A * (inp.length : Int) := by positivity
  rcases hr : r inp st with ⟨_ | rest, st'⟩ | e | _ | e | _
  · simp only [hr] at hx
    simp only [Outcome.bind_ok]
    rcases hv : v.f with _ | b | _ <;> simp only [hv] at hx
    · have := hb b hv
      push_cast
      omega
    · push_cast
      omega
  · simp only [hr] at hx
    simp only [Outcome.bind_ok, Outcome.pure_eq_ok]
    exact ⟨hx.1, hm ▸ hx.2.1, by push_cast; omega⟩
  all_goals
    simp only [hr] at hx
    show ((_ : Nat) : Int) ≤ _
    push_cast
    omega

/-- One round of `until`. -/
theorem Meets.untl (hA : 0 ≤ A) {p : Run S} {e : List Char → S → Nat} {x : Val}
    (h1 : Meets A v r c) (h2 : Meets A x p e) {u : Val} (h3 : Meets A u q d) {b : Int}
    (hb : v.f = .const b) (hx : 1 + b + x.s ≤ 0) (hs : 1 + v.s ≤ u.s) (ht : 1 + v.t ≤ u.t)
    (ht' : 1 + b + x.t ≤ u.t) (hm : u.m = none)
    (hf : match x.f with
      | .never => u.f = .never ∨ u.f = .any
      | .const z => u.f = .any ∧ 1 + b + z ≤ u.t
      | .any => u.f = .any) :
    Meets A u (elseR r (thenR p q)) fun inp st =>
      1 + c inp st + after (r inp st) (fun _ _ => 0) fun st' =>
        e inp st' + after (p inp st') d fun _ => 0 := by
  intro inp st
  have hx1 := h1 inp st
  simp only [elseR, thenR]
  have hl : 0 ≤ A * (inp.length : Int) := by positivity
  rcases hr : r inp st with ⟨_ | rest, st'⟩ | e | _ | e | _
  · simp only [hr, hb] at hx1
    have hy := h2 inp st'
    simp only [after, Outcome.bind_ok]
    rcases hr' : p inp st' with ⟨_ | rest', st''⟩ | e | _ | e | _
    · simp only [hr'] at hy
      simp only [Outcome.bind_ok, Outcome.pure_eq_ok]
      rcases hv : x.f with _ | z | _ <;> simp only [hv] at hy hf
      · simp only [hf.1]
        push_cast
        omega
      · simp only [hf]
        push_cast
        omega
    · simp only [hr'] at hy
      simp only [Outcome.bind_ok]
      have hz := h3 rest' st''
      rcases hr'' : q rest' st'' with ⟨_ | rest'', st3⟩ | e | _ | e | _
      · simp only [hr''] at hz
        rcases hv : u.f with _ | z | _ <;> simp only [hv] at hz ⊢
        · rcases hxf : x.f with _ | y | _ <;> simp [hxf, hv] at hf
        · push_cast
          omega
      · simp only [hr''] at hz
        simp only
        exact ⟨by omega, fun m h => by simp [hm] at h, by push_cast; omega⟩
      all_goals
        simp only [hr''] at hz
        simp only
        push_cast
        omega
    all_goals
      simp only [hr'] at hy
      show ((_ : Nat) : Int) ≤ _
      push_cast
      omega
  · simp only [hr] at hx1
    simp only [after, Outcome.bind_ok, Outcome.pure_eq_ok]
    exact ⟨hx1.1, fun m h => by simp [hm] at h, by push_cast; omega⟩
  all_goals
    simp only [hr] at hx1
    simp only [after]
    show ((_ : Nat) : Int) ≤ _
    push_cast
    omega

theorem Meets.bump (h1 : Meets A v r c) : Meets A v.bump r fun inp st => 1 + c inp st := by
  intro inp st
  have hx := h1 inp st
  rcases hr : r inp st with ⟨_ | rest, st'⟩ | e | _ | e | _
  · simp only [hr] at hx
    rcases hv : v.f with _ | b | _ <;> simp only [hv] at hx <;> simp only [Val.bump, hv] <;> push_cast <;> omega
  · simp only [hr] at hx
    simp only [Val.bump]
    exact ⟨hx.1, hx.2.1, by push_cast; omega⟩
  all_goals
    simp only [hr] at hx
    simp only [Val.bump]
    push_cast
    omega

theorem Meets.mono (hA : 0 ≤ A) (h1 : Meets A v r c) (h : v.le w = true) : Meets A w r c := by
  simp only [Val.le, Bool.and_eq_true, decide_eq_true_eq] at h
  obtain ⟨⟨⟨hs, ht⟩, hf⟩, hm⟩ := h
  intro inp st
  have hx := h1 inp st
  have hl : 0 ≤ A * (inp.length : Int) := by positivity
  rcases hr : r inp st with ⟨_ | rest, st'⟩ | e | _ | e | _
  · simp only [hr] at hx
    rcases hv : v.f with _ | b | _ <;> rcases hw : w.f with _ | z | _ <;>
      simp only [hv, hw, Bool.false_eq_true, decide_eq_true_eq] at hx hf ⊢ <;> omega
  · simp only [hr] at hx
    simp only
    refine ⟨hx.1, fun m h => ?_, by omega⟩
    rcases hv : v.m with _ | i <;> simp only [hv, h, Bool.false_eq_true, decide_eq_true_eq] at hm
    have := hx.2.1 i hv
    omega
  all_goals
    simp only [hr] at hx
    simp only
    omega

/-- A rule with its action. -/
theorem Meets.wrap (hA : 0 ≤ A) (h1 : Meets A v r c) (h : v.s ≤ v.t) (x : Action S) (a : Bool) :
    Meets A v (x.wrap a r) fun inp st => c inp (x.enter st) := by
  have happ : ∀ f, Meets A v (applied f r) c := by
    intro f inp st
    have hx := h1 inp st
    simp only [applied]
    rcases hr : r inp st with ⟨_ | rest, st'⟩ | e | _ | e | _
    · simp only [hr] at hx
      exact hx
    · simp only [hr] at hx
      simp only [Outcome.bind_ok]
      have hl : 0 ≤ A * (rest.length : Int) := by positivity
      rcases f (Lex.textOf inp rest) st' with st'' | e | _ | e | _
      · exact hx
      all_goals
        show ((_ : Nat) : Int) ≤ _
        omega
    all_goals
      simp only [hr] at hx
      exact hx
  cases x with
  | nothing => exact h1
  | apply f =>
    cases a with
    | false => exact h1
    | true => exact happ f
  | fresh enter leave f =>
    have key : ∀ r', Meets A v r' c → Meets A v (fun inp st => do
        let (rest, st') ← r' inp (enter st)
        return (rest, leave st st')) fun inp st => c inp (enter st) := by
      intro r' h' inp st
      have hx := h' inp (enter st)
      rcases hr : r' inp (enter st) with ⟨_ | rest, st'⟩ | e | _ | e | _ <;>
        simp only [hr] at hx ⊢ <;> exact hx
    cases a with
    | false => exact key _ h1
    | true => exact key _ (happ f)

end

theorem Meets.eolf (A : Int) (n : Nat) (g : Grammar N S) (a : Bool) (hA : 3 ≤ A) :
    Meets A (Val.mk' 2 .never 2 none) (g.run n a (.untilAny .eolf)) (g.calls n a (.untilAny .eolf)) := by
  induction n with
  | zero =>
    intro inp st
    simp only [Grammar.run, Grammar.calls, Val.mk']
    have hl : 0 ≤ A * (inp.length : Int) := by positivity
    push_cast
    omega
  | succ n ih =>
    intro inp st
    have hl : 0 ≤ A * (inp.length : Int) := by positivity
    cases n with
    | zero =>
      simp only [Grammar.run, Grammar.calls, Val.mk', elseR]
      show ((_ : Nat) : Int) ≤ _
      simp only [after]
      push_cast
      omega
    | succ n =>
      rw [Grammar.run, Grammar.calls]
      simp only [elseR, show g.run (n + 1) a .eolf = fun inp st => .ok (Peg.eolf inp, st) from rfl,
        show g.calls (n + 1) a .eolf = fun _ _ => 1 from rfl, Outcome.bind_ok]
      rcases he : Peg.eolf inp with _ | rest
      · cases inp with
        | nil => simp [Peg.eolf] at he
        | cons c cs =>
          have hy := ih cs st
          simp only [after, thenR, anyR, char, if_true, Outcome.bind_ok]
          have : A * ((c :: cs).length : Int) = A * cs.length + A := by
            rw [List.length_cons]
            push_cast
            ring
          rcases hr : g.run (n + 1) a (.untilAny .eolf) cs st with ⟨_ | rest, st'⟩ | e | _ | e | _
          · simp only [hr, Val.mk'] at hy
          · simp only [hr, Val.mk'] at hy
            simp only [Val.mk']
            refine ⟨by simp only [List.length_cons]; omega, by simp, ?_⟩
            push_cast
            rw [this]
            omega
          all_goals
            simp only [hr, Val.mk'] at hy
            simp only [Val.mk']
            push_cast
            rw [this]
            omega
      · have hle : rest.length ≤ inp.length := by
          unfold Peg.eolf at he
          split at he <;> simp only [Option.some.injEq, reduceCtorEq] at he <;> subst he <;> simp <;> omega
        have := mul_len (A := A) (by omega) (i := rest.length) (j := inp.length) (k := 0) (by omega)
        simp only [after, Outcome.pure_eq_ok, Val.mk']
        refine ⟨hle, by simp, ?_⟩
        push_cast at this ⊢
        omega

theorem char_meets {A : Int} (p : Char → Bool) {c : List Char → S → Nat} (hc : ∀ inp st, c inp st = 1) :
    Meets A (Val.mk' (1 - A) (.const 1) 1 (some 1)) (char p) c :=
  Meets.leaf (fun inp st => by
    cases inp with
    | nil => exact ⟨none, rfl, hc _ _, by simp⟩
    | cons x xs =>
      refine ⟨_, rfl, hc _ _, ?_⟩
      intro rest h
      split at h <;> simp only [Option.some.injEq, reduceCtorEq] at h
      subst h
      refine ⟨by simp, by simp [Val.mk'], ?_⟩
      simp only [Val.mk', List.length_cons]
      push_cast
      rw [mul_add]
      omega) rfl

/-- The costs that `infer` computes are right. -/
theorem sound (g : Grammar N S) {A : Int} (hA : 0 ≤ A) {tbl : N → Option Val}
    (htbl : ∀ x v, tbl x = some v → 0 ≤ v.t ∧ v.s ≤ v.t)
    (hnt : ∀ x v, tbl x = some v → (∀ n a, Meets A v (g.run n a (.nt x)) (g.calls n a (.nt x))) ∨
      ∃ w, infer A tbl (g.rules x) = some w ∧ w.bump.le v = true) :
    ∀ n a e v, infer A tbl e = some v → Meets A v (g.run n a e) (g.calls n a e) := by
  intro n
  induction n with
  | zero =>
    intro a e v h inp st
    have := infer_t htbl e v h
    have hl : 0 ≤ A * (inp.length : Int) := by positivity
    simp only [Grammar.run, Grammar.calls]
    push_cast
    omega
  | succ n ih =>
    intro a e
    cases e with
    | one cs =>
      intro v h
      simp only [infer, Option.some.injEq] at h
      subst h
      exact char_meets _ fun _ _ => rfl
    | ranges rs =>
      intro v h
      simp only [infer, Option.some.injEq] at h
      subst h
      exact char_meets _ fun _ _ => rfl
    | str s =>
      intro v h
      simp only [infer, Option.some.injEq] at h
      subst h
      refine Meets.leaf (fun inp st => ⟨_, rfl, rfl, fun rest h => ?_⟩) rfl
      split at h <;> simp only [Option.some.injEq, reduceCtorEq] at h
      rename_i hp
      obtain ⟨t, rfl⟩ := List.isPrefixOf_iff_prefix.mp hp
      subst h
      simp only [List.drop_left', Val.mk', List.length_append]
      refine ⟨by omega, fun m h => by simp only [Option.some.injEq] at h; omega, ?_⟩
      push_cast
      rw [mul_add]
      omega
    | eof =>
      intro v h
      simp only [infer, Option.some.injEq] at h
      subst h
      refine Meets.leaf (fun inp st => ⟨_, rfl, rfl, fun rest h => ?_⟩) rfl
      split at h <;> simp only [Option.some.injEq, reduceCtorEq] at h
      subst h
      simp only [Val.mk']
      exact ⟨le_refl _, fun m _ => by omega, by omega⟩
    | eolf =>
      intro v h
      simp only [infer, Option.some.injEq] at h
      subst h
      refine Meets.leaf (fun inp st => ⟨_, rfl, rfl, fun rest h => ?_⟩) rfl
      have hle : rest.length ≤ inp.length ∧ inp.length ≤ rest.length + 2 := by
        unfold Peg.eolf at h
        split at h <;> simp only [Option.some.injEq, reduceCtorEq] at h <;> subst h <;> simp <;> omega
      have := mul_len hA (i := rest.length) (j := inp.length) (k := 0) (by omega)
      simp only [Val.mk']
      refine ⟨hle.1, fun m h => by simp only [Option.some.injEq] at h; omega, ?_⟩
      push_cast at this
      omega
    | seq x y =>
      intro v h
      simp only [infer, Option.bind_eq_bind, Option.bind_eq_some_iff] at h
      obtain ⟨v1, h1, v2, h2, h⟩ := h
      have hx := ih a x v1 h1
      have hy := ih a y v2 h2
      have hm : ∀ m, (match v1.m, v2.m with
          | some i, some j => some (i + j)
          | _, _ => none) = some m → ∃ i j, v1.m = some i ∧ v2.m = some j ∧ i + j ≤ m := by
        intro m h
        split at h <;> simp only [Option.some.injEq, reduceCtorEq] at h
        rename_i i j hi hj
        exact ⟨i, j, hi, hj, le_of_eq h⟩
      rcases hf1 : v1.f with _ | b | _ <;> rcases hf2 : v2.f with _ | z | _ <;>
        simp only [hf1, hf2, reduceCtorEq] at h
      case never.const =>
        split at h <;> simp only [Option.some.injEq] at h <;> subst h
        · rename_i i hi
          exact hx.seq hA hy (by simp [Val.mk']) (by simp only [Val.mk']; omega) (by simp only [Val.mk']; omega) hm (by simp [hf1])
            (by simp only [hf2, Val.mk']; exact ⟨i, hi, le_refl _⟩)
        · exact hx.seq hA hy (by simp [Val.mk']) (by simp only [Val.mk']; omega) (by simp only [Val.mk']; omega) hm (by simp [hf1])
            (by simp only [hf2, Val.mk']; omega)
      case const.const =>
        split at h <;> simp only [Option.some.injEq] at h <;> subst h
        · rename_i i hi
          exact hx.seq hA hy (by simp [Val.mk']) (by simp only [Val.mk']; omega) (by simp only [Val.mk']; omega) hm
            (by simp only [hf1, Val.mk']; omega)
            (by simp only [hf2, Val.mk']; exact ⟨i, hi, le_max_right _ _⟩)
        · exact hx.seq hA hy (by simp [Val.mk']) (by simp only [Val.mk']; omega) (by simp only [Val.mk']; omega) hm
            (by simp only [hf1, Val.mk']; omega)
            (by simp only [hf2, Val.mk']; omega)
      all_goals
        simp only [Option.some.injEq] at h
        subst h
        exact hx.seq hA hy (by simp [Val.mk']) (by simp only [Val.mk']; omega) (by simp only [Val.mk']; omega) hm
          (by simp only [hf1, Val.mk']; try omega) (by simp only [hf2, Val.mk'])
    | sor x y =>
      intro v h
      simp only [infer, Option.bind_eq_bind, Option.bind_eq_some_iff] at h
      obtain ⟨v1, h1, v2, h2, h⟩ := h
      split at h <;> simp only [Option.some.injEq, reduceCtorEq] at h
      rename_i b hb
      subst h
      have ht := infer_t htbl y v2 h2
      refine (ih a x v1 h1).sor hA (ih a y v2 h2) hb (by simp only [Val.mk']; omega)
        (by simp only [Val.mk']; omega) (by simp only [Val.mk']; omega) (by simp only [Val.mk']; omega) ?_ ht.1 ?_
      · intro m h
        simp only [Val.mk'] at h
        split at h <;> simp only [Option.some.injEq, reduceCtorEq] at h
        rename_i i j hi hj
        exact ⟨i, j, hi, hj, by omega, by omega⟩
      · rcases hf2 : v2.f with _ | z | _ <;> simp [Val.mk']
    | star x =>
      intro v h
      have hs := ih a (.star x) v h
      simp only [infer, Option.bind_eq_bind, Option.bind_eq_some_iff] at h
      obtain ⟨v1, h1, h⟩ := h
      split at h
      · rename_i b hb
        split at h <;> simp only [Option.some.injEq, reduceCtorEq] at h
        subst h
        exact (ih a x v1 h1).star hA hs hb (by simp only [Val.mk']; omega) (by simp only [Val.mk']; omega)
          (by simp only [Val.mk']; omega) (by simp only [Val.mk']; omega) rfl rfl
      · simp at h
    | plus x =>
      intro v h
      simp only [infer, Option.bind_eq_bind, Option.bind_eq_some_iff] at h
      obtain ⟨v1, h1, h⟩ := h
      split at h
      · rename_i b hb
        split at h <;> simp only [Option.some.injEq, reduceCtorEq] at h
        rename_i hv
        subst h
        have hs := ih a (.star x) (.mk' (1 + b) .never (max (1 + v1.t) (1 + b)) none) (by
          simp only [infer, h1, Option.bind_eq_bind, Option.bind_some, hb, hv, if_true])
        exact (ih a x v1 h1).seq hA hs (by simp only [Val.mk']; omega) (by simp only [Val.mk']; omega)
          (by simp only [Val.mk']; omega) (by simp [Val.mk']) (by simp [hb, Val.mk']) (by simp [Val.mk'])
      · simp at h
    | opt x =>
      intro v h
      simp only [infer, Option.bind_eq_bind, Option.bind_eq_some_iff] at h
      obtain ⟨v1, h1, h⟩ := h
      split at h <;> simp only [Option.some.injEq, reduceCtorEq] at h
      rename_i b hb
      subst h
      exact (ih a x v1 h1).opt hb (by simp only [Val.mk']; omega) (by simp only [Val.mk']; omega)
        (by simp only [Val.mk']; omega) rfl
    | notAt x =>
      intro v h
      simp only [infer, Option.bind_eq_bind, Option.bind_eq_some_iff] at h
      obtain ⟨v1, h1, h⟩ := h
      split at h <;> simp only [Option.some.injEq, reduceCtorEq] at h
      rename_i b i hb hi
      subst h
      exact (ih false x v1 h1).notAt hA hb hi (by simp [Val.mk']) (by simp only [Val.mk']; omega) rfl rfl
        (le_refl _)
    | untilAny x =>
      intro v h
      cases x <;> simp only [infer, reduceCtorEq] at h
      split at h <;> simp only [Option.some.injEq, reduceCtorEq] at h
      rename_i h3
      subst h
      exact Meets.eolf A (n + 1) g a h3
    | untl x y =>
      intro v h
      have hs := ih a (.untl x y) v h
      simp only [infer, Option.bind_eq_bind, Option.bind_eq_some_iff] at h
      obtain ⟨v1, h1, v2, h2, h⟩ := h
      split at h
      · rename_i b hb
        split at h <;> simp only [Option.some.injEq, reduceCtorEq] at h
        rename_i hbx
        subst h
        refine (ih a x v1 h1).untl hA (ih a y v2 h2) hs hb hbx (by simp [Val.mk'])
          (by simp only [Val.mk']; omega) (by simp only [Val.mk']; omega) rfl ?_
        rcases hf2 : v2.f with _ | z | _ <;> simp only [Val.mk', hf2]
        · simp
        · exact ⟨trivial, by omega⟩
      · simp at h
    | must x =>
      intro v h
      simp only [infer, Option.bind_eq_bind, Option.bind_eq_some_iff] at h
      obtain ⟨v1, h1, h⟩ := h
      simp only [Option.some.injEq] at h
      subst h
      exact (ih a x v1 h1).must hA (by simp [Val.mk']) (by simp only [Val.mk']; omega)
        (fun b hb => by simp only [Val.mk', hb]; omega) rfl
    | disable x =>
      intro v h
      simp only [infer, Option.map_eq_some_iff] at h
      obtain ⟨w, hw, rfl⟩ := h
      exact (ih false x w hw).bump
    | nt x =>
      intro v h
      simp only [infer] at h
      rcases hnt x v h with h' | ⟨w, hw, hle⟩
      · exact h' _ _
      · exact (((ih a (g.rules x) w hw).wrap hA (infer_t htbl _ w hw).2 (g.action x) a).bump).mono hA hle

end Peg
end Verif
