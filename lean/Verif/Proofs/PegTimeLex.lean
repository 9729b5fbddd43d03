import Verif.Proofs.PegTime
import Verif.Spec.Peg

/-!
# The number of rules tried for names, numerals and predicates

Here rules fail after they have read a lot; what they have read decides what comes next.
-/

set_option linter.unusedSectionVars false

namespace Verif
namespace Peg

section
variable {N S : Type} {g : Grammar N S} {n : Nat} {a : Bool} {x y : Exp N} {inp rest : List Char} {st st' : S}

theorem seq_none (h : g.run (n + 1) a (.seq x y) inp st = .ok (none, st')) :
    (∃ s1, g.run n a x inp st = .ok (none, s1) ∧ g.calls (n + 1) a (.seq x y) inp st = 1 + g.calls n a x inp st) ∨
    ∃ r s1, g.run n a x inp st = .ok (some r, s1) ∧ g.run n a y r s1 = .ok (none, st') ∧
      g.calls (n + 1) a (.seq x y) inp st = 1 + g.calls n a x inp st + g.calls n a y r s1 := by
  simp only [Grammar.run, thenR] at h
  simp only [Grammar.calls]
  rcases hr : g.run n a x inp st with ⟨_ | r, s1⟩ | e | _ | e | _ <;> simp only [hr] at h
  · exact .inl ⟨s1, rfl, rfl⟩
  · exact .inr ⟨r, s1, rfl, h, rfl⟩
  all_goals cases h

theorem seq_some (h : g.run (n + 1) a (.seq x y) inp st = .ok (some rest, st')) :
    ∃ r s1, g.run n a x inp st = .ok (some r, s1) ∧ g.run n a y r s1 = .ok (some rest, st') := by
  simp only [Grammar.run, thenR] at h
  rcases hr : g.run n a x inp st with ⟨_ | r, s1⟩ | e | _ | e | _ <;> simp only [hr] at h
  · cases h
  · exact ⟨r, s1, rfl, h⟩
  all_goals cases h

theorem sor_none (h : g.run (n + 1) a (.sor x y) inp st = .ok (none, st')) :
    ∃ s1, g.run n a x inp st = .ok (none, s1) ∧ g.run n a y inp s1 = .ok (none, st') ∧
      g.calls (n + 1) a (.sor x y) inp st = 1 + g.calls n a x inp st + g.calls n a y inp s1 := by
  simp only [Grammar.run, elseR] at h
  simp only [Grammar.calls]
  rcases hr : g.run n a x inp st with ⟨_ | r, s1⟩ | e | _ | e | _ <;> simp only [hr] at h
  · exact ⟨s1, rfl, h, rfl⟩
  all_goals cases h

theorem nt_none {z : N} (h : g.run (n + 1) a (.nt z) inp st = .ok (none, st')) :
    ∃ s1, g.run n a (g.rules z) inp ((g.action z).enter st) = .ok (none, s1) := by
  have happ : ∀ (f : List Char → S → Outcome S) (r : Run S) (st st' : S),
      applied f r inp st = .ok (none, st') → r inp st = .ok (none, st') := by
    intro f r st st' h
    simp only [applied] at h
    rcases hr : r inp st with ⟨_ | r, s1⟩ | e | _ | e | _ <;> simp only [hr] at h
    · exact h
    · simp only [Outcome.bind_ok] at h
      rcases hf : f (Lex.textOf inp r) s1 with _ | _ | _ | _ | _ <;> simp only [hf] at h <;> cases h
    all_goals cases h
  simp only [Grammar.run] at h
  cases hz : g.action z with
  | nothing => rw [hz] at h; exact ⟨_, h⟩
  | apply f =>
    rw [hz] at h
    cases a with
    | false => exact ⟨_, h⟩
    | true => exact ⟨_, happ _ _ _ _ h⟩
  | fresh enter leave f =>
    rw [hz] at h
    simp only [Action.wrap] at h
    cases a with
    | false =>
      simp only [Bool.false_eq_true, if_false] at h
      rcases hr : g.run n false (g.rules z) inp (enter st) with ⟨_ | r, s1⟩ | e | _ | e | _ <;> simp only [hr] at h
      · exact ⟨s1, hr⟩
      all_goals cases h
    | true =>
      simp only [if_true] at h
      rcases hr : applied f (g.run n true (g.rules z)) inp (enter st) with ⟨_ | r, s1⟩ | e | _ | e | _ <;>
        simp only [hr] at h
      · exact ⟨s1, happ _ _ _ _ hr⟩
      all_goals cases h

theorem nt_some {z : N} (h : g.run (n + 1) a (.nt z) inp st = .ok (some rest, st')) :
    ∃ s1, g.run n a (g.rules z) inp ((g.action z).enter st) = .ok (some rest, s1) := by
  have happ : ∀ (f : List Char → S → Outcome S) (r : Run S) (st st' : S),
      applied f r inp st = .ok (some rest, st') → ∃ s1, r inp st = .ok (some rest, s1) := by
    intro f r st st' h
    simp only [applied] at h
    rcases hr : r inp st with ⟨_ | r, s1⟩ | e | _ | e | _ <;> simp only [hr] at h
    · cases h
    · simp only [Outcome.bind_ok] at h
      rcases hf : f (Lex.textOf inp r) s1 with _ | _ | _ | _ | _ <;> simp only [hf] at h <;> cases h
      exact ⟨s1, rfl⟩
    all_goals cases h
  simp only [Grammar.run] at h
  cases hz : g.action z with
  | nothing => rw [hz] at h; exact ⟨_, h⟩
  | apply f =>
    rw [hz] at h
    cases a with
    | false => exact ⟨_, h⟩
    | true => exact happ _ _ _ _ h
  | fresh enter leave f =>
    rw [hz] at h
    simp only [Action.wrap] at h
    cases a with
    | false =>
      simp only [Bool.false_eq_true, if_false] at h
      rcases hr : g.run n false (g.rules z) inp (enter st) with ⟨_ | r, s1⟩ | e | _ | e | _ <;> simp only [hr] at h
      · cases h
      · cases h
        exact ⟨s1, hr⟩
      all_goals cases h
    | true =>
      simp only [if_true] at h
      rcases hr : applied f (g.run n true (g.rules z)) inp (enter st) with ⟨_ | r, s1⟩ | e | _ | e | _ <;>
        simp only [hr] at h
      · cases h
      · cases h
        exact happ _ _ _ _ hr
      all_goals cases h

theorem nt_calls {z : N} : g.calls (n + 1) a (.nt z) inp st =
    1 + g.calls n a (g.rules z) inp ((g.action z).enter st) := rfl

/-- `star` of one character. -/
theorem star_ranges (rs : List (Char × Char)) (p : Char → Bool)
    (hp : p = fun c => rs.any fun r => r.1 ≤ c && c ≤ r.2) : ∀ (n : Nat) (inp : List Char) (st : S),
    (g.run n a (.star (.ranges rs)) inp st = .diverge ∨
      g.run n a (.star (.ranges rs)) inp st = .ok (some (inp.dropWhile p), st)) ∧
    g.calls n a (.star (.ranges rs)) inp st ≤ 2 * (inp.takeWhile p).length + 2
  | 0, inp, st => ⟨.inl rfl, by simp [Grammar.calls]⟩
  | 1, inp, st => ⟨.inl rfl, by simp [Grammar.calls, Grammar.run, after]⟩
  | n + 2, inp, st => by
    cases inp with
    | nil =>
      refine ⟨.inr rfl, ?_⟩
      simp [Grammar.calls, Grammar.run, after, char]
    | cons c cs =>
      have ih := star_ranges rs p hp (n + 1) cs st
      rw [Grammar.run, Grammar.calls]
      have hr : g.run (n + 1) a (.ranges rs) (c :: cs) st = .ok (if p c then some cs else none, st) := by
        rw [hp]
        rfl
      simp only [starR, hr, Outcome.bind_ok, show g.calls (n + 1) a (.ranges rs) (c :: cs) st = 1 from rfl, after]
      cases hc : p c with
      | false =>
        simp only [Bool.false_eq_true, if_false, List.dropWhile_cons, List.takeWhile_cons, hc]
        exact ⟨.inr rfl, by simp⟩
      | true =>
        simp only [if_true, List.dropWhile_cons, List.takeWhile_cons, hc, List.length_cons]
        exact ⟨ih.1, by omega⟩

end

/-- A digit, as the rule `digit` has it. -/
def isD (c : Char) : Bool := [('0', '9')].any fun r => r.1 ≤ c && c ≤ r.2

/-- The number of digits in front. -/
def digits (inp : List Char) : Nat := (inp.takeWhile isD).length

theorem digits_drop (inp : List Char) : (inp.dropWhile isD).length + digits inp = inp.length := by
  have h := congrArg List.length (List.takeWhile_append_dropWhile (p := isD) (l := inp))
  rw [List.length_append] at h
  simp only [digits]
  omega

theorem digits_le (inp : List Char) : digits inp ≤ inp.length := by
  have := digits_drop inp
  omega

variable {K : Type} [Field K] [LinearOrder K] [Arith K] [Strtod K] {nd : Bool}

theorem dec_run (n : Nat) (a : Bool) (inp : List Char) (st : PState K) :
    ((grammar nd).run n a (.nt .decimal_seq) inp st = .diverge ∨
      (grammar nd).run n a (.nt .decimal_seq) inp st =
        .ok (if digits inp = 0 then none else some (inp.dropWhile isD), st)) ∧
    (grammar nd).calls n a (.nt .decimal_seq) inp st ≤ 2 * digits inp + 3 := by
  match n with
  | 0 => exact ⟨.inl rfl, by simp [Grammar.calls]⟩
  | 1 => exact ⟨.inl rfl, by simp [Grammar.calls]⟩
  | 2 => exact ⟨.inl rfl, by simp [Grammar.calls, grammar, rules, after, Grammar.run]⟩
  | n + 3 =>
    have hs := star_ranges (g := grammar (K := K) nd) (a := a) [('0', '9')] isD rfl
    have hr : ∀ inp st, (grammar (K := K) nd).run (n + 3) a (.nt .decimal_seq) inp st =
        thenR (char isD) ((grammar nd).run (n + 1) a (.star (.ranges [('0', '9')]))) inp st := fun _ _ => rfl
    have hc : ∀ inp st, (grammar (K := K) nd).calls (n + 3) a (.nt .decimal_seq) inp st =
        1 + (1 + 1 + after (char isD inp st)
          ((grammar nd).calls (n + 1) a (.star (.ranges [('0', '9')]))) fun _ => 0) := fun _ _ => rfl
    rw [hr, hc]
    cases inp with
    | nil => exact ⟨.inr rfl, by simp [char, after, digits]⟩
    | cons c cs =>
      have := hs (n + 1) cs st
      simp only [thenR, char, Outcome.bind_ok, after, digits]
      cases hc : isD c with
      | false => simp [hc]
      | true =>
        simp only [if_true, List.takeWhile_cons, List.dropWhile_cons, hc, List.length_cons,
          Nat.succ_ne_zero, if_false]
        exact ⟨this.1, by omega⟩

/-- The costs of the lexical rules, for a budget of `A`. -/
def lexCost (A : Int) : Nt → Option Val
  | .LineComment => some ⟨6 - A, .const 4, 4, none⟩
  | .Sep => some ⟨10 - A, .const 8, 8, none⟩
  | .Skip => some ⟨11, .never, 11, none⟩
  | .EndOfWord => some ⟨15, .const 4, 15, none⟩
  | .pegIdentifier => some ⟨5 - A, .const 3, 3, none⟩
  | .decimal_seq => some ⟨5 - A, .const 3, 4, none⟩
  | .exponent => some ⟨11 - 2 * A, .const 3, 9, none⟩
  | .IntegerLiteral => some ⟨18 - A, .const 5, 6, none⟩
  | _ => none

/-- The costs in a table are consistent with the rules, apart from those of `known`. -/
def consistent (A : Int) (tbl : Nt → Option Val) (known : Nt → Bool) : Bool :=
  Nt.all.all fun x => match tbl x with
    | none => true
    | some v => decide (0 ≤ v.t) && decide (v.s ≤ v.t) && (known x || match infer A tbl (rules x) with
      | none => false
      | some w => w.bump.le v)

theorem mem_all (x : Nt) : x ∈ Nt.all := by
  cases x <;> decide

theorem consistent_sound {A : Int} (hA : 0 ≤ A) {tbl : Nt → Option Val} {known : Nt → Bool}
    (h : consistent A tbl known = true)
    (hk : ∀ x, known x = true → ∀ v, tbl x = some v → ∀ n a,
      Meets A v ((grammar (K := K) nd).run n a (.nt x)) ((grammar nd).calls n a (.nt x))) :
    ∀ n a e v, infer A tbl e = some v → Meets A v ((grammar (K := K) nd).run n a e) ((grammar nd).calls n a e) := by
  have h' : ∀ x v, tbl x = some v → (0 ≤ v.t ∧ v.s ≤ v.t) ∧ (known x = true ∨
      ∃ w, infer A tbl (rules x) = some w ∧ w.bump.le v = true) := by
    intro x v hv
    have := List.all_eq_true.mp h x (mem_all x)
    simp only [hv, Bool.and_eq_true, decide_eq_true_eq, Bool.or_eq_true] at this
    refine ⟨this.1, this.2.imp_right fun h => ?_⟩
    split at h
    · cases h
    · rename_i w hw
      exact ⟨w, hw, h⟩
  refine sound (grammar (K := K) nd) hA (fun x v hv => (h' x v hv).1) fun x v hv => ?_
  exact (h' x v hv).2.imp_left fun hk' => hk x hk' v hv

theorem lex190 (n : Nat) (a : Bool) (e : Exp Nt) (v : Val) (h : infer 190 (lexCost 190) e = some v) :
    Meets 190 v ((grammar (K := K) nd).run n a e) ((grammar nd).calls n a e) :=
  consistent_sound (known := fun _ => false) (by decide) (by decide) (by simp) n a e v h

theorem lex200 (n : Nat) (a : Bool) (e : Exp Nt) (v : Val) (h : infer 200 (lexCost 200) e = some v) :
    Meets 200 v ((grammar (K := K) nd).run n a e) ((grammar nd).calls n a e) :=
  consistent_sound (known := fun _ => false) (by decide) (by decide) (by simp) n a e v h

/-! ## Numerals -/

/-- `12.5e3`. -/
def alt1 : Exp Nt := .seq (.nt .decimal_seq) <| .seq (.one ['.']) <| .seq (.nt .decimal_seq) <| .opt (.nt .exponent)

/-- `12e3`. -/
def alt2 : Exp Nt := .seq (.nt .decimal_seq) <| .seq (.opt (.one ['.'])) <| .nt .exponent

theorem dec_none {n : Nat} {a : Bool} {inp : List Char} {st st' : PState K}
    (h : (grammar nd).run n a (.nt .decimal_seq) inp st = .ok (none, st')) : digits inp = 0 := by
  rcases (dec_run (nd := nd) n a inp st).1 with h' | h' <;> rw [h'] at h
  · cases h
  · split at h
    · assumption
    · cases h

theorem dec_some {n : Nat} {a : Bool} {inp rest : List Char} {st st' : PState K}
    (h : (grammar nd).run n a (.nt .decimal_seq) inp st = .ok (some rest, st')) :
    digits inp ≠ 0 ∧ rest.length + digits inp = inp.length := by
  rcases (dec_run (nd := nd) n a inp st).1 with h' | h' <;> rw [h'] at h
  · cases h
  · split at h
    · cases h
    · cases h
      exact ⟨by assumption, digits_drop inp⟩

theorem meets_some {A : Int} {v : Val} {r : Run (PState K)} {c : List Char → PState K → Nat} (h : Meets A v r c)
    {inp rest : List Char} {st st' : PState K} (hr : r inp st = .ok (some rest, st')) :
    rest.length ≤ inp.length ∧ (c inp st : Int) + A * rest.length ≤ A * inp.length + v.s := by
  have := h inp st
  rw [hr] at this
  exact ⟨this.1, this.2.2⟩

theorem meets_none {A : Int} {v : Val} {r : Run (PState K)} {c : List Char → PState K → Nat} (h : Meets A v r c)
    {inp : List Char} {st st' : PState K} {b : Int} (hf : v.f = .const b) (hr : r inp st = .ok (none, st')) :
    (c inp st : Int) ≤ b := by
  have := h inp st
  rw [hr] at this
  simp only [hf] at this
  exact this

theorem meets_never {A : Int} {v : Val} {r : Run (PState K)} {c : List Char → PState K → Nat} (h : Meets A v r c)
    {inp : List Char} {st st' : PState K} (hf : v.f = .never) (hr : r inp st = .ok (none, st')) : False := by
  have := h inp st
  rw [hr] at this
  simp only [hf] at this

theorem alt1_none {n : Nat} {a : Bool} {inp : List Char} {st st' : PState K}
    (h : (grammar nd).run n a alt1 inp st = .ok (none, st')) :
    (grammar nd).calls n a alt1 inp st ≤ 2 * digits inp + 10 := by
  match n with
  | 0 => cases h
  | n + 1 =>
    have hd := (dec_run (nd := nd) n a inp st).2
    rcases seq_none h with ⟨s1, -, hc⟩ | ⟨r, s1, -, h, hc⟩
    · rw [alt1, hc]
      omega
    · have h2 : (grammar (K := K) nd).calls n a
          (.seq (.one ['.']) <| .seq (.nt .decimal_seq) <| .opt (.nt .exponent)) r s1 ≤ 6 := by
        match n with
        | 0 => cases h
        | n + 1 =>
          have h1 : ∀ l st, (grammar (K := K) nd).calls n a (.one ['.']) l st ≤ 1 := by
            intro l st
            cases n <;> simp [Grammar.calls]
          have hp := h1 r s1
          rcases seq_none h with ⟨s2, -, hc⟩ | ⟨r2, s2, -, h, hc⟩
          · rw [hc]
            omega
          · match n with
            | 0 => cases h
            | n + 1 =>
              have hd := (dec_run (nd := nd) n a r2 s2).2
              rcases seq_none h with ⟨s3, hz, hc'⟩ | ⟨r3, s3, -, h, hc'⟩
              · rw [hc, hc']
                have := dec_none hz
                omega
              · exact (meets_never (lex200 n a (.opt (.nt .exponent)) _ rfl) rfl h).elim
      rw [alt1, hc]
      omega

theorem alt2_none {n : Nat} {a : Bool} {inp : List Char} {st st' : PState K}
    (h : (grammar nd).run n a alt2 inp st = .ok (none, st')) :
    (grammar nd).calls n a alt2 inp st ≤ 2 * digits inp + 10 := by
  match n with
  | 0 => cases h
  | n + 1 =>
    have hd := (dec_run (nd := nd) n a inp st).2
    rcases seq_none h with ⟨s1, -, hc⟩ | ⟨r, s1, -, h, hc⟩
    · rw [alt2, hc]
      omega
    · have h2 : (grammar (K := K) nd).calls n a (.seq (.opt (.one ['.'])) <| .nt .exponent) r s1 ≤ 6 := by
        match n with
        | 0 => cases h
        | n + 1 =>
          have h1 : ∀ l st, (grammar (K := K) nd).calls n a (.opt (.one ['.'])) l st ≤ 2 := by
            intro l st
            match n with
            | 0 => simp [Grammar.calls]
            | 1 => simp [Grammar.calls]
            | n + 2 => simp [Grammar.calls]
          have hp := h1 r s1
          rcases seq_none h with ⟨s2, hz, -⟩ | ⟨r2, s2, -, h, hc⟩
          · exact (meets_never (lex200 n a (.opt (.one ['.'])) _ rfl) rfl hz).elim
          · have := meets_none (lex200 n a (.nt .exponent) _ rfl) rfl h
            rw [hc]
            omega
      rw [alt2, hc]
      omega

theorem alt2_some {n : Nat} {a : Bool} {inp rest : List Char} {st st' : PState K}
    (h : (grammar nd).run n a alt2 inp st = .ok (some rest, st')) : rest.length + digits inp ≤ inp.length := by
  match n with
  | 0 => cases h
  | n + 1 =>
    obtain ⟨r, s1, h1, h2⟩ := seq_some h
    have := (dec_some h1).2
    have := (meets_some (lex200 n a (.seq (.opt (.one ['.'])) <| .nt .exponent) _ rfl) h2).1
    omega

/-- The two forms of a floating-point number. -/
theorem alts_meets (n : Nat) (a : Bool) : Meets 200 ⟨20 - 200, .any, 40, none⟩
    ((grammar (K := K) nd).run n a (.sor alt1 alt2)) ((grammar nd).calls n a (.sor alt1 alt2)) := by
  intro inp st
  match n with
  | 0 =>
    simp only [Grammar.run, Grammar.calls]
    push_cast
    omega
  | n + 1 =>
    have h1 := lex190 (K := K) (nd := nd) n a alt1 _ rfl inp st
    have hd := digits_le inp
    simp only [Grammar.run, Grammar.calls, elseR]
    rcases hr : (grammar nd).run n a alt1 inp st with ⟨_ | rest, s1⟩ | e | _ | e | _
    · have hc := alt1_none hr
      simp only [Outcome.bind_ok, after]
      have h2 := lex190 (K := K) (nd := nd) n a alt2 _ rfl inp s1
      rcases hr' : (grammar nd).run n a alt2 inp s1 with ⟨_ | rest, s2⟩ | e | _ | e | _
      · have hc' := alt2_none hr'
        simp only
        push_cast
        omega
      · have hc' := alt2_some hr'
        rw [hr'] at h2
        simp only [Val.mk'] at h2 ⊢
        refine ⟨h2.1, by simp, ?_⟩
        push_cast
        omega
      all_goals
        rw [hr'] at h2
        simp only [Val.mk'] at h2 ⊢
        push_cast
        omega
    · rw [hr] at h1
      simp only [Val.mk', Outcome.bind_ok, Outcome.pure_eq_ok, after] at h1 ⊢
      refine ⟨h1.1, by simp, ?_⟩
      push_cast
      omega
    all_goals
      rw [hr] at h1
      simp only [Val.mk', after] at h1 ⊢
      show ((_ : Nat) : Int) ≤ _
      push_cast
      omega

theorem double_meets (n : Nat) (a : Bool) : Meets 200 ⟨33 - 200, .any, 42, none⟩
    ((grammar (K := K) nd).run n a (.nt .DoubleLiteral)) ((grammar nd).calls n a (.nt .DoubleLiteral)) := by
  match n with
  | 0 =>
    intro inp st
    simp only [Grammar.run, Grammar.calls]
    push_cast
    omega
  | 1 =>
    intro inp st
    simp only [Grammar.run, Grammar.calls, grammar, actions, Action.wrap]
    cases a <;> (show ((_ : Nat) : Int) ≤ _; push_cast; omega)
  | n + 2 =>
    have h := (alts_meets (K := K) (nd := nd) n a).seq (by decide) (lex200 (nd := nd) n a (.nt .Skip) _ rfl)
      (u := ⟨32 - 200, .any, 41, none⟩) (by decide) (by decide) (by decide) (by simp) (by simp) (by simp)
    exact ((h.wrap (by decide) (by decide) (actions nd .DoubleLiteral) a).bump).mono (by decide) (by decide)

theorem double_none {n : Nat} {a : Bool} {inp : List Char} {st st' : PState K}
    (h : (grammar nd).run n a (.nt .DoubleLiteral) inp st = .ok (none, st')) :
    (grammar nd).calls n a (.nt .DoubleLiteral) inp st ≤ 4 * digits inp + 24 := by
  match n with
  | 0 => cases h
  | 1 =>
    obtain ⟨s1, h⟩ := nt_none h
    cases h
  | 2 =>
    obtain ⟨s1, h⟩ := nt_none h
    cases h
  | n + 3 =>
    obtain ⟨s1, h⟩ := nt_none h
    rw [nt_calls]
    rcases seq_none h with ⟨s2, h, hc⟩ | ⟨r, s2, -, h, -⟩
    · obtain ⟨s3, ha, hb, hc'⟩ := sor_none h
      have h1 := alt1_none ha
      have h2 := alt2_none hb
      have hc1 : (grammar (K := K) nd).calls (n + 2) a ((grammar (K := K) nd).rules .DoubleLiteral) inp
        (((grammar (K := K) nd).action .DoubleLiteral).enter st) = _ := hc
      rw [hc1]
      have hc2 : (grammar (K := K) nd).calls (n + 1) a (.sor alt1 alt2) inp
        (((grammar (K := K) nd).action .DoubleLiteral).enter st) = _ := hc'
      have hc3 := hc2.le
      simp only [alt1, alt2] at h1 h2 hc3
      omega
    · exact (meets_never (lex200 (n + 1) a (.nt .Skip) _ rfl) rfl h).elim

theorem integer_some {n : Nat} {a : Bool} {inp rest : List Char} {st st' : PState K}
    (h : (grammar nd).run n a (.nt .IntegerLiteral) inp st = .ok (some rest, st')) :
    digits inp ≠ 0 ∧ rest.length + digits inp ≤ inp.length := by
  match n with
  | 0 => cases h
  | 1 =>
    obtain ⟨s1, h⟩ := nt_some h
    cases h
  | n + 2 =>
    obtain ⟨s1, h⟩ := nt_some h
    obtain ⟨r, s2, h1, h2⟩ := seq_some h
    have := dec_some h1
    have := (meets_some (lex200 n a (.nt .Skip) _ rfl) h2).1
    omega

theorem integer_none {n : Nat} {a : Bool} {inp : List Char} {st st' : PState K}
    (h : (grammar nd).run n a (.nt .IntegerLiteral) inp st = .ok (none, st')) : digits inp = 0 := by
  match n with
  | 0 => cases h
  | 1 =>
    obtain ⟨s1, h⟩ := nt_none h
    cases h
  | n + 2 =>
    obtain ⟨s1, h⟩ := nt_none h
    rcases seq_none h with ⟨s2, h, -⟩ | ⟨r, s2, -, h, -⟩
    · exact dec_none h
    · exact (meets_never (lex200 n a (.nt .Skip) _ rfl) rfl h).elim

/-- The cost of `Numeral`. -/
def numeralCost : Val := ⟨48 - 200, .const 31, 48, none⟩

theorem numeral_meets (n : Nat) (a : Bool) : Meets 200 numeralCost
    ((grammar (K := K) nd).run n a (.nt .Numeral)) ((grammar nd).calls n a (.nt .Numeral)) := by
  match n with
  | 0 =>
    intro inp st
    simp only [Grammar.run, Grammar.calls, numeralCost]
    push_cast
    omega
  | 1 =>
    intro inp st
    show ((_ : Nat) : Int) ≤ _
    simp only [Grammar.calls, numeralCost]
    push_cast
    omega
  | n + 2 =>
    intro inp st
    have h1 := double_meets (K := K) (nd := nd) n a inp st
    have hd := digits_le inp
    rw [show (grammar (K := K) nd).run (n + 2) a (.nt .Numeral) inp st =
      elseR ((grammar nd).run n a (.nt .DoubleLiteral)) ((grammar nd).run n a (.nt .IntegerLiteral)) inp st from rfl,
      show (grammar (K := K) nd).calls (n + 2) a (.nt .Numeral) inp st =
        1 + (1 + (grammar nd).calls n a (.nt .DoubleLiteral) inp st +
          after ((grammar nd).run n a (.nt .DoubleLiteral) inp st) (fun _ _ => 0)
            ((grammar nd).calls n a (.nt .IntegerLiteral) inp)) from rfl]
    simp only [elseR, numeralCost]
    rcases hr : (grammar nd).run n a (.nt .DoubleLiteral) inp st with ⟨_ | rest, s1⟩ | e | _ | e | _
    · have hc := double_none hr
      simp only [Outcome.bind_ok, after]
      have h2 := lex190 (K := K) (nd := nd) n a (.nt .IntegerLiteral) _ rfl inp s1
      rcases hr' : (grammar nd).run n a (.nt .IntegerLiteral) inp s1 with ⟨_ | rest, s2⟩ | e | _ | e | _
      · have hc' := integer_none hr'
        rw [hr'] at h2
        simp only at h2 ⊢
        push_cast
        omega
      · have hc' := integer_some hr'
        rw [hr'] at h2
        simp only at h2 ⊢
        refine ⟨h2.1, by simp, ?_⟩
        push_cast
        omega
      all_goals
        rw [hr'] at h2
        simp only at h2 ⊢
        push_cast
        omega
    · rw [hr] at h1
      simp only [Outcome.bind_ok, Outcome.pure_eq_ok, after] at h1 ⊢
      refine ⟨h1.1, by simp, ?_⟩
      push_cast
      omega
    all_goals
      rw [hr] at h1
      simp only [after] at h1 ⊢
      show ((_ : Nat) : Int) ≤ _
      push_cast
      omega

theorem double_some {n : Nat} {a : Bool} {inp rest : List Char} {st st' : PState K}
    (h : (grammar nd).run n a (.nt .DoubleLiteral) inp st = .ok (some rest, st')) : digits inp ≠ 0 := by
  match n with
  | 0 => cases h
  | 1 =>
    obtain ⟨s1, h⟩ := nt_some h
    cases h
  | 2 =>
    obtain ⟨s1, h⟩ := nt_some h
    cases h
  | 3 =>
    obtain ⟨s1, h⟩ := nt_some h
    cases h
  | n + 4 =>
    obtain ⟨s1, h⟩ := nt_some h
    obtain ⟨r, s2, h1, -⟩ := seq_some h
    rw [Grammar.run] at h1
    simp only [elseR] at h1
    rcases hr : (grammar nd).run (n + 1) a alt1 inp
        (((grammar nd).action .DoubleLiteral).enter st) with ⟨_ | r1, s3⟩ | e | _ | e | _
    · rw [alt1] at hr
      rw [hr] at h1
      simp only [Outcome.bind_ok] at h1
      obtain ⟨r, s2, h2, -⟩ := seq_some h1
      exact (dec_some h2).1
    · obtain ⟨r, s2, h2, -⟩ := seq_some hr
      exact (dec_some h2).1
    all_goals
      rw [alt1] at hr
      rw [hr] at h1
      cases h1

theorem numeral_some {n : Nat} {a : Bool} {inp rest : List Char} {st st' : PState K}
    (h : (grammar nd).run n a (.nt .Numeral) inp st = .ok (some rest, st')) : digits inp ≠ 0 := by
  match n with
  | 0 => cases h
  | 1 =>
    obtain ⟨s1, h⟩ := nt_some h
    cases h
  | n + 2 =>
    obtain ⟨s1, h⟩ := nt_some h
    rw [show (grammar (K := K) nd).rules .Numeral = .sor (.nt .DoubleLiteral) (.nt .IntegerLiteral) from rfl,
      Grammar.run] at h
    simp only [elseR] at h
    rcases hr : (grammar nd).run n a (.nt .DoubleLiteral) inp
        (((grammar nd).action .Numeral).enter st) with ⟨_ | r1, s3⟩ | e | _ | e | _ <;> rw [hr] at h
    · exact (integer_some h).1
    · exact double_some hr
    all_goals cases h

/-! ## Names -/

/-- A character of a name, as the rule `identifierOther` has it. -/
def isO (c : Char) : Bool := [('a', 'z'), ('A', 'Z'), ('0', '9'), ('_', '_')].any fun r => r.1 ≤ c && c ≤ r.2

/-- The first character of a name. -/
def isF (c : Char) : Bool := [('a', 'z'), ('A', 'Z'), ('_', '_')].any fun r => r.1 ≤ c && c ≤ r.2

theorem isD_of_isF {c : Char} (h : isF c = true) : isD c = false := by
  simp only [isF, isD, List.any_cons, List.any_nil, Bool.or_false, Bool.or_eq_true, Bool.and_eq_true,
    decide_eq_true_eq, Bool.and_eq_false_iff, decide_eq_false_iff_not, Char.le_def, UInt32.le_iff_toNat_le] at h ⊢
  have h0 : 'a'.val.toNat = 97 := rfl
  have h1 : 'A'.val.toNat = 65 := rfl
  have h2 : '_'.val.toNat = 95 := rfl
  have h3 : '9'.val.toNat = 57 := rfl
  omega

theorem peg_some {n : Nat} {a : Bool} {inp rest : List Char} {st st' : PState K}
    (h : (grammar nd).run n a (.nt .pegIdentifier) inp st = .ok (some rest, st')) :
    (∃ c cs, inp = c :: cs ∧ isF c = true) ∧ ∀ c cs, rest = c :: cs → isO c = false := by
  match n with
  | 0 => cases h
  | 1 =>
    obtain ⟨s1, h⟩ := nt_some h
    cases h
  | 2 =>
    obtain ⟨s1, h⟩ := nt_some h
    cases h
  | n + 3 =>
    obtain ⟨s1, h⟩ := nt_some h
    obtain ⟨r, s2, h1, h2⟩ := seq_some h
    constructor
    · cases inp with
      | nil => cases h1
      | cons c cs =>
        refine ⟨c, cs, rfl, ?_⟩
        have h1' : (Outcome.ok (if isF c = true then some cs else none, ((grammar nd).action .pegIdentifier).enter st) :
          Outcome (Option (List Char) × PState K)) = .ok (some r, s2) := h1
        by_contra hc
        rw [if_neg hc] at h1'
        cases h1'
    · rcases (star_ranges (g := grammar (K := K) nd) (a := a) _ isO rfl (n + 1) r s2).1 with h3 | h3
      · have h2' := h2.symm.trans h3
        cases h2'
      · have h2' := h2.symm.trans h3
        simp only [Outcome.ok.injEq, Prod.mk.injEq, Option.some.injEq] at h2'
        intro c cs hr
        rw [h2'.1] at hr
        have := List.head?_dropWhile_not isO r
        rw [hr] at this
        simpa using this

theorem endOfWord_none {n : Nat} {a : Bool} {inp : List Char} {st st' : PState K}
    (hi : ∀ c cs, inp = c :: cs → isO c = false)
    (h : (grammar nd).run n a (.nt .EndOfWord) inp st = .ok (none, st')) : False := by
  match n with
  | 0 => cases h
  | 1 =>
    obtain ⟨s1, h⟩ := nt_none h
    cases h
  | 2 =>
    obtain ⟨s1, h⟩ := nt_none h
    cases h
  | 3 =>
    obtain ⟨s1, h⟩ := nt_none h
    cases h
  | n + 4 =>
    obtain ⟨s1, h⟩ := nt_none h
    rcases seq_none h with ⟨s2, h, -⟩ | ⟨r, s2, -, h, -⟩
    · have h' : notAtR (char isO) inp _ = Outcome.ok (none, s2) := h
      cases inp with
      | nil => cases h'
      | cons c cs =>
        simp only [notAtR, char, hi c cs rfl, Bool.false_eq_true, if_false, Outcome.bind_ok] at h'
        cases h'
    · exact meets_never (lex200 (n + 2) a (.nt .Skip) _ rfl) rfl h

/-- The cost of `Identifier`. -/
def identifierCost : Val := ⟨22 - 200, .const 5, 22, none⟩

theorem identifier_meets (n : Nat) (a : Bool) : Meets 200 identifierCost
    ((grammar (K := K) nd).run n a (.nt .Identifier)) ((grammar nd).calls n a (.nt .Identifier)) := by
  match n with
  | 0 =>
    intro inp st
    simp only [Grammar.run, Grammar.calls, identifierCost]
    push_cast
    omega
  | 1 =>
    intro inp st
    show ((_ : Nat) : Int) ≤ _
    simp only [Grammar.calls, identifierCost]
    push_cast
    omega
  | n + 2 =>
    intro inp st
    have h := (lex200 (K := K) (nd := nd) (n + 1) a (rules .Identifier) _ rfl).bump inp st
    have hr : (grammar (K := K) nd).run (n + 2) a (.nt .Identifier) inp st =
      (grammar nd).run (n + 1) a (rules .Identifier) inp st := rfl
    have hc : (grammar (K := K) nd).calls (n + 2) a (.nt .Identifier) inp st =
      1 + (grammar nd).calls (n + 1) a (rules .Identifier) inp st := rfl
    rw [hr, hc]
    rcases hr' : (grammar (K := K) nd).run (n + 1) a (rules .Identifier) inp st with ⟨_ | rest, s1⟩ | e | _ | e | _ <;>
      rw [hr'] at h
    · simp only [identifierCost]
      rcases seq_none hr' with ⟨s2, h1, hc'⟩ | ⟨r, s2, h1, h2, -⟩
      · have := meets_none (lex200 n a (.nt .pegIdentifier) _ rfl) rfl h1
        have hc2 := hc'.le
        simp only [rules] at hc2 ⊢
        push_cast
        omega
      · exact (endOfWord_none (peg_some h1).2 h2).elim
    · simp only [Val.mk', Val.bump] at h
      simp only [identifierCost]
      exact ⟨h.1, by simp, by omega⟩
    all_goals
      simp only [Val.mk', Val.bump] at h
      simp only [identifierCost]
      omega

theorem identifier_some {n : Nat} {a : Bool} {inp rest : List Char} {st st' : PState K}
    (h : (grammar nd).run n a (.nt .Identifier) inp st = .ok (some rest, st')) : digits inp = 0 := by
  match n with
  | 0 => cases h
  | 1 =>
    obtain ⟨s1, h⟩ := nt_some h
    cases h
  | n + 2 =>
    obtain ⟨s1, h⟩ := nt_some h
    obtain ⟨r, s2, h1, -⟩ := seq_some h
    obtain ⟨⟨c, cs, rfl, hc⟩, -⟩ := peg_some h1
    simp [digits, isD_of_isF hc]

/-- The rule does not match here, and costs no more than `b`. -/
def Small (g : Grammar Nt (PState K)) (inp : List Char) (e : Exp Nt) (b : Nat) : Prop :=
  ∀ n a st, g.calls n a e inp st ≤ b ∧ ∀ rest st', g.run n a e inp st ≠ .ok (some rest, st')

theorem Small.seq {g : Grammar Nt (PState K)} {inp : List Char} {x y : Exp Nt} {b : Nat} (h : Small g inp x b) :
    Small g inp (.seq x y) (1 + b)
  | 0, _, _ => ⟨by simp [Grammar.calls], by simp [Grammar.run]⟩
  | n + 1, a, st => by
    have h1 := h n a st
    constructor
    · simp only [Grammar.calls]
      rcases hr : g.run n a x inp st with ⟨_ | r, s1⟩ | e | _ | e | _
      · simp only [after]
        omega
      · exact (h1.2 _ _ hr).elim
      all_goals
        simp only [after]
        omega
    · intro rest st' hr
      obtain ⟨r, s1, h2, -⟩ := seq_some hr
      exact h1.2 _ _ h2

theorem Small.sor {g : Grammar Nt (PState K)} {inp : List Char} {x y : Exp Nt} {b c : Nat} (h : Small g inp x b)
    (h' : Small g inp y c) : Small g inp (.sor x y) (1 + b + c)
  | 0, _, _ => ⟨by simp [Grammar.calls], by simp [Grammar.run]⟩
  | n + 1, a, st => by
    have h1 := h n a st
    simp only [Grammar.calls, Grammar.run, elseR]
    rcases hr : g.run n a x inp st with ⟨_ | r, s1⟩ | e | _ | e | _
    · have h2 := h' n a s1
      simp only [after, Outcome.bind_ok]
      exact ⟨by omega, h2.2⟩
    · exact (h1.2 _ _ hr).elim
    all_goals
      simp only [after]
      refine ⟨by omega, fun _ _ => ?_⟩
      intro h
      cases h

theorem Small.nt {g : Grammar Nt (PState K)} {inp : List Char} {x : Nt} {b : Nat} (h : Small g inp (g.rules x) b) :
    Small g inp (.nt x) (1 + b)
  | 0, _, _ => ⟨by simp [Grammar.calls], by simp [Grammar.run]⟩
  | n + 1, a, st => by
    refine ⟨by rw [nt_calls]; have := (h n a ((g.action x).enter st)).1; omega, fun rest st' hr => ?_⟩
    obtain ⟨s1, h2⟩ := nt_some hr
    exact (h n a _).2 _ _ h2

theorem dec_small {inp : List Char} (h : digits inp = 0) : Small (grammar (K := K) nd) inp (.nt .decimal_seq) 3 :=
  fun n a st => ⟨by have := (dec_run (nd := nd) n a inp st).2; omega, fun _ _ hr => (dec_some hr).1 h⟩

theorem form2_small {inp : List Char} (h : digits inp = 0) :
    Small (grammar (K := K) nd) inp (.nt .PredicateForm2) 20 := by
  have hd : Small (grammar (K := K) nd) inp (.nt .DoubleLiteral) (1 + (1 + (1 + (1 + 3) + (1 + 3)))) :=
    Small.nt (Small.seq (Small.sor (Small.seq (dec_small h)) (Small.seq (dec_small h))))
  have hi : Small (grammar (K := K) nd) inp (.nt .IntegerLiteral) (1 + (1 + 3)) := Small.nt (Small.seq (dec_small h))
  have hn : Small (grammar (K := K) nd) inp (.nt .Numeral) (1 + (1 + (1 + (1 + (1 + (1 + 3) + (1 + 3)))) + (1 + (1 + 3)))) :=
    Small.nt (Small.sor hd hi)
  exact Small.nt (x := .PredicateForm2) (b := 19) (Small.seq hn)

/-! ## Predicates -/

/-- The costs of all but the recursive rules. -/
def wordCost : Nt → Option Val
  | .Identifier => some identifierCost
  | .Numeral => some numeralCost
  | x => lexCost 200 x

theorem word200 (n : Nat) (a : Bool) (e : Exp Nt) (v : Val) (h : infer 200 wordCost e = some v) :
    Meets 200 v ((grammar (K := K) nd).run n a e) ((grammar nd).calls n a e) := by
  refine consistent_sound (known := fun x => x == .Identifier || x == .Numeral) (by decide) (by decide) ?_ n a e v h
  intro x hx v hv
  simp only [Bool.or_eq_true, beq_iff_eq] at hx
  rcases hx with rfl | rfl <;> simp only [wordCost, Option.some.injEq] at hv <;> subst hv
  · exact identifier_meets
  · exact numeral_meets

/-- The cost of `PredicateForm`. -/
def formCost : Val := ⟨0, .any, 200, none⟩

theorem form_meets (n : Nat) (a : Bool) : Meets 200 formCost
    ((grammar (K := K) nd).run n a (.nt .PredicateForm)) ((grammar nd).calls n a (.nt .PredicateForm)) := by
  match n with
  | 0 =>
    intro inp st
    simp only [Grammar.run, Grammar.calls, formCost]
    push_cast
    omega
  | 1 =>
    intro inp st
    show ((_ : Nat) : Int) ≤ _
    simp only [Grammar.calls, formCost]
    push_cast
    omega
  | 2 =>
    intro inp st
    show ((_ : Nat) : Int) ≤ _
    simp only [Grammar.calls, formCost, after, Grammar.run, grammar, rules]
    push_cast
    omega
  | n + 3 =>
    have f1 : ∀ inp st, Meets 200 _ _ _ := fun (_ : List Char) (_ : PState K) =>
      ((word200 (K := K) (nd := nd) n a (rules .PredicateForm1) _ rfl).wrap (by decide) (by decide)
        (actions nd .PredicateForm1) a).bump
    have f2 : ∀ inp st, Meets 200 _ _ _ := fun (_ : List Char) (_ : PState K) =>
      ((word200 (K := K) (nd := nd) n a (rules .PredicateForm2) _ rfl).wrap (by decide) (by decide)
        (actions nd .PredicateForm2) a).bump
    intro inp st
    have h1 := f1 inp st inp st
    rw [show (grammar (K := K) nd).run (n + 3) a (.nt .PredicateForm) inp st =
      elseR ((grammar nd).run (n + 1) a (.nt .PredicateForm1)) ((grammar nd).run (n + 1) a (.nt .PredicateForm2))
        inp st from rfl,
      show (grammar (K := K) nd).calls (n + 3) a (.nt .PredicateForm) inp st =
        1 + (1 + (grammar nd).calls (n + 1) a (.nt .PredicateForm1) inp st +
          after ((grammar nd).run (n + 1) a (.nt .PredicateForm1) inp st) (fun _ _ => 0)
            ((grammar nd).calls (n + 1) a (.nt .PredicateForm2) inp)) from rfl]
    simp only [elseR, formCost]
    have e1 : (grammar (K := K) nd).run (n + 1) a (.nt .PredicateForm1) =
      (actions nd .PredicateForm1).wrap a ((grammar nd).run n a (rules .PredicateForm1)) := rfl
    have e2 : (grammar (K := K) nd).run (n + 1) a (.nt .PredicateForm2) =
      (actions nd .PredicateForm2).wrap a ((grammar nd).run n a (rules .PredicateForm2)) := rfl
    have e3 : ∀ inp st, (grammar (K := K) nd).calls (n + 1) a (.nt .PredicateForm1) inp st =
      1 + (grammar nd).calls n a (rules .PredicateForm1) inp ((actions nd .PredicateForm1).enter st) := fun _ _ => rfl
    have e4 : ∀ inp st, (grammar (K := K) nd).calls (n + 1) a (.nt .PredicateForm2) inp st =
      1 + (grammar nd).calls n a (rules .PredicateForm2) inp ((actions nd .PredicateForm2).enter st) := fun _ _ => rfl
    rcases hr : (grammar nd).run (n + 1) a (.nt .PredicateForm1) inp st with ⟨_ | rest, s1⟩ | e | _ | e | _
    · have h2 := f2 inp s1 inp s1
      rw [← e1, hr] at h1
      simp only [Val.bump, Val.mk', identifierCost, numeralCost] at h1
      rw [← e3] at h1
      simp only [Outcome.bind_ok, after]
      obtain ⟨s2, hr2⟩ := nt_none hr
      match n with
      | 0 => cases hr2
      | n + 1 =>
        rcases seq_none hr2 with ⟨s3, hi, hc⟩ | ⟨r, s3, hi, -, -⟩
        · have hi' := meets_none (identifier_meets n a) rfl hi
          have hc' : (grammar (K := K) nd).calls (n + 1 + 1) a (.nt .PredicateForm1) inp st ≤ 7 := by
            rw [e3]
            have hc2 := hc.le
            change (grammar (K := K) nd).calls (n + 1) a (rules .PredicateForm1) inp
              ((actions nd .PredicateForm1).enter st) ≤ _ at hc2
            omega
          rw [← e2] at h2
          simp only [← e4] at h2
          rcases hr' : (grammar nd).run (n + 2) a (.nt .PredicateForm2) inp s1 with ⟨_ | rest, s4⟩ | e | _ | e | _ <;>
            rw [hr'] at h2 <;> simp only [Val.bump, Val.mk', identifierCost, numeralCost] at h2 ⊢
          · push_cast
            omega
          · refine ⟨h2.1, by simp, ?_⟩
            push_cast
            omega
          all_goals
            push_cast
            omega
        · have hdig := identifier_some hi
          have hz := form2_small (K := K) (nd := nd) hdig (n + 1 + 1) a s1
          rcases hr' : (grammar nd).run (n + 1 + 1) a (.nt .PredicateForm2) inp s1 with ⟨_ | rest, s4⟩ | e | _ | e | _
          · simp only
            push_cast
            omega
          · exact (hz.2 _ _ hr').elim
          all_goals
            simp only
            push_cast
            omega
    · rw [← e1, hr] at h1
      simp only [Val.bump, Val.mk', identifierCost, numeralCost] at h1
      rw [← e3] at h1
      simp only [Outcome.bind_ok, Outcome.pure_eq_ok, after] at h1 ⊢
      refine ⟨h1.1, by simp, ?_⟩
      push_cast
      omega
    all_goals
      rw [← e1, hr] at h1
      simp only [Val.bump, Val.mk', identifierCost, numeralCost] at h1
      rw [← e3] at h1
      simp only [after] at h1 ⊢
      show ((_ : Nat) : Int) ≤ _
      push_cast
      omega

end Peg
end Verif
