import Verif.Proofs.PegTimeLex
import Verif.Proofs.PegHalts

/-!
# The number of rules tried for a specification
-/

set_option linter.unusedSectionVars false

namespace Verif
namespace Peg

/-- The costs of all rules, for a budget of 200 for each character. -/
def fullCost : Nt → Option Val
  | .Identifier => some identifierCost
  | .Numeral => some numeralCost
  | .PredicateForm => some formCost
  | .Term => some ⟨-150, .const 28, 60, none⟩
  | .LParen | .RParen => some ⟨-186, .const 3, 3, none⟩
  | .LtSymbol | .GtSymbol => some ⟨-183, .const 6, 3, none⟩
  | .LeSymbol | .GeSymbol => some ⟨-386, .const 3, 3, none⟩
  | .KwTrue | .KwFalse | .KwNot | .KwAnd | .KwOr | .KwImplies | .KwIff | .KwXor | .KwAlways | .KwEventually
  | .KwUntil | .KwDefineFormula | .KwAssert => some ⟨-382, .const 7, 3, none⟩
  | .BooleanLiteral => some ⟨-370, .const 16, 12, none⟩
  | .PredicateTerm => some ⟨-160, .const 24, 30, none⟩
  | .NotTerm | .AndTerm | .OrTerm | .ImpliesTerm | .IffTerm | .XorTerm | .AlwaysTerm | .EventuallyTerm | .UntilTerm
  | .Assertion | .DefineFormula => some ⟨-480, .const 9, 30, none⟩
  | .NaryTail => some ⟨-110, .const 33, 70, none⟩
  | .BinaryTail => some ⟨-290, .any, 70, none⟩
  | .Command => some ⟨-460, .never, 50, none⟩
  | .AnyCommand => some ⟨-360, .const 6, 30, none⟩
  | .StatementList => some ⟨20, .any, 50, none⟩
  | .SpecificationFile => some ⟨30, .never, 60, none⟩
  | x => lexCost 200 x

variable {K : Type} [Field K] [LinearOrder K] [Arith K] [Strtod K] {nd : Bool}

theorem full200 (n : Nat) (a : Bool) (e : Exp Nt) (v : Val) (h : infer 200 fullCost e = some v) :
    Meets 200 v ((grammar (K := K) nd).run n a e) ((grammar nd).calls n a e) := by
  refine consistent_sound (known := fun x => x == .Identifier || x == .Numeral || x == .PredicateForm)
    (by decide) (by decide +kernel) ?_ n a e v h
  intro x hx v hv
  simp only [Bool.or_eq_true, beq_iff_eq] at hx
  rcases hx with (rfl | rfl) | rfl <;> simp only [fullCost, Option.some.injEq] at hv <;> subst hv
  · exact identifier_meets
  · exact numeral_meets
  · exact form_meets

/-! ## More fuel does not change the number of calls -/

section
variable {N S : Type}

theorem after_congr {o : Outcome (Option (List Char) × S)} {f f' : List Char → S → Nat} {h h' : S → Nat}
    (hf : ∀ rest st, o = .ok (some rest, st) → f' rest st = f rest st)
    (hh : ∀ st, o = .ok (none, st) → h' st = h st) : after o f' h' = after o f h := by
  rcases o with ⟨_ | rest, st⟩ | e | _ | e | _
  · exact hh st rfl
  · exact hf rest st rfl
  all_goals rfl

theorem ok_ne_diverge {α : Type} {o : Outcome α} {a : α} (h : o = .ok a) : o ≠ .diverge := by
  rw [h]
  simp

theorem calls_below (g : Grammar N S) : ∀ n a e inp st, g.run n a e inp st ≠ .diverge →
    g.calls (n + 1) a e inp st = g.calls n a e inp st := by
  intro n
  induction n with
  | zero => exact fun _ _ _ _ h => (h rfl).elim
  | succ n ih =>
    intro a e inp st h
    have hb := run_below g n
    have hx : ∀ {α : Type} {o : Outcome α} {β : Type} {k : α → Outcome β}, (o >>= k) ≠ .diverge → o ≠ .diverge := by
      rintro α o β k h rfl
      exact h rfl
    have seq : ∀ x y, (thenR (g.run n a x) (g.run n a y) inp st ≠ .diverge) →
        1 + g.calls (n + 1) a x inp st + after (g.run (n + 1) a x inp st) (g.calls (n + 1) a y) (fun _ => 0) =
        1 + g.calls n a x inp st + after (g.run n a x inp st) (g.calls n a y) fun _ => 0 := by
      intro x y h
      have h1 := hx h
      rw [ih a x inp st h1, hb a x inp st h1]
      congr 1
      refine after_congr (fun rest st' ho => ih a y rest st' ?_) fun _ _ => rfl
      simp only [thenR, ho, Outcome.bind_ok] at h
      exact h
    cases e with
    | one cs => rfl
    | ranges rs => rfl
    | str s => rfl
    | eof => rfl
    | eolf => rfl
    | seq x y => exact seq x y h
    | sor x y =>
      have h1 := hx h
      change 1 + g.calls (n + 1) a x inp st + after (g.run (n + 1) a x inp st) (fun _ _ => 0) (g.calls (n + 1) a y inp) =
        1 + g.calls n a x inp st + after (g.run n a x inp st) (fun _ _ => 0) (g.calls n a y inp)
      rw [ih a x inp st h1, hb a x inp st h1]
      congr 1
      refine after_congr (fun _ _ _ => rfl) fun st' ho => ih a y inp st' ?_
      simp only [Grammar.run, elseR, ho, Outcome.bind_ok] at h
      exact h
    | star x =>
      have h1 := hx h
      change 1 + g.calls (n + 1) a x inp st + after (g.run (n + 1) a x inp st) (g.calls (n + 1) a (.star x)) (fun _ => 0) =
        1 + g.calls n a x inp st + after (g.run n a x inp st) (g.calls n a (.star x)) fun _ => 0
      rw [ih a x inp st h1, hb a x inp st h1]
      congr 1
      refine after_congr (fun rest st' ho => ih a (.star x) rest st' ?_) fun _ _ => rfl
      simp only [Grammar.run, starR, ho, Outcome.bind_ok] at h
      exact h
    | plus x => exact seq x (.star x) h
    | opt x => exact congrArg (1 + ·) (ih a x inp st (hx h))
    | notAt x => exact congrArg (1 + ·) (ih false x inp st (hx h))
    | untilAny c =>
      have h1 := hx h
      change 1 + g.calls (n + 1) a c inp st + after (g.run (n + 1) a c inp st) (fun _ _ => 0) (fun st' =>
          1 + after (anyR inp st') (g.calls (n + 1) a (.untilAny c)) fun _ => 0) =
        1 + g.calls n a c inp st + after (g.run n a c inp st) (fun _ _ => 0) fun st' =>
          1 + after (anyR inp st') (g.calls n a (.untilAny c)) fun _ => 0
      rw [ih a c inp st h1, hb a c inp st h1]
      congr 1
      refine after_congr (fun _ _ _ => rfl) fun st' ho => ?_
      congr 1
      refine after_congr (fun rest st2 ho' => ih a (.untilAny c) rest st2 ?_) fun _ _ => rfl
      simp only [Grammar.run, elseR, thenR, ho, ho', Outcome.bind_ok] at h
      exact h
    | untl c x =>
      have h1 := hx h
      change 1 + g.calls (n + 1) a c inp st + after (g.run (n + 1) a c inp st) (fun _ _ => 0) (fun st' =>
          g.calls (n + 1) a x inp st' + after (g.run (n + 1) a x inp st') (g.calls (n + 1) a (.untl c x)) fun _ => 0) =
        1 + g.calls n a c inp st + after (g.run n a c inp st) (fun _ _ => 0) fun st' =>
          g.calls n a x inp st' + after (g.run n a x inp st') (g.calls n a (.untl c x)) fun _ => 0
      rw [ih a c inp st h1, hb a c inp st h1]
      congr 1
      refine after_congr (fun _ _ _ => rfl) fun st' ho => ?_
      simp only [Grammar.run, elseR, ho, Outcome.bind_ok] at h
      have h2 := hx h
      rw [ih a x inp st' h2, hb a x inp st' h2]
      congr 1
      refine after_congr (fun rest st2 ho' => ih a (.untl c x) rest st2 ?_) fun _ _ => rfl
      simp only [thenR, ho', Outcome.bind_ok] at h
      exact h
    | must x => exact congrArg (1 + ·) (ih a x inp st (hx h))
    | disable x => exact congrArg (1 + ·) (ih false x inp st h)
    | nt x =>
      refine congrArg (1 + ·) (ih a (g.rules x) inp _ ?_)
      simp only [Grammar.run] at h
      cases hz : g.action x with
      | nothing => rw [hz] at h; exact h
      | apply f =>
        rw [hz] at h
        cases a with
        | false => exact h
        | true => exact hx h
      | fresh enter leave f =>
        rw [hz] at h
        cases a with
        | false => exact hx h
        | true => exact hx (hx h)

theorem calls_mono (g : Grammar N S) {n m : Nat} (hm : n ≤ m) (a : Bool) (e : Exp N) (inp : List Char) (st : S)
    (h : g.run n a e inp st ≠ .diverge) : g.calls m a e inp st = g.calls n a e inp st := by
  induction hm with
  | refl => rfl
  | step hm ih =>
    rw [calls_below, ih]
    rw [run_mono g hm a e inp st h]
    exact h

end

/-! ## What is consumed has to be paid for -/

section
variable {N S : Type}

/-- No keyword is longer than 14 characters. -/
def Exp.short : Exp N → Bool
  | .one _ | .ranges _ | .eof | .eolf | .nt _ => true
  | .str s => s.length ≤ 14
  | .seq x y | .sor x y | .untl x y => x.short && y.short
  | .star x | .plus x | .opt x | .notAt x | .untilAny x | .must x | .disable x => x.short

theorem char_some {p : Char → Bool} {inp rest : List Char} {st st' : S}
    (h : char p inp st = .ok (some rest, st')) : inp.length = rest.length + 1 := by
  cases inp with
  | nil => cases h
  | cons c cs =>
    simp only [char] at h
    split at h <;> cases h
    rfl

theorem pays (g : Grammar N S) (hg : ∀ x, (g.rules x).short = true) : ∀ n a e, e.short = true →
    ∀ inp st rest st', g.run n a e inp st = .ok (some rest, st') →
      inp.length ≤ rest.length + 14 * g.calls n a e inp st := by
  intro n
  induction n with
  | zero => exact fun _ _ _ _ _ _ _ h => by cases h
  | succ n ih =>
    intro a e he inp st rest st' h
    have seq : ∀ x y, x.short = true → y.short = true →
        thenR (g.run n a x) (g.run n a y) inp st = .ok (some rest, st') →
        inp.length ≤ rest.length + 14 * (1 + g.calls n a x inp st +
          after (g.run n a x inp st) (g.calls n a y) fun _ => 0) := by
      intro x y hx hy h
      simp only [thenR] at h
      rcases hr : g.run n a x inp st with ⟨_ | r, s1⟩ | e | _ | e | _ <;> rw [hr] at h
      · cases h
      · have h1 := ih a x hx _ _ _ _ hr
        have h2 := ih a y hy _ _ _ _ h
        simp only [after]
        omega
      all_goals cases h
    cases e with
    | one cs =>
      have := char_some h
      change _ ≤ _ + 14 * 1
      omega
    | ranges rs =>
      have := char_some h
      change _ ≤ _ + 14 * 1
      omega
    | str s =>
      simp only [Exp.short, decide_eq_true_eq] at he
      change (Outcome.ok (if s.isPrefixOf inp then some (inp.drop s.length) else none, st) : Outcome _) = _ at h
      change _ ≤ _ + 14 * 1
      split at h <;> cases h
      rw [List.length_drop]
      omega
    | eof =>
      change (Outcome.ok (if inp.isEmpty then some inp else none, st) : Outcome _) = _ at h
      split at h <;> cases h
      omega
    | eolf =>
      change (Outcome.ok (eolf inp, st) : Outcome _) = _ at h
      change _ ≤ _ + 14 * 1
      simp only [Outcome.ok.injEq, Prod.mk.injEq] at h
      have h := h.1
      unfold Peg.eolf at h
      split at h <;> simp only [Option.some.injEq, reduceCtorEq] at h <;> subst h <;> simp <;> omega
    | seq x y =>
      simp only [Exp.short, Bool.and_eq_true] at he
      exact seq x y he.1 he.2 h
    | plus x => exact seq x (.star x) he he h
    | sor x y =>
      simp only [Exp.short, Bool.and_eq_true] at he
      change inp.length ≤ rest.length + 14 * (1 + g.calls n a x inp st +
        after (g.run n a x inp st) (fun _ _ => 0) (g.calls n a y inp))
      simp only [Grammar.run, elseR] at h
      rcases hr : g.run n a x inp st with ⟨_ | r, s1⟩ | e | _ | e | _ <;> rw [hr] at h
      · have h2 := ih a y he.2 _ _ _ _ h
        simp only [after]
        omega
      · have h1 := ih a x he.1 _ _ _ _ hr
        cases h
        omega
      all_goals cases h
    | star x =>
      change inp.length ≤ rest.length + 14 * (1 + g.calls n a x inp st +
        after (g.run n a x inp st) (g.calls n a (.star x)) fun _ => 0)
      simp only [Grammar.run, starR] at h
      rcases hr : g.run n a x inp st with ⟨_ | r, s1⟩ | e | _ | e | _ <;> rw [hr] at h
      · cases h
        omega
      · have h1 := ih a x he _ _ _ _ hr
        have h2 := ih a (.star x) he _ _ _ _ h
        simp only [after]
        omega
      all_goals cases h
    | opt x =>
      change inp.length ≤ rest.length + 14 * (1 + g.calls n a x inp st)
      simp only [Grammar.run, optR] at h
      rcases hr : g.run n a x inp st with ⟨_ | r, s1⟩ | e | _ | e | _ <;> rw [hr] at h
      · cases h
        omega
      · have h1 := ih a x he _ _ _ _ hr
        cases h
        omega
      all_goals cases h
    | notAt x =>
      simp only [Grammar.run, notAtR] at h
      rcases hr : g.run n false x inp st with ⟨_ | r, s1⟩ | e | _ | e | _ <;> rw [hr] at h <;> cases h
      omega
    | untilAny c =>
      change inp.length ≤ rest.length + 14 * (1 + g.calls n a c inp st + after (g.run n a c inp st) (fun _ _ => 0)
        fun st' => 1 + after (anyR inp st') (g.calls n a (.untilAny c)) fun _ => 0)
      simp only [Grammar.run, elseR] at h
      rcases hr : g.run n a c inp st with ⟨_ | r, s1⟩ | e | _ | e | _ <;> rw [hr] at h
      · simp only [Outcome.bind_ok, thenR] at h
        rcases hr' : anyR inp s1 with ⟨_ | r, s2⟩ | e | _ | e | _ <;> rw [hr'] at h
        · cases h
        · have h1 := char_some hr'
          have h2 := ih a (.untilAny c) he _ _ _ _ h
          simp only [after, hr']
          omega
        all_goals cases h
      · have h1 := ih a c he _ _ _ _ hr
        cases h
        omega
      all_goals cases h
    | untl c x =>
      have he' := he
      simp only [Exp.short, Bool.and_eq_true] at he
      change inp.length ≤ rest.length + 14 * (1 + g.calls n a c inp st + after (g.run n a c inp st) (fun _ _ => 0)
        fun st' => g.calls n a x inp st' + after (g.run n a x inp st') (g.calls n a (.untl c x)) fun _ => 0)
      simp only [Grammar.run, elseR] at h
      rcases hr : g.run n a c inp st with ⟨_ | r, s1⟩ | e | _ | e | _ <;> rw [hr] at h
      · simp only [Outcome.bind_ok, thenR] at h
        rcases hr' : g.run n a x inp s1 with ⟨_ | r, s2⟩ | e | _ | e | _ <;> rw [hr'] at h
        · cases h
        · have h1 := ih a x he.2 _ _ _ _ hr'
          have h2 := ih a (.untl c x) he' _ _ _ _ h
          simp only [after, hr']
          omega
        all_goals cases h
      · have h1 := ih a c he.1 _ _ _ _ hr
        cases h
        omega
      all_goals cases h
    | must x =>
      change inp.length ≤ rest.length + 14 * (1 + g.calls n a x inp st)
      simp only [Grammar.run, mustR] at h
      rcases hr : g.run n a x inp st with ⟨_ | r, s1⟩ | e | _ | e | _ <;> rw [hr] at h
      · cases h
      · have h1 := ih a x he _ _ _ _ hr
        cases h
        omega
      all_goals cases h
    | disable x =>
      have h1 := ih false x he inp st rest st' h
      change inp.length ≤ rest.length + 14 * (1 + g.calls n false x inp st)
      omega
    | nt x =>
      obtain ⟨s1, h1⟩ := nt_some h
      have h2 := ih a (g.rules x) (hg x) _ _ _ _ h1
      rw [nt_calls]
      omega

end

theorem rules_short (x : Nt) : (rules x).short = true := by
  cases x <;> decide

/-! ## A grammar that is slow -/

/-- `struct S : sor<seq<one<'('>, S, one<')'>, one<'!'>>, seq<one<'('>, S, one<')'>>, one<'a'>> {}` -/
def slow : Grammar Unit Unit :=
  ⟨fun _ => .sor (.seq (.one ['(']) (.seq (.nt ()) (.seq (.one [')']) (.one ['!']))))
    (.sor (.seq (.one ['(']) (.seq (.nt ()) (.one [')']))) (.one ['a'])), fun _ => .nothing⟩

/-- `((a))`, with `n` pairs of parentheses, and something behind. -/
def slowText : Nat → List Char → List Char
  | 0, rest => 'a' :: rest
  | n + 1, rest => '(' :: slowText n (')' :: rest)

theorem slowText_length : ∀ (n : Nat) (rest : List Char), (slowText n rest).length = 2 * n + 1 + rest.length
  | 0, rest => by simp [slowText]; omega
  | n + 1, rest => by simp [slowText, slowText_length n]; omega

theorem slow_run : ∀ (n k : Nat) (a : Bool) (rest : List Char), rest.head? ≠ some '!' →
    slow.run (5 * n + 5 + k) a (.nt ()) (slowText n rest) () = .ok (some rest, ()) ∧
    2 ^ n ≤ slow.calls (5 * n + 5 + k) a (.nt ()) (slowText n rest) ()
  | 0, k, a, rest, _ => by
    rw [show 5 * 0 + 5 + k = k + 5 by omega]
    refine ⟨rfl, ?_⟩
    change 2 ^ 0 ≤ 1 + _
    omega
  | n + 1, k, a, rest, hr => by
    have h1 := slow_run n k a (')' :: rest) (by simp)
    have h2 := slow_run n (k + 1) a (')' :: rest) (by simp)
    rw [← Nat.add_assoc] at h2
    rw [show 5 * (n + 1) + 5 + k = 5 * n + 5 + k + 5 by omega]
    generalize 5 * n + 5 + k = f at *
    have hend : ∀ f, slow.run (f + 1) a (.one ['!']) rest () = .ok (none, ()) := by
      intro f
      cases rest with
      | nil => rfl
      | cons c cs =>
        simp only [Grammar.run, char]
        have hc : c ≠ '!' := by simpa using hr
        rw [if_neg (by simpa using hc)]
    obtain ⟨f', rfl⟩ : ∃ f', f = f' + 1 := by
      cases f with
      | zero => cases h1.1
      | succ f => exact ⟨f, rfl⟩
    have ho : ∀ f, slow.run (f + 1) a (.one ['(']) ('(' :: slowText n (')' :: rest)) () =
      .ok (some (slowText n (')' :: rest)), ()) := fun _ => rfl
    have hp : ∀ f, slow.run (f + 1) a (.one [')']) (')' :: rest) () = .ok (some rest, ()) := fun _ => rfl
    let x1 : Exp Unit := .seq (.nt ()) (.seq (.one [')']) (.one ['!']))
    let x2 : Exp Unit := .seq (.nt ()) (.one [')'])
    have r1 : slow.run (f' + 1 + 3) a (.seq (.one ['(']) x1) ('(' :: slowText n (')' :: rest)) () =
        .ok (none, ()) := by
      rw [Grammar.run, thenR, ho, Outcome.bind_ok]
      change slow.run (f' + 1 + 2) a x1 (slowText n (')' :: rest)) () = _
      rw [Grammar.run, thenR, h2.1, Outcome.bind_ok]
      change slow.run (f' + 1 + 1) a (.seq (.one [')']) (.one ['!'])) (')' :: rest) () = _
      rw [Grammar.run, thenR, hp, Outcome.bind_ok]
      exact hend _
    have c1 : slow.calls (f' + 1 + 3) a (.seq (.one ['(']) x1) ('(' :: slowText n (')' :: rest)) () ≥ 2 ^ n := by
      change 1 + _ + after (slow.run (f' + 1 + 2) a (.one ['(']) ('(' :: slowText n (')' :: rest)) ()) _ _ ≥ _
      rw [ho]
      change 1 + _ + (1 + slow.calls (f' + 1 + 1) a (.nt ()) (slowText n (')' :: rest)) () + _) ≥ _
      have := h2.2
      omega
    have r2 : slow.run (f' + 1 + 2) a (.seq (.one ['(']) x2) ('(' :: slowText n (')' :: rest)) () =
        .ok (some rest, ()) := by
      rw [Grammar.run, thenR, ho, Outcome.bind_ok]
      change slow.run (f' + 1 + 1) a x2 (slowText n (')' :: rest)) () = _
      rw [Grammar.run, thenR, h1.1, Outcome.bind_ok]
      exact hp _
    have c2 : slow.calls (f' + 1 + 2) a (.seq (.one ['(']) x2) ('(' :: slowText n (')' :: rest)) () ≥ 2 ^ n := by
      change 1 + _ + after (slow.run (f' + 1 + 1) a (.one ['(']) ('(' :: slowText n (')' :: rest)) ()) _ _ ≥ _
      rw [ho]
      change 1 + _ + (1 + slow.calls (f' + 1) a (.nt ()) (slowText n (')' :: rest)) () + _) ≥ _
      have := h1.2
      omega
    constructor
    · change elseR (slow.run (f' + 1 + 3) a (.seq (.one ['(']) x1))
        (elseR (slow.run (f' + 1 + 2) a (.seq (.one ['(']) x2)) _) ('(' :: slowText n (')' :: rest)) () = _
      rw [elseR, r1, Outcome.bind_ok]
      change elseR (slow.run (f' + 1 + 2) a (.seq (.one ['(']) x2)) _ ('(' :: slowText n (')' :: rest)) () = _
      rw [elseR, r2]
      rfl
    · change 2 ^ (n + 1) ≤ 1 + (1 + slow.calls (f' + 1 + 3) a (.seq (.one ['(']) x1) ('(' :: slowText n (')' :: rest)) () +
        after (slow.run (f' + 1 + 3) a (.seq (.one ['(']) x1) ('(' :: slowText n (')' :: rest)) ()) (fun _ _ => 0)
          (slow.calls (f' + 1 + 3) a (.sor (.seq (.one ['(']) x2) (.one ['a'])) ('(' :: slowText n (')' :: rest))))
      rw [r1]
      change 2 ^ (n + 1) ≤ 1 + (1 + slow.calls (f' + 1 + 3) a (.seq (.one ['(']) x1) ('(' :: slowText n (')' :: rest)) () +
        (1 + slow.calls (f' + 1 + 2) a (.seq (.one ['(']) x2) ('(' :: slowText n (')' :: rest)) () + _))
      rw [Nat.pow_succ]
      omega

end Peg
end Verif
