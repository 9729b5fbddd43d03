import Verif.Proofs.PegStack

/-!
# Texts that need a deep stack: proofs
-/

set_option linter.unusedSectionVars false

namespace Verif
namespace Peg

section
variable {S : Type} {F G : Run S} {inp rest : List Char} {st st' : S}

theorem live_bind {α β : Type} {o : Outcome α} {k : α → Outcome β} (h : (o >>= k) ≠ .diverge) : o ≠ .diverge := by
  rintro rfl; exact h rfl

theorem live_then (h : thenR F G inp st ≠ .diverge) (hF : F inp st = .ok (some rest, st')) :
    G rest st' ≠ .diverge := by
  unfold thenR at h
  rw [hF] at h
  exact h

theorem live_else (h : elseR F G inp st ≠ .diverge) (hF : F inp st = .ok (none, st')) :
    G inp st' ≠ .diverge := by
  unfold elseR at h
  rw [hF] at h
  exact h

theorem live_wrap {x : Action S} {a : Bool} (h : x.wrap a F inp st ≠ .diverge) : ∃ st', F inp st' ≠ .diverge := by
  cases x with
  | nothing => exact ⟨st, h⟩
  | apply p =>
    cases a with
    | false => exact ⟨st, h⟩
    | true => exact ⟨st, live_bind h⟩
  | fresh enter leave p =>
    cases a with
    | false => exact ⟨enter st, live_bind h⟩
    | true => exact ⟨enter st, live_bind (live_bind h)⟩

end

variable {K : Type} [Field K] [LinearOrder K] [Arith K] [Strtod K] {nd : Bool}

/-- If the machine with a stack comes to an end, it gives what the rule gives. -/
theorem stack_val {l d : Nat} {a : Bool} {e : Exp Nt} {f : Rule K} (hf : Ev nd a e f) {inp : List Char}
    {st : PState K} (h : (grammar nd).stack l d a e inp st ≠ .diverge) {o : Option (List Char) × PState K}
    (ho : f inp st = .ok o) : (grammar nd).stack l d a e inp st = .ok o := by
  obtain ⟨n, hn⟩ := stack_evt (grammar nd) l d a e inp st h
  obtain ⟨m, hm⟩ := hf inp st (by rw [ho]; simp)
  rw [← hn (max n m) (by omega), hm (max n m) (by omega), ho]

/-- A stack of depth `d` is not enough for `Term` on `n` negations, if `d ≤ 10 n`. -/
theorem term_deep (nd : Bool) (l : Nat) : ∀ (n d : Nat), d ≤ 10 * n → ∀ (w : List Char) (st : PState K),
    (grammar nd).stack l d true (.nt .Term) (nots n ++ w) st = .diverge
  | 0, d, hd, w, st => by
    obtain rfl : d = 0 := by omega
    rfl
  | n + 1, d, hd, w, st => by
    by_contra h
    cases d with
    | zero => exact h rfl
    | succ d =>
    obtain ⟨st, h⟩ := live_wrap h
    cases d with
    | zero => exact h rfl
    | succ d =>
    replace h := live_bind h
    cases d with
    | zero => exact h rfl
    | succ d =>
    have hp := stack_val (EvL.nt (x := .LParen) (EvL.sym '(') rfl) (live_bind h)
      (o := (some ("not ".toList ++ (nots n ++ (") ".toList ++ w))), st)) (by
        simp [nots, Rule.lex, Lex.sym, Lex.skip, Lex.isSpace])
    replace h := live_then h hp
    cases d with
    | zero => exact h rfl
    | succ d =>
    replace h := live_bind h
    cases d with
    | zero => exact h rfl
    | succ d =>
    cases l with
    | zero => exact h rfl
    | succ l =>
    have hr := stack_val (EvL.nt (x := .RParen) (EvL.sym ')') rfl) (live_bind h)
      (o := (none, st)) (by simp [Rule.lex, Lex.sym])
    replace h := live_bind (live_else h hr)
    cases d with
    | zero => exact h rfl
    | succ d =>
    have hq := stack_val Ev.predicateTerm (live_bind h) (o := (none, st)) rfl
    replace h := live_else h hq
    cases d with
    | zero => exact h rfl
    | succ d =>
    replace h := live_bind h
    cases d with
    | zero => exact h rfl
    | succ d =>
    obtain ⟨st, h⟩ := live_wrap h
    cases d with
    | zero => exact h rfl
    | succ d =>
    have hk := stack_val (Ev.kw (x := .KwNot) "not" rfl rfl) (live_bind h)
      (o := (some (nots n ++ (") ".toList ++ w)), st)) (by cases n <;> rfl)
    replace h := live_then h hk
    cases d with
    | zero => exact h rfl
    | succ d =>
    exact live_bind h (term_deep nd (l + 1) n d (by omega) _ st)

/-- The whole text. -/
theorem deepText_deep (nd : Bool) (l n d : Nat) (hd : d ≤ 10 * n) (st : PState K) :
    (grammar nd).stack l d true (.nt .SpecificationFile) (deepText n) st = .diverge := by
  by_contra h
  rcases d with _ | d
  · exact h rfl
  obtain ⟨st, h⟩ := live_wrap h
  rcases d with _ | d
  · exact h rfl
  replace h := live_bind h
  rcases d with _ | d
  · exact h rfl
  obtain ⟨st, h⟩ := live_wrap h
  rcases d with _ | d
  · exact h rfl
  have h1 := stack_val (EvL.skip (K := K) true) (live_bind h) (o := (some (deepText n), st)) rfl
  replace h := live_then h h1
  rcases d with _ | d
  · exact h rfl
  rcases l with _ | l
  · exact h rfl
  rcases d with _ | d
  · exact h rfl
  replace h := live_bind (live_else h (st' := st) rfl)
  replace h := live_bind h
  rcases d with _ | d
  · exact h rfl
  obtain ⟨st, h⟩ := live_wrap h
  rcases d with _ | d
  · exact h rfl
  have hp := stack_val (EvL.nt (x := .LParen) (EvL.sym '(') rfl) (live_bind h)
    (o := (some ("define-formula p ".toList ++ (nots n ++ ") ".toList)), st)) rfl
  replace h := live_then h hp
  rcases d with _ | d
  · exact h rfl
  replace h := live_bind h
  rcases d with _ | d
  · exact h rfl
  have hr := stack_val (EvL.nt (x := .RParen) (EvL.sym ')') rfl) (live_bind h) (o := (none, st)) rfl
  replace h := live_bind (live_else h hr)
  rcases d with _ | d
  · exact h rfl
  obtain ⟨st, h⟩ := live_wrap h
  rcases d with _ | d
  · exact h rfl
  replace h := live_bind h
  rcases d with _ | d
  · exact h rfl
  have h1 : Ev (K := K) nd true (.nt .Assertion) (Rule.assertion nd 1) :=
    Ev.act (x := .Assertion) ((Ev.kw (x := .KwAssert) "assert" rfl rfl).ifMust2 Ev.identifier (Ev.term 1)) rfl
  have ha := stack_val h1 (live_bind h) (o := (none, st)) rfl
  replace h := live_else h ha
  rcases d with _ | d
  · exact h rfl
  obtain ⟨st, h⟩ := live_wrap h
  rcases d with _ | d
  · exact h rfl
  have hk := stack_val (Ev.kw (x := .KwDefineFormula) "define-formula" rfl rfl) (live_bind h)
    (o := (some ("p ".toList ++ (nots n ++ ") ".toList)), st)) rfl
  replace h := live_then h hk
  rcases d with _ | d
  · exact h rfl
  have hi := stack_val Ev.identifier.must (live_bind h)
    (o := (some (nots n ++ ") ".toList), { st with s := { st.s with identifiers := st.s.identifiers ++ ["p"] } }))
    (by cases n <;> rfl)
  replace h := live_then h hi
  rcases d with _ | d
  · exact h rfl
  exact live_bind h (term_deep nd (l + 1) n d (by omega) _ _)

/-- How deep the parentheses are nested. -/
theorem nesting_deepText (n : Nat) : nesting (deepText n) = n + 1 := by
  have : ∀ n w, nestFrom false (nots n ++ w) = max n (nestFrom false w) := by
    intro n
    induction n with
    | zero => intro w; simp [nots, nestFrom]
    | succ n ih =>
      intro w
      have h1 : nestFrom false (nots (n + 1) ++ w) = nestFrom false (nots n ++ (") ".toList ++ w)) + 1 := by
        rw [nots, List.append_assoc, List.append_assoc]
        rfl
      have h2 : nestFrom false (") ".toList ++ w) = nestFrom false w - 1 := rfl
      rw [h1, ih, h2]
      omega
  have h1 : nesting (deepText n) = nestFrom false (nots n ++ ") ".toList) + 1 := rfl
  have h2 : nestFrom false ") ".toList = 0 := rfl
  rw [h1, this, h2]
  omega

end Peg
end Verif
