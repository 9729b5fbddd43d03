import Verif.Proofs.PegTimeAll
import Verif.Props.Peg

/-!
# The time that the parser takes: C121
-/

set_option linter.unusedSectionVars false

namespace Verif
open Rule Peg Spec

variable {K : Type} [Field K] [LinearOrder K] [Arith K] [Strtod K]

/-- **C121.** On a text of `n` characters the parser tries no more than `200 * n + 60` rules, whether it accepts the
text or not, and at every moment. -/
theorem C121_linear (nd : Bool) (fuel : Nat) (input : List Char) :
    parseCalls K nd fuel input ≤ 200 * input.length + 60 := by
  have h := full200 (K := K) (nd := nd) fuel true (.nt .SpecificationFile) _ rfl input {}
  rw [parseCalls]
  rcases hr : (grammar (K := K) nd).run fuel true (.nt .SpecificationFile) input {} with
    ⟨_ | rest, s1⟩ | e | _ | e | _ <;> rw [hr] at h <;> simp only at h <;> omega

/-- **C121.** So the whole parse, which ends (C116) and has the result of `fromString` (C115), takes so many. -/
theorem C121_total (nd : Bool) (input : List Char) : ∃ calls, calls ≤ 200 * input.length + 60 ∧
    ∃ n, ∀ fuel, n ≤ fuel → parseCalls K nd fuel input = calls ∧
      parse (K := K) nd fuel input = fromString nd (input.length + 1) input := by
  obtain ⟨n, hn⟩ := C115_same (K := K) nd input
  obtain ⟨o, ho, m, hm⟩ := C116_halts (K := K) nd true .SpecificationFile input {}
  refine ⟨parseCalls K nd (max n m) input, C121_linear nd _ input, max n m, fun fuel hf => ⟨?_, hn fuel (by omega)⟩⟩
  exact calls_mono _ hf _ _ _ _ (by rw [hm _ (by omega)]; exact ho)

theorem Peg.until_eof (nd : Bool) {x : Exp Nt} : ∀ (n : Nat) (a : Bool) (inp rest : List Char) (st st' : PState K),
    (grammar nd).run n a (.untl .eof x) inp st = .ok (some rest, st') → rest = []
  | 0, _, _, _, _, _, h => by cases h
  | 1, _, _, _, _, _, h => by cases h
  | n + 2, a, inp, rest, st, st', h => by
    cases inp with
    | nil =>
      change (Outcome.ok (some [], st) : Outcome (Option (List Char) × PState K)) = _ at h
      cases h
      rfl
    | cons c cs =>
      rw [Grammar.run] at h
      simp only [elseR, thenR, show (grammar (K := K) nd).run (n + 1) a .eof (c :: cs) st = .ok (none, st) from rfl,
        Outcome.bind_ok] at h
      rcases hr : (grammar (K := K) nd).run (n + 1) a x (c :: cs) st with ⟨_ | r, s1⟩ | e | _ | e | _ <;> rw [hr] at h
      · cases h
      · exact until_eof nd (n + 1) a r rest s1 st' h
      all_goals cases h

/-- **C121.** Linear time is also needed: a text that is accepted takes at least one call for 14 characters. -/
theorem C121_needed (nd : Bool) (fuel : Nat) (input : List Char) (sp : Specification K)
    (h : parse nd fuel input = .ok sp) : input.length ≤ 14 * parseCalls K nd fuel input := by
  rw [parse] at h
  rcases hr : (grammar (K := K) nd).run fuel true (.nt .SpecificationFile) input {} with
    ⟨_ | rest, s1⟩ | e | _ | e | _ <;> rw [hr] at h
  · cases h
  · have h1 := pays (grammar (K := K) nd) rules_short _ _ _ rfl _ _ _ _ hr
    have : rest = [] := by
      match fuel with
      | 0 => cases hr
      | 1 => cases hr
      | 2 => cases hr
      | n + 3 =>
        obtain ⟨s2, h2⟩ := nt_some hr
        change mustR ((grammar (K := K) nd).run (n + 1) true (.nt .StatementList)) input _ = _ at h2
        simp only [mustR] at h2
        rcases hm : (grammar (K := K) nd).run (n + 1) true (.nt .StatementList) input
          (((grammar (K := K) nd).action .SpecificationFile).enter {}) with ⟨_ | r, s3⟩ | e | _ | e | _ <;>
          rw [hm] at h2
        · cases h2
        · cases h2
          obtain ⟨s4, h4⟩ := nt_some hm
          match n with
          | 0 => cases h4
          | n + 1 =>
            obtain ⟨r, s5, -, h5⟩ := seq_some h4
            exact Peg.until_eof nd n true _ _ _ _ h5
        all_goals cases h2
    subst this
    exact h1.trans (by rw [parseCalls]; simp)
  all_goals cases h

/-- **C121.** This is not so for all grammars: on `((...(a)...))` with `n` pairs of parentheses the same machine
takes at least `2 ^ n` calls with the grammar `slow`, whose two alternatives begin alike. -/
theorem C121_slow (n : Nat) (a : Bool) : (slowText n []).length = 2 * n + 1 ∧ ∃ m, ∀ fuel, m ≤ fuel →
    slow.run fuel a (.nt ()) (slowText n []) () = .ok (some [], ()) ∧
      2 ^ n ≤ slow.calls fuel a (.nt ()) (slowText n []) () := by
  refine ⟨by rw [slowText_length]; rfl, 5 * n + 5, fun fuel hf => ?_⟩
  obtain ⟨k, rfl⟩ : ∃ k, fuel = 5 * n + 5 + k := ⟨fuel - (5 * n + 5), by omega⟩
  exact slow_run n k a [] (by simp)

/-- Concrete case: an empty list of commands takes 63 of 460 calls. -/
example : parseCalls ℚ true 30 "()".toList = 63 ∧ 200 * "()".toList.length + 60 = 460 := by
  constructor <;> decide +kernel

/-- Concrete case: the text of C53. -/
example (nd : Bool) : ∃ calls, calls ≤ 200 * exText.length + 60 ∧ ∃ n, ∀ fuel, n ≤ fuel →
    parseCalls ℚ nd fuel exText = calls ∧ parse (K := ℚ) nd fuel exText = .ok exMeaning := by
  obtain ⟨calls, hc, n, hn⟩ := C121_total (K := ℚ) nd exText
  refine ⟨calls, hc, n, fun fuel hf => ⟨(hn fuel hf).1, (hn fuel hf).2.trans ?_⟩⟩
  rw [← fromString_fuel (K := ℚ) nd (Nat.lt_succ_self _) (by decide : exText.length + 1 ≤ 1000)]
  exact exText_parsed nd

/-- Concrete case: the slow grammar needs more than a million calls for 41 characters. -/
example : (slowText 20 []).length = 41 ∧ ∃ m, ∀ fuel, m ≤ fuel →
    1000000 < slow.calls fuel true (.nt ()) (slowText 20 []) () := by
  obtain ⟨hl, m, hm⟩ := C121_slow 20 true
  exact ⟨hl, m, fun fuel hf => by have := (hm fuel hf).2; omega⟩

end Verif
