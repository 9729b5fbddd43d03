import Verif.Proofs.PegDepth
import Verif.Proofs.PegDeep
import Verif.Props.Peg

/-!
# The depth of recursion of the parser: C117
-/

set_option linter.unusedSectionVars false

namespace Verif
open Rule Peg Spec

variable {K : Type} [Field K] [LinearOrder K] [Arith K] [Strtod K]

/-- **C117.** A stack in proportion to the nesting of the parentheses is enough for every text, whatever its
length. -/
theorem C117_enough (nd : Bool) (input : List Char) (depth : Nat) (hd : 144 * nesting input + 193 ≤ depth) :
    ∃ n, ∀ rounds, n ≤ rounds →
      parseStack (K := K) nd rounds depth input = fromString nd (input.length + 1) input := by
  obtain ⟨n, hn⟩ := C115_same (K := K) nd input
  obtain ⟨o, ho, m, hm⟩ := C116_halts (K := K) nd true .SpecificationFile input {}
  refine ⟨max n m, fun rounds hr => ?_⟩
  have h := hm (max n m) (by omega)
  rw [← hn (max n m) (by omega), parseStack, parse,
    stack_enough nd .SpecificationFile (max n m) rounds hr true input {} depth hd (h ▸ ho)]
  exact Peg.bind_congr fun r => by rcases r with ⟨_ | _, _⟩ <;> rfl

/-- **C117.** With a smaller stack the machine fails or gives the same result; never another one. -/
theorem C117_no_other (nd : Bool) (input : List Char) (rounds depth : Nat) :
    parseStack (K := K) nd rounds depth input = .diverge ∨
      parseStack (K := K) nd rounds depth input = fromString nd (input.length + 1) input := by
  by_cases h : (grammar (K := K) nd).stack rounds depth true (.nt .SpecificationFile) input {} = .diverge
  · left
    rw [parseStack, h]
    rfl
  · right
    obtain ⟨m, hm⟩ := stack_evt (grammar (K := K) nd) rounds depth true (.nt .SpecificationFile) input {} h
    obtain ⟨n, hn⟩ := C115_same (K := K) nd input
    have h1 := hm (max n m) (by omega)
    simp only at h1
    rw [← hn (max n m) (by omega), parseStack, parse, h1]
    exact Peg.bind_congr fun r => by rcases r with ⟨_ | _, _⟩ <;> rfl

/-- **C117.** The depth has to grow with the nesting: `n` negations need more than `10 * n`. -/
theorem C117_needed (nd : Bool) (n rounds depth : Nat) (hd : depth ≤ 10 * n) :
    nesting (deepText n) = n + 1 ∧ parseStack (K := K) nd rounds depth (deepText n) = .diverge := by
  refine ⟨nesting_deepText n, ?_⟩
  rw [parseStack, deepText_deep nd rounds n depth hd]
  rfl

/-- `not` as often. -/
def Peg.notN : Nat → Syn
  | 0 => .tru
  | n + 1 => .not (notN n)

theorem Peg.render_notN : ∀ (n : Nat) (ts : List Tok), render (toks (notN n) ++ ts) = nots n ++ render ts
  | 0, ts => by simp only [notN, toks, nots, List.cons_append, List.nil_append, render]; rfl
  | n + 1, ts => by
    simp only [notN, toks, List.cons_append, List.append_assoc, render, nots, render_notN n,
      List.nil_append]
    rfl

theorem Peg.render_deepText (n : Nat) : render ([Cmd.define "p" (notN n)].flatMap Cmd.toks) = deepText n := by
  have h : render ([Cmd.define "p" (notN n)].flatMap Cmd.toks) =
      "( define-formula p ".toList ++ render (toks (notN n) ++ [.rp]) := by
    simp only [List.flatMap_cons, List.flatMap_nil, Cmd.toks, List.append_nil]
    rfl
  rw [h, render_notN]
  rfl

theorem Peg.notN_ok : ∀ n, SynOk (notN n)
  | 0 => .tru
  | n + 1 => .not (notN_ok n)

theorem Peg.notN_norev : ∀ n, NoRev (notN n)
  | 0 => .tru
  | n + 1 => .not (notN_norev n)

/-- **C117.** These texts are specifications: with a stack that is deep enough they are accepted. -/
theorem C117_accepted [IsStrictOrderedRing K] (nd : Bool) (n : Nat) :
    fromString (K := K) nd ((deepText n).length + 1) (deepText n) = .ok ⟨[("p", .const (n % 2 == 0))], []⟩ := by
  have h := render_text [Cmd.define "p" (notN n)]
  rw [render_deepText] at h
  rw [C53_roundtrip nd (cs := [Cmd.define "p" (notN n)]) (by simpa using .define name_p (notN_ok n))
    (by simp [Cmd.term, notN_norev n]) h (Nat.lt_succ_self _)]
  have hd : ∀ (env : String → Option (Expr K)) (n : Nat),
      denote reversed env (notN n) = .ok (.const (n % 2 == 0)) := by
    intro env n
    induction n with
    | zero => simp only [notN, denote]; rfl
    | succ n ih =>
      simp only [notN, denote, ih]
      have : ((n + 1) % 2 == 0) = !(n % 2 == 0) := by
        rcases Nat.mod_two_eq_zero_or_one n with h | h <;> simp [Nat.add_mod, h]
      rw [this]
      rfl
  simp only [evalSpec, evalCmd, hd]
  rfl

/-- **C117.** So no fixed stack is enough for all specifications. -/
theorem C117_unbounded [IsStrictOrderedRing K] (nd : Bool) (depth : Nat) : ∃ (text : List Char) (sp : Specification K),
    fromString nd (text.length + 1) text = .ok sp ∧ ∀ rounds, parseStack (K := K) nd rounds depth text = .diverge :=
  ⟨deepText depth, _, C117_accepted nd depth, fun rounds => (C117_needed nd depth rounds depth (by omega)).2⟩

/-- Concrete case: the text of C53 is nested four deep, so a depth of 769 is enough. -/
example (nd : Bool) : ∃ n, ∀ rounds, n ≤ rounds →
    parseStack (K := ℚ) nd rounds 769 exText = .ok exMeaning := by
  obtain ⟨n, hn⟩ := C117_enough (K := ℚ) nd exText 769 (by decide)
  refine ⟨n, fun rounds hr => (hn rounds hr).trans ?_⟩
  rw [← fromString_fuel (K := ℚ) nd (Nat.lt_succ_self _) (by decide : exText.length + 1 ≤ 1000)]
  exact exText_parsed nd

/-- Parentheses in comments do not count. -/
example : nesting exText = 4 ∧ nesting "; ((((\n( assert a true )".toList = 1 := by decide

end Verif
