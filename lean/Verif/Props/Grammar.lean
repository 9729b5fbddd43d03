import Verif.Proofs.ParserConv
import Verif.Props.Parser

/-!
# The accepted language: C82
-/

set_option linter.unusedSectionVars false

namespace Verif
open Spec Rule

section grammar
variable {K : Type} [Field K] [LinearOrder K] [IsStrictOrderedRing K] [Arith K] [Strtod K]

/-- **C82.** The parser accepts a text if and only if it is a text of the accepted language that has a meaning,
and then it returns this meaning. -/
theorem C82_exact (nd : Bool) {w : List Char} {fuel : Nat} (hf : w.length < fuel) (sp : Specification K) :
    fromString nd fuel w = .ok sp ↔
      ∃ gs : List (List RawCmd), (∀ cs ∈ gs, ∀ c ∈ cs, RawCmdOk c) ∧ RawText gs w ∧
        evalRaws nd {} gs.flatten = .ok sp := by
  constructor
  · intro h
    obtain ⟨gs, h1, h2⟩ := fromString_accepts h
    exact ⟨gs, h1, h2, by rw [← fromString_rawText h1 h2 nd hf]; exact h⟩
  · rintro ⟨gs, h1, h2, h3⟩
    rw [fromString_rawText h1 h2 nd hf]; exact h3

/-- **C82.** For texts of the accepted language, failures are as described, too. -/
theorem C82_meaning (nd : Bool) {gs : List (List RawCmd)} (hgs : ∀ cs ∈ gs, ∀ c ∈ cs, RawCmdOk c) {w : List Char}
    (h : RawText gs w) {fuel : Nat} (hf : w.length < fuel) :
    fromString (K := K) nd fuel w = evalRaws nd {} gs.flatten := fromString_rawText hgs h nd hf

/-- **C82.** All other texts are rejected by an exception (or, in debug builds, by a failing assertion). -/
theorem C82_rejected (nd : Bool) {w : List Char}
    (h : ¬ ∃ gs : List (List RawCmd), (∀ cs ∈ gs, ∀ c ∈ cs, RawCmdOk c) ∧ RawText gs w) {fuel : Nat}
    (hf : w.length < fuel) :
    (∃ e, fromString (K := K) nd fuel w = .throw e) ∨ nd = false ∧ fromString (K := K) nd fuel w = .abort := by
  obtain ⟨r, h1, h2⟩ := C52_terminates (K := K) nd w
  rw [h1 fuel hf]
  rcases h2 with ⟨sp, h2⟩ | h2 | h2
  · exact absurd (fromString_accepts ((h1 fuel hf).trans h2)) h
  · exact .inl h2
  · exact .inr h2

/-- **C82.** A text has at most one meaning, however it is read. -/
theorem C82_unambiguous (nd : Bool) {gs gs' : List (List RawCmd)} (hgs : ∀ cs ∈ gs, ∀ c ∈ cs, RawCmdOk c)
    (hgs' : ∀ cs ∈ gs', ∀ c ∈ cs, RawCmdOk c) {w : List Char} (h : RawText gs w) (h' : RawText gs' w) :
    evalRaws (K := K) nd {} gs.flatten = evalRaws nd {} gs'.flatten := by
  rw [← fromString_rawText hgs h nd (Nat.lt_succ_self _), fromString_rawText hgs' h' nd (Nat.lt_succ_self _)]

end grammar

/-! ## The documented language -/

mutual
theorem raw_toks_eq : ∀ {t : Syn}, NoRev t → t.raw.toks = toks t
  | .tru, _ => by simp [Syn.raw, Raw.toks, toks]
  | .fls, _ => by simp [Syn.raw, Raw.toks, toks]
  | .ref n, _ => by simp [Syn.raw, Raw.toks, toks]
  | .cmp o n c, _ => by simp [Syn.raw, Raw.toks, toks, Item.toks, Item.toksAll, inner]
  | .rcmp o c n, h => by cases h
  | .not t, h => by
    cases h with
    | not h => simp [Syn.raw, Raw.toks, toks, Item.toks, Item.toksAll, inner, UnOp.key, raw_toks_eq h]
  | .and ts, h => by
    cases h with
    | and h => simp [Syn.raw, Raw.toks, toks, Item.toks, Item.toksAll, inner, NaryOp.key, raws_toks_eq h]
  | .or ts, h => by
    cases h with
    | or h => simp [Syn.raw, Raw.toks, toks, Item.toks, Item.toksAll, inner, NaryOp.key, raws_toks_eq h]
  | .implies a b, h => by
    cases h with
    | implies h1 h2 =>
      simp [Syn.raw, Raw.toks, toks, Item.toks, Item.toksAll, inner, BinOp.key, raw_toks_eq h1, raw_toks_eq h2]
  | .iff a b, h => by
    cases h with
    | iff h1 h2 =>
      simp [Syn.raw, Raw.toks, toks, Item.toks, Item.toksAll, inner, BinOp.key, raw_toks_eq h1, raw_toks_eq h2]
  | .xor a b, h => by
    cases h with
    | xor h1 h2 =>
      simp [Syn.raw, Raw.toks, toks, Item.toks, Item.toksAll, inner, BinOp.key, raw_toks_eq h1, raw_toks_eq h2]
  | .always t, h => by
    cases h with
    | always h => simp [Syn.raw, Raw.toks, toks, Item.toks, Item.toksAll, inner, UnOp.key, raw_toks_eq h]
  | .eventually t, h => by
    cases h with
    | eventually h => simp [Syn.raw, Raw.toks, toks, Item.toks, Item.toksAll, inner, UnOp.key, raw_toks_eq h]
  | .untl a b, h => by
    cases h with
    | untl h1 h2 =>
      simp [Syn.raw, Raw.toks, toks, Item.toks, Item.toksAll, inner, BinOp.key, raw_toks_eq h1, raw_toks_eq h2]
theorem raws_toks_eq : ∀ {ts : List Syn}, (∀ t ∈ ts, NoRev t) → Raw.toksAll (Syn.rawAll ts) = toksAll ts
  | [], _ => by simp [Syn.rawAll, Raw.toksAll, toksAll]
  | t :: ts, h => by
    obtain ⟨h1, h2⟩ := List.forall_mem_cons.1 h
    simp [Syn.rawAll, Raw.toksAll, toksAll, raw_toks_eq h1, raws_toks_eq h2]
end

theorem rawAll_ne {ts : List Syn} (h : ts ≠ []) : Syn.rawAll ts ≠ [] := by
  cases ts with
  | nil => exact absurd rfl h
  | cons t ts => simp [Syn.rawAll]

theorem items_single {i : Item} (h : ItemOk i) : ItemsOk [i] := .cons h .nil (by simp)

mutual
theorem raw_ok : ∀ {t : Syn}, SynOk t → HasArgs t → RawOk t.raw
  | .tru, _, _ => by rw [Syn.raw]; exact .tru
  | .fls, _, _ => by rw [Syn.raw]; exact .fls
  | .ref n, h, _ => by rw [Syn.raw]; cases h with | ref h1 h2 h3 => exact .ref h1 h2 h3
  | .cmp o n c, h, _ => by rw [Syn.raw]; cases h with | cmp h => exact .paren (items_single (.cmp h))
  | .rcmp o c n, h, _ => by rw [Syn.raw]; cases h with | rcmp h => exact .paren (items_single (.cmp h))
  | .not t, h, h' => by
    rw [Syn.raw]; cases h with | not h => cases h' with | not h' =>
      exact .paren (items_single (.un (raw_ok h h')))
  | .and ts, h, h' => by
    rw [Syn.raw]; cases h with | and h => cases h' with | and hn h' =>
      exact .paren (items_single (.nary (rawAll_ne hn) (raws_ok h h')))
  | .or ts, h, h' => by
    rw [Syn.raw]; cases h with | or h => cases h' with | or hn h' =>
      exact .paren (items_single (.nary (rawAll_ne hn) (raws_ok h h')))
  | .implies a b, h, h' => by
    rw [Syn.raw]; cases h with | implies h1 h2 => cases h' with | implies h1' h2' =>
      exact .paren (items_single (.bin (raw_ok h1 h1') (raw_ok h2 h2')))
  | .iff a b, h, h' => by
    rw [Syn.raw]; cases h with | iff h1 h2 => cases h' with | iff h1' h2' =>
      exact .paren (items_single (.bin (raw_ok h1 h1') (raw_ok h2 h2')))
  | .xor a b, h, h' => by
    rw [Syn.raw]; cases h with | xor h1 h2 => cases h' with | xor h1' h2' =>
      exact .paren (items_single (.bin (raw_ok h1 h1') (raw_ok h2 h2')))
  | .always t, h, h' => by
    rw [Syn.raw]; cases h with | always h => cases h' with | always h' =>
      exact .paren (items_single (.un (raw_ok h h')))
  | .eventually t, h, h' => by
    rw [Syn.raw]; cases h with | eventually h => cases h' with | eventually h' =>
      exact .paren (items_single (.un (raw_ok h h')))
  | .untl a b, h, h' => by
    rw [Syn.raw]; cases h with | untl h1 h2 => cases h' with | untl h1' h2' =>
      exact .paren (items_single (.bin (raw_ok h1 h1') (raw_ok h2 h2')))
theorem raws_ok : ∀ {ts : List Syn}, (∀ t ∈ ts, SynOk t) → (∀ t ∈ ts, HasArgs t) → RawsOk (Syn.rawAll ts)
  | [], _, _ => by rw [Syn.rawAll]; exact .nil
  | t :: ts, h, h' => by
    rw [Syn.rawAll]
    exact .cons (raw_ok (List.forall_mem_cons.1 h).1 (List.forall_mem_cons.1 h').1)
      (raws_ok (List.forall_mem_cons.1 h).2 (List.forall_mem_cons.1 h').2)
end

theorem group_toks_eq : ∀ {cs : List Cmd}, (∀ c ∈ cs, NoRev c.term) →
    (cs.map fun c => [c.raw]).flatMap groupToks = cs.flatMap Cmd.toks
  | [], _ => rfl
  | c :: cs, h => by
    obtain ⟨h1, h2⟩ := List.forall_mem_cons.1 h
    rw [List.map_cons, List.flatMap_cons, List.flatMap_cons, group_toks_eq h2]
    congr 1
    cases c with
    | define n t => simp [groupToks, Cmd.raw, RawCmd.toks, Cmd.toks, raw_toks_eq (show NoRev t from h1)]
    | assert n t => simp [groupToks, Cmd.raw, RawCmd.toks, Cmd.toks, raw_toks_eq (show NoRev t from h1)]

/-- **C82.** The texts of the documented language without reversed predicates belong to the accepted language:
they are those with one command in each of the outer, and one expression in each of the inner parentheses. -/
theorem C82_documented {cs : List Cmd} (hok : ∀ c ∈ cs, CmdOk c) (hrev : ∀ c ∈ cs, NoRev c.term)
    (hargs : ∀ c ∈ cs, HasArgs c.term) (w : List Char) :
    (Text cs w ↔ RawText (cs.map fun c => [c.raw]) w) ∧ ∀ g ∈ cs.map fun c => [c.raw], ∀ c ∈ g, RawCmdOk c := by
  refine ⟨⟨?_, ?_⟩, ?_⟩
  · intro h
    cases h with
    | mk h1 h2 => exact .mk h1 (by rw [group_toks_eq hrev]; exact h2)
    | empty h1 h2 => exact .empty h1 (by rw [h2]; rfl)
  · intro h
    cases h with
    | mk h1 h2 => exact .mk h1 (by rw [← group_toks_eq hrev]; exact h2)
    | empty h1 h2 => exact .empty h1 (by simpa using h2)
  · intro g hg c hc
    obtain ⟨c0, hc0, rfl⟩ := List.mem_map.1 hg
    rw [List.mem_singleton.1 hc]
    have h1 := hok c0 hc0
    have h2 := hargs c0 hc0
    cases c0 with
    | define n t => cases h1 with | define hn ht => exact .define hn (raw_ok ht h2)
    | assert n t => cases h1 with | assert hn ht => exact .assert hn (raw_ok ht h2)

/-! ## Examples -/

/-- `( define-formula p ( and ( true < x 1.5 ) ) assert q p ) ()`: two commands between the same parentheses,
two terms from one pair of parentheses, and a pair of parentheses without commands. -/
def oddSpec : List (List RawCmd) :=
  [[.define "p" (.paren [.nary .and [.paren [.term .tru, .cmp .LT "x" litA]]]), .assert "q" (.ref "p")], []]

def oddText : List Char := "( define-formula p ( and ( true < x 1.5 ) ) assert q p ) ( ) ".toList

theorem oddSpec_ok : ∀ cs ∈ oddSpec, ∀ c ∈ cs, RawCmdOk c := by
  intro cs hcs c hc
  simp only [oddSpec, List.mem_cons, List.not_mem_nil, or_false] at hcs
  rcases hcs with rfl | rfl
  · simp only [List.mem_cons, List.not_mem_nil, or_false] at hc
    rcases hc with rfl | rfl
    · refine .define name_p (.paren (items_single (.nary (by simp) (.cons (.paren ?_) .nil))))
      exact .cons (.term .tru (by simp)) (items_single (.cmp name_x)) (by simp)
    · exact .assert name_q (.ref name_p (by decide) (by decide))
  · simp at hc

theorem oddText_text : RawText oddSpec oddText := by
  have h : render (oddSpec.flatMap groupToks) = oddText := by
    simp only [oddSpec, List.flatMap_cons, List.flatMap_nil, groupToks, RawCmd.toks, Raw.toks, Raw.toksAll, Item.toks,
      Item.toksAll]
    decide
  rw [← h]
  exact .mk (g := []) .nil (render_txt _)

-- It is accepted in both builds: `p` is `true and x < 1.5`.
example (nd : Bool) : fromString nd 100 oddText = .ok
    ⟨[("p", .and [.Const true, exP])], [("q", .and [.Const true, exP])]⟩ := by
  refine (C82_exact nd (by decide) _).2 ⟨oddSpec, oddSpec_ok, oddText_text, ?_⟩
  simp only [oddSpec, List.flatten_cons, List.flatten_nil, List.append_nil, evalRaws, RawCmd.eval, Raw.eval, Raw.evalAll,
    Item.eval, Item.evalAll, litA_eval]
  cases nd <;> rfl

-- A text outside the language, which is rejected: a closing parenthesis.
theorem paren_outside : ¬ ∃ gs : List (List RawCmd), (∀ cs ∈ gs, ∀ c ∈ cs, RawCmdOk c) ∧ RawText gs [')'] := by
  have hlay : ∀ {g w : List Char}, Layout g → g ++ w = [')'] → w = [')'] := by
    intro g w hg e
    cases hg with
    | nil => exact e
    | space hc _ => simp only [List.cons_append, List.cons.injEq] at e; rw [e.1] at hc; simp [IsSpace] at hc
    | comment _ _ => simp at e
  rintro ⟨gs, -, h⟩
  generalize hv : [')'] = v at h
  cases h with
  | @mk g w h1 h2 =>
    have hw := hlay h1 hv.symm
    subst hw
    cases gs with
    | nil => cases h2
    | cons cs gs =>
      rw [List.flatMap_cons, groupToks, List.cons_append] at h2
      generalize cs.flatMap RawCmd.toks ++ [Tok.rp] ++ gs.flatMap groupToks = ts at h2
      generalize hu : [')'] = u at h2
      cases h2 <;> simp [Tok.chars] at hu
  | empty h1 _ =>
    cases h1 with
    | closed h1 =>
      have := hlay (w := []) h1 (by rw [List.append_nil]; exact hv.symm)
      simp at this
    | «open» h1 _ =>
      have := hlay h1 hv.symm
      simp at this
example : ∃ e, fromString (K := ℚ) true 100 [')'] = .throw e := by
  rcases C82_rejected (K := ℚ) true paren_outside (fuel := 100) (by decide) with h | ⟨h, -⟩
  · exact h
  · cases h

-- The documented example is one of them.
example : RawText (exSpec.map fun c => [c.raw]) exText := by
  refine ((C82_documented exSpec_ok exSpec_norev ?_ _).1).1 (by rw [← exText_eq]; exact render_text _)
  intro c hc
  simp only [exSpec, List.mem_cons, List.not_mem_nil, or_false] at hc
  rcases hc with rfl | rfl | rfl
  · exact .cmp
  · exact .always (.or (by simp) (by simp [HasArgs.ref, HasArgs.not HasArgs.ref]))
  · exact .ref

end Verif
