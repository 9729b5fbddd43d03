import Verif.Proofs.ParserErrors
import Verif.Proofs.ParserMeaning

/-! # Exceptions for documented texts -/

set_option linter.unusedSectionVars false

namespace Verif
open Spec Rule
variable {K : Type} [Field K] [LinearOrder K] [IsStrictOrderedRing K] [Arith K] [Strtod K]

/-- The exceptions for documented texts, with the causes: `rev` allows `bad_optional_access`. -/
def docExns (rev : Bool) : List Exn :=
  [.parseError, .outOfRange, .invalidArgument] ++ if rev then [.badOptionalAccess] else []

theorem numLit_only (rev : Bool) (c : NumLit) : Only (docExns rev) (c.eval (K := K)) := by
  have h : Exn.outOfRange ∈ docExns rev := by simp [docExns]
  cases c <;> unfold NumLit.eval <;> simp only <;> split <;> first | exact .ok _ | exact .throw h

mutual
theorem denote_only (rev : Bool) (env : String → Option (Expr K)) :
    ∀ t : Syn, (rev = true ∨ NoRev t) → Only (docExns rev) (denote revThrow env t)
  | .tru, _ => by rw [denote]; exact .ok _
  | .fls, _ => by rw [denote]; exact .ok _
  | .ref n, _ => by
    rw [denote]
    split
    · exact .ok _
    · exact .throw (by simp [docExns])
  | .cmp o n c, _ => by rw [denote]; exact .bind (numLit_only rev c) fun _ _ => .ok _
  | .rcmp o c n, h => by
    rw [denote]
    rcases h with rfl | h
    · exact .bind (numLit_only true c) fun _ _ => .throw (by simp [docExns])
    · cases h
  | .not t, h => by
    rw [denote]
    exact .bind (denote_only rev env t (h.imp id fun h => by cases h; assumption)) fun _ _ => .ok _
  | .and ts, h => by
    rw [denote]
    refine .bind (evalAll_only rev env ts (h.imp id fun h => by cases h; assumption)) fun es _ => ?_
    split
    · exact .throw (by simp [docExns])
    · exact And_only (by simp [docExns]) _
  | .or ts, h => by
    rw [denote]
    refine .bind (evalAll_only rev env ts (h.imp id fun h => by cases h; assumption)) fun es _ => ?_
    split
    · exact .throw (by simp [docExns])
    · exact Or_only (by simp [docExns]) _
  | .implies a b, h => by
    rw [denote]
    exact .bind (denote_only rev env a (h.imp id fun h => by cases h; assumption)) fun _ _ =>
      .bind (denote_only rev env b (h.imp id fun h => by cases h; assumption)) fun _ _ =>
        Implies_only (by simp [docExns]) _ _
  | .iff a b, h => by
    rw [denote]
    exact .bind (denote_only rev env a (h.imp id fun h => by cases h; assumption)) fun _ _ =>
      .bind (denote_only rev env b (h.imp id fun h => by cases h; assumption)) fun _ _ =>
        Iff_only (by simp [docExns]) _ _
  | .xor a b, h => by
    rw [denote]
    exact .bind (denote_only rev env a (h.imp id fun h => by cases h; assumption)) fun _ _ =>
      .bind (denote_only rev env b (h.imp id fun h => by cases h; assumption)) fun _ _ =>
        Xor_only (by simp [docExns]) _ _
  | .always t, h => by
    rw [denote]
    exact .bind (denote_only rev env t (h.imp id fun h => by cases h; assumption)) fun _ _ => .ok _
  | .eventually t, h => by
    rw [denote]
    exact .bind (denote_only rev env t (h.imp id fun h => by cases h; assumption)) fun _ _ => .ok _
  | .untl a b, h => by
    rw [denote]
    exact .bind (denote_only rev env a (h.imp id fun h => by cases h; assumption)) fun _ _ =>
      .bind (denote_only rev env b (h.imp id fun h => by cases h; assumption)) fun _ _ => .ok _
theorem evalAll_only (rev : Bool) (env : String → Option (Expr K)) :
    ∀ ts : List Syn, (rev = true ∨ ∀ t ∈ ts, NoRev t) → Only (docExns rev) (evalAll revThrow env ts)
  | [], _ => by rw [evalAll]; exact .ok _
  | t :: ts, h => by
    rw [evalAll]
    exact .bind (denote_only rev env t (h.imp id fun h => h t (by simp))) fun _ _ =>
      .bind (evalAll_only rev env ts (h.imp id fun h x hx => h x (by simp [hx]))) fun _ _ => .ok _
end

theorem evalSpec_only (rev : Bool) : ∀ (cs : List Cmd) (sp : Specification K), (rev = true ∨ ∀ c ∈ cs, NoRev c.term) →
    Only (docExns rev) (evalSpec revThrow sp cs)
  | [], sp, _ => .ok _
  | c :: cs, sp, h => by
    have hadd : ∀ (m : List (String × Expr K)) n e, Only (docExns rev) (addNew m n e) := by
      intro m n e
      unfold addNew
      split
      · exact .throw (by simp [docExns])
      · exact .ok _
    have hc := h.imp id fun h => h c (by simp)
    refine .bind ?_ fun sp' _ => evalSpec_only rev cs sp' (h.imp id fun h x hx => h x (by simp [hx]))
    cases c with
    | define n t => exact .bind (denote_only rev _ t hc) fun _ _ => .bind (hadd _ _ _) fun _ _ => .ok _
    | assert n t => exact .bind (denote_only rev _ t hc) fun _ _ => .bind (hadd _ _ _) fun _ _ => .ok _

end Verif
