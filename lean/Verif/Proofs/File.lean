import Verif.Model.File
import Verif.Proofs.ParserNamed
import Verif.Props.Position

/-!
# Helper lemmas for C122: lines of a text, and reading back the listing
-/

set_option linter.unusedSectionVars false

namespace Verif
open Spec Fmt Rule

/-! ## Lines -/

theorem toEol_spec : ∀ l : List Char, ∃ post, l = toEol l ++ post ∧ '\n' ∉ toEol l ∧
    (post = [] ∨ (∃ q, post = '\n' :: q) ∨ ∃ q, post = '\r' :: '\n' :: q)
  | [] => ⟨[], rfl, by simp [toEol], .inl rfl⟩
  | c :: cs => by
    rw [toEol.eq_def]
    split
    · rename_i h; cases h
    · rename_i q h; exact ⟨'\n' :: q, h, by simp, .inr (.inl ⟨q, rfl⟩)⟩
    · rename_i q h; exact ⟨'\r' :: '\n' :: q, h, by simp, .inr (.inr ⟨q, rfl⟩)⟩
    · rename_i d ds h1 h2 h3
      simp only [List.cons.injEq] at h3
      obtain ⟨rfl, rfl⟩ := h3
      obtain ⟨post, e, h4, h5⟩ := toEol_spec cs
      refine ⟨post, by rw [List.cons_append, ← e], ?_, h5⟩
      intro hm
      rcases List.mem_cons.1 hm with hm | hm
      · exact h1 hm.symm
      · exact h4 hm

/-- The line that is shown, and the column. -/
theorem lineAt_spec (before place : List Char) : ∃ pre part rest post, before = pre ++ part ∧ place = rest ++ post ∧
    lineAt (before ++ place) (posOf (before ++ place) place) = part ++ rest ∧
    caret (posOf (before ++ place) place).column = List.replicate part.length ' ' ++ ['^'] ∧
    (pre = [] ∨ ∃ q, pre = q ++ ['\n']) ∧ '\n' ∉ part ++ rest ∧
    (post = [] ∨ (∃ q, post = '\n' :: q) ∨ ∃ q, post = '\r' :: '\n' :: q) := by
  obtain ⟨pre, part, h1, h2, h3, h4⟩ := C118_position before place
  obtain ⟨post, h5, h6, h7⟩ := toEol_spec place
  refine ⟨pre, part, toEol place, post, h1, h5, ?_, by simp [h4, caret], h2, by simp [h3, h6], h7⟩
  rw [h4, lineAt]
  have e1 : (before ++ place).drop before.length = place := by simp
  have e2 : (before ++ place).drop (before.length - part.length) = part ++ place := by
    rw [h1, List.length_append, Nat.add_sub_cancel, List.append_assoc, List.drop_left]
  simp only [Nat.add_sub_cancel, e1, e2]
  conv_lhs => rw [h5, ← List.append_assoc]
  rw [List.take_append_of_le_length (by rw [← h5]; simp)]
  rw [← h5]
  exact List.take_of_length_le (by simp)

/-! ## The names of the definitions -/

section
variable {K : Type} [Field K] [LinearOrder K] [IsStrictOrderedRing K] [Arith K] [Strtod K]

/-- Names of definitions. -/
def KeysN (sp : Specification K) : Prop := (∀ p ∈ sp.formulas, IsName p.1) ∧ ∀ p ∈ sp.assertions, IsName p.1

theorem addNew_keys {m m' : List (String × Expr K)} {n : String} {e : Expr K} (h : addNew m n e = .ok m')
    (hm : ∀ p ∈ m, IsName p.1) (hn : IsName n) : ∀ p ∈ m', IsName p.1 := by
  obtain ⟨rfl, -⟩ := addNew_ok h
  intro p hp
  rcases List.mem_append.1 hp with hp | hp
  · exact hm p hp
  · simp at hp; subst hp; exact hn

theorem cmd_keys {nd : Bool} {sp sp' : Specification K} {c : RawCmd} (hc : RawCmdOk c) (hsp : KeysN sp)
    (h : c.eval nd sp = .ok sp') : KeysN sp' := by
  cases hc with
  | define hn ht =>
    obtain ⟨es, h1, ha⟩ := Outcome.bind_eq_ok.1 h
    obtain ⟨e, h2, hb⟩ := Outcome.bind_eq_ok.1 ha
    obtain ⟨m, h3, h4⟩ := Outcome.bind_eq_ok.1 hb
    simp only [Outcome.pure_eq_ok, Outcome.ok.injEq] at h4
    subst h4
    exact ⟨addNew_keys h3 hsp.1 hn, hsp.2⟩
  | assert hn ht =>
    obtain ⟨es, h1, ha⟩ := Outcome.bind_eq_ok.1 h
    obtain ⟨e, h2, hb⟩ := Outcome.bind_eq_ok.1 ha
    obtain ⟨m, h3, h4⟩ := Outcome.bind_eq_ok.1 hb
    simp only [Outcome.pure_eq_ok, Outcome.ok.injEq] at h4
    subst h4
    exact ⟨hsp.1, addNew_keys h3 hsp.2 hn⟩

theorem evalRaws_keys {nd : Bool} : ∀ {cs : List RawCmd} {sp sp' : Specification K}, (∀ c ∈ cs, RawCmdOk c) →
    KeysN sp → evalRaws nd sp cs = .ok sp' → KeysN sp'
  | [], sp, sp', _, hsp, h => by cases h; exact hsp
  | c :: cs, sp, sp', hc, hsp, h => by
    rw [evalRaws] at h
    obtain ⟨sp1, h1, h2⟩ := Outcome.bind_eq_ok.1 h
    exact evalRaws_keys (fun x hx => hc x (by simp [hx])) (cmd_keys (hc c (by simp)) hsp h1) h2

theorem parsed_keys {nd : Bool} {fuel : Nat} {w : List Char} (hf : w.length < fuel) {sp : Specification K}
    (h : fromString nd fuel w = .ok sp) : KeysN sp := by
  obtain ⟨gs, hgs, ht⟩ := fromString_accepts h
  rw [fromString_rawText hgs ht nd hf] at h
  refine evalRaws_keys (fun c hc => ?_) ⟨by simp, by simp⟩ h
  obtain ⟨cs, hcs, hc⟩ := List.mem_flatten.1 hc
  exact hgs cs hcs c hc

/-! ## Reading the listing -/

/-- A definition up to the brackets of Until, which the text does not show. -/
def shown (p : String × Expr K) : String × Expr K := (p.1, rebracket p.2)

variable {num : D K → List Char}

/-- One line of the listing. -/
def defLine (num : D K → List Char) (p : String × Expr K) : List Char :=
  '\t' :: (p.1.toList ++ (" := ".toList ++ (expr num p.2 ++ ['\n'])))

theorem defLine_shown (p : String × Expr K) : defLine num (shown p) = defLine num p := by
  simp only [defLine, shown, expr_rebracket]

theorem noU_nl (x : List Char) : NoU ('\n' :: x) := by intro y h; simp at h

theorem lines_inj (hf : Faithful num) : ∀ l l' : List (String × Expr K),
    (∀ p ∈ l, PlainName p.1 ∧ PrintableU p.2) → (∀ p ∈ l', PlainName p.1 ∧ PrintableU p.2) →
    l.flatMap (defLine num) = l'.flatMap (defLine num) → l.map shown = l'.map shown
  | [], [], _, _, _ => rfl
  | [], p :: l, _, _, h => by simp [defLine] at h
  | p :: l, [], _, _, h => by simp [defLine] at h
  | p :: l, p' :: l', h1, h2, h => by
    simp only [List.flatMap_cons, defLine, List.cons_append, List.append_assoc, List.cons.injEq, true_and,
      List.nil_append] at h
    have hs : " := ".toList = ' ' :: ":= ".toList := by decide
    rw [hs] at h
    simp only [List.cons_append] at h
    obtain ⟨hn, hp⟩ := h1 p (by simp)
    obtain ⟨hn', hp'⟩ := h2 p' (by simp)
    obtain ⟨e1, e2⟩ := text_split (fun hm => (hn _ hm).1 rfl) (fun hm => (hn' _ hm).1 rfl) h
    have e3 := List.append_cancel_left e2
    rw [← expr_rebracket p.2, ← expr_rebracket p'.2] at e3
    obtain ⟨e4, e5⟩ := readsU hf (nf_rebracketU hp) _ (nf_rebracketU hp') _ _ (fun _ => ⟨noU_nl _, noU_nl _⟩) e3
    simp only [List.cons.injEq, true_and] at e5
    rw [List.map_cons, List.map_cons, lines_inj hf l l' (fun q hq => h1 q (by simp [hq]))
      (fun q hq => h2 q (by simp [hq])) e5]
    simp only [shown, e4, String.toList_inj.1 e1]

theorem listing_eq (m : List (String × Expr K)) :
    listing num m = "Parsed formulas are:\n".toList ++ (byName m).flatMap (defLine num) := rfl

theorem byName_perm (m : List (String × Expr K)) : (byName m).Perm m := List.mergeSort_perm _ _

theorem byName_sorted (m : List (String × Expr K)) : (byName m).Pairwise fun p q => p.1 ≤ q.1 := by
  have := List.pairwise_mergeSort (le := fun p q : String × Expr K => decide (p.1 ≤ q.1))
    (fun a b c h1 h2 => by simp only [decide_eq_true_eq] at *; exact le_trans h1 h2)
    (fun a b => by simp only [Bool.or_eq_true, decide_eq_true_eq]; exact le_total _ _) m
  exact this.imp fun h => by simpa using h

theorem byName_strict {m : List (String × Expr K)} (h : (m.map Prod.fst).Nodup) :
    (byName m).Pairwise fun p q => p.1 < q.1 := by
  have h1 : ((byName m).map Prod.fst).Nodup := ((byName_perm m).map Prod.fst).nodup_iff.2 h
  have h2 := byName_sorted m
  rw [List.Nodup, List.pairwise_map] at h1
  exact (h2.and h1).imp fun h => lt_of_le_of_ne h.1 h.2

theorem shown_eq {m m' : List (String × Expr K)} (h : (m.map Prod.fst).Nodup) (h' : (m'.map Prod.fst).Nodup)
    (hp : (m.map shown).Perm (m'.map shown)) : (byName m).map shown = (byName m').map shown := by
  have e : ((byName m).map shown).Perm ((byName m').map shown) :=
    ((byName_perm m).map shown).trans (hp.trans ((byName_perm m').map shown).symm)
  have s1 : ((byName m).map shown).Pairwise fun p q => p.1 < q.1 := by
    rw [List.pairwise_map]; exact byName_strict h
  have s2 : ((byName m').map shown).Pairwise fun p q => p.1 < q.1 := by
    rw [List.pairwise_map]; exact byName_strict h'
  exact e.eq_of_pairwise (fun a b _ _ h1 h2 => absurd (lt_trans h1 h2) (lt_irrefl _)) s1 s2

end
end Verif
