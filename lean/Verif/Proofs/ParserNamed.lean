import Verif.Proofs.ParserClosed
import Verif.Proofs.Size
import Verif.Proofs.PrintUntil

/-!
# Invariants of parsed formulas that depend on the form of names

Helper lemmas for C59.
-/

set_option linter.unusedSectionVars false
set_option linter.unusedVariables false

namespace Verif
open Spec Rule

section
variable {K : Type} [Field K] [LinearOrder K] [IsStrictOrderedRing K] [Arith K] [Strtod K]

/-- A property kept by what the parser does, with names of the grammar. -/
structure ClosedN (P : Expr K → Prop) : Prop where
  const : ∀ b, P (.const b)
  pred : ∀ n op c, IsName n → P (.pred n op c)
  un : ∀ (o : UnOp) e, P e → P (o.apply e)
  nary : ∀ (o : NaryOp) l r, 2 ≤ l.length → (∀ e ∈ l, P e) → o.apply l = .ok r → P r
  bin : ∀ (o : BinOp) a b r, P a → P b → o.apply a b = .ok r → P r

/-- It holds of everything that is left. -/
def LeftP (P : Expr K → Prop) (l : Left K) : Prop := (∀ e, l.value = some e → P e) ∧ ∀ e ∈ l.terms, P e

theorem left_un_named {P : Expr K → Prop} (hP : ClosedN P) {nd : Bool} {o : UnOp} {l l' : Left K}
    (hl : ∀ e ∈ l.terms, P e) (h : Left.un nd o l = .ok l') : LeftP P l' := by
  unfold Left.un at h
  split at h
  · cases h
  · split at h
    · rename_i e rest he
      cases h
      have hm : ∀ x ∈ e :: rest, P x := fun x hx => hl x (by rw [← List.mem_reverse, he]; exact hx)
      exact ⟨fun x hx => by cases hx; exact hP.un o e (hm e (by simp)),
        fun x hx => hm x (by simp at hx ⊢; exact .inr hx)⟩
    · cases h

theorem left_nary_named {P : Expr K → Prop} (hP : ClosedN P) {o : NaryOp} {l l' : Left K}
    (hl : ∀ e ∈ l.terms, P e) (h : Left.nary o l = .ok l') : LeftP P l' := by
  unfold Left.nary at h
  split at h
  · cases h
  · rename_i hlen
    obtain ⟨e, he, h⟩ := Outcome.bind_eq_ok.1 h
    cases h
    exact ⟨fun x hx => by cases hx; exact hP.nary o _ _ (by omega) hl he, by simp⟩

theorem left_bin_named {P : Expr K → Prop} (hP : ClosedN P) {nd : Bool} {o : BinOp} {l l' : Left K}
    (hl : ∀ e ∈ l.terms, P e) (h : Left.bin nd o l = .ok l') : LeftP P l' := by
  unfold Left.bin at h
  split at h
  · cases h
  · split at h
    · rename_i b a rest he
      have hm : ∀ x ∈ b :: a :: rest, P x := fun x hx => hl x (by rw [← List.mem_reverse, he]; exact hx)
      obtain ⟨e, he, h⟩ := Outcome.bind_eq_ok.1 h
      cases h
      exact ⟨fun x hx => by cases hx; exact hP.bin o a b _ (hm a (by simp)) (hm b (by simp)) he,
        fun x hx => hm x (by simp at hx ⊢; exact .inr (.inr hx))⟩
    · cases h

mutual
theorem raw_named {P : Expr K → Prop} (hP : ClosedN P) {nd : Bool} {env : String → Option (Expr K)}
    (henv : ∀ n e, env n = some e → P e) : ∀ {r : Raw} {es : List (Expr K)},
    RawOk r → r.eval nd env = .ok es → ∀ e ∈ es, P e
  | .tru, es, _, h => by
    rw [Raw.eval] at h; cases h
    intro e he; simp at he; subst he; exact hP.const _
  | .fls, es, _, h => by
    rw [Raw.eval] at h; cases h
    intro e he; simp at he; subst he; exact hP.const _
  | .ref n, es, _, h => by
    rw [Raw.eval] at h
    split at h
    · rename_i e he
      cases h
      intro x hx; simp at hx; subst hx; exact henv n _ he
    · cases h
  | .paren is, es, hr, h => by
    rw [Raw.eval] at h
    obtain ⟨l, h1, h2⟩ := Outcome.bind_eq_ok.1 h
    cases hr with
    | paren hr =>
    have hl := items_named hP henv hr (l := {}) ⟨by simp, by simp⟩ h1
    split at h2
    · rename_i e he
      cases h2
      intro x hx
      rcases List.mem_append.1 hx with hx | hx
      · exact hl.2 x hx
      · simp at hx; subst hx; exact hl.1 _ he
    · cases h2
theorem raws_named {P : Expr K → Prop} (hP : ClosedN P) {nd : Bool} {env : String → Option (Expr K)}
    (henv : ∀ n e, env n = some e → P e) : ∀ {ts : List Raw} {es : List (Expr K)},
    RawsOk ts → Raw.evalAll nd env ts = .ok es → ∀ e ∈ es, P e
  | [], es, _, h => by
    rw [Raw.evalAll] at h; cases h
    simp
  | t :: ts, es, hr, h => by
    rw [Raw.evalAll] at h
    obtain ⟨e1, h1, h'⟩ := Outcome.bind_eq_ok.1 h
    obtain ⟨e2, h2, h3⟩ := Outcome.bind_eq_ok.1 h'
    simp only [Outcome.pure_eq_ok, Outcome.ok.injEq] at h3
    subst h3
    cases hr with
    | cons hr hrs =>
    have i1 := raw_named hP henv hr h1
    have i2 := raws_named hP henv hrs h2
    intro e he
    rcases List.mem_append.1 he with he | he
    · exact i1 e he
    · exact i2 e he
theorem item_named {P : Expr K → Prop} (hP : ClosedN P) {nd : Bool} {env : String → Option (Expr K)}
    (henv : ∀ n e, env n = some e → P e) : ∀ {i : Item} {l l' : Left K},
    ItemOk i → LeftP P l → Item.eval nd env i l = .ok l' → LeftP P l'
  | .cmp o n c, l, l', hi, hl, h => by
    rw [Item.eval] at h
    obtain ⟨d, -, h⟩ := Outcome.bind_eq_ok.1 h
    cases h
    cases hi with
    | cmp hi => exact ⟨fun x hx => by cases hx; exact hP.pred _ _ _ hi, hl.2⟩
  | .un o t, l, l', hi, hl, h => by
    rw [Item.eval] at h
    obtain ⟨es, h1, h2⟩ := Outcome.bind_eq_ok.1 h
    cases hi with
    | un hi =>
    have := raw_named hP henv hi h1
    refine left_un_named hP (fun e he => ?_) h2
    rcases List.mem_append.1 he with he | he
    · exact hl.2 e he
    · exact this e he
  | .nary o ts, l, l', hi, hl, h => by
    rw [Item.eval] at h
    obtain ⟨es, h1, h2⟩ := Outcome.bind_eq_ok.1 h
    cases hi with
    | nary _ hi =>
    have := raws_named hP henv hi h1
    refine left_nary_named hP (fun e he => ?_) h2
    rcases List.mem_append.1 he with he | he
    · exact hl.2 e he
    · exact this e he
  | .bin o a b, l, l', hi, hl, h => by
    rw [Item.eval] at h
    obtain ⟨es, h1, h'⟩ := Outcome.bind_eq_ok.1 h
    obtain ⟨es', h2, h3⟩ := Outcome.bind_eq_ok.1 h'
    cases hi with
    | bin ha hb =>
    have i1 := raw_named hP henv ha h1
    have i2 := raw_named hP henv hb h2
    refine left_bin_named hP (fun e he => ?_) h3
    rcases List.mem_append.1 he with he | he
    · rcases List.mem_append.1 he with he | he
      · exact hl.2 e he
      · exact i1 e he
    · exact i2 e he
  | .term t, l, l', hi, hl, h => by
    rw [Item.eval] at h
    obtain ⟨es, h1, h2⟩ := Outcome.bind_eq_ok.1 h
    simp only [Outcome.pure_eq_ok, Outcome.ok.injEq] at h2
    subst h2
    cases hi with
    | term hi _ =>
    have := raw_named hP henv hi h1
    refine ⟨hl.1, fun e he => ?_⟩
    rcases List.mem_append.1 he with he | he
    · exact hl.2 e he
    · exact this e he
theorem items_named {P : Expr K → Prop} (hP : ClosedN P) {nd : Bool} {env : String → Option (Expr K)}
    (henv : ∀ n e, env n = some e → P e) : ∀ {is : List Item} {l l' : Left K},
    ItemsOk is → LeftP P l → Item.evalAll nd env is l = .ok l' → LeftP P l'
  | [], l, l', _, hl, h => by
    rw [Item.evalAll] at h; cases h; exact hl
  | i :: is, l, l', hi, hl, h => by
    rw [Item.evalAll] at h
    obtain ⟨l1, h1, h2⟩ := Outcome.bind_eq_ok.1 h
    cases hi with
    | cons hi his _ => exact items_named hP henv his (item_named hP henv hi hl h1) h2
end

/-- It holds of all formulas and assertions. -/
def SpecP (P : Expr K → Prop) (sp : Specification K) : Prop :=
  (∀ p ∈ sp.formulas, P p.2) ∧ ∀ p ∈ sp.assertions, P p.2

theorem find_named {P : Expr K → Prop} {m : List (String × Expr K)} (h : ∀ p ∈ m, P p.2) :
    ∀ n e, find m n = some e → P e := by
  intro n e he
  unfold find at he
  obtain ⟨p, hp, rfl⟩ := Option.map_eq_some_iff.1 he
  exact h p (List.mem_of_find?_eq_some hp)

theorem addNew_named {P : Expr K → Prop} {m m' : List (String × Expr K)} {n : String} {e : Expr K}
    (h : addNew m n e = .ok m') (hm : ∀ p ∈ m, P p.2) (he : P e) : ∀ p ∈ m', P p.2 := by
  obtain ⟨rfl, -⟩ := addNew_ok h
  intro p hp
  rcases List.mem_append.1 hp with hp | hp
  · exact hm p hp
  · simp at hp; subst hp; exact he

theorem cmd_named {P : Expr K → Prop} (hP : ClosedN P) {nd : Bool} {sp sp' : Specification K} {c : RawCmd}
    (hc : RawCmdOk c) (hsp : SpecP P sp) (h : c.eval nd sp = .ok sp') : SpecP P sp' := by
  cases hc with
  | define _ ht =>
    obtain ⟨es, h1, ha⟩ := Outcome.bind_eq_ok.1 h
    obtain ⟨e, h2, hb⟩ := Outcome.bind_eq_ok.1 ha
    obtain ⟨m, h3, h4⟩ := Outcome.bind_eq_ok.1 hb
    simp only [Outcome.pure_eq_ok, Outcome.ok.injEq] at h4
    subst h4
    exact ⟨addNew_named h3 hsp.1 (raw_named hP (find_named hsp.1) ht h1 _ (theTerm_mem h2)), hsp.2⟩
  | assert _ ht =>
    obtain ⟨es, h1, ha⟩ := Outcome.bind_eq_ok.1 h
    obtain ⟨e, h2, hb⟩ := Outcome.bind_eq_ok.1 ha
    obtain ⟨m, h3, h4⟩ := Outcome.bind_eq_ok.1 hb
    simp only [Outcome.pure_eq_ok, Outcome.ok.injEq] at h4
    subst h4
    exact ⟨hsp.1, addNew_named h3 hsp.2 (raw_named hP (find_named hsp.1) ht h1 _ (theTerm_mem h2))⟩

theorem evalRaws_named {P : Expr K → Prop} (hP : ClosedN P) {nd : Bool} : ∀ {cs : List RawCmd}
    {sp sp' : Specification K}, (∀ c ∈ cs, RawCmdOk c) → SpecP P sp → evalRaws nd sp cs = .ok sp' → SpecP P sp'
  | [], sp, sp', _, hsp, h => by cases h; exact hsp
  | c :: cs, sp, sp', hc, hsp, h => by
    rw [evalRaws] at h
    obtain ⟨sp1, h1, h2⟩ := Outcome.bind_eq_ok.1 h
    exact evalRaws_named hP (fun x hx => hc x (by simp [hx])) (cmd_named hP (hc c (by simp)) hsp h1) h2

/-- Everything that the parser returns. -/
theorem parsed_named {P : Expr K → Prop} (hP : ClosedN P) {nd : Bool} {fuel : Nat} {w : List Char}
    (hf : w.length < fuel) {sp : Specification K} (h : fromString nd fuel w = .ok sp) : SpecP P sp := by
  obtain ⟨gs, hgs, ht⟩ := fromString_accepts h
  rw [fromString_rawText hgs ht nd hf] at h
  refine evalRaws_named hP (fun c hc => ?_) ⟨by simp, by simp⟩ h
  obtain ⟨cs, hcs, hc⟩ := List.mem_flatten.1 hc
  exact hgs cs hcs c hc

/-! ## Printable formulas -/

theorem plain_of_name {n : String} (h : IsName n) : PlainName n := by
  obtain ⟨c, cs, hn, hc, hcs⟩ := h
  intro d hd
  rw [hn] at hd
  have : d.isAlphanum = true ∨ d = '_' := by
    rcases List.mem_cons.1 hd with rfl | hd
    · rcases hc with hc | hc
      · exact .inl (by simp [Char.isAlphanum, hc])
      · exact .inr hc
    · exact hcs d hd
  refine ⟨?_, ?_, ?_, ?_⟩ <;> rintro rfl <;> rcases this with h | h <;> revert h <;> decide

theorem Not_printable {e : Expr K} (h : PrintableU e) : PrintableU (.Not e) := by
  unfold Expr.Not
  split
  · exact .const _
  · exact .not h

theorem And_printable {l : List (Expr K)} {r : Expr K} (hl : ∀ e ∈ l, PrintableU e) (h : Expr.And l = .ok r) :
    PrintableU r := by
  obtain ⟨rfl, h2⟩ := And_ok h
  exact .and h2 hl

theorem Or_printable {l : List (Expr K)} {r : Expr K} (hl : ∀ e ∈ l, PrintableU e) (h : Expr.Or l = .ok r) :
    PrintableU r := by
  obtain ⟨rfl, h2⟩ := Or_ok h
  exact .or h2 hl

theorem andOp_printable {a b r : Expr K} (ha : PrintableU a) (hb : PrintableU b) (h : Expr.andOp a b = .ok r) :
    PrintableU r := by
  unfold Expr.andOp at h
  split at h
  · next c =>
    cases h
    split
    · exact hb
    · exact .const _
  · next args =>
    cases ha with
    | and _ ha =>
    unfold Expr.andHelper at h
    split at h
    · refine And_printable (fun e he => ?_) h
      split at he
      · simp at he; subst he; exact .const _
      · exact ha e he
    · cases hb with
      | and _ hb =>
      refine And_printable (fun e he => ?_) h
      rcases List.mem_append.1 he with he | he
      · exact ha e he
      · exact hb e he
    · refine And_printable (fun e he => ?_) h
      rcases List.mem_append.1 he with he | he
      · exact ha e he
      · simp at he; subst he; exact hb
  · refine And_printable (fun e he => ?_) h
    simp at he
    rcases he with rfl | rfl <;> assumption

theorem orOp_printable {a b r : Expr K} (ha : PrintableU a) (hb : PrintableU b) (h : Expr.orOp a b = .ok r) :
    PrintableU r := by
  unfold Expr.orOp at h
  split at h
  · next c =>
    cases h
    split
    · exact hb
    · exact .const _
  · next args =>
    cases ha with
    | or _ ha =>
    unfold Expr.orHelper at h
    split at h
    · refine Or_printable (fun e he => ?_) h
      split at he
      · simp at he; subst he; exact .const _
      · exact ha e he
    · cases hb with
      | or _ hb =>
      refine Or_printable (fun e he => ?_) h
      rcases List.mem_append.1 he with he | he
      · exact ha e he
      · exact hb e he
    · refine Or_printable (fun e he => ?_) h
      rcases List.mem_append.1 he with he | he
      · exact ha e he
      · simp at he; subst he; exact hb
  · refine Or_printable (fun e he => ?_) h
    simp at he
    rcases he with rfl | rfl <;> assumption

theorem printable_closed : ClosedN (K := K) PrintableU where
  const := fun b => .const b
  pred := fun n op c h => .pred (plain_of_name h)
  un := fun o e h => by
    cases o
    · exact Not_printable h
    · exact .always h
    · exact .eventually h
  nary := fun o l r h2 h e => by
    cases o
    · exact And_printable h e
    · exact Or_printable h e
  bin := fun o a b r ha hb e => by
    cases o with
    | implies => exact orOp_printable (Not_printable ha) hb e
    | iff =>
      obtain ⟨p, hp, e'⟩ := Outcome.bind_eq_ok.1 e
      obtain ⟨q, hq, e''⟩ := Outcome.bind_eq_ok.1 e'
      exact orOp_printable (andOp_printable ha hb hp)
        (andOp_printable (Not_printable ha) (Not_printable hb) hq) e''
    | xor =>
      obtain ⟨p, hp, e'⟩ := Outcome.bind_eq_ok.1 e
      obtain ⟨q, hq, e''⟩ := Outcome.bind_eq_ok.1 e'
      exact andOp_printable (orOp_printable ha hb hp)
        (orOp_printable (Not_printable ha) (Not_printable hb) hq) e''
    | untl => cases e; exact .untl ha hb

end
end Verif
