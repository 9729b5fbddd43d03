import Verif.Proofs.ParserTotal

/-!
# More fuel does not change the result of the parser
-/

set_option linter.unusedSectionVars false

namespace Verif
namespace Rule
variable {K : Type}

/-- `r'` does what `r` does, unless `r` runs out of fuel. -/
def Ext (r r' : Rule K) : Prop := ∀ inp st, r inp st ≠ .diverge → r' inp st = r inp st

theorem Ext.refl (r : Rule K) : Ext r r := fun _ _ _ => rfl

/-- One step of a rule, continued in two ways. -/
theorem bind_ext {r r' : Rule K} (h : Ext r r') {inp : List Char} {st : PState K} {β : Type}
    {k k' : Option (List Char) × PState K → Outcome β}
    (hk : ∀ p, k p ≠ .diverge → k' p = k p) (hd : (r inp st >>= k) ≠ .diverge) :
    (r' inp st >>= k') = (r inp st >>= k) := by
  have h1 : r inp st ≠ .diverge := fun e => hd (by rw [e]; rfl)
  rw [h inp st h1]
  cases e : r inp st with
  | ok p =>
    rw [e] at hd
    exact hk p hd
  | _ => rfl

theorem seq_ext {r1 r1' r2 r2' : Rule K} (h1 : Ext r1 r1') (h2 : Ext r2 r2') :
    Ext (seq r1 r2) (seq r1' r2') := by
  intro inp st hd
  refine bind_ext h1 ?_ hd
  rintro ⟨o, st'⟩ hk
  cases o with
  | none => rfl
  | some rest => exact h2 _ _ hk

theorem sor_ext {r1 r1' r2 r2' : Rule K} (h1 : Ext r1 r1') (h2 : Ext r2 r2') :
    Ext (sor r1 r2) (sor r1' r2') := by
  intro inp st hd
  refine bind_ext h1 ?_ hd
  rintro ⟨o, st'⟩ hk
  cases o with
  | none => exact h2 _ _ hk
  | some rest => rfl

theorem must_ext {r r' : Rule K} (h : Ext r r') : Ext (must r) (must r') := by
  intro inp st hd
  refine bind_ext h ?_ hd
  rintro ⟨o, st'⟩ hk
  cases o <;> rfl

theorem ifMust_ext {r1 r1' r2 r2' : Rule K} (h1 : Ext r1 r1') (h2 : Ext r2 r2') :
    Ext (ifMust r1 r2) (ifMust r1' r2') := seq_ext h1 (must_ext h2)

theorem act_ext {r r' : Rule K} (f : PState K → Outcome (PState K)) (h : Ext r r') :
    Ext (act r f) (act r' f) := by
  intro inp st hd
  refine bind_ext h ?_ hd
  rintro ⟨o, st'⟩ hk
  cases o <;> rfl

theorem onNewState_ext {r r' : Rule K} (h : Ext r r') : Ext (onNewState r) (onNewState r') := by
  intro inp st hd
  exact bind_ext h (fun _ _ => rfl) hd

theorem until_ext {c c' r r' : Rule K} (hc : Ext c c') (hr : Ext r r') :
    ∀ {n m}, n ≤ m → Ext (until_ c r n) (until_ c' r' m) := by
  intro n
  induction n with
  | zero => intro m _ inp st hd; exact absurd rfl hd
  | succ n ih =>
    intro m hm inp st hd
    obtain ⟨m, rfl⟩ : ∃ m', m = m' + 1 := ⟨m - 1, by omega⟩
    rw [until_] at hd ⊢
    rw [until_]
    refine bind_ext hc ?_ hd
    rintro ⟨o, st'⟩ hk
    cases o with
    | some rest => rfl
    | none =>
      refine bind_ext hr ?_ hk
      rintro ⟨o, st''⟩ hk'
      cases o with
      | none => rfl
      | some rest => exact ih (by omega) _ _ hk'

theorem star_ext {r r' : Rule K} (hr : Ext r r') : ∀ {n m}, n ≤ m → Ext (star r n) (star r' m) := by
  intro n
  induction n with
  | zero => intro m _ inp st hd; exact absurd rfl hd
  | succ n ih =>
    intro m hm inp st hd
    obtain ⟨m, rfl⟩ : ∃ m', m = m' + 1 := ⟨m - 1, by omega⟩
    rw [star] at hd ⊢
    rw [star]
    refine bind_ext hr ?_ hd
    rintro ⟨o, st'⟩ hk
    cases o with
    | none => rfl
    | some rest => exact ih (by omega) _ _ hk

theorem plus_ext {r r' : Rule K} (hr : Ext r r') {n m : Nat} (h : n ≤ m) : Ext (plus r n) (plus r' m) :=
  seq_ext hr (star_ext hr h)

section
variable [Field K] [LinearOrder K] [Arith K] [Strtod K]

theorem expression_ext (nd : Bool) {n m : Nat} (h : n ≤ m) {t t' : Rule K} (ht : Ext t t') :
    Ext (expression nd n t) (expression nd m t') := by
  have h2 := seq_ext ht ht
  have hp := plus_ext ht h
  have hm := seq_ext (must_ext ht) (must_ext ht)
  refine sor_ext (.refl _) <| sor_ext (act_ext _ (ifMust_ext (.refl _) ht)) <|
    sor_ext (act_ext _ (ifMust_ext (.refl _) hp)) <| sor_ext (act_ext _ (ifMust_ext (.refl _) hp)) <|
    sor_ext (act_ext _ (ifMust_ext (.refl _) h2)) <| sor_ext (act_ext _ (ifMust_ext (.refl _) h2)) <|
    sor_ext (act_ext _ (ifMust_ext (.refl _) h2)) <| sor_ext (act_ext _ (ifMust_ext (.refl _) ht)) <|
    sor_ext (act_ext _ (ifMust_ext (.refl _) ht)) <| sor_ext (act_ext _ (ifMust_ext (.refl _) hm)) ht

theorem term_ext (nd : Bool) : ∀ {n m}, n ≤ m → Ext (K := K) (term nd n) (term nd m) := by
  intro n
  induction n with
  | zero => intro m _ inp st hd; exact absurd rfl hd
  | succ n ih =>
    intro m hm
    obtain ⟨m, rfl⟩ : ∃ m', m = m' + 1 := ⟨m - 1, by omega⟩
    have hm' : n ≤ m := by omega
    rw [term, term]
    exact onNewState_ext (act_ext _ (sor_ext (ifMust_ext (.refl _)
      (until_ext (.refl _) (expression_ext nd hm' (ih hm')) hm')) (.refl _)))

theorem anyCommand_ext (nd : Bool) {n m : Nat} (h : n ≤ m) :
    Ext (K := K) (anyCommand nd n) (anyCommand nd m) := by
  have ht := seq_ext (.refl (must identifier)) (must_ext (term_ext (K := K) nd h))
  exact ifMust_ext (.refl _) (until_ext (.refl _) (must_ext (sor_ext
    (act_ext _ (ifMust_ext (.refl _) ht)) (act_ext _ (ifMust_ext (.refl _) ht)))) h)

theorem specificationFile_ext (nd : Bool) {n m : Nat} (h : n ≤ m) :
    Ext (K := K) (specificationFile nd n) (specificationFile nd m) :=
  must_ext (seq_ext (.refl _) (until_ext (.refl _) (seq_ext (anyCommand_ext nd h) (.refl _)) h))

end
end Rule

section
variable {K : Type} [Field K] [LinearOrder K] [Arith K] [Strtod K]

theorem fromString_ne_diverge (nd : Bool) {fuel : Nat} {input : List Char} (h : input.length < fuel) :
    fromString (K := K) nd fuel input ≠ .diverge := by
  unfold fromString
  refine Rule.bind_ends (Rule.specificationFile_safe nd fuel input {} h).1 ?_
  rintro ⟨o, st⟩
  cases o <;> simp

theorem fromString_fuel (nd : Bool) {n m : Nat} {input : List Char} (h : input.length < n) (hm : n ≤ m) :
    fromString (K := K) nd m input = fromString nd n input := by
  unfold fromString
  refine Rule.bind_ext (Rule.specificationFile_ext nd hm) (fun _ _ => rfl) ?_
  exact fromString_ne_diverge nd h

end
end Verif
