import Verif.Spec.PegStack
import Verif.Proofs.PegHalts
import Verif.Proofs.PegRules

/-!
# The depth of recursion: proofs
-/

set_option linter.unusedSectionVars false

namespace Verif
namespace Peg

variable {N S : Type}

/-! ## The machine with a stack gives no other result -/

theorem EvtR.diverge {F : Nat → Run S} : EvtR F (fun _ _ => .diverge) := fun _ _ h => (h rfl).elim

theorem stack_evt (g : Grammar N S) (l : Nat) : ∀ d a e, EvtR (fun m => g.run m a e) (g.stack l d a e)
  | 0, _, _ => EvtR.diverge
  | d + 1, a, e => by
    have ih := stack_evt g l d
    have star : ∀ x n, EvtR (fun m => g.run m a (.star x)) (loopR (g.stack l d a x) n) := by
      intro x n
      induction n with
      | zero => exact EvtR.diverge
      | succ n ihn => exact ((ih a x).starR ihn).step fun m => rfl
    cases e with
    | one cs => exact (EvtR.const _).step fun m => rfl
    | ranges rs => exact (EvtR.const _).step fun m => rfl
    | str s => exact (EvtR.const _).step fun m => rfl
    | eof => exact (EvtR.const _).step fun m => rfl
    | eolf => exact (EvtR.const _).step fun m => rfl
    | seq x y => exact ((ih a x).thenR (ih a y)).step fun m => rfl
    | sor x y => exact ((ih a x).elseR (ih a y)).step fun m => rfl
    | star x => exact star x l
    | plus x => exact ((ih a x).thenR (star x l)).step fun m => rfl
    | opt x => exact (ih a x).optR.step fun m => rfl
    | notAt x => exact (ih false x).notAtR.step fun m => rfl
    | untilAny c =>
      have h : ∀ n, EvtR (fun m => g.run m a (.untilAny c)) (untilR (g.stack l d a c) anyR n) := by
        intro n
        induction n with
        | zero => exact EvtR.diverge
        | succ n ihn => exact ((ih a c).elseR ((EvtR.const anyR).thenR ihn)).step fun m => rfl
      exact h l
    | untl c x =>
      have h : ∀ n, EvtR (fun m => g.run m a (.untl c x)) (untilR (g.stack l d a c) (g.stack l d a x) n) := by
        intro n
        induction n with
        | zero => exact EvtR.diverge
        | succ n ihn => exact ((ih a c).elseR ((ih a x).thenR ihn)).step fun m => rfl
      exact h l
    | must x => exact (ih a x).mustR.step fun m => rfl
    | disable x => exact (ih false x).step fun m => rfl
    | nt x => exact ((ih a (g.rules x)).wrap (g.action x) a).step fun m => rfl

/-! ## A stack that is deep enough -/

/-- Nested combinators in a rule. -/
def Exp.height : Exp N → Nat
  | .one _ => 1
  | .ranges _ => 1
  | .str _ => 1
  | .eof => 1
  | .eolf => 1
  | .seq a b => max a.height b.height + 1
  | .sor a b => max a.height b.height + 1
  | .star a => a.height + 1
  | .plus a => a.height + 1
  | .opt a => a.height + 1
  | .notAt a => a.height + 1
  | .untilAny c => c.height + 1
  | .untl c a => max c.height a.height + 1
  | .must a => a.height + 1
  | .disable a => a.height + 1
  | .nt _ => 1

/-- A known number of at least this size. -/
def atLeast (k : Int) : Option Int → Bool
  | some b => k ≤ b
  | none => false

/-- A match lowers the measure, or leaves it as it is. -/
def keeps (bal : Exp N → Option Int) (e : Exp N) : Bool := atLeast 0 (bal e)

/-- A match lowers the measure. -/
def drops (bal : Exp N → Option Int) (e : Exp N) : Bool := atLeast 1 (bal e)

/-- All names that the rule can call before it has lowered the measure are fine.  After a rule that may raise the
measure only rules without recursion (`flat`) may follow. -/
def Exp.deep (bal : Exp N → Option Int) (flat : Exp N → Bool) (fine : N → Bool) : Exp N → Bool
  | .one _ => true
  | .ranges _ => true
  | .str _ => true
  | .eof => true
  | .eolf => true
  | .seq a b => a.deep bal flat fine &&
    ((drops bal a && b.deep bal flat fun _ => true) || (keeps bal a && b.deep bal flat fine) || flat b)
  | .sor a b => a.deep bal flat fine && b.deep bal flat fine
  | .star a => a.deep bal flat fine && (keeps bal a || flat a)
  | .plus a => a.deep bal flat fine && (keeps bal a || flat a)
  | .opt a => a.deep bal flat fine
  | .notAt a => a.deep bal flat fine
  | .untilAny c => flat c
  | .untl c a => c.deep bal flat fine && a.deep bal flat fine && keeps bal a
  | .must a => a.deep bal flat fine
  | .disable a => a.deep bal flat fine
  | .nt x => fine x

/-- Names are nested less deep than `n` before the measure is lowered. -/
def Grammar.deep (g : Grammar N S) (bal : Exp N → Option Int) (flat : Exp N → Bool) : Nat → N → Bool
  | 0, _ => false
  | n + 1, x => (g.rules x).deep bal flat (g.deep bal flat n)

/-- A function of two numbers, if both are known. -/
def both (f : Int → Int → Int) : Option Int → Option Int → Option Int
  | some a, some b => some (f a b)
  | _, _ => none

/-- By how much a match lowers the measure at least, if characters lower it by `w` (at least 0 for those not in
`special`), and names by `known`. -/
def Exp.bal (special : List Char) (w : Char → Option Int) (known : N → Int) : Exp N → Option Int
  | .one cs => cs.foldr (fun c b => both min (w c) b) (some 1)
  | .ranges rs => if special.any (fun c => rs.any fun r => r.1 ≤ c && c ≤ r.2) then none else some 0
  | .str s => s.foldr (fun c b => both (· + ·) (w c) b) (some 0)
  | .eof => some 0
  | .eolf => none
  | .seq a b => both (· + ·) (a.bal special w known) (b.bal special w known)
  | .sor a b => both min (a.bal special w known) (b.bal special w known)
  | .star a => if atLeast 0 (a.bal special w known) then some 0 else none
  | .plus a => if atLeast 0 (a.bal special w known) then some 0 else none
  | .opt a => both min (some 0) (a.bal special w known)
  | .notAt _ => some 0
  | .untilAny _ => none
  | .untl c a => if atLeast 0 (a.bal special w known) then c.bal special w known else none
  | .must a => a.bal special w known
  | .disable a => a.bal special w known
  | .nt x => some (known x)

/-- `F` is below `G` on the inputs in `P`. -/
def BelowOn (P : List Char → Prop) (F G : Run S) : Prop :=
  ∀ inp st, P inp → F inp st ≠ .diverge → G inp st = F inp st

/-- `F` leads from `P` to `Q`. -/
def Leads (P Q : List Char → Prop) (F : Run S) : Prop :=
  ∀ inp st rest st', P inp → F inp st = .ok (some rest, st') → Q rest

theorem below_bind_ok {α β : Type} {o o' : Outcome α} {k k' : α → Outcome β} (h : o ≠ .diverge → o' = o)
    (hk : ∀ a, o = .ok a → k a ≠ .diverge → k' a = k a) (hd : (o >>= k) ≠ .diverge) :
    (o' >>= k') = (o >>= k) := by
  have h1 : o ≠ .diverge := by rintro rfl; exact hd rfl
  rw [h h1]
  cases o with
  | ok a => exact hk a rfl hd
  | _ => rfl

section
variable {P Q : List Char → Prop} {F F' G G' : Run S}

theorem BelowOn.refl (F : Run S) : BelowOn P F F := fun _ _ _ _ => rfl

theorem BelowOn.thenR (h1 : BelowOn P F F') (hq : Leads P Q F) (h2 : BelowOn Q G G') :
    BelowOn P (thenR F G) (thenR F' G') := fun inp st hp => below_bind_ok (h1 inp st hp) fun r hr => by
  match r, hr with
  | (some rest, st'), hr => exact h2 rest st' (hq inp st rest st' hp hr)
  | (none, st'), _ => exact fun _ => rfl

theorem BelowOn.elseR (h1 : BelowOn P F F') (h2 : BelowOn P G G') :
    BelowOn P (elseR F G) (elseR F' G') := fun inp st hp => below_bind_ok (h1 inp st hp) fun r hr => by
  match r, hr with
  | (some rest, st'), _ => exact fun _ => rfl
  | (none, st'), _ => exact h2 inp st' hp

theorem BelowOn.starR (h1 : BelowOn P F F') (hq : Leads P Q F) (h2 : BelowOn Q G G') :
    BelowOn P (starR F G) (starR F' G') := fun inp st hp => below_bind_ok (h1 inp st hp) fun r hr => by
  match r, hr with
  | (some rest, st'), hr => exact h2 rest st' (hq inp st rest st' hp hr)
  | (none, st'), _ => exact fun _ => rfl

theorem BelowOn.optR (h : BelowOn P F F') : BelowOn P (optR F) (optR F') := fun inp st hp =>
  below_bind (h inp st hp) fun _ _ => rfl

theorem BelowOn.notAtR (h : BelowOn P F F') : BelowOn P (notAtR F) (notAtR F') := fun inp st hp =>
  below_bind (h inp st hp) fun _ _ => rfl

theorem BelowOn.mustR (h : BelowOn P F F') : BelowOn P (mustR F) (mustR F') := fun inp st hp =>
  below_bind (h inp st hp) fun _ _ => rfl

theorem BelowOn.applied (p : List Char → S → Outcome S) (h : BelowOn P F F') :
    BelowOn P (applied p F) (applied p F') := fun inp st hp => below_bind (h inp st hp) fun _ _ => rfl

theorem BelowOn.wrap (x : Action S) (a : Bool) (h : BelowOn P F F') :
    BelowOn P (x.wrap a F) (x.wrap a F') := by
  cases x with
  | nothing => exact h
  | apply p =>
    cases a with
    | false => exact h
    | true => exact h.applied p
  | fresh enter leave p =>
    intro inp st hp
    cases a with
    | false => exact below_bind (h inp (enter st) hp) fun _ _ => rfl
    | true => exact below_bind (h.applied p inp (enter st) hp) fun _ _ => rfl

end

/-- The rule needs a stack of depth `c + m * w + e.height` only, on inputs of measure `m`. -/
def Shallow (g : Grammar N S) (f : List Char → Nat) (m c w : Nat) (F l : Nat) (a : Bool) (e : Exp N) : Prop :=
  ∀ d, c + m * w + e.height ≤ d → BelowOn (fun inp => f inp ≤ m) (g.run F a e) (g.stack l d a e)

/-- `bal` tells by how much a match lowers the measure `f`. -/
def Lowers (g : Grammar N S) (f : List Char → Nat) (bal : Exp N → Option Int) : Prop :=
  ∀ e b, bal e = some b → ∀ n a inp st rest st', g.run n a e inp st = .ok (some rest, st') →
    (f rest : Int) + b ≤ f inp

theorem Lowers.leads {g : Grammar N S} {f : List Char → Nat} {bal : Exp N → Option Int} (h : Lowers g f bal)
    {e : Exp N} {b : Int} (he : bal e = some b) {n : Nat} {a : Bool} {m k : Nat} (hk : (m : Int) ≤ k + b) :
    Leads (fun inp => f inp ≤ m) (fun inp => f inp ≤ k) (g.run n a e) := fun inp st rest st' hp hr => by
  have := h e b he n a inp st rest st' hr
  change f inp ≤ m at hp
  change f rest ≤ k
  omega

theorem Lowers.leads_keeps {g : Grammar N S} {f : List Char → Nat} {bal : Exp N → Option Int}
    (h : Lowers g f bal) {e : Exp N} (he : keeps bal e = true) {a : Bool} {m : Nat} (n : Nat) :
    Leads (fun inp => f inp ≤ m) (fun inp => f inp ≤ m) (g.run n a e) := by
  unfold keeps atLeast at he
  split at he
  · rename_i b hb
    have := of_decide_eq_true he
    exact h.leads hb (by omega)
  · cases he

theorem Leads.true {P : List Char → Prop} (F : Run S) : Leads P (fun _ => True) F := fun _ _ _ _ _ _ => trivial

theorem BelowOn.of_below {P : List Char → Prop} {F G : Run S} (h : Below F G) : BelowOn P F G :=
  fun inp st _ => h inp st

theorem BelowOn.all {F G : Run S} (h : BelowOn (fun _ => True) F G) : Below F G := fun inp st => h inp st trivial

section
variable {g : Grammar N S} {a : Bool} {P : List Char → Prop} {C X : Run S} {c x : Exp N}

theorem star_below {n : Nat} (hx : ∀ k, k < n → BelowOn P (g.run k a x) X)
    (hl : ∀ k, Leads P P (g.run k a x)) : ∀ k r, k ≤ n → k ≤ r → BelowOn P (g.run k a (.star x)) (loopR X r)
  | 0, _, _, _ => fun _ _ _ h => (h rfl).elim
  | k + 1, 0, _, h => by omega
  | k + 1, r + 1, h1, h2 =>
    (hx k (by omega)).starR (hl k) (star_below hx hl k r (by omega) (by omega))

theorem until_below {n : Nat} (hc : ∀ k, k < n → BelowOn P (g.run k a c) C)
    (hx : ∀ k, k < n → BelowOn P (g.run k a x) X) (hl : ∀ k, Leads P P (g.run k a x)) :
    ∀ k r, k ≤ n → k ≤ r → BelowOn P (g.run k a (.untl c x)) (untilR C X r)
  | 0, _, _, _ => fun _ _ _ h => (h rfl).elim
  | k + 1, 0, _, h => by omega
  | k + 1, r + 1, h1, h2 =>
    (hc k (by omega)).elseR
      ((hx k (by omega)).thenR (hl k) (until_below hc hx hl k r (by omega) (by omega)))

theorem untilAny_below {n : Nat} (hc : ∀ k, k < n → BelowOn P (g.run k a c) C) (hl : Leads P P (S := S) anyR) :
    ∀ k r, k ≤ n → k ≤ r → BelowOn P (g.run k a (.untilAny c)) (untilR C anyR r)
  | 0, _, _, _ => fun _ _ _ h => (h rfl).elim
  | k + 1, 0, _, h => by omega
  | k + 1, r + 1, h1, h2 =>
    (hc k (by omega)).elseR
      ((BelowOn.refl _).thenR hl (untilAny_below hc hl k r (by omega) (by omega)))

end

/-- The depth is bounded by the measure, if calls of names are nested at most `n` deep before the measure is
lowered (`Exp.deep`), names without recursion (`flat`) need `c0`, and no rule is higher than `h`. -/
theorem shallow (g : Grammar N S) (f : List Char → Nat) (bal : Exp N → Option Int) (flat : Exp N → Bool)
    (n h c0 : Nat) (hb : Lowers g f bal) (hh : ∀ x, (g.rules x).height ≤ h)
    (hflat : ∀ e, flat e = true → ∀ F l a, F ≤ l → ∀ d, c0 + e.height ≤ d →
      Below (g.run F a e) (g.stack l d a e))
    (hn : (∀ e, drops bal e = false) ∨ ∀ x, g.deep bal flat n x = true) :
    ∀ F l a e m j, F ≤ l → e.deep bal flat (g.deep bal flat j) = true →
      Shallow g f m (c0 + j * (h + 1)) (n * (h + 1)) F l a e := by
  intro F
  induction F using Nat.strong_induction_on with
  | _ F ih =>
  intro l a e m j hl he d hd
  cases F with
  | zero => exact fun _ _ _ h => (h rfl).elim
  | succ F =>
  cases d with
  | zero => cases e <;> simp [Exp.height] at hd
  | succ d =>
  have ih' : ∀ k, k < F + 1 → ∀ a x, x.deep bal flat (g.deep bal flat j) = true →
      x.height + 1 ≤ e.height → BelowOn (fun inp => f inp ≤ m) (g.run k a x) (g.stack l d a x) :=
    fun k hk a x hx hxe => ih k hk l a x m j (by omega) hx d (by omega)
  have ihf : ∀ k, k < F + 1 → ∀ a x, flat x = true → x.height + 1 ≤ e.height →
      Below (g.run k a x) (g.stack l d a x) := fun k hk a x hx hxe => hflat x hx k l a (by omega) d (by
        have : 0 ≤ m * (n * (h + 1)) := Nat.zero_le _
        omega)
  cases e with
  | one cs => exact BelowOn.refl _
  | ranges rs => exact BelowOn.refl _
  | str s => exact BelowOn.refl _
  | eof => exact BelowOn.refl _
  | eolf => exact BelowOn.refl _
  | seq x y =>
    simp only [Exp.deep, Bool.and_eq_true, Bool.or_eq_true] at he
    simp only [Exp.height] at hd ih' ihf
    obtain ⟨hx, (⟨hk, hy⟩ | ⟨hk, hy⟩) | hy⟩ := he
    · replace hn := hn.resolve_left fun h => by simp [h] at hk
      unfold drops atLeast at hk
      split at hk
      · rename_i b hb'
        have hk := of_decide_eq_true hk
        cases m with
        | zero =>
          refine (ih' F (by omega) a x hx (by omega)).thenR (Q := fun _ => False) ?_ fun _ _ h => h.elim
          intro inp st rest st' hp hr
          have := hb x b hb' F a inp st rest st' hr
          change f inp ≤ 0 at hp
          omega
        | succ m =>
          refine (ih' F (by omega) a x hx (by omega)).thenR (hb.leads hb' (k := m) (by push_cast; omega)) ?_
          rw [← funext hn] at hy
          refine ih F (by omega) l a y m n (by omega) hy d ?_
          have : (m + 1) * (n * (h + 1)) = m * (n * (h + 1)) + n * (h + 1) := by ring
          omega
      · cases hk
    · unfold keeps atLeast at hk
      split at hk
      · rename_i b hb'
        have hk := of_decide_eq_true hk
        exact (ih' F (by omega) a x hx (by omega)).thenR (hb.leads hb' (k := m) (by omega))
          (ih' F (by omega) a y hy (by omega))
      · cases hk
    · exact (ih' F (by omega) a x hx (by omega)).thenR (Leads.true _)
        (BelowOn.of_below (ihf F (by omega) a y hy (by omega)))
  | sor x y =>
    simp only [Exp.deep, Bool.and_eq_true] at he
    simp only [Exp.height] at ih'
    exact (ih' F (by omega) a x he.1 (by omega)).elseR (ih' F (by omega) a y he.2 (by omega))
  | star x =>
    simp only [Exp.deep, Bool.and_eq_true, Bool.or_eq_true] at he
    obtain ⟨hx, hk | hk⟩ := he
    · exact star_below (n := F + 1) (fun k hk => ih' k hk a x hx le_rfl) (hb.leads_keeps hk)
        (F + 1) l le_rfl (by omega)
    · exact BelowOn.of_below (star_below (n := F + 1) (P := fun _ => True)
        (fun k h => BelowOn.of_below (ihf k h a x hk le_rfl)) (fun _ => Leads.true _) (F + 1) l le_rfl
        (by omega)).all
  | plus x =>
    simp only [Exp.deep, Bool.and_eq_true, Bool.or_eq_true] at he
    obtain ⟨hx, hk | hk⟩ := he
    · exact (ih' F (by omega) a x hx le_rfl).thenR (hb.leads_keeps hk F)
        (star_below (n := F) (fun k hk => ih' k (by omega) a x hx le_rfl) (hb.leads_keeps hk)
          F l le_rfl (by omega))
    · exact (ih' F (by omega) a x hx le_rfl).thenR (Leads.true _)
        (star_below (n := F) (P := fun _ => True)
          (fun k h => BelowOn.of_below (ihf k (by omega) a x hk le_rfl)) (fun _ => Leads.true _) F l le_rfl
          (by omega))
  | opt x => exact (ih' F (by omega) a x he le_rfl).optR
  | notAt x => exact (ih' F (by omega) false x he le_rfl).notAtR
  | untilAny c =>
    have := untilAny_below (g := g) (a := a) (c := c) (n := F + 1) (P := fun _ => True)
      (fun k hk => BelowOn.of_below (ihf k hk a c he le_rfl)) (Leads.true _) (F + 1) l le_rfl (by omega)
    exact BelowOn.of_below this.all
  | untl c x =>
    simp only [Exp.deep, Bool.and_eq_true] at he
    simp only [Exp.height] at ih'
    exact until_below (n := F + 1) (fun k hk => ih' k hk a c he.1.1 (by omega))
      (fun k hk => ih' k hk a x he.1.2 (by omega)) (hb.leads_keeps he.2) (F + 1) l le_rfl (by omega)
  | must x => exact (ih' F (by omega) a x he le_rfl).mustR
  | disable x => exact ih' F (by omega) false x he le_rfl
  | nt x =>
    cases j with
    | zero => cases he
    | succ j =>
      refine BelowOn.wrap (g.action x) a (ih F (by omega) l a (g.rules x) m j (by omega) he d ?_)
      have h1 := hh x
      have h2 : (j + 1) * (h + 1) = j * (h + 1) + (h + 1) := by ring
      simp only [Exp.height] at hd
      omega

end Peg
end Verif
