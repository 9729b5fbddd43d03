import Verif.Spec.Peg
import Verif.Proofs.Peg

/-!
# PEG grammars without issues terminate
-/

namespace Verif
namespace Peg

variable {N S : Type}

/-! ## More fuel does no harm -/

/-- `F` is below `G`: equal unless divergent. -/
def Below (F G : Run S) : Prop := ∀ inp st, F inp st ≠ .diverge → G inp st = F inp st

theorem Below.refl (F : Run S) : Below F F := fun _ _ _ => rfl

theorem below_bind {α β : Type} {o o' : Outcome α} {k k' : α → Outcome β} (h : o ≠ .diverge → o' = o)
    (hk : ∀ a, k a ≠ .diverge → k' a = k a) (hd : (o >>= k) ≠ .diverge) : (o' >>= k') = (o >>= k) := by
  have h1 : o ≠ .diverge := by rintro rfl; exact hd rfl
  rw [h h1]
  cases o with
  | ok a => exact hk a hd
  | _ => rfl

theorem Below.thenR {F F' G G' : Run S} (h1 : Below F F') (h2 : Below G G') :
    Below (thenR F G) (thenR F' G') := fun inp st => below_bind (h1 inp st) fun r => by
  match r with
  | (some rest, st') => exact h2 rest st'
  | (none, st') => exact fun _ => rfl

theorem Below.elseR {F F' G G' : Run S} (h1 : Below F F') (h2 : Below G G') :
    Below (elseR F G) (elseR F' G') := fun inp st => below_bind (h1 inp st) fun r => by
  match r with
  | (some rest, st') => exact fun _ => rfl
  | (none, st') => exact h2 inp st'

theorem Below.starR {F F' G G' : Run S} (h1 : Below F F') (h2 : Below G G') :
    Below (starR F G) (starR F' G') := fun inp st => below_bind (h1 inp st) fun r => by
  match r with
  | (some rest, st') => exact h2 rest st'
  | (none, st') => exact fun _ => rfl

theorem Below.optR {F F' : Run S} (h : Below F F') : Below (optR F) (optR F') := fun inp st =>
  below_bind (h inp st) fun _ _ => rfl

theorem Below.notAtR {F F' : Run S} (h : Below F F') : Below (notAtR F) (notAtR F') := fun inp st =>
  below_bind (h inp st) fun _ _ => rfl

theorem Below.mustR {F F' : Run S} (h : Below F F') : Below (mustR F) (mustR F') := fun inp st =>
  below_bind (h inp st) fun _ _ => rfl

theorem Below.applied (p : List Char → S → Outcome S) {F F' : Run S} (h : Below F F') :
    Below (applied p F) (applied p F') := fun inp st => below_bind (h inp st) fun _ _ => rfl

theorem Below.wrap (x : Action S) (a : Bool) {F F' : Run S} (h : Below F F') :
    Below (x.wrap a F) (x.wrap a F') := by
  cases x with
  | nothing => exact h
  | apply p =>
    cases a with
    | false => exact h
    | true => exact h.applied p
  | fresh enter leave p =>
    intro inp st
    cases a with
    | false => exact below_bind (h inp (enter st)) fun _ _ => rfl
    | true => exact below_bind (h.applied p inp (enter st)) fun _ _ => rfl

theorem run_below (g : Grammar N S) : ∀ n a e, Below (g.run n a e) (g.run (n + 1) a e)
  | 0, _, _ => fun _ _ h => (h rfl).elim
  | n + 1, a, e => by
    have ih := run_below g n
    cases e with
    | one cs => exact Below.refl _
    | ranges rs => exact Below.refl _
    | str s => exact Below.refl _
    | eof => exact Below.refl _
    | eolf => exact Below.refl _
    | seq x y => exact (ih a x).thenR (ih a y)
    | sor x y => exact (ih a x).elseR (ih a y)
    | star x => exact (ih a x).starR (ih a (.star x))
    | plus x => exact (ih a x).thenR (ih a (.star x))
    | opt x => exact (ih a x).optR
    | notAt x => exact (ih false x).notAtR
    | untilAny c => exact (ih a c).elseR ((Below.refl _).thenR (ih a (.untilAny c)))
    | untl c x => exact (ih a c).elseR ((ih a x).thenR (ih a (.untl c x)))
    | must x => exact (ih a x).mustR
    | disable x => exact ih false x
    | nt x => exact (ih a (g.rules x)).wrap (g.action x) a

theorem run_mono (g : Grammar N S) {n m : Nat} (h : n ≤ m) (a : Bool) (e : Exp N) :
    Below (g.run n a e) (g.run m a e) := by
  induction h with
  | refl => exact Below.refl _
  | step _ ih =>
    intro inp st hd
    have h1 := ih inp st hd
    rw [← h1] at hd
    rw [run_below g _ a e inp st hd, h1]

theorem halts_of (g : Grammar N S) {n : Nat} {a : Bool} {e : Exp N} {inp : List Char} {st : S}
    (h : g.run n a e inp st ≠ .diverge) : g.Halts a e inp st :=
  ⟨_, h, n, fun _ hm => run_mono g hm a e inp st h⟩

/-! ## Consumption -/

/-- A match leaves at most what there was; less, if `b`. -/
def Shrinks (b : Bool) (F : Run S) : Prop :=
  ∀ inp st rest st', F inp st = .ok (some rest, st') →
    rest.length ≤ inp.length ∧ (b = true → rest.length < inp.length)

theorem Shrinks.weaken {b : Bool} {F : Run S} (h : Shrinks b F) : Shrinks false F :=
  fun inp st rest st' he => ⟨(h inp st rest st' he).1, fun h => by cases h⟩

theorem Shrinks.thenR {b c : Bool} {F G : Run S} (h1 : Shrinks b F) (h2 : Shrinks c G) :
    Shrinks (b || c) (thenR F G) := by
  intro inp st rest st' he
  obtain ⟨⟨r, s⟩, hr, he⟩ := Outcome.bind_eq_ok.1 he
  cases r with
  | none => cases he
  | some r =>
    have k1 := h1 inp st r s hr
    have k2 := h2 r s rest st' he
    refine ⟨by omega, fun h => ?_⟩
    rcases Bool.or_eq_true _ _ ▸ h with h | h
    · have := k1.2 h; omega
    · have := k2.2 h; omega

theorem Shrinks.elseR {b c : Bool} {F G : Run S} (h1 : Shrinks b F) (h2 : Shrinks c G) :
    Shrinks (b && c) (elseR F G) := by
  intro inp st rest st' he
  obtain ⟨⟨r, s⟩, hr, he⟩ := Outcome.bind_eq_ok.1 he
  cases r with
  | none =>
    have k2 := h2 inp s rest st' he
    exact ⟨k2.1, fun h => k2.2 (Bool.and_eq_true _ _ ▸ h).2⟩
  | some r =>
    cases he
    have k1 := h1 inp st _ _ hr
    exact ⟨k1.1, fun h => k1.2 (Bool.and_eq_true _ _ ▸ h).1⟩

theorem Shrinks.starR {b c : Bool} {F G : Run S} (h1 : Shrinks b F) (h2 : Shrinks c G) :
    Shrinks false (starR F G) := by
  intro inp st rest st' he
  refine ⟨?_, fun h => by cases h⟩
  obtain ⟨⟨r, s⟩, hr, he⟩ := Outcome.bind_eq_ok.1 he
  cases r with
  | none => cases he; exact le_refl _
  | some r => exact (h2 r s rest st' he).1.trans (h1 inp st r s hr).1

theorem Shrinks.optR {b : Bool} {F : Run S} (h : Shrinks b F) : Shrinks false (optR F) := by
  intro inp st rest st' he
  refine ⟨?_, fun h => by cases h⟩
  obtain ⟨⟨r, s⟩, hr, he⟩ := Outcome.bind_eq_ok.1 he
  cases r with
  | none => cases he; exact le_refl _
  | some r => cases he; exact (h inp st _ _ hr).1

theorem Shrinks.notAtR (F : Run S) : Shrinks false (notAtR F) := by
  intro inp st rest st' he
  refine ⟨?_, fun h => by cases h⟩
  obtain ⟨⟨r, s⟩, hr, he⟩ := Outcome.bind_eq_ok.1 he
  cases r with
  | none => cases he; exact le_refl _
  | some r => cases he

theorem Shrinks.mustR {b : Bool} {F : Run S} (h : Shrinks b F) : Shrinks b (mustR F) := by
  intro inp st rest st' he
  obtain ⟨⟨r, s⟩, hr, he⟩ := Outcome.bind_eq_ok.1 he
  cases r with
  | none => cases he
  | some r => cases he; exact h inp st _ _ hr

theorem Shrinks.applied {b : Bool} {F : Run S} (p : List Char → S → Outcome S) (h : Shrinks b F) :
    Shrinks b (applied p F) := by
  intro inp st rest st' he
  obtain ⟨⟨r, s⟩, hr, he⟩ := Outcome.bind_eq_ok.1 he
  cases r with
  | none => cases he
  | some r =>
    obtain ⟨s', hs, he⟩ := Outcome.bind_eq_ok.1 he
    cases he
    exact h inp st _ _ hr

theorem Shrinks.wrap {b : Bool} {F : Run S} (x : Action S) (a : Bool) (h : Shrinks b F) :
    Shrinks b (x.wrap a F) := by
  cases x with
  | nothing => exact h
  | apply p =>
    cases a with
    | false => exact h
    | true => exact h.applied p
  | fresh enter leave p =>
    intro inp st rest st' he
    obtain ⟨⟨r, s⟩, hr, he⟩ := Outcome.bind_eq_ok.1 he
    cases he
    cases a with
    | false => exact h inp _ _ _ hr
    | true => exact h.applied p inp _ _ _ hr

theorem Shrinks.char (p : Char → Bool) : Shrinks (S := S) true (char p) := by
  intro inp st rest st' he
  cases inp with
  | nil => cases he
  | cons c cs =>
    simp only [Peg.char, Outcome.ok.injEq, Prod.mk.injEq] at he
    split at he
    · cases he.1; simp
    · cases he.1

theorem eolf_length {inp rest : List Char} (h : eolf inp = some rest) : rest.length ≤ inp.length := by
  unfold eolf at h
  split at h <;> cases h <;> simp
  omega

theorem run_shrinks (g : Grammar N S) : ∀ n a e k, Shrinks (e.eats (g.eats k)) (g.run n a e)
  | 0, _, _, _ => fun _ _ _ _ h => by cases h
  | n + 1, a, e, k => by
    have ih := fun a e => run_shrinks g n a e k
    cases e with
    | one cs => exact Shrinks.char _
    | ranges rs => exact Shrinks.char _
    | str s =>
      intro inp st rest st' he
      simp only [Grammar.run, Outcome.ok.injEq, Prod.mk.injEq] at he
      obtain ⟨he, -⟩ := he
      split at he
      · rename_i hp
        cases he
        have hl := (List.isPrefixOf_iff_prefix.1 hp).length_le
        refine ⟨by simp, fun h => ?_⟩
        have : 0 < s.length := by
          rw [List.length_pos_iff]
          rintro rfl
          cases h
        simp only [List.length_drop]
        omega
      · cases he
    | eof =>
      intro inp st rest st' he
      simp only [Grammar.run, Outcome.ok.injEq, Prod.mk.injEq] at he
      obtain ⟨he, -⟩ := he
      split at he
      · cases he; exact ⟨le_refl _, fun h => by cases h⟩
      · cases he
    | eolf =>
      intro inp st rest st' he
      simp only [Grammar.run, Outcome.ok.injEq, Prod.mk.injEq] at he
      exact ⟨eolf_length he.1, fun h => by cases h⟩
    | seq x y => exact (ih a x).thenR (ih a y)
    | sor x y => exact (ih a x).elseR (ih a y)
    | star x => exact (ih a x).starR (ih a (.star x))
    | plus x =>
      have h := (ih a x).thenR (ih a (.star x)).weaken
      rw [Bool.or_false] at h
      exact h
    | opt x => exact (ih a x).optR
    | notAt x => exact Shrinks.notAtR _
    | untilAny c =>
      have h := (ih a c).elseR ((Shrinks.char fun _ => true).thenR (ih a (.untilAny c)))
      rw [Bool.true_or, Bool.and_true] at h
      exact h
    | untl c x =>
      have h2 : Shrinks (c.eats (g.eats k)) (thenR (g.run n a x) (g.run n a (.untl c x))) := by
        have h := (ih a x).weaken.thenR (ih a (.untl c x))
        rw [Bool.false_or] at h
        exact h
      have h := (ih a c).elseR h2
      rw [Bool.and_self] at h
      exact h
    | must x => exact (ih a x).mustR
    | disable x => exact ih false x
    | nt x =>
      refine Shrinks.wrap _ a ?_
      cases k with
      | zero => exact (run_shrinks g n a (g.rules x) 0).weaken
      | succ k => exact run_shrinks g n a (g.rules x) k

/-! ## Termination -/

theorem left_of_fine {known fine : N → Bool} (h : ∀ x, fine x = true) : ∀ e : Exp N,
    e.left known fine = true := by
  intro e
  induction e with
  | nt x => exact h x
  | _ => simp_all [Exp.left]

/-- Eventually not divergent. -/
def Fin' {α : Type} (F : Nat → Outcome α) : Prop := ∃ n, ∀ m, n ≤ m → F m ≠ .diverge

theorem Fin'.bind {α β : Type} {F : Nat → Outcome α} {G : Nat → α → Outcome β} {o : Outcome α}
    (h : ∃ n, ∀ m, n ≤ m → F m = o) (ho : o ≠ .diverge)
    (hG : ∀ r, o = .ok r → Fin' fun m => G m r) : Fin' fun m => F m >>= G m := by
  obtain ⟨n, hn⟩ := h
  cases o with
  | ok r =>
    obtain ⟨n', hn'⟩ := hG r rfl
    exact ⟨max n n', fun m hm => by simp only [hn m (show n ≤ m by omega)]; exact hn' m (by omega)⟩
  | diverge => exact (ho rfl).elim
  | throw e => exact ⟨n, fun m hm => by simp [hn m hm]⟩
  | abort => exact ⟨n, fun m hm => by simp [hn m hm]⟩
  | ub u => exact ⟨n, fun m hm => by simp [hn m hm]⟩

theorem Fin'.const {α : Type} {o : Outcome α} (h : o ≠ .diverge) : Fin' fun _ => o := ⟨0, fun _ _ => h⟩

theorem Fin'.of_halts {g : Grammar N S} {a : Bool} {e : Exp N} {inp : List Char} {st : S}
    (h : g.Halts a e inp st) : Fin' fun m => g.run m a e inp st := by
  obtain ⟨o, ho, n, hn⟩ := h
  exact ⟨n, fun m hm => by simp only [hn m hm]; exact ho⟩

theorem halts_of_fin {g : Grammar N S} {a : Bool} {e : Exp N} {inp : List Char} {st : S} {F : Nat → Run S}
    (he : ∀ n, g.run (n + 1) a e = F n) (h : Fin' fun m => F m inp st) : g.Halts a e inp st := by
  obtain ⟨n, hn⟩ := h
  exact halts_of g (n := n + 1) (by rw [he]; exact hn n (le_refl _))

section
variable {g : Grammar N S} {a : Bool} {x : Exp N} {inp : List Char} {st : S}

/-- What a rule that came back did with the input. -/
theorem Fin'.step {β : Type} {G : Nat → Option (List Char) × S → Outcome β} (k : Nat)
    (h : g.Halts a x inp st)
    (h1 : ∀ rest st', rest.length ≤ inp.length → (x.eats (g.eats k) = true → rest.length < inp.length) →
      Fin' fun m => G m (some rest, st'))
    (h2 : ∀ st', Fin' fun m => G m (none, st')) : Fin' fun m => g.run m a x inp st >>= G m := by
  obtain ⟨o, ho, n, hn⟩ := h
  refine Fin'.bind ⟨n, hn⟩ ho fun r hr => ?_
  obtain ⟨r, s⟩ := r
  cases r with
  | none => exact h2 s
  | some rest =>
    have := run_shrinks g n a x k inp st rest s (by rw [hn n (le_refl _), hr])
    exact h1 rest s this.1 this.2

end

/-- One rule on one input, if the names it calls at once come back, and everything does on shorter
inputs. -/
theorem halts_exp (g : Grammar N S) (k : Nat) (fine : N → Bool) (L : Nat)
    (short : ∀ rest : List Char, rest.length < L → ∀ a (e : Exp N),
      e.loops (g.eats k) = true → ∀ st, g.Halts a e rest st)
    (call : ∀ x, fine x = true → ∀ inp : List Char, inp.length = L → ∀ a st, g.Halts a (.nt x) inp st)
    (e : Exp N) : e.loops (g.eats k) = true → e.left (g.eats k) fine = true →
      ∀ inp : List Char, inp.length = L → ∀ a st, g.Halts a e inp st := by
  induction e with
  | one cs => exact fun _ _ inp _ a st => halts_of g (n := 1) (by simp only [Grammar.run, char]; cases inp <;> simp)
  | ranges rs =>
    exact fun _ _ inp _ a st => halts_of g (n := 1) (by simp only [Grammar.run, char]; cases inp <;> simp)
  | str s => exact fun _ _ inp _ a st => halts_of g (n := 1) (by simp [Grammar.run])
  | eof => exact fun _ _ inp _ a st => halts_of g (n := 1) (by simp [Grammar.run])
  | eolf => exact fun _ _ inp _ a st => halts_of g (n := 1) (by simp [Grammar.run])
  | seq x y ihx ihy =>
    intro hl hf inp hL a st
    simp only [Exp.loops, Exp.left, Bool.and_eq_true, Bool.or_eq_true] at hl hf
    refine halts_of_fin (F := fun n => thenR (g.run n a x) (g.run n a y)) (fun _ => rfl)
      (Fin'.step k (ihx hl.1 hf.1 inp hL a st) (fun rest st' h1 h2 => ?_) fun st' => Fin'.const (by simp))
    by_cases he : x.eats (g.eats k) = true
    · exact Fin'.of_halts (short rest (hL ▸ h2 he) a y hl.2 st')
    · by_cases hr : rest.length < inp.length
      · exact Fin'.of_halts (short rest (hL ▸ hr) a y hl.2 st')
      · rcases hf.2 with hf' | hf'
        · exact (he hf').elim
        · exact Fin'.of_halts (ihy hl.2 hf' rest (by omega) a st')
  | sor x y ihx ihy =>
    intro hl hf inp hL a st
    simp only [Exp.loops, Exp.left, Bool.and_eq_true] at hl hf
    exact halts_of_fin (F := fun n => elseR (g.run n a x) (g.run n a y)) (fun _ => rfl)
      (Fin'.step k (ihx hl.1 hf.1 inp hL a st) (fun rest st' h1 h2 => Fin'.const (by simp))
        fun st' => Fin'.of_halts (ihy hl.2 hf.2 inp hL a st'))
  | star x ihx =>
    intro hl hf inp hL a st
    have hl' := hl
    simp only [Exp.loops, Exp.left, Bool.and_eq_true] at hl hf
    exact halts_of_fin (F := fun n => starR (g.run n a x) (g.run n a (.star x))) (fun _ => rfl)
      (Fin'.step k (ihx hl.1 hf inp hL a st)
        (fun rest st' h1 h2 => Fin'.of_halts (short rest (hL ▸ h2 hl.2) a (.star x) hl' st'))
        fun st' => Fin'.const (by simp))
  | plus x ihx =>
    intro hl hf inp hL a st
    have hl' : (Exp.star x).loops (g.eats k) = true := hl
    simp only [Exp.loops, Exp.left, Bool.and_eq_true] at hl hf
    exact halts_of_fin (F := fun n => thenR (g.run n a x) (g.run n a (.star x))) (fun _ => rfl)
      (Fin'.step k (ihx hl.1 hf inp hL a st)
        (fun rest st' h1 h2 => Fin'.of_halts (short rest (hL ▸ h2 hl.2) a (.star x) hl' st'))
        fun st' => Fin'.const (by simp))
  | opt x ihx =>
    intro hl hf inp hL a st
    exact halts_of_fin (F := fun n => optR (g.run n a x)) (fun _ => rfl)
      (Fin'.step k (ihx hl hf inp hL a st) (fun rest st' h1 h2 => Fin'.const (by simp))
        fun st' => Fin'.const (by simp))
  | notAt x ihx =>
    intro hl hf inp hL a st
    exact halts_of_fin (F := fun n => notAtR (g.run n false x)) (fun _ => rfl)
      (Fin'.step k (ihx hl hf inp hL false st) (fun rest st' h1 h2 => Fin'.const (by simp))
        fun st' => Fin'.const (by simp))
  | untilAny c ihc =>
    intro hl hf inp hL a st
    refine halts_of_fin (F := fun n => elseR (g.run n a c) (thenR anyR (g.run n a (.untilAny c))))
      (fun _ => rfl) (Fin'.step k (ihc hl hf inp hL a st) (fun rest st' h1 h2 => Fin'.const (by simp)) fun st' => ?_)
    cases inp with
    | nil => exact Fin'.const (by simp)
    | cons d ds => exact Fin'.of_halts (short ds (by rw [← hL]; simp) a (.untilAny c) hl st')
  | untl c x ihc ihx =>
    intro hl hf inp hL a st
    have hl' := hl
    simp only [Exp.loops, Exp.left, Bool.and_eq_true] at hl hf
    exact halts_of_fin (F := fun n => elseR (g.run n a c) (thenR (g.run n a x) (g.run n a (.untl c x))))
      (fun _ => rfl) (Fin'.step k (ihc hl.1.1 hf.1 inp hL a st) (fun rest st' h1 h2 => Fin'.const (by simp)) fun st' =>
        Fin'.step k (ihx hl.1.2 hf.2 inp hL a st')
          (fun rest st'' h1 h2 => Fin'.of_halts (short rest (hL ▸ h2 hl.2) a (.untl c x) hl' st''))
          fun st'' => Fin'.const (by simp))
  | must x ihx =>
    intro hl hf inp hL a st
    exact halts_of_fin (F := fun n => mustR (g.run n a x)) (fun _ => rfl)
      (Fin'.step k (ihx hl hf inp hL a st) (fun rest st' h1 h2 => Fin'.const (by simp))
        fun st' => Fin'.const (by simp))
  | disable x ihx =>
    intro hl hf inp hL a st
    exact halts_of_fin (F := fun n => g.run n false x) (fun _ => rfl) (Fin'.of_halts (ihx hl hf inp hL false st))
  | nt x => exact fun _ hf inp hL a st => call x hf inp hL a st

/-- A rule with its action comes back. -/
theorem Fin'.wrap (g : Grammar N S) {x : N} {a : Bool} {inp : List Char} (hc : (g.action x).Calm)
    (h : ∀ st, g.Halts a (g.rules x) inp st) (st : S) :
    Fin' fun m => (g.action x).wrap a (g.run m a (g.rules x)) inp st := by
  have happ : ∀ p : List Char → S → Outcome S, (∀ text st, p text st ≠ .diverge) → ∀ st,
      ∃ o, o ≠ .diverge ∧ ∃ n, ∀ m, n ≤ m → applied p (g.run m a (g.rules x)) inp st = o := by
    intro p hp st
    obtain ⟨o, ho, n, hn⟩ := h st
    refine ⟨applied p (g.run n a (g.rules x)) inp st, ?_, n, fun m hm => ?_⟩
    · simp only [applied, hn n (le_refl _)]
      rcases o with ⟨_ | r, s⟩ | _ | _ | _ | _
      · simp
      · simp only [Outcome.bind_ok]
        have := hp (Lex.textOf inp r) s
        cases hq : p (Lex.textOf inp r) s <;> simp_all
      · simp
      · simp
      · simp
      · exact (ho rfl).elim
    · simp only [applied, hn n (le_refl _), hn m hm]
  cases hx : g.action x with
  | nothing => exact Fin'.of_halts (h st)
  | apply p =>
    rw [hx] at hc
    cases a with
    | false => exact Fin'.of_halts (h st)
    | true =>
      obtain ⟨o, ho, n, hn⟩ := happ p hc st
      exact ⟨n, fun m hm => by
        have : applied p (g.run m true (g.rules x)) inp st ≠ .diverge := by rw [hn m hm]; exact ho
        exact this⟩
  | fresh enter leave p =>
    rw [hx] at hc
    cases a with
    | false =>
      obtain ⟨o, ho, n, hn⟩ := h (enter st)
      exact Fin'.bind ⟨n, hn⟩ ho fun _ _ => Fin'.const (by simp)
    | true =>
      obtain ⟨o, ho, n, hn⟩ := happ p hc (enter st)
      exact Fin'.bind ⟨n, hn⟩ ho fun _ _ => Fin'.const (by simp)

/-- A grammar without issues comes back on every input. -/
theorem halts (g : Grammar N S) (k : Nat) (hl : ∀ x, (g.rules x).loops (g.eats k) = true)
    (hk : ∀ x, g.left (g.eats k) k x = true) (hc : ∀ x, (g.action x).Calm) :
    ∀ (L : Nat) (inp : List Char), inp.length = L → ∀ a (e : Exp N), e.loops (g.eats k) = true →
      ∀ st, g.Halts a e inp st := by
  intro L
  induction L using Nat.strong_induction_on with
  | _ L ihL =>
  have short : ∀ rest : List Char, rest.length < L → ∀ a (e : Exp N),
      e.loops (g.eats k) = true → ∀ st, g.Halts a e rest st := fun rest h a e he st =>
    ihL rest.length h rest rfl a e he st
  have main : ∀ j (e : Exp N), e.loops (g.eats k) = true →
      e.left (g.eats k) (g.left (g.eats k) j) = true → ∀ inp : List Char, inp.length = L →
        ∀ a st, g.Halts a e inp st := by
    intro j
    induction j with
    | zero => exact fun e => halts_exp g k _ L short (fun x hx => by cases hx) e
    | succ j ihj =>
      refine fun e => halts_exp g k _ L short (fun x hx inp hL a st => ?_) e
      exact halts_of_fin (F := fun n => (g.action x).wrap a (g.run n a (g.rules x))) (fun _ => rfl)
        (Fin'.wrap g (hc x) (fun st => ihj (g.rules x) (hl x) hx inp hL a st) st)
  exact fun inp hL a e he st => main k e he (left_of_fine hk e) inp hL a st

end Peg
end Verif
