import Verif.Model.Peg
import Mathlib.Tactic.Ring

/-!
# The PEG machine on the grammar of grammar.hpp: lexical rules

`Evt F o`: with enough fuel `F` is `o`, unless `o` is divergence.
-/

set_option linter.unusedSectionVars false

namespace Verif
namespace Peg

/-- With enough fuel `F` is `o`, unless `o` is divergence. -/
def Evt {α : Type} (F : Nat → Outcome α) (o : Outcome α) : Prop :=
  o ≠ .diverge → ∃ N, ∀ m, N ≤ m → F m = o

theorem Evt.const {α : Type} (o : Outcome α) : Evt (fun _ => o) o := fun _ => ⟨0, fun _ _ => rfl⟩

theorem Evt.of_eq {α : Type} {F : Nat → Outcome α} {o : Outcome α} (h : ∀ m, F (m + 1) = o) : Evt F o :=
  fun _ => ⟨1, fun m hm => by obtain ⟨k, rfl⟩ : ∃ k, m = k + 1 := ⟨m - 1, by omega⟩; exact h k⟩

theorem Evt.step {α : Type} {F G : Nat → Outcome α} {o : Outcome α} (h : Evt G o)
    (e : ∀ m, F (m + 1) = G m) : Evt F o := fun ho => by
  obtain ⟨N, hN⟩ := h ho
  refine ⟨N + 1, fun m hm => ?_⟩
  obtain ⟨k, rfl⟩ : ∃ k, m = k + 1 := ⟨m - 1, by omega⟩
  rw [e, hN k (by omega)]

theorem Evt.bind {α β : Type} {F : Nat → Outcome α} {o : Outcome α} {G : Nat → α → Outcome β}
    {k : α → Outcome β} (h1 : Evt F o) (h2 : ∀ a, Evt (fun m => G m a) (k a)) :
    Evt (fun m => F m >>= G m) (o >>= k) := fun ho => by
  have h : o ≠ .diverge := by rintro rfl; exact ho rfl
  obtain ⟨N, hN⟩ := h1 h
  cases o with
  | ok a =>
    obtain ⟨M, hM⟩ := h2 a ho
    exact ⟨max N M, fun m hm => by simp [hN m (by omega), hM m (by omega)]⟩
  | throw e => exact ⟨N, fun m hm => by simp [hN m hm]⟩
  | abort => exact ⟨N, fun m hm => by simp [hN m hm]⟩
  | ub u => exact ⟨N, fun m hm => by simp [hN m hm]⟩
  | diverge => exact (h rfl).elim

/-- Pointwise. -/
def EvtR {S : Type} (F : Nat → Run S) (f : Run S) : Prop := ∀ inp st, Evt (fun m => F m inp st) (f inp st)

section
variable {S : Type} {F G : Nat → Run S} {f g : Run S}

theorem EvtR.const (f : Run S) : EvtR (fun _ => f) f := fun _ _ => .const _

theorem EvtR.step (h : EvtR G f) (e : ∀ m, F (m + 1) = G m) : EvtR F f := fun inp st =>
  (h inp st).step fun m => by rw [e]

theorem EvtR.thenR (h1 : EvtR F f) (h2 : EvtR G g) : EvtR (fun m => thenR (F m) (G m)) (thenR f g) :=
  fun inp st => (h1 inp st).bind fun r => by
    match r with
    | (some rest, st') => exact h2 rest st'
    | (none, st') => exact .const _

theorem EvtR.elseR (h1 : EvtR F f) (h2 : EvtR G g) : EvtR (fun m => elseR (F m) (G m)) (elseR f g) :=
  fun inp st => (h1 inp st).bind fun r => by
    match r with
    | (some rest, st') => exact .const _
    | (none, st') => exact h2 inp st'

theorem EvtR.starR (h1 : EvtR F f) (h2 : EvtR G g) : EvtR (fun m => starR (F m) (G m)) (starR f g) :=
  fun inp st => (h1 inp st).bind fun r => by
    match r with
    | (some rest, st') => exact h2 rest st'
    | (none, st') => exact .const _

theorem EvtR.optR (h : EvtR F f) : EvtR (fun m => optR (F m)) (optR f) :=
  fun inp st => (h inp st).bind fun _ => .const _

theorem EvtR.notAtR (h : EvtR F f) : EvtR (fun m => notAtR (F m)) (notAtR f) :=
  fun inp st => (h inp st).bind fun _ => .const _

theorem EvtR.mustR (h : EvtR F f) : EvtR (fun m => mustR (F m)) (mustR f) :=
  fun inp st => (h inp st).bind fun _ => .const _

theorem EvtR.applied (p : List Char → S → Outcome S) (h : EvtR F f) :
    EvtR (fun m => applied p (F m)) (applied p f) := fun inp st => (h inp st).bind fun _ => .const _

theorem EvtR.wrap (x : Action S) (a : Bool) (h : EvtR F f) : EvtR (fun m => x.wrap a (F m)) (x.wrap a f) := by
  cases x with
  | nothing => exact h
  | apply p =>
    cases a with
    | false => exact h
    | true => exact h.applied p
  | fresh enter leave p =>
    intro inp st
    cases a with
    | false => exact (h inp (enter st)).bind fun _ => .const _
    | true => exact (h.applied p inp (enter st)).bind fun _ => .const _

end

variable {K : Type} [Field K] [LinearOrder K] [Arith K] [Strtod K] {nd : Bool}

/-- The machine agrees with the rule `f`. -/
def Ev (nd a : Bool) (e : Exp Nt) (f : Rule K) : Prop := EvtR (fun m => (grammar nd).run m a e) f

/-- The machine agrees with the lexical rule `f`, with or without actions. -/
def EvL (K : Type) [Field K] [LinearOrder K] [Arith K] [Strtod K] (nd : Bool) (e : Exp Nt)
    (f : List Char → Option (List Char)) : Prop :=
  ∀ a, Ev (K := K) nd a e (Rule.lex f)

/-! ## Combinators -/

section
omit [Field K] [LinearOrder K] [Arith K] [Strtod K]
variable (f f1 f2 : Rule K)

/-- Case distinction on the result of the first rule. -/
theorem bind_congr {α β : Type} {o : Outcome α} {k k' : α → Outcome β} (h : ∀ a, k a = k' a) :
    (o >>= k) = (o >>= k') := by
  have : k = k' := funext h
  rw [this]

theorem seq_eq : Rule.seq f1 f2 = thenR f1 f2 :=
  funext fun _ => funext fun _ => bind_congr fun r => by rcases r with ⟨_ | _, _⟩ <;> rfl

theorem sor_eq : Rule.sor f1 f2 = elseR f1 f2 :=
  funext fun _ => funext fun _ => bind_congr fun r => by rcases r with ⟨_ | _, _⟩ <;> rfl

theorem must_eq : Rule.must f = mustR f :=
  funext fun _ => funext fun _ => bind_congr fun r => by rcases r with ⟨_ | _, _⟩ <;> rfl

theorem star_eq (n : Nat) : Rule.star f (n + 1) = starR f (Rule.star f n) :=
  funext fun _ => funext fun _ => bind_congr fun r => by rcases r with ⟨_ | _, _⟩ <;> rfl

theorem until_eq (n : Nat) : Rule.until_ f1 f (n + 1) = elseR f1 (thenR f (Rule.until_ f1 f n)) :=
  funext fun _ => funext fun _ => bind_congr fun r => by
    rcases r with ⟨_ | _, _⟩
    · exact bind_congr fun r => by rcases r with ⟨_ | _, _⟩ <;> rfl
    · rfl

theorem act_eq (p : PState K → Outcome (PState K)) : Rule.act f p = applied (fun _ => p) f :=
  funext fun _ => funext fun _ => bind_congr fun r => by rcases r with ⟨_ | _, _⟩ <;> rfl

theorem must_seq_must :
    Rule.must (Rule.seq (Rule.must f1) (Rule.must f2)) = Rule.seq (Rule.must f1) (Rule.must f2) := by
  funext inp st
  simp only [Rule.must, Rule.seq]
  rcases f1 inp st with ⟨_ | rest, st'⟩ | _ | _ | _ | _ <;> try rfl
  simp only [Outcome.bind_ok, Outcome.pure_eq_ok]
  rcases f2 rest st' with ⟨_ | rest', st''⟩ | _ | _ | _ | _ <;> rfl

end

section
variable {a : Bool} {e e1 e2 e3 : Exp Nt} {f f1 f2 f3 : Rule K}

theorem Ev.seq (h1 : Ev nd a e1 f1) (h2 : Ev nd a e2 f2) : Ev nd a (.seq e1 e2) (Rule.seq f1 f2) := by
  rw [seq_eq]
  exact (EvtR.thenR h1 h2).step fun _ => rfl

theorem Ev.sor (h1 : Ev nd a e1 f1) (h2 : Ev nd a e2 f2) : Ev nd a (.sor e1 e2) (Rule.sor f1 f2) := by
  rw [sor_eq]
  exact (EvtR.elseR h1 h2).step fun _ => rfl

theorem Ev.must (h : Ev nd a e f) : Ev nd a (.must e) (Rule.must f) := by
  rw [must_eq]
  exact (EvtR.mustR h).step fun _ => rfl

theorem Ev.ifMust (h1 : Ev nd a e1 f1) (h2 : Ev nd a e2 f2) : Ev nd a (.ifMust e1 e2) (Rule.ifMust f1 f2) :=
  h1.seq h2.must

theorem Ev.ifMust2 (h1 : Ev nd a e1 f1) (h2 : Ev nd a e2 f2) (h3 : Ev nd a e3 f3) :
    Ev nd a (.ifMust2 e1 e2 e3) (Rule.ifMust f1 (Rule.seq (Rule.must f2) (Rule.must f3))) := by
  rw [Rule.ifMust, must_seq_must]
  exact h1.seq (h2.must.seq h3.must)

theorem Ev.star (h : Ev nd a e f) : ∀ n, Ev nd a (.star e) (Rule.star f n)
  | 0 => fun _ _ hd => (hd rfl).elim
  | n + 1 => by
    rw [star_eq]
    exact (EvtR.starR h (Ev.star h n)).step fun _ => rfl

theorem Ev.plus (h : Ev nd a e f) (n : Nat) : Ev nd a (.plus e) (Rule.plus f n) := by
  rw [Rule.plus, seq_eq]
  exact (EvtR.thenR h (h.star n)).step fun _ => rfl

theorem Ev.untl (hc : Ev nd a e1 f1) (h : Ev nd a e f) : ∀ n, Ev nd a (.untl e1 e) (Rule.until_ f1 f n)
  | 0 => fun _ _ hd => (hd rfl).elim
  | n + 1 => by
    rw [until_eq]
    exact (EvtR.elseR hc (EvtR.thenR h (Ev.untl hc h n))).step fun _ => rfl

end

/-- A rule without action. -/
theorem Ev.nothing {a : Bool} {x : Nt} {f : Rule K} (h : Ev nd a (rules x) f)
    (hx : actions (K := K) nd x = .nothing) : Ev nd a (.nt x) f :=
  EvtR.step h fun m => by
    have : (grammar nd).action x = _ := hx
    rw [Grammar.run, this]
    rfl

/-- A rule with `apply`. -/
theorem Ev.apply {x : Nt} {f : Rule K} {p : List Char → PState K → Outcome (PState K)}
    (h : Ev nd true (rules x) f) (hx : actions (K := K) nd x = .apply p) :
    Ev nd true (.nt x) (applied p f) :=
  EvtR.step (EvtR.applied p h) fun m => by
    have : (grammar nd).action x = _ := hx
    rw [Grammar.run, this]
    rfl

/-- A rule with `apply0`. -/
theorem Ev.act {x : Nt} {f : Rule K} {p : PState K → Outcome (PState K)}
    (h : Ev nd true (rules x) f) (hx : actions (K := K) nd x = apply0 p) :
    Ev nd true (.nt x) (Rule.act f p) := by
  rw [act_eq]
  exact Ev.apply h hx

/-! ## Lexical rules -/

theorem EvL.ev {e : Exp Nt} {f : List Char → Option (List Char)} (h : EvL K nd e f) (a : Bool) :
    Ev (K := K) nd a e (Rule.lex f) := h a

theorem EvL.nothing {x : Nt} {f : List Char → Option (List Char)} (h : EvL K nd (rules x) f)
    (hx : actions (K := K) nd x = .nothing) : EvL K nd (.nt x) f := fun a => (h a).nothing hx

theorem EvL.disable {e : Exp Nt} {f : List Char → Option (List Char)} (h : EvL K nd e f) :
    EvL K nd (.disable e) f := fun _ inp st => (h false inp st).step fun _ => by rfl

theorem EvL.seq {e1 e2 : Exp Nt} {f1 f2 : List Char → Option (List Char)} (h1 : EvL K nd e1 f1)
    (h2 : EvL K nd e2 f2) : EvL K nd (.seq e1 e2) (fun inp => (f1 inp).bind f2) := fun a inp st => by
  have h := (h1 a).seq (h2 a) inp st
  simp only [Rule.seq, Rule.lex] at h ⊢
  cases hf : f1 inp <;> rw [hf] at h <;> exact h

theorem EvL.sor {e1 e2 : Exp Nt} {f1 f2 : List Char → Option (List Char)} (h1 : EvL K nd e1 f1)
    (h2 : EvL K nd e2 f2) : EvL K nd (.sor e1 e2) (fun inp => (f1 inp).or (f2 inp)) := fun a inp st => by
  have h := (h1 a).sor (h2 a) inp st
  simp only [Rule.sor, Rule.lex] at h ⊢
  cases hf : f1 inp <;> rw [hf] at h <;> exact h

theorem EvL.opt {e : Exp Nt} {f : List Char → Option (List Char)} (h : EvL K nd e f) :
    EvL K nd (.opt e) (fun inp => some ((f inp).getD inp)) := fun a inp st => by
  have h' := (EvtR.optR (h a)).step (F := fun m => (grammar nd).run m a (.opt e)) (fun _ => rfl) inp st
  simp only [Rule.lex, optR] at h' ⊢
  cases hf : f inp <;> rw [hf] at h' <;> exact h'

theorem EvL.notAt {e : Exp Nt} {f : List Char → Option (List Char)} (h : EvL K nd e f) :
    EvL K nd (.notAt e) (fun inp => if (f inp).isSome then none else some inp) := fun a inp st => by
  have h' := (EvtR.notAtR (h false)).step (F := fun m => (grammar nd).run m a (.notAt e)) (fun _ => rfl) inp st
  simp only [Rule.lex, notAtR] at h' ⊢
  cases hf : f inp <;> rw [hf] at h' <;> exact h'

/-- A rule for one character. -/
def chr (p : Char → Bool) : List Char → Option (List Char)
  | [] => none
  | c :: cs => if p c then some cs else none

theorem EvL.one (cs : List Char) : EvL K nd (.one cs) (chr fun c => cs.contains c) := fun a inp st =>
  Evt.of_eq fun m => by
    simp only [Grammar.run, char, Rule.lex, chr]
    cases inp <;> rfl

theorem EvL.ranges {rs : List (Char × Char)} {p : Char → Bool}
    (h : ∀ c, (rs.any fun r => r.1 ≤ c && c ≤ r.2) = p c) : EvL K nd (.ranges rs) (chr p) :=
  fun a inp st => Evt.of_eq fun m => by
    simp only [Grammar.run, char, Rule.lex, chr, h]
    cases inp <;> rfl

theorem EvL.str (s : List Char) : EvL K nd (.str s) (Lex.str s) := fun a inp st =>
  Evt.of_eq fun m => by simp only [Grammar.run, Rule.lex, Lex.str]

theorem le_underscore (c : Char) : (decide ('_' ≤ c) && decide (c ≤ '_')) = (c == '_') := by
  rw [Bool.eq_iff_iff]
  simp only [Bool.and_eq_true, decide_eq_true_eq, beq_iff_eq]
  exact ⟨fun h => Char.le_antisymm h.2 h.1, fun h => by subst h; exact ⟨Char.le_refl _, Char.le_refl _⟩⟩

theorem lower_range (c : Char) : (decide ('a' ≤ c) && decide (c ≤ 'z')) = c.isLower := by
  simp only [Char.isLower, Char.le_def, ge_iff_le]

theorem upper_range (c : Char) : (decide ('A' ≤ c) && decide (c ≤ 'Z')) = c.isUpper := by
  simp only [Char.isUpper, Char.le_def, ge_iff_le, Bool.decide_and]

theorem digit_range (c : Char) : (decide ('0' ≤ c) && decide (c ≤ '9')) = c.isDigit := by
  simp only [Char.isDigit, Char.le_def, ge_iff_le]

theorem EvL.digit : EvL K nd digit (chr Char.isDigit) := EvL.ranges fun c => by
  simp only [List.any_cons, List.any_nil, Bool.or_false, digit_range]

theorem EvL.identifierFirst : EvL K nd identifierFirst (chr Lex.isIdFirst) := EvL.ranges fun c => by
  simp only [List.any_cons, List.any_nil, Bool.or_false, lower_range, upper_range, le_underscore,
    Lex.isIdFirst, Char.isAlpha]
  cases c.isLower <;> cases c.isUpper <;> rfl

theorem EvL.identifierOther : EvL K nd identifierOther (chr Lex.isIdOther) := EvL.ranges fun c => by
  simp only [List.any_cons, List.any_nil, Bool.or_false, lower_range, upper_range, le_underscore,
    digit_range, Lex.isIdOther, Char.isAlphanum, Char.isAlpha]
  cases c.isLower <;> cases c.isUpper <;> rfl

theorem EvL.space : EvL K nd space (chr Lex.isSpace) := fun a => by
  have h := EvL.one (K := K) (nd := nd) [' ', '\n', '\r', '\t', '\x0b', '\x0c'] a
  have e : (fun c => List.contains [' ', '\n', '\r', '\t', '\x0b', '\x0c'] c) = Lex.isSpace := by
    funext c
    simp only [List.contains_cons, List.contains_nil, Bool.or_false, Lex.isSpace, Bool.or_assoc]
  rw [e] at h
  exact h

/-- The rest after a comment. -/
def afterComment : List Char → List Char
  | [] => []
  | c :: cs => if c = '\n' then cs else afterComment cs

theorem skipComment_eq : ∀ l, Lex.skipComment l = Lex.skip (afterComment l)
  | [] => by simp [Lex.skipComment, afterComment, Lex.skip]
  | c :: cs => by
    rw [Lex.skipComment, afterComment]
    split
    · rfl
    · exact skipComment_eq cs

theorem afterComment_length : ∀ l, (afterComment l).length ≤ l.length
  | [] => le_refl _
  | c :: cs => by
    rw [afterComment]
    split
    · simp
    · exact (afterComment_length cs).trans (by simp)

/-- `eolf` agrees with the end of a comment. -/
theorem eolf_cons (c : Char) (cs : List Char) :
    eolf (c :: cs) = none ∧ afterComment (c :: cs) = afterComment cs ∨
      eolf (c :: cs) = some (afterComment (c :: cs)) := by
  by_cases h1 : c = '\n'
  · subst h1
    exact .inr rfl
  · by_cases h2 : c = '\r' ∧ ∃ ds, cs = '\n' :: ds
    · obtain ⟨rfl, ds, rfl⟩ := h2
      exact .inr rfl
    · refine .inl ⟨?_, by rw [afterComment, if_neg h1]⟩
      unfold eolf
      split
      · rename_i h; cases h
      · rename_i h; cases h; exact (h1 rfl).elim
      · rename_i h; cases h; exact (h2 ⟨rfl, _, rfl⟩).elim
      · rfl

theorem EvL.comment : EvL K nd (.untilAny .eolf) (fun inp => some (afterComment inp)) := by
  intro a inp st _
  induction inp with
  | nil =>
    refine ⟨2, fun m hm => ?_⟩
    obtain ⟨k, rfl⟩ : ∃ k, m = k + 2 := ⟨m - 2, by omega⟩
    rfl
  | cons c cs ih =>
    obtain ⟨N, hN⟩ := ih (by simp [Rule.lex])
    refine ⟨N + 2, fun m hm => ?_⟩
    obtain ⟨k, rfl⟩ : ∃ k, m = k + 2 := ⟨m - 2, by omega⟩
    have h1 : (grammar nd).run (k + 1) a .eolf (c :: cs) st = .ok (eolf (c :: cs), st) := rfl
    have h2 := hN (k + 1) (by omega)
    change elseR ((grammar nd).run (k + 1) a .eolf) (thenR anyR ((grammar nd).run (k + 1) a (.untilAny .eolf)))
      (c :: cs) st = _
    rw [elseR, h1]
    rcases eolf_cons c cs with ⟨h, h'⟩ | h
    · rw [h]
      simp only [Rule.lex, h'] at h2 ⊢
      exact h2
    · rw [h]
      rfl

theorem EvL.lineComment : EvL K nd (.nt .LineComment)
    (fun inp => (chr (fun c => [';'].contains c) inp).bind fun r => some (afterComment r)) :=
  ((EvL.one _).seq EvL.comment).disable.nothing rfl

/-- `Sep`. -/
def sep : List Char → Option (List Char)
  | [] => none
  | c :: cs => if Lex.isSpace c then some cs else if c = ';' then some (afterComment cs) else none

theorem EvL.congr {e : Exp Nt} {f f' : List Char → Option (List Char)} (h : EvL K nd e f)
    (hf : ∀ l, f l = f' l) : EvL K nd e f' := by
  have : f = f' := funext hf
  exact this ▸ h

theorem EvL.sep : EvL K nd (.nt .Sep) sep :=
  ((EvL.space.sor EvL.lineComment).disable.nothing (x := .Sep) rfl).congr fun l => by
    cases l with
    | nil => rfl
    | cons c cs =>
      simp only [chr, Peg.sep]
      by_cases h1 : Lex.isSpace c = true
      · simp [h1]
      · by_cases h2 : c = ';'
        · subst h2
          simp [show Lex.isSpace ';' = false from rfl]
        · simp [h1, h2]

theorem sep_length {l r : List Char} (h : sep l = some r) : r.length < l.length := by
  cases l with
  | nil => cases h
  | cons c cs =>
    rw [sep] at h
    split at h
    · cases h; simp
    · split at h
      · cases h
        exact Nat.lt_succ_of_le (afterComment_length cs)
      · cases h

theorem skip_sep (l : List Char) : Lex.skip l = match sep l with
    | some r => Lex.skip r
    | none => l := by
  cases l with
  | nil => rw [Lex.skip]; rfl
  | cons c cs =>
    rw [Lex.skip, sep]
    split
    · rfl
    · split
      · exact skipComment_eq cs
      · rfl

theorem EvL.skip : EvL K nd (.nt .Skip) (fun inp => some (Lex.skip inp)) := by
  refine EvL.nothing (x := .Skip) (EvL.disable (e := .star (.nt .Sep)) ?_) rfl
  intro a inp
  induction h : inp.length using Nat.strong_induction_on generalizing inp with
  | _ n ih =>
    intro st _
    obtain ⟨N, hN⟩ := EvL.sep (K := K) (nd := nd) a inp st (by simp [Rule.lex])
    cases hs : Peg.sep inp with
    | none =>
      refine ⟨N + 1, fun m hm => ?_⟩
      obtain ⟨k, rfl⟩ : ∃ k, m = k + 1 := ⟨m - 1, by omega⟩
      have h1 := hN k (by omega)
      simp only [Rule.lex, hs] at h1
      simp only [Grammar.run, starR, h1, Rule.lex, skip_sep inp, hs, Outcome.bind_ok, Outcome.pure_eq_ok]
    | some r =>
      obtain ⟨M, hM⟩ := ih r.length (by rw [← h]; exact sep_length hs) r rfl st (by simp [Rule.lex])
      refine ⟨N + M + 1, fun m hm => ?_⟩
      obtain ⟨k, rfl⟩ : ∃ k, m = k + 1 := ⟨m - 1, by omega⟩
      have h1 := hN k (by omega)
      have h2 := hM k (by omega)
      simp only [Rule.lex, hs] at h1 h2
      simp only [Grammar.run, starR, h1, Rule.lex, skip_sep inp, hs, Outcome.bind_ok, h2]

theorem EvL.endOfWord : EvL K nd (.nt .EndOfWord) Lex.endOfWord :=
  ((EvL.identifierOther.notAt.seq EvL.skip).nothing (x := .EndOfWord) rfl).congr fun l => by
    cases l with
    | nil => simp [chr, Lex.endOfWord, Lex.skip]
    | cons c cs =>
      simp only [chr, Lex.endOfWord]
      by_cases h : Lex.isIdOther c = true <;> simp [h]

theorem EvL.keyword (key : String) : EvL K nd (keyword key) (Lex.keyword key) :=
  (EvL.str _).seq EvL.endOfWord

theorem EvL.sym (c : Char) : EvL K nd (symbol (.one [c])) (Lex.sym c) :=
  ((EvL.one [c]).seq EvL.skip).congr fun l => by
    cases l with
    | nil => rfl
    | cons d cs =>
      simp only [chr, Lex.sym]
      by_cases h : d = c <;> simp [h]

theorem EvL.weakSym (c : Char) : EvL K nd (symbol (.str [c, '='])) (Lex.weakSym c) :=
  ((EvL.str _).seq EvL.skip).congr fun l => by
    rw [Lex.weakSym]
    cases Lex.str [c, '='] l <;> rfl

theorem EvL.strictSym (c : Char) :
    EvL K nd (.seq (.one [c]) (symbol (.notAt (.one [c, '='])))) (Lex.strictSym c) :=
  ((EvL.one [c]).seq ((EvL.one [c, '=']).notAt.seq EvL.skip)).congr fun l => by
    cases l with
    | nil => rfl
    | cons d cs =>
      simp only [chr, Lex.strictSym]
      by_cases h : d = c
      · cases cs with
        | nil => simp [h, Lex.skip]
        | cons e es =>
          by_cases h' : e = c ∨ e = '='
          · simp [h, h']
          · simp [h, h']
      · simp [h]

/-- `star` of a rule for one character. -/
theorem EvL.starChr {e : Exp Nt} {p : Char → Bool} (h : EvL K nd e (chr p)) :
    EvL K nd (.star e) (fun inp => some (inp.dropWhile p)) := by
  intro a inp st _
  induction inp with
  | nil =>
    obtain ⟨N, hN⟩ := h a [] st (by simp [Rule.lex])
    refine ⟨N + 1, fun m hm => ?_⟩
    obtain ⟨k, rfl⟩ : ∃ k, m = k + 1 := ⟨m - 1, by omega⟩
    have h1 := hN k (by omega)
    simp only [Rule.lex, chr] at h1
    simp [Grammar.run, starR, h1, Rule.lex]
  | cons c cs ih =>
    obtain ⟨N, hN⟩ := h a (c :: cs) st (by simp [Rule.lex])
    obtain ⟨M, hM⟩ := ih (by simp [Rule.lex])
    refine ⟨N + M + 1, fun m hm => ?_⟩
    obtain ⟨k, rfl⟩ : ∃ k, m = k + 1 := ⟨m - 1, by omega⟩
    have h1 := hN k (by omega)
    have h2 := hM k (by omega)
    simp only [Rule.lex, chr] at h1 h2
    by_cases hc : p c = true
    · simp only [hc, if_true] at h1
      simp [Grammar.run, starR, h1, Rule.lex, h2, hc]
    · simp only [hc] at h1
      simp [Grammar.run, starR, h1, Rule.lex, hc]

theorem EvL.plusChr {e : Exp Nt} {p : Char → Bool} (h : EvL K nd e (chr p)) :
    EvL K nd (.plus e) (fun inp => (chr p inp).map fun r => r.dropWhile p) := fun a =>
  EvtR.step (G := fun m => thenR ((grammar nd).run m a e) ((grammar nd).run m a (.star e)))
    (by
      have h' := EvtR.thenR (h a) (EvL.starChr h a)
      have : thenR (Rule.lex (K := K) (chr p)) (Rule.lex fun inp => some (inp.dropWhile p)) =
          Rule.lex (fun inp => (chr p inp).map fun r => r.dropWhile p) := by
        funext inp st
        simp only [thenR, Rule.lex]
        cases chr p inp <;> rfl
      rw [this] at h'
      exact h') fun _ => rfl

theorem EvL.plusDigit : EvL K nd (.plus Peg.digit) Lex.decimalSeq :=
  (EvL.plusChr EvL.digit).congr fun l => by
    cases l with
    | nil => rfl
    | cons c cs =>
      simp only [chr, Lex.decimalSeq]
      by_cases h : c.isDigit = true <;> simp [h]

theorem EvL.decimalSeq : EvL K nd (.nt .decimal_seq) Lex.decimalSeq := EvL.plusDigit.nothing rfl

end Peg
end Verif
