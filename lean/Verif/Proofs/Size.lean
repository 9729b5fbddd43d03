import Verif.Model.Cost
import Verif.Spec.Size
import Verif.Proofs.ParserConv
import Verif.Proofs.ParserMeaning

/-!
# The size of formulas
-/

set_option linter.unusedSectionVars false

namespace Verif
open Spec Rule

section
variable {K : Type}

theorem nodes_pos (e : Expr K) : 0 < e.nodes := by cases e <;> simp [Expr.nodes]

theorem nodesAll_append : ∀ l l' : List (Expr K), Expr.nodesAll (l ++ l') = Expr.nodesAll l + Expr.nodesAll l'
  | [], l' => by simp [Expr.nodesAll]
  | e :: l, l' => by simp [Expr.nodesAll, nodesAll_append l l']; omega

theorem nodes_le_all : ∀ {l : List (Expr K)} {e : Expr K}, e ∈ l → e.nodes ≤ Expr.nodesAll l
  | x :: l, e, h => by
    rw [Expr.nodesAll]
    rcases List.mem_cons.1 h with rfl | h
    · omega
    · have := nodes_le_all h; omega

end

/-! ## Calls -/

section calls
variable {K : Type} [Field K] [LinearOrder K] [Arith K]
open RobustnessOp

mutual
theorem computeC_fst (r : RobustnessOp K) : ∀ e : Expr K, (computeC r e).1 = compute r e
  | .const b => by rw [computeC, compute]
  | .pred n o c => by rw [computeC, compute]
  | .not e => by rw [computeC, compute]; simp only [computeC_fst r e]
  | .and es => by rw [computeC, compute]; simp only [computeArgsC_fst r es]
  | .or es => by rw [computeC, compute]; simp only [computeArgsC_fst r es]
  | .always e i => by rw [computeC, compute]; simp only [computeC_fst r e]
  | .eventually e i => by rw [computeC, compute]; simp only [computeC_fst r e]
  | .untl a b i => by
    have ha := computeC_fst r a
    have hb := computeC_fst r b
    rw [computeC, compute]
    split
    · rename_i y n h
      rw [h] at ha
      rw [← ha]; simp only [hb]; rfl
    · rename_i o n h1 h2
      rw [h2] at ha
      rw [← ha]
theorem computeArgsC_fst (r : RobustnessOp K) : ∀ es : List (Expr K), (computeArgsC r es).1 = computeArgs r es
  | [] => by rw [computeArgsC, computeArgs]
  | e :: es => by
    have ha := computeC_fst r e
    have hb := computeArgsC_fst r es
    rw [computeArgsC, computeArgs]
    split
    · rename_i y n h
      rw [h] at ha
      rw [← ha]; simp only [hb]; rfl
    · rename_i o n h1 h2
      rw [h2] at ha
      rw [← ha]
end

mutual
theorem computeC_le (r : RobustnessOp K) : ∀ e : Expr K, (computeC r e).2 ≤ e.nodes
  | .const b => by rw [computeC, Expr.nodes]
  | .pred n o c => by rw [computeC, Expr.nodes]
  | .not e => by rw [computeC, Expr.nodes]; simpa using computeC_le r e
  | .and es => by rw [computeC, Expr.nodes]; simpa using computeArgsC_le r es
  | .or es => by rw [computeC, Expr.nodes]; simpa using computeArgsC_le r es
  | .always e i => by rw [computeC, Expr.nodes]; simpa using computeC_le r e
  | .eventually e i => by rw [computeC, Expr.nodes]; simpa using computeC_le r e
  | .untl a b i => by
    have ha := computeC_le r a
    have hb := computeC_le r b
    rw [computeC, Expr.nodes]
    split <;> rename_i h <;> (try rename_i h') <;> simp_all <;> omega
theorem computeArgsC_le (r : RobustnessOp K) : ∀ es : List (Expr K), (computeArgsC r es).2 ≤ Expr.nodesAll es
  | [] => by rw [computeArgsC, Expr.nodesAll]
  | e :: es => by
    have ha := computeC_le r e
    have hb := computeArgsC_le r es
    rw [computeArgsC, Expr.nodesAll]
    split <;> rename_i h <;> (try rename_i h') <;> simp_all <;> omega
end

mutual
theorem computeC_eq (r : RobustnessOp K) : ∀ {e : Expr K} {y : Signal K}, compute r e = .ok y →
    (computeC r e).2 = e.nodes
  | .const b, _, _ => by rw [computeC, Expr.nodes]
  | .pred n o c, _, _ => by rw [computeC, Expr.nodes]
  | .not e, _, h => by
    rw [compute] at h
    obtain ⟨_, h1, -⟩ := Outcome.bind_eq_ok.1 h
    rw [computeC, Expr.nodes]; simpa using computeC_eq r h1
  | .and es, _, h => by
    rw [compute] at h
    obtain ⟨_, h1, -⟩ := Outcome.bind_eq_ok.1 h
    rw [computeC, Expr.nodes]; simpa using computeArgsC_eq r h1
  | .or es, _, h => by
    rw [compute] at h
    obtain ⟨_, h1, -⟩ := Outcome.bind_eq_ok.1 h
    rw [computeC, Expr.nodes]; simpa using computeArgsC_eq r h1
  | .always e i, _, h => by
    rw [compute] at h
    obtain ⟨_, h1, -⟩ := Outcome.bind_eq_ok.1 h
    rw [computeC, Expr.nodes]; simpa using computeC_eq r h1
  | .eventually e i, _, h => by
    rw [compute] at h
    obtain ⟨_, h1, -⟩ := Outcome.bind_eq_ok.1 h
    rw [computeC, Expr.nodes]; simpa using computeC_eq r h1
  | .untl a b i, _, h => by
    rw [compute] at h
    obtain ⟨y1, h1, h2⟩ := Outcome.bind_eq_ok.1 h
    obtain ⟨y2, h2, -⟩ := Outcome.bind_eq_ok.1 h2
    have ha := computeC_eq r h1
    have hb := computeC_eq r h2
    have ha' := computeC_fst r a
    rw [h1] at ha'
    rw [computeC, Expr.nodes]
    split
    · rename_i h; rw [h] at ha; simp at ha ⊢; omega
    · rename_i o n h3 h4
      rw [h4] at ha'
      exact absurd ha' (h3 y1)
theorem computeArgsC_eq (r : RobustnessOp K) : ∀ {es : List (Expr K)} {ys : List (Signal K)},
    computeArgs r es = .ok ys → (computeArgsC r es).2 = Expr.nodesAll es
  | [], _, _ => by rw [computeArgsC, Expr.nodesAll]
  | e :: es, _, h => by
    rw [computeArgs] at h
    obtain ⟨y1, h1, h2⟩ := Outcome.bind_eq_ok.1 h
    obtain ⟨y2, h2, -⟩ := Outcome.bind_eq_ok.1 h2
    have ha := computeC_eq r h1
    have hb := computeArgsC_eq r h2
    have ha' := computeC_fst r e
    rw [h1] at ha'
    rw [computeArgsC, Expr.nodesAll]
    split
    · rename_i h; rw [h] at ha; simp at ha ⊢; omega
    · rename_i o n h3 h4
      rw [h4] at ha'
      exact absurd ha' (h3 y1)
end

end calls

/-! ## Upper bound -/

section upper
variable {K : Type} [Field K] [LinearOrder K]

theorem nodes_Not (e : Expr K) : (Expr.Not e).nodes ≤ e.nodes + 1 := by
  cases e <;> simp [Expr.Not, Expr.nodes]

theorem nodes_And {es : List (Expr K)} {e : Expr K} (h : Expr.And es = .ok e) : e.nodes = Expr.nodesAll es + 1 := by
  unfold Expr.And at h
  split at h <;> cases h
  rw [Expr.nodes]

theorem nodes_Or {es : List (Expr K)} {e : Expr K} (h : Expr.Or es = .ok e) : e.nodes = Expr.nodesAll es + 1 := by
  unfold Expr.Or at h
  split at h <;> cases h
  rw [Expr.nodes]

theorem nodes_andHelper {es : List (Expr K)} {r e : Expr K} (h : Expr.andHelper es r = .ok e) :
    e.nodes ≤ Expr.nodesAll es + r.nodes + 1 := by
  cases r with
  | const b =>
    rw [Expr.andHelper] at h
    have := nodes_And h
    cases b <;> simp [Expr.nodes, Expr.nodesAll] at this ⊢ <;> omega
  | and l =>
    rw [Expr.andHelper] at h
    have := nodes_And h
    rw [nodesAll_append] at this
    rw [Expr.nodes]; omega
  | _ =>
    have := nodes_And h
    rw [nodesAll_append] at this
    simp only [Expr.nodesAll] at this
    omega

theorem nodes_orHelper {es : List (Expr K)} {r e : Expr K} (h : Expr.orHelper es r = .ok e) :
    e.nodes ≤ Expr.nodesAll es + r.nodes + 1 := by
  cases r with
  | const b =>
    rw [Expr.orHelper] at h
    have := nodes_Or h
    cases b <;> simp [Expr.nodes, Expr.nodesAll] at this ⊢ <;> omega
  | or l =>
    rw [Expr.orHelper] at h
    have := nodes_Or h
    rw [nodesAll_append] at this
    rw [Expr.nodes]; omega
  | _ =>
    have := nodes_Or h
    rw [nodesAll_append] at this
    simp only [Expr.nodesAll] at this
    omega

theorem nodes_andOp {l r e : Expr K} (h : Expr.andOp l r = .ok e) : e.nodes ≤ l.nodes + r.nodes + 1 := by
  cases l with
  | const b => cases b <;> cases h <;> simp [Expr.nodes] <;> omega
  | and es =>
    have := nodes_andHelper (show Expr.andHelper es r = .ok e from h)
    rw [Expr.nodes]; omega
  | _ =>
    have := nodes_And h
    simp only [Expr.nodesAll] at this
    omega

theorem nodes_orOp {l r e : Expr K} (h : Expr.orOp l r = .ok e) : e.nodes ≤ l.nodes + r.nodes + 1 := by
  cases l with
  | const b => cases b <;> cases h <;> simp [Expr.nodes] <;> omega
  | or es =>
    have := nodes_orHelper (show Expr.orHelper es r = .ok e from h)
    rw [Expr.nodes]; omega
  | _ =>
    have := nodes_Or h
    simp only [Expr.nodesAll] at this
    omega

theorem nodes_bin {o : BinOp} {a b e : Expr K} (h : o.apply a b = .ok e) :
    e.nodes ≤ 2 * (a.nodes + b.nodes) + 6 := by
  have ha := nodes_Not a
  have hb := nodes_Not b
  cases o with
  | implies =>
    have := nodes_orOp h
    omega
  | iff =>
    obtain ⟨x, h1, h2⟩ := Outcome.bind_eq_ok.1 h
    obtain ⟨y, h3, h4⟩ := Outcome.bind_eq_ok.1 h2
    have h1 := nodes_andOp h1
    have h3 := nodes_andOp h3
    have h4 := nodes_orOp h4
    omega
  | xor =>
    obtain ⟨x, h1, h2⟩ := Outcome.bind_eq_ok.1 h
    obtain ⟨y, h3, h4⟩ := Outcome.bind_eq_ok.1 h2
    have h1 := nodes_orOp h1
    have h3 := nodes_orOp h3
    have h4 := nodes_andOp h4
    omega
  | untl =>
    cases h
    rw [Expr.Until, Expr.nodes]
    omega

theorem nodes_un (o : UnOp) (e : Expr K) : (o.apply e).nodes ≤ e.nodes + 1 := by
  cases o
  · exact nodes_Not e
  · rw [UnOp.apply, Expr.Always, Expr.nodes]
  · rw [UnOp.apply, Expr.Eventually, Expr.nodes]

/-- The nodes of everything that is left. -/
def Left.nodes (l : Left K) : Nat := (l.value.map Expr.nodes).getD 0 + Expr.nodesAll l.terms

theorem nodesAll_reverse : ∀ l : List (Expr K), Expr.nodesAll l.reverse = Expr.nodesAll l
  | [] => rfl
  | e :: l => by
    rw [List.reverse_cons, nodesAll_append, nodesAll_reverse l]
    simp [Expr.nodesAll]; omega

theorem left_un {nd : Bool} {o : UnOp} {l l' : Left K} (h : Left.un nd o l = .ok l') :
    Left.nodes l' ≤ Expr.nodesAll l.terms + 1 := by
  unfold Left.un at h
  split at h
  · cases h
  · have hr := nodesAll_reverse l.terms
    split at h
    · rename_i e rest he
      rw [he, Expr.nodesAll] at hr
      cases h
      simp only [Left.nodes, Option.map_some, Option.getD_some, nodesAll_reverse]
      have := nodes_un o e
      omega
    · cases h

theorem left_nary {o : NaryOp} {l l' : Left K} (h : Left.nary o l = .ok l') :
    Left.nodes l' ≤ Expr.nodesAll l.terms + 1 := by
  unfold Left.nary at h
  split at h
  · cases h
  · obtain ⟨e, he, h⟩ := Outcome.bind_eq_ok.1 h
    cases h
    simp only [Left.nodes, Option.map_some, Option.getD_some, Expr.nodesAll]
    cases o
    · have := nodes_And he; omega
    · have := nodes_Or he; omega

theorem left_bin {nd : Bool} {o : BinOp} {l l' : Left K} (h : Left.bin nd o l = .ok l') :
    Left.nodes l' ≤ 2 * Expr.nodesAll l.terms + 6 := by
  unfold Left.bin at h
  split at h
  · cases h
  · have hr := nodesAll_reverse l.terms
    split at h
    · rename_i b a rest he
      rw [he, Expr.nodesAll, Expr.nodesAll] at hr
      obtain ⟨e, he, h⟩ := Outcome.bind_eq_ok.1 h
      cases h
      simp only [Left.nodes, Option.map_some, Option.getD_some, nodesAll_reverse]
      have := nodes_bin he
      omega
    · cases h

theorem four_add {M a b : Nat} (ha : 1 ≤ a) (hb : 1 ≤ b) : M * 4 ^ a + M * 4 ^ b ≤ M * 4 ^ (a + b) := by
  rw [pow_add, ← Nat.mul_add]
  refine Nat.mul_le_mul_left M ?_
  have h1 : 4 ≤ 4 ^ a := by simpa using Nat.pow_le_pow_right (n := 4) (by omega) ha
  have h2 : 4 ≤ 4 ^ b := by simpa using Nat.pow_le_pow_right (n := 4) (by omega) hb
  nlinarith

theorem raw_toks_pos (r : Raw) : 1 ≤ r.toks.length := by
  cases r <;> simp [Raw.toks]

variable [Arith K] [Strtod K]

mutual
theorem raw_nodes {nd : Bool} {env : String → Option (Expr K)} {M : Nat} (hM : 1 ≤ M)
    (henv : ∀ n e, env n = some e → e.nodes ≤ M) : ∀ {r : Raw} {es : List (Expr K)},
    r.eval nd env = .ok es → Expr.nodesAll es ≤ M * 4 ^ r.toks.length
  | .tru, es, h => by
    rw [Raw.eval] at h; cases h
    simp [Expr.nodesAll, Expr.Const, Expr.nodes, Raw.toks]; omega
  | .fls, es, h => by
    rw [Raw.eval] at h; cases h
    simp [Expr.nodesAll, Expr.Const, Expr.nodes, Raw.toks]; omega
  | .ref n, es, h => by
    rw [Raw.eval] at h
    split at h
    · rename_i e he
      cases h
      have := henv n e he
      simp [Expr.nodesAll, Raw.toks]; omega
    · cases h
  | .paren is, es, h => by
    rw [Raw.eval] at h
    obtain ⟨l, h1, h2⟩ := Outcome.bind_eq_ok.1 h
    split at h2
    · rename_i e he
      cases h2
      have := items_nodes hM henv (k := 1) (by omega) (l := {}) (by simp [Left.nodes, Expr.nodesAll]) h1
      rw [nodesAll_append]
      simp only [Left.nodes, he, Option.map_some, Option.getD_some] at this
      have h3 : M * 4 ^ (1 + (Item.toksAll is).length) ≤ M * 4 ^ (Raw.paren is).toks.length := by
        refine Nat.mul_le_mul_left M (Nat.pow_le_pow_right (by omega) ?_)
        simp [Raw.toks]; omega
      simp only [Expr.nodesAll]
      omega
    · cases h2
theorem raws_nodes {nd : Bool} {env : String → Option (Expr K)} {M : Nat} (hM : 1 ≤ M)
    (henv : ∀ n e, env n = some e → e.nodes ≤ M) : ∀ {ts : List Raw} {es : List (Expr K)},
    Raw.evalAll nd env ts = .ok es → Expr.nodesAll es ≤ M * 4 ^ (Raw.toksAll ts).length
  | [], es, h => by
    rw [Raw.evalAll] at h; cases h
    simp [Expr.nodesAll]
  | t :: ts, es, h => by
    rw [Raw.evalAll] at h
    obtain ⟨e1, h1, h'⟩ := Outcome.bind_eq_ok.1 h
    obtain ⟨e2, h2, h3⟩ := Outcome.bind_eq_ok.1 h'
    rw [Outcome.pure_eq_ok, Outcome.ok.injEq] at h3
    subst h3
    clear h h'
    have i1 := raw_nodes hM henv h1
    have i2 := raws_nodes hM henv h2
    rw [nodesAll_append, Raw.toksAll, List.length_append]
    cases ts with
    | nil =>
      rw [Raw.evalAll] at h2; cases h2
      simpa [Expr.nodesAll, Raw.toksAll] using i1
    | cons t' ts =>
      have := four_add (M := M) (raw_toks_pos t) (b := (Raw.toksAll (t' :: ts)).length)
        (by rw [Raw.toksAll, List.length_append]; have := raw_toks_pos t'; omega)
      omega
theorem item_nodes {nd : Bool} {env : String → Option (Expr K)} {M : Nat} (hM : 1 ≤ M)
    (henv : ∀ n e, env n = some e → e.nodes ≤ M) : ∀ {k : Nat} (_ : 1 ≤ k) {i : Item} {l l' : Left K},
    Left.nodes l ≤ M * 4 ^ k → Item.eval nd env i l = .ok l' → Left.nodes l' ≤ M * 4 ^ (k + i.toks.length)
  | k, hk, .cmp o n c, l, l', hl, h => by
    rw [Item.eval] at h
    obtain ⟨d, -, h⟩ := Outcome.bind_eq_ok.1 h
    cases h
    have h1 : Left.nodes { l with value := some (.pred n o d) } ≤ Left.nodes l + 1 := by
      simp [Left.nodes, Expr.nodes]; omega
    have h2 := four_add (M := M) hk (b := 3) (by omega)
    have : (Item.cmp o n c).toks.length = 3 := by simp [Item.toks]
    rw [this]
    omega
  | k, hk, .un o t, l, l', hl, h => by
    rw [Item.eval] at h
    obtain ⟨es, h1, h2⟩ := Outcome.bind_eq_ok.1 h
    have i1 := raw_nodes hM henv h1
    have i2 := left_un h2
    rw [nodesAll_append] at i2
    have e : (Item.un o t).toks.length = t.toks.length + 1 := by simp [Item.toks]
    have h3 := four_add (M := M) hk (raw_toks_pos t)
    have hp : M ≤ M * 4 ^ (k + t.toks.length) := Nat.le_mul_of_pos_right _ (by positivity)
    have : M * 4 ^ (k + (t.toks.length + 1)) = 4 * (M * 4 ^ (k + t.toks.length)) := by ring
    rw [e, this]
    have : Expr.nodesAll l.terms ≤ Left.nodes l := by unfold Left.nodes; omega
    omega
  | k, hk, .nary o ts, l, l', hl, h => by
    rw [Item.eval] at h
    obtain ⟨es, h1, h2⟩ := Outcome.bind_eq_ok.1 h
    have i1 := raws_nodes hM henv h1
    have i2 := left_nary h2
    rw [nodesAll_append] at i2
    have e : (Item.nary o ts).toks.length = (Raw.toksAll ts).length + 1 := by simp [Item.toks]
    have hp : M * 4 ^ k ≤ M * 4 ^ (k + (Raw.toksAll ts).length) :=
      Nat.mul_le_mul_left M (Nat.pow_le_pow_right (by omega) (by omega))
    have hq : M * 4 ^ (Raw.toksAll ts).length ≤ M * 4 ^ (k + (Raw.toksAll ts).length) :=
      Nat.mul_le_mul_left M (Nat.pow_le_pow_right (by omega) (by omega))
    have hp' : M ≤ M * 4 ^ (k + (Raw.toksAll ts).length) := Nat.le_mul_of_pos_right _ (by positivity)
    have : M * 4 ^ (k + ((Raw.toksAll ts).length + 1)) = 4 * (M * 4 ^ (k + (Raw.toksAll ts).length)) := by ring
    rw [e, this]
    have : Expr.nodesAll l.terms ≤ Left.nodes l := by unfold Left.nodes; omega
    omega
  | k, hk, .bin o a b, l, l', hl, h => by
    rw [Item.eval] at h
    obtain ⟨es, h1, h2⟩ := Outcome.bind_eq_ok.1 h
    obtain ⟨es', h2, h3⟩ := Outcome.bind_eq_ok.1 h2
    have i1 := raw_nodes hM henv h1
    have i2 := raw_nodes hM henv h2
    have i3 := left_bin h3
    rw [nodesAll_append, nodesAll_append] at i3
    have e : (Item.bin o a b).toks.length = a.toks.length + b.toks.length + 1 := by simp [Item.toks]
    have h4 := four_add (M := M) hk (raw_toks_pos a)
    have h5 := four_add (M := M) (a := k + a.toks.length) (by omega) (raw_toks_pos b)
    have hp : M * 4 ^ 3 ≤ M * 4 ^ (k + a.toks.length + b.toks.length) :=
      Nat.mul_le_mul_left M (Nat.pow_le_pow_right (by omega) (by
        have := raw_toks_pos a; have := raw_toks_pos b; omega))
    have : M * 4 ^ (k + (a.toks.length + b.toks.length + 1)) =
        4 * (M * 4 ^ (k + a.toks.length + b.toks.length)) := by ring
    rw [e, this]
    have : Expr.nodesAll l.terms ≤ Left.nodes l := by unfold Left.nodes; omega
    omega
  | k, hk, .term t, l, l', hl, h => by
    rw [Item.eval] at h
    obtain ⟨es, h1, h2⟩ := Outcome.bind_eq_ok.1 h
    cases h2
    have i1 := raw_nodes hM henv h1
    have e : (Item.term t).toks.length = t.toks.length := by simp [Item.toks]
    have h3 := four_add (M := M) hk (raw_toks_pos t)
    rw [e]
    have : Left.nodes { l with terms := l.terms ++ es } = Left.nodes l + Expr.nodesAll es := by
      simp only [Left.nodes, nodesAll_append]; omega
    omega
theorem items_nodes {nd : Bool} {env : String → Option (Expr K)} {M : Nat} (hM : 1 ≤ M)
    (henv : ∀ n e, env n = some e → e.nodes ≤ M) : ∀ {k : Nat} (_ : 1 ≤ k) {is : List Item} {l l' : Left K},
    Left.nodes l ≤ M * 4 ^ k → Item.evalAll nd env is l = .ok l' → Left.nodes l' ≤ M * 4 ^ (k + (Item.toksAll is).length)
  | k, hk, [], l, l', hl, h => by
    rw [Item.evalAll] at h; cases h
    simpa [Item.toksAll] using hl
  | k, hk, i :: is, l, l', hl, h => by
    rw [Item.evalAll] at h
    obtain ⟨l1, h1, h2⟩ := Outcome.bind_eq_ok.1 h
    have i1 := item_nodes hM henv hk hl h1
    have i2 := items_nodes hM henv (k := k + i.toks.length) (by omega) i1 h2
    rw [Item.toksAll, List.length_append, ← Nat.add_assoc]
    exact i2
end

theorem find_nodes {m : List (String × Expr K)} {M : Nat} (h : ∀ p ∈ m, p.2.nodes ≤ M) :
    ∀ n e, find m n = some e → e.nodes ≤ M := by
  intro n e he
  unfold find at he
  obtain ⟨p, hp, rfl⟩ := Option.map_eq_some_iff.1 he
  exact h p (List.mem_of_find?_eq_some hp)

theorem theTerm_mem {nd : Bool} {es : List (Expr K)} {e : Expr K} (h : theTerm nd es = .ok e) : e ∈ es := by
  unfold theTerm at h
  split at h
  · cases h
  · split at h
    · rename_i x hx
      cases h
      exact List.mem_of_getLast? hx
    · cases h

theorem addNew_nodes {m m' : List (String × Expr K)} {n : String} {e : Expr K} {M : Nat} (h : addNew m n e = .ok m')
    (hm : ∀ p ∈ m, p.2.nodes ≤ M) (he : e.nodes ≤ M) : ∀ p ∈ m', p.2.nodes ≤ M := by
  obtain ⟨rfl, -⟩ := addNew_ok h
  intro p hp
  rcases List.mem_append.1 hp with hp | hp
  · exact hm p hp
  · rw [List.mem_singleton.1 hp]; exact he

/-- All formulas are at most so large. -/
def SpecNodes (sp : Specification K) (M : Nat) : Prop :=
  (∀ p ∈ sp.formulas, p.2.nodes ≤ M) ∧ ∀ p ∈ sp.assertions, p.2.nodes ≤ M

theorem SpecNodes.mono {sp : Specification K} {M M' : Nat} (h : SpecNodes sp M) (hM : M ≤ M') : SpecNodes sp M' :=
  ⟨fun p hp => (h.1 p hp).trans hM, fun p hp => (h.2 p hp).trans hM⟩

theorem cmd_nodes {nd : Bool} {sp sp' : Specification K} {c : RawCmd} {M : Nat} (hM : 1 ≤ M) (hsp : SpecNodes sp M)
    (h : c.eval nd sp = .ok sp') : SpecNodes sp' (M * 4 ^ c.toks.length) := by
  have hle : M ≤ M * 4 ^ c.toks.length := Nat.le_mul_of_pos_right _ (by positivity)
  have hsp' := hsp.mono hle
  have key : ∀ (t : Raw) (es : List (Expr K)) (e : Expr K), t.toks.length ≤ c.toks.length →
      t.eval nd (find sp.formulas) = .ok es → theTerm nd es = .ok e → e.nodes ≤ M * 4 ^ c.toks.length := by
    intro t es e hl h1 h2
    refine (nodes_le_all (theTerm_mem h2)).trans ((raw_nodes hM (find_nodes hsp.1) h1).trans ?_)
    exact Nat.mul_le_mul_left M (Nat.pow_le_pow_right (by omega) hl)
  cases c with
  | define n t =>
    obtain ⟨es, h1, ha⟩ := Outcome.bind_eq_ok.1 h
    obtain ⟨e, h2, hb⟩ := Outcome.bind_eq_ok.1 ha
    obtain ⟨m, h3, h4⟩ := Outcome.bind_eq_ok.1 hb
    simp only [Outcome.pure_eq_ok, Outcome.ok.injEq] at h4
    subst h4
    exact ⟨addNew_nodes h3 hsp'.1 (key t es e (by simp [RawCmd.toks]; omega) h1 h2), hsp'.2⟩
  | assert n t =>
    obtain ⟨es, h1, ha⟩ := Outcome.bind_eq_ok.1 h
    obtain ⟨e, h2, hb⟩ := Outcome.bind_eq_ok.1 ha
    obtain ⟨m, h3, h4⟩ := Outcome.bind_eq_ok.1 hb
    simp only [Outcome.pure_eq_ok, Outcome.ok.injEq] at h4
    subst h4
    exact ⟨hsp'.1, addNew_nodes h3 hsp'.2 (key t es e (by simp [RawCmd.toks]; omega) h1 h2)⟩

theorem raws_spec_nodes {nd : Bool} : ∀ {cs : List RawCmd} {sp sp' : Specification K} {M : Nat}, 1 ≤ M →
    SpecNodes sp M → evalRaws nd sp cs = .ok sp' → SpecNodes sp' (M * 4 ^ (cs.flatMap RawCmd.toks).length)
  | [], sp, sp', M, hM, hsp, h => by cases h; simpa using hsp
  | c :: cs, sp, sp', M, hM, hsp, h => by
    rw [evalRaws] at h
    obtain ⟨sp1, h1, h2⟩ := Outcome.bind_eq_ok.1 h
    have := raws_spec_nodes (M := M * 4 ^ c.toks.length) (Nat.mul_pos hM (by positivity)) (cmd_nodes hM hsp h1) h2
    rw [List.flatMap_cons, List.length_append, pow_add, ← Nat.mul_assoc]
    exact this

theorem txt_length : ∀ {ts : List Tok} {w : List Char}, Txt ts w → (∀ t ∈ ts, TokOk t) → ts.length ≤ w.length
  | [], _, _, _ => by simp
  | [t], _, h, ho => by
    obtain ⟨c, cs, hc, -⟩ := chars_ne t (ho t (by simp))
    cases h
    simp [hc]
  | t :: t' :: ts, _, h, ho => by
    obtain ⟨c, cs, hc, -⟩ := chars_ne t (ho t (by simp))
    cases h with
    | cons _ _ h =>
      have := txt_length h fun x hx => ho x (by simp at hx ⊢; tauto)
      simp [hc] at this ⊢
      omega

theorem group_length (cs : List RawCmd) : (cs.flatMap RawCmd.toks).length ≤ (groupToks cs).length := by
  simp [groupToks]; omega

theorem groups_length : ∀ gs : List (List RawCmd),
    (gs.flatten.flatMap RawCmd.toks).length ≤ (gs.flatMap groupToks).length
  | [] => by simp
  | cs :: gs => by
    have := groups_length gs
    have := group_length cs
    simp only [List.flatten_cons, List.flatMap_append, List.flatMap_cons, List.length_append]
    omega

theorem parsed_nodes [IsStrictOrderedRing K] {nd : Bool} {n : Nat} {w : List Char} {sp : Specification K}
    (hn : w.length < n) (h : fromString nd n w = .ok sp) : SpecNodes sp (4 ^ w.length) := by
  obtain ⟨gs, hgs, ht⟩ := fromString_accepts h
  rw [fromString_rawText hgs ht nd hn] at h
  have h1 := raws_spec_nodes (M := 1) le_rfl (sp := {}) ⟨by simp, by simp⟩ h
  rw [Nat.one_mul] at h1
  refine h1.mono (Nat.pow_le_pow_right (by omega) ((groups_length gs).trans ?_))
  cases ht with
  | mk hg hx =>
    have := txt_length hx fun x hx => by
      obtain ⟨c, hc, hx⟩ := List.mem_flatMap.1 hx
      exact group_toks_ok (hgs c hc) x hx
    simp only [List.length_append]
    omega
  | empty hg hnil => subst hnil; simp

/-! ## Without repetition -/

theorem nodes_bin_lin {o : BinOp} {a b e : Expr K} (ho : o = .implies ∨ o = .untl) (h : o.apply a b = .ok e) :
    e.nodes ≤ a.nodes + b.nodes + 2 := by
  have ha := nodes_Not a
  rcases ho with rfl | rfl
  · have := nodes_orOp (show Expr.orOp (Expr.Not a) b = .ok e from h)
    omega
  · cases h
    rw [Expr.Until, Expr.nodes]
    omega

theorem left_bin_lin {nd : Bool} {o : BinOp} (ho : o = .implies ∨ o = .untl) {l l' : Left K}
    (h : Left.bin nd o l = .ok l') : Left.nodes l' ≤ Expr.nodesAll l.terms + 2 := by
  unfold Left.bin at h
  split at h
  · cases h
  · have hr := nodesAll_reverse l.terms
    split at h
    · rename_i b a rest he
      rw [he, Expr.nodesAll, Expr.nodesAll] at hr
      obtain ⟨e, he, h⟩ := Outcome.bind_eq_ok.1 h
      cases h
      simp only [Left.nodes, Option.map_some, Option.getD_some, nodesAll_reverse]
      have := nodes_bin_lin ho he
      omega
    · cases h

mutual
theorem raw_plain {nd : Bool} {env : String → Option (Expr K)} : ∀ {r : Raw} {es : List (Expr K)},
    r.plain = true → r.eval nd env = .ok es → Expr.nodesAll es ≤ 2 * r.toks.length
  | .tru, es, _, h => by
    rw [Raw.eval] at h; cases h
    simp [Expr.nodesAll, Expr.Const, Expr.nodes, Raw.toks]
  | .fls, es, _, h => by
    rw [Raw.eval] at h; cases h
    simp [Expr.nodesAll, Expr.Const, Expr.nodes, Raw.toks]
  | .ref n, es, hp, h => by simp [Raw.plain] at hp
  | .paren is, es, hp, h => by
    rw [Raw.plain] at hp
    rw [Raw.eval] at h
    obtain ⟨l, h1, h2⟩ := Outcome.bind_eq_ok.1 h
    split at h2
    · rename_i e he
      cases h2
      have := items_plain hp h1
      rw [nodesAll_append]
      simp only [Left.nodes, he, Option.map_some, Option.getD_some, Option.map_none, Option.getD_none,
        Expr.nodesAll] at this
      simp only [Expr.nodesAll, Raw.toks, List.length_cons, List.length_append]
      omega
    · cases h2
theorem raws_plain {nd : Bool} {env : String → Option (Expr K)} : ∀ {ts : List Raw} {es : List (Expr K)},
    Raw.plainAll ts = true → Raw.evalAll nd env ts = .ok es → Expr.nodesAll es ≤ 2 * (Raw.toksAll ts).length
  | [], es, _, h => by
    rw [Raw.evalAll] at h; cases h
    simp [Expr.nodesAll]
  | t :: ts, es, hp, h => by
    rw [Raw.plainAll, Bool.and_eq_true] at hp
    rw [Raw.evalAll] at h
    obtain ⟨e1, h1, h'⟩ := Outcome.bind_eq_ok.1 h
    obtain ⟨e2, h2, h3⟩ := Outcome.bind_eq_ok.1 h'
    rw [Outcome.pure_eq_ok, Outcome.ok.injEq] at h3
    subst h3
    have i1 := raw_plain hp.1 h1
    have i2 := raws_plain hp.2 h2
    rw [nodesAll_append, Raw.toksAll, List.length_append]
    omega
theorem item_plain {nd : Bool} {env : String → Option (Expr K)} : ∀ {i : Item} {l l' : Left K},
    i.plain = true → Item.eval nd env i l = .ok l' → Left.nodes l' ≤ Left.nodes l + 2 * i.toks.length
  | .cmp o n c, l, l', _, h => by
    rw [Item.eval] at h
    obtain ⟨d, -, h⟩ := Outcome.bind_eq_ok.1 h
    cases h
    have h1 : Left.nodes { l with value := some (.pred n o d) } ≤ Left.nodes l + 1 := by
      simp [Left.nodes, Expr.nodes]; omega
    have : (Item.cmp o n c).toks.length = 3 := by simp [Item.toks]
    omega
  | .un o t, l, l', hp, h => by
    rw [Item.plain] at hp
    rw [Item.eval] at h
    obtain ⟨es, h1, h2⟩ := Outcome.bind_eq_ok.1 h
    have i1 := raw_plain hp h1
    have i2 := left_un h2
    rw [nodesAll_append] at i2
    have e : (Item.un o t).toks.length = t.toks.length + 1 := by simp [Item.toks]
    have : Expr.nodesAll l.terms ≤ Left.nodes l := by unfold Left.nodes; omega
    omega
  | .nary o ts, l, l', hp, h => by
    rw [Item.plain] at hp
    rw [Item.eval] at h
    obtain ⟨es, h1, h2⟩ := Outcome.bind_eq_ok.1 h
    have i1 := raws_plain hp h1
    have i2 := left_nary h2
    rw [nodesAll_append] at i2
    have e : (Item.nary o ts).toks.length = (Raw.toksAll ts).length + 1 := by simp [Item.toks]
    have : Expr.nodesAll l.terms ≤ Left.nodes l := by unfold Left.nodes; omega
    omega
  | .bin o a b, l, l', hp, h => by
    rw [Item.plain] at hp
    simp only [Bool.and_eq_true, Bool.or_eq_true, beq_iff_eq] at hp
    rw [Item.eval] at h
    obtain ⟨es, h1, h2⟩ := Outcome.bind_eq_ok.1 h
    obtain ⟨es', h2, h3⟩ := Outcome.bind_eq_ok.1 h2
    have i1 := raw_plain hp.2.1 h1
    have i2 := raw_plain hp.2.2 h2
    have i3 := left_bin_lin hp.1 h3
    rw [nodesAll_append, nodesAll_append] at i3
    have e : (Item.bin o a b).toks.length = a.toks.length + b.toks.length + 1 := by simp [Item.toks]
    have : Expr.nodesAll l.terms ≤ Left.nodes l := by unfold Left.nodes; omega
    omega
  | .term t, l, l', hp, h => by
    rw [Item.plain] at hp
    rw [Item.eval] at h
    obtain ⟨es, h1, h2⟩ := Outcome.bind_eq_ok.1 h
    cases h2
    have i1 := raw_plain hp h1
    have e : (Item.term t).toks.length = t.toks.length := by simp [Item.toks]
    have : Left.nodes { l with terms := l.terms ++ es } = Left.nodes l + Expr.nodesAll es := by
      simp only [Left.nodes, nodesAll_append]; omega
    omega
theorem items_plain {nd : Bool} {env : String → Option (Expr K)} : ∀ {is : List Item} {l l' : Left K},
    Item.plainAll is = true → Item.evalAll nd env is l = .ok l' →
      Left.nodes l' ≤ Left.nodes l + 2 * (Item.toksAll is).length
  | [], l, l', _, h => by
    rw [Item.evalAll] at h; cases h
    simp
  | i :: is, l, l', hp, h => by
    rw [Item.plainAll, Bool.and_eq_true] at hp
    rw [Item.evalAll] at h
    obtain ⟨l1, h1, h2⟩ := Outcome.bind_eq_ok.1 h
    have i1 := item_plain hp.1 h1
    have i2 := items_plain hp.2 h2
    rw [Item.toksAll, List.length_append]
    omega
end

theorem cmd_plain {nd : Bool} {sp sp' : Specification K} {c : RawCmd} {N : Nat} (hp : c.plain = true)
    (hN : 2 * c.toks.length ≤ N) (hsp : SpecNodes sp N) (h : c.eval nd sp = .ok sp') : SpecNodes sp' N := by
  have key : ∀ (t : Raw) (es : List (Expr K)) (e : Expr K), t.plain = true → t.toks.length ≤ c.toks.length →
      t.eval nd (find sp.formulas) = .ok es → theTerm nd es = .ok e → e.nodes ≤ N := by
    intro t es e hp hl h1 h2
    have := nodes_le_all (theTerm_mem h2)
    have := raw_plain hp h1
    omega
  cases c with
  | define n t =>
    obtain ⟨es, h1, ha⟩ := Outcome.bind_eq_ok.1 h
    obtain ⟨e, h2, hb⟩ := Outcome.bind_eq_ok.1 ha
    obtain ⟨m, h3, h4⟩ := Outcome.bind_eq_ok.1 hb
    simp only [Outcome.pure_eq_ok, Outcome.ok.injEq] at h4
    subst h4
    exact ⟨addNew_nodes h3 hsp.1 (key t es e hp (by simp [RawCmd.toks]; omega) h1 h2), hsp.2⟩
  | assert n t =>
    obtain ⟨es, h1, ha⟩ := Outcome.bind_eq_ok.1 h
    obtain ⟨e, h2, hb⟩ := Outcome.bind_eq_ok.1 ha
    obtain ⟨m, h3, h4⟩ := Outcome.bind_eq_ok.1 hb
    simp only [Outcome.pure_eq_ok, Outcome.ok.injEq] at h4
    subst h4
    refine ⟨hsp.1, addNew_nodes h3 hsp.2 ?_⟩
    by_cases hr : ∃ r, t = .ref r
    · obtain ⟨r, rfl⟩ := hr
      rw [Raw.eval] at h1
      split at h1
      · rename_i e' he
        cases h1
        have := theTerm_mem h2
        simp only [List.mem_singleton] at this
        subst this
        exact find_nodes hsp.1 r e he
      · cases h1
    · refine key t es e ?_ (by simp [RawCmd.toks]; omega) h1 h2
      cases t <;> simp_all [RawCmd.plain, Raw.plain]

theorem raws_spec_plain {nd : Bool} {N : Nat} : ∀ {cs : List RawCmd} {sp sp' : Specification K},
    (∀ c ∈ cs, c.plain = true) → 2 * (cs.flatMap RawCmd.toks).length ≤ N →
    SpecNodes sp N → evalRaws nd sp cs = .ok sp' → SpecNodes sp' N
  | [], sp, sp', _, _, hsp, h => by cases h; exact hsp
  | c :: cs, sp, sp', hp, hN, hsp, h => by
    rw [evalRaws] at h
    obtain ⟨sp1, h1, h2⟩ := Outcome.bind_eq_ok.1 h
    rw [List.flatMap_cons, List.length_append] at hN
    exact raws_spec_plain (fun x hx => hp x (by simp [hx])) (by omega)
      (cmd_plain (hp c (by simp)) (by omega) hsp h1) h2

theorem rawText_length {gs : List (List RawCmd)} {w : List Char} (hgs : ∀ cs ∈ gs, ∀ c ∈ cs, RawCmdOk c)
    (ht : RawText gs w) : (gs.flatten.flatMap RawCmd.toks).length ≤ w.length := by
  refine (groups_length gs).trans ?_
  cases ht with
  | mk hg hx =>
    have := txt_length hx fun x hx => by
      obtain ⟨c, hc, hx⟩ := List.mem_flatMap.1 hx
      exact group_toks_ok (hgs c hc) x hx
    simp only [List.length_append]
    omega
  | empty hg hnil => subst hnil; simp

theorem parsed_plain [IsStrictOrderedRing K] {nd : Bool} {n : Nat} {w : List Char} {sp : Specification K}
    {gs : List (List RawCmd)} (hgs : ∀ cs ∈ gs, ∀ c ∈ cs, RawCmdOk c ∧ c.plain = true) (ht : RawText gs w)
    (hn : w.length < n) (h : fromString nd n w = .ok sp) : SpecNodes sp (2 * w.length) := by
  have hgs' : ∀ cs ∈ gs, ∀ c ∈ cs, RawCmdOk c := fun cs hc c h => (hgs cs hc c h).1
  rw [fromString_rawText hgs' ht nd hn] at h
  refine raws_spec_plain (fun c hc => ?_) (Nat.mul_le_mul_left 2 (rawText_length hgs' ht)) (sp := {})
    ⟨by simp, by simp⟩ h
  obtain ⟨cs, hcs, hc⟩ := List.mem_flatten.1 hc
  exact (hgs cs hcs c hc).2

end upper

/-! ## A family of specifications -/

section family

/-- The name `zz…z` of length n + 1. -/
def zs (n : Nat) : String := String.ofList (List.replicate (n + 1) 'z')

theorem zs_inj {m n : Nat} (h : zs m = zs n) : m = n := by
  have := congrArg (fun s => s.toList.length) h
  simpa [zs] using this

theorem zs_name (n : Nat) : IsName (zs n) := by
  refine ⟨'z', List.replicate n 'z', by simp [zs, List.replicate_succ], by decide, fun d hd => ?_⟩
  rw [(List.mem_replicate.1 hd).2]
  decide

theorem zs_head (n : Nat) (s : String) (h : s.toList.head? ≠ some 'z') : zs n ≠ s := by
  rintro rfl
  simp [zs, List.replicate_succ] at h

/-- `z` is true; each of the other formulas is the conjunction of the preceding one with itself. -/
def blowDefs : Nat → List Cmd
  | 0 => [.define (zs 0) .tru]
  | n + 1 => blowDefs n ++ [.define (zs (n + 1)) (.and [.ref (zs n), .ref (zs n)])]

/-- The last formula is asserted. -/
def blow (n : Nat) : List Cmd := blowDefs n ++ [.assert "a" (.ref (zs n))]

variable {K : Type} [Field K] [LinearOrder K]

/-- The formulas. -/
def blowF : Nat → Expr K
  | 0 => .const true
  | n + 1 => .and [blowF n, blowF n]

/-- All definitions. -/
def blowM : Nat → List (String × Expr K)
  | 0 => [(zs 0, blowF 0)]
  | n + 1 => blowM n ++ [(zs (n + 1), blowF (n + 1))]

theorem blowF_nodes : ∀ n, (blowF n : Expr K).nodes + 1 = 2 ^ (n + 1)
  | 0 => rfl
  | n + 1 => by
    have := blowF_nodes n
    simp only [blowF, Expr.nodes, Expr.nodesAll]
    rw [pow_succ]
    omega

theorem blowM_names : ∀ n k, k ∈ (blowM n : List (String × Expr K)).map Prod.fst → ∃ i ≤ n, k = zs i
  | 0, k, h => ⟨0, le_rfl, by simpa [blowM] using h⟩
  | n + 1, k, h => by
    simp only [blowM, List.map_append, List.mem_append] at h
    rcases h with h | h
    · obtain ⟨i, hi, e⟩ := blowM_names n k h
      exact ⟨i, by omega, e⟩
    · exact ⟨n + 1, le_rfl, by simpa using h⟩

theorem blowM_fresh (n : Nat) : zs (n + 1) ∉ (blowM n : List (String × Expr K)).map Prod.fst := by
  intro h
  obtain ⟨i, hi, e⟩ := blowM_names n _ h
  have := zs_inj e
  omega

theorem blowM_find : ∀ n, find (blowM n : List (String × Expr K)) (zs n) = some (blowF n)
  | 0 => by simp [find, blowM]
  | n + 1 => by
    have h := blowM_fresh (K := K) n
    have : (blowM n : List (String × Expr K)).find? (fun p => p.1 == zs (n + 1)) = none := by
      rw [List.find?_eq_none]
      intro p hp e
      exact h (List.mem_map.2 ⟨p, hp, by simpa using e⟩)
    simp [find, blowM, List.find?_append, this]

variable [Arith K] [Strtod K]

theorem blowDefs_eval : ∀ n, evalSpec reversed {} (blowDefs n) = .ok (⟨blowM n, []⟩ : Specification K)
  | 0 => by
    simp [blowDefs, evalSpec, evalCmd, denote, addNew, blowM, blowF, Expr.Const]
  | n + 1 => by
    rw [blowDefs, evalSpec_append, blowDefs_eval n]
    have h := blowM_fresh (K := K) n
    simp only [Outcome.bind_ok, evalSpec, evalCmd, denote, evalAll, blowM_find, Outcome.pure_eq_ok,
      List.length_cons, List.length_nil, Expr.And, addNew, if_neg h, blowM, blowF]
    simp [addNew, if_neg h]

theorem blow_eval (n : Nat) : evalSpec reversed {} (blow n) =
    .ok (⟨blowM n, [("a", blowF n)]⟩ : Specification K) := by
  rw [blow, evalSpec_append, blowDefs_eval n]
  simp [evalSpec, evalCmd, denote, blowM_find, addNew]

theorem blowDefs_ok : ∀ n, ∀ c ∈ blowDefs n, CmdOk c ∧ NoRev c.term
  | 0, c, h => by
    simp only [blowDefs, List.mem_singleton] at h
    subst h
    exact ⟨.define (zs_name 0) .tru, .tru⟩
  | n + 1, c, h => by
    simp only [blowDefs, List.mem_append, List.mem_singleton] at h
    rcases h with h | rfl
    · exact blowDefs_ok n c h
    · exact ⟨.define (zs_name _) (.and (by
        simp [SynOk.ref (zs_name n) (zs_head n _ (by decide)) (zs_head n _ (by decide))])), .and (by simp [NoRev.ref])⟩

theorem blow_ok (n : Nat) : ∀ c ∈ blow n, CmdOk c ∧ NoRev c.term := by
  intro c h
  simp only [blow, List.mem_append, List.mem_singleton] at h
  rcases h with h | rfl
  · exact blowDefs_ok n c h
  · exact ⟨.assert ⟨'a', [], by decide, by decide, by simp⟩
      (.ref (zs_name n) (zs_head n _ (by decide)) (zs_head n _ (by decide))), .ref⟩

theorem render_append : ∀ a b : List Tok, render (a ++ b) = render a ++ render b
  | [], b => rfl
  | t :: a, b => by rw [List.cons_append, render, render, render_append a b]; simp

/-- The text. -/
def blowText (n : Nat) : List Char := render ((blow n).flatMap Cmd.toks)

theorem zs_length (n : Nat) : (zs n).toList.length = n + 1 := by simp [zs]

theorem blowDefs_length : ∀ n, (render ((blowDefs n).flatMap Cmd.toks)).length ≤ 40 * (n + 1) ^ 2
  | 0 => by
    have h1 : "define-formula".toList.length = 14 := by decide
    have h2 : "true".toList.length = 4 := by decide
    simp only [blowDefs, List.flatMap_cons, List.flatMap_nil, Cmd.toks, toks, List.append_nil, List.cons_append,
      List.nil_append, render, Tok.chars, List.length_append, List.length_cons, List.length_nil, zs_length, h1, h2]
    decide
  | n + 1 => by
    have := blowDefs_length n
    rw [blowDefs, List.flatMap_append, render_append, List.length_append]
    have h : (render (([Cmd.define (zs (n + 1)) (.and [.ref (zs n), .ref (zs n)])]).flatMap Cmd.toks)).length ≤
        3 * n + 40 := by
      simp only [List.flatMap_cons, List.flatMap_nil, Cmd.toks, toks, toksAll, List.append_nil, List.cons_append,
        List.nil_append, render, Tok.chars, List.length_append, List.length_cons, List.length_nil, zs_length]
      have h1 : "define-formula".toList.length = 14 := by decide
      have h2 : "and".toList.length = 3 := by decide
      omega
    nlinarith

theorem blowText_length (n : Nat) : (blowText n).length ≤ 60 * (n + 1) ^ 2 := by
  have := blowDefs_length n
  rw [blowText, blow, List.flatMap_append, render_append, List.length_append]
  have h : (render (([Cmd.assert "a" (.ref (zs n))]).flatMap Cmd.toks)).length ≤ n + 20 := by
    simp only [List.flatMap_cons, List.flatMap_nil, Cmd.toks, toks, List.append_nil, List.cons_append,
      List.nil_append, render, Tok.chars, List.length_append, List.length_cons, List.length_nil, zs_length]
    have h1 : "assert".toList.length = 6 := by decide
    have h2 : "a".toList.length = 1 := by decide
    omega
  nlinarith

end family
end Verif
