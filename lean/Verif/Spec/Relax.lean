import Verif.Model.Robustness

/-!
# Formulas with other thresholds

What a formula becomes if the bounds of all its predicates are relaxed by the same amount, and pairs of
formulas that differ only in the bounds of the predicates.
-/

namespace Verif
namespace Spec

variable {K : Type} [Field K] [LinearOrder K]

/-- The number plus `d`; infinities and NaN stay. -/
def raised (d : K) : D K → D K
  | .fin q => .fin (q + d)
  | .pinf => .pinf
  | .ninf => .ninf
  | .nan => .nan

/-- The signal with all values raised by `d`. -/
def raisedSignal (d : K) (x : Signal K) : Signal K :=
  ⟨x.samples.map fun s => ⟨s.time, raised d s.value, s.derivative⟩⟩

mutual
/-- The formula in which all predicates are relaxed by `d`: where a predicate counts positively its bound moves
by `d` in the direction in which it gets easier to satisfy, under a negation in the other direction. -/
def relax (d : K) : Expr K → Expr K
  | .const b => .const b
  | .pred n .GE c => .pred n .GE (raised (-d) c)
  | .pred n .GT c => .pred n .GT (raised (-d) c)
  | .pred n .LE c => .pred n .LE (raised d c)
  | .pred n .LT c => .pred n .LT (raised d c)
  | .not e => .not (relax (-d) e)
  | .and args => .and (relaxArgs d args)
  | .or args => .or (relaxArgs d args)
  | .always e i => .always (relax d e) i
  | .eventually e i => .eventually (relax d e) i
  | .untl e e' i => .untl (relax d e) (relax d e') i

def relaxArgs (d : K) : List (Expr K) → List (Expr K)
  | [] => []
  | e :: es => relax d e :: relaxArgs d es
end

/-- The formula does not contain Until. -/
inductive NoUntil : Expr K → Prop
  | const (b : Bool) : NoUntil (.const b)
  | pred (n : String) (op : ComparisonOp) (c : D K) : NoUntil (.pred n op c)
  | not {e : Expr K} : NoUntil e → NoUntil (.not e)
  | and {args : List (Expr K)} : (∀ e ∈ args, NoUntil e) → NoUntil (.and args)
  | or {args : List (Expr K)} : (∀ e ∈ args, NoUntil e) → NoUntil (.or args)
  | always {e : Expr K} {i : Interval K} : NoUntil e → NoUntil (.always e i)
  | eventually {e : Expr K} {i : Interval K} : NoUntil e → NoUntil (.eventually e i)

mutual
/-- `Eased lo hi phi phi'`: the formulas differ only in the bounds of the predicates, and every predicate of
`phi'` is easier to satisfy than that of `phi` by at least `lo` and at most `hi` (under a negation: harder). -/
inductive Eased : K → K → Expr K → Expr K → Prop
  | ge {lo hi : K} (n : String) {c c' : K} : lo ≤ c - c' → c - c' ≤ hi →
      Eased lo hi (.pred n .GE (.fin c)) (.pred n .GE (.fin c'))
  | gt {lo hi : K} (n : String) {c c' : K} : lo ≤ c - c' → c - c' ≤ hi →
      Eased lo hi (.pred n .GT (.fin c)) (.pred n .GT (.fin c'))
  | le {lo hi : K} (n : String) {c c' : K} : lo ≤ c' - c → c' - c ≤ hi →
      Eased lo hi (.pred n .LE (.fin c)) (.pred n .LE (.fin c'))
  | lt {lo hi : K} (n : String) {c c' : K} : lo ≤ c' - c → c' - c ≤ hi →
      Eased lo hi (.pred n .LT (.fin c)) (.pred n .LT (.fin c'))
  | not {lo hi : K} {e e' : Expr K} : Eased (-hi) (-lo) e e' → Eased lo hi (.not e) (.not e')
  | and {lo hi : K} {es es' : List (Expr K)} : EasedAll lo hi es es' → Eased lo hi (.and es) (.and es')
  | or {lo hi : K} {es es' : List (Expr K)} : EasedAll lo hi es es' → Eased lo hi (.or es) (.or es')
  | always {lo hi : K} {e e' : Expr K} {i : Interval K} : Eased lo hi e e' →
      Eased lo hi (.always e i) (.always e' i)
  | eventually {lo hi : K} {e e' : Expr K} {i : Interval K} : Eased lo hi e e' →
      Eased lo hi (.eventually e i) (.eventually e' i)
  | untl {lo hi : K} {e e' f f' : Expr K} {i : Interval K} : Eased lo hi e e' → Eased lo hi f f' →
      Eased lo hi (.untl e f i) (.untl e' f' i)

/-- The same for the operands of And and Or. -/
inductive EasedAll : K → K → List (Expr K) → List (Expr K) → Prop
  | nil {lo hi : K} : EasedAll lo hi [] []
  | cons {lo hi : K} {e e' : Expr K} {es es' : List (Expr K)} : Eased lo hi e e' → EasedAll lo hi es es' →
      EasedAll lo hi (e :: es) (e' :: es')
end

end Spec
end Verif
