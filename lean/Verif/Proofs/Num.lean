import Verif.Model.Num
import Mathlib.Tactic.Linarith
import Mathlib.Tactic.FieldSimp
import Mathlib.Tactic.Ring

/-! # Lemmas about doubles -/

set_option linter.unusedSectionVars false

namespace Verif
namespace D

variable {K : Type}

section order
variable [LinearOrder K]

@[simp] theorem lt_fin (a b : K) : lt (.fin a) (.fin b) = decide (a < b) := rfl
@[simp] theorem eq_fin (a b : K) : eq (.fin a) (.fin b) = decide (a = b) := rfl
@[simp] theorem le_fin (a b : K) : le (.fin a) (.fin b) = decide (a ≤ b) := by
  simp [le, le_iff_lt_or_eq]
@[simp] theorem lt_nan_left (a : D K) : lt .nan a = false := by cases a <;> rfl
@[simp] theorem lt_nan_right (a : D K) : lt a .nan = false := by cases a <;> rfl
@[simp] theorem eq_nan_left (a : D K) : eq .nan a = false := by cases a <;> rfl
@[simp] theorem eq_nan_right (a : D K) : eq a .nan = false := by cases a <;> rfl
@[simp] theorem le_nan_left (a : D K) : le .nan a = false := by simp [le]
@[simp] theorem le_nan_right (a : D K) : le a .nan = false := by simp [le]

theorem eq_iff {a b : D K} : eq a b = true ↔ a = b ∧ a ≠ .nan := by
  cases a <;> cases b <;> simp [eq]

theorem lt_irrefl (a : D K) : lt a a = false := by cases a <;> simp [lt]

theorem lt_ne_nan {a b : D K} (h : lt a b = true) : a ≠ .nan ∧ b ≠ .nan := by
  cases a <;> cases b <;> simp_all [lt]

theorem lt_trans {a b c : D K} (h1 : lt a b = true) (h2 : lt b c = true) : lt a c = true := by
  cases a <;> cases b <;> cases c <;> simp_all [lt]
  exact _root_.lt_trans h1 h2

theorem lt_asymm {a b : D K} (h : lt a b = true) : lt b a = false := by
  cases a <;> cases b <;> simp_all [lt]
  exact le_of_lt h

theorem le_refl {a : D K} (h : a ≠ .nan) : le a a = true := by
  cases a <;> simp_all [le, eq, lt]

theorem le_trans {a b c : D K} (h1 : le a b = true) (h2 : le b c = true) : le a c = true := by
  cases a <;> cases b <;> cases c <;> simp_all [le, lt, eq]
  rw [← le_iff_lt_or_eq] at *; exact _root_.le_trans h1 h2

theorem lt_of_lt_of_le {a b c : D K} (h1 : lt a b = true) (h2 : le b c = true) : lt a c = true := by
  cases a <;> cases b <;> cases c <;> simp_all [le, lt, eq]
  rw [← le_iff_lt_or_eq] at *; exact _root_.lt_of_lt_of_le h1 h2

theorem lt_of_le_of_lt {a b c : D K} (h1 : le a b = true) (h2 : lt b c = true) : lt a c = true := by
  cases a <;> cases b <;> cases c <;> simp_all [le, lt, eq]
  rw [← le_iff_lt_or_eq] at *; exact _root_.lt_of_le_of_lt h1 h2

theorem le_of_lt {a b : D K} (h : lt a b = true) : le a b = true := by simp [le, h]

theorem lt_eq_not_le {a b : D K} (ha : a ≠ .nan) (hb : b ≠ .nan) : lt a b = !le b a := by
  cases a <;> cases b <;> simp_all [le, lt, eq]
  rename_i a b
  rw [Bool.eq_iff_iff]; simp; constructor
  · intro h; exact ⟨_root_.le_of_lt h, h.ne'⟩
  · rintro ⟨h, h'⟩; exact _root_.lt_of_le_of_ne h (Ne.symm h')

theorem le_eq_not_lt {a b : D K} (ha : a ≠ .nan) (hb : b ≠ .nan) : le a b = !lt b a := by
  rw [lt_eq_not_le hb ha]; simp

theorem not_le_iff_lt {a b : D K} (ha : a ≠ .nan) (hb : b ≠ .nan) :
    le b a = false ↔ lt a b = true := by
  rw [lt_eq_not_le ha hb]; simp

theorem trichotomy {a b : D K} (ha : a ≠ .nan) (hb : b ≠ .nan) :
    lt a b = true ∨ a = b ∨ lt b a = true := by
  cases a <;> cases b <;> simp_all [lt]
  exact lt_trichotomy _ _

theorem le_antisymm {a b : D K} (h : le a b = true) (h' : le b a = true) : a = b := by
  cases a <;> cases b <;> simp_all [lt, le, eq]
  rw [← le_iff_lt_or_eq] at *; exact _root_.le_antisymm h h'

theorem le_total {a b : D K} (ha : a ≠ .nan) (hb : b ≠ .nan) : le a b = true ∨ le b a = true := by
  rcases trichotomy ha hb with h | h | h
  · exact .inl (le_of_lt h)
  · subst h; exact .inl (le_refl ha)
  · exact .inr (le_of_lt h)

theorem max_fin (a b : K) : max (.fin a) (.fin b) = (.fin (Max.max a b) : D K) := by
  simp only [max, lt_fin]
  rcases lt_or_ge a b with h | h <;> simp [h, max_eq_right_of_lt, not_lt.mpr]

theorem min_fin (a b : K) : min (.fin a) (.fin b) = (.fin (Min.min a b) : D K) := by
  simp only [min, lt_fin]
  rcases lt_or_ge b a with h | h <;> simp [h, min_eq_right_of_lt, not_lt.mpr]

end order

section ops
variable [Field K] [LinearOrder K]

@[simp] theorem neg_fin (a : K) : -(.fin a : D K) = .fin (-a) := rfl
@[simp] theorem neg_pinf : -(.pinf : D K) = .ninf := rfl
@[simp] theorem neg_ninf : -(.ninf : D K) = .pinf := rfl
@[simp] theorem neg_nan : -(.nan : D K) = .nan := rfl
@[simp] theorem neg_neg (a : D K) : - -a = a := by cases a <;> simp
@[simp] theorem neg_eq_nan {a : D K} : -a = .nan ↔ a = .nan := by cases a <;> simp

theorem zero_def : (0 : D K) = .fin 0 := rfl
@[simp] theorem neg_zero : -(0 : D K) = 0 := by simp [zero_def]

theorem sub_def [Arith K] (a b : D K) : a - b = a + -b := rfl

@[simp] theorem nan_add [Arith K] (a : D K) : .nan + a = (.nan : D K) := by cases a <;> rfl
@[simp] theorem add_nan [Arith K] (a : D K) : a + .nan = (.nan : D K) := by cases a <;> rfl
@[simp] theorem nan_sub [Arith K] (a : D K) : .nan - a = (.nan : D K) := by simp [sub_def]
@[simp] theorem sub_nan [Arith K] (a : D K) : a - .nan = (.nan : D K) := by simp [sub_def]
@[simp] theorem nan_mul [Arith K] (a : D K) : .nan * a = (.nan : D K) := by cases a <;> rfl
@[simp] theorem mul_nan [Arith K] (a : D K) : a * .nan = (.nan : D K) := by cases a <;> rfl
@[simp] theorem nan_div [Arith K] (a : D K) : .nan / a = (.nan : D K) := by cases a <;> rfl
@[simp] theorem div_nan [Arith K] (a : D K) : a / .nan = (.nan : D K) := by cases a <;> rfl

section exact
variable [Arith K] [ExactArith K]

@[simp] theorem add_fin (a b : K) : (.fin a : D K) + .fin b = .fin (a + b) :=
  ExactArith.rnd_eq _
@[simp] theorem sub_fin (a b : K) : (.fin a : D K) - .fin b = .fin (a - b) := by
  rw [sub_def, neg_fin, add_fin, sub_eq_add_neg]
@[simp] theorem mul_fin (a b : K) : (.fin a : D K) * .fin b = .fin (a * b) :=
  ExactArith.rnd_eq _
theorem div_fin (a b : K) (h : b ≠ 0) : (.fin a : D K) / .fin b = .fin (a / b) := by
  show div _ _ = _
  simp only [div, h, if_false]; exact ExactArith.rnd_eq _

instance : OddArith K where
  rnd_neg q := by simp [ExactArith.rnd_eq]

end exact

section odd
variable [IsStrictOrderedRing K]

theorem lt_neg (a b : D K) : lt (-a) (-b) = lt b a := by
  cases a <;> cases b <;> simp [lt]
theorem eq_neg (a b : D K) : eq (-a) (-b) = eq a b := by
  cases a <;> cases b <;> simp [eq]
theorem le_neg (a b : D K) : le (-a) (-b) = le b a := by
  cases a <;> cases b <;> simp [le, lt, eq, eq_comm]
theorem max_neg (a b : D K) : max (-a) (-b) = -min a b := by
  simp only [max, min, lt_neg]; split <;> rfl
theorem min_neg (a b : D K) : min (-a) (-b) = -max a b := by
  simp only [max, min, lt_neg]; split <;> rfl
@[simp] theorem isinf_neg (a : D K) : isinf (-a) = isinf a := by cases a <;> rfl

variable [Arith K] [OddArith K]

theorem rnd_neg (q : K) : Arith.rnd (-q) = -(Arith.rnd q : D K) := by
  rw [OddArith.rnd_neg]; cases (Arith.rnd q : D K) <;> rfl

theorem neg_add (a b : D K) : -a + -b = -(a + b) := by
  cases a <;> cases b <;> try rfl
  rename_i a b
  show Arith.rnd (-a + -b) = -(Arith.rnd (a + b) : D K)
  rw [← rnd_neg]; congr 1; ring

theorem neg_sub (a b : D K) : -a - -b = -(a - b) := by
  rw [sub_def, sub_def, neg_add]

theorem infMul_neg (p : Bool) (b : K) : infMul p (-b) = -infMul p b := by
  unfold infMul
  rcases lt_trichotomy b 0 with h | h | h
  · have h1 : ¬ (0 < b) := not_lt.mpr h.le
    cases p <;> simp [h, h.ne, h1]
  · simp [h]
  · have h1 : ¬ (b < 0) := not_lt.mpr h.le
    cases p <;> simp [h, h.ne', h1]

theorem infMul_not (p : Bool) (b : K) : infMul (!p) b = -infMul p b := by
  unfold infMul
  cases p <;> (repeat' split) <;> simp_all

theorem neg_mul (a b : D K) : -a * b = -(a * b) := by
  cases a <;> cases b <;> try rfl
  · rename_i a b
    show Arith.rnd (-a * b) = -(Arith.rnd (a * b) : D K)
    rw [← rnd_neg]; congr 1; ring
  · exact infMul_neg true _
  · exact infMul_neg false _
  · exact infMul_not true _
  · exact infMul_not false _

theorem neg_div (a b : D K) : -a / b = -(a / b) := by
  cases a <;> cases b <;> try rfl
  · rename_i a b
    show div (.fin (-a)) (.fin b) = -(div (.fin a) (.fin b) : D K)
    unfold div
    by_cases hb : b = 0
    · simp only [hb, if_true]
      rcases lt_trichotomy a 0 with h | h | h
      · have h1 : ¬ (0 < a) := not_lt.mpr h.le
        simp [h, h.ne, h1]
      · simp [h]
      · have h1 : ¬ (a < 0) := not_lt.mpr h.le
        simp [h, h.ne', h1]
    · simp only [hb, if_false]
      rw [← rnd_neg]; congr 1; ring
  · show (.fin 0 : D K) = -(.fin 0); simp
  · show (.fin 0 : D K) = -(.fin 0); simp
  · show (if _ < _ then D.pinf else D.ninf) = -(if _ < _ then D.ninf else D.pinf : D K)
    split <;> rfl
  · show (if _ < _ then D.ninf else D.pinf) = -(if _ < _ then D.pinf else D.ninf : D K)
    split <;> rfl

end odd
end ops
end D
end Verif
