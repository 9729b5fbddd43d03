import Verif.Model.WedgeMachine
import Mathlib.Tactic.Ring
import Mathlib.Tactic.Linarith
import Mathlib.Algebra.Order.Ring.Nat

/-! # Lemmas on `mono_wedge.h` with 64-bit integers -/

namespace Verif

variable {α : Type}

theorem lowerBoundLoop_le (p : α → Bool) (l : List α) : ∀ (fuel first len : Nat), first + len ≤ l.length →
    lowerBoundLoop p l fuel first len ≤ first + len := by
  intro fuel
  induction fuel with
  | zero => intro first len _; simp [lowerBoundLoop]
  | succ fuel ih =>
    intro first len h
    unfold lowerBoundLoop
    split
    · omega
    · dsimp only
      split
      · omega
      · split
        · have := ih (first + len / 2 + 1) (len - len / 2 - 1) (by omega)
          omega
        · have := ih first (len / 2) (by omega)
          omega

theorem lowerBound_le {p : α → Bool} {l : List α} {i : Nat} (h : lowerBound p l = .ok i) : i ≤ l.length := by
  unfold lowerBound at h
  split at h
  · rw [← Outcome.ok.inj h]
    simpa using lowerBoundLoop_le p l l.length 0 l.length (by simp)
  · cases h

theorem monoWedgeSearchLoopM_eq (comp : α → α → Bool) (w : List α) (value : α) (hw : w.length < 2 ^ 63) :
    ∀ (rounds n : Nat) (i : UInt64) (fuel : Nat), i.toNat = n → 1 ≤ n → n ≤ w.length → n ≤ 63 → 64 ≤ rounds + n →
      w.length ≤ fuel + n →
      monoWedgeSearchLoopM comp w value (UInt64.ofNat w.length) rounds i (w.length - n) =
        monoWedgeSearchLoop comp w value fuel n := by
  intro rounds
  induction rounds with
  | zero => intro n i fuel _ _ _ _ _; omega
  | succ rounds ih =>
    intro n i fuel hi h1 hn h63 hr hf
    have hsize : (UInt64.ofNat w.length).toNat = w.length := by
      rw [UInt64.toNat_ofNat']; exact Nat.mod_eq_of_lt (by omega)
    have hle : i ≤ UInt64.ofNat w.length := UInt64.le_iff_toNat_le.2 (by omega)
    have hsub : (UInt64.ofNat w.length - i).toNat = w.length - n := by
      rw [UInt64.toNat_sub_of_le _ _ hle, hsize, hi]
    have h64 : ¬ (64 : UInt64) ≤ i := by
      rw [UInt64.le_iff_toNat_le, hi]; simp; omega
    have hshift : ((UInt64.ofNat w.length - i) >>> i).toNat = (w.length - n) >>> n := by
      rw [UInt64.toNat_shiftRight, hsub, hi, Nat.mod_eq_of_lt (by omega)]
    have hcond : ((UInt64.ofNat w.length - i) >>> i > 0) ↔ (w.length - n) >>> n > 0 := by
      show 0 < _ ↔ _
      rw [UInt64.lt_iff_toNat_lt, hshift]; simp
    unfold monoWedgeSearchLoopM shiftRight64
    rw [if_neg h64]
    show (if (UInt64.ofNat w.length - i) >>> i > 0 then _ else _) = _
    by_cases hc : (w.length - n) >>> n > 0
    · rw [if_pos (hcond.2 hc)]
      have hpow : 2 ^ n ≤ w.length - n := by
        rw [Nat.shiftRight_eq_div_pow] at hc
        by_contra hlt
        rw [Nat.div_eq_of_lt (by omega)] at hc
        omega
      have hn63 : n < 63 := (Nat.pow_lt_pow_iff_right (by norm_num)).1 (lt_of_le_of_lt hpow (by omega))
      have hpos : 1 ≤ 2 ^ n := Nat.one_le_two_pow
      obtain ⟨fuel', rfl⟩ : ∃ f, fuel = f + 1 := ⟨fuel - 1, by omega⟩
      have hget : w[w.length - n]? = some (w[w.length - n]'(by omega)) := List.getElem?_eq_getElem (by omega)
      unfold monoWedgeSearchLoop
      simp only [decide_eq_true hc, hget]
      split
      · rfl
      · unfold decr
        rw [if_neg (by omega)]
        show monoWedgeSearchLoopM comp w value _ rounds (i + 1) (w.length - n - 1) = _
        rw [Nat.sub_sub]
        refine ih (n + 1) (i + 1) fuel' ?_ (by omega) (by omega) (by omega) (by omega) (by omega)
        rw [UInt64.toNat_add, hi]; simp; omega
    · rw [if_neg (fun h => hc (hcond.1 h))]
      unfold monoWedgeSearchLoop
      cases fuel <;> simp only [decide_eq_false hc]

theorem monoWedgeSearchLoop_le {comp : α → α → Bool} {w : List α} {value : α} : ∀ {fuel n i : Nat}, 1 ≤ n → n ≤ w.length →
    monoWedgeSearchLoop comp w value fuel n = .ok i → i ≤ w.length := by
  intro fuel
  induction fuel with
  | zero =>
    intro n i h1 hn h
    unfold monoWedgeSearchLoop at h
    dsimp only at h
    split at h
    · cases ‹(0 : Nat) = _ + 1›
    · cases h
    · exact (lowerBound_le h).trans (by simp)
  | succ fuel ih =>
    intro n i h1 hn h
    unfold monoWedgeSearchLoop at h
    dsimp only at h
    split at h
    · rename_i f hf hc
      cases hf
      have hpos : n < w.length := by
        by_contra hge
        have h0 : w.length - n = 0 := by omega
        rw [h0] at hc
        simp at hc
      split at h
      · cases h
      · split at h
        · rw [← Outcome.ok.inj h]; omega
        · exact ih (by omega) (by omega) h
    · cases ‹fuel + 1 = 0›
    · exact (lowerBound_le h).trans (by simp)

theorem eraseLoop_eq : ∀ (n : Nat) (w : List α), n ≤ w.length → w.length < 2 ^ 63 → ∀ rounds, n < rounds →
    eraseLoop rounds (UInt64.ofNat n) w = .ok (w.take (w.length - n)) := by
  intro n
  induction n with
  | zero =>
    intro w _ _ rounds hr
    obtain ⟨r, rfl⟩ : ∃ r, rounds = r + 1 := ⟨rounds - 1, by omega⟩
    simp [eraseLoop]
  | succ n ih =>
    intro w hn hw rounds hr
    obtain ⟨r, rfl⟩ : ∃ r, rounds = r + 1 := ⟨rounds - 1, by omega⟩
    have h1 : (UInt64.ofNat (n + 1)).toNat = n + 1 := by
      rw [UInt64.toNat_ofNat']; exact Nat.mod_eq_of_lt (by omega)
    have h0 : UInt64.ofNat (n + 1) ≠ 0 := by
      intro h
      rw [h] at h1
      simp at h1
    have hs : UInt64.ofNat (n + 1) - 1 = UInt64.ofNat n := by
      apply UInt64.toNat_inj.1
      rw [UInt64.toNat_sub_of_le _ _ (UInt64.le_iff_toNat_le.2 (by rw [h1]; simp)), h1, UInt64.toNat_ofNat',
        Nat.mod_eq_of_lt (by omega)]
      simp
    have hne : w.isEmpty = false := by
      cases w with
      | nil => simp at hn
      | cons _ _ => rfl
    unfold eraseLoop popBack
    rw [if_neg h0, hne, hs]
    show eraseLoop r (UInt64.ofNat n) w.dropLast = _
    rw [ih w.dropLast (by simp; omega) (by simp; omega) r (by omega), List.dropLast_eq_take, List.take_take]
    congr 2
    simp
    omega

end Verif
