import Verif.Proofs.Machine

/-! # `mono_wedge.h` with 64-bit integers: C106 -/

namespace Verif

variable {α : Type}

/-- **C106.** `mono_wedge_search` with 64-bit integers: for every wedge that fits into memory, every comparison and
every value, the differences `size - i` do not wrap around, no shift is by 64 or more, the iterator is not
decremented at `begin()`, the loop condition is evaluated at most 63 times, and the position is the one computed with
natural numbers. -/
theorem C106_search (comp : α → α → Bool) (w : List α) (value : α) (hw : w.length < 2 ^ 63) (rounds : Nat)
    (hr : 63 ≤ rounds) : monoWedgeSearchM rounds comp w value = monoWedgeSearch comp w value := by
  have hsize : (UInt64.ofNat w.length).toNat = w.length := by
    rw [UInt64.toNat_ofNat']; exact Nat.mod_eq_of_lt (by omega)
  unfold monoWedgeSearchM monoWedgeSearch
  dsimp only
  by_cases h0 : w.length = 0
  · rw [if_pos h0, if_pos (UInt64.le_iff_toNat_le.2 (by rw [hsize]; simp [h0])), h0]
  · rw [if_neg h0, if_neg (fun h => h0 (by have := UInt64.le_iff_toNat_le.1 h; rw [hsize] at this; simpa using this))]
    unfold decr
    rw [if_neg h0]
    exact monoWedgeSearchLoopM_eq comp w value hw rounds 1 1 w.length rfl (by omega) (by omega) (by omega) (by omega) (by omega)

/-- **C106.** Both overloads of `mono_wedge_update` (erasing a range, or elements one by one with a counter that wraps
around at the end) give the same wedge. -/
theorem C106_update (comp : α → α → Bool) (w : List α) (value : α) (hw : w.length < 2 ^ 63) (rounds : Nat)
    (hr : 63 ≤ rounds) :
    monoWedgeUpdateM rounds comp w value = monoWedgeUpdate comp w value ∧
    monoWedgeUpdateErase rounds comp w value = monoWedgeUpdate comp w value := by
  constructor
  · unfold monoWedgeUpdateM monoWedgeUpdate
    rw [C106_search comp w value hw rounds hr]
    cases h : monoWedgeSearch comp w value with
    | ok i =>
      have hi : i ≤ w.length := by
        unfold monoWedgeSearch at h
        split at h
        · rw [← Outcome.ok.inj h]; omega
        · exact monoWedgeSearchLoop_le (by omega) (by omega) h
      show (do let w' ← eraseLoop (w.length + 1) (UInt64.ofNat (w.length - i)) w; return w' ++ [value] : Outcome (List α)) = _
      rw [eraseLoop_eq (w.length - i) w (by omega) hw _ (by omega), Nat.sub_sub_self hi]
      rfl
    | _ => rfl
  · unfold monoWedgeUpdateErase monoWedgeUpdate
    rw [C106_search comp w value hw rounds hr]

example : monoWedgeSearchM 63 (fun a b : Nat => decide (a < b)) [1, 3, 5, 7, 9, 11, 13] 6 = .ok 3 := by decide +kernel
example : monoWedgeUpdateM 63 (fun a b : Nat => decide (a < b)) [1, 3, 5, 7, 9, 11, 13] 6 = .ok [1, 3, 5, 6] := by
  decide +kernel

end Verif
