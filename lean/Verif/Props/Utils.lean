import Verif.Model.Utils

/-!
# C136: `enumerate` and `reversed`
-/

namespace Verif

theorem vectorRange_from {α σ : Type} (v : List α) (body : σ → α → Outcome σ) (fuel : Nat) : ∀ (i : Nat) (s : σ),
    i ≤ v.length → v.length < i + fuel →
    rangeFor (vectorRange v) body fuel i s = (v.drop i).foldlM body s := by
  induction fuel with
  | zero => intro i s h1 h2; omega
  | succ n ih =>
    intro i s h1 h2
    rw [rangeFor]
    by_cases h : i = v.length
    · subst h
      simp [vectorRange]
    · have hi : i < v.length := by omega
      rw [List.drop_eq_getElem_cons hi, List.foldlM_cons]
      simp only [vectorRange, bne_iff_ne, ne_eq, h, not_false_eq_true, if_true, List.getElem?_eq_getElem hi, hi,
        Outcome.bind_ok]
      congr 1
      funext s'
      exact ih (i + 1) s' (by omega) (by omega)

/-- **C136, vectors.**  A loop over a vector runs the body on the elements in order. -/
theorem C136_vector {α σ : Type} (v : List α) (body : σ → α → Outcome σ) (s : σ) (fuel : Nat) (h : v.length < fuel) :
    rangeFor (vectorRange v) body fuel (vectorRange v).first s = v.foldlM body s := by
  exact vectorRange_from v body fuel 0 s (by omega) (by omega)

theorem reversedRange_from {α σ : Type} (v : List α) (body : σ → α → Outcome σ) : ∀ (i : Nat) (fuel : Nat) (s : σ),
    i ≤ v.length → i < fuel →
    rangeFor (reversedRange v) body fuel i s = (v.take i).reverse.foldlM body s := by
  intro i
  induction i with
  | zero =>
    intro fuel s _ h
    obtain ⟨n, rfl⟩ : ∃ n, fuel = n + 1 := ⟨fuel - 1, by omega⟩
    simp [rangeFor, reversedRange]
  | succ i ih =>
    intro fuel s h1 h2
    obtain ⟨n, rfl⟩ : ∃ n, fuel = n + 1 := ⟨fuel - 1, by omega⟩
    have hi : i < v.length := by omega
    rw [rangeFor, List.take_succ_eq_append_getElem hi, List.reverse_append, List.reverse_singleton, List.singleton_append,
      List.foldlM_cons]
    have : (reversedRange v).ne (i + 1) (reversedRange v).last = true := by simp [reversedRange]
    rw [if_pos this]
    have hd : (reversedRange v).deref (i + 1) = .ok v[i] := by simp [reversedRange, List.getElem?_eq_getElem hi]
    have hn : (reversedRange v).next (i + 1) = .ok i := rfl
    simp only [hd, hn, Outcome.bind_ok]
    congr 1
    funext s'
    exact ih n s' (by omega) (by omega)

/-- **C136, `reversed`.**  A loop over `reversed(v)` runs the body on the elements of `v` from the last to the first; no
iterator before the first element is used. -/
theorem C136_reversed {α σ : Type} (v : List α) (body : σ → α → Outcome σ) (s : σ) (fuel : Nat) (h : v.length < fuel) :
    rangeFor (reversedRange v) body fuel (reversedRange v).first s = v.reverse.foldlM body s := by
  simpa [reversedRange] using reversedRange_from v body v.length fuel s (by omega) h

/-- Loops whose body counts the rounds. -/
theorem enumerateRange_from {ι α σ : Type} (r : LoopRange ι α) (body : σ → Nat × α → Outcome σ) (fuel : Nat) :
    ∀ (i : Nat) (it : ι) (s : σ), rangeFor (enumerateRange r) body fuel (i, it) s =
      (rangeFor r (fun (p : σ × Nat) a => do
        let s ← body p.1 (p.2, a)
        .ok (s, (p.2 + 1) % 2 ^ 64)) fuel it (s, i) >>= fun p => .ok p.1) := by
  induction fuel with
  | zero => intro i it s; rfl
  | succ n ih =>
    intro i it s
    rw [rangeFor, rangeFor]
    have hne : (enumerateRange r).ne (i, it) (enumerateRange r).last = r.ne it r.last := rfl
    rw [hne]
    by_cases h : r.ne it r.last = true
    · rw [if_pos h, if_pos h]
      simp only [enumerateRange, Outcome.bind_assoc', Outcome.bind_ok]
      congr 1
      funext a
      congr 1
      funext s'
      congr 1
      funext j
      exact ih _ j s'
    · rw [if_neg h, if_neg h]; rfl

/-- **C136, `enumerate`.**  For every range, also one that does not end or has undefined operations, and every body, the
loop over `enumerate(r)` is the loop over `r` with a counter of type `size_t`. -/
theorem C136_enumerate {ι α σ : Type} (r : LoopRange ι α) (body : σ → Nat × α → Outcome σ) (fuel : Nat) (s : σ) :
    rangeFor (enumerateRange r) body fuel (enumerateRange r).first s =
      (rangeFor r (fun (p : σ × Nat) a => do
        let s ← body p.1 (p.2, a)
        .ok (s, (p.2 + 1) % 2 ^ 64)) fuel r.first (s, 0) >>= fun p => .ok p.1) :=
  enumerateRange_from r body fuel 0 r.first s

theorem count_zipIdx {α σ : Type} (body : σ → Nat × α → Outcome σ) (v : List α) : ∀ (i : Nat) (s : σ),
    i + v.length ≤ 2 ^ 64 →
    (v.foldlM (fun (p : σ × Nat) a => (do
        let s ← body p.1 (p.2, a)
        .ok (s, (p.2 + 1) % 2 ^ 64) : Outcome (σ × Nat))) (s, i % 2 ^ 64) >>= fun p => .ok p.1) =
      (v.zipIdx i).foldlM (fun s p => body s (p.2, p.1)) s := by
  induction v with
  | nil => intro i s _; rfl
  | cons a v ih =>
    intro i s h
    simp only [List.length_cons] at h
    have hi : i % 2 ^ 64 = i := Nat.mod_eq_of_lt (by omega)
    rw [List.foldlM_cons, List.zipIdx_cons, List.foldlM_cons, hi]
    simp only [Outcome.bind_assoc', Outcome.bind_ok]
    congr 1
    funext s'
    exact ih (i + 1) s' (by omega)

/-- **C136, indices.**  The loop over `enumerate(v)` runs the body on the pairs of an index and the element there, in
order. -/
theorem C136_indices {α σ : Type} (v : List α) (body : σ → Nat × α → Outcome σ) (s : σ) (fuel : Nat) (h : v.length < fuel)
    (hv : v.length ≤ 2 ^ 64) :
    rangeFor (enumerateRange (vectorRange v)) body fuel (enumerateRange (vectorRange v)).first s =
      v.zipIdx.foldlM (fun s p => body s (p.2, p.1)) s := by
  rw [C136_enumerate, C136_vector v _ _ fuel h]
  exact count_zipIdx body v 0 s (by omega)

/-- **C136, both.**  `enumerate` of a reversed vector counts upwards from the last element. -/
theorem C136_both {α σ : Type} (v : List α) (body : σ → Nat × α → Outcome σ) (s : σ) (fuel : Nat) (h : v.length < fuel)
    (hv : v.length ≤ 2 ^ 64) :
    rangeFor (enumerateRange (reversedRange v)) body fuel (enumerateRange (reversedRange v)).first s =
      v.reverse.zipIdx.foldlM (fun s p => body s (p.2, p.1)) s := by
  rw [C136_enumerate, C136_reversed v _ _ fuel h]
  exact count_zipIdx body v.reverse 0 s (by simpa using hv)

theorem update_from {α : Type} (f : Nat → α → α) (v : List α) : ∀ l : List α,
    (List.range' l.length v.length).foldlM (fun (s : List α) k => assignAt s k (f k)) (l ++ v) =
      .ok (l ++ v.mapIdx fun k a => f (l.length + k) a) := by
  induction v with
  | nil => intro l; simp
  | cons a v ih =>
    intro l
    rw [List.length_cons, List.range'_succ, List.foldlM_cons]
    have : assignAt (l ++ a :: v) l.length (f l.length) = .ok ((l ++ [f l.length a]) ++ v) := by
      simp [assignAt]
    have hl : l.length + 1 = (l ++ [f l.length a]).length := by simp
    rw [this, Outcome.bind_ok, hl, ih]
    simp [List.mapIdx_cons, Nat.add_assoc, Nat.add_comm 1]

/-- **C136, references.**  `for (auto [i, x] : enumerate(v)) x = f(i, x);` replaces every element by what `f` makes of it
and its index. -/
theorem C136_update {α : Type} (v : List α) (f : Nat → α → α) (fuel : Nat) (h : v.length < fuel) (hv : v.length ≤ 2 ^ 64) :
    rangeFor (enumerateRange (refRange v)) (fun s p => assignAt s p.2 (f p.1)) fuel (0, 0) v = .ok (v.mapIdx f) := by
  have := C136_indices (List.range v.length) (fun (s : List α) p => assignAt s p.2 (f p.1)) v fuel (by simpa using h)
    (by simpa using hv)
  refine this.trans ?_
  have hz : (List.range v.length).zipIdx = (List.range v.length).map fun k => (k, k) := by
    apply List.ext_getElem <;> simp
  rw [hz, List.foldlM_map]
  simpa [List.range_eq_range'] using update_from f v []

/-! ## Concrete cases -/

example : rangeFor (enumerateRange (vectorRange ["a", "b", "c"])) (fun s p => .ok (s ++ [p])) 4 (0, 0) [] =
    .ok [(0, "a"), (1, "b"), (2, "c")] := by decide +kernel
example : rangeFor (enumerateRange (vectorRange ["a", "b", "c"])) (fun s p => .ok (s ++ [p])) 4 (0, 0) [] =
    .ok [(0, "a"), (1, "b"), (2, "c")] := C136_indices ["a", "b", "c"] _ [] 4 (by decide) (by decide)
example : rangeFor (reversedRange [1, 2, 3]) (fun s n => .ok (s ++ [n])) 4 3 ([] : List Nat) = .ok [3, 2, 1] :=
  C136_reversed [1, 2, 3] _ [] 4 (by decide)
example : rangeFor (enumerateRange (reversedRange [1, 2, 3])) (fun s p => .ok (s ++ [p])) 4 (0, 3) [] =
    .ok [(0, 3), (1, 2), (2, 1)] := C136_both [1, 2, 3] _ [] 4 (by decide) (by decide)
example : rangeFor (enumerateRange (refRange [5, 5, 5])) (fun s p => assignAt s p.2 fun n => n + p.1) 4 (0, 0) [5, 5, 5] =
    .ok [5, 6, 7] := C136_update [5, 5, 5] (fun i n => n + i) 4 (by decide) (by decide)
/-- An exception of the body ends the loop. -/
example : rangeFor (vectorRange [1, 2, 3]) (fun s n => if n = 2 then .throw .outOfRange else .ok (s + n)) 4 0 0 =
    .throw .outOfRange := C136_vector [1, 2, 3] _ 0 4 (by decide)

end Verif
