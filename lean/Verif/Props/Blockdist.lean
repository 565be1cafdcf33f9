import Verif.Model.Parallel
/-
  C01, C02: `_blockdist` (pyspod/utils/parallel.py:154-158).
-/
namespace Verif.Props
open Verif Verif.Par

/-- first index owned by rank `r` -/
abbrev startOf (N size r : Nat) : Nat := (blockdist N size r).2
/-- number of indices owned by rank `r` -/
abbrev countOf (N size r : Nat) : Nat := (blockdist N size r).1

theorem blockdist_zero (N size : Nat) : startOf N size 0 = 0 := by
  unfold startOf blockdist; dsimp only; split <;> simp

theorem blockdist_succ (N size r : Nat) (h : r + 1 < size) :
    startOf N size (r + 1) = startOf N size r + countOf N size r := by
  unfold startOf countOf blockdist
  have h' : r < size := by omega
  simp only [h, h', ↓reduceIte]
  have : (r + 1) * (N / size) = r * (N / size) + N / size := by rw [Nat.add_mul]; omega
  split <;> omega

theorem blockdist_end (N size r : Nat) (h : r < size) (hr : r + 1 = size) :
    startOf N size r + countOf N size r = N := by
  unfold startOf countOf blockdist
  have h1 := Nat.div_add_mod N size
  have h2 : N % size < size := Nat.mod_lt _ (by omega)
  simp only [h, ↓reduceIte]
  have h3 : size * (N / size) = r * (N / size) + N / size := by rw [← hr, Nat.add_mul]; omega
  split <;> omega

/-- Explicit start: `r * q + min r (N % size)`. -/
theorem startOf_eq (N size r : Nat) (h : r < size) :
    startOf N size r = r * (N / size) + min r (N % size) := by
  simp [startOf, blockdist, h]

theorem startOf_mono (N size : Nat) {r r' : Nat} (h : r ≤ r') (hr' : r' < size) :
    startOf N size r ≤ startOf N size r' := by
  rw [startOf_eq _ _ _ hr', startOf_eq _ _ _ (by omega)]
  have := Nat.mul_le_mul_right (N / size) h
  omega

theorem endOf_le_startOf (N size : Nat) {r r' : Nat} (h : r < r') (hr' : r' < size) :
    startOf N size r + countOf N size r ≤ startOf N size r' := by
  rw [← blockdist_succ N size r (by omega)]
  exact startOf_mono N size h hr'

theorem blockdist_exists (N size : Nat) (i : Nat) (k : Nat) (hk : k < size)
    (hik : i < startOf N size k + countOf N size k) :
    ∃ r, r < size ∧ startOf N size r ≤ i ∧ i < startOf N size r + countOf N size r := by
  induction k with
  | zero => exact ⟨0, hk, by rw [blockdist_zero]; omega, hik⟩
  | succ k ih =>
    by_cases h : i < startOf N size k + countOf N size k
    · exact ih (by omega) h
    · exact ⟨k + 1, hk, by rw [blockdist_succ _ _ _ hk]; omega, hik⟩

/-- **C01.** Dividing `N` items among `size ≥ 1` ranks is an ordered partition of `[0,N)` into
    contiguous adjacent ranges: the first range starts at 0, each next range starts where the previous
    one ended, the last ends at `N`, and each item belongs to exactly one rank. -/
theorem blockdist_partition (N size : Nat) (hsize : 0 < size) :
    (blockdist N size 0).2 = 0 ∧
    (∀ r, r + 1 < size →
      (blockdist N size (r + 1)).2 = (blockdist N size r).2 + (blockdist N size r).1) ∧
    (blockdist N size (size - 1)).2 + (blockdist N size (size - 1)).1 = N ∧
    (∀ i, i < N → ∃ r, (r < size ∧ (blockdist N size r).2 ≤ i ∧
        i < (blockdist N size r).2 + (blockdist N size r).1) ∧
      ∀ r', r' < size → (blockdist N size r').2 ≤ i →
        i < (blockdist N size r').2 + (blockdist N size r').1 → r' = r) ∧
    (∀ i r, r < size → (blockdist N size r).2 ≤ i →
        i < (blockdist N size r).2 + (blockdist N size r).1 → i < N) := by
  have hend := blockdist_end N size (size - 1) (by omega) (by omega)
  refine ⟨blockdist_zero N size, blockdist_succ N size, hend, ?_, ?_⟩
  · intro i hi
    obtain ⟨r, hr, h1, h2⟩ := blockdist_exists N size i (size - 1) (by omega) (by omega)
    refine ⟨r, ⟨hr, h1, h2⟩, ?_⟩
    intro r' hr' h1' h2'
    rcases Nat.lt_trichotomy r r' with h | h | h
    · have := endOf_le_startOf N size h hr'
      simp only [startOf, countOf] at *
      omega
    · exact h.symm
    · have := endOf_le_startOf N size h hr
      simp only [startOf, countOf] at *
      omega
  · intro i r hr h1 h2
    rcases Nat.lt_or_ge r (size - 1) with h | h
    · have := endOf_le_startOf N size h (by omega)
      simp only [startOf, countOf] at *
      omega
    · have : r = size - 1 := by omega
      subst this
      simp only [startOf, countOf] at *
      omega

/-- non-vacuity: 10 items on 4 ranks (3,3,2,2). -/
example : (0 < 4) ∧ (List.range 4).map (blockdist 10 4) = [(3, 0), (3, 3), (2, 6), (2, 8)] := by decide

/-- **C02.** The shares are balanced: each is `⌊N/size⌋` or `⌈N/size⌉`, a lower rank never has less than
    a higher one, and any two differ by at most one; a rank outside the communicator gets `(0,0)`. -/
theorem blockdist_balanced (N size : Nat) (hsize : 0 < size) :
    (∀ r, r < size → (blockdist N size r).1 = N / size ∨
        (blockdist N size r).1 = (N + size - 1) / size) ∧
    (∀ r r', r ≤ r' → r' < size → (blockdist N size r').1 ≤ (blockdist N size r).1 ∧
        (blockdist N size r).1 ≤ (blockdist N size r').1 + 1) ∧
    (∀ r, size ≤ r → blockdist N size r = (0, 0)) := by
  refine ⟨?_, ?_, ?_⟩
  · intro r hr
    simp only [blockdist, hr, ↓reduceIte]
    by_cases h : N % size > r
    · right
      simp only [h, ↓reduceIte]
      have h1 := Nat.div_add_mod N size
      have h2 : N % size < size := Nat.mod_lt _ hsize
      symm
      rw [Nat.div_eq_iff hsize]
      rw [Nat.mul_comm] at h1
      have : (N / size + 1) * size = N / size * size + size := by rw [Nat.add_mul]; omega
      omega
    · left; simp [h]
  · intro r r' h hr'
    have hr : r < size := by omega
    simp only [blockdist, hr, hr', ↓reduceIte]
    split <;> split <;> omega
  · intro r hr
    have : ¬ r < size := by omega
    simp [blockdist, this]

/-- non-vacuity: more ranks than items leaves idle ranks. -/
example : (List.range 5).map (fun r => (blockdist 3 5 r).1) = [1, 1, 1, 0, 0] := by decide

/-- Sum of the shares of the first `k` ranks is the start of rank `k` (scan used by `npy_save`). -/
theorem sum_counts_take (N size k : Nat) (hk : k < size) :
    (((List.range size).map (countOf N size)).take k).sum = startOf N size k := by
  rw [← List.map_take, List.take_range, Nat.min_eq_left (by omega)]
  induction k with
  | zero => simp [blockdist_zero]
  | succ k ih =>
    rw [List.range_succ, List.map_append, List.sum_append, ih (by omega)]
    simp [blockdist_succ N size k hk]

theorem sum_counts (N size : Nat) (h : 0 < size) :
    ((List.range size).map (countOf N size)).sum = N := by
  obtain ⟨k, rfl⟩ : ∃ k, size = k + 1 := ⟨size - 1, by omega⟩
  have h1 := sum_counts_take N (k + 1) k (by omega)
  rw [← List.map_take, List.take_range, Nat.min_eq_left (by omega)] at h1
  rw [List.range_succ, List.map_append, List.sum_append, h1]
  simpa using blockdist_end N (k + 1) k (by omega) rfl

end Verif.Props
