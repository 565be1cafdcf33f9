import Verif.Model.Parallel
import Mathlib.Tactic.Common
/-
  C64: `create_subcomm`, `pr0` (pyspod/utils/parallel.py:49-65, 178-183).
-/
namespace Verif.Props
open Verif Verif.Par

theorem den_dvd (size : Nat) : size % den size = 0 := by
  unfold den
  split
  · rename_i n h
    have := List.find?_some h
    simpa using this
  · exact Nat.mod_one _

theorem den_pos (size : Nat) : 0 < den size := by
  unfold den
  split
  · rename_i n h
    have := List.mem_of_find?_eq_some h
    simp at this
    omega
  · exact Nat.one_pos

/-- **C64.**  Contract used for MPI: `Compute_dims n 2 = (a, b)` with `a*b = n`.  Then for every number of
    ranks the grid has exactly `size` cells; the returned group count and group index are consistent; the
    pair (group, rank in group) identifies a rank uniquely and every pair occurs; every group has the same
    size, which is a multiple of the chosen divisor 3, 4, 2 or 1. -/
theorem create_subcomm_grid (cd : Nat → Nat × Nat) (hcd : ∀ n, (cd n).1 * (cd n).2 = n)
    (size : Nat) (hsize : 0 < size) :
    let dims := subcommDims cd size
    dims.1 * dims.2 = size ∧
    (∃ d ∈ [3, 4, 2, 1], dims.2 % d = 0 ∧ size % d = 0) ∧
    (∀ rank, rank < size → ∃ g l, subcommOf cd size rank = (dims.1, g, l) ∧ g < dims.1 ∧ l < dims.2) ∧
    (∀ g l, g < dims.1 → l < dims.2 → ∃ rank, rank < size ∧
      subcommOf cd size rank = (dims.1, g, l) ∧
      ∀ rank', rank' < size → subcommOf cd size rank' = (dims.1, g, l) → rank' = rank) := by
  have hprod : (subcommDims cd size).1 * (subcommDims cd size).2 = size := by
    simp only [subcommDims]
    rw [← Nat.mul_assoc, hcd]
    exact Nat.div_mul_cancel (Nat.dvd_of_mod_eq_zero (den_dvd size))
  have hpos : 0 < (subcommDims cd size).2 := by
    rcases Nat.eq_zero_or_pos (subcommDims cd size).2 with h | h
    · rw [h] at hprod; omega
    · exact h
  refine ⟨hprod, ?_, ?_, ?_⟩
  · refine ⟨den size, ?_, ?_, den_dvd size⟩
    · unfold den
      split
      · rename_i n h; exact List.mem_of_find?_eq_some h
      · simp
    · simp [subcommDims]
  · intro rank hr
    refine ⟨_, _, rfl, ?_, Nat.mod_lt _ hpos⟩
    rw [Nat.div_lt_iff_lt_mul hpos, hprod]; exact hr
  · intro g l hg hl
    refine ⟨g * (subcommDims cd size).2 + l, ?_, ?_, ?_⟩
    · have := Nat.mul_le_mul_right (subcommDims cd size).2 (show g + 1 ≤ _ from hg)
      rw [hprod, Nat.add_mul] at this
      omega
    · simp only [subcommOf]
      rw [Nat.mul_comm g, Nat.mul_add_div hpos, Nat.mul_add_mod, Nat.div_eq_of_lt hl,
        Nat.mod_eq_of_lt hl, Nat.add_zero]
    · intro rank' _ h
      simp only [subcommOf, Prod.mk.injEq, true_and] at h
      rw [← h.1, ← h.2, Nat.mul_comm]
      exact (Nat.div_add_mod _ _).symm

/-- non-vacuity: 12 ranks with `Compute_dims n = (n, 1)`. -/
example : subcommDims (fun n => (n, 1)) 12 = (4, 3) ∧ subcommOf (fun n => (n, 1)) 12 7 = (4, 2, 1) := by
  decide

theorem sum_pr0 (k : Nat) (n : Nat) :
    ((List.range n).map fun r => pr0Prints (some (k, r))).sum = min n 1 := by
  induction n with
  | zero => rfl
  | succ n ih =>
    rw [List.range_succ, List.map_append, List.sum_append, ih]
    simp [pr0Prints]; split <;> omega

/-- A message passed to `pr0` on all ranks is printed exactly once, serially or on any number of ranks. -/
theorem pr0_once (size : Nat) (h : 0 < size) :
    ((List.range size).map fun r => pr0Prints (some (size, r))).sum = 1 ∧ pr0Prints none = 1 := by
  rw [sum_pr0 size size]
  exact ⟨by omega, rfl⟩

end Verif.Props
