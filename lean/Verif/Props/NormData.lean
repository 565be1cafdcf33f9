import Verif.Model.SpodBase
import Mathlib.Tactic.Ring
import Mathlib.Tactic.FieldSimp
import Mathlib.Tactic.NormNum
import Mathlib.Algebra.Order.Field.Rat
import Mathlib.Algebra.BigOperators.Group.List.Basic
import Mathlib.Algebra.BigOperators.Ring.List
/-
  C71: `normalize_data`.
-/
set_option linter.unusedSectionVars false
namespace Verif.Props
open Verif Verif.Spod

/-- unbiased sample variance of a series -/
def sampleVar {K} [Field K] (l : List K) : K :=
  (l.map fun x => (x - l.sum / (l.length : K)) ^ 2).sum / ((l.length : K) - 1)

theorem list_sum_map_div {K} [Field K] (l : List K) (f : K → K) (v : K) :
    (l.map fun x => f x / v).sum = (l.map f).sum / v := by
  induction l with
  | nil => simp
  | cons a l ih => simp [ih, add_div]

theorem sampleVar_div {K} [Field K] (l : List K) (v : K) :
    sampleVar (l.map (· / v)) = sampleVar l / v ^ 2 := by
  unfold sampleVar
  rw [List.length_map, List.map_map]
  have hs : (l.map (· / v)).sum = l.sum / v := by simpa using list_sum_map_div l id v
  rw [hs]
  have : ((fun x => (x - l.sum / v / (l.length : K)) ^ 2) ∘ (· / v)) =
      fun x => (x - l.sum / (l.length : K)) ^ 2 / v ^ 2 := by
    funext x
    simp only [Function.comp]
    rw [div_right_comm, ← sub_div, div_pow]
  rw [this, list_sum_map_div]
  ring

/-- **C71 (what the code does).**  A point whose block has sample variance `v ≥ eps` ends with sample
    variance `1/v` (the code divides by the variance, not by the standard deviation); a point below the
    threshold is left unchanged. -/
theorem normalize_data_exact {K} [Field K] [LT K] [DecidableLT K] (eps : K) (blk : List K) :
    (sampleVar blk < eps → normalizeBlk eps blk = blk) ∧
    (¬ sampleVar blk < eps → sampleVar blk ≠ 0 → sampleVar (normalizeBlk eps blk) = 1 / sampleVar blk) := by
  have hmean : (blk.length : K)⁻¹ * blk.sum = blk.sum / (blk.length : K) := by ring
  have e : (blk.map fun x => (x - (blk.length : K)⁻¹ * blk.sum) ^ 2).sum / ((blk.length : K) - 1) =
      sampleVar blk := by
    rw [hmean]; rfl
  unfold normalizeBlk
  simp only [e]
  constructor
  · intro h; simp [h]
  · intro h h0
    simp only [h, if_false]
    rw [sampleVar_div]
    field_simp

/-- C71, the part that holds: unit variance exactly when the variance was one (or minus one, excluded for an
    ordered field) to begin with. -/
theorem normalize_data_partial (eps : ℚ) (blk : List ℚ) (h : ¬ sampleVar blk < eps) (h1 : sampleVar blk = 1) :
    sampleVar (normalizeBlk eps blk) = 1 := by
  rw [(normalize_data_exact eps blk).2 h (by rw [h1]; norm_num), h1]; norm_num

example : sampleVar ([1, 0, 1, 2] : List ℚ) = 2 / 3 := by norm_num [sampleVar]

/-- **C71 fails**: the block 0, 2, 4 has variance 4; after `normalize_data` it is 1/4, not 1. -/
theorem normalize_data_fails : sampleVar ([0, 2, 4] : List ℚ) = 4 ∧
    sampleVar (normalizeBlk (1 / 10 ^ 15) ([0, 2, 4] : List ℚ)) = 1 / 4 := by
  have h : sampleVar ([0, 2, 4] : List ℚ) = 4 := by norm_num [sampleVar]
  refine ⟨h, ?_⟩
  rw [(normalize_data_exact _ _).2 (by rw [h]; norm_num) (by rw [h]; norm_num), h]

end Verif.Props
