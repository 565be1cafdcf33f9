import Verif.Props.Blocks
import Mathlib.Algebra.Module.Basic
import Mathlib.Tactic.Module
import Mathlib.Tactic.Abel
import Mathlib.Algebra.BigOperators.Group.List.Basic
/-
  C20, C21: long-time mean and mean types.
-/
set_option linter.unusedSectionVars false
namespace Verif.Props
open Verif Verif.Par Verif.Rd Verif.Spod

section
variable {K β : Type} [Field K] [AddCommGroup β] [Module K β]

theorem pslice_sum_append (l : List β) (a b c : Nat) (h : a ≤ b) (h' : b ≤ c) :
    (pslice l a b).sum + (pslice l b c).sum = (pslice l a c).sum := by
  rw [← pslice_append l a b c h h', List.sum_append]

theorem pslice_full {β : Type} (l : List β) : pslice l 0 l.length = l := by simp [pslice]

/-- **C20**, data in one array.  Whatever the (positive) number of chunks used for the summation, the
    long-time mean is `(1/nt) * Σ` of all snapshots.  `β` is the type of snapshots (any vector space). -/
theorem long_time_mean_array (nb : Nat) (_hnb : 0 < nb) (data : List β) :
    longTMeanArr K nb data = (data.length : K)⁻¹ • data.sum := by
  have hfold : ∀ m, (List.range m).foldl
      (fun acc i => acc + (pslice data (i * (data.length / nb)) (i * (data.length / nb) + data.length / nb)).sum) 0 =
      (pslice data 0 (m * (data.length / nb))).sum := by
    intro m
    induction m with
    | zero => simp [pslice]
    | succ m ih =>
      rw [List.range_succ, List.foldl_append, ih]
      simp only [List.foldl_cons, List.foldl_nil]
      rw [pslice_sum_append _ _ _ _ (Nat.zero_le _) (Nat.le_add_right _ _), Nat.succ_mul]
  have hdm := Nat.div_add_mod data.length nb
  unfold longTMeanArr
  simp only [hfold]
  congr 1
  have hle : nb * (data.length / nb) = data.length - data.length % nb := by omega
  split
  · rw [hle, pslice_sum_append _ _ _ _ (Nat.zero_le _) (by omega), pslice_full]
  · have : nb * (data.length / nb) = data.length := by omega
    rw [this, pslice_full]

/-- **C20**, data in pieces (two-stage reader): same value. -/
theorem long_time_mean_pieces (frames : List β) (data : List (Piece β)) (hg : GoodPieces frames 0 data)
    (lp : Piece β) (hl : data.getLast? = some lp) (hlp : lp.2.2.length ≠ 0) :
    longTMeanDict K frames.length data = some ((frames.length : K)⁻¹ • frames.sum) := by
  unfold longTMeanDict
  rw [hl]
  simp only [hlp, ↓reduceIte, Option.some.injEq]
  congr 1
  suffices ∀ (data : List (Piece β)) (a : Nat) (acc : β), GoodPieces frames a data →
      data.foldl (fun acc p => acc + p.2.2.sum) acc = acc + (pslice frames a frames.length).sum by
    rw [this data 0 0 hg, pslice_full, zero_add]
  intro data
  induction data with
  | nil =>
    intro a acc h
    have : a = frames.length := h.1
    subst this
    simp [pslice]
  | cons q qs ih =>
    intro a acc h
    obtain ⟨h1, h2, h3, h4, h5⟩ := h.tail
    rw [List.foldl_cons, ih q.2.1 _ h5, h3, add_assoc, ← h1, pslice_sum_append _ _ _ _ h2 h4]

/-- Both representations give the same mean (corollary of the two theorems, for the real reader with any
    chunking into at most `nt` pieces). -/
theorem long_time_mean_same (frames : List β) (nb : Nat) (hnb : 0 < nb) (get : Nat → Nat → List β)
    (hget : ∀ s e, s ≤ e → e ≤ frames.length → get s e = pslice frames s e) (nc nk : Nat)
    (hc : 0 < nc) (hk : 0 < nk) (lp : Piece β)
    (hl : (dictPieces get frames.length nc nk).getLast? = some lp) (hlp : lp.2.2.length ≠ 0) :
    longTMeanDict K frames.length (dictPieces get frames.length nc nk) = some (longTMeanArr K nb frames) := by
  have hct := reader2_dict_content frames nc nk get hget
  rw [long_time_mean_array nb hnb, long_time_mean_pieces frames _
    ⟨hct.1 ▸ reader2_dict_tiles _ _ _ hc hk, hct.2⟩ lp hl hlp]

end

example : longTMeanArr ℚ 2 [(1 : ℚ), 2, 6] = 3 ∧
    longTMeanDict ℚ 3 [(0, 2, [(1 : ℚ), 2]), (2, 3, [6])] = some 3 := by
  constructor <;> norm_num [longTMeanArr, longTMeanDict, pslice, List.range_succ]

/-! ### C21 -/

/-- **C21**, rejection: `select_mean` accepts a name iff its lower-case form is one of the three. -/
theorem mean_type_accepted (s : String) :
    (∃ m, parseMean s = .ok m) ↔ lower s = "longtime" ∨ lower s = "blockwise" ∨ lower s = "zero" := by
  unfold parseMean
  simp only
  split
  · rename_i h; simp [h]
  · rename_i h1
    split
    · rename_i h; simp [h]
    · rename_i h2
      split
      · rename_i h; simp [h]
      · rename_i h3; simp [h1, h2, h3]

section
variable {K : Type} [Field K] [LinearOrder K]

/-- **C21.** What the blocks are before normalization and windowing, for each accepted name, and an error
    (before any block is processed) for every other name.  `blocks` are the raw blocks at one grid point. -/
theorem mean_type_effect (s : String) (eps4 : K) (w : List K) (lt : K) (blocks : List (List K)) :
    (lower s = "longtime" → prepareBlocks s false eps4 w lt blocks =
      .ok (blocks.map fun b => List.zipWith (· * ·) (b.map fun x => x - lt) w)) ∧
    (lower s = "zero" → prepareBlocks s false eps4 w lt blocks =
      .ok (blocks.map fun b => List.zipWith (· * ·) b w)) ∧
    (lower s = "blockwise" → prepareBlocks s false eps4 w lt blocks =
      .ok (blocks.map fun b => List.zipWith (· * ·) (b.map fun x => x - b.sum / (b.length : K)) w)) ∧
    (lower s ≠ "longtime" → lower s ≠ "zero" → lower s ≠ "blockwise" → ∀ norm,
      ∃ e, prepareBlocks s norm eps4 w lt blocks = .error e) := by
  refine ⟨fun h => ?_, fun h => ?_, fun h => ?_, fun h1 h2 h3 norm => ?_⟩
  · simp [prepareBlocks, parseMean, h, subtractMean, tMean, applyWindow]
  · simp [prepareBlocks, parseMean, h, subtractMean, tMean, applyWindow]
  · simp only [prepareBlocks, parseMean, h, subtractMean, tMean, applyWindow]
    simp only [String.reduceEq, ↓reduceIte, sub_zero, List.map_id', Bool.false_eq_true, blkMean, smul_eq_mul,
      Except.ok.injEq]
    apply List.map_congr_left
    intro b _
    congr 2
    funext x
    rw [div_eq_inv_mul]
  · simp [prepareBlocks, parseMean, h1, h2, h3]

/-- C21, consequence for 'blockwise': each block has zero mean afterwards. -/
theorem blockwise_zero_mean [CharZero K] (lt : K) (blk : List K) (hne : blk ≠ []) :
    (subtractMean K .blockwise lt blk).sum = 0 := by
  have hlen : (blk.length : K) ≠ 0 := by
    simp [hne]
  simp only [subtractMean, tMean, sub_zero, List.map_id', ↓reduceIte, blkMean, smul_eq_mul]
  have : ∀ (l : List K) (c : K), (l.map (· - c)).sum = l.sum - l.length * c := by
    intro l c
    induction l with
    | nil => simp
    | cons x xs ih => simp only [List.map_cons, List.sum_cons, ih, List.length_cons]; push_cast; ring
  rw [this]
  field_simp
  ring

end

example : parseMean "LongTime" = .ok .longtime := by decide
example : parseMean "mean" = .error "mean" := by decide
example : prepareBlocks "blockwise" false (0 : ℚ) [1, 2] 7 [[1, 3]] = .ok [[-1, 2]] := by
  have h := (mean_type_effect "blockwise" (0 : ℚ) [1, 2] 7 [[1, 3]]).2.2.1 (by decide)
  rw [h]; norm_num

end Verif.Props
