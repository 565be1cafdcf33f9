import Verif.Model.OrthoRounding
/-
  Floating-point arithmetic in the oblique projection and the reconstruction (/repo/pyspod/spod/utils.py:155, 576-605, 540-551), as relations between the operands and the
  possible results; see Model/Rounding.lean.  The entries of `M` and `Q` (spod/utils.py:582-586) are `FlInner` of Model/OrthoRounding.lean: the same statement
  `phir.conj().T @ (weights * ...)` followed by `allreduce`.
-/
namespace Verif.Round
open Verif Verif.Par

/-- spod/utils.py:582-608: the possible values of the coefficients of one snapshot `q` with the modes `phi`, on the ranks `comms`: the matrix and the right-hand side are
    computed with rounding; the pseudo-inverse (`np.linalg.svd` or `np.linalg.pinv`, lines 588-605, trusted) and the product with it leave a residual of at most `δ` in the
    normal equations -/
def FlCoefficients (u δ : ℝ) (comms : List Comm) (ax : Nat) {k : Nat} (phi : Fin k → Arr ℂ) (q : Arr ℂ) (w : Arr ℝ) (a : Fin k → ℂ) : Prop :=
  ∃ (M : Fin k → Fin k → ℂ) (b : Fin k → ℂ), (∀ i j, FlInner u comms ax (phi i) (phi j) w (M i j)) ∧ (∀ i, FlInner u comms ax (phi i) q w (b i)) ∧
    Real.sqrt (∑ i, Complex.normSq ((∑ j, M i j * a j) - b i)) ≤ δ

/-- spod/utils.py:543-549 (= 565-571): the possible values, at one point and one time, of `phir @ coeffs[:,time_idx] + lt_mean[...,None]`: every product and every
    addition rounded, in any order, real and imaginary part each on its own; the mean is real, so that the imaginary part of the sum is exact -/
def FlReconstruct (u : ℝ) {k : Nat} (phi a : Fin k → ℂ) (m : ℝ) (z : ℂ) : Prop :=
  ∃ s : ℂ, FlDot u ((List.finRange k).flatMap fun j => [((phi j).re, (a j).re), (-(phi j).im, (a j).im)]) s.re ∧
    FlDot u ((List.finRange k).flatMap fun j => [((phi j).re, (a j).im), ((phi j).im, (a j).re)]) s.im ∧ Rounds u (s.re + m) z.re ∧ z.im = s.im

end Verif.Round
