import Verif.Model.Rounding
import Verif.Model.Fit
/-
  Floating-point arithmetic in the blocks of a fit, from the data to the Fourier coefficients (/repo/pyspod/spod/base.py:504, 574-617,
  /repo/pyspod/spod/standard.py:157-188), as relations between the data and the possible results; see Model/Rounding.lean.  Without `normalize_data`, which is in Model/NormRounding.lean.
  The window `win` and the data are numbers of the working precision.
-/
namespace Verif.Round
open Verif Verif.Spod

/-- base.py:576-581, 589-617, standard.py:160-171: the possible values `y t` of the fluctuations in the block of `n` snapshots from `s`, for the values `vals` of all
    snapshots at a point.  The long-time mean is the sum in any order, divided and converted (`_set_dtype`). -/
def FlBlock (u : ℝ) (m : MeanType) (vals : List ℝ) (s n : Nat) (y : Nat → ℝ) : Prop :=
  match m with
  | .longtime => ∃ m0 μ, FlMean u vals m0 ∧ Rounds u m0 μ ∧ ∀ t < n, Rounds u (vals.getD (s + t) 0 - μ) (y t)
  | .blockwise => ∃ (x : Nat → ℝ) (μ : ℝ), (∀ t < n, Rounds u (vals.getD (s + t) 0 - 0) (x t)) ∧ FlMean u ((List.range n).map x) μ ∧
      ∀ t < n, Rounds u (x t - μ) (y t)
  | .zero => ∀ t < n, Rounds u (vals.getD (s + t) 0 - 0) (y t)

/-- standard.py:181-182: the possible values of `Q_blk *= self._window`, converted -/
def FlWindowed (u : ℝ) (win : List ℝ) (n : Nat) (y z : Nat → ℝ) : Prop := ∀ t < n, ∃ p, Rounds u (y t * win.getD t 0) p ∧ Rounds u p (z t)

/-- standard.py:185, 187: contract of `np.fft.rfft` and `np.fft.fft`: the error of the value `h` at frequency `f` is at most `γ n` times the largest of the `n`
    values (a consequence of the usual bound `γ ‖z‖₂ √n`, with `γ` of the order `u log n`) -/
def FlDft (γ : ℝ) (ω : ℂ) (n f : Nat) (z : Nat → ℝ) (h : ℂ) : Prop :=
  ∀ Y : ℝ, (∀ t < n, |z t| ≤ Y) → ‖h - ∑ t ∈ Finset.range n, (z t : ℂ) * ω ^ (t * f)‖ ≤ γ * (n * Y)

/-- base.py:504, standard.py:185: the possible values of `(1 / np.mean(window)) / n_dft` -/
def FlScale (u : ℝ) (win : List ℝ) (n : Nat) (s : ℝ) : Prop := ∃ mn ww, FlMean u win mn ∧ Rounds u (1 / mn) ww ∧ Rounds u (ww / n) s

/-- standard.py:157-188: the possible Fourier coefficients of block `b` at frequency `f` and a point with the values `vals` -/
def FlHat (u γ : ℝ) (c : Fit.Cfg) (m : MeanType) (ω : ℂ) (vals : List ℝ) (f b : Nat) (q : ℂ) : Prop :=
  ∃ (y z : Nat → ℝ) (h : ℂ) (s : ℝ), FlBlock u m vals ((Fit.offsets c vals.length).getD b 0) c.nDft y ∧ FlWindowed u c.win c.nDft y z ∧
    FlDft γ ω c.nDft f z h ∧ FlScale u c.win c.nDft s ∧ Rounds u (s * h.re) q.re ∧ Rounds u (s * h.im) q.im

end Verif.Round
