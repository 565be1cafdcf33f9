import Verif.Model.FitRounding
/-
  Floating-point arithmetic in the option `normalize_data` (/repo/pyspod/spod/standard.py:173-179), as relations between the data and the possible results; see
  Model/FitRounding.lean for the other steps of a block and for the conventions.
-/
namespace Verif.Round
open Verif Verif.Spod

/-- standard.py:175-176: the possible values of the variance `Q_var` at one point of the block with the fluctuations `y` -/
def FlBlockVar (u : ℝ) (n : Nat) (y : Nat → ℝ) (v : ℝ) : Prop :=
  ∃ (m s : ℝ) (d q : Nat → ℝ), FlMean u ((List.range n).map y) m ∧ (∀ t < n, Rounds u (y t - m) (d t)) ∧ (∀ t < n, Rounds u (d t * d t) (q t)) ∧
    FlSum u ((List.range n).map q) s ∧ Rounds u (s / ((n : ℝ) - 1)) v

/-- standard.py:177-179: the possible values of the block after the division by the variance, or by 1 where the computed variance is below the threshold -/
def FlNormalized (u eps4 : ℝ) (n : Nat) (y z : Nat → ℝ) : Prop :=
  ∃ v, FlBlockVar u n y v ∧ ∀ t < n, Rounds u (y t / (if v < eps4 then 1 else v)) (z t)

/-- standard.py:157-188 with `normalize_data`: the possible Fourier coefficients of block `b` at frequency `f` and a point with the values `vals` (without: `FlHat`) -/
def FlHatNorm (u γ : ℝ) (c : Fit.Cfg) (m : MeanType) (ω : ℂ) (vals : List ℝ) (f b : Nat) (q : ℂ) : Prop :=
  ∃ (y x z : Nat → ℝ) (h : ℂ) (s : ℝ), FlBlock u m vals ((Fit.offsets c vals.length).getD b 0) c.nDft y ∧ FlNormalized u c.eps4 c.nDft y x ∧
    FlWindowed u c.win c.nDft x z ∧ FlDft γ ω c.nDft f z h ∧ FlScale u c.win c.nDft s ∧ Rounds u (s * h.re) q.re ∧ Rounds u (s * h.im) q.im

end Verif.Round
