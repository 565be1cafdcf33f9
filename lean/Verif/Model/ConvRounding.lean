import Verif.Model.ConvFit
import Verif.Model.BasisRounding
import Verif.Model.FitRounding
/-
  Floating-point arithmetic in `compute_coeffs_conv` (/repo/pyspod/spod/utils.py:276, 314-315, 333-390), as relations between the data and the possible results; see
  Model/Rounding.lean.  The window and the data are numbers of the working precision; `np.fft.fft` has the contract of Model/FitRounding.lean.
-/
namespace Verif.Round
open Verif Verif.Par

/-- spod/utils.py:276, 335, 352-364: the possible values of the correction of window `i`: `1 / np.mean(window)`, `n_dft / win_weight`, the sum of the part of the window, the
    quotient and the root, each rounded (exact: `Proj.convCorr`) -/
def FlConvCorr (u : ℝ) (win : List ℝ) (n nt i : Nat) (c : ℝ) : Prop :=
  match Coef.corrRange n nt i with
  | none => c = 1
  | some (lb, ub) => ∃ mn ww fac s q, FlMean u win mn ∧ Rounds u (1 / mn) ww ∧ Rounds u (n / ww) fac ∧ FlSum u (Rd.pslice win lb ub) s ∧ Rounds u (fac / s) q ∧
      Rounds u (Real.sqrt q) c

/-- spod/utils.py:314-315: the possible values of `data - lt_mean` at a point with the values `vals` -/
def FlCentred (u : ℝ) (vals y : List ℝ) : Prop := ∃ m, FlMean u vals m ∧ List.Forall₂ (fun x d => Rounds u (x - m) d) vals y

/-- spod/utils.py:333-334, 350: the possible values at frequency `f` of the transform of window `i` of the padded series (exact: `Proj.convBin`) -/
def FlConvBin (u γ : ℝ) (ω : ℂ) (n : Nat) (win vals : List ℝ) (i f : Nat) (h : ℂ) : Prop :=
  ∃ (y : List ℝ) (z : Nat → ℝ), FlCentred u vals y ∧
    (∀ t < n, Rounds u ((Coef.convWindow 0 n y i).getD t 0 * win.getD t 0) (z t)) ∧ FlDft γ ω n f z h

/-- spod/utils.py:350-390 on one process or on rank 0, whose grid points are `pts` (in any order, as the order of the additions is not prescribed): the possible values of
    one coefficient, for the values `vals x` of the snapshots, the weight `w x` and the value `phi x` of the mode at grid point `x`.  The transforms are weighted (`x_tmp`), multiplied with the
    conjugated mode and added (`einsum`), multiplied with the correction and converted to the type of `coeffs`.  No reduction follows. -/
def FlConvCoef (u γ : ℝ) (ω : ℂ) (n nt : Nat) (win : List ℝ) (pts : List Nat) (vals : Nat → List ℝ) (w : Nat → ℝ) (phi : Nat → ℂ) (i f : Nat) (z : ℂ) : Prop :=
  ∃ (c : ℝ) (h v : Fin pts.length → ℂ) (s y : ℂ), FlConvCorr u win n nt i c ∧ (∀ k, FlConvBin u γ ω n win (vals (pts.get k)) i f (h k)) ∧
    (∀ k, FlScaled u (w (pts.get k)) (h k) (v k)) ∧ FlRow u (fun k => star (phi (pts.get k))) v s ∧ FlScaled u c s y ∧ Rounds u y.re z.re ∧ Rounds u y.im z.im

end Verif.Round
