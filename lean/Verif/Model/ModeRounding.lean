import Verif.Model.FitRounding
/-
  Floating-point arithmetic in the modes of a fit (/repo/pyspod/spod/standard.py:223-232), as relations between the operands and the possible results; see
  Model/Rounding.lean.  For eigenvalues that `real_if_close` has made real and that are positive (see Model/RealIfClose.lean for the others).
-/
namespace Verif.Round
open Verif

/-- standard.py:224-225: the possible values of `1. / (np.sqrt(n_blocks) * np.sqrt(L))` -/
def FlFactor (u : ℝ) (nb : Nat) (lam z : ℝ) : Prop :=
  ∃ a b c, Rounds u (Real.sqrt nb) a ∧ Rounds u (Real.sqrt lam) b ∧ Rounds u (a * b) c ∧ Rounds u (1 / c) z

/-- standard.py:231: the possible values, at one point, of column `v` of `np.matmul(Q_hats[f], V[f,...] * L_diag_inv[f,None,:])`: `q` are the Fourier coefficients of the
    blocks at the point, `l` is the factor.  The products with the factor are rounded, then every product and every addition, in any order, real and imaginary part
    each on its own. -/
def FlMode (u : ℝ) {nb : Nat} (q v : Fin nb → ℂ) (l : ℝ) (z : ℂ) : Prop :=
  ∃ a : Fin nb → ℂ, (∀ b, Rounds u ((v b).re * l) (a b).re ∧ Rounds u ((v b).im * l) (a b).im) ∧
    FlDot u ((List.finRange nb).flatMap fun b => [((q b).re, (a b).re), (-(q b).im, (a b).im)]) z.re ∧
    FlDot u ((List.finRange nb).flatMap fun b => [((q b).re, (a b).im), ((q b).im, (a b).re)]) z.im

end Verif.Round
