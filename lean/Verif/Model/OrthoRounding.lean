import Verif.Model.Rounding
import Verif.Model.Ortho
/-
  Floating-point arithmetic in `check_orthogonality` (/repo/pyspod/spod/utils.py:67-76), as relations between the operands and the possible results; see Model/Rounding.lean.
-/
namespace Verif.Round
open Verif Verif.Par

/-- spod/utils.py:68 on one rank: the possible values of `phir1.conj().T @ (weights * phir2)` for one column each (exact: `Ortho.inner`).  The weighted column is rounded,
    then every product and every addition, in any order, real and imaginary part each on its own. -/
def FlInnerLocal (u : ℝ) (a b : Arr ℂ) (w : Arr ℝ) (z : ℂ) : Prop :=
  ∃ v : Nat → ℂ,
    (∀ k < size w.shape, Rounds u ((b.at' (unravel w.shape k)).re * w.at' (unravel w.shape k)) (v k).re ∧
      Rounds u ((b.at' (unravel w.shape k)).im * w.at' (unravel w.shape k)) (v k).im) ∧
    FlDot u (dotRe (fun k => a.at' (unravel w.shape k)) v (size w.shape)) z.re ∧
    FlDot u (dotIm (fun k => a.at' (unravel w.shape k)) v (size w.shape)) z.im

/-- spod/utils.py:68-69: the possible values of `O` after `allreduce`, which adds the contributions of the ranks in any order -/
def FlInner (u : ℝ) (comms : List Comm) (ax : Nat) (a b : Arr ℂ) (w : Arr ℝ) (z : ℂ) : Prop :=
  ∃ ls : List ℂ, List.Forall₂ (fun comm l => FlInnerLocal u (distributeDimension a ax comm) (distributeDimension b ax comm) (distributeDimension w ax comm) l) comms ls ∧
    FlSum u (ls.map Complex.re) z.re ∧ FlSum u (ls.map Complex.im) z.im

end Verif.Round
