import Verif.Model.Overflow
import Verif.Model.ModeRounding
/-
  The values that occur in the floating-point operations of a POD fit (/repo/pyspod/pod/base.py:338-371, /repo/pyspod/pod/standard.py:44-51) and of the modes of a SPOD fit
  (/repo/pyspod/spod/standard.py:223-232): every intermediate result of the relations of Model/Rounding.lean and Model/ModeRounding.lean; see Model/Overflow.lean.
-/
namespace Verif.Round
open Verif Verif.Par

/-- pod/base.py:309, 338-371, pod/standard.py:45-46 (see `FlFluct`): of the mean, which is computed for `mean_type='longtime'` only, its conversion, the conversion of the data and the
    fluctuation -/
def FluctValue (u : ℝ) (mk : Pod.MeanKind) (vals : List ℝ) (t : Nat) (v : ℝ) : Prop :=
  (mk = .longtime ∧ (MeanValue u vals v ∨ ∃ m0, FlMean u vals m0 ∧ Rounds u m0 v)) ∨ Rounds u (vals.getD t 0) v ∨ FlFluct u mk vals t v

/-- pod/standard.py:50 on one rank (see `FlCorrLocal`): the weighted fluctuations, the products, the partial sums -/
def CorrLocalValue (u : ℝ) (d : Nat → Arr ℝ) (w : Arr ℝ) (i j : Nat) (v : ℝ) : Prop :=
  (∃ k < size w.shape, Rounds u ((d j).at' (unravel w.shape k) * w.at' (unravel w.shape k)) v) ∨
  ∃ x : Nat → ℝ, (∀ k < size w.shape, Rounds u ((d j).at' (unravel w.shape k) * w.at' (unravel w.shape k)) (x k)) ∧
    DotValue u ((List.range (size w.shape)).map fun k => ((d i).at' (unravel w.shape k), x k)) v

/-- pod/standard.py:50-51 (see `FlCorr`): values of the ranks and the partial sums of `allreduce` -/
def CorrValue (u : ℝ) (comms : List Comm) (ax : Nat) (d : Nat → Arr ℝ) (w : Arr ℝ) (i j : Nat) (v : ℝ) : Prop :=
  (∃ comm ∈ comms, CorrLocalValue u (fun b => distributeDimension (d b) ax comm) (distributeDimension w ax comm) i j v) ∨
  ∃ ls : List ℝ, List.Forall₂ (fun comm l => FlCorrLocal u (fun b => distributeDimension (d b) ax comm) (distributeDimension w ax comm) i j l) comms ls ∧ SumValue u ls v

/-- spod/standard.py:224-225 (see `FlFactor`): the roots, their product, the quotient -/
def FactorValue (u : ℝ) (nb : Nat) (lam v : ℝ) : Prop :=
  ∃ a b c, Rounds u (Real.sqrt nb) a ∧ Rounds u (Real.sqrt lam) b ∧ Rounds u (a * b) c ∧ (v = a ∨ v = b ∨ v = c ∨ Rounds u (1 / c) v)

/-- spod/standard.py:231 (see `FlMode`): the eigenvector times the factor, the products, the partial sums -/
def ModeValue (u : ℝ) {nb : Nat} (q v : Fin nb → ℂ) (l : ℝ) (z : ℝ) : Prop :=
  (∃ b, Rounds u ((v b).re * l) z ∨ Rounds u ((v b).im * l) z) ∨
  ∃ a : Fin nb → ℂ, (∀ b, Rounds u ((v b).re * l) (a b).re ∧ Rounds u ((v b).im * l) (a b).im) ∧
    (DotValue u ((List.finRange nb).flatMap fun b => [((q b).re, (a b).re), (-(q b).im, (a b).im)]) z ∨
      DotValue u ((List.finRange nb).flatMap fun b => [((q b).re, (a b).im), ((q b).im, (a b).re)]) z)

end Verif.Round
