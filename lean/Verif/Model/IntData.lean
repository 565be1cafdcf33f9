import Verif.Model.Double
import Verif.Model.Rounding
/-
  Double-precision arithmetic in the mean and in the correlation matrix of a POD fit, with a rounding function `fl` (Model/Double.lean) and any order of the additions
  (/repo/pyspod/pod/base.py:351-371, /repo/pyspod/pod/standard.py:44-51, /repo/pyspod/spod/base.py:589-617, /repo/pyspod/utils/parallel.py:161-170).
  Compare Model/Rounding.lean, where only the relative error of an operation is known.  Products fused with the additions are not modelled.
-/
namespace Verif.Dbl
open Verif Verif.Par

/-- adding the leaves of a tree (`np.sum`, `@`, `allreduce`: pod/base.py:358-366, pod/standard.py:50-51), every addition rounded -/
def dblTree (fl : ℝ → ℝ) : RTree ℝ → ℝ
  | .rank d => d
  | .node l r => fl (dblTree fl l + dblTree fl r)

/-- pod/base.py:358-366, pod/standard.py:50-51: the possible results of adding the numbers of a list in any order -/
def DblSum (fl : ℝ → ℝ) (l : List ℝ) (z : ℝ) : Prop := (l = [] ∧ z = 0) ∨ ∃ t : RTree ℝ, t.leaves.Perm l ∧ z = dblTree fl t

/-- pod/base.py:351-370, spod/base.py:589-617 (`long_t_mean`): the possible means of the values of a point; the conversion to double precision is the identity -/
def DblMean (fl : ℝ → ℝ) (vals : List ℝ) (z : ℝ) : Prop := ∃ s, DblSum fl vals s ∧ z = fl (s / vals.length)

/-- pod/standard.py:45-46, pod/base.py:338-341: the possible fluctuations of snapshot `t` at a point -/
def DblFluct (fl : ℝ → ℝ) (mk : Pod.MeanKind) (vals : List ℝ) (t : Nat) (z : ℝ) : Prop :=
  match mk with
  | .longtime => ∃ m, DblMean fl vals m ∧ z = fl (vals.getD t 0 - m)
  | .zero => z = fl (vals.getD t 0 - 0)

/-- pod/standard.py:50: the possible results of an entry of `d.conj().T @ (d * self._weights)` on one rank -/
def DblCorrLocal (fl : ℝ → ℝ) (d : Nat → Arr ℝ) (w : Arr ℝ) (i j : Nat) (z : ℝ) : Prop :=
  DblSum fl ((List.range (size w.shape)).map fun k => fl ((d i).at' (unravel w.shape k) * fl ((d j).at' (unravel w.shape k) * w.at' (unravel w.shape k)))) z

/-- pod/standard.py:50-51: the possible results of an entry of the matrix after `allreduce` -/
def DblCorr (fl : ℝ → ℝ) (comms : List Comm) (ax : Nat) (d : Nat → Arr ℝ) (w : Arr ℝ) (i j : Nat) (z : ℝ) : Prop :=
  ∃ ls : List ℝ, List.Forall₂ (fun comm l => DblCorrLocal fl (fun b => distributeDimension (d b) ax comm) (distributeDimension w ax comm) i j l) comms ls ∧ DblSum fl ls z

end Verif.Dbl
