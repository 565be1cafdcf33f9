import Verif.Model.Reduce
import Verif.Model.Pod
import Mathlib.Data.Complex.Basic
/-
  Floating-point arithmetic in the matrix products that are summed over points and ranks
  (/repo/pyspod/spod/standard.py:197-202, /repo/pyspod/pod/standard.py:50-51, /repo/pyspod/pod/utils.py:84-85, /repo/pyspod/utils/parallel.py:161-170).

  The standard model of floating-point arithmetic: every operation returns the exact result up to a relative error of at most `u` (no underflow, no overflow).
  The order of the additions is not prescribed: BLAS and MPI may use any.  The model is a relation between the operands and the possible results.
-/
namespace Verif.Round
open Verif Verif.Par

/-- `y` is a possible floating-point value of the exact number `x`: relative error at most `u` -/
def Rounds (u x y : ℝ) : Prop := |y - x| ≤ u * |x|

/-- the possible results of adding the leaves of a tree, every addition rounded -/
def FlTree (u : ℝ) : RTree ℝ → ℝ → Prop
  | .rank d, z => z = d
  | .node l r, z => ∃ a b, FlTree u l a ∧ FlTree u r b ∧ Rounds u (a + b) z

/-- the possible results of adding the numbers of a list in any order; an empty sum is exactly zero -/
def FlSum (u : ℝ) (l : List ℝ) (z : ℝ) : Prop := (l = [] ∧ z = 0) ∨ ∃ t : RTree ℝ, t.leaves.Perm l ∧ FlTree u t z

/-- the possible results of a sum of products -/
def FlDot (u : ℝ) (ps : List (ℝ × ℝ)) (z : ℝ) : Prop := ∃ ys, List.Forall₂ (fun p y => Rounds u (p.1 * p.2) y) ps ys ∧ FlSum u ys z

/-- the products whose sum is the real part of `Σ conj a · v` -/
def dotRe (a v : Nat → ℂ) (n : Nat) : List (ℝ × ℝ) := (List.range n).flatMap fun k => [((a k).re, (v k).re), ((a k).im, (v k).im)]

/-- the products whose sum is the imaginary part of `Σ conj a · v` -/
def dotIm (a v : Nat → ℂ) (n : Nat) : List (ℝ × ℝ) := (List.range n).flatMap fun k => [((a k).re, (v k).im), (-(a k).im, (v k).re)]

/-- spod/standard.py:199: the possible results of entry `(i, j)` of `Q.conj().T @ (Q * weights) / n_blocks` on one rank (exact: `localGram`).  The weighted
    block is rounded, then every product, every addition (in any order, real and imaginary part each on its own), and the division. -/
def FlLocal (u : ℝ) (Q : Nat → Arr ℂ) (w : Arr ℝ) (nb : ℝ) (i j : Nat) (z : ℂ) : Prop :=
  ∃ (v : Nat → ℂ) (s : ℂ),
    (∀ k < size w.shape, Rounds u (((Q j).at' (unravel w.shape k)).re * w.at' (unravel w.shape k)) (v k).re ∧
      Rounds u (((Q j).at' (unravel w.shape k)).im * w.at' (unravel w.shape k)) (v k).im) ∧
    FlDot u (dotRe (fun k => (Q i).at' (unravel w.shape k)) v (size w.shape)) s.re ∧
    FlDot u (dotIm (fun k => (Q i).at' (unravel w.shape k)) v (size w.shape)) s.im ∧
    Rounds u (s.re / nb) z.re ∧ Rounds u (s.im / nb) z.im

/-- spod/standard.py:197-202, parallel.py:161-170: the possible results of an entry of the matrix after `allreduce`, which adds the contributions of the ranks in
    any order (exact: `gram`).  With `comms = [none]` (one process) nothing is added. -/
def FlGram (u : ℝ) (comms : List Comm) (ax : Nat) (Q : Nat → Arr ℂ) (w : Arr ℝ) (nb : ℝ) (i j : Nat) (z : ℂ) : Prop :=
  ∃ ls : List ℂ, List.Forall₂ (fun comm l => FlLocal u (fun b => distributeDimension (Q b) ax comm) (distributeDimension w ax comm) nb i j l) comms ls ∧
    FlSum u (ls.map Complex.re) z.re ∧ FlSum u (ls.map Complex.im) z.im

/-- pod/base.py:351-370 (`long_t_mean`): the possible results of the mean of the values `vals` of a point.  The sums over the two halves and the remainder are one
    order of the additions, here any order is allowed; adding the initial zeros is exact.  Also pod/utils.py:80 (`np.mean(data, axis=0)`). -/
def FlMean (u : ℝ) (vals : List ℝ) (z : ℝ) : Prop := ∃ s, FlSum u vals s ∧ Rounds u (s / vals.length) z

/-- pod/standard.py:45-46 (`d - self._t_mean`): the possible results for snapshot `t` at a point with the values `vals`, after the conversions of the mean and of the
    data to the working precision (pod/base.py:309, 369); the mean is 0.0 for `mean_type='zero'` (pod/base.py:338-341) -/
def FlFluct (u : ℝ) (mk : Pod.MeanKind) (vals : List ℝ) (t : Nat) (z : ℝ) : Prop :=
  match mk with
  | .longtime => ∃ m0 m x, FlMean u vals m0 ∧ Rounds u m0 m ∧ Rounds u (vals.getD t 0) x ∧ Rounds u (x - m) z
  | .zero => ∃ x, Rounds u (vals.getD t 0) x ∧ Rounds u (x - 0) z

/-- pod/standard.py:50: the possible results of entry `(i, j)` of `d.conj().T @ (d * self._weights)` on one rank, for the fluctuations `d` and the weights `w`
    (arrays of the shape of a snapshot, flattened in C order) -/
def FlCorrLocal (u : ℝ) (d : Nat → Arr ℝ) (w : Arr ℝ) (i j : Nat) (z : ℝ) : Prop :=
  ∃ v : Nat → ℝ, (∀ k < size w.shape, Rounds u ((d j).at' (unravel w.shape k) * w.at' (unravel w.shape k)) (v k)) ∧
    FlDot u ((List.range (size w.shape)).map fun k => ((d i).at' (unravel w.shape k), v k)) z

/-- pod/standard.py:50-51: the possible results of an entry of the matrix after `allreduce` -/
def FlCorr (u : ℝ) (comms : List Comm) (ax : Nat) (d : Nat → Arr ℝ) (w : Arr ℝ) (i j : Nat) (z : ℝ) : Prop :=
  ∃ ls : List ℝ, List.Forall₂ (fun comm l => FlCorrLocal u (fun b => distributeDimension (d b) ax comm) (distributeDimension w ax comm) i j l) comms ls ∧
    FlSum u ls z

/-- pod/utils.py:84-85: the possible results of a coefficient, the product of a mode with the fluctuations `d` of a snapshot, summed over the points of a rank
    and over the ranks (real modes) -/
def FlCoef (u : ℝ) (comms : List Comm) (ax : Nat) (phi d : Arr ℝ) (z : ℝ) : Prop :=
  ∃ ls : List ℝ, List.Forall₂ (fun comm l => FlDot u ((List.range (size (distributeDimension d ax comm).shape)).map fun k =>
      ((distributeDimension phi ax comm).at' (unravel (distributeDimension d ax comm).shape k),
        (distributeDimension d ax comm).at' (unravel (distributeDimension d ax comm).shape k))) l) comms ls ∧ FlSum u ls z

/-- pod/utils.py:195-201: the possible results of `phir @ coeffs + lt_mean` at a point and a time, for the values `phi` of the `n` modes at the point, the
    coefficients `a` at the time and the mean `m` -/
def FlRecon (u : ℝ) (n : Nat) (phi a : Nat → ℝ) (m z : ℝ) : Prop := ∃ s, FlDot u ((List.range n).map fun j => (phi j, a j)) s ∧ Rounds u (s + m) z

end Verif.Round
