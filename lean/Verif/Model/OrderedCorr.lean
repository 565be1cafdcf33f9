import Verif.Model.IntData
/-
  The POD correlation matrix in floating-point arithmetic with a fixed order of the additions.
-/
namespace Verif.Dbl
open Verif Verif.Par

/-- pod/standard.py:50: the rounded products `conj(d_i) * (d_j * w)` of a rank, point by point, for real data; a fused multiply-add is not modelled -/
def corrTerms (fl : ℝ → ℝ) (d : Nat → Arr ℝ) (w : Arr ℝ) (i j : Nat) : List ℝ :=
  (List.range (size w.shape)).map fun k => fl ((d i).at' (unravel w.shape k) * fl ((d j).at' (unravel w.shape k) * w.at' (unravel w.shape k)))

/-- pod/standard.py:50-51: an entry of the matrix when every rank adds its products with the procedure `S` (the matrix product of the library) and the results of the ranks are added with the
    procedure `T` (`allreduce`); a procedure may use any order, the same one for every entry -/
def orderedCorr (fl : ℝ → ℝ) (S T : List ℝ → ℝ) (comms : List Comm) (ax : Nat) (d : Nat → Arr ℝ) (w : Arr ℝ) (i j : Nat) : ℝ :=
  T (comms.map fun comm => S (corrTerms fl (fun b => distributeDimension (d b) ax comm) (distributeDimension w ax comm) i j))

end Verif.Dbl
