import Verif.Model.Parallel
import Verif.Model.Names
import Verif.Model.SpodBase
import Mathlib.Analysis.SpecialFunctions.Trigonometric.Basic
/-
  Model of the set-up steps of a fit: shapes, weights, window, folder name, constructor options
  (/repo/pyspod/spod/base.py:50-124,399-406,516-520,554-572, /repo/pyspod/utils/reader.py:36-62,
  /repo/pyspod/spod/utils.py:648-654).
-/
namespace Verif.Setup
open Verif Verif.Par

/-! ### Shape of the data (reader.py:36-62) -/

/-- reader.py:53-54: shape of one snapshot `x_tmp[0,...]` as the code sees it; `dims` is the shape of the dataset
    without its time axis (`x_tmp.ndim = dims.length + 1`). -/
def snapShape (nv xdim : Nat) (dims : List Nat) : List Nat :=
  if nv = 1 ∧ dims.length + 1 ≠ xdim + 2 then dims ++ [1] else dims

/-- reader.py:36-62: `none` = AssertionError (different spatial shapes) or IndexError (no dataset, no axis);
    otherwise `xshape` and the snapshot shape. -/
def initShape1 (nv xdim : Nat) (datasets : List (List Nat)) : Option (List Nat × List Nat) :=
  match datasets with
  | [] => none
  | d :: ds =>
    if ds.all (fun e => e = d) then
      let s := snapShape nv xdim d
      if s = [] then none else some (s.dropLast, s)
    else none

/-! ### Weights (base.py:554-572, 441-456, 480-492) -/

/-- base.py:556-563 and 565: `none` = ValueError (size differs from `nx*nv`); default weights are ones. -/
def defineWeights (xshape : List Nat) (nv : Nat) (arg : Option (Arr ℝ)) : Option (Arr ℝ) :=
  match arg with
  | some w => if size w.shape = size xshape * nv then some w else none
  | none => some ⟨xshape ++ [nv], fun _ => 1⟩

/-- base.py:454-455 and 480-492 on one process or rank: the weights are split along the reader's axis, then reshaped
    to one column of as many rows as the rank's snapshot has values (`none` = ValueError); entry `k` multiplies value
    `k` of the flattened local snapshot. -/
def flatWeights (xshape : List Nat) (nv ax : Nat) (comm : Comm) (localShape : List Nat) (arg : Option (Arr ℝ)) :
    Option (Nat → ℝ) :=
  match defineWeights xshape nv arg with
  | none => none
  | some w =>
    let wl := distributeDimension w ax comm
    if size wl.shape = size localShape then some fun k => wl.at' (unravel wl.shape k) else none

/-! ### Window (spod/utils.py:648-654) -/

/-- `0.54 - 0.46*cos(2*pi*x/(N-1))` for `x = 0, …, N-1` -/
noncomputable def hamming (N : Nat) : List ℝ :=
  (List.range N).map fun (x : Nat) => (0.54 : ℝ) - 0.46 * Real.cos (2 * Real.pi * x / ((N : ℝ) - 1))

/-! ### Results folder (base.py:516-520) -/

/-- `str(n)` of a non-negative integer -/
def decStr (n : Nat) : Names.Name := if n = 0 then ['0'] else (Nat.digits 10 n).reverse.map Names.digitChar

/-- `'nfft'+str(n_dft)+'_novlp'+str(n_overlap)+'_nblks'+str(n_blocks)` -/
def simFolder (nDft nOvlp nBlocks : Nat) : Names.Name :=
  ['n','f','f','t'] ++ decStr nDft ++ ['_','n','o','v','l','p'] ++ decStr nOvlp ++
    ['_','n','b','l','k','s'] ++ decStr nBlocks

/-! ### Constructor options (base.py:54-124) -/

/-- the options that can be rejected or fall back silently; `none` = key absent -/
structure Opts where
  savefreqDisk : Option Bool
  savefreqDisk2 : Option Bool
  dtype : Option String

/-- single or double precision -/
inductive Prec | single | double
  deriving DecidableEq

/-- base.py:79,89-94 -/
def precision (o : Opts) : Prec := if o.dtype.getD "double" = "double" then .double else .single

/-- base.py:68-69,119-124 (`comm` present or not) and 404-406 (`flattened`: the data come from `.nc` or `.mat`
    files): `false` = AssertionError. -/
def outputAccepted (o : Opts) (comm flattened : Bool) : Bool :=
  let d := o.savefreqDisk.getD true
  let d2 := o.savefreqDisk2.getD false
  (!d2 || comm) && (!d || !d2) && (!flattened || !d)

/-- base.py:397-402: the kinds of input, chosen by the first entry of the data list. -/
inductive Kind | array | netcdf | mat
  deriving DecidableEq

/-- the reader's own requirement (reader.py:167 and 474): NetCDF and `.mat` need a communicator -/
def readerAccepted (k : Kind) (comm : Bool) : Bool := k == .array || comm

/-- `_flattened` (reader.py:29,182,485) -/
def flattened (k : Kind) : Bool := k != .array

end Verif.Setup
