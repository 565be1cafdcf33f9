import Verif.Model.SpodBase
import Verif.Model.Reduce
import Mathlib.Algebra.Order.Field.Basic
import Mathlib.Algebra.Order.Group.Abs
import Mathlib.LinearAlgebra.Matrix.ConjTranspose
import Mathlib.Data.Matrix.Mul
import Mathlib.Analysis.Complex.Basic
import Mathlib.Order.ConditionallyCompleteLattice.Basic
/-
  Model of /repo/pyspod/spod/utils.py (coefficients and reconstruction) and of the lookups of
  /repo/pyspod/utils/postproc.py:41-85.  Exact arithmetic.
-/
namespace Verif.Coef
open Verif

/-! ### numpy `argmin` and the lookups -/

/-- `np.argmin` scan: best index so far, its value, next index. -/
def argminGo {K} [LT K] [DecidableLT K] : Nat → K → Nat → List K → Nat
  | b, _, _, [] => b
  | b, v, i, x :: xs => if x < v then argminGo i x (i + 1) xs else argminGo b v (i + 1) xs

/-- `np.argmin` of a 1-d array: first position of the minimum; `none` = ValueError on an empty array. -/
def argmin {K} [LT K] [DecidableLT K] : List K → Option Nat
  | [] => none
  | x :: xs => some (argminGo 0 x 1 xs)

variable {K : Type} [Field K] [LinearOrder K]

/-- postproc.py:41-54 `find_nearest_freq(freq_req, freq)`. -/
def findNearestFreq (req : K) (freq : List K) : Option (K × Nat) :=
  match argmin (freq.map fun f => |f - req|) with
  | none => none
  | some i => freq[i]?.map fun f => (f, i)

/-- What `compute_coeffs_op`/`compute_coeffs_conv` work with after selecting frequencies. -/
structure Band where
  lb : Nat
  ub : Nat
  /-- `n_freq_r = f_idx_ub - f_idx_lb + 1` -/
  nFreqR : Int
  freqIdx : List Nat
  deriving DecidableEq, Repr

/-- `np.arange(lb, ub+1)` -/
def arange (lb ub1 : Nat) : List Nat := List.range' lb (ub1 - lb)

/-- spod/utils.py:121-131 (= 280-290): `1/None` is a TypeError, `1/0` a ZeroDivisionError;
    `freq` has `n_freq` entries. -/
def selectBand (freq : List K) (tLb tUb : Option K) (freqIdx : Option (List Nat)) : Except String Band :=
  let finish (lb ub : Nat) : Except String Band :=
    .ok ⟨lb, ub, (ub : Int) - lb + 1, freqIdx.getD (arange lb (ub + 1))⟩
  if (tLb = none ∨ tUb = none) ∧ freqIdx = none then
    if freq.length = 0 then .error "IndexError" else finish 0 (freq.length - 1)
  else
    match tUb, tLb with
    | some u, some l =>
      if u = 0 ∨ l = 0 then .error "ZeroDivisionError" else
      match findNearestFreq (1 / u) freq, findNearestFreq (1 / l) freq with
      | some (_, i), some (_, j) => finish i j
      | _, _ => .error "ValueError"
    | _, _ => .error "TypeError"

/-! ### Nearest coordinates (postproc.py:57-85) -/

/-- postproc.py:76 for axis `i`: `|grid[i] - coord|` on the `indexing='ij'` mesh of the coordinate lists:
    the value at multi-index `idx` is `|x_i[idx_i] - coord|`; listed in C order. -/
def meshDist (x : List (List K)) (i : Nat) (coord : K) : List K :=
  (List.range (Verif.size (x.map List.length))).map fun (p : Nat) =>
    |(x.getD i []).getD ((unravel (x.map List.length) p).getD i 0) 0 - coord|

/-- postproc.py:73-81: for requested coordinate number `i` the nearest value `xi` and the reported index
    (`tmp_idx[cnt]`, `cnt = ndim - i - 1`). -/
def nearestCoord (x : List (List K)) (i : Nat) (coord : K) : Option (K × Nat) :=
  match argmin (meshDist x i coord) with
  | none => none
  | some p =>
    let tmpIdx := unravel (x.map List.length) p
    some ((x.getD i []).getD (tmpIdx.getD i 0) 0, tmpIdx.getD (x.length - i - 1) 0)

/-! ### The matrix of modes (spod/utils.py:703-725) -/

/-- one column assignment `phir[:, j] = col`; IndexError if there is no such column -/
def setCol {β} (phir : List β) (j : Nat) (col : β) : Option (List β) :=
  if j < phir.length then some (phir.set j col) else none

/-- loop over the modes of one frequency, spod/utils.py:719-721 -/
def fillFreq {β} (nModes cnt : Nat) (phi : List β) : Nat → List β → Option (List β)
  | 0, phir => some phir
  | m + 1, phir => match fillFreq nModes cnt phi m phir with
    | none => none
    | some p => match phi[m]? with
      | none => none
      | some c => setCol p (nModes * cnt + m) c

/-- loop over the frequencies, spod/utils.py:715-722; `modesAt f` are the columns of the mode array of
    frequency `f` (reshaped to `xsize × n_modes`). -/
def fillModes {β} (nModes : Nat) (modesAt : Nat → List β) : Nat → List Nat → List β → Option (List β)
  | _, [], phir => some phir
  | cnt, f :: fs, phir => match fillFreq nModes cnt (modesAt f) nModes phir with
    | none => none
    | some p => fillModes nModes modesAt (cnt + 1) fs p

/-- spod/utils.py:703-725 `_get_modes`: list of the columns of `phir`; without any frequency `del phi` (line 724)
    raises. -/
def getModesMat {β} (zero : β) (nFreq nModes : Nat) (modesAt : Nat → List β) (freqIdx : List Nat) :
    Option (List β) :=
  if freqIdx = [] then none
  else fillModes nModes modesAt 0 freqIdx (List.replicate (nFreq * nModes) zero)

/-! ### Requested times (spod/utils.py:491-504) -/

/-- The values `time_idx` may take. -/
inductive TimeArg
  | none
  | str (s : String)
  | list (l : List Int)
  | other

/-- spod/utils.py:493-504, then the indexing `coeffs[:, time_idx]` (an unknown string stays a string and
    is rejected by numpy's indexing, an index outside `[-nt, nt)` is an IndexError). -/
def timeIdx (nt : Nat) (a : TimeArg) : Except String (List Int) :=
  let step (s : Nat) : List Int := (List.range' 0 ((nt + s - 1) / s) s).map fun (k : Nat) => (k : Int)
  let sel : Except String (List Int) := match a with
    | .none => .ok [0, ((nt % 2 : Nat) : Int), (nt : Int) - 1]
    | .str s =>
      let s := Spod.lower s
      if s = "all" then .ok (step 1)
      else if s = "half" then .ok (step 2)
      else if s = "quarter" then .ok (step 4)
      else if s = "tenth" then .ok (step 10)
      else if s = "hundredth" then .ok (step 100)
      else .error "IndexError"
    | .list l => .ok l
    | .other => .error "TypeError"
  match sel with
  | .error e => .error e
  | .ok l => if l.all fun t => -(nt : Int) ≤ t ∧ t < nt then .ok l else .error "IndexError"

/-! ### Oblique projection (spod/utils.py:576-608) -/

section Oblique
open Matrix

variable {X m T : Type} [Fintype X] [Fintype m] [DecidableEq X] [DecidableEq m] [Fintype T]

/-- spod/utils.py:582 `phir.conj().T @ (weights * phir)` -/
def mMat (Φ : Matrix X m ℂ) (w : X → ℝ) : Matrix m m ℂ := Φᴴ * (Matrix.diagonal (fun i => (w i : ℂ)) * Φ)

/-- spod/utils.py:583 `phir.conj().T @ (weights * data)` -/
def qMat (Φ : Matrix X m ℂ) (w : X → ℝ) (d : Matrix X T ℂ) : Matrix m T ℂ :=
  Φᴴ * (Matrix.diagonal (fun i => (w i : ℂ)) * d)

/-- Contract of `np.linalg.svd(M)` as used at spod/utils.py:589 (trusted). -/
structure IsSvd (M U : Matrix m m ℂ) (l : m → ℝ) (V : Matrix m m ℂ) : Prop where
  left : Uᴴ * U = 1
  right : Vᴴ * V = 1
  nonneg : ∀ i, 0 ≤ l i
  factor : M = U * Matrix.diagonal (fun i => (l i : ℂ)) * Vᴴ

/-- spod/utils.py:590-594: reciprocal of the singular values above `tol * max`, zero otherwise. -/
noncomputable def lInv (tol : ℝ) (l : m → ℝ) : m → ℂ :=
  fun i => if l i > tol * (⨆ j, l j) then 1 / (l i : ℂ) else 0

/-- spod/utils.py:595 `(v.conj().T @ l_inv) @ u.conj().T` (here `V = v.conj().T`).  `np.linalg.pinv(M, tol)`
    of the other branch (line 603) is computed by numpy in the same way: same cut-off `tol * max`. -/
noncomputable def mInv (tol : ℝ) (U : Matrix m m ℂ) (l : m → ℝ) (V : Matrix m m ℂ) : Matrix m m ℂ :=
  V * Matrix.diagonal (lInv tol l) * Uᴴ

/-- spod/utils.py:155 `np.mean(data, axis=0)`; data stored as space × time. -/
noncomputable def ltMean (d : Matrix X T ℂ) : X → ℂ := fun i => (∑ t, d i t) / (Fintype.card T : ℂ)

/-- spod/utils.py:155 `data - lt_mean` -/
noncomputable def centred (d : Matrix X T ℂ) : Matrix X T ℂ := Matrix.of fun i t => d i t - ltMean d i

/-- spod/utils.py:155-172 and 576-608: coefficients of `d`. -/
noncomputable def coeffs (Φ : Matrix X m ℂ) (w : X → ℝ) (d : Matrix X T ℂ) (tol : ℝ)
    (U : Matrix m m ℂ) (l : m → ℝ) (V : Matrix m m ℂ) : Matrix m T ℂ :=
  mInv tol U l V * qMat Φ w (centred d)

/-- spod/utils.py:540-551 `_compute_rec_op`, all times: `phir @ coeffs + lt_mean`. -/
def reconstruct (Φ : Matrix X m ℂ) (a : Matrix m T ℂ) (mean : X → ℂ) : Matrix X T ℂ :=
  Matrix.of fun i t => (Φ * a) i t + mean i

end Oblique

/-! ### Projection over ranks -/

/-- spod/utils.py:582-585: entry `(i,j)` of `M` summed over the ranks; `modes i` is column `i` as an array on
    the grid. -/
def mPar [Star K] (size ax : Nat) (modes : Nat → Arr K) (w : Arr K) (i j : Nat) : K :=
  Par.gram size ax modes w 1 i j

/-- spod/utils.py:583,586: entry `(i,t)` of `Q` summed over the ranks; `data t` is snapshot `t`. -/
def qPar [Star K] (size ax : Nat) (modes data : Nat → Arr K) (w : Arr K) (i t : Nat) : K :=
  Par.allreduce ((List.range size).map fun r =>
    (∑ k ∈ Finset.range (Verif.size (Par.distributeDimension w ax (some (size, r))).shape),
      star ((Par.distributeDimension (modes i) ax (some (size, r))).at'
        (unravel (Par.distributeDimension w ax (some (size, r))).shape k)) *
      ((Par.distributeDimension w ax (some (size, r))).at' (unravel (Par.distributeDimension w ax (some (size, r))).shape k) *
        (Par.distributeDimension (data t) ax (some (size, r))).at'
          (unravel (Par.distributeDimension w ax (some (size, r))).shape k))))

/-! ### Convolution coefficients (spod/utils.py:223-438) -/

/-- spod/utils.py:333 `int(np.ceil(n_dft/2))` -/
def half (n : Nat) : Nat := (n + 1) / 2

/-- spod/utils.py:333-334: the padded series. -/
def padded {β} (zero : β) (n : Nat) (data : List β) : List β :=
  List.replicate (half n) zero ++ data ++ List.replicate (half n) zero

/-- spod/utils.py:350 `data[i:i+n_dft,:]` -/
def convWindow {β} (zero : β) (n : Nat) (data : List β) (i : Nat) : List β :=
  Rd.pslice (padded zero n data) i (i + n)

/-- spod/utils.py:353-364: range `[lb, ub)` of the window used in the amplitude correction; `none` when no
    correction is applied (`corr = 1`). -/
def corrRange (n nt i : Nat) : Option (Nat × Nat) :=
  let thres := half n
  if (i : Int) < (thres : Int) - 2 then some (thres - i - 1, n)
  else if (i : Int) ≥ (nt : Int) - thres then some (0, nt + thres - i - 1)
  else none

/-- spod/utils.py:380-390: one coefficient on a rank whose grid points are `xs`: no reduction over the ranks
    follows. -/
def convLocal [Star K] {X} (corr : K) (phi w q : X → K) (xs : List X) : K :=
  corr * (xs.map fun x => q x * w x * star (phi x)).sum

/-- spod/utils.py:380-416: what is saved: rank 0's array. -/
def convSaved [Star K] {X} (corr : K) (phi w q : X → K) (ranks : List (List X)) : K :=
  convLocal corr phi w q (ranks.headD [])

/-- numpy broadcasting of two dimensions. -/
def bcast (a b : Nat) : Option Nat := if a = b then some a else if a = 1 then some b else if b = 1 then some a else none

/-- can an array of dimension `src` be assigned to a slice of dimension `dst`? -/
def fits (src dst : Nat) : Bool := src = dst || src = 1

/-- spod/utils.py:380-390: `coeffs[:,i,:] = corr * np.einsum('ij,kji->ik', x_tmp, p_tmp)` with `x_tmp` of shape
    `(len(freq_idx), xsize)`, `p_tmp = np.squeeze(phir).conj().T`, `phir` of shape `(n_freq, xsize, n_modes)`
    and `coeffs` of shape `(n_freq_r, nt, n_modes)`: does the statement succeed (`false` = ValueError)? -/
def convAssign (nSel nFreqR nFreq xsize nModes : Nat) : Bool :=
  match ([nFreq, xsize, nModes].filter (· ≠ 1)).reverse with
  | [k, j, i] => match bcast nSel i, bcast xsize j with
    | some i', some _ => fits i' nFreqR && fits k nModes
    | _, _ => false
  | _ => false

/-- spod/utils.py:322-327,401,407: the mode array has shape `(n_freq, xsize, n_modes)` in C order and is saved
    after `phir.shape = (*xshape_nv, n_freq_r, n_modes)`, i.e. the same memory read as
    `(xsize, n_freq, n_modes)`: entry `[x, f, m]` of the saved array. -/
def convModesFile {β} (nFreq xsize nModes : Nat) (phir : Nat → Nat → Nat → β) (x f m : Nat) : β :=
  match unravel [nFreq, xsize, nModes] (ravel [xsize, nFreq, nModes] [x, f, m]) with
  | [f', x', m'] => phir f' x' m'
  | _ => phir 0 0 0

end Verif.Coef
