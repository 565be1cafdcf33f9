import Verif.Model.SpodBase
import Verif.Model.Reduce
import Mathlib.LinearAlgebra.Matrix.NonsingularInverse
import Mathlib.Data.Matrix.Mul
import Mathlib.Analysis.Real.Sqrt
import Mathlib.Analysis.Complex.Basic
/-
  Model of /repo/pyspod/pod/{base,standard,utils}.py.  Exact real arithmetic; one variable (the only case the
  code accepts, see `pod_shape_exact`).
-/
namespace Verif.Pod
open Verif Matrix

/-! ### Shapes accepted by `_initialize` (pod/base.py:217-241) -/

/-- pod/base.py:220-233: `dims` is the shape of one dataset without the time axis.  Returns `self._xshape`
    (`x_tmp[0,...,0].shape`), `none` = IndexError when there is no axis to index. -/
def xshapeOf (nv xdim : Nat) (dims : List Nat) : Option (List Nat) :=
  -- x_tmp.ndim = dims.length + 1
  let d := if nv = 1 ∧ dims.length + 1 ≠ xdim + 2 then dims ++ [1] else dims
  if d = [] then none else some d.dropLast

/-- pod/base.py:234-237: the assertion on every dataset of the list; `none` = AssertionError/IndexError,
    otherwise the total number of snapshots. -/
def initShapes (nv xdim : Nat) (datasets : List (Nat × List Nat)) : Option Nat :=
  match datasets with
  | [] => none
  | (_, dims0) :: _ => match xshapeOf nv xdim dims0 with
    | none => none
    | some xs => if datasets.all (fun d => d.2 = xs) then some ((datasets.map (·.1)).sum) else none

/-! ### Loading (pod/base.py:246-255) -/

/-- one assignment `data[tmp_nt:tmp_nt+n,...] = d` -/
def putAt {β} (buf : List β) (pos : Nat) (d : List β) : List β :=
  buf.take pos ++ d ++ buf.drop (pos + d.length)

/-- pod/base.py:247-255: buffer of `nt` zeros filled dataset by dataset; `cast` is the conversion to the real
    dtype of the buffer. -/
def load {α β} (cast : α → β) (zero : β) (datasets : List (List α)) : List β :=
  (datasets.foldl (fun (st : List β × Nat) d => (putAt st.1 st.2 (d.map cast), st.2 + d.length))
    (List.replicate ((datasets.map List.length).sum) zero, 0)).1

/-- numpy assignment of complex values into a float buffer (pod/base.py:254-255): the imaginary part is
    discarded with a warning. -/
def castReal (z : ℂ) : ℝ := z.re

/-! ### Number of modes (pod/standard.py:61-66) -/

/-- The parameter `n_modes_save`: an integer, or the default float `1e10` (pod/base.py:41). -/
inductive NModes | int (n : Nat) | default
  deriving DecidableEq

/-- pod/standard.py:61-66: `phi[:,0:n]` (TypeError for a float), then `phi_r.shape = [...,n]` (ValueError unless
    the number of elements matches): number of saved modes. -/
def savedModes (xsize nt : Nat) : NModes → Except String Nat
  | .default => .error "TypeError"
  | .int n => if xsize * min n nt = xsize * n then .ok n else .error "ValueError"

/-! ### The decomposition (pod/standard.py:45-58) -/

section
variable {X : Type} [Fintype X] [DecidableEq X] {nt : Nat}

/-- pod/base.py:338-345 -/
inductive MeanKind | longtime | zero
  deriving DecidableEq

/-- arithmetic mean over time (pod/base.py:351-370 equals it by `long_time_mean_array` with 2 chunks; also
    pod/utils.py:79 `np.mean`); columns are snapshots. -/
noncomputable def tMean (d : Matrix X (Fin nt) ℝ) : X → ℝ := fun x => (∑ t, d x t) / nt

/-- pod/standard.py:45-47 `d - self._t_mean`, transposed: space × time. -/
noncomputable def fitData (mk : MeanKind) (d : Matrix X (Fin nt) ℝ) : Matrix X (Fin nt) ℝ :=
  Matrix.of fun x t => d x t - (match mk with | .longtime => tMean d x | .zero => 0)

/-- pod/standard.py:50 `d.conj().T @ (d * weights)` (real data). -/
def corrMat (d : Matrix X (Fin nt) ℝ) (w : X → ℝ) : Matrix (Fin nt) (Fin nt) ℝ :=
  dᵀ * Matrix.of fun x t => d x t * w x

/-- Contract of `scipy.linalg.eig` at pod/standard.py:52 on a real symmetric matrix in exact arithmetic: a
    basis of unit eigenvectors with their eigenvalues, in no particular order, not necessarily orthogonal. -/
structure EigBasis (Q : Matrix (Fin nt) (Fin nt) ℝ) (lam : Fin nt → ℝ) (V : Matrix (Fin nt) (Fin nt) ℝ) : Prop where
  eig : ∀ j, Q *ᵥ (fun i => V i j) = lam j • (fun i => V i j)
  unit : ∀ j, ∑ i, V i j * V i j = 1
  basis : IsUnit V.det

/-- pod/standard.py:58 `np.real(d @ v) / np.sqrt(w)`.  (nan where `w = 0`; statements speak of positive
    eigenvalues only.) -/
noncomputable def phiAll (d : Matrix X (Fin nt) ℝ) (lam : Fin nt → ℝ) (V : Matrix (Fin nt) (Fin nt) ℝ) :
    Matrix X (Fin nt) ℝ := Matrix.of fun x j => (d * V) x j / Real.sqrt (lam j)

/-- pod/standard.py:61 `phi[:,0:n_modes_save]` -/
def keep (phi : Matrix X (Fin nt) ℝ) (r : Nat) (h : r ≤ nt) : Matrix X (Fin r) ℝ :=
  Matrix.of fun x j => phi x (Fin.castLE h j)

/-- the modes saved by `fit` -/
noncomputable def modes (mk : MeanKind) (d : Matrix X (Fin nt) ℝ) (lam : Fin nt → ℝ)
    (V : Matrix (Fin nt) (Fin nt) ℝ) (r : Nat) (h : r ≤ nt) : Matrix X (Fin r) ℝ :=
  keep (phiAll (fitData mk d) lam V) r h

/-- pod/utils.py:79-84: `lt_mean = np.mean(data, axis=0); coeffs = phir.T @ (data - lt_mean).T` – the weights
    loaded at line 42 are not used. -/
noncomputable def coeffsOp {r : Nat} (Φ : Matrix X (Fin r) ℝ) (d : Matrix X (Fin nt) ℝ) : Matrix (Fin r) (Fin nt) ℝ :=
  Φᵀ * Matrix.of fun x t => d x t - tMean d x

/-- pod/utils.py:195-201: `phir @ coeffs + lt_mean` (all times). -/
noncomputable def reconstruct {r : Nat} (Φ : Matrix X (Fin r) ℝ) (d : Matrix X (Fin nt) ℝ) : Matrix X (Fin nt) ℝ :=
  Matrix.of fun x t => (Φ * coeffsOp Φ d) x t + tMean d x

end

/-! ### Parallel coefficients (pod/utils.py:84-85) -/

/-- pod/utils.py:84-85: entry `(i,t)` of `coeffs` summed over the ranks. -/
def coeffPar {K} [Field K] [LinearOrder K] (size ax : Nat) (modes data : Nat → Arr K) (i t : Nat) : K :=
  Par.allreduce ((List.range size).map fun r =>
    let loc (a : Arr K) := Par.distributeDimension a ax (some (size, r))
    let sh := (loc (data t)).shape
    ∑ k ∈ Finset.range (Verif.size sh), (loc (modes i)).at' (unravel sh k) * (loc (data t)).at' (unravel sh k))

end Verif.Pod
