import Mathlib.LinearAlgebra.Matrix.PosDef
import Mathlib.LinearAlgebra.Matrix.Trace
import Mathlib.Analysis.Complex.Order
import Mathlib.Analysis.SpecialFunctions.Pow.Real
import Mathlib.Analysis.Real.Sqrt
import Verif.Model.SpodBase
/-
  Model of `_compute_standard_spod` (/repo/pyspod/spod/standard.py:190-365) at one frequency, in exact
  complex arithmetic.  `X` indexes the flattened (space x variables) points of all ranks together – the sum
  over ranks done by `allreduce` is `gram_rank_independent` (C08) – and blocks are indexed by `Fin nb`.
-/
namespace Verif.Spod
open Matrix ComplexConjugate

variable {X : Type} [Fintype X] [DecidableEq X] {nb : Nat}

/-- standard.py:198-202: `M[f] = Q_hat_f.conj().T @ (Q_hat_f * weights) / n_blocks` (`weights` real, one per
    row). -/
noncomputable def crossSpectral (Q : Matrix X (Fin nb) ℂ) (w : X → ℝ) : Matrix (Fin nb) (Fin nb) ℂ :=
  ((nb : ℂ)⁻¹) • (Qᴴ * (Matrix.of fun x b => Q x b * (w x : ℂ)))

/-- Contract of `numpy.linalg.eig` (standard.py:207): columns of `V` are unit eigenvectors, `L` their
    eigenvalues.  (Trusted LAPACK behaviour in exact arithmetic; nothing about orthogonality.) -/
def EigPairs (M : Matrix (Fin nb) (Fin nb) ℂ) (L : Fin nb → ℂ) (V : Matrix (Fin nb) (Fin nb) ℂ) : Prop :=
  ∀ j, M *ᵥ (fun i => V i j) = L j • (fun i => V i j) ∧ ∑ i, conj (V i j) * V i j = 1

/-- `np.real_if_close` (standard.py:208) in exact arithmetic when all eigenvalues are real (they are, see
    `eigenvalues_real_nonneg`): the real parts. -/
def realIfClose (L : Fin nb → ℂ) : Fin nb → ℝ := fun j => (L j).re

/-- Contract of `np.argsort(Lf)[::-1]` (standard.py:215): a permutation listing the values in
    non-increasing order (ties in any order). -/
def ArgsortDesc (L : Fin nb → ℝ) (σ : Equiv.Perm (Fin nb)) : Prop := ∀ i j, i ≤ j → L (σ j) ≤ L (σ i)

/-- standard.py:216 `L[f,:] = L[f,idx]` -/
def reorderL (L : Fin nb → ℝ) (σ : Equiv.Perm (Fin nb)) : Fin nb → ℝ := fun j => L (σ j)

/-- standard.py:217-219 `vf[:,idx]` -/
def reorderV (V : Matrix (Fin nb) (Fin nb) ℂ) (σ : Equiv.Perm (Fin nb)) : Matrix (Fin nb) (Fin nb) ℂ :=
  Matrix.of fun i j => V i (σ j)

/-- standard.py:224-231: `L_diag_inv = 1/(sqrt(n_blocks)*sqrt(L))`,
    `phi = Q_hats[f] @ (V[f] * L_diag_inv[None,:])`.  Division by zero (a zero eigenvalue) yields nan/inf in
    numpy; statements below only speak about positive eigenvalues. -/
noncomputable def phiAll (Q : Matrix X (Fin nb) ℂ) (L : Fin nb → ℝ) (V : Matrix (Fin nb) (Fin nb) ℂ) :
    Matrix X (Fin nb) ℂ :=
  Q * Matrix.of fun i j => V i j * (((1 / (Real.sqrt nb * Real.sqrt (L j)) : ℝ)) : ℂ)

/-- standard.py:232 `phi[...,0:n_modes_save]` -/
def phiSaved (phi : Matrix X (Fin nb) ℂ) (nSave : Nat) (h : nSave ≤ nb) : Matrix X (Fin nSave) ℂ :=
  Matrix.of fun x j => phi x (Fin.castLE h j)

/-- standard.py:355-360: doubling (`fac`, see `oneSidedFactor`) and `np.abs`. -/
def eigsOut (L : Fin nb → ℝ) (fac : Nat) : Fin nb → ℝ := fun j => |(fac : ℝ) * L j|

/-- Everything the code computes at one frequency from the Fourier realizations `Q`, the weights `w`, and
    the results `(L0, V0)` of `eig` and `σ` of `argsort`: reported eigenvalues and all modes. -/
noncomputable def spodFreq (Q : Matrix X (Fin nb) ℂ) (L0 : Fin nb → ℂ) (V0 : Matrix (Fin nb) (Fin nb) ℂ)
    (σ : Equiv.Perm (Fin nb)) (fac : Nat) : (Fin nb → ℝ) × Matrix X (Fin nb) ℂ :=
  let L := reorderL (realIfClose L0) σ
  let V := reorderV V0 σ
  (eigsOut L fac, phiAll Q L V)

/-- base.py:510-512: `xi2_upper`, `xi2_lower` from `scipy.special.gammaincinv`. -/
def xi2 (ginv : Nat → ℝ → ℝ) (nb : Nat) (c : ℝ) : ℝ × ℝ := (2 * ginv nb (1 - c), 2 * ginv nb c)

/-- standard.py:362-365 and base.py:693-694: `(eigs_c_l, eigs_c_u)` as stored in `eigs_freq.npz`:
    `eigs_c_u = eigs_c[:,:,0] = eigs * 2*n_blocks/xi2_lower`, `eigs_c_l = eigs_c[:,:,1] = eigs * 2*n_blocks/xi2_upper`. -/
noncomputable def confBounds (ginv : Nat → ℝ → ℝ) (nb : Nat) (c : ℝ) (eig : ℝ) : ℝ × ℝ :=
  let (up, lo) := xi2 ginv nb c
  let facLower := 2 * nb / lo
  let facUpper := 2 * nb / up
  (eig * facUpper, eig * facLower)

end Verif.Spod
