import Verif.Model.Fit
import Verif.Model.PodFit
/-
  Which numbers of the mode files are finite.  The other models divide in a field, where `1/0 = 0`; numpy's division by zero gives an infinity, the square root
  of a negative number `nan`, and both spread through products and sums.  Here `none` stands for a number that is not finite (`inf` or `nan` in the real or
  imaginary part).  Exact arithmetic otherwise: rounding may turn a zero eigenvalue into a tiny one of either sign.
-/
namespace Verif.Fit
open Verif Verif.Par Verif.Rd Verif.Spod Matrix

/-- standard.py:224-225: `L_diag_inv = 1. / (np.sqrt(n_blocks) * np.sqrt(L))` of one eigenvalue. -/
noncomputable def linv (nb : Nat) (l : ℝ) : Option ℝ :=
  if l ≤ 0 then none else some (1 / (Real.sqrt nb * Real.sqrt l))

/-- One entry of a matrix product of numbers some of which may not be finite: a sum with such a term is not finite. -/
noncomputable def sumFinite (l : List (Option ℂ)) : Option ℂ := (l.mapM id).map List.sum

/-- standard.py:231 `np.matmul(Q_hats[f], V[f,...] * L_diag_inv[f,None,:])`: every entry of a column of `V` is multiplied with `L_diag_inv`; a number that
    is not finite times any number is not finite. -/
noncomputable def phiFloat {X : Type} {nb : Nat} (Q : Matrix X (Fin nb) ℂ) (L : Fin nb → ℝ) (V : Matrix (Fin nb) (Fin nb) ℂ) (x : X) (k : Fin nb) :
    Option ℂ :=
  sumFinite ((List.finRange nb).map fun b => (linv nb (L k)).map fun l => Q x b * (V b k * ((l : ℝ) : ℂ)))

/-- standard.py:232-245: the rank's array with `n_modes_save` columns, see `phiArr`. -/
def phiFloatArr {nb : Nat} (sh : List Nat) (nSave : Nat) (phi : Fin (size sh) → Fin nb → Option ℂ) : Arr (Option ℂ) where
  shape := sh ++ [min nSave nb]
  at' := fun idx => if h : ravel sh idx.dropLast < size sh ∧ idx.getLastD 0 < nb then phi ⟨_, h.1⟩ ⟨_, h.2⟩ else none

/-- standard.py:190-246 on all ranks: the files `modes/freq_idx_{f}.npy` with the numbers that are not finite.  Same steps as `fitRanks` and `fit`. -/
noncomputable def fitFloat (c : Cfg) (ω : ℂ) (nt : Nat) (solver : Solver (fitNb c nt)) (sched : Sched) (ax : Nat)
    (ranks : List (Src × Arr ℝ)) : Option (Nat → NpyFile (Option ℂ)) :=
  match feasible c.nDft (nBlocks nt c.nDft c.nOvlp), parseMean c.meanType with
  | .ok _, .ok _ =>
    match ranks.mapM (rankState c ω nt) with
    | none => none
    | some sts => some fun f =>
      let M : Matrix (Fin (fitNb c nt)) (Fin (fitNb c nt)) ℂ := Matrix.of fun i j => allreduce (sts.map fun st => st.2.1 f i j)
      let (L0, V0, σ) := solver M
      saveAll sched ax (sts.map fun st => phiFloatArr st.2.2.shape c.nSave
        (phiFloat (rowsOf st.2.2.shape (st.1 f)) (reorderL (realIfClose L0) σ) (reorderV V0 σ)))
  | _, _ => none

/-- A parallel fit of array data on `p` ranks, see `fitParallel`. -/
noncomputable def floatParallel (c : Cfg) (ω : ℂ) (files : List (List (Arr ℝ))) (w : Arr ℝ) (solver : Solver (fitNb c files.flatten.length)) (p : Nat)
    (sched : (α : Type) → List (Write α) → List (Write α)) : Option (Nat → NpyFile (Option ℂ)) :=
  match maxAxis files with
  | none => none
  | some ax =>
    match (List.range p).mapM fun r => oneStage files w ax (some (p, r)) with
    | none => none
    | some ranks => fitFloat c ω files.flatten.length solver (some sched) ax ranks

/-- A serial fit of array data, see `fitSerial`. -/
noncomputable def floatSerial (c : Cfg) (ω : ℂ) (files : List (List (Arr ℝ))) (w : Arr ℝ) (solver : Solver (fitNb c files.flatten.length)) :
    Option (Nat → NpyFile (Option ℂ)) :=
  match maxAxis files with
  | none => none
  | some ax =>
    match oneStage files w ax none with
    | none => none
    | some r => fitFloat c ω files.flatten.length solver none ax [r]

end Verif.Fit

namespace Verif.PodFit
open Verif Verif.Par

/-- pod/standard.py:58-68: `modes.npy` of a POD fit that keeps `n` modes, with the numbers that are not finite: column `j` is divided by the square root of
    `w[j]`, and any number divided by zero is not finite.  Simplification: derived from the stored eigenvalues and the file of the exact model, as setting the
    shape and saving only move numbers. -/
noncomputable def floatModes (o : Out) (n : Nat) : NpyFile (Option ℂ) where
  shape := o.modes.shape
  data := fun i => (o.modes.data i).map fun v => if o.eigs.getD (i % n) 0 = 0 then none else some v

end Verif.PodFit
