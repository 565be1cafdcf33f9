import Verif.Model.Fit
import Verif.Model.StreamFit
/-
  Fits with `normalize_weights`: `apply_normalization` (/repo/pyspod/utils/weights.py:100-144) inside `_initialize` (/repo/pyspod/spod/base.py:473-478), on
  all ranks together.  `none` stands for an exception and for weights that are not finite numbers (`inf`, `nan`), with which no fit gives a finite result.
-/
namespace Verif.Fit
open Verif Verif.Par Verif.Rd Verif.Spod

/-- weights.py:124, 138 `data[...,i]`: the values of variable `i` in an array of snapshots; `none`: the last axis is too short (IndexError). -/
def varValues (i : Nat) (d : List (Arr ℝ)) : Option (List (FV ℝ)) :=
  if ∀ a ∈ d, i < a.shape.getLastD 0 then
    some (d.map fun a => (List.range (size a.shape.dropLast)).map fun (k : Nat) => some (a.at' (unravel a.shape.dropLast k ++ [i]))).flatten
  else none

/-- weights.py:125, 139: the weights divided by the variances `v i`.  The loop ends with `i = n_vars - 1`: entries beyond that stay as they are. -/
noncomputable def scaleVars (nv : Nat) (v : Nat → FV ℝ) (w : Arr ℝ) : Option (Arr ℝ) :=
  if nv ≤ w.shape.getLastD 0 ∧ ∀ i < nv, ∃ x, v i = some x ∧ x ≠ 0 then
    some ⟨w.shape, fun idx => if idx.getLastD 0 < nv then w.at' idx / ((v (idx.getLastD 0)).getD 0) else w.at' idx⟩
  else none

/-- weights.py:116-125: all ranks; `tree` arranges the ranks' contributions in the order in which the reduction combines them. -/
noncomputable def normRanks (nv : Nat) (tree : List (List (FV ℝ)) → RTree (List (FV ℝ))) (ranks : List (List (Arr ℝ) × Arr ℝ)) : Option (List (Arr ℝ)) :=
  match (List.range nv).mapM fun i => (ranks.map (·.1)).mapM (varValues i) with
  | none => none
  | some vals => (ranks.map (·.2)).mapM (scaleVars nv fun i => (pvar (tree (vals.getD i []))).2.2)

/-- weights.py:131-139: without a communicator. -/
noncomputable def normAlone (nv : Nat) (d : List (Arr ℝ)) (w : Arr ℝ) : Option (Arr ℝ) :=
  match (List.range nv).mapM fun i => varValues i d with
  | none => none
  | some vals => scaleVars nv (fun i => nanvar (vals.getD i [])) w

/-- base.py:445-478: data and weights of a process; the arrays of the 1-stage reader. -/
def ownArrays (files : List (List (Arr ℝ))) (w : Arr ℝ) (ax : Nat) (comm : Comm) : Option (List (Arr ℝ) × Arr ℝ) :=
  match oneStage files w ax comm with
  | some (.arr d, w) => some (d, w)
  | _ => none

/-- A parallel fit of array data on `p` ranks with `normalize_weights`; `nv` is the parameter `n_variables`. -/
noncomputable def fitParallelNorm (c : Cfg) (ω : ℂ) (nv : Nat) (tree : List (List (FV ℝ)) → RTree (List (FV ℝ))) (files : List (List (Arr ℝ))) (w : Arr ℝ)
    (solver : Solver (fitNb c files.flatten.length)) (p : Nat) (sched : (α : Type) → List (Write α) → List (Write α)) :
    Option (Out (fitNb c files.flatten.length)) :=
  match maxAxis files with
  | none => none
  | some ax =>
    match (List.range p).mapM fun r => ownArrays files w ax (some (p, r)) with
    | none => none
    | some ranks =>
      match normRanks nv tree ranks with
      | none => none
      | some ws => fit c ω files.flatten.length solver (some sched) ax ((ranks.zip ws).map fun q => (.arr q.1.1, q.2))

/-- A serial fit of array data with `normalize_weights`. -/
noncomputable def fitSerialNorm (c : Cfg) (ω : ℂ) (nv : Nat) (files : List (List (Arr ℝ))) (w : Arr ℝ) (solver : Solver (fitNb c files.flatten.length)) :
    Option (Out (fitNb c files.flatten.length)) :=
  match maxAxis files with
  | none => none
  | some ax =>
    match ownArrays files w ax none with
    | none => none
    | some r =>
      match normAlone nv r.1 r.2 with
      | none => none
      | some w' => fit c ω files.flatten.length solver none ax [(.arr r.1, w')]

/-- weights.py:122, 136 with a dictionary of pieces (2-stage readers, reader.py:376-414): `data[...,0]` of a dictionary raises. -/
noncomputable def normSrc (nv : Nat) (w : Arr ℝ) : Src → Option (Arr ℝ)
  | .arr d => normAlone nv d w
  | .dict _ => none

end Verif.Fit

namespace Verif.SFit
open Verif Verif.Par Verif.Rd Verif.Fit

/-- base.py:448-449, 473-478 with `streaming=True` on one process: `self.data` is the first snapshot only, and the weights are divided by its variances.
    Rest of the fit: `streamSerial`. -/
noncomputable def streamSerialNorm (c : Cfg) (ω : ℂ) (nv : Nat) (frames : List (Arr ℝ)) (w : Arr ℝ) (svd : Svd (kept c frames.length)) :=
  match normAlone nv (frames.take 1) w with
  | none => none
  | some w' => streamSerial c ω frames w' svd

end Verif.SFit
