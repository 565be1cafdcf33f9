import Verif.Model.Fit
import Verif.Model.Coeffs
/-
  The whole of `compute_coeffs_op` (/repo/pyspod/spod/utils.py:79-221) and of `compute_reconstruction` (spod/utils.py:441-573) on all
  ranks together: what is read from the results folder, how it is distributed, the oblique projection with its reductions,
  the files written, and the reconstruction computed from these files.
  Simplifications: exact arithmetic; the folder names and prints are left out (see `Model/Names.lean`, `Model/Spmd.lean`);
  `eigs_freq['freq']` is a list of real numbers; the data are an array of `nt` snapshots, given as the list of the snapshots.
-/
namespace Verif.Proj
open Verif Verif.Par Verif.Fit Matrix

/-- `np.lib.format.open_memmap` (spod/utils.py:474-475, 483, 697; utils/postproc.py:163): the array a file holds -/
def openMemmap {α} [Inhabited α] (f : NpyFile α) : Arr α := ⟨f.shape, fun idx => (f.data (ravel f.shape idx)).getD default⟩

/-- What `_get_required_data` and `_get_modes` read from a results folder (spod/utils.py:684-725): entries of
    `params_modes.yaml`, `eigs_freq.npz`, `weights.npy`, the mode file of every frequency (`none`: there is none). -/
structure Stored where
  xdim : Nat
  nv : Nat
  nModes : Nat
  freq : List ℝ
  weights : NpyFile ℝ
  modes : Nat → Option (NpyFile ℂ)

/-- The optional arguments that matter (spod/utils.py:79-81). -/
structure Opts where
  tLb : Option ℝ
  tUb : Option ℝ
  freqIdx : Option (List Nat)
  tol : ℝ
  svd : Bool

/-- `numpy.linalg.svd` / `numpy.linalg.pinv` as a function of the matrix (spod/utils.py:587-600): every rank
    calls it on the same matrix. -/
abbrev Svd := (k : Nat) → Matrix (Fin k) (Fin k) ℂ → Matrix (Fin k) (Fin k) ℂ × (Fin k → ℝ) × Matrix (Fin k) (Fin k) ℂ

/-- spod/utils.py:145-146: `data[..., np.newaxis]` for a single variable given without its axis (`data` has one more axis
    than a snapshot) -/
def withAxis (xdim nv : Nat) (a : Arr ℝ) : Arr ℝ :=
  if nv = 1 ∧ a.shape.length + 1 ≠ xdim + 2 then ⟨a.shape ++ [1], fun idx => a.at' idx.dropLast⟩ else a

/-- `np.reshape(a, [a.size])[i]` (spod/utils.py:151-152) -/
def flat {α} (a : Arr α) (i : Nat) : α := a.at' (unravel a.shape i)

/-- utils/postproc.py:88-121, spod/utils.py:715-720: the modes of one frequency on a rank, reshaped to `[xsize, n_modes]`, as the
    list of their columns; `none`: no file, or a size that does not fit. -/
def modeCols (S : Stored) (ax : Nat) (comm : Comm) (xsize f : Nat) : Option (List (Nat → ℂ)) :=
  match S.modes f with
  | none => none
  | some file =>
    let phi := distributeDimension (openMemmap file) ax comm
    if size phi.shape = xsize * S.nModes then
      some ((List.range S.nModes).map fun (m : Nat) (i : Nat) => flat phi (i * S.nModes + m))
    else none

/-- What a rank has before the reductions (spod/utils.py:138-163). -/
structure Part where
  /-- `xshape_nv` -/
  sh : List Nat
  /-- `xsize` -/
  xsize : Nat
  /-- the weights, flattened -/
  w : Nat → ℝ
  /-- `lt_mean` -/
  mean : Nat → ℝ
  /-- `data - lt_mean`: snapshot, value -/
  data : Nat → Nat → ℝ
  /-- the columns of `phir` -/
  phir : List (Nat → ℂ)

/-- spod/utils.py:138-163 on one rank; `none` = an exception (a reshape that does not fit, a mode file missing, no
    frequency, more frequencies than columns). -/
noncomputable def rankPart (S : Stored) (nFreqR : Nat) (freqIdx : List Nat) (frames : List (Arr ℝ)) (ax : Nat)
    (comm : Comm) : Option Part :=
  let w := distributeDimension (openMemmap S.weights) ax comm
  let d := frames.map fun a => withAxis S.xdim S.nv (distributeDimension a ax comm)
  let xsize := size w.shape
  if (∀ a ∈ d, size a.shape = xsize) ∧ ∀ f ∈ freqIdx, (modeCols S ax comm xsize f).isSome then
    match Coef.getModesMat (fun _ => 0) nFreqR S.nModes (fun f => (modeCols S ax comm xsize f).getD []) freqIdx with
    | none => none
    | some phir =>
      let mean : Nat → ℝ := fun i => (d.map fun a => flat a i).sum / (frames.length : ℝ)
      some { sh := (d.headD ⟨[], fun _ => 0⟩).shape
             xsize := xsize
             w := flat w
             mean := mean
             data := fun t i => (d.map fun a => flat a i).getD t 0 - mean i
             phir := phir }
  else none

/-- spod/utils.py:582, 585: `M` after the reduction -/
noncomputable def mAll (k : Nat) (rs : List Part) : Matrix (Fin k) (Fin k) ℂ :=
  Matrix.of fun i j => allreduce (rs.map fun r => ∑ x ∈ Finset.range r.xsize,
    star (r.phir.getD i (fun _ => 0) x) * ((r.w x : ℂ) * r.phir.getD j (fun _ => 0) x))

/-- spod/utils.py:581, 583, 586: `Q` after the reduction -/
noncomputable def qAll (k nt : Nat) (rs : List Part) : Matrix (Fin k) (Fin nt) ℂ :=
  Matrix.of fun i t => allreduce (rs.map fun r => ∑ x ∈ Finset.range r.xsize,
    star (r.phir.getD i (fun _ => 0) x) * ((r.w x : ℂ) * (r.data t x : ℂ)))

/-- the coefficients as the array that is saved (spod/utils.py:199-200) -/
def matArr {k n : Nat} (A : Matrix (Fin k) (Fin n) ℂ) : Arr ℂ where
  shape := [k, n]
  at' := fun idx => match idx with
    | [i, t] => if h : i < k ∧ t < n then A ⟨i, h.1⟩ ⟨t, h.2⟩ else 0
    | _ => 0

/-- spod/utils.py:181-188: `phir` as `[*xshape_nv, k]` -/
def phirArr (k : Nat) (r : Part) : Arr ℂ where
  shape := r.sh ++ [k]
  at' := fun idx => r.phir.getD (idx.getLastD 0) (fun _ => 0) (ravel r.sh idx.dropLast)

/-- The coefficients folder (spod/utils.py:178-215). -/
structure Folder where
  /-- `coeffs.npy` -/
  coeffs : NpyFile ℂ
  /-- `modes_r.npy` -/
  modesR : NpyFile ℂ
  /-- `ltm.npy` -/
  ltm : NpyFile ℝ
  /-- `max_axis` in `params_coeffs.yaml` -/
  maxAxis : Nat

/-- spod/utils.py:137-203: the projection on the columns of `nFreqR` frequencies, those of the list `freqIdx`. -/
noncomputable def projectBand (S : Stored) (o : Opts) (svd : Svd) (frames : List (Arr ℝ)) (comms : List Comm)
    (sched : Sched) (nFreqR : Nat) (freqIdx : List Nat) : Option Folder :=
  match frames with
  | [] => none
  | a :: _ =>
    match argmax a.shape with
    | none => none
    | some ax =>
      match comms.mapM (rankPart S nFreqR freqIdx frames ax) with
      | none => none
      | some rs =>
        -- spod/utils.py:591: `np.max` of no singular values raises
        if o.svd = true ∧ nFreqR * S.nModes = 0 then none else
        let s := svd (nFreqR * S.nModes) (mAll (nFreqR * S.nModes) rs)
        some { coeffs := npSave (matArr (Coef.mInv o.tol s.1 s.2.1 s.2.2 * qAll (nFreqR * S.nModes) frames.length rs))
               modesR := saveAll sched ax (rs.map (phirArr (nFreqR * S.nModes)))
               ltm := saveAll sched ax (rs.map fun (r : Part) => ⟨r.sh, fun idx => r.mean (ravel r.sh idx)⟩)
               maxAxis := ax }

/-- `compute_coeffs_op` (spod/utils.py:79-221) on the ranks `comms` (one process: `[none]`); `none` = an exception on
    some rank. -/
noncomputable def project (S : Stored) (o : Opts) (svd : Svd) (frames : List (Arr ℝ)) (comms : List Comm)
    (sched : Sched) : Option Folder :=
  match Coef.selectBand S.freq o.tLb o.tUb o.freqIdx with
  | .error _ => none
  | .ok b =>
    -- spod/utils.py:134-135: a negative number of coefficients raises
    if b.nFreqR * S.nModes < 0 then none
    else projectBand S o svd frames comms sched b.nFreqR.toNat b.freqIdx

/-- base.py:661-700 together with standard.py:231-252: what a fit with the configuration `c` leaves in its results folder, as
    `compute_coeffs_op` reads it.  `xdim`, `nv`, `dt` are `n_space_dims`, `n_variables`, `time_step` of the parameters;
    `n_modes_save` is capped by the number of blocks (base.py:500-501). -/
noncomputable def storedOf {nb : Nat} (c : Cfg) (xdim nv : Nat) (dt : ℝ) (out : Out nb) : Stored where
  xdim := xdim
  nv := nv
  nModes := min c.nSave nb
  freq := Spod.freqAxis c.nDft dt c.isreal c.full
  weights := out.weights
  modes := fun f => if f < Spod.nFreq c.nDft c.isreal c.full then some (out.modes f) else none

/-! ### Reconstruction -/

/-- numpy indexing with a possibly negative index (`coeffs[:, time_idx]`, spod/utils.py:543, 565) -/
def wrap (nt : Nat) (t : Int) : Nat := if t < 0 then (t + nt).toNat else t.toNat

/-- The coefficients as the matrix `_compute_rec_op` (spod/utils.py:540-551) and `_compute_rec_conv` (554-573) multiply
    with: number of rows and entries `[k, t]`.  Three dimensions: `(f, t, m)` becomes row `f * n_modes + m`. -/
def coefMat (a : Arr ℂ) : Option (Nat × (Nat → Nat → ℂ)) :=
  match a.shape with
  | [k, _] => some (k, fun i t => a.at' [i, t])
  | [nf, _, nm] => some (nf * nm, fun i t => a.at' [i / nm, t, i % nm])
  | _ => none

/-- spod/utils.py:540-545, 554-566: the modes of a rank (local array) as a matrix with `k` columns, for coefficients with
    `d` dimensions: spatial shape and entries `[x, j]`.  `none`: the shapes do not fit. -/
def modesMat (phi : Arr ℂ) (k d : Nat) : Option (List Nat × (List Nat → Nat → ℂ)) :=
  if d = 2 then
    match phi.shape.getLast? with
    | some k' => if k' = k then some (phi.shape.dropLast, fun x j => phi.at' (x ++ [j])) else none
    | none => none
  else
    let sh := phi.shape.dropLast.dropLast
    -- `phir[...,0,0]` needs two axes with at least one entry each
    if 2 ≤ phi.shape.length ∧ 0 < ext phi.shape (phi.shape.length - 1) ∧ 0 < ext phi.shape (phi.shape.length - 2) ∧
        size phi.shape = size sh * k then
      some (sh, fun x j => phi.at' (unravel phi.shape (ravel sh x * k + j)))
    else none

/-- spod/utils.py:543-550, 567-572 `phir @ coeffs[:, time_idx] + lt_mean[..., None]` on a rank: the long-time mean has
    to have the spatial shape of the modes (numpy would also broadcast other shapes, not modelled: files of one folder
    have the same). -/
noncomputable def recLocal (phi : Arr ℂ) (ltm : Arr ℝ) (d k : Nat) (c : Nat → Nat → ℂ) (times : List Nat) : Option (Arr ℂ) :=
  match modesMat phi k d with
  | none => none
  | some (sh, Φ) =>
    if sh = ltm.shape then
      some ⟨sh ++ [times.length], fun idx =>
        (∑ j ∈ Finset.range k, Φ idx.dropLast j * c j (times.getD (idx.getLastD 0) 0)) + (ltm.at' idx.dropLast : ℂ)⟩
    else none

/-- `Q_rec.shape = shape` (spod/utils.py:526-529): `target` is the wanted shape, `infer` the axis given as -1 (in parallel).
    numpy cannot infer an extent when the other extents multiply to zero. -/
def setShape {α} (q : Arr α) (target : List Nat) (infer : Option Nat) : Option (Arr α) :=
  match infer with
  | none => if size q.shape = size target then some ⟨target, fun idx => q.at' (unravel q.shape (ravel target idx))⟩ else none
  | some ax =>
    let others := size (target.set ax 1)
    if others = 0 ∨ size q.shape % others ≠ 0 then none
    else
      let sh := target.set ax (size q.shape / others)
      some ⟨sh, fun idx => q.at' (unravel q.shape (ravel sh idx))⟩

/-- `np.moveaxis(Q_rec, -1, 0)` (spod/utils.py:530) -/
def moveLastFirst (q : Arr ℂ) : Arr ℂ where
  shape := q.shape.getLastD 0 :: q.shape.dropLast
  at' := fun idx => q.at' (idx.tail ++ [idx.headD 0])

/-- spod/utils.py:506-530 on one rank -/
noncomputable def recRank (F : Folder) (d k : Nat) (c : Nat → Nat → ℂ) (times : List Nat) (comm : Comm) : Option (Arr ℂ) :=
  match recLocal (distributeDimension (openMemmap F.modesR) F.maxAxis comm)
      (distributeDimension (openMemmap F.ltm) F.maxAxis comm) d k c times with
  | none => none
  | some q => (setShape q (F.ltm.shape ++ [times.length]) (comm.map fun _ => F.maxAxis)).map moveLastFirst

/-- `compute_reconstruction` (spod/utils.py:441-537) on the ranks `comms`; `given` are the coefficients passed by the caller, if any.  The file
    written, or `none` for an exception on some rank. -/
noncomputable def reconstruct (F : Folder) (given : Option (Arr ℂ)) (time : Coef.TimeArg) (comms : List Comm)
    (sched : Sched) : Option (NpyFile ℂ) :=
  let a := given.getD (openMemmap F.coeffs)
  let nt := ext a.shape 1
  match Coef.timeIdx nt time, coefMat a with
  | .ok ts, some (k, c) =>
    match comms.mapM (recRank F a.shape.length k c (ts.map (wrap nt))) with
    | none => none
    | some rs => some (saveAll sched (F.maxAxis + 1) rs)
  | _, _ => none

/-- the ranks of a communicator of `p` processes (`comm.rank`, `comm.size`: utils/parallel.py) -/
def ranksOf (p : Nat) : List Comm := (List.range p).map fun r => some (p, r)

end Verif.Proj
