import Verif.Model.Project
import Verif.Model.Pod
import Mathlib.Analysis.SpecialFunctions.Pow.Real
/-
  The whole of the POD workflow on all ranks together: `Standard.fit` (/repo/pyspod/pod/standard.py:30-74 with
  pod/base.py:210-347), `compute_coeffs_op` (pod/utils.py:17-129) and `compute_reconstruction` (pod/utils.py:132-225), from the arrays to
  the files.  Simplifications: exact arithmetic; real data (complex data lose their imaginary part on loading, C79);
  `normalize_weights` off (see Model/PodNorm.lean); folder names and prints left out.
-/
namespace Verif.PodFit
open Verif Verif.Par Verif.Fit Verif.Proj Matrix

/-- The parameters that matter (pod/base.py:33-46). -/
structure Cfg where
  xdim : Nat
  nv : Nat
  meanType : String
  nSave : Pod.NModes

/-- pod/base.py:338-344: comparison after `.lower()`; `none` = ValueError -/
def podMean (s : String) : Option Pod.MeanKind :=
  if Spod.lower s = "longtime" then some .longtime
  else if Spod.lower s = "zero" then some .zero
  else none

/-- `scipy.linalg.eig` (pod/standard.py:52) as a function of the reduced matrix: eigenvalues and eigenvectors, of complex type. -/
abbrev Solver := (nt : Nat) → Matrix (Fin nt) (Fin nt) ℝ → (Fin nt → ℂ) × Matrix (Fin nt) (Fin nt) ℂ

/-- What a rank has before the reduction. -/
structure Local where
  /-- number of values of a snapshot -/
  n : Nat
  /-- the data without the mean: snapshot, value (pod/standard.py:45-46) -/
  data : Nat → Nat → ℝ
  /-- flattened weights (pod/base.py:289) -/
  w : Nat → ℝ
  /-- the axis whose extent is given as -1 when the shape is set: the distributed one, if there is a communicator -/
  infer : Option Nat

/-- pod/base.py:245-289, pod/standard.py:44-46 on one rank; `none`: the weights do not fit the rank's slab. -/
noncomputable def rankData (mk : Pod.MeanKind) (w : Arr ℝ) (files : List (List (Arr ℝ))) (ax : Nat) (comm : Comm) : Option Local :=
  let buf := Pod.load (fun a => distributeDimension a ax comm) ⟨[], fun _ => 0⟩ files
  -- pod/base.py:264-265: the variable axis
  let d := buf.map fun a => (⟨a.shape ++ [1], fun idx => a.at' idx.dropLast⟩ : Arr ℝ)
  let wl := distributeDimension w ax comm
  let n := size (d.headD ⟨[], fun _ => 0⟩).shape
  let mean : Nat → ℝ := fun i => match mk with
    | .longtime => Spod.longTMeanArr ℝ 2 (d.map fun a => flat a i)
    | .zero => 0
  if (comm = none ∨ ax < w.shape.length) ∧ size wl.shape = n then
    some { n := n
           data := fun t i => (d.map fun a => flat a i).getD t 0 - mean i
           w := flat wl
           infer := comm.map fun _ => ax }
  else none

/-- pod/standard.py:50-51 `d.conj().T @ (d * self._weights)` after the reduction -/
def corrAll (nt : Nat) (rs : List Local) : Matrix (Fin nt) (Fin nt) ℝ :=
  Matrix.of fun t t' => allreduce (rs.map fun r => ∑ x ∈ Finset.range r.n, r.data t x * (r.data t' x * r.w x))

/-- pod/standard.py:58, 61 `(np.real(d @ v) / np.sqrt(w[:]))[:, 0:n]` of a rank, shape `[N, min n nt]` -/
noncomputable def phiLocal (nt : Nat) (lv : (Fin nt → ℂ) × Matrix (Fin nt) (Fin nt) ℂ) (n : Nat) (r : Local) : Arr ℂ where
  shape := [r.n, min n nt]
  at' := fun idx => if h : idx.getD 1 0 < nt then
    ((∑ t : Fin nt, (r.data t (idx.getD 0 0) : ℂ) * lv.2 t ⟨_, h⟩).re : ℂ) / lv.1 ⟨_, h⟩ ^ (1 / 2 : ℂ) else 0

/-- pod/base.py:289: the flattened weights of a rank, shape `[N, 1]` -/
def wLocal (r : Local) : Arr ℝ where
  shape := [r.n, 1]
  at' := fun idx => r.w (idx.getD 0 0)

/-- The results folder (pod/standard.py:62-68, pod/base.py:405-432). -/
structure Out where
  /-- `eigs.npz` -/
  eigs : List ℂ
  /-- `modes.npy` -/
  modes : NpyFile ℂ
  /-- `weights.npy` -/
  weights : NpyFile ℝ

/-- pod/standard.py:48-74 with pod/base.py:405-432: the fit from the ranks' data on.  `none` = an exception on some rank. -/
noncomputable def finish (solver : Solver) (sched : Sched) (nt ax n : Nat) (dims : List Nat) (rs : List Local) : Option Out :=
  let lv := solver nt (corrAll nt rs)
  -- pod/standard.py:63-65, pod/base.py:413-416: `phi_r.shape = shape`, `self._weights.shape = shape`
  match rs.mapM (fun r => setShape (phiLocal nt lv n r) (dims ++ [1] ++ [n]) r.infer),
      rs.mapM (fun r => setShape (wLocal r) (dims ++ [1]) r.infer) with
  | some phis, some ws =>
    some { eigs := List.ofFn lv.1, modes := saveAll sched ax phis, weights := saveAll sched ax ws }
  | _, _ => none

/-- pod/standard.py:44-74 with pod/base.py:244-310: the fit after the checks of the shapes.  `none` = an exception on some rank. -/
noncomputable def fitWith (solver : Solver) (files : List (List (Arr ℝ))) (comms : List Comm) (sched : Sched)
    (nt ax n : Nat) (mk : Pod.MeanKind) (dims : List Nat) (w : Arr ℝ) : Option Out :=
  match comms.mapM (rankData mk w files ax) with
  | none => none
  | some rs => finish solver sched nt ax n dims rs

/-- `Standard.fit` (pod/standard.py:30-74) on the ranks `comms`; `weights` is `none` for the default uniform weights.
    Every dataset is the list of its snapshots; `none` = an exception on some rank. -/
noncomputable def podFit (c : Cfg) (weights : Option (Arr ℝ)) (solver : Solver) (files : List (List (Arr ℝ)))
    (comms : List Comm) (sched : Sched) : Option Out :=
  -- pod/base.py:216-237 (`d[0,...]` of an empty dataset raises)
  match files.mapM (fun l => l.head?.map fun a => (l.length, a.shape)) with
  | none => none
  | some ds =>
    let dims := (ds.headD (0, [])).2
    match Pod.initShapes c.nv c.xdim ds, argmax dims, podMean c.meanType, c.nSave with
    | some nt, some ax, some mk, .int n =>
      -- pod/base.py:316-334
      let w := weights.getD ⟨dims ++ [c.nv], fun _ => 1⟩
      if size w.shape = size dims * c.nv then fitWith solver files comms sched nt ax n mk dims w else none
    | _, _, _, _ => none

/-! ### Projection and reconstruction -/

/-- What `compute_coeffs_op` reads (pod/utils.py:35-48). -/
structure Stored where
  xdim : Nat
  nv : Nat
  weights : NpyFile ℝ
  modes : NpyFile ℂ

/-- the folder of a fit as it is read -/
def storedOf (c : Cfg) (o : Out) : Stored := ⟨c.xdim, c.nv, o.weights, o.modes⟩

/-- `phir.shape[-1]` (pod/utils.py:49) -/
def Stored.nModes (S : Stored) : Nat := S.modes.shape.getLastD 0

/-- pod/utils.py:57-79 on one rank; `none`: a reshape that does not fit. -/
noncomputable def rankPart (S : Stored) (frames : List (Arr ℝ)) (ax : Nat) (comm : Comm) : Option Part :=
  let d0 := frames.map fun a => distributeDimension a ax comm
  let n := size (d0.headD ⟨[], fun _ => 0⟩).shape
  let w := distributeDimension (openMemmap S.weights) ax comm
  let phi := distributeDimension (openMemmap S.modes) ax comm
  let d := d0.map (withAxis S.xdim S.nv)
  let mean : Nat → ℝ := fun i => (d.map fun a => flat a i).sum / (frames.length : ℝ)
  if size phi.shape = n * S.nModes ∧ size w.shape = n then
    some { sh := (d.headD ⟨[], fun _ => 0⟩).shape
           xsize := n
           w := flat w
           mean := mean
           data := fun t i => (d.map fun a => flat a i).getD t 0 - mean i
           phir := (List.range S.nModes).map fun (m : Nat) (i : Nat) => flat phi (i * S.nModes + m) }
  else none

/-- pod/utils.py:84-85 `np.transpose(phir) @ np.transpose(data)` after the reduction (no conjugate, no weights) -/
noncomputable def coefAll (k nt : Nat) (rs : List Part) : Matrix (Fin k) (Fin nt) ℂ :=
  Matrix.of fun i t => allreduce (rs.map fun r => ∑ x ∈ Finset.range r.xsize,
    r.phir.getD i (fun _ => 0) x * (r.data t x : ℂ))

/-- `compute_coeffs_op` (pod/utils.py:17-129) on the ranks `comms`: the coefficients folder; `none` = an exception.  The argument
    `modes_idx` is only written into the parameter file (line 120). -/
noncomputable def podProject (S : Stored) (_modesIdx : Option (List Nat)) (frames : List (Arr ℝ)) (comms : List Comm)
    (sched : Sched) : Option Folder :=
  match frames with
  | [] => none
  | a :: _ =>
    match argmax a.shape with
    | none => none
    | some ax =>
      match comms.mapM (rankPart S frames ax) with
      | none => none
      | some rs => some
          { coeffs := npSave (matArr (coefAll S.nModes frames.length rs))
            modesR := saveAll sched ax (rs.map (phirArr S.nModes))
            ltm := saveAll sched ax (rs.map fun (r : Part) => ⟨r.sh, fun idx => r.mean (ravel r.sh idx)⟩)
            maxAxis := ax }

/-- `compute_reconstruction` (pod/utils.py:132-225): the same steps as spod/utils.py:441-537 with two-dimensional
    coefficients (other numbers of dimensions are not modelled). -/
noncomputable def podReconstruct (F : Folder) (given : Option (Arr ℂ)) (time : Coef.TimeArg) (comms : List Comm)
    (sched : Sched) : Option (NpyFile ℂ) :=
  if (given.getD (openMemmap F.coeffs)).shape.length = 2 then reconstruct F given time comms sched else none

end Verif.PodFit
