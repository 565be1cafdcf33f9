import Verif.Model.SpodStd
import Verif.Model.Reduce
import Verif.Model.Streaming
/-
  The whole of `Standard.fit` (/repo/pyspod/spod/standard.py:30-151) on all ranks together: reading, blocks, mean,
  window, DFT, weighted cross-spectral matrix with its reduction over ranks, eigen-decomposition, modes, and the
  files written (per-frequency layout, `savefreq_disk`).  It composes the models of the separate steps.
  Not included: reuse of cached blocks (see `Model/Cache.lean`), `savefreq_disk2` (see `Model/Disk2.lean`), prints.
-/
namespace Verif.Fit
open Verif Verif.Par Verif.Rd Verif.Spod Matrix

/-- The settings of a fit that matter for its result (base.py:50-124).  `win` is the window, `eps4` the threshold
    of standard.py:178, `isreal` the reader's answer. -/
structure Cfg where
  nDft : Nat
  nOvlp : Int
  meanType : String
  normalize : Bool
  eps4 : ℝ
  full : Bool
  isreal : Bool
  win : List ℝ
  nSave : Nat

/-- What `self.data` is on one rank: an array (1-stage reader), i.e. the list of the rank's slabs of the
    snapshots, or the dictionary of pieces (2-stage reader). -/
inductive Src where
  | arr (data : List (Arr ℝ))
  | dict (data : List (Piece (Arr ℝ)))

/-- base.py:432-435 -/
def fitNb (c : Cfg) (nt : Nat) : Nat := (nBlocks nt c.nDft c.nOvlp).toNat

/-- time series at a grid point -/
def atIdx (idx : List Nat) (l : List (Arr ℝ)) : List ℝ := l.map fun a => a.at' idx

/-- base.py:589-617: long-time mean of the rank's data, as a function of the grid point. -/
noncomputable def srcMean (nb nt : Nat) : Src → Option (List Nat → ℝ)
  | .arr d => some fun idx => longTMeanArr ℝ nb (atIdx idx d)
  | .dict d =>
    match d.getLast? with
    | none => none
    | some p => if p.2.2.length = 0 then none
      else some fun idx => (longTMeanDict ℝ nt (d.map fun q => (q.1, q.2.1, atIdx idx q.2.2))).getD 0

/-- standard.py:93-98,160-163: offsets of the blocks, in the order they are cut. -/
def offsets (c : Cfg) (nt : Nat) : List Nat :=
  (List.range (fitNb c nt)).map fun (i : Nat) => (offset nt c.nDft c.nOvlp i).toNat

/-- standard.py:163, 367-406: all blocks. -/
def srcBlocks (c : Cfg) (nt : Nat) : Src → Option (List (List (Arr ℝ)))
  | .arr d => some ((offsets c nt).map fun s => getBlockArr d s (s + c.nDft))
  | .dict d => getBlocks ⟨[], fun _ => 0⟩ c.nDft d (offsets c nt)

/-- standard.py:157-188 at one grid point, one block: mean, normalization, window, scaled DFT. -/
noncomputable def hatPoint (c : Cfg) (ω : ℂ) (lt : ℝ) (blk : List ℝ) : List ℂ :=
  match prepareBlocks c.meanType c.normalize c.eps4 c.win lt [blk] with
  | .ok [b] => blockHat ω ((winWeight c.win : ℝ) : ℂ) c.isreal c.full (b.map Complex.ofReal)
  | _ => []

/-- standard.py:91-135: `Q_hats[f]`, column `b`, of a rank whose local spatial shape is `sh`. -/
noncomputable def rankHats (c : Cfg) (ω : ℂ) (nt : Nat) (sh : List Nat) (s : Src) : Option (Nat → Nat → Arr ℂ) :=
  match srcMean (fitNb c nt) nt s, srcBlocks c nt s with
  | some lt, some blocks => some fun f b =>
      { shape := sh, at' := fun idx => (hatPoint c ω (lt idx) (atIdx idx (blocks.getD b []))).getD f 0 }
  | _, _ => none

/-- The eigen-solver and the sorting, as a function of the (reduced) matrix: `la.eig`, `np.argsort(..)[::-1]`
    (standard.py:207-219).  All ranks call it on the same matrix and get the same answer. -/
abbrev Solver (nb : Nat) := Matrix (Fin nb) (Fin nb) ℂ → (Fin nb → ℂ) × Matrix (Fin nb) (Fin nb) ℂ × Equiv.Perm (Fin nb)

/-- `Q_hats[f]` as the matrix with rows in C order. -/
def rowsOf {nb : Nat} (sh : List Nat) (Q : Nat → Arr ℂ) : Matrix (Fin (size sh)) (Fin nb) ℂ :=
  Matrix.of fun k b => (Q b).at' (unravel sh k)

/-- standard.py:224-246: `phi` of a rank, cut to `n_modes_save` columns and reshaped to `[*xshape, nv, n_modes]`. -/
noncomputable def phiArr {nb : Nat} (sh : List Nat) (nSave : Nat) (phi : Matrix (Fin (size sh)) (Fin nb) ℂ) : Arr ℂ where
  shape := sh ++ [min nSave nb]
  at' := fun idx =>
    if h : ravel sh idx.dropLast < size sh ∧ idx.getLastD 0 < nb then phi ⟨_, h.1⟩ ⟨_, h.2⟩ else 0

/-- Everything a fit leaves behind. -/
structure Out (nb : Nat) where
  /-- reported eigenvalues, `eigs` in `eigs_freq.npz` -/
  eigs : Nat → Fin nb → ℝ
  /-- `modes/freq_idx_{f}.npy` -/
  modes : Nat → NpyFile ℂ
  /-- `weights.npy` -/
  weights : NpyFile ℝ
  /-- `ltm_modes.npy` -/
  ltm : NpyFile ℝ

/-- How arrays are saved: `none` is the serial branch `np.save`; `some sched` is the collective write, whose
    element writes happen in the order chosen by `sched` (parallel.py:186-250). -/
abbrev Sched := Option ((α : Type) → List (Write α) → List (Write α))

/-- parallel.py:186-250 `npy_save`. -/
def saveAll {α} [Inhabited α] (sched : Sched) (ax : Nat) (locals : List (Arr α)) : NpyFile α :=
  match sched, locals with
  | none, a :: _ => npSave a
  | none, [] => ⟨[], fun _ => none⟩
  | some s, locals => npySaveFile ax locals (s α (saveWrites ax locals))

/-- standard.py:197-202: what a rank has before the reduction: `Q_hats`, its local matrix for every frequency
    (the product needs matching shapes after `np.squeeze`, `Stream.gramShape`), its long-time mean. -/
noncomputable def rankState (c : Cfg) (ω : ℂ) (nt : Nat) (r : Src × Arr ℝ) :
    Option ((Nat → Nat → Arr ℂ) × (Nat → Nat → Nat → ℂ) × Arr ℝ) :=
  match rankHats c ω nt r.2.shape r.1, srcMean (fitNb c nt) nt r.1 with
  | some Q, some lt =>
    if Stream.gramShape (size r.2.shape) (fitNb c nt) = some [fitNb c nt, fitNb c nt] then
      some (Q, fun f => localGram (Q f) ⟨r.2.shape, fun idx => ((r.2.at' idx : ℝ) : ℂ)⟩ ((fitNb c nt : ℕ) : ℂ),
        ⟨r.2.shape, lt⟩)
    else none
  | _, _ => none

/-- `Standard.fit` on all ranks up to the modes: reported eigenvalues, the modes of every rank (one array per rank) for
    every frequency, the long-time mean of every rank.  `ranks` lists each rank's data and its slab of the weights.
    `none`: some exception (rejected parameters, unknown mean type, a rank with a single value, an unreadable
    dictionary). -/
noncomputable def fitRanks (c : Cfg) (ω : ℂ) (nt : Nat) (solver : Solver (fitNb c nt)) (ranks : List (Src × Arr ℝ)) :
    Option ((Nat → Fin (fitNb c nt) → ℝ) × (Nat → List (Arr ℂ)) × List (Arr ℝ)) :=
  match feasible c.nDft (nBlocks nt c.nDft c.nOvlp), parseMean c.meanType with
  | .ok _, .ok _ =>
    match ranks.mapM (rankState c ω nt) with
    | none => none
    | some sts =>
      -- standard.py:205 `allreduce`
      let M : Nat → Matrix (Fin (fitNb c nt)) (Fin (fitNb c nt)) ℂ := fun f =>
        Matrix.of fun i j => allreduce (sts.map fun st => st.2.1 f i j)
      let fac := oneSidedFactor c.isreal (nFreq c.nDft c.isreal c.full)
      let res : Nat → Fin (fitNb c nt) → ℝ := fun f =>
        let (L0, _, σ) := solver (M f)
        eigsOut (reorderL (realIfClose L0) σ) (fac f)
      let phis : Nat → List (Arr ℂ) := fun f =>
        let (L0, V0, σ) := solver (M f)
        sts.map fun st => phiArr st.2.2.shape c.nSave
          (spodFreq (rowsOf st.2.2.shape (st.1 f)) L0 V0 σ (fac f)).2
      some (res, phis, sts.map (·.2.2))
  | _, _ => none

/-- `Standard.fit` on all ranks with the per-frequency files (`savefreq_disk`); `ax` is the distributed axis. -/
noncomputable def fit (c : Cfg) (ω : ℂ) (nt : Nat) (solver : Solver (fitNb c nt)) (sched : Sched) (ax : Nat)
    (ranks : List (Src × Arr ℝ)) : Option (Out (fitNb c nt)) :=
  match fitRanks c ω nt solver ranks with
  | none => none
  | some (res, phis, lts) =>
      some { eigs := res
             modes := fun f => saveAll sched ax (phis f)
             weights := saveAll sched ax (ranks.map (·.2))
             ltm := saveAll sched ax lts }

/-- base.py:445-455, 402: what each of `p` ranks (or the single process) starts from: its slab of every snapshot
    and of the weights.  `none` = the reader raised. -/
def oneStage (files : List (List (Arr ℝ))) (w : Arr ℝ) (ax : Nat) (comm : Comm) : Option (Src × Arr ℝ) :=
  match getData1 ⟨[], fun _ => 0⟩ (files.map (·.map fun a => distributeDimension a ax comm)) none with
  | some (some d) => some (.arr d, distributeDimension w ax comm)
  | _ => none

/-- `reader.max_axis` (reader.py:61): first largest axis of the first snapshot. -/
def maxAxis (files : List (List (Arr ℝ))) : Option Nat :=
  match files.flatten with
  | a :: _ => argmax a.shape
  | [] => none

/-- A parallel fit of array data on `p` ranks. -/
noncomputable def fitParallel (c : Cfg) (ω : ℂ) (files : List (List (Arr ℝ))) (w : Arr ℝ)
    (solver : Solver (fitNb c files.flatten.length)) (p : Nat)
    (sched : (α : Type) → List (Write α) → List (Write α)) : Option (Out (fitNb c files.flatten.length)) :=
  match maxAxis files with
  | none => none
  | some ax =>
    match (List.range p).mapM fun r => oneStage files w ax (some (p, r)) with
    | none => none
    | some ranks => fit c ω files.flatten.length solver (some sched) ax ranks

/-- A serial fit of array data (`comm=None`). -/
noncomputable def fitSerial (c : Cfg) (ω : ℂ) (files : List (List (Arr ℝ))) (w : Arr ℝ)
    (solver : Solver (fitNb c files.flatten.length)) : Option (Out (fitNb c files.flatten.length)) :=
  match maxAxis files with
  | none => none
  | some ax =>
    match oneStage files w ax none with
    | none => none
    | some r => fit c ω files.flatten.length solver none ax [r]

/-- entry `[x, v]` of row `t` of the buffer of a rank holding `n` points and `nv` variables -/
def bufEntry (buf : Arr (Option ℝ)) (n nv t : Nat) : List Nat → ℝ
  | [x, v] => if x < n ∧ v < nv then (buf.at' [t, x, v]).getD 0 else 0
  | _ => 0

/-- reader.py:236-330 `get_data_for_time(ts, te)` of the two-stage reader on rank `r` of `p`, as a list of the rank's
    slabs `[n_r, nv]` of the snapshots.  `arrive` is the order in which the elements of the messages arrive.  A rank
    whose reading raises contributes nothing (the pieces then are too short and the fit raises). -/
def twoStageGet (names : List String) (content : String → NcFile (Arr ℝ)) (nreaders nx nv p r : Nat)
    (arrive : Nat → Nat → List (Write ℝ) → List (Write ℝ)) (ts te : Nat) : List (Arr ℝ) :=
  let inputs := fun q => (inputData2 ⟨[nx, nv], fun _ => 0⟩ names content nreaders ts te q).getD []
  let n := (blockdist nx p r).1
  let buf := recvBuffer [te - ts, n, nv]
    (arrive ts te (saveWrites 0 ((List.range p).map fun q => message nx p (stack nx nv (inputs q)) r)))
  (List.range (te - ts)).map fun t => ⟨[n, nv], bufEntry buf n nv t⟩

/-- number of snapshots in all files (reader.py:199-212) -/
def ncNt (names : List String) (content : String → NcFile (Arr ℝ)) : Nat :=
  (names.map fun f => (content f).snaps).flatten.length

/-- A fit of NetCDF files on `p` ranks (flattened data, split along space: axis 0 of `[nx, nv]`); the dictionary has
    `nchunks * nblks` pieces (reader.py:376-414). -/
noncomputable def fitTwoStage (c : Cfg) (ω : ℂ) (names : List String) (content : String → NcFile (Arr ℝ))
    (nx nv nreaders nchunks nblks : Nat) (w : Arr ℝ) (solver : Solver (fitNb c (ncNt names content))) (p : Nat)
    (arrive : Nat → Nat → Nat → List (Write ℝ) → List (Write ℝ))
    (sched : (α : Type) → List (Write α) → List (Write α)) : Option (Out (fitNb c (ncNt names content))) :=
  fit c ω (ncNt names content) solver (some sched) 0 ((List.range p).map fun r =>
    (.dict (dictPieces (twoStageGet names content nreaders nx nv p r (arrive r)) (ncNt names content) nchunks nblks),
      distributeDimension w 0 (some (p, r))))

end Verif.Fit
