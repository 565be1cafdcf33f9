import Verif.Model.Fit
import Verif.Model.Disk2
/-
  `Standard.fit` of NetCDF and MATLAB files: construction of the readers (/repo/pyspod/utils/reader.py:166-234,
  473-530), reading in chunks (236-414, 533-712), the exchange of messages, and the output of flattened data
  (`savefreq_disk2`, /repo/pyspod/spod/standard.py:257-350, base.py:677-686), composed with the model of the fit.
-/
namespace Verif.Fit
open Verif Verif.Par Verif.Rd Verif.Spod

/-- numpy `reshape` (C order). -/
def reshapeTo {α} (sh : List Nat) (a : Arr α) : Arr α := ⟨sh, fun idx => a.at' (unravel a.shape (ravel sh idx))⟩

/-! ### Number of chunks and the limit of MPI before version 4 -/

/-- reader.py:220-224: `int(nt*size_per_ts/comm.size/256)` with `size_per_ts` in MB, at least one.  `item` is the
    item size of the data type in bytes. -/
def nChunks (nt nx nv item p : Nat) : Nat := max (nt * (nx * nv * item) / (p * 2 ^ 28)) 1

/-- reader.py:515-521: additionally at most `ceil(nt/comm.size)`. -/
def nChunksMat (nt nx nv item p : Nat) : Nat := min (nChunks nt nx nv item p) ((nt + p - 1) / p)

/-- reader.py:293-296, 586-589: `use_padding` for an interval of `n` snapshots. -/
def usePadding (mpi4 : Bool) (n nreaders nx nv p : Nat) : Bool :=
  !(mpi4 || decide ((blockdist n nreaders 0).1 * p * (blockdist nx p 0).1 * nv < 2147483647))

/-- reader.py:336-374, 627-665: the branch with padding executes `t_waitall += …` although `t_waitall` has no value
    (`UnboundLocalError`), on every rank, after the data were exchanged.  `true` = the interval is read. -/
def readable (mpi4 : Bool) (n nreaders nx nv p : Nat) : Bool := !usePadding mpi4 n nreaders nx nv p

/-- reader.py:384-389: all chunks can be read. -/
def chunksReadable (mpi4 : Bool) (nt nc nx nv p : Nat) : Bool :=
  (List.range nc).all fun k => readable mpi4 (blockdist nt nc k).1 p nx nv p

/-! ### Redistribution, for any source of the snapshots -/

/-- reader.py:306-330, 602-626: `inputs ts te q` are the snapshots rank `q` has read. -/
def redistGet (inputs : Nat → Nat → Nat → List (Arr ℝ)) (nx nv p r : Nat)
    (arrive : Nat → Nat → List (Write ℝ) → List (Write ℝ)) (ts te : Nat) : List (Arr ℝ) :=
  let n := (blockdist nx p r).1
  let buf := recvBuffer [te - ts, n, nv]
    (arrive ts te (saveWrites 0 ((List.range p).map fun q => message nx p (stack nx nv (inputs ts te q)) r)))
  (List.range (te - ts)).map fun t => ⟨[n, nv], bufEntry buf n nv t⟩

/-! ### Output of flattened data -/

/-- everything a fit of flattened data with `savefreq_disk2` leaves behind -/
structure OutFlat (nb : Nat) where
  eigs : Nat → Fin nb → ℝ
  /-- `modes/freq_idx_f{f}_m{m}.npy`; `none` = not written -/
  modes : Nat → Nat → Option (NpyFile ℂ)
  weights : NpyFile ℝ
  ltm : NpyFile ℝ

/-- standard.py:272-278: `phi[:,m]` of a rank, in C order -/
def colOf (m : Nat) (a : Arr ℂ) : List ℂ :=
  (List.range (size a.shape.dropLast)).map fun (k : Nat) => a.at' (unravel a.shape.dropLast k ++ [m])

/-- standard.py:344 `reshape(self._xshape+(self._nv,))` and `np.save`; `none` = ValueError -/
def saveReshaped (sh : List Nat) (l : List ℂ) : Option (NpyFile ℂ) :=
  if l.length = size sh then some ⟨sh, fun k => l[k]?⟩ else none

/-- standard.py:257-350 with base.py:677-686: the files of a fit of flattened data.  Which files are written comes
    from the program of the ranks (`Disk2.prog`), their content from the messages (`Disk2.fileContent`). -/
noncomputable def fitFlat (c : Cfg) (ω : ℂ) (nt : Nat) (solver : Solver (fitNb c nt))
    (sched : (α : Type) → List (Write α) → List (Write α)) (xs : List Nat) (nv : Nat) (ranks : List (Src × Arr ℝ)) :
    Option (OutFlat (fitNb c nt)) :=
  match fitRanks c ω nt solver ranks with
  | none => none
  | some (res, phis, lts) =>
    let P := ranks.length
    let nf := nFreq c.nDft c.isreal c.full
    let ns := min c.nSave (fitNb c nt)
    some { eigs := res
           modes := fun f m =>
             if (f, m) ∈ (List.range P).flatMap fun r => Disk2.saves (Disk2.prog P nf ns r) then
               (Disk2.fileContent 0 ((phis f).map (colOf m))).bind (saveReshaped (xs ++ [nv]))
             else none
           weights := saveAll (some sched) 0 (ranks.map (·.2))
           ltm := saveAll (some sched) 0 lts }

/-! ### NetCDF files -/

/-- reader.py:258, 276-279: a snapshot of the file, one array per requested variable, written into columns of
    `input_data`; columns without a variable keep their zeros. -/
def ncSnap (xs : List Nat) (nv : Nat) (vars : List (Arr ℝ)) : Arr ℝ :=
  ⟨[size xs, nv], fun idx => match vars[idx.getD 1 0]? with
    | some a => a.at' (unravel xs (idx.getD 0 0))
    | none => 0⟩

/-- content of the files as the reader sees it -/
def ncContent (xs : List Nat) (nv : Nat) (raw : String → NcFile (List (Arr ℝ))) : String → NcFile (Arr ℝ) :=
  fun f => ⟨(raw f).labels, (raw f).snaps.map (ncSnap xs nv)⟩

/-- number of snapshots (reader.py:199-212) -/
def rawNt (names : List String) (raw : String → NcFile (List (Arr ℝ))) : Nat :=
  (names.map fun f => (raw f).snaps).flatten.length

/-- A fit of NetCDF files on `p` ranks: reader.py:219 (at least 9 snapshots), the chunks, three pieces per chunk,
    `nvars` requested variables (reader.py:276-278: more variables than `n_variables` raise IndexError), weights
    already accepted by base.py:554-572.  `nw` is `normalize_weights`: `data[...,0]` of a dictionary raises
    (base.py:474-481, weights.py:122). -/
noncomputable def fitNetcdf (c : Cfg) (ω : ℂ) (mpi4 nw : Bool) (item : Nat) (names : List String)
    (raw : String → NcFile (List (Arr ℝ))) (xs : List Nat) (nv nvars : Nat) (w : Arr ℝ)
    (solver : Solver (fitNb c (rawNt names raw))) (p : Nat)
    (arrive : Nat → Nat → Nat → List (Write ℝ) → List (Write ℝ))
    (sched : (α : Type) → List (Write α) → List (Write α)) : Option (OutFlat (fitNb c (rawNt names raw))) :=
  let nt := rawNt names raw
  let nx := size xs
  let nc := nChunks nt nx nv item p
  if nt < 9 then none
  else if nvars > nv then none
  else if nw then none
  else if chunksReadable mpi4 nt nc nx nv p then
    fitFlat c ω nt solver sched xs nv ((List.range p).map fun r =>
      (.dict (dictPieces (twoStageGet names (ncContent xs nv raw) p nx nv p r (arrive r)) nt nc 3),
        distributeDimension (reshapeTo [nx, nv] w) 0 (some (p, r))))
  else none

/-! ### MATLAB files -/

/-- reader.py:566-574: one file, of shape `[nv0, n1, n2, n3]` (`none` entries are not finite), transposed and reshaped
    to rows of `nv` values, then assigned to `input_data[cum_read]` of shape `[nx, nv]`.  `none` = exception. -/
def matRead (nx nv : Nat) (d : Arr (Option ℝ)) : Option (Arr ℝ) :=
  match d.shape with
  | [nv0, n1, n2, n3] =>
    let sh := [n1, n2, n3, nv0]
    let tr : Arr ℝ := ⟨sh, fun idx =>
      (d.at' [idx.getD 3 0, idx.getD 0 0, idx.getD 1 0, idx.getD 2 0]).getD 0⟩
    if (List.range (size d.shape)).all fun k => (d.at' (unravel d.shape k)).isSome then
      if nv = 0 then none
      else if size sh % nv ≠ 0 then none
      else if size sh / nv = nx then some (reshapeTo [nx, nv] tr)
      else if size sh / nv = 1 then some ⟨[nx, nv], fun idx => (reshapeTo [1, nv] tr).at' [0, idx.getD 1 0]⟩
      else none
    else none
  | _ => none

/-- content of a `.mat` file as the reader sees it (used for readable files only) -/
def matContent (nx nv : Nat) (raw : String → Arr (Option ℝ)) (f : String) : Arr ℝ :=
  (matRead nx nv (raw f)).getD ⟨[nx, nv], fun _ => 0⟩

/-- reader.py:533-579: the snapshots rank `q` of `p` reads -/
def matInputs (files : List String) (nx nv p : Nat) (raw : String → Arr (Option ℝ)) (ts te q : Nat) : List (Arr ℝ) :=
  let (n, s) := blockdist (te - ts) p q
  matInput files (matContent nx nv raw) (ts + s) (ts + s + n)

/-- A fit of `.mat` files on `p` ranks, one snapshot per file; the grid is that of the first file of the list
    (reader.py:500-507).  All files are read, so a file that cannot be read makes the fit raise;
    `nw` as for NetCDF files. -/
noncomputable def fitMat (c : Cfg) (ω : ℂ) (mpi4 nw : Bool) (item : Nat) (files : List String)
    (raw : String → Arr (Option ℝ)) (nv : Nat) (w : Arr ℝ)
    (solver : Solver (fitNb c files.length)) (p : Nat)
    (arrive : Nat → Nat → Nat → List (Write ℝ) → List (Write ℝ))
    (sched : (α : Type) → List (Write α) → List (Write α)) : Option (OutFlat (fitNb c files.length)) :=
  match files with
  | [] => none
  | f0 :: rest =>
    let files := f0 :: rest
    let nt := files.length
    let xs := (raw f0).shape.tail
    let nx := size xs
    let nc := nChunksMat nt nx nv item p
    if nw then none
    else if files.all fun f => (matRead nx nv (raw f)).isSome then
      if chunksReadable mpi4 nt nc nx nv p then
        fitFlat c ω nt solver sched xs nv ((List.range p).map fun r =>
          (.dict (dictPieces (redistGet (matInputs files nx nv p raw) nx nv p r (arrive r)) nt nc 3),
            distributeDimension (reshapeTo [nx, nv] w) 0 (some (p, r))))
      else none
    else none

end Verif.Fit
