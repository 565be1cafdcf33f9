import Verif.Model.Fit
import Verif.Model.Cache
/-
  `Standard.fit` (/repo/pyspod/spod/standard.py:30-151) with the options `savefft` and `reuse_blocks`: which Fourier
  realizations a fit works from when several fits share one results folder, and what it leaves in the folder `blocks`.
  It composes `Model/Fit.lean` (the fit without the cache) and `Model/Cache.lean` (one cached block).
-/
namespace Verif.CFit
open Verif Verif.Par Verif.Rd Verif.Spod Verif.Fit Verif.Names Verif.Cache Matrix

/-- One call of `fit` on array data: settings, data sets, weights, eigen-solver, the options `savefft` and
    `reuse_blocks` (base.py:64-66), and how it is run: without communicator, or on `p` ranks with some order of
    the element writes. -/
structure Job where
  c : Cfg
  files : List (List (Arr ℝ))
  w : Arr ℝ
  solver : Solver (fitNb c files.flatten.length)
  savefft : Bool
  reuse : Bool
  run : Option (Nat × ((α : Type) → List (Write α) → List (Write α)))

/-- number of snapshots (base.py:419) -/
def Job.nt (j : Job) : Nat := j.files.flatten.length
/-- number of blocks (base.py:432-435) -/
def Job.nb (j : Job) : Nat := fitNb j.c j.files.flatten.length
/-- number of frequencies (base.py:620-631) -/
def Job.nf (j : Job) : Nat := nFreq j.c.nDft j.c.isreal j.c.full

/-- the communicators of the ranks of a run (base.py:87, 95-102: `comm`, its `rank` and `size`) -/
def Job.comms (j : Job) : List Comm :=
  match j.run with
  | none => [none]
  | some (p, _) => (List.range p).map fun (r : Nat) => some (p, r)

/-- how arrays are saved in a run: the two branches of `npy_save` (parallel.py:196-248) -/
def Job.sched (j : Job) : Sched := j.run.map (·.2)

/-- The folder `blocks` (base.py:532-536): the file of each name, if there is one.  Every file in it is complete
    (interrupted fits: see `Model/Cache.lean`). -/
abbrev Blocks := Name → Option (NpyFile ℂ)

/-- `self._xshape` (base.py:418): spatial shape of a snapshot, whose last axis holds the variables. -/
def Job.xshape (j : Job) : List Nat :=
  match j.files.flatten with
  | a :: _ => a.shape.dropLast
  | [] => []

/-- standard.py:107 `Q_blk_hat[i_freq,:]`: the flattened local transform of one block at one frequency. -/
def vecOf (sh : List Nat) (A : Arr ℂ) : List ℂ := (List.range (size sh)).map fun (k : Nat) => A.at' (unravel sh k)

/-- standard.py:106-115: the file of one block and frequency, from the ranks' flattened transforms; `none` = the
    assignment of the shape raises. -/
def blockFile (j : Job) (ax : Nat) (vecs : List (List ℂ)) : Option (NpyFile ℂ) :=
  match j.run with
  | none => cacheFileSer j.xshape (vecs.headD [])
  | some (_, s) => (cacheLocals j.xshape ax vecs).map fun ls => npySaveFile ax ls (s ℂ (saveWrites ax ls))

/-- standard.py:93-115: after all files of all blocks and frequencies were written. -/
def writeAll (F : Blocks) (nb nf : Nat) (file : Nat → Nat → NpyFile ℂ) : Blocks :=
  (cacheItems nb nf).foldl (fun F bf => fun n => if n = fftName bf.1 bf.2 then some (file bf.1 bf.2) else F n) F

/-- standard.py:65-81 on one rank: all cached blocks and frequencies, distributed.  `none` = loading raises, or the
    number of rows is not that of the rank's weights (standard.py:199 then raises). -/
def loadRank (F : Blocks) (xshape : List Nat) (nb nf ax : Nat) (cm : Comm) (sh : List Nat) :
    Option (Nat → Nat → Arr ℂ) :=
  let D := fun f => cachedQ xshape nb ax cm fun b => (F (fftName b f)).getD ⟨[], fun _ => none⟩
  if (List.range nf).all (fun f => match D f with | some d => decide (d.shape = [size sh, nb]) | none => false) then
    some fun f b => ⟨sh, fun idx => match D f with | some d => d.at' [ravel sh idx, b] | none => 0⟩
  else none

/-- standard.py:197-202 from given realizations: as `Fit.rankState`. -/
noncomputable def stateFrom (c : Cfg) (nt : Nat) (r : Src × Arr ℝ) (Q : Nat → Nat → Arr ℂ) :
    Option ((Nat → Nat → Arr ℂ) × (Nat → Nat → Nat → ℂ) × Arr ℝ) :=
  match srcMean (fitNb c nt) nt r.1 with
  | some lt =>
    if Stream.gramShape (size r.2.shape) (fitNb c nt) = some [fitNb c nt, fitNb c nt] then
      some (Q, fun f => localGram (Q f) ⟨r.2.shape, fun idx => ((r.2.at' idx : ℝ) : ℂ)⟩ ((fitNb c nt : ℕ) : ℂ),
        ⟨r.2.shape, lt⟩)
    else none
  | none => none

/-- standard.py:130-151, 190-254: from the realizations of all ranks to the files; as the second half of
    `Fit.fitRanks` and `Fit.fit` (`reuse_same_input_partial` with no earlier fit shows that a fit without cache is this with fresh realizations). -/
noncomputable def finish (c : Cfg) (nt : Nat) (solver : Solver (fitNb c nt)) (sched : Sched) (ax : Nat)
    (ranks : List ((Src × Arr ℝ) × (Nat → Nat → Arr ℂ))) : Option (Out (fitNb c nt)) :=
  match ranks.mapM fun x => stateFrom c nt x.1 x.2 with
  | none => none
  | some sts =>
    let M : Nat → Matrix (Fin (fitNb c nt)) (Fin (fitNb c nt)) ℂ := fun f =>
      Matrix.of fun i j => allreduce (sts.map fun st => st.2.1 f i j)
    let fac := oneSidedFactor c.isreal (nFreq c.nDft c.isreal c.full)
    some { eigs := fun f =>
             let (L0, _, σ) := solver (M f)
             eigsOut (reorderL (realIfClose L0) σ) (fac f)
           modes := fun f =>
             let (L0, V0, σ) := solver (M f)
             saveAll sched ax (sts.map fun st => phiArr st.2.2.shape c.nSave
               (spodFreq (rowsOf st.2.2.shape (st.1 f)) L0 V0 σ (fac f)).2)
           weights := saveAll sched ax (ranks.map (·.1.2))
           ltm := saveAll sched ax (sts.map (·.2.2)) }

/-- standard.py:30-151: a fit in a results folder whose folder `blocks` holds `F`; returns the folder `blocks`
    afterwards and the result (`none` = an exception).  `ω` is the root of unity of the DFT. -/
noncomputable def fitJob (ω : ℂ) (F : Blocks) (j : Job) : Blocks × Option (Out j.nb) :=
  match maxAxis j.files, feasible j.c.nDft (nBlocks j.nt j.c.nDft j.c.nOvlp), parseMean j.c.meanType with
  | some ax, .ok _, .ok _ =>
    match j.comms.mapM fun cm => oneStage j.files j.w ax cm with
    | none => (F, none)
    | some ranks =>
      match source j.reuse j.savefft j.nb j.nf fun n => (F n).isSome with
      | .attributeError => (F, none)
      | .cache =>
        match (j.comms.zip ranks).mapM fun x => loadRank F j.xshape j.nb j.nf ax x.1 x.2.2.shape with
        | none => (F, none)
        | some Qs => (F, finish j.c j.nt j.solver j.sched ax (ranks.zip Qs))
      | .recompute =>
        match ranks.mapM fun r => rankHats j.c ω j.nt r.2.shape r.1 with
        | none => (F, none)
        | some Qs =>
          let file := fun b f => blockFile j ax ((ranks.zip Qs).map fun x => vecOf x.1.2.shape (x.2 f b))
          if j.savefft then
            if (cacheItems j.nb j.nf).all fun bf => (file bf.1 bf.2).isSome then
              (writeAll F j.nb j.nf fun b f => (file b f).getD ⟨[], fun _ => none⟩,
                finish j.c j.nt j.solver j.sched ax (ranks.zip Qs))
            else (F, none)
          else (F, finish j.c j.nt j.solver j.sched ax (ranks.zip Qs))
  | _, _, _ => (F, none)

/-- the folder `blocks` after a sequence of fits (calls of standard.py:30-151), starting without it -/
noncomputable def blocksAfter (ω : ℂ) (js : List Job) : Blocks :=
  js.foldl (fun F j => (fitJob ω F j).1) fun _ => none

end Verif.CFit
