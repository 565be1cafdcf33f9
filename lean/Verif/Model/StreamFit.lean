import Verif.Model.Fit
import Verif.Model.Streaming
/-
  The whole of `Streaming.fit` (/repo/pyspod/spod/streaming.py:23-261) on all ranks together, for one dataset given as an
  array: reading snapshot by snapshot, Fourier sums of the sliding blocks, basis update with its two reductions over ranks,
  modes, and the files written.
  Simplifications: exact arithmetic; a division by a zero norm (streaming.py:181, NaN in the code) is 0 here, and the
  theorems that need it exclude it; the prints are left out.
-/
namespace Verif.SFit
open Verif Verif.Par Verif.Rd Verif.Spod Verif.Fit Matrix

/-- streaming.py:44 -/
def sep (c : Cfg) : Nat := ((c.nDft : Int) - c.nOvlp).toNat

/-- base.py:495-496: number of modes kept -/
def kept (c : Cfg) (nt : Nat) : Nat := min c.nSave (fitNb c nt)

/-- The sliding blocks at one grid point and frequency `f` (streaming.py:76-141); `u` is the time series. -/
noncomputable def blocksAt (c : Cfg) (ω : ℂ) (f : Nat) (u : List ℝ) : Stream.St ℂ :=
  Stream.run c.nDft (sep c) (fun t => ((c.win.getD t 0 : ℝ) : ℂ))
    (Stream.dftMat ω c.isreal (nFreq c.nDft c.isreal c.full) f) ((winWeight c.win : ℝ) : ℂ) (u.map Complex.ofReal)

/-- Number of basis updates for a stream of `nt` snapshots: how often `update` becomes true (streaming.py:112-132); the
    time indices do not depend on the data, so the same on every rank, even one without points. -/
noncomputable def nUpdates (c : Cfg) (ω : ℂ) (nt : Nat) : Nat := (blocksAt c ω 0 (List.replicate nt 0)).out.length

/-- streaming.py:160: `x = x_hat[:,[i_freq]] * sqrt_w` for update `m` at a grid point with weight `wt` -/
noncomputable def newCol (c : Cfg) (ω : ℂ) (f m : Nat) (wt : ℝ) (u : List ℝ) : ℂ :=
  ((blocksAt c ω f u).out.getD m (0, [], 0)).2.2 * ((Real.sqrt wt : ℝ) : ℂ)

/-- What a rank holds: its slabs of the snapshots and its slab of the weights. -/
structure Rank where
  data : List (Arr ℝ)
  w : Arr ℝ

/-- The basis of all ranks at one frequency: singular values (the same on every rank) and, rank by rank, the rows of `U`
    at the rank's grid points. -/
structure Basis (k : Nat) where
  S : Fin k → ℝ
  U : Nat → List Nat → Fin k → ℂ

/-- `numpy.linalg.svd` as a function of the matrix: every rank calls it on the same matrix and gets the same answer. -/
abbrev Svd (k : Nat) := Matrix (Fin k ⊕ Unit) (Fin k ⊕ Unit) ℂ →
  Matrix (Fin k ⊕ Unit) (Fin k ⊕ Unit) ℂ × (Fin k ⊕ Unit → ℝ)

/-- streaming.py:169-170: `U.conj().T @ x` on every rank (rows in C order), `allreduce` -/
noncomputable def projAll {k : Nat} (p : Nat) (sh : Nat → List Nat) (U : Nat → List Nat → Fin k → ℂ)
    (x : Nat → List Nat → ℂ) (j : Fin k) : ℂ :=
  allreduce ((List.range p).map fun (r : Nat) =>
    ∑ i ∈ Finset.range (size (sh r)), star (U r (unravel (sh r) i) j) * x r (unravel (sh r) i))

/-- streaming.py:173 -/
noncomputable def perpAll {k : Nat} (U : Nat → List Nat → Fin k → ℂ) (x : Nat → List Nat → ℂ) (Ux : Fin k → ℂ)
    (r : Nat) (idx : List Nat) : ℂ := x r idx - ∑ j, U r idx j * Ux j

/-- streaming.py:176-178 -/
noncomputable def absAll (p : Nat) (sh : Nat → List Nat) (up : Nat → List Nat → ℂ) : ℝ :=
  Real.sqrt (allreduce ((List.range p).map fun (r : Nat) =>
    ∑ i ∈ Finset.range (size (sh r)), Complex.normSq (up r (unravel (sh r) i))))

/-- streaming.py:185-191 with `b = block_i` -/
noncomputable def kOf {k : Nat} (S : Fin k → ℝ) (Ux : Fin k → ℂ) (a : ℝ) (b : Nat) :
    Matrix (Fin k ⊕ Unit) (Fin k ⊕ Unit) ℂ :=
  ((Real.sqrt (((b : ℝ) + 1) / ((b : ℝ) + 2) ^ 2) : ℝ) : ℂ) •
    Matrix.fromBlocks ((Real.sqrt ((b : ℝ) + 2) : ℂ) • Matrix.diagonal fun j => (S j : ℂ))
      (Matrix.of fun i _ => Ux i) 0 (Matrix.of fun _ _ => (a : ℂ))

/-- streaming.py:157-207: one update at one frequency on all ranks; `b = block_i` -/
noncomputable def updateAll {k : Nat} (svd : Svd k) (p : Nat) (sh : Nat → List Nat) (b : Nat) (B : Basis k)
    (x : Nat → List Nat → ℂ) : Basis k :=
  let Ux := projAll p sh B.U x
  let up := perpAll B.U x Ux
  let a := absAll p sh up
  let (Up, Sp) := svd (kOf B.S Ux a b)
  { S := fun j => Sp (.inl j)
    U := fun r idx j => (∑ l, B.U r idx l * Up (.inl l) (.inl j)) + up r idx / (a : ℂ) * Up (.inr ()) (.inl j) }

/-- streaming.py:71-72, 96-212: the basis after `M` updates (the first has `block_i = 1`) -/
noncomputable def basisAfter {k : Nat} (svd : Svd k) (p : Nat) (sh : Nat → List Nat) (x : Nat → Nat → List Nat → ℂ)
    (M : Nat) : Basis k :=
  (List.range M).foldl (fun B m => updateAll svd p sh (m + 1) B (x m)) ⟨fun _ => 0, fun _ _ _ => 0⟩

/-- streaming.py:226-241: modes of rank `r`, divided by the square root of the weights, shape `[*xshape, nv, n_modes]` -/
noncomputable def modesOf {k : Nat} (w : Arr ℝ) (U : List Nat → Fin k → ℂ) : Arr ℂ where
  shape := w.shape ++ [k]
  at' := fun idx =>
    if h : idx.getLastD 0 < k then U idx.dropLast ⟨_, h⟩ * (1 / ((Real.sqrt (w.at' idx.dropLast) : ℝ) : ℂ)) else 0

/-- Everything a streaming fit leaves behind. -/
structure SOut (k : Nat) where
  /-- `eigs` in `eigs_freq.npz` -/
  eigs : Nat → Fin k → ℝ
  /-- `modes/freq_idx_{f}.npy` -/
  modes : Nat → NpyFile ℂ
  /-- `weights.npy` -/
  weights : NpyFile ℝ
  /-- `ltm_modes.npy` -/
  ltm : NpyFile ℝ

/-- streaming.py:163-169: shapes of one update on a rank with `xv` values and `k` modes; a `squeeze` too many makes the
    products of shapes fail for one value or one mode. -/
def shapesOk (xv k : Nat) : Bool :=
  (Stream.streamDiag k == some [k, k]) && (Stream.matmulShape (Stream.squeeze [xv, k]).reverse [xv, 1] == some [k, 1])

/-- streaming.py:23-261 on `p` ranks, rank `r` holding `ranks r`; `none` = an exception on some rank. -/
noncomputable def streamFit (c : Cfg) (ω : ℂ) (nt : Nat) (svd : Svd (kept c nt)) (sched : Sched) (ax p : Nat)
    (ranks : Nat → Rank) : Option (SOut (kept c nt)) :=
  match feasible c.nDft (nBlocks nt c.nDft c.nOvlp), parseMean c.meanType with
  | .ok _, .ok _ =>
    if nUpdates c ω nt = 0 ∨ ∀ r < p, shapesOk (size (ranks r).w.shape) (kept c nt) = true then
      let B : Nat → Basis (kept c nt) := fun f => basisAfter svd p (fun r => (ranks r).w.shape)
        (fun m r idx => newCol c ω f m ((ranks r).w.at' idx) (atIdx idx (ranks r).data)) (nUpdates c ω nt)
      some { eigs := fun f => (B f).S
             modes := fun f => saveAll sched ax ((List.range p).map fun (r : Nat) => modesOf (ranks r).w ((B f).U r))
             weights := saveAll sched ax ((List.range p).map fun (r : Nat) => (ranks r).w)
             ltm := saveAll sched ax ((List.range p).map fun (r : Nat) =>
               ⟨(ranks r).w.shape, fun idx => Stream.longTMeanNt ℝ nt (fitNb c nt) (atIdx idx ((ranks r).data.take 1))⟩) }
    else none
  | _, _ => none

/-- streaming.py:38, 96-107, base.py:441-456: what a process reads: its slab of every snapshot, one after the other until
    the reader raises (`fuel` bounds the loop; `none`: it was not left), and its slab of the weights. -/
def readRank (files : List (List (Arr ℝ))) (w : Arr ℝ) (ax : Nat) (comm : Comm) (fuel : Nat) : Option Rank :=
  match Stream.consume (Stream.fetch1 ⟨[], fun _ => 0⟩ (files.map (·.map fun a => distributeDimension a ax comm))) fuel 0 with
  | (d, true) => some ⟨d, distributeDimension w ax comm⟩
  | (_, false) => none

/-- A streaming fit of the array `frames` on `p` ranks. -/
noncomputable def streamParallel (c : Cfg) (ω : ℂ) (frames : List (Arr ℝ)) (w : Arr ℝ)
    (svd : Svd (kept c frames.length)) (p : Nat) (sched : (α : Type) → List (Write α) → List (Write α)) :
    Option (SOut (kept c frames.length)) :=
  match maxAxis [frames] with
  | none => none
  | some ax =>
    match (List.range p).mapM fun r => readRank [frames] w ax (some (p, r)) (frames.length + 1) with
    | none => none
    | some rs => streamFit c ω frames.length svd (some sched) ax p fun r => rs.getD r ⟨[], ⟨[], fun _ => 0⟩⟩

/-- A serial streaming fit (`comm=None`). -/
noncomputable def streamSerial (c : Cfg) (ω : ℂ) (frames : List (Arr ℝ)) (w : Arr ℝ)
    (svd : Svd (kept c frames.length)) : Option (SOut (kept c frames.length)) :=
  match maxAxis [frames] with
  | none => none
  | some ax =>
    match readRank [frames] w ax none (frames.length + 1) with
    | none => none
    | some r => streamFit c ω frames.length svd none ax 1 fun _ => r

end Verif.SFit
