import Verif.Model.StreamFit
import Verif.Model.Spmd
/-
  `Streaming.fit` (/repo/pyspod/spod/streaming.py:23-261) when a snapshot cannot be read: the bare `except` of streaming.py:104-106 takes every exception (also
  KeyboardInterrupt) for the end of the stream.
-/
namespace Verif.SFit
open Verif Verif.Par Verif.Rd Verif.Spod Verif.Fit Matrix

/-- streaming.py:100-106: `get_data(t)` and the reshape, when reading snapshot `t` raises for `bad t`; `none` = an exception, taken as the end of the stream -/
def fetchErr {β} (zero : β) (bad : Nat → Bool) (files : List (List β)) (t : Nat) : Option β :=
  if bad t then none else Stream.fetch1 zero files t

/-- What a process reads (base.py:449 and streaming.py:59 read snapshot 0 outside of the `try`: an exception there is raised, `none`; then
    streaming.py:96-106). -/
def readErr (bad : Nat → Bool) (files : List (List (Arr ℝ))) (w : Arr ℝ) (ax : Nat) (comm : Comm) (fuel : Nat) : Option Rank :=
  if bad 0 then none else
  match Stream.consume (fetchErr ⟨[], fun _ => 0⟩ bad (files.map (·.map fun a => distributeDimension a ax comm))) fuel 0 with
  | (d, true) => some ⟨d, distributeDimension w ax comm⟩
  | (_, false) => none

/-- streaming.py:23-261 on one process that has read the snapshots `r.data` of a record of `nt`: the number of blocks, the number of modes kept and the long-time mean
    come from `nt` (base.py:433-435, 465-466, 500-501, 589-617), the updates from what has been read. -/
noncomputable def streamFitRead (c : Cfg) (ω : ℂ) (nt : Nat) (svd : Svd (kept c nt)) (ax : Nat) (r : Rank) : Option (SOut (kept c nt)) :=
  match feasible c.nDft (nBlocks nt c.nDft c.nOvlp), parseMean c.meanType with
  | .ok _, .ok _ =>
    if nUpdates c ω r.data.length = 0 ∨ shapesOk (size r.w.shape) (kept c nt) = true then
      let B : Nat → Basis (kept c nt) := fun f => basisAfter svd 1 (fun _ => r.w.shape)
        (fun m _ idx => newCol c ω f m (r.w.at' idx) (atIdx idx r.data)) (nUpdates c ω r.data.length)
      some { eigs := fun f => (B f).S
             modes := fun f => saveAll none ax [modesOf r.w ((B f).U 0)]
             weights := saveAll none ax [r.w]
             ltm := saveAll none ax [⟨r.w.shape, fun idx => Stream.longTMeanNt ℝ nt (fitNb c nt) (atIdx idx (r.data.take 1))⟩] }
    else none
  | _, _ => none

/-- A serial streaming fit of the array `frames` (streaming.py:23-261) when reading snapshot `t` raises for `bad t`; `none` = an exception -/
noncomputable def streamSerialErr (c : Cfg) (ω : ℂ) (bad : Nat → Bool) (frames : List (Arr ℝ)) (w : Arr ℝ) (svd : Svd (kept c frames.length)) :
    Option (SOut (kept c frames.length)) :=
  match maxAxis [frames] with
  | none => none
  | some ax =>
    match readErr bad [frames] w ax none (frames.length + 1) with
    | none => none
    | some r => streamFitRead c ω frames.length svd ax r

end Verif.SFit

namespace Verif.Spmd
open Verif Verif.Par

/-! ### The calls of a streaming fit of an array on several ranks -/

structure StreamRun' where
  p : Nat
  nt : Nat
  nf : Nat
  nv : Nat
  normalizeWeights : Bool
  /-- whether a block is complete after snapshot `t` (streaming.py:123-132; the same on every rank) -/
  completes : Nat → Bool

/-- base.py:449-547 with reader.py:85-86 and parallel.py:126: as for a standard fit, one snapshot read -/
def streamSetup (R : StreamRun') : List Coll :=
  [.barrier] ++ [.barrier] ++ (if R.normalizeWeights then List.replicate R.nv .allreduce else []) ++ [.allreduce, .allreduce, .allreduce, .barrier]

/-- streaming.py:170, 177 with parallel.py:166-167: two reductions per frequency -/
def updateCalls (R : StreamRun') (t : Nat) : List Coll :=
  if R.completes t then (List.replicate R.nf [Coll.barrier, .allreduce, .barrier, .allreduce]).flatten else []

/-- streaming.py:59, 97-212: reading snapshot `t` (parallel.py:126) and the update after it -/
def snapshotCalls (R : StreamRun') (t : Nat) : List Coll := [.barrier] ++ updateCalls R t

/-- streaming.py:231-261 -/
def streamStore (R : StreamRun') : List Coll := (List.replicate R.nf npySaveCalls).flatten ++ storeCalls

/-- streaming.py:23-261 on a rank whose stream ends after `n` snapshots; `half`: the exception that ended it came after the barrier inside the next
    `get_data` (reader.py:101 rather than reader.py:85) -/
def streamCalls (R : StreamRun') (n : Nat) (half : Bool) : List Coll :=
  streamSetup R ++ ((List.range n).map (snapshotCalls R)).flatten ++ (if half then [Coll.barrier] else []) ++ streamStore R

end Verif.Spmd
