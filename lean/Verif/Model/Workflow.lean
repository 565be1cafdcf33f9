import Verif.Model.Spmd
/-
  Parallel runs as sequences of collective calls and file accesses, rank by rank: fits (standard, streaming, POD),
  projection, convolution, reconstruction and the orthogonality check, in any order.
  Sources: /repo/pyspod/spod/{base,standard,streaming,utils}.py, pod/{base,standard,utils}.py, utils/parallel.py.
-/
namespace Verif.Flow
open Verif Verif.Spmd

/-! ### Actions and runs -/

/-- A resource: a file or folder and, for files written by several ranks, the part of it (`none` is the header). -/
abbrev Res (F : Type) := F × Option Nat

/-- What a rank does: take part in a collective call, look at a resource, or change it.  `same` is the writing of a
    whole file by every rank with the same content. -/
inductive Act (F : Type)
  | coll (c : Coll)
  | rd (x : Res F)
  | wr (x : Res F)
  | same (x : Res F)
  deriving DecidableEq

/-- the collective call an action is, if it is one -/
def Act.coll? {F} : Act F → Option Coll
  | .coll c => some c
  | _ => none

/-- the collective calls among the actions -/
def collsOf {F} (l : List (Act F)) : List Coll := l.filterMap Act.coll?

/-- number of collective calls among the first `i` actions -/
def nColl {F} (l : List (Act F)) (i : Nat) : Nat := (collsOf (l.take i)).length

/-- rank `q` (actions `l`, `n` of them completed) has reached its collective call number `k`, which is a `c` -/
def Entered {F} (l : List (Act F)) (n k : Nat) (c : Coll) : Prop :=
  (collsOf l)[k]? = some c ∧ (k < nColl l n ∨ (nColl l n = k ∧ l[n]? = some (.coll c)))

/-- One step: rank `r` completes its next action; a file access at any time, a collective call when every rank it waits
    for has entered the same call (MPI: calls are matched by their number). -/
def AStep {F} (L : Lib) (p : Nat) (acts : Nat → List (Act F)) (s s' : Nat → Nat) : Prop :=
  ∃ r a, r < p ∧ (acts r)[s r]? = some a ∧
    (∀ c, a = .coll c → ∀ q, q < p → L.waits c r q → Entered (acts q) (s q) (nColl (acts r) (s r)) c) ∧
    s' = fun q => if q = r then s r + 1 else s q

inductive AReach {F} (L : Lib) (p : Nat) (acts : Nat → List (Act F)) : Nat → (Nat → Nat) → Prop
  | init : AReach L p acts 0 fun _ => 0
  | step {n s s'} : AReach L p acts n s → AStep L p acts s s' → AReach L p acts (n + 1) s'

/-! ### The files -/

/-- Files and folders.  `k` is a results folder, `c` a folder of coefficients inside it, `o` the `savedir` argument. -/
inductive File
  | folder (k : Nat) | modesFolder (k : Nat) | blocksFolder (k : Nat)
  | block (k b f : Nat) | mode (k f : Nat) | mode2 (k f m : Nat) | podModes (k : Nat)
  | weights (k : Nat) | mean (k : Nat) | params (k : Nat) | eigs (k : Nat)
  | coeffsFolder (k c : Nat) | coeffs (k c : Nat) | modesR (k c : Nat) | ltm (k c : Nat) | paramsC (k c : Nat)
  | outFolder (k c : Nat) (o : Option Nat) | recon (k c : Nat) (o : Option Nat) (name : Nat)
  deriving DecidableEq

abbrev A := Act File

/-- reading a file written by `p` ranks: the header and all parts -/
def readAll (p : Nat) (f : File) : List A := .rd (f, none) :: (List.range p).map fun (q : Nat) => .rd (f, some q)

/-- reading a file or folder written by one rank -/
def read1 (f : File) : List A := [.rd (f, some 0)]

/-- parallel.py:186-248 `npy_save` of file `f` in folder `d` on rank `r` -/
def npySave (d f : File) (r : Nat) : List A :=
  [.coll .allreduce, .coll .scan, .rd (d, some 0), .coll .fileOpen, .coll .fileSetSize] ++
  (if r = 0 then [.wr (f, none)] else []) ++
  [.coll (.bcast 0), .coll .fileSetView, .wr (f, some r), .coll .fileWriteAll, .coll .fileSync, .coll .fileClose]

/-- `if rank == 0: ...` -/
def onRoot (r : Nat) (l : List A) : List A := if r = 0 then l else []

/-- `n` collective calls `c` -/
def rep (n : Nat) (c : Coll) : List A := List.replicate n (.coll c)

/-- parallel.py:161-167 without the barrier -/
def reduceA : List A := [.coll .allreduce]

/-- A phase: what every rank does up to and without the next barrier that orders file accesses. -/
abbrev Part := Nat → List A

/-- collective calls only -/
def calls (l : List Coll) : List A := l.map .coll

/-- standard.py:107-115: block `b`, frequency `f` saved -/
def saveBlock (k r : Nat) (i : Nat × Nat) : List A := npySave (.blocksFolder k) (.block k i.1 i.2) r

/-- standard.py:78-82 and base.py:837-858: files of stored blocks -/
def readBlock (p k : Nat) (i : Nat × Nat) : List A := read1 (.blocksFolder k) ++ readAll p (.block k i.1 i.2)

/-- standard.py:236-247 -/
def saveMode (k r f : Nat) : List A := npySave (.modesFolder k) (.mode k f) r

/-- standard.py:301-347: pass `j`; rank `r` writes file number `j p + r` if there is one -/
def savePass (R : FitRun) (k r j : Nat) : List A :=
  let total := R.nf * R.nSave
  .coll (.gather (min ((j + 1) * R.p) total - j * R.p)) ::
    (if j * R.p + r < total ∧ r < R.p then
      [.rd (.modesFolder k, some 0), .wr (.mode2 k ((j * R.p + r) / R.nSave) ((j * R.p + r) % R.nSave), some 0)] else [])

/-- standard.py:225-347: the modes, after the reduction -/
def saveModes (R : FitRun) (k r : Nat) : List A :=
  match R.output with
  | .none => []
  | .disk => (List.range R.nf).flatMap (saveMode k r)
  | .disk2 => [.coll .allreduce, .coll .allgather] ++
      (List.range ((R.nf * R.nSave + R.p - 1) / R.p)).flatMap (savePass R k r)

/-- all (block, frequency) pairs in the order of the loops -/
def pairs (nb nf : Nat) : List (Nat × Nat) :=
  (List.range nb).flatMap fun (b : Nat) => (List.range nf).map fun (f : Nat) => (b, f)

/-- standard.py:30-155 and base.py:391-552, 662-706: a standard fit with results folder `k` -/
def fitPhases (R : FitRun) (k : Nat) : List Part :=
  [fun _ => calls (initCalls R.input ++ readCalls R.input),
   fun r => rep (if R.normalizeWeights then R.nv else 0) .allreduce ++
     onRoot r ([.wr (.folder k, some 0), .wr (.modesFolder k, some 0)] ++
       (if R.savefft then [.wr (.blocksFolder k, some 0)] else [])) ++
     rep 3 .allreduce,
   fun r => if R.blocksPresent then (pairs R.nb R.nf).flatMap (readBlock R.p k) ++ rep R.nf .barrier
     else if R.savefft then (pairs R.nb R.nf).flatMap (saveBlock k r) else [],
   fun _ => [],
   fun r => reduceA ++
     saveModes R k r ++
     npySave (.folder k) (.weights k) r ++ npySave (.folder k) (.mean k) r ++
     onRoot r [.wr (.params k, some 0), .wr (.eigs k, some 0)],
   fun _ => []]

/-- streaming.py:132-201: snapshot read (one barrier, reader.py:85-86); if a block is completed (`upd`), two reductions
    for each frequency -/
def streamSnap (nf : Nat) (upd : Bool) : List Coll :=
  .barrier :: if upd then (List.replicate nf [Coll.barrier, .allreduce, .barrier, .allreduce]).flatten else []

/-- streaming.py:23-261 with arrays; `upds`: for every snapshot whether it completes a block -/
def streamPhases (nv : Nat) (norm : Bool) (upds : List Bool) (nf k : Nat) : List Part :=
  [fun _ => calls [.barrier],
   fun r => rep (if norm then nv else 0) .allreduce ++
     onRoot r [.wr (.folder k, some 0), .wr (.modesFolder k, some 0)] ++ rep 3 .allreduce,
   fun r => calls (upds.flatMap (streamSnap nf)) ++ (List.range nf).flatMap (saveMode k r) ++
     npySave (.folder k) (.weights k) r ++ npySave (.folder k) (.mean k) r ++
     onRoot r [.wr (.params k, some 0), .wr (.eigs k, some 0)],
   fun _ => []]

/-- spod/utils.py:703-725 with postproc.py:88-121: modes of one frequency read (files of either kind) and distributed -/
def readModes (p k nSave : Nat) (disk2 : Bool) (f : Nat) : List A :=
  (if disk2 then (List.range nSave).flatMap fun (m : Nat) => read1 (.mode2 k f m) else readAll p (.mode k f)) ++
    [.coll .barrier]

/-- spod/utils.py:684-700: files of a fit -/
def readResults (p k : Nat) : List A := read1 (.eigs k) ++ readAll p (.weights k) ++ read1 (.params k)

/-- spod/utils.py:79-221 `compute_coeffs_op` and 223-440 `compute_coeffs_conv` (`conv`): folder `c` of results folder `k`;
    the two differ in the reductions of the projection, which the convolution lacks -/
def coeffsPhases (p k c nSave : Nat) (disk2 conv : Bool) (freqs : List Nat) : List Part :=
  [fun r => readResults p k ++ rep 2 .barrier ++ freqs.flatMap (readModes p k nSave disk2) ++
     onRoot r [.wr (.coeffsFolder k c, some 0)],
   fun _ => if conv then [] else calls [.barrier, .allreduce, .barrier, .allreduce],
   fun r => npySave (.coeffsFolder k c) (.modesR k c) r ++ npySave (.coeffsFolder k c) (.ltm k c) r,
   fun r => onRoot r [.wr (.coeffs k c, some 0)],
   fun _ => [.rd (.coeffsFolder k c, some 0), .same (.paramsC k c, some 0)]]

/-- spod/utils.py:519-520 and pod/utils.py:208-209: the folder of a reconstruction: the coefficients' own, or `savedir` in it -/
def outDir (k c : Nat) (o : Option Nat) : File := match o with
  | none => .coeffsFolder k c
  | some _ => .outFolder k c o

/-- spod/utils.py:441-538 and pod/utils.py:131-225 `compute_reconstruction`; `o`: the `savedir` argument, `given`: whether the
    coefficients are passed by the caller, `name`: the `filename` argument -/
def reconPhases (p k c : Nat) (o : Option Nat) (given : Bool) (name : Nat) : List Part :=
  [fun r => read1 (.coeffsFolder k c) ++ readAll p (.ltm k c) ++ readAll p (.modesR k c) ++ read1 (.paramsC k c) ++
     (if given then [] else read1 (.coeffs k c)) ++ rep 2 .barrier ++
     (if o.isSome then onRoot r [.wr (.outFolder k c o, some 0)] else []),
   fun r => npySave (outDir k c o) (.recon k c o name) r]

/-- spod/utils.py:21-76 `check_orthogonality` (one frequency) -/
def orthoPhases (p k nSave : Nat) (disk2 : Bool) (f : Nat) : List Part :=
  [fun _ => readResults p k ++ rep 1 .barrier ++ readModes p k nSave disk2 f, fun _ => reduceA]

/-- pod/base.py:201-318, 398-428 and pod/standard.py:28-72: a POD fit of `n` datasets -/
def podPhases (n nv : Nat) (norm : Bool) (k : Nat) : List Part :=
  [fun _ => rep n .barrier,
   fun r => rep (if norm then nv else 0) .allreduce ++ onRoot r [.wr (.folder k, some 0)],
   fun _ => [],
   fun r => reduceA ++ npySave (.folder k) (.podModes k) r ++ npySave (.folder k) (.weights k) r ++
     onRoot r [.wr (.params k, some 0), .wr (.eigs k, some 0)]]

/-- pod/utils.py:15-128 -/
def podCoeffsPhases (p k c : Nat) : List Part :=
  [fun _ => readAll p (.weights k) ++ readAll p (.podModes k) ++ read1 (.eigs k) ++ read1 (.params k) ++ rep 3 .barrier,
   fun r => reduceA ++ onRoot r [.wr (.coeffsFolder k c, some 0)],
   fun r => onRoot r [.rd (.coeffsFolder k c, some 0), .wr (.coeffs k c, some 0)] ++
     npySave (.coeffsFolder k c) (.modesR k c) r ++ npySave (.coeffsFolder k c) (.ltm k c) r ++
     [.same (.paramsC k c, some 0)]]

/-- the operations of a parallel session -/
inductive Op
  | fit (R : FitRun) (k : Nat)
  | stream (nv : Nat) (norm : Bool) (upds : List Bool) (nf k : Nat)
  | coeffs (k c nSave : Nat) (disk2 conv : Bool) (freqs : List Nat)
  | recon (k c : Nat) (o : Option Nat) (given : Bool) (name : Nat)
  | ortho (k nSave : Nat) (disk2 : Bool) (f : Nat)
  | pod (n nv : Nat) (norm : Bool) (k : Nat)
  | podCoeffs (k c : Nat)

/-- phases of an operation on `p` ranks -/
def Op.phases (p : Nat) : Op → List Part
  | .fit R k => fitPhases { R with p := p } k
  | .stream nv norm upds nf k => streamPhases nv norm upds nf k
  | .coeffs k c nSave disk2 conv freqs => coeffsPhases p k c nSave disk2 conv freqs
  | .recon k c o given name => reconPhases p k c o given name
  | .ortho k nSave disk2 f => orthoPhases p k nSave disk2 f
  | .pod n nv norm k => podPhases n nv norm k
  | .podCoeffs k c => podCoeffsPhases p k c

/-- what rank `r` does in a list of phases: a barrier ends each -/
def actsOf (phs : List Part) (r : Nat) : List A := phs.flatMap fun ph => ph r ++ [.coll .barrier]

/-- what rank `r` does in a session: one operation after the other -/
def session (p : Nat) (ops : List Op) (r : Nat) : List A := actsOf (ops.flatMap (Op.phases p)) r

/-- Two accesses by different ranks that must not happen at the same time: to the same resource, at least one of them a
    change, unless both write the same content. -/
def Conflict {F} (a b : Act F) : Prop :=
  match a, b with
  | .wr x, .wr y | .wr x, .rd y | .rd x, .wr y | .same x, .rd y | .rd x, .same y | .wr x, .same y | .same x, .wr y => x = y
  | _, _ => False

end Verif.Flow
