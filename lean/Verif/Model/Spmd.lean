import Verif.Model.FitFiles
import Verif.Model.Cache
/-
  The calls by which the ranks of a run synchronise.  Semantics of collective calls (MPI standard: the k-th collective
  call of a rank on a communicator belongs to the k-th call of every other rank), and the sequence of calls a
  `Standard.fit` makes on every rank (/repo/pyspod/spod/standard.py:30-155, spod/base.py:391-552,662-706,756-772,
  utils/reader.py, utils/parallel.py).
-/
namespace Verif.Spmd
open Verif Verif.Par Verif.Rd

/-- Calls that involve all ranks.  `exchange`: reader.py:320-330, every rank sends to and receives from every rank.
    `gather w`: standard.py:303-329, every rank sends to the ranks below `w`, which receive from every rank. -/
inductive Coll
  | barrier | allreduce | allgather | scan | bcast (root : Nat) | reduce (root : Nat) | exchange | gather (w : Nat)
  | fileOpen | fileSetSize | fileSetView | fileWriteAll | fileSync | fileClose
  deriving DecidableEq

/-- `mustWait c r q`: rank `r` cannot leave the call before rank `q` has entered it, in every MPI library, because `r`
    needs data of `q` (or, for a barrier, by definition).  Nothing is assumed for the file calls. -/
def mustWait : Coll → Nat → Nat → Prop
  | .barrier, _, _ | .allreduce, _, _ | .allgather, _, _ | .exchange, _, _ => True
  | .scan, r, q => q ≤ r
  | .bcast root, _, q => q = root
  | .reduce root, r, _ => r = root
  | .gather w, r, _ => r < w
  | _, _, _ => False

/-- An MPI library: for which ranks it waits in a call; at least for those it must wait for. -/
structure Lib where
  waits : Coll → Nat → Nat → Prop
  least : ∀ c r q, mustWait c r q → waits c r q

/-- One step of a run of `p` ranks: `calls r` is the sequence of calls rank `r` makes before it returns or raises, `s r`
    how many it has completed.  Rank `r` completes its next call when every rank it waits for has entered the same call. -/
def Step (L : Lib) (p : Nat) (calls : Nat → List Coll) (s s' : Nat → Nat) : Prop :=
  ∃ r c, r < p ∧ (calls r)[s r]? = some c ∧
    (∀ q, q < p → L.waits c r q → s r ≤ s q ∧ (calls q)[s r]? = some c) ∧
    s' = fun q => if q = r then s r + 1 else s q

/-- states reached in `n` steps -/
inductive Reach (L : Lib) (p : Nat) (calls : Nat → List Coll) : Nat → (Nat → Nat) → Prop
  | init : Reach L p calls 0 fun _ => 0
  | step {n s s'} : Reach L p calls n s → Step L p calls s s' → Reach L p calls (n + 1) s'

/-- rank `r` has returned or raised -/
def Ended (calls : Nat → List Coll) (s : Nat → Nat) (r : Nat) : Prop := s r = (calls r).length

/-- All ranks run the program `prog`; rank `r` raises after `i` calls if `fail r = some i`. -/
def withFailures (prog : List Coll) (fail : Nat → Option Nat) (r : Nat) : List Coll :=
  match fail r with
  | none => prog
  | some i => prog.take i

/-! ### The calls of a fit -/

/-- parallel.py:186-248 -/
def npySaveCalls : List Coll :=
  [.allreduce, .scan, .fileOpen, .fileSetSize, .bcast 0, .fileSetView, .fileWriteAll, .fileSync, .fileClose]

/-- what is read -/
inductive Input
  | arrays (n : Nat)      -- number of datasets
  | netcdf (chunks : Nat)
  | mat (chunks : Nat)

/-- reader.py:36-62 (none), 206-208 and 225, 509-523 -/
def initCalls : Input → List Coll
  | .arrays _ => []
  | .netcdf _ => [.bcast 0, .bcast 0, .bcast 0, .bcast 0]
  | .mat _ => [.bcast 0, .bcast 0, .bcast 0]

/-- reader.py:85-86 with parallel.py:126 (one barrier per dataset); reader.py:294 and 320-330 per chunk, 409 -/
def readCalls : Input → List Coll
  | .arrays n => List.replicate n .barrier
  | .netcdf k | .mat k => (List.replicate k [Coll.allreduce, .exchange]).flatten ++ [.reduce 0]

/-- how the modes are saved -/
inductive Output | none | disk | disk2

structure FitRun where
  p : Nat
  input : Input
  nb : Nat
  nf : Nat
  nSave : Nat
  nv : Nat
  normalizeWeights : Bool
  savefft : Bool
  blocksPresent : Bool
  output : Output

/-- base.py:454-455 (454: one barrier), 474-478 with weights.py:124 and parallel.py:45, 538 with 770-772, 547 -/
def setupCalls (R : FitRun) : List Coll :=
  [.barrier] ++ (if R.normalizeWeights then List.replicate R.nv .allreduce else []) ++
    [.allreduce, .allreduce, .allreduce, .barrier]

/-- standard.py:63-126: stored blocks are distributed (one barrier per frequency); otherwise every block of every
    frequency is saved if requested. -/
def blockCalls (R : FitRun) : List Coll :=
  (if R.blocksPresent then List.replicate R.nf .barrier
   else if R.savefft then (List.replicate (R.nb * R.nf) npySaveCalls).flatten else []) ++ [.barrier]

/-- standard.py:202 with parallel.py:166-167; 225-247; 283-350 (pass `k` writes the files `[k p, min((k+1)p, total))`) -/
def modeCalls (R : FitRun) : List Coll :=
  [.barrier, .allreduce] ++
  match R.output with
  | .none => []
  | .disk => (List.replicate R.nf npySaveCalls).flatten
  | .disk2 =>
    let total := R.nf * R.nSave
    [.allreduce, .allgather] ++
      (List.range ((total + R.p - 1) / R.p)).map fun k => .gather (min ((k + 1) * R.p) total - k * R.p)

/-- base.py:685-686,706; standard.py:153 -/
def storeCalls : List Coll := npySaveCalls ++ npySaveCalls ++ [.barrier] ++ [.barrier]

/-- standard.py:30-155 -/
def fitCalls (R : FitRun) : List Coll :=
  initCalls R.input ++ readCalls R.input ++ setupCalls R ++ blockCalls R ++ modeCalls R ++ storeCalls

/-! ### Failures on some ranks -/

/-- reader.py:196-208, 216: rank 0 alone looks at the files and at the number of snapshots -/
def ncInitFail (badFile : Bool) (nt : Nat) (r : Nat) : Option Nat :=
  if r = 0 then (if badFile then some 0 else if nt < 9 then some 3 else none) else none

/-- reader.py:544-570 and 677-682: a rank raises in the first chunk in which it reads a file with a value that is not
    finite (`bad t`: file number `t` in name order), before the allreduce of that chunk. -/
def matReadFail (bad : Nat → Bool) (nt nc p : Nat) (r : Nat) : Option Nat :=
  (List.range nc).findSome? fun k =>
    let (n, s) := blockdist nt nc k
    let (m, o) := blockdist n p r
    if (List.range m).any fun j => bad (s + o + j) then some (3 + 2 * k) else none

/-! ### Looking for stored blocks (base.py:837-858, standard.py:56-126) -/

/-- Where a rank is: it looks at the files one after the other (`acc`: what it has seen), then decides, then makes `k`
    calls of the branch it took. -/
inductive Phase
  | look (acc : List Bool)
  | branch (present : Bool) (k : Nat)

/-- base.py:839-853: blocks are present if every file of every block exists -/
def decision (acc : List Bool) : Bool := acc.all id

/-- calls of the two branches, `nFiles = n_blocks * n_freq` -/
def branchCalls (nFiles nf : Nat) (present : Bool) : List Coll :=
  if present then List.replicate nf .barrier ++ [.barrier]
  else (List.replicate nFiles npySaveCalls).flatten ++ [.barrier]

/-- Global state: phases of the ranks and which of the `nFiles` files exist. -/
structure LookState where
  phase : Nat → Phase
  files : Nat → Bool

/-- Steps of a fit with `reuse_blocks` and `savefft` from the barrier at the end of the set-up on.  A rank inside
    `MPI.File.Open` of file `j` may create it (whatever the others do); nothing else creates files. -/
inductive LookStep (L : Lib) (p nFiles nf : Nat) : LookState → LookState → Prop
  | see (S : LookState) (r : Nat) (acc : List Bool) (hr : r < p) (h : S.phase r = .look acc)
      (hlen : acc.length < nFiles) :
      LookStep L p nFiles nf S ⟨fun q => if q = r then .look (acc ++ [S.files acc.length]) else S.phase q, S.files⟩
  | decide (S : LookState) (r : Nat) (acc : List Bool) (hr : r < p) (h : S.phase r = .look acc)
      (hlen : acc.length = nFiles) :
      LookStep L p nFiles nf S ⟨fun q => if q = r then .branch (decision acc) 0 else S.phase q, S.files⟩
  | call (S : LookState) (r : Nat) (b : Bool) (k : Nat) (c : Coll) (hr : r < p) (h : S.phase r = .branch b k)
      (hc : (branchCalls nFiles nf b)[k]? = some c)
      (hw : ∀ q, q < p → L.waits c r q → ∃ b' k', S.phase q = .branch b' k' ∧ k ≤ k' ∧
        (branchCalls nFiles nf b')[k]? = some c) :
      LookStep L p nFiles nf S ⟨fun q => if q = r then .branch b (k + 1) else S.phase q, S.files⟩
  | create (S : LookState) (r j : Nat) (hr : r < p) (h : S.phase r = .branch false (9 * j + 2)) (hj : j < nFiles) :
      LookStep L p nFiles nf S ⟨S.phase, fun i => if i = j then true else S.files i⟩

inductive LookReach (L : Lib) (p nFiles nf : Nat) (files0 : Nat → Bool) : LookState → Prop
  | init : LookReach L p nFiles nf files0 ⟨fun _ => .look [], files0⟩
  | step {S S'} : LookReach L p nFiles nf files0 S → LookStep L p nFiles nf S S' → LookReach L p nFiles nf files0 S'

end Verif.Spmd
