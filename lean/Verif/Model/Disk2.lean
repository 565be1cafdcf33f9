import Verif.Model.Reader
/-
  Model of the `savefreq_disk2` branch of `_compute_standard_spod`
  (/repo/pyspod/spod/standard.py:257-350): redistribution of the modes so that each file
  `freq_idx_f…_m….npy` is written by one rank.

  Each rank runs a straight-line program of MPI operations (`prog`).  The MPI semantics used: messages between
  one pair of ranks are matched in the order in which they were posted (non-overtaking rule, same tag and
  communicator); `Isend`/`Irecv` never block; a `Waitall` on sends completes only when the matching receives
  have been posted (worst case, no buffering), a `Waitall` on receives when the matching sends have.
-/
namespace Verif.Disk2
open Verif Verif.Rd

/-- One operation of a rank.  `recv` carries the file number for which it was posted as a ghost. -/
inductive Op
  | send (dst item : Nat)       -- standard.py:320 Isend(s_msgs[i], dest=writer)
  | recv (src item : Nat)       -- standard.py:324-325 Irecv([data[phi0_max*irank:],…], source=irank)
  | waitS                       -- standard.py:327
  | waitR                       -- standard.py:333
  | save (f m : Nat)            -- standard.py:345-348 np.save
  deriving DecidableEq, Repr

/-- standard.py:302-303,312: the file numbers of pass `p` (`range(write_s, write_e)`). -/
def items (P total p : Nat) : List Nat :=
  let s := p * P
  let e := min ((p + 1) * P) total
  List.range' s (e - s)

/-- standard.py:301 `math.ceil(total_files/comm.size)` -/
def nPasses (P total : Nat) : Nat := (total + P - 1) / P

/-- standard.py:312-325: the posting loop of one pass on rank `rank`. -/
def posts (P rank : Nat) (is : List Nat) : List Op :=
  is.flatMap fun i =>
    let writer := i % P
    .send writer i :: (if rank = writer then (List.range P).map fun irank => .recv irank i else [])

/-- standard.py:304,322-323: the variable `write` after the posting loop. -/
def writeVar (P rank : Nat) (is : List Nat) : Option Nat :=
  is.foldl (fun w i => if rank = i % P then some i else w) none

/-- standard.py:327-348: the end of a pass (`f = i // n_modes_save`, `m = i % n_modes_save`,
    lines 313-314). -/
def finish (P ns rank : Nat) (is : List Nat) : List Op :=
  .waitS :: (match writeVar P rank is with
    | some i => [.waitR, .save (i / ns) (i % ns)]
    | none => [])

/-- standard.py:301-348: the program of one rank (`total = n_freq * n_modes_save`, line 299). -/
def prog (P nf ns rank : Nat) : List Op :=
  (List.range (nPasses P (nf * ns))).flatMap fun p =>
    posts P rank (items P (nf * ns) p) ++ finish P ns rank (items P (nf * ns) p)

/-- number of sends to `d` in a program prefix -/
def nSends (d : Nat) (l : List Op) : Nat :=
  (l.filter fun o => match o with | .send d' _ => d' == d | _ => false).length

/-- number of receives from `s` in a program prefix -/
def nRecvs (s : Nat) (l : List Op) : Nat :=
  (l.filter fun o => match o with | .recv s' _ => s' == s | _ => false).length

/-- Can rank `r` execute its next operation?  `pc q` is the number of operations executed by rank `q`. -/
def enabled (P : Nat) (progs : Nat → List Op) (pc : Nat → Nat) (r : Nat) : Prop :=
  match (progs r)[pc r]? with
  | none => False
  | some .waitS => ∀ d, d < P → nSends d ((progs r).take (pc r)) ≤ nRecvs r ((progs d).take (pc d))
  | some .waitR => ∀ s, s < P → nRecvs s ((progs r).take (pc r)) ≤ nSends r ((progs s).take (pc s))
  | some _ => True

/-- One step of the parallel program: some enabled rank advances. -/
def Step (P : Nat) (progs : Nat → List Op) (pc pc' : Nat → Nat) : Prop :=
  ∃ r, r < P ∧ enabled P progs pc r ∧ pc' = fun q => if q = r then pc q + 1 else pc q

/-- file numbers sent to `d`, in program order -/
def sentTo (d : Nat) (l : List Op) : List Nat :=
  l.filterMap fun o => match o with | .send d' i => if d' = d then some i else none | _ => none

/-- file numbers for which a receive from `s` was posted, in program order -/
def recvFrom (s : Nat) (l : List Op) : List Nat :=
  l.filterMap fun o => match o with | .recv s' i => if s' = s then some i else none | _ => none

/-- files saved by a program -/
def saves (l : List Op) : List (Nat × Nat) :=
  l.filterMap fun o => match o with | .save f m => some (f, m) | _ => none

/-! ### Assembly of one file from the padded messages -/

/-- standard.py:317-318: zero-padded message of length `mx`. -/
def padded {α} (zero : α) (mx : Nat) (msg : List α) : List α := msg ++ List.replicate (mx - msg.length) zero

/-- standard.py:306,324-325: the receive buffer of the writer once all receives completed. -/
def recvData {α} (zero : α) (mx : Nat) (msgs : List (List α)) : List α :=
  (msgs.map (padded zero mx)).flatten

/-- standard.py:336-341: in-place compaction; iteration `irank` copies
    `data[irank*mx : irank*mx+recvcounts[irank]]` to
    `data[sum(recvcounts[:irank]) : sum(recvcounts[:irank+1])]` (numpy copies overlapping slices as if
    through a temporary).  `none` = shape mismatch. -/
def compact {α} (mx : Nat) (counts : List Nat) (data : List α) : Option (List α) :=
  (List.range counts.length).foldlM (fun d irank =>
    let start := irank * mx
    let stop := start + counts.getD irank 0
    assignSlice d (counts.take irank).sum (counts.take (irank + 1)).sum (pslice d start stop)) data

/-- standard.py:336-344: flat content of the saved file (before the reshape to `xshape + (nv,)`).
    `mx = phi0_max` is the maximum of the local sizes (line 292) and `recvcounts` the local sizes. -/
def fileContent {α} (zero : α) (msgs : List (List α)) : Option (List α) :=
  let counts := msgs.map List.length
  let mx := counts.foldl max 0
  (compact mx counts (recvData zero mx msgs)).map fun d => d.take counts.sum

end Verif.Disk2
