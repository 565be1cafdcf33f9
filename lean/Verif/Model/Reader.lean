import Verif.Model.Parallel
/-
  Model of /repo/pyspod/utils/reader.py.

  A dataset is the list of its snapshots (time is axis 0); `β` is the type of one snapshot as stored on the
  rank (for the 1-stage reader: the rank's slab of the snapshot, with the trailing axis of length one that
  reader.py:88-91,96-97 add for single-variable data; the slab is taken per snapshot because
  `distribute_data` never splits axis 0, see `distributeData_gather`).
-/
namespace Verif.Rd
open Verif Verif.Par

/-- Python list/array slice `l[a:b]` with `0 ≤ a` (clamped). -/
def pslice {β} (l : List β) (a b : Nat) : List β := (l.drop a).take (b - a)

/-- numpy assignment `buf[a:b] = src` along axis 0: the slice is clamped to `buf`; a source of another
    length is an error unless it has length one (broadcast).  `none` = ValueError. -/
def assignSlice {β} (buf : List β) (a b : Nat) (src : List β) : Option (List β) :=
  let b' := min b buf.length
  let n := b' - a
  if src.length = n then some (buf.take a ++ src ++ buf.drop (a + n))
  else match src with
    | [x] => some (buf.take a ++ List.replicate n x ++ buf.drop (a + n))
    | _ => none

/-! ### One-stage reader (reader.py:20-106) -/

/-- Loop state of `get_data_for_time`: `tmp_nt`, `cum_read`, `data`. -/
structure RState (β : Type) where
  tmpNt : Nat
  cumRead : Nat
  data : Option (List β)

/-- One iteration of the loop reader.py:77-104 (`none` = exception).  `zero` is the entry of `np.zeros`. -/
def step1 {β} (zero : β) (ts te : Nat) (st : RState β) (d : List β) : Option (RState β) :=
  let fileStart := st.tmpNt
  let fileEnd := st.tmpNt + d.length
  let js := max ts fileStart
  let je := min te fileEnd
  if je > js then
    let buf := st.data.getD (List.replicate (te - ts) zero)
    -- reader.py:100: `d_idx[0] = np.s_[read_js-cum_read:read_je-cum_read]`
    let src := pslice d (js - st.cumRead) (je - st.cumRead)
    match assignSlice buf st.cumRead (st.cumRead + (je - js)) src with
    | some buf' => some { tmpNt := st.tmpNt + d.length, cumRead := st.cumRead + (je - js), data := some buf' }
    | none => none
  else some { st with tmpNt := st.tmpNt + d.length }

/-- reader.py:71-106 `get_data_for_time(ts, te)`: outer `none` = exception, inner `none` = Python `None`. -/
def getDataForTime1 {β} (zero : β) (files : List (List β)) (ts te : Nat) : Option (Option (List β)) :=
  let rec go : List (List β) → RState β → Option (RState β)
    | [], st => some st
    | d :: ds, st => match step1 zero ts te st d with
      | some st' => go ds st'
      | none => none
  (go files ⟨0, 0, none⟩).map (·.data)

/-- reader.py:65-69 `get_data(ts=None)`. -/
def getData1 {β} (zero : β) (files : List (List β)) (ts : Option Nat) : Option (Option (List β)) :=
  match ts with
  | none => getDataForTime1 zero files 0 (files.map List.length).sum
  | some t => getDataForTime1 zero files t (t + 1)

/-- reader.py:92,101 with the dtype used by spod/base.py:90-93,402 (`self._float`): `np.zeros(shape,
    dtype=float)`, then assignment of complex values keeps the real part only (numpy ComplexWarning).
    A complex value is a pair. -/
def storeFloat {K} (z : K × K) : K := z.1

/-- reader.py:60 `is_real = np.isreal(x_tmp).all()` with `x_tmp = data_list[0][[0],...]`: looks at the first
    snapshot of the first dataset only.  A snapshot is the list of its complex values. -/
def isReal1 {K} [DecidableEq K] [Zero K] (files : List (List (List (K × K)))) : Bool :=
  match files with
  | (snap :: _) :: _ => snap.all fun z => z.2 = 0
  | _ => true

/-! ### Two-stage reader (reader.py:165-414) -/

/-- reader.py:205 `self._file_time[f] = (nt, nt+shape[0])`, a Python dict keyed by file name:
    re-inserting an existing key keeps its position and replaces its value. -/
def dictSet {V} (d : List (String × V)) (k : String) (v : V) : List (String × V) :=
  match d with
  | [] => [(k, v)]
  | (k', v') :: rest => if k' = k then (k, v) :: rest else (k', v') :: dictSet rest k v

/-- reader.py:203-212: the loop building `_file_time`; returns the dict and `nt`. -/
def fileTime : List (String × Nat) → List (String × Nat × Nat) × Nat :=
  let rec go (d : List (String × Nat × Nat)) (nt : Nat) : List (String × Nat) → List (String × Nat × Nat) × Nat
    | [] => (d, nt)
    | (f, len) :: rest => go (dictSet d f (nt, nt + len)) (nt + len) rest
  go [] 0

/-- reader.py:273-279: `time_from`/`time_to` are the labels of the first and last wanted snapshot and
    `.sel(slice(time_from, time_to))` returns every snapshot whose label lies in the closed interval
    (xarray semantics for an increasing index). -/
def selLabels {β} (labels : List Int) (snaps : List β) (lo hi : Int) : List β :=
  ((labels.zip snaps).filter fun p => lo ≤ p.1 ∧ p.1 ≤ hi).map (·.2)

/-- A NetCDF file: time labels and snapshots (each snapshot flattened over space, all variables). -/
structure NcFile (β : Type) where
  labels : List Int
  snaps : List β

/-- One iteration of the loop reader.py:260-283 on a rank that must read `[js, je)`; state
    `(cum_t, cum_read, input_data)`.  `none` = AssertionError / ValueError / IndexError. -/
def step2 {β} (js je : Nat) (content : String → NcFile β) (st : Nat × Nat × List β)
    (kv : String × Nat × Nat) : Option (Nat × Nat × List β) :=
  let (cumT, cumRead, input) := st
  let (k, v0, v1) := kv
  let djs := cumT
  let dje := djs + (v1 - v0)
  if djs ≠ v0 then none else         -- assert d_js == v[0]
  let rjs := max djs js
  let rje := min dje je
  if rje > rjs then
    let f := content k
    match f.labels[rjs - cumT]?, f.labels[rje - cumT - 1]? with
    | some lo, some hi =>
      let vals := selLabels f.labels f.snaps lo hi
      match assignSlice input cumRead (cumRead + (rje - rjs)) vals with
      | some input' => some (cumT + (v1 - v0), cumRead + (rje - rjs), input')
      | none => none
    | _, _ => none
  else some (cumT + (v1 - v0), cumRead, input)

/-- the whole reading loop of one rank, reader.py:255-283 -/
def readLoop2 {β} (js je : Nat) (content : String → NcFile β) :
    List (String × Nat × Nat) → Nat × Nat × List β → Option (Nat × Nat × List β)
  | [], st => some st
  | kv :: rest, st => match step2 js je content st kv with
    | some st' => readLoop2 js je content rest st'
    | none => none

/-- reader.py:247-283: `input_data` of rank `rank` (`nreaders` readers) for the interval `[ts,te)`. -/
def inputData2 {β} (zero : β) (names : List String) (content : String → NcFile β) (nreaders : Nat)
    (ts te rank : Nat) : Option (List β) :=
  let (n, s) := blockdist (te - ts) nreaders rank
  let js := ts + s
  let je := ts + s + n
  let ft := (fileTime (names.map fun f => (f, (content f).snaps.length))).1
  (readLoop2 js je content ft (0, 0, List.replicate n zero)).map (·.2.2)

/-- A snapshot flattened over space with `nv` variables: array of shape `[n_all_xyz, nv]`. -/
abbrev Snap (α : Type) := Arr α

/-- `input_data` as an array of shape `(n_dist_time, n_all_xyz, nv)` (reader.py:258). -/
def stack {α} [Inhabited α] (nx nv : Nat) (snaps : List (Snap α)) : Arr α where
  shape := [snaps.length, nx, nv]
  at' := fun idx => match idx with
    | t :: rest => match snaps[t]? with
      | some s => s.at' rest
      | none => default
    | [] => default

/-- reader.py:315-316 message from a sender holding `input` to `irank`:
    `input_data[:, s_irank:s_irank+n_irank, :]`. -/
def message {α} (nx size : Nat) (input : Arr α) (irank : Nat) : Arr α :=
  let (n, s) := blockdist nx size irank
  input.slice 1 s n

/-- reader.py:306-330: the buffer `data` of rank `rank`, shape `(te-ts, n_local, nv)`, after all receives.
    The message of sender `q` lands contiguously (C order) from row `offset[q] = Σ_{p<q} nt_p`.
    The element writes of all messages may happen in any order `ws` (a permutation of `saveWrites 0 msgs`:
    same placement rule as a sub-array write with axis 0, whose displacement is the same scan). -/
def recvBuffer {α} (shape : List Nat) (ws : List (Write α)) : Arr (Option α) where
  shape := shape
  at' := fun idx => applyWrites ws (ravel shape idx)

/-- reader.py:376-414 `get_data()`: the `(s, e)` entries of the dictionary, in insertion order. -/
def dictIntervals (nt nchunks nblks : Nat) : List (Nat × Nat) :=
  (List.range nchunks).flatMap fun chunk =>
    let (tn, t_s) := blockdist nt nchunks chunk
    (List.range nblks).map fun blk =>
      let (bn, bs) := blockdist tn nblks blk
      (t_s + bs, t_s + bs + bn)

/-- reader.py:376-414 with the values: `v = x[blk_t_s:blk_t_e]`, `x` the snapshots of the chunk as
    returned by `get_data_for_time(t_s, t_e)` (parameter `get`). -/
def dictPieces {β} (get : Nat → Nat → List β) (nt nchunks nblks : Nat) : List (Nat × Nat × List β) :=
  (List.range nchunks).flatMap fun chunk =>
    let (tn, t_s) := blockdist nt nchunks chunk
    let x := get t_s (t_s + tn)
    (List.range nblks).map fun blk =>
      let (bn, bs) := blockdist tn nblks blk
      (t_s + bs, t_s + bs + bn, pslice x bs (bs + bn))

/-! ### MATLAB reader (reader.py:472-580): one file per snapshot, files sorted by name -/

/-- insertion sort on names (any sorting algorithm gives the same list, names are totally ordered);
    models Python `sorted(data_list)`, reader.py:481 -/
def insertName (x : String) : List String → List String
  | [] => [x]
  | y :: ys => if x < y then x :: y :: ys else y :: insertName x ys

def sortNames : List String → List String
  | [] => []
  | x :: xs => insertName x (sortNames xs)

/-- reader.py:552-578: loop over the sorted files; the rank keeps snapshots with index in `[js,je)`. -/
def matInput {β} (files : List String) (content : String → β) (js je : Nat) : List β :=
  let rec go (cumT : Nat) : List String → List β
    | [] => []
    | f :: fs =>
      let rjs := max cumT js
      let rje := min (cumT + 1) je
      if rje > rjs then content f :: go (cumT + 1) fs else go (cumT + 1) fs
  go 0 (sortNames files)

end Verif.Rd
