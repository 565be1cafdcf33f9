import Verif.Nd
/-
  Model of /repo/pyspod/utils/parallel.py (distribution, collective save/load, reductions).
-/
namespace Verif.Par
open Verif

/-- parallel.py:154-158 `_blockdist(N, size, rank)` → `(n, s)`.  `size ≥ 1` always holds for a
    communicator (division by zero is not reachable). -/
def blockdist (N size rank : Nat) : Nat × Nat :=
  let q := N / size
  let r := N % size
  let n := q + (if r > rank then 1 else 0)
  let s := rank * q + min rank r
  if rank < size then (n, s) else (0, 0)

/-- numpy `np.argmax` on a list of naturals: index of the first maximum (parallel.py:89,115);
    `none` is the `ValueError` on an empty sequence. -/
def argmax : List Nat → Option Nat
  | [] => none
  | x :: xs => match argmax xs with
    | none => some 0
    | some j => if xs.getD j 0 > x then some (j + 1) else some 0

/-- A communicator as seen by one process: `none` is `comm=None`, otherwise `(size, rank)`. -/
abbrev Comm := Option (Nat × Nat)

/-- parallel.py:132-151 `distribute_dimension(data, max_axis, comm)` on one rank. -/
def distributeDimension {α} (data : Arr α) (maxAxis : Nat) (comm : Comm) : Arr α :=
  match comm with
  | some (size, rank) =>
    let N := ext data.shape maxAxis
    let (n, s) := blockdist N size rank
    data.slice maxAxis s n
  | none => data

/-- parallel.py:83-104 `distribute(data, comm)` → `(data, max_axis, global_shape)`.
    `none`: `np.argmax` of an empty shape raises. -/
def distribute {α} (data : Arr α) (comm : Comm) : Option (Arr α × Nat × List Nat) :=
  let globalShape := data.shape
  match argmax globalShape with
  | none => none
  | some maxAxis =>
    match comm with
    | some (size, rank) =>
      let N := ext data.shape maxAxis
      let (n, s) := blockdist N size rank
      some (data.slice maxAxis s n, maxAxis, globalShape)
    | none => some (data, maxAxis, globalShape)

/-- parallel.py:106-129 `distribute_data(data, comm)`: as `distribute`, on axes 1.. (axis 0 is time).
    `data[0,...]` needs at least one snapshot, otherwise IndexError (`none`). -/
def distributeData {α} (data : Arr α) (comm : Comm) : Option (Arr α × Nat × List Nat) :=
  match data.shape with
  | [] => none
  | nt :: globalShape =>
    if nt = 0 then none else
    match argmax globalShape with
    | none => none
    | some maxAxis =>
      match comm with
      | some (size, rank) =>
        let N := ext data.shape (maxAxis + 1)
        let (n, s) := blockdist N size rank
        some (data.slice (maxAxis + 1) s n, maxAxis, globalShape)
      | none => some (data, maxAxis, globalShape)

/-! ### Collective save / load (parallel.py:186-324) -/

/-- A `.npy` file: the header's shape and the data area as a partial map position → value. -/
structure NpyFile (α : Type) where
  shape : List Nat
  data : Nat → Option α

/-- One element write `position ↦ value` into the data area. -/
abbrev Write (α : Type) := Nat × α

/-- parallel.py:196-199 exclusive scan: displacement of `rank` = sum of the extents of lower ranks. -/
def displ (counts : List Nat) (rank : Nat) : Nat := (counts.take rank).sum

/-- parallel.py:200-203,229-246: the element writes of one rank.  `Create_subarray(sizes, subsizes =
    local shape, starts, ORDER_C)` + `Write_all` put the local element `idx` at the C-order position
    of `idx + starts` in an array of shape `sizes` (MPI sub-array semantics, trusted).
    A zero-extent rank (parallel.py:238-239) writes nothing: `allIdx` is then empty. -/
def rankWrites {α} (sizes : List Nat) (ax start : Nat) (a : Arr α) : List (Write α) :=
  (allIdx a.shape).map fun idx => (ravel sizes (idx.set ax (idx.getD ax 0 + start)), a.at' idx)

/-- Global shape in the header (parallel.py:201-202,220-221): rank 0's local shape with the axis
    extent replaced by the sum over ranks. -/
def saveSizes {α} (ax : Nat) (locals : List (Arr α)) : List Nat :=
  (match locals with | [] => [] | a :: _ => a.shape).set ax ((locals.map fun a : Arr α => ext a.shape ax).sum)

/-- All element writes of all ranks, rank after rank.  (Each rank computes `sizes` from its own local
    shape; the shapes agree off-axis whenever the collective call is legal, see `Compatible`.) -/
def saveWrites {α} (ax : Nat) (locals : List (Arr α)) : List (Write α) :=
  let counts := locals.map fun a : Arr α => ext a.shape ax
  (List.range locals.length).flatMap fun r =>
    match locals[r]? with
    | some a => rankWrites (a.shape.set ax counts.sum) ax (displ counts r) a
    | none => []

/-- Apply element writes, in the given order, to the truncated file (parallel.py:212 `Set_size(0)`). -/
def applyWrites {α} (ws : List (Write α)) : Nat → Option α :=
  ws.foldl (fun f w => fun k => if k = w.1 then some w.2 else f k) (fun _ => none)

/-- parallel.py:186-248: the file left by `npy_save` when the element writes of all ranks are
    performed in the order `ws` (any permutation of `saveWrites`: ranks run concurrently). -/
def npySaveFile {α} (ax : Nat) (locals : List (Arr α)) (ws : List (Write α)) : NpyFile α :=
  { shape := saveSizes ax locals, data := applyWrites ws }

/-- parallel.py:249-250 serial branch: `np.save(filename, array)`. -/
def npSave {α} (a : Arr α) : NpyFile α :=
  { shape := a.shape
    data := fun k => if k < size a.shape then some (a.at' (unravel a.shape k)) else none }

/-- parallel.py:284-288 default per-rank count, as written: Python parses
    `count // size + count % size > rank` as `(count // size + count % size) > rank`, a bool,
    which becomes 0/1 in `np.array(count, dtype=int64)`. -/
def defaultCount (total size rank : Nat) : Nat :=
  if total / size + total % size > rank then 1 else 0

/-- parallel.py:257-321 `npy_load` on rank `rank` with per-rank counts `counts` (the values each rank
    passed, or `defaultCount`).  `none` entry: reading a position the file does not hold.
    A slab reaching past the axis extent makes `Create_subarray` fail: outer `none`. -/
def npyLoad {α} (f : NpyFile α) (ax : Nat) (counts : List Nat) (rank : Nat) : Option (Arr (Option α)) :=
  let n := counts.getD rank 0
  let s := displ counts rank
  if n > 0 ∧ s + n > ext f.shape ax then none else
  some { shape := f.shape.set ax n
         at' := fun idx => f.data (ravel f.shape (idx.set ax (idx.getD ax 0 + s))) }

/-! ### Reductions -/

/-- parallel.py:161-170 `allreduce(data, comm)` with `MPI.SUM`, seen as a function of all ranks'
    arrays (here one entry); exact addition. -/
def allreduce {M} [Add M] [Zero M] (parts : List M) : M := parts.foldr (· + ·) 0

/-! ### Sub-communicators (parallel.py:49-65) -/

/-- parallel.py:54-57: first of 3,4,2,1 dividing `size`. -/
def den (size : Nat) : Nat :=
  match [3, 4, 2, 1].find? (fun n => size % n = 0) with
  | some n => n
  | none => 1

/-- parallel.py:58-60: `dims = (a, b*den)` where `(a,b) = MPI.Compute_dims(size//den, 2)`.  `cd` stands
    for `MPI.Compute_dims(·, 2)`. -/
def subcommDims (cd : Nat → Nat × Nat) (size : Nat) : Nat × Nat :=
  let d := den size
  let (a, b) := cd (size / d)
  (a, b * d)

/-- parallel.py:61-65: with `Create_cart(dims)` (row-major, no reorder) rank ↦ coords;
    returns `(dims[0], coords[0], rank inside subcomm)`; `Sub([False, True])` keeps the second axis. -/
def subcommOf (cd : Nat → Nat × Nat) (size rank : Nat) : Nat × Nat × Nat :=
  let dims := subcommDims cd size
  (dims.1, rank / dims.2, rank % dims.2)

/-- parallel.py:178-183 `pr0`: number of lines printed by one process. -/
def pr0Prints (comm : Comm) : Nat :=
  match comm with
  | some (_, rank) => if rank = 0 then 1 else 0
  | none => 1

end Verif.Par
