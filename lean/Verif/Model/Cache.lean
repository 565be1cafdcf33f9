import Verif.Model.Parallel
import Verif.Model.Names
/-
  Model of the cache of Fourier blocks: saving, the presence test, reloading
  (/repo/pyspod/spod/standard.py:53-127, /repo/pyspod/spod/base.py:531-536,836-855) and of crashes while
  the cache is written.
-/
namespace Verif.Cache
open Verif Verif.Par Verif.Names

/-! ### presence test -/

/-- base.py:837-855 `_are_blocks_present`, with its two counters; `ex` is `os.path.exists`. -/
def areBlocksPresent (nBlocks nFreq : Nat) (ex : Name → Bool) : Bool :=
  let allBlocks := (List.range nBlocks).foldl (fun all b =>
    let allFreq := (List.range nFreq).foldl (fun c f => if ex (fftName b f) then c + 1 else c) 0
    if allFreq = nFreq then all + 1 else all) 0
  allBlocks = nBlocks

/-- What `fit` does about Fourier blocks. -/
inductive Source | cache | recompute | attributeError
  deriving DecidableEq

/-- standard.py:53-63,83.  `self._blocks_folder` only exists when `savefft` is set (base.py:532-533); reading
    it otherwise (standard.py:57) is an AttributeError. -/
def source (reuse savefft : Bool) (nBlocks nFreq : Nat) (ex : Name → Bool) : Source :=
  if reuse then
    if savefft then (if areBlocksPresent nBlocks nFreq ex then .cache else .recompute)
    else .attributeError
  else .recompute

/-! ### writing and reading one cached block -/

section Reload
variable {K : Type} [Inhabited K]

/-- `a.shape = sh` without unknown extent: ValueError unless the sizes agree (C order). -/
def reshapeExact (sh : List Nat) (v : List K) : Option (Arr K) :=
  if size sh = v.length then some ⟨sh, fun idx => v.getD (ravel sh idx) default⟩ else none

/-- `a.shape = sh` with `sh[ax] = -1`; `shape[ax] = -1` itself is an IndexError past the end. -/
def reshapeInfer (sh : List Nat) (ax : Nat) (v : List K) : Option (Arr K) :=
  if ax < sh.length then
    let others := size (sh.set ax 1)
    if 0 < others ∧ v.length % others = 0 then reshapeExact (sh.set ax (v.length / others)) v else none
  else none

/-- standard.py:104-115 without communicator: file of one (block, frequency). -/
def cacheFileSer (xshape : List Nat) (v : List K) : Option (NpyFile K) := (reshapeExact xshape v).map npSave

/-- standard.py:110-112 with a communicator: the local arrays the ranks hand to `npy_save`, from the ranks'
    local Fourier vectors. -/
def cacheLocals (xshape : List Nat) (ax : Nat) (vecs : List (List K)) : Option (List (Arr K)) :=
  vecs.mapM (reshapeInfer xshape ax)

/-- `np.load`: fails when the data area is shorter than the header says. -/
def npLoad (f : NpyFile K) : Option (Arr K) :=
  if (List.range (size f.shape)).all (fun k => (f.data k).isSome) then
    some ⟨f.shape, fun idx => (f.data (ravel f.shape idx)).getD default⟩
  else none

/-- The shape of an array seen with `n` axes (numpy aligns from the last axis): missing leading axes have extent 1, extra
    leading axes are left out. -/
def aligned (n : Nat) (sh : List Nat) : List Nat := List.replicate (n - sh.length) 1 ++ sh.drop (sh.length - n)

/-- numpy assignment `target[...] = a` (standard.py:75): extra leading axes of `a` must have extent 1; every other
    extent must agree or be 1 (broadcast); otherwise ValueError. -/
def assignTo (target : List Nat) (a : Arr K) : Option (Arr K) :=
  if (a.shape.take (a.shape.length - target.length)).all (· = 1) ∧
      (List.range target.length).all (fun i => ext (aligned target.length a.shape) i = ext target i ∨
        ext (aligned target.length a.shape) i = 1) then
    some ⟨target, fun idx => a.at' (List.replicate (a.shape.length - target.length) 0 ++
      ((List.range target.length).map fun i => if ext (aligned target.length a.shape) i = 1 then 0 else idx.getD i 0).drop
        (target.length - a.shape.length))⟩
  else none

/-- standard.py:65-81 on one rank, one frequency: load the files of all blocks into
    `Q[..., i_blk]` of shape `[*xshape, n_blocks]`, distribute, reshape to `[size of Q[...,0], n_blocks]`. -/
def cachedQ (xshape : List Nat) (nBlocks ax : Nat) (comm : Comm) (files : Nat → NpyFile K) : Option (Arr K) :=
  if (List.range nBlocks).all (fun b => ((npLoad (files b)).bind (assignTo xshape)).isSome) then
    let Q : Arr K := ⟨xshape ++ [nBlocks], fun idx =>
      match (npLoad (files (idx.getLastD 0))).bind (assignTo xshape) with
      | some a => a.at' idx.dropLast
      | none => default⟩
    let D := distributeDimension Q ax comm
    some ⟨[size D.shape.dropLast, nBlocks], fun idx =>
      D.at' (unravel D.shape (idx.getD 0 0 * nBlocks + idx.getD 1 0))⟩
  else none

/-- standard.py:409-423 `_flip_qhat` at one frequency: the freshly computed blocks as columns. -/
def freshQ (vs : List (List K)) : Arr K :=
  ⟨[((vs.getLast?).getD []).length, vs.length], fun idx => (vs.getD (idx.getD 1 0) []).getD (idx.getD 0 0) default⟩

end Reload

/-! ### crashes -/

/-- State of one cache file: absent, opened but not completely written, complete. -/
inductive FileState (α : Type) | absent | incomplete | complete (c : α)

/-- File operations of `np.save` (standard.py:113-115 without communicator): create/truncate, then
    complete. -/
inductive FileOp (α : Type) | open_ (b f : Nat) | done (b f : Nat) (c : α)

/-- state of the cache folder -/
abbrev Folder (α : Type) := Nat → Nat → FileState α

/-- the empty folder -/
def emptyFolder {α : Type} : Folder α := fun _ _ => .absent

/-- effect of one operation -/
def stepOp {α : Type} (s : Folder α) : FileOp α → Folder α
  | .open_ b f => fun b' f' => if b' = b ∧ f' = f then .incomplete else s b' f'
  | .done b f c => fun b' f' => if b' = b ∧ f' = f then .complete c else s b' f'

/-- the loop nest standard.py:93,106: blocks outermost, then frequencies -/
def cacheItems (nBlocks nFreq : Nat) : List (Nat × Nat) :=
  (List.range nBlocks).flatMap fun b => (List.range nFreq).map fun f => (b, f)

/-- all operations of a fit that saves its blocks `q b f` -/
def saveOps {α : Type} (nBlocks nFreq : Nat) (q : Nat → Nat → α) : List (FileOp α) :=
  (cacheItems nBlocks nFreq).flatMap fun bf => [.open_ bf.1 bf.2, .done bf.1 bf.2 (q bf.1 bf.2)]

/-- The folder after a fit is interrupted once it has performed `k` operations (`k ≥` their number: not
    interrupted). -/
def crashed {α : Type} (s : Folder α) (nBlocks nFreq : Nat) (q : Nat → Nat → α) (k : Nat) : Folder α :=
  ((saveOps nBlocks nFreq q).take k).foldl stepOp s

/-- `os.path.exists` -/
def existsFile {α : Type} (s : Folder α) (b f : Nat) : Bool :=
  match s b f with | .absent => false | _ => true

/-- What a later fit with `reuse_blocks` (and `savefft`) works from: `none` = an exception (`np.load` of an
    incomplete file), otherwise the block values.  standard.py:53-100; the presence test is
    `areBlocksPresent` (see `blocks_present_iff`). -/
def reuseFit {α : Type} (s : Folder α) (nBlocks nFreq : Nat) (q : Nat → Nat → α) : Option (Nat → Nat → α) :=
  if (cacheItems nBlocks nFreq).all (fun bf => existsFile s bf.1 bf.2) then
    if (cacheItems nBlocks nFreq).all (fun bf => match s bf.1 bf.2 with | .complete _ => true | _ => false) then
      some fun b f => match s b f with | .complete c => c | _ => q b f
    else none
  else some q

/-- `np.load` of a file of which only some element writes reached the disk (parallel save interrupted in
    `Write_all`, parallel.py:246; rank 0 has written the header before, parallel.py:215-226).  Bytes skipped
    by a write further on read as zero; the load fails if the file is too short. -/
def npLoadSparse {K : Type} [Zero K] (f : NpyFile K) : Option (Arr K) :=
  if (List.range (size f.shape)).all (fun k =>
      (List.range (size f.shape)).any fun k' => decide (k ≤ k') && (f.data k').isSome) then
    some ⟨f.shape, fun idx => (f.data (ravel f.shape idx)).getD 0⟩
  else none

end Verif.Cache
