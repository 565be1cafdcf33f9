import Verif.Model.Store
/-
  Sessions of a Python process with the functions that take paths
  (/repo/pyspod/utils/postproc.py:88-170, /repo/pyspod/spod/utils.py:79-200, 441-538, 684-720, /repo/pyspod/spod/base.py:39, 81-83):
  the working directory, the folders that are accessed, and the arrays handed out.
  Simplifications: paths have no `..` and no symbolic links; the contents of a folder are one value each (`M` the modes, `H` weights, parameters and
  eigenvalues, `C` the files of a projection); file systems do not fail otherwise.
-/
namespace Verif.Api
open Verif.Names Verif.Store

/-- a place in the file system: the components below the root (os.path; postproc.py:135) -/
abbrev Loc := List String

/-- a path as a string: absolute or relative, and its components (spod/utils.py:686) -/
structure Path where
  abs : Bool
  parts : List String
  deriving DecidableEq, Repr

/-- `os.path.join(a, b)` (spod/utils.py:686, postproc.py:135) -/
def join (a b : Path) : Path := if b.abs then b else ⟨a.abs, a.parts ++ b.parts⟩

/-- the place the operating system finds for a path when the working directory is `cwd` (postproc.py:106, 136) -/
def locate (cwd : Loc) (p : Path) : Loc := if p.abs then p.parts else cwd ++ p.parts

/-- `os.path.join(CWD, p)` where `CWD` is the working directory at the time of the import (spod/utils.py:16, 470, 686; spod/base.py:39, 82) -/
def fromImport (cwd0 : Loc) (p : Path) : Path := join ⟨true, cwd0⟩ p

/-- the component of the folder of modes (postproc.py:105, 135; base.py:525) -/
def modesPart : Path := ⟨false, ["modes"]⟩

/-- the component `coeffs_{f_idx_lb}_{f_idx_ub}` (spod/utils.py:166, 341) -/
def coeffsPart (lb ub : Nat) : Path := ⟨false, ["coeffs_" ++ toString lb ++ "_" ++ toString ub]⟩

/-- what is on disk (folders made by base.py:513-529 and spod/utils.py:168-169) -/
structure Disk (M H C : Type) where
  dirs : Loc → Bool
  modes : Loc → Option M
  head : Loc → Option H
  coefs : Loc → Option C

/-- the calls of a session; `D` is the data to be projected and the other arguments -/
inductive Call (D : Type)
  | getAllModes (p : Path)
  | getModes (p : Path)
  | coeffs (p : Path) (lb ub : Nat) (d : D)
  | reconstruct (c : Path)
  | chdir (p : Path)

/-- what a call gives: modes, the folder of the coefficients (as the string that is returned), the coefficients a reconstruction is made from, nothing, or
    an exception -/
inductive Out (M C : Type)
  | modes (m : M)
  | folder (p : Path)
  | recon (c : C)
  | unit
  | raised
  deriving DecidableEq

section
variable {M H C D : Type}

/-- the result of a projection is put into its folder (spod/utils.py:166-170, 180-216); the folder is made, with those above it, if it does not exist -/
def Disk.put (s : Disk M H C) (l : Loc) (c : C) : Disk M H C :=
  { s with dirs := fun l' => l'.isPrefixOf l || s.dirs l', coefs := fun l' => if l' = l then some c else s.coefs l' }

/-- `get_all_modes` (postproc.py:133-144): `os.chdir` to the folder of modes, then the files there; the working directory stays changed, also when
    reading fails. -/
def getAllModes (cwd : Loc) (s : Disk M H C) (p : Path) : Loc × Out M C :=
  let l := locate cwd (join p modesPart)
  if s.dirs l then
    (l, match s.modes l with | some m => .modes m | none => .raised)
  else (cwd, .raised)

/-- `get_modes_at_freq` (postproc.py:104-121): relative to the working directory -/
def getModes (cwd : Loc) (s : Disk M H C) (p : Path) : Out M C :=
  match s.modes (locate cwd (join p modesPart)) with
  | some m => .modes m
  | none => .raised

/-- `compute_coeffs_op` and `compute_coeffs_conv` (spod/utils.py:110, 161-166, 684-700, 711-716; 254-255, 319-324, 341): weights, parameters and
    eigenvalues from the folder relative to the directory of the import, modes from the folder relative to the working directory; the results go to a
    folder relative to the working directory. -/
def coeffs (project : H → M → D → C) (cwd0 cwd : Loc) (s : Disk M H C) (p : Path) (lb ub : Nat) (d : D) : Disk M H C × Out M C :=
  match s.head (locate cwd (fromImport cwd0 p)), s.modes (locate cwd (join p modesPart)) with
  | some h, some m =>
    let dir := join p (coeffsPart lb ub)
    (s.put (locate cwd dir) (project h m d), .folder dir)
  | _, _ => (s, .raised)

/-- `compute_reconstruction` (spod/utils.py:470-490): relative to the directory of the import -/
def reconstruct (cwd0 cwd : Loc) (s : Disk M H C) (c : Path) : Out M C :=
  match s.coefs (locate cwd (fromImport cwd0 c)) with
  | some x => .recon x
  | none => .raised

/-- one call of a session; `chdir` is `os.chdir` called by the user (raises for a missing folder) -/
def call (project : H → M → D → C) (cwd0 : Loc) (w : Loc × Disk M H C) : Call D → (Loc × Disk M H C) × Out M C
  | .getAllModes p => let r := getAllModes w.1 w.2 p; ((r.1, w.2), r.2)
  | .getModes p => (w, getModes w.1 w.2 p)
  | .coeffs p lb ub d => let r := coeffs project cwd0 w.1 w.2 p lb ub d; ((w.1, r.1), r.2)
  | .reconstruct c => (w, reconstruct cwd0 w.1 w.2 c)
  | .chdir p => if w.2.dirs (locate w.1 p) then ((locate w.1 p, w.2), .unit) else (w, .raised)

/-- a session: what its calls give, one after the other (the process starts in the directory of the import, spod/utils.py:16) -/
def session (project : H → M → D → C) (cwd0 : Loc) : Loc × Disk M H C → List (Call D) → List (Out M C)
  | _, [] => []
  | w, c :: cs => (call project cwd0 w c).2 :: session project cwd0 (call project cwd0 w c).1 cs

end

/-! ### Arrays handed out by `get_modes_at_freq` -/

section
variable {α : Type}

/-- an array handed out: a window on a file (`open_memmap`, postproc.py:162, mode `r+` by default) or an array of its own -/
inductive Handle (α : Type)
  | mapped (n : Name)
  | own (c : List α)

/-- `get_modes_at_freq` (postproc.py:104-121): the file of the frequency is mapped, files of single modes are copied. -/
def openModes (d : Dir (List α)) (f : Nat) : Option (Handle α) :=
  match d.read (freqName f) with
  | some _ => some (.mapped (freqName f))
  | none => (Store.getModes d f).map .own

/-- `get_all_modes` (postproc.py:141-144): `np.stack` copies -/
def openAll (d : Dir (List α)) : Option (List (Handle α)) := (Store.getAllModes d).map (·.map .own)

/-- what the caller sees in the array (numpy; contract of `open_memmap`, postproc.py:162) -/
def Handle.value (d : Dir (List α)) : Handle α → List α
  | .mapped n => (d.read n).getD []
  | .own c => c

/-- the caller changes the array in place, e.g. `m *= 2` (numpy; contract of `open_memmap`, postproc.py:162) -/
def Handle.update (d : Dir (List α)) (h : Handle α) (g : List α → List α) : Dir (List α) × Handle α :=
  match h with
  | .mapped n => (d.write n (g (h.value d)), h)
  | .own c => (d, .own (g c))

/-- a sequence of changes (postproc.py:162) -/
def Handle.updates (d : Dir (List α)) (h : Handle α) (gs : List (List α → List α)) : Dir (List α) × Handle α :=
  gs.foldl (fun s g => s.2.update s.1 g) (d, h)

/-- a file with its permission to write (spod/utils.py:697, postproc.py:162: `open_memmap` opens with mode `r+`) -/
structure RFile (α : Type) where
  content : List α
  writable : Bool
  deriving DecidableEq

/-- `np.lib.format.open_memmap(filename)` (postproc.py:162): mode `r+`; `none` = PermissionError -/
def memmap (f : RFile α) : Option (List α) := if f.writable then some f.content else none

/-- `get_modes_at_freq` (postproc.py:104-121) on files with permissions; `np.load` needs no permission to write -/
def readModes (d : Dir (RFile α)) (f : Nat) : Option (List α) :=
  match d.read (freqName f) with
  | some c => memmap c
  | none => Store.getModes (d.map fun e => (e.1, e.2.content)) f

/-- the files of weights and eigenvalues read before a projection (spod/utils.py:684-700): `weights.npy` is mapped, the others are only read -/
def readWeights (w : RFile α) : Option (List α) := memmap w

end

end Verif.Api
