import Verif.Model.Names
import Verif.Model.Parallel
import Verif.Model.Training
import Verif.Model.Peaks
import Verif.Model.Coeffs
import Verif.Model.Plots
/-
  The plotting methods of fitted objects (/repo/pyspod/spod/base.py:756-1097) around the functions of
  /repo/pyspod/utils/postproc.py: names of the files, the report on several ranks, sizes printed by a fit.
-/
namespace Verif.Meth

open Verif.Names (Name Dir digitChar)
open Verif

/-! ## Names of the picture files -/

/-- `f'{n}'` for a natural number (postproc.py:532) -/
def showNat (n : Nat) : Name := if n = 0 then ['0'] else (Nat.digits 10 n).reverse.map digitChar

/-- `f'{i}'` for an integer (postproc.py:532, 935, 1037, 1061, 1160, 1228, 1460) -/
def showInt (i : Int) : Name := if i < 0 then '-' :: showNat i.natAbs else showNat i.natAbs

/-- `splitext(p)[0]` (postproc.py:531): what precedes the extension -/
def pyBase (p : Name) : Name := p.take (p.length - (Train.pyExt p).length)

/-- `f'{basename}{tag}{ext}'` with `basename, ext = splitext(filename)` (postproc.py:531-532, 934-935, 1060-1061, 1159-1160, 1416, 1460) -/
def tagged (file tag : Name) : Name := pyBase file ++ tag ++ Train.pyExt file

/-- what a picture shows: its indices, by kind of plot -/
inductive Shot where
  /-- `plot_2d_modes_at_frequency` (postproc.py:532), `plot_3d_modes_slice_at_frequency` (935) -/
  | mode (var mode : Int)
  /-- `plot_2d_data` (postproc.py:1160) -/
  | data (var time : Int)
  /-- `plot_coeffs` (postproc.py:1061) -/
  | coeff (idx : Int)
  /-- `generate_2d_data_video` (postproc.py:1460) -/
  | video (var : Int)
  deriving DecidableEq

/-- the text inserted into the file name (postproc.py:532, 935, 1061, 1160, 1460) -/
def tag : Shot → Name
  | .mode v m => ['_','v','a','r'] ++ showInt v ++ ['_','m','o','d','e'] ++ showInt m
  | .data v t => ['_','v','a','r'] ++ showInt v ++ ['_','t','i','m','e'] ++ showInt t
  | .coeff c => ['_','c','o','e','f','f','_','i','d'] ++ showInt c
  | .video v => ['_','v','a','r'] ++ showInt v

/-- the file of a picture (postproc.py:529-533 and the other places above) -/
def shotName (file : Name) (s : Shot) : Name := tagged file (tag s)

/-- the pictures of calls with given file names, saved in order into one folder (postproc.py:413-533, 1045-1062, 1108-1161, 1422-1463);
    writing replaces -/
def saveShots {β} (d : Dir β) (shots : List (Name × Shot × β)) : Dir β :=
  shots.foldl (fun d s => d.write (shotName s.1 s.2.1) s.2.2) d

/-- `plot_mode_tracers` (postproc.py:1036-1037): the name holds the coordinates found and the variable and the last mode -/
def tracerName (file coords : Name) (v m : Int) : Name :=
  tagged file (['_','c','o','o','r','d','s'] ++ coords ++ tag (.mode v m))

/-- `plot_data_tracers` (postproc.py:1228) -/
def dataTracerName (file coords : Name) (v : Int) : Name := tagged file (['_','c','o','o','r','d','s'] ++ coords ++ tag (.video v))

/-! ## The report on several ranks -/

/-- a page of the report: the spectrum with the marked peak (spod/base.py:1028-1066) or the picture of a mode (1068-1077) -/
inductive Page where
  /-- index of the mode, index of the marked frequency in the whole frequency axis -/
  | spectrum (mode freq : Nat)
  /-- index of the frequency whose modes are read, variable, mode -/
  | picture (freq var mode : Nat)
  deriving DecidableEq

/-- method `plot_2d_modes_at_frequency` as the report calls it (spod/base.py:900-916, 1068-1077; postproc.py:391, 394-395, 413-418): the pages
    added on one rank; only rank 0 draws; modes beyond the `stored` ones are skipped; `none` = exception (no frequencies) -/
noncomputable def modeMethod (rank : Nat) (freqReq : ℝ) (freq : List ℝ) (vars modes : List Nat) (stored : Nat) : Option (List Page) :=
  if rank = 0 then
    (Coef.findNearestFreq freqReq freq).map fun r => (Plots.modePages vars modes stored).map fun q => .picture r.2 q.1 q.2
  else some []

/-- the pages of `plot_report` on one rank (spod/base.py:1018-1077); the marked frequency is entry `x` of `self._freq[1:]` -/
noncomputable def rankPages (rank : Nat) (freq : List ℝ) (eigs : List (List ℝ)) (stored : Nat) : Option (List Page) := do
  let peaks ← Peaks.reportPages freq eigs
  let pages ← peaks.mapM fun (q : Nat × Nat) =>
    (modeMethod rank (freq.tail.getD q.2 0) freq [0] [q.1] stored).map fun l => Page.spectrum q.1 (q.2 + 1) :: l
  return pages.flatten

/-- the report file when all ranks of a communicator call `plot_report(path, filename)` (spod/base.py:1018: `with PdfPages(...)` on every rank):
    every rank writes the same file when it leaves the `with` block; `order` = the order in which they do.  Simplification: a rank's writing is
    atomic. -/
noncomputable def reportFile (order : List Nat) (freq : List ℝ) (eigs : List (List ℝ)) (stored : Nat) (d : Dir (List Page)) (name : Name) :
    Option (Dir (List Page)) :=
  order.foldlM (fun d r => (rankPages r freq eigs stored).map fun pages => d.write name pages) d

/-! ## Methods and functions -/

/-- the functions defined in postproc.py (41-1405) that the methods refer to or could refer to -/
def postFunctions : List String :=
  ["find_nearest_freq", "find_nearest_coords", "get_modes_at_freq", "plot_eigs", "plot_eigs_vs_frequency", "plot_eigs_vs_period",
   "plot_2d_modes_at_frequency", "plot_3d_modes_slice_at_frequency", "plot_mode_tracers", "plot_coeffs", "plot_2d_data", "plot_data_tracers",
   "generate_2d_subplot", "plot_compare_time_series", "plot_training_histories", "generate_2d_data_video"]

/-- the methods of fitted objects that wrap a function of the same name (spod/base.py:779-1097) -/
def methods : List String :=
  ["find_nearest_freq", "find_nearest_coords", "get_modes_at_freq", "plot_eigs", "plot_eigs_vs_frequency", "plot_eigs_vs_period",
   "plot_2d_modes_at_frequency", "plot_2d_mode_slice_vs_time", "plot_3d_modes_slice_at_frequency", "plot_mode_tracers", "plot_2d_data",
   "plot_data_tracers", "generate_2d_data_video"]

/-- a method call `obj.m(args)` runs `post.m(...)` (spod/base.py:779-1097) with the function `run` of that name; AttributeError if the module has none -/
def callMethod {α ρ} (run : String → α → Except String ρ) (m : String) (args : α) : Except String ρ :=
  if m ∈ postFunctions then run m args else .error "AttributeError"

/-- method `get_modes_at_freq` (spod/base.py:802-812): `read` is the function of postproc.py; the outer error is an exception, `none` is Python's
    `None` -/
def modesMethod {ρ} (savedisk savedisk2 : Bool) (modesDir : Option String) (read : Nat → Except String ρ) (f : Nat) : Except String (Option ρ) :=
  if savedisk || savedisk2 then
    match modesDir with
    | none => .error "ValueError"
    | some _ => (read f).map some
  else .ok none

/-! ## Sizes printed by a fit -/

/-- `get_sizes` (spod/base.py:756-770): smallest, largest and total number of values on the ranks (`allreduce` with MIN, MAX, SUM) -/
def getSizes (sizes : List Nat) : Option (Nat × Nat × Nat) := do
  let lo ← sizes.min?
  let hi ← sizes.max?
  return (lo, hi, sizes.sum)

/-- number of values held by rank `r` of `p` for data of `nt` snapshots of shape `sh` split along `ax` (spod/base.py:765; parallel.py:132-158).  With two-stage reading the chunks of the dictionary (761-763) add up to the same number. -/
def localSize (nt : Nat) (sh : List Nat) (ax p r : Nat) : Nat := nt * size (sh.set ax (Par.blockdist (ext sh ax) p r).1)

end Verif.Meth
