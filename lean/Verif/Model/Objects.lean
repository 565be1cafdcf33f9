import Verif.Model.Api
import Verif.Model.Cache
import Verif.Model.History
/-
  Objects and their methods over a history of calls, the folders that projections and reconstructions overwrite, interrupted fits and projections, and
  the dictionary of parameters that objects share with their caller
  (/repo/pyspod/spod/base.py:50-123, 499-529, 634-705, /repo/pyspod/spod/utils.py:79-220, 441-538, 684-720, /repo/pyspod/pod/base.py:31-70, 300-303,
  373-430, /repo/pyspod/pod/utils.py:17-224).
-/
namespace Verif.Objects
open Verif.Api Verif.Cache

/-! ### Methods of fitted objects -/

/-- attributes of a fitted object: `_savedir_sim` and `_coeffs_dir` (present once coefficients were computed; spod/base.py:516, 643-644) -/
structure Obj where
  results : Loc
  coeffsDir : Option Loc
  deriving DecidableEq

/-- calls of methods; objects are numbered -/
inductive MCall (D : Type)
  | coeffs (o : Nat) (resultsDir : Loc) (lb ub : Nat) (d : D)
  | reconstruct (o : Nat) (coeffsDir : Loc)

/-- objects and folders of coefficients -/
structure World (C : Type) where
  objs : Nat → Obj
  coefs : Loc → Option C

section
variable {C D : Type}

/-- a function that differs in one place (assignment to an attribute, spod/base.py:643-644, and to a file) -/
def set {β : Type} {κ : Type} [DecidableEq κ] (f : κ → β) (k : κ) (b : β) : κ → β := fun k' => if k' = k then b else f k'

/-- `compute_coeffs_op` and `compute_reconstruction` of an object (spod/base.py:634-660, pod/base.py:373-399).  `project r d` are the coefficients of `d` on
    the modes in folder `r`.  The result: the coefficients a reconstruction is made from; `none` = an exception (no coefficients yet, or no such
    folder); for a projection its coefficients.  Simplification: the modes are there, so that projections succeed. -/
def mcall (project : Loc → D → C) (w : World C) : MCall D → World C × Option C
  | .coeffs o _resultsDir lb ub d =>
    let r := (w.objs o).results
    let dir := r ++ (coeffsPart lb ub).parts
    (⟨set w.objs o { w.objs o with coeffsDir := some dir }, set w.coefs dir (some (project r d))⟩, some (project r d))
  | .reconstruct o _coeffsDir =>
    match (w.objs o).coeffsDir with
    | none => (w, none)
    | some dir => (w, w.coefs dir)

/-- the world after a sequence of calls -/
def mcalls (project : Loc → D → C) (w : World C) (cs : List (MCall D)) : World C := cs.foldl (fun w c => (mcall project w c).1) w

end

/-! ### Folders of projections -/

/-- a call of `compute_coeffs_op` or `compute_coeffs_conv` (spod/utils.py:79-81, 223-225): folder of the fit, selected band, `savedir`, and everything
    else (data, method, tolerance, ...) -/
structure Projection (D : Type) where
  results : Loc
  lb : Nat
  ub : Nat
  savedir : Option String
  input : D

/-- the folder (spod/utils.py:166-167, 341-342) -/
def Projection.folder {D} (p : Projection D) : Loc := p.results ++ (coeffsPart p.lb p.ub).parts ++ p.savedir.toList

/-- the folders after a history of projections (np.save and npy_save overwrite: spod/utils.py:191-198, 409-416) -/
def folders {C D : Type} (run : Projection D → C) (ps : List (Projection D)) : Loc → Option C :=
  ps.foldl (fun s p => set s p.folder (some (run p))) (fun _ => none)

/-- a call of `compute_reconstruction` (spod/utils.py:441-443): folder of the coefficients, `savedir`, `filename`, and everything else -/
structure Recon (D : Type) where
  coeffs : Loc
  savedir : Option String
  filename : Option String
  input : D

/-- the file of a reconstruction (spod/utils.py:519-526, pod/utils.py:207-212) -/
def Recon.file {D} (r : Recon D) : Loc := r.coeffs ++ r.savedir.toList ++ [r.filename.getD "reconstructed" ++ ".npy"]

/-- the files after a history of reconstructions (spod/utils.py:531) -/
def reconFiles {C D : Type} (run : Recon D → C) (rs : List (Recon D)) : Loc → Option C :=
  rs.foldl (fun s r => set s r.file (some (run r))) (fun _ => none)

/-! ### Interrupted runs -/

section
variable {κ α : Type} [DecidableEq κ]

/-- operations on files: opened (truncated), completed -/
inductive KOp (κ α : Type) | open_ (k : κ) | done (k : κ) (c : α)

/-- effect of an operation on the states of the files (np.save, np.savez, yaml.dump: spod/base.py:684-699, spod/utils.py:191-216) -/
def kstep (s : κ → FileState α) : KOp κ α → κ → FileState α
  | .open_ k => set s k .incomplete
  | .done k c => set s k (.complete c)

/-- the operations of writing files one after the other -/
def kops (files : List (κ × α)) : List (KOp κ α) := files.flatMap fun e => [.open_ e.1, .done e.1 e.2]

/-- the files when the run is interrupted after `k` operations -/
def interrupted (s : κ → FileState α) (files : List (κ × α)) (k : Nat) : κ → FileState α := ((kops files).take k).foldl kstep s

/-- reading a complete file; `none` = an exception.  Contract of numpy: files that are not complete raise. -/
def load (st : FileState α) : Option α := match st with | .complete c => some c | _ => none

end

/-- the files in a folder of coefficients (spod/utils.py:177-178, 197, 213) -/
inductive CoefFile | modes | mean | coeffs | params
  deriving DecidableEq

/-- the order of writing in `compute_coeffs_op` and `compute_coeffs_conv` (spod/utils.py:191-214, 409-432) -/
def spodOrder : List CoefFile := [.modes, .mean, .coeffs, .params]

/-- the order of writing in the POD (pod/utils.py:100-123) -/
def podOrder : List CoefFile := [.coeffs, .modes, .mean, .params]

/-- what a reconstruction is made from: modes, mean, coefficients (spod/utils.py:470-490); `none` = an exception.  `lenient`: whether a truncated parameter
    file happens to be accepted by yaml. -/
def reconInputs {α : Type} (lenient : Bool) (s : CoefFile → FileState α) : Option (α × α × α) :=
  match load (s .modes), load (s .mean), load (s .coeffs), s .params with
  | some m, some t, some a, .complete _ => some (m, t, a)
  | some m, some t, some a, .incomplete => if lenient then some (m, t, a) else none
  | _, _, _, _ => none

/-- the files of a fit (spod/base.py:671-674, spod/standard.py:237, streaming.py:236) -/
inductive FitFile | modes (f : Nat) | weights | mean | params | eigs
  deriving DecidableEq

/-- the order of writing in a fit with `savefreq_disk` (spod/standard.py:228-247, streaming.py:235-240; base.py:684-699) -/
def fitOrder (nFreq : Nat) : List FitFile := (List.range nFreq).map .modes ++ [.weights, .mean, .params, .eigs]

/-- what `_get_required_data` and `_get_modes` read (spod/utils.py:684-700, 711-716): eigenvalues, weights, parameters (`lenient` as above) and the modes of
    all frequencies; `none` = an exception. -/
def fitInputs {α : Type} (lenient : Bool) (nFreq : Nat) (s : FitFile → FileState α) : Option (α × α × List α) :=
  match load (s .eigs), load (s .weights) with
  | some e, some w =>
    if (match s .params with | .complete _ => true | .incomplete => lenient | .absent => false) then
      ((List.range nFreq).mapM fun f => load (s (.modes f))).map fun ms => (e, w, ms)
    else none
  | _, _ => none

/-! ### The dictionary of parameters -/

/-- the two classes -/
inductive Cls | spod | pod
  deriving DecidableEq

/-- the keys that objects write into the dictionary of their caller (spod/base.py:83, 664-670, pod/base.py:46) and read from it -/
structure Params where
  savedir : Option Path
  nModes : Option Nat

/-- `savedir` of an object (spod/base.py:81-82, pod/base.py:44-45) -/
def objSavedir (cwd0 : Loc) (cls : Cls) (p : Params) : Path :=
  fromImport cwd0 (p.savedir.getD ⟨true, cwd0 ++ [match cls with | .spod => "spod_results" | .pod => "pod_results"]⟩)

/-- `n_modes_save` of an object; the default is 1e10 (spod/base.py:77, pod/base.py:42) -/
def objModes (p : Params) : Nat := p.nModes.getD (10 ^ 10)

/-- the constructor writes `savedir` (spod/base.py:83, pod/base.py:46) -/
def afterInit (cwd0 : Loc) (cls : Cls) (p : Params) : Params := { p with savedir := some (objSavedir cwd0 cls p) }

/-- a fit with `nb` blocks writes `n_modes_save` (spod/base.py:500-501, 670); the POD does not (pod/base.py:407-408) -/
def afterFit (cwd0 : Loc) (cls : Cls) (nb : Nat) (p : Params) : Params :=
  match cls with
  | .spod => { afterInit cwd0 cls p with nModes := some (Hist.fitModes (objModes p) nb) }
  | .pod => afterInit cwd0 cls p

/-- objects made one after the other from the same dictionary, each fitted to data with so many blocks: folder and number of modes saved (SPOD: spod/base.py:77-83,
    500-501; POD: the number asked for, pod/base.py:42) -/
def runs (cwd0 : Loc) : Params → List (Cls × Nat) → List (Path × Nat)
  | _, [] => []
  | p, (cls, nb) :: rest =>
    (objSavedir cwd0 cls p, match cls with | .spod => Hist.fitModes (objModes p) nb | .pod => objModes p) ::
      runs cwd0 (afterFit cwd0 cls nb p) rest

end Verif.Objects
