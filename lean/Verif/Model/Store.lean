import Verif.Model.Names
/-
  Model of the modes folder: what a fit writes (/repo/pyspod/spod/standard.py:227-347,
  /repo/pyspod/spod/streaming.py:210-224) and how it is read back
  (/repo/pyspod/utils/postproc.py:88-147).  `α` is one mode (an array over space x variables).
  Simplification: all modes have the same array shape (same grid), so the copies of postproc.py:119-120
  never fail.
-/
namespace Verif.Store
open Verif.Names

/-- `savefreq_disk` / `savefreq_disk2` (both at once is rejected, base.py:122-123). -/
inductive Saving | disk | disk2 | nothing
  deriving DecidableEq

/-- What one fit computed and how it was asked to save it. -/
structure Fit (α : Type) where
  how : Saving
  nFreq : Nat
  nSave : Nat
  modes : Nat → Nat → α

/-- The files written by one fit: one per frequency holding all saved modes (standard.py:236-247), or one
    per (frequency, mode) (standard.py:301-347, `disk2_saved_exactly_once`). -/
def Fit.files {α} (o : Fit α) : List (Name × List α) :=
  match o.how with
  | .disk => (List.range o.nFreq).map fun f => (freqName f, (List.range o.nSave).map (o.modes f))
  | .disk2 => (List.range o.nFreq).flatMap fun f =>
      (List.range o.nSave).map fun m => (modeName f m, [o.modes f m])
  | .nothing => []

/-- writes performed one after the other -/
def writeAll {α} (d : Dir α) (ws : List (Name × α)) : Dir α := ws.foldl (fun d w => d.write w.1 w.2) d

/-- The folder after a history of fits, most recent first.  Each fit comes with the order in which its files
    were written (several ranks write concurrently, standard.py:330-347). -/
def after {α} : List (Fit α × List (Name × List α)) → Dir (List α)
  | [] => []
  | (_, ws) :: older => writeAll (after older) ws

/-- postproc.py:88-121 `get_modes_at_freq`.  `none` is the UnboundLocalError on `m` at line 121. -/
def getModes {α} (d : Dir (List α)) (f : Nat) : Option (List α) :=
  match d.read (freqName f) with
  | some c => some c
  | none =>
    let pre := ['f','r','e','q','_','i','d','x','_','f'] ++ pad8 f ++ ['_','m']
    let names := sortNames ((d.map (·.1)).filter (globMatch pre ['.','n','p','y']))
    if names.length > 0 then some (names.flatMap fun n => (d.read n).getD []) else none

/-- postproc.py:124-147 `get_all_modes`: all `*.npy` files in sorted order, stacked.  `np.stack` needs at
    least one array and equal shapes (here: equal numbers of modes): `none` = ValueError. -/
def getAllModes {α} (d : Dir (List α)) : Option (List (List α)) :=
  let names := sortNames ((d.map (·.1)).filter (globMatch [] ['.','n','p','y']))
  let ms := names.map fun n => (d.read n).getD []
  match ms with
  | [] => none
  | c :: cs => if cs.all (fun c' => c'.length = c.length) then some (c :: cs) else none

end Verif.Store
