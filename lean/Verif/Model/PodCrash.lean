import Verif.Model.Objects
/-
  The files of a POD fit, the order in which they are written, and what a later projection or a user reads from them
  (/repo/pyspod/pod/standard.py:60-71, /repo/pyspod/pod/base.py:402-428, /repo/pyspod/pod/utils.py:36-50).
-/
namespace Verif.PodCrash
open Verif.Objects Verif.Cache

/-- the files in the folder of a POD fit (pod/standard.py:62, pod/base.py:409-411) -/
inductive PodFile | modes | weights | params | eigs
  deriving DecidableEq

/-- the order of writing (pod/standard.py:66-67, 71; pod/base.py:416-417, 421, 423) -/
def podFitOrder : List PodFile := [.modes, .weights, .params, .eigs]

/-- the files of a POD fit with their contents, in the order of writing -/
def podFitFiles {α : Type} (v : PodFile → α) : List (PodFile × α) := podFitOrder.map fun f => (f, v f)

/-- what `compute_coeffs_op` reads before it projects (pod/utils.py:36-48): weights, modes, eigenvalues and parameters; `none` = an exception.
    `lenient` = a parameter file cut short is accepted by the YAML reader, with the two entries that the projection needs. -/
def podProjInputs {α : Type} (lenient : Bool) (s : PodFile → FileState α) : Option (α × α × α) :=
  match load (s .weights), load (s .modes), load (s .eigs), s .params with
  | some w, some m, some e, .complete _ => some (w, m, e)
  | some w, some m, some e, .incomplete => if lenient then some (w, m, e) else none
  | _, _, _, _ => none

/-- the array that the projection multiplies with the data (pod/utils.py:84): only the modes.  The weights and the eigenvalues are loaded, but not used. -/
def podProjUses {α : Type} (lenient : Bool) (s : PodFile → FileState α) : Option α := (podProjInputs lenient s).map fun r => r.2.1

end Verif.PodCrash
