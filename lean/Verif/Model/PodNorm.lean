import Verif.Model.NormFit
import Verif.Model.PodFit

/-!
# POD with `normalize_weights` (pod/base.py:277-285, utils/weights.py:100-144)

All ranks together.  `none` stands for an exception and for weights that are not finite numbers (`inf`, `nan`), with which no fit gives a finite
result.
-/
namespace Verif.PodFit
open Verif Verif.Par Verif.Rd Verif.Fit Verif.Proj

/-- pod/base.py:244-266: data and weights of a rank; the variable axis is added to the data, not to the weights.  `none`: the weights have no axis to
    be split (parallel.py:118-131). -/
def rankArrays (w : Arr ℝ) (files : List (List (Arr ℝ))) (ax : Nat) (comm : Comm) : Option (List (Arr ℝ) × Arr ℝ) :=
  if comm = none ∨ ax < w.shape.length then
    some ((Pod.load (fun a => distributeDimension a ax comm) ⟨[], fun _ => 0⟩ files).map fun a => ⟨a.shape ++ [1], fun idx => a.at' idx.dropLast⟩,
      distributeDimension w ax comm)
  else none

/-- pod/base.py:268-275, 287-294, pod/standard.py:44-46 on one rank with the data `d` and the (normalised) weights `wl`. -/
noncomputable def localFrom (mk : Pod.MeanKind) (ax : Nat) (comm : Comm) (d : List (Arr ℝ)) (wl : Arr ℝ) : Option Local :=
  let n := size (d.headD ⟨[], fun _ => 0⟩).shape
  let mean : Nat → ℝ := fun i => match mk with
    | .longtime => Spod.longTMeanArr ℝ 2 (d.map fun a => flat a i)
    | .zero => 0
  if size wl.shape = n then
    some { n := n
           data := fun t i => (d.map fun a => flat a i).getD t 0 - mean i
           w := flat wl
           infer := comm.map fun _ => ax }
  else none

/-- pod/base.py:277-285: without a communicator the variances of the own data, otherwise those of all ranks (`tree`: order of the reduction). -/
noncomputable def normalised (nv : Nat) (tree : List (List (FV ℝ)) → RTree (List (FV ℝ))) (comms : List Comm) (parts : List (List (Arr ℝ) × Arr ℝ)) :
    Option (List (Arr ℝ)) :=
  match comms with
  | [none] => parts.mapM fun q => normAlone nv q.1 q.2
  | _ => normRanks nv tree parts

/-- pod/base.py:244-310, pod/standard.py:44-74 with `normalize_weights`. -/
noncomputable def fitWithNorm (solver : Solver) (nv : Nat) (tree : List (List (FV ℝ)) → RTree (List (FV ℝ))) (files : List (List (Arr ℝ)))
    (comms : List Comm) (sched : Sched) (nt ax n : Nat) (mk : Pod.MeanKind) (dims : List Nat) (w : Arr ℝ) : Option Out :=
  match comms.mapM (rankArrays w files ax) with
  | none => none
  | some parts =>
    match normalised nv tree comms parts with
    | none => none
    | some ws =>
      match (comms.zip (parts.zip ws)).mapM (fun q => localFrom mk ax q.1 q.2.1.1 q.2.2) with
      | none => none
      | some rs => finish solver sched nt ax n dims rs

/-- `Standard.fit` (pod/standard.py:30-74) with `normalize_weights`; compare `podFit`. -/
noncomputable def podFitNorm (c : Cfg) (weights : Option (Arr ℝ)) (solver : Solver) (tree : List (List (FV ℝ)) → RTree (List (FV ℝ)))
    (files : List (List (Arr ℝ))) (comms : List Comm) (sched : Sched) : Option Out :=
  match files.mapM (fun l => l.head?.map fun a => (l.length, a.shape)) with
  | none => none
  | some ds =>
    let dims := (ds.headD (0, [])).2
    match Pod.initShapes c.nv c.xdim ds, argmax dims, podMean c.meanType, c.nSave with
    | some nt, some ax, some mk, .int n =>
      let w := weights.getD ⟨dims ++ [c.nv], fun _ => 1⟩
      if size w.shape = size dims * c.nv then fitWithNorm solver c.nv tree files comms sched nt ax n mk dims w else none
    | _, _, _, _ => none

end Verif.PodFit
