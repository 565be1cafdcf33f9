import Verif.Model.StreamFit
import Verif.Model.Project
/-
  The results folder of a streaming fit as the post-processing reads it.
-/
namespace Verif.SFit
open Verif Verif.Fit Verif.Proj

/-- base.py:661-700 together with streaming.py:220-255: what a streaming fit with the configuration `c` leaves in its results folder, as
    `compute_coeffs_op` reads it (spod/utils.py:105-115).  `xdim`, `nv`, `dt` are `n_space_dims`, `n_variables`, `time_step` of the
    parameters; `k` is the number of modes after capping (base.py:500-501). -/
noncomputable def streamStored {k : Nat} (c : Cfg) (xdim nv : Nat) (dt : ℝ) (out : SOut k) : Stored where
  xdim := xdim
  nv := nv
  nModes := k
  freq := Spod.freqAxis c.nDft dt c.isreal c.full
  weights := out.weights
  modes := fun f => if f < Spod.nFreq c.nDft c.isreal c.full then some (out.modes f) else none

end Verif.SFit
