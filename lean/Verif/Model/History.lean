import Mathlib.Algebra.Field.Defs
/-
  Model of state that survives from one `fit` to the next on the same SPOD object
  (/repo/pyspod/spod/base.py).
-/
namespace Verif.Hist

/-- base.py:499-501 and standard.py:232,272: the attribute `_n_modes_save` is lowered to the number of
    blocks, permanently, and that many modes are saved. -/
def fitModes (nModesSave nBlocks : Nat) : Nat := if nModesSave > nBlocks then nBlocks else nModesSave

/-- Number of modes saved by each fit of a sequence of fits (one object, numbers of blocks `nbs`). -/
def modesSaved (req : Nat) : List Nat → List Nat
  | [] => []
  | nb :: nbs => let n := fitModes req nb; n :: modesSaved n nbs

/-- What the caller passed as `weights`. -/
inductive WeightsArg (K : Type) | array (w : Nat → K) | default

/-- One fit, as far as the weight of variable `i` at some grid point is concerned: base.py:554-572 (the
    array is stored, not copied), 454-455 (`distribute_dimension` returns the array itself or a numpy view),
    474-478 and weights.py:123-125,137-139 (`weights[...,i] = weights[...,i] / var`, in place).
    Returns the weights used by the fit and the caller's array afterwards.
    Simplification: floating-point array (an integer array would truncate), variances `var i` not zero. -/
def fitWeights {K} [Field K] (normalize : Bool) (arg : WeightsArg K) (var : Nat → K) :
    (Nat → K) × WeightsArg K :=
  match arg with
  | .default => (if normalize then fun i => 1 / var i else fun _ => 1, .default)
  | .array w => if normalize then (fun i => w i / var i, .array fun i => w i / var i) else (w, .array w)

/-- Weights used by each of `n` successive fits on the same data. -/
def refits {K} [Field K] (normalize : Bool) (var : Nat → K) : Nat → WeightsArg K → List (Nat → K)
  | 0, _ => []
  | n + 1, arg => let (w, arg') := fitWeights normalize arg var; w :: refits normalize var n arg'

end Verif.Hist
