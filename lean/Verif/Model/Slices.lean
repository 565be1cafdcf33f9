import Verif.Model.Plots
/-
  `plot_3d_modes_slice_at_frequency` (/repo/pyspod/utils/postproc.py:743-936) for one variable and mode: the coordinates and values handed to matplotlib.
  Simplifications as in Model/Plots.
-/
namespace Verif.Plots

/-- one variable and mode of three-dimensional modes, `modes[:,:,:,var_id,mode_id]` (postproc.py:811) -/
structure Cube (β : Type) where
  n : Fin 3 → Nat
  at' : Nat → Nat → Nat → β

/-- `a[i]` for an array of length `n`: negative indices count from the end, IndexError (`none`) outside (postproc.py:819-821) -/
def pyIndex (n : Nat) (i : Int) : Option Nat :=
  if 0 ≤ i then (if i.toNat < n then some i.toNat else none)
  else if (-i).toNat ≤ n then some (n - (-i).toNat) else none

/-- postproc.py:818-821: the slice; `none` = IndexError, or UnboundLocalError for other numbers of axes -/
def sliceOf {β} (q : Cube β) (dim : Nat) (id : Option Int) : Option (Grid β) :=
  let i := id.getD (defaultSlice : Nat)
  match dim with
  | 0 => (pyIndex (q.n 0) i).map fun k => ⟨q.n 1, q.n 2, fun a b => q.at' k a b⟩
  | 1 => (pyIndex (q.n 1) i).map fun k => ⟨q.n 0, q.n 2, fun a b => q.at' a k b⟩
  | 2 => (pyIndex (q.n 2) i).map fun k => ⟨q.n 0, q.n 1, fun a b => q.at' a b k⟩
  | _ => none

/-- `x.shape[0]` of a coordinate array; AttributeError (`none`) for `None` (postproc.py:823-832) -/
def lengthOf (x : Option (List ℝ)) : Option Nat := x.map List.length

/-- postproc.py:823-825: the first coordinate array as long as the slice; `none` = an exception -/
def firstAxis (x : Fin 3 → Option (List ℝ)) (m0 : Nat) : Option (Fin 3) := do
  let n0 ← lengthOf (x 0)
  if m0 = n0 then return 0
  let n1 ← lengthOf (x 1)
  if m0 = n1 then return 1
  let n2 ← lengthOf (x 2)
  if m0 = n2 then return 2
  none

/-- postproc.py:827-832: the first other coordinate array as wide as the slice; `none` = an exception -/
def secondAxis (x : Fin 3 → Option (List ℝ)) (f1 : Fin 3) (m1 : Nat) : Option (Fin 3) := do
  let n0 ← lengthOf (x 0)
  if m1 = n0 ∧ f1 ≠ 0 then return 0
  let n1 ← lengthOf (x 1)
  if m1 = n1 ∧ f1 ≠ 1 then return 1
  let n2 ← lengthOf (x 2)
  if m1 = n2 ∧ f1 ≠ 2 then return 2
  none

/-- postproc.py:802-805: coordinates used when none is given -/
noncomputable def cubeCoords (x : Fin 3 → Option (List ℝ)) (n : Fin 3 → Nat) : Fin 3 → Option (List ℝ) :=
  if (x 0).isNone ∧ (x 1).isNone ∧ (x 2).isNone then fun d => some (arange (n d)) else x

/-- postproc.py:811-872, 894-899 for one variable and mode: what is drawn, and the numbers of the two axes (the labels `flag1`, `flag2`); `none` = an
    exception.  With `imaginary` the two panels show the real and the imaginary part of the same picture. -/
noncomputable def plotSlice {β} (x : Fin 3 → Option (List ℝ)) (dim : Nat) (id : Option Int) (fftshift : Bool) (q : Cube β) :
    Option (Picture β × Fin 3 × Fin 3) := do
  -- np.squeeze drops axes of extent one: then `ndim != 3`
  if q.n 0 = 1 ∨ q.n 1 = 1 ∨ q.n 2 = 1 then none
  let m ← sliceOf q dim id
  let cs := cubeCoords x q.n
  let f1 ← firstAxis cs m.rows
  let f2 ← secondAxis cs f1 m.cols
  let m := if fftshift then fftshift1 m else m
  let p ← contourf ((cs f1).getD []) ((cs f2).getD []) m.T
  return (p, f1, f2)

/-- `plot_max` (postproc.py:856-862, 901-905) with `_apply_2d_vertical_lines` (1516-1519) for a slice, `z` the moduli of the slice: the lines are drawn at
    `x2[column]` and `x1[row]`, whichever axes are drawn: `(x of the vertical line, y of the horizontal line)`; `none` = an exception (IndexError, or several
    maxima). -/
noncomputable def sliceMarker (x1 x2 : List ℝ) (z : Grid ℝ) : Option (ℝ × ℝ) :=
  match maxIdx z (isMax z) with
  | [(row, col)] => if row < x1.length ∧ col < x2.length then some (x2.getD col 0, x1.getD row 0) else none
  | _ => none

end Verif.Plots
