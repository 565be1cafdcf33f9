import Mathlib.Data.Real.Basic
import Mathlib.Analysis.Complex.Basic
import Mathlib.Analysis.SpecialFunctions.Complex.Circle
/-
  What the plotting functions of /repo/pyspod/utils/postproc.py draw: the coordinates and values handed to matplotlib, not the
  rendering.  Simplifications: exact arithmetic; titles, colours, ticks and colour bars left out; matplotlib is the contract of
  `contourf` and `pcolormesh` below.
-/
namespace Verif.Plots

/-- a two-dimensional array: one snapshot and variable (postproc.py:1119), one mode (postproc.py:426) -/
structure Grid (β : Type) where
  rows : Nat
  cols : Nat
  at' : Nat → Nat → β

/-- `.T` (postproc.py:442, 1128) -/
def Grid.T {β} (g : Grid β) : Grid β := ⟨g.cols, g.rows, fun i j => g.at' j i⟩

/-- what is drawn: `z[j, i]` at `(xs[i], ys[j])` (postproc.py:454-458, 1131-1135) -/
structure Picture (β : Type) where
  xs : List ℝ
  ys : List ℝ
  z : Grid β

/-- the value drawn at `(xs[i], ys[j])` (postproc.py:1131-1135) -/
def Picture.shown {β} (p : Picture β) (i j : Nat) : β := p.z.at' j i

/-- contract of `ax.contourf(x1, x2, z)`: columns of `z` along `x1`, rows along `x2`, at least two of each; TypeError otherwise
    (postproc.py:454-464, 499-503, 1131-1135). -/
def contourf {β} (x1 x2 : List ℝ) (z : Grid β) : Option (Picture β) :=
  if z.cols = x1.length ∧ z.rows = x2.length ∧ 2 ≤ z.rows ∧ 2 ≤ z.cols then some ⟨x1, x2, z⟩ else none

/-- contract of `plt.pcolormesh(x1, x2, z, shading='gouraud')` (postproc.py:1425-1456): the shapes must agree -/
def pcolormesh {β} (x1 x2 : List ℝ) (z : Grid β) : Option (Picture β) :=
  if z.cols = x1.length ∧ z.rows = x2.length then some ⟨x1, x2, z⟩ else none

/-- `np.arange(n)` as coordinates (postproc.py:1098-1099) -/
noncomputable def arange (n : Nat) : List ℝ := (List.range n).map fun (k : Nat) => (k : ℝ)

/-- postproc.py:1097-1099 (also 398-400, 1388-1390): defaults only when both are missing; with one missing `None.shape` raises. -/
noncomputable def coords (x1 x2 : Option (List ℝ)) (n0 n1 : Nat) : Option (List ℝ × List ℝ) :=
  match x1, x2 with
  | none, none => some (arange n0, arange n1)
  | some a, some b => some (a, b)
  | _, _ => none

/-- `if x1.shape[0] != x.shape[1] or x2.shape[0] != x.shape[0]: x = x.T` (postproc.py:440-442, 1127-1128, 1402-1404) -/
def orient {β} (x1 x2 : List ℝ) (x : Grid β) : Grid β :=
  if x1.length ≠ x.cols ∨ x2.length ≠ x.rows then x.T else x

/-- `plot_2d_data` (postproc.py:1089-1135) for one snapshot and variable; `none` = an exception. -/
noncomputable def plotData {β} (x1 x2 : Option (List ℝ)) (x : Grid β) : Option (Picture β) :=
  match coords x1 x2 x.rows x.cols with
  | none => none
  | some (a, b) => if a.length * b.length ≠ x.rows * x.cols then none else contourf a b (orient a b x)

/-- one frame of `generate_2d_data_video` (postproc.py:1388-1456) -/
noncomputable def videoFrame {β} (x1 x2 : Option (List ℝ)) (x : Grid β) : Option (Picture β) :=
  match coords x1 x2 x.rows x.cols with
  | none => none
  | some (a, b) => if a.length * b.length ≠ x.rows * x.cols then none else pcolormesh a b (orient a b x)

/-- the frames of a video: `list(range(lo, hi))[0::sampling]` (postproc.py:1393-1394); natural numbers, `sampling ≥ 1` -/
def videoTimes (lo hi sampling : Nat) : List Nat :=
  (List.range ((hi - lo + sampling - 1) / sampling)).map fun (k : Nat) => lo + k * sampling

/-! ### Modes -/

/-- a selection of indices of an axis of given extent: what `slice(*limits)` selects (postproc.py:404-407) -/
abbrev Sel := Nat → List Nat

/-- `x[sel]` (postproc.py:406-407) -/
def pick (s : Sel) (x : List ℝ) : List ℝ := (s x.length).map fun i => x.getD i 0

/-- `mode[sel2, sel1]` (postproc.py:443) -/
def cut {β} (s2 s1 : Sel) (z : Grid β) : Grid β :=
  ⟨(s2 z.rows).length, (s1 z.cols).length, fun i j => z.at' ((s2 z.rows).getD i 0) ((s1 z.cols).getD j 0)⟩

/-- postproc.py:428-429 `np.hstack((mode[:,n//2:], mode[:,:n//2]))`, `n` the number of columns -/
def roll180 {β} (z : Grid β) : Grid β :=
  ⟨z.rows, z.cols, fun i j => if j < z.cols - z.cols / 2 then z.at' i (z.cols / 2 + j) else z.at' i (j - (z.cols - z.cols / 2))⟩

/-- postproc.py:436-437 `np.fft.fftshift(mode, axes=1)`: column `j` comes from column `j - n//2` (cyclically) -/
def fftshift1 {β} (z : Grid β) : Grid β :=
  ⟨z.rows, z.cols, fun i j => z.at' i ((j + (z.cols - z.cols / 2)) % z.cols)⟩

/-- options of `plot_2d_modes_at_frequency` (postproc.py:341-347) -/
structure ModeOpts where
  x1 : Option (List ℝ)
  x2 : Option (List ℝ)
  sel1 : Sel
  sel2 : Sel
  fftshift : Bool
  shift180 : Bool

/-- postproc.py:426-464 and 499-503 for one variable and mode: `mode` is `modes[:,:,var,mode]` before `np.squeeze`;
    `none` = an exception. -/
noncomputable def plotMode {β} (o : ModeOpts) (mode : Grid β) : Option (Picture β) :=
  match coords o.x1 o.x2 mode.rows mode.cols with
  | none => none
  | some (a, b) =>
    -- np.squeeze drops axes of extent one: then `ndim != 2`
    if mode.rows = 1 ∨ mode.cols = 1 then none
    else
      let xs := if o.shift180 then (pick o.sel1 a).map (· - 180) else pick o.sel1 a
      let ys := pick o.sel2 b
      let m := if o.shift180 then roll180 mode else mode
      let m := if o.fftshift then fftshift1 m else m
      let m := cut o.sel2 o.sel1 (orient a b m)
      if xs.length * ys.length ≠ m.rows * m.cols then none else contourf xs ys m

/-- the pages of a call (postproc.py:413-418): variables × modes, modes beyond the stored ones skipped -/
def modePages (vars modes : List Nat) (stored : Nat) : List (Nat × Nat) :=
  vars.flatMap fun v => (modes.filter fun m => decide (m < stored)).map fun m => (v, m)

/-- the caller's array `x1` after the call (postproc.py:406, 409-410 and 534-535): `x1 = x1[limits]` is a view, so `x1 -= 180` and, if no
    exception ends the call before, `x1 += 180` act on the selected entries of the caller's array. -/
noncomputable def x1After (sel : Sel) (shift180 raised : Bool) (x1 : List ℝ) : List ℝ :=
  (List.range x1.length).map fun (k : Nat) =>
    let x := x1.getD k 0
    if shift180 = true ∧ k ∈ sel x1.length then (if raised then x - 180 else x - 180 + 180) else x

/-! ### Axis limits and marker -/

/-- `np.nanmin` of coordinates without NaN (postproc.py:1501) -/
noncomputable def lo (x : List ℝ) : ℝ := x.foldr min (x.headD 0)
/-- `np.nanmax` of coordinates without NaN (postproc.py:1501) -/
noncomputable def hi (x : List ℝ) : ℝ := x.foldr max (x.headD 0)

/-- `_set_2d_axes_limits` for one axis (postproc.py:1500-1503) -/
noncomputable def axisLimits (x : List ℝ) : ℝ × ℝ := (lo x * (105 / 100), hi x * (105 / 100))

/-- `np.where(a == np.amax(a))` (postproc.py:466-467, 505-506): the row and column of every maximum, row by row -/
def maxIdx (z : Grid ℝ) (isMax : Nat → Nat → Bool) : List (Nat × Nat) :=
  (List.range z.rows).flatMap fun j => ((List.range z.cols).filter fun i => isMax j i).map fun i => (j, i)

/-- (postproc.py:466-467) every entry is at most the entry in row `j` and column `i` -/
noncomputable def isMax (z : Grid ℝ) (j i : Nat) : Bool := by
  classical exact decide (∀ j' < z.rows, ∀ i' < z.cols, z.at' j' i' ≤ z.at' j i)

/-- `plot_max` (postproc.py:465-469, 504-508) with `_apply_2d_vertical_lines` (1516-1519), `z` the moduli drawn:
    `(x of the vertical line, y of the horizontal line)`; with several maxima the arrays have several entries and matplotlib
    raises ValueError (`none`). -/
noncomputable def maxMarker (x1 x2 : List ℝ) (z : Grid ℝ) : Option (ℝ × ℝ) :=
  match maxIdx z (isMax z) with
  | [(j, i)] => some (x2.getD j 0, x1.getD i 0)
  | _ => none

/-! ### Slices of three-dimensional modes -/

/-- postproc.py:823-832: the coordinates chosen for the axes of the slice, by comparing lengths; `none` = UnboundLocalError.
    `n` are the lengths of `x1, x2, x3`, the result their numbers. -/
def sliceCoords (n : Fin 3 → Nat) (m0 m1 : Nat) : Option (Fin 3 × Fin 3) :=
  let c1 : Option (Fin 3) := if m0 = n 0 then some 0 else if m0 = n 1 then some 1 else if m0 = n 2 then some 2 else none
  match c1 with
  | none => none
  | some f1 =>
    if m1 = n 0 ∧ f1 ≠ 0 then some (f1, 0)
    else if m1 = n 1 ∧ f1 ≠ 1 then some (f1, 1)
    else if m1 = n 2 ∧ f1 ≠ 2 then some (f1, 2)
    else none

/-- postproc.py:819-821: the extents of the slice across axis `d` -/
def sliceShape (n : Fin 3 → Nat) (d : Fin 3) : Nat × Nat :=
  match d with
  | 0 => (n 1, n 2)
  | 1 => (n 0, n 2)
  | 2 => (n 0, n 1)

/-- postproc.py:818: the slice drawn when `slice_id` is not given -/
def defaultSlice : Nat := 0

/-! ### Tracers -/

/-- postproc.py:1000 `np.linspace(a, b, n)[k]` -/
noncomputable def linspace (a b : ℝ) (n k : Nat) : ℝ := a + k * (b - a) / (n - 1 : Nat)

/-- `plot_mode_tracers` (postproc.py:997-1022): point `k` of the curve of a mode value `m` at the requested frequency -/
noncomputable def tracer (freqReq : ℝ) (m : ℂ) (k : Nat) : ℝ × ℝ :=
  (linspace 0 (1 / freqReq) 100 k, (m * star (Complex.exp (Complex.I * (linspace 0 (10 * Real.pi) 100 k : ℝ)))).re)

/-- postproc.py:1010-1029: the subplot index `cnt` runs over variables and modes, the figure has one row per mode (at least one: `plt.subplots`
    raises otherwise); the rows used, `none` = an exception. -/
def tracerRows (nVars nModes : Nat) : Option (List Nat) :=
  if nModes = 0 then none
  else if ∀ k < nVars * nModes, k < nModes then some (List.range (nVars * nModes)) else none

/-- `plot_data_tracers` (postproc.py:1190-1191, 1209-1212) for natural limits: abscissae `range(a, b)`, ordinates `X[a:b]`;
    matplotlib raises when their numbers differ. -/
def dataTracer {β} (x : List β) (a b : Nat) : Option (List (Nat × β)) :=
  let ts := (List.range (b - a)).map fun (k : Nat) => a + k
  let vs := (x.take b).drop a
  if ts.length = vs.length then some (ts.zip vs) else none

/-! ### The methods of a fitted object -/

/-- `get_data` (spod/base.py:815-827): the snapshots `data[t_0:t_end]` (the variable axis is left out) -/
def getData {β} (x : List β) (t0 t1 : Nat) : List β := (x.take t1).drop t0

/-- method `plot_data_tracers` (spod/base.py:977-987) -/
def tracerMethod {β} (x : List β) (a b : Nat) : Option (List (Nat × β)) := dataTracer (getData x a b) a b

/-- the frames of `generate_2d_data_video` (postproc.py:1393-1394, 1425-1456): `X[state]`, `none` = IndexError -/
def videoFrames {β} (x : List β) (lo hi sampling : Nat) : Option (List β) :=
  (videoTimes lo hi sampling).mapM fun t => x[t]?

/-- method `generate_2d_data_video` (spod/base.py:1086-1097) -/
def videoMethod {β} (x : List β) (t0 t1 sampling : Nat) : Option (List β) := videoFrames (getData x t0 t1) 0 t1 sampling

/-- method `plot_2d_data` (spod/base.py:964-974) for natural time indices: the snapshots drawn; `np.max([])` raises -/
def dataMethod {β} (x : List β) (times : List Nat) : Option (List β) :=
  match times.max? with
  | none => none
  | some m => times.mapM fun t => (getData x 0 (m + 1))[t]?

/-- the title of a page of `plot_report` (spod/base.py:1043-1061): period of the frequency in the given unit and the unit printed -/
noncomputable def reportPeriod (freq : ℝ) (unit : String) : ℝ × String :=
  let period := 1 / freq
  if unit = "hours" then
    if period < 1 then (period * 60, "minutes")
    else if 24 ≤ period ∧ period < 24 * (30437 / 1000) then (period / 24, "days")
    else if 24 * (30437 / 1000) ≤ period ∧ period < 24 * (36525 / 100) then (period / (24 * (30437 / 1000)), "months")
    else if 24 * (36525 / 100) ≤ period then (period / (24 * (36525 / 100)), "years")
    else (period, unit)
  else (period, unit)

end Verif.Plots
