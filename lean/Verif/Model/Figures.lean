import Mathlib.Algebra.Order.Archimedean.Real.Basic
import Mathlib.Data.List.Basic

/-!
# The figures a session draws, saves and leaves open (postproc.py, spod/base.py)

`pyplot` keeps a stack of open figures.  The module models which of them each plotting function draws on, saves and closes.  What a curve or
picture looks like is in `Model/Plots.lean`; here it is a value of the type `β`.
-/
namespace Verif.Model.Fig

/-- a figure: its size, and what has been drawn on it in order (postproc.py:198, 1044: `plt.figure(figsize=figsize)`) -/
structure Figure (β : Type) where
  size : ℚ × ℚ
  drawn : List β
  deriving DecidableEq

/-- contract of `pyplot`: the open figures, the current one first, and the files written so far in order, each with its pages
    (postproc.py:1489-1498; spod/base.py:1018) -/
structure Plt (β : Type) where
  figs : List (Figure β)
  files : List (String × List (Figure β))

/-- matplotlib's default figure size (`rcParams["figure.figsize"]`), used when a figure is created implicitly (postproc.py:1046) -/
def defaultSize : ℚ × ℚ := (64 / 10, 48 / 10)

variable {β : Type}

/-- `plt.figure(figsize=size)` (postproc.py:198): a new figure, made current -/
def newFigure (size : ℚ × ℚ) (s : Plt β) : Plt β := { s with figs := ⟨size, []⟩ :: s.figs }

/-- contract of `plt.gcf()`, implicit in `plt.plot` and `plt.savefig` (postproc.py:1046, 1495): the current figure, a new one if none is open -/
def gcf (s : Plt β) : Plt β :=
  match s.figs with
  | [] => newFigure defaultSize s
  | _ :: _ => s

/-- `plt.plot(...)`, `ax.plot(...)`, `ax.contourf(...)` on the current figure (postproc.py:202, 1046, 1217) -/
def draw (b : β) (s : Plt β) : Plt β :=
  match (gcf s).figs with
  | [] => s
  | f :: fs => { s with figs := { f with drawn := f.drawn ++ [b] } :: fs }

/-- several drawing commands in a row (postproc.py:261-266: one curve per mode) -/
def drawAll (bs : List β) (s : Plt β) : Plt β := bs.foldl (fun s b => draw b s) s

/-- `plt.savefig(name)` (postproc.py:1495): the current figure -/
def savefig (name : String) (s : Plt β) : Plt β :=
  match (gcf s).figs with
  | [] => s
  | f :: fs => ⟨f :: fs, s.files ++ [(name, [f])]⟩

/-- `plt.close()` (postproc.py:1496): the current figure; the one before it becomes current -/
def close (s : Plt β) : Plt β := { s with figs := s.figs.tail }

/-- `plt.close('all')` (postproc.py:1464) -/
def closeAll (s : Plt β) : Plt β := { s with figs := [] }

/-- `plt.show()` (postproc.py:1498): with a window system it returns when the user has closed all figures; without one (`Agg`) it does nothing -/
def showAll (windows : Bool) (s : Plt β) : Plt β := if windows then closeAll s else s

/-- `_save_show_plots` without `pdf` (postproc.py:1489-1498); `none` = no file name -/
def saveShow (windows : Bool) (name : Option String) (s : Plt β) : Plt β :=
  match name with
  | some n => close (savefig n s)
  | none => showAll windows s

/-- one figure per file: `plot_eigs` (postproc.py:198-228), `plot_eigs_vs_frequency` (258-281), `plot_eigs_vs_period` (314-338),
    `plot_2d_modes_at_frequency` (421-533), `plot_3d_modes_slice_at_frequency` (842-936), `plot_2d_data` (1111-1161),
    `plot_data_tracers` (1212-1229), `generate_2d_subplot` (1256-1288), `plot_compare_time_series` (1307-1317),
    `plot_training_histories` (1332-1342).  `pages` = the file name and the drawings of each turn of the loop. -/
def onePerFile (windows : Bool) (size : ℚ × ℚ) (pages : List (Option String × List β)) (s : Plt β) : Plt β :=
  pages.foldl (fun s p => saveShow windows p.1 (drawAll p.2 (newFigure size s))) s

/-- `plot_coeffs` (postproc.py:1040-1062): the figure is created once, before the loop over the coefficients -/
def plotCoeffs (windows : Bool) (size : ℚ × ℚ) (curves : List (Option String × β)) (s : Plt β) : Plt β :=
  curves.foldl (fun s p => saveShow windows p.1 (draw p.2 s)) (newFigure size s)

/-- one page of the report (spod/base.py:1028-1066; 1068-1077 with postproc.py:421 and 1491-1492): a new figure, drawn and appended to the file,
    not closed -/
def pdfPage (size : ℚ × ℚ) (sp : Plt β × List (Figure β)) (page : List β) : Plt β × List (Figure β) :=
  match (drawAll page (newFigure size sp.1)).figs with
  | [] => sp
  | f :: fs => (⟨f :: fs, sp.1.files⟩, sp.2 ++ [f])

/-- `plot_report` (spod/base.py:1018-1077): `with PdfPages(...)` writes the file at the end; sizes of the pages as in 1028 and postproc.py:421
    (both 12 by 8) -/
def plotReport (name : String) (pages : List (List β)) (s : Plt β) : Plt β :=
  let r := pages.foldl (pdfPage (12, 8)) (s, [])
  { r.1 with files := r.1.files ++ [(name, r.2)] }

/-- `generate_2d_data_video` (postproc.py:1422-1464): for every variable a figure with all frames drawn on it, saved as an animation; then all
    figures are closed -/
def dataVideo (videos : List (String × List β)) (s : Plt β) : Plt β :=
  videos.foldl (fun s v => closeAll (savefig v.1 (drawAll v.2 (newFigure defaultSize s)))) s

/-- what a program does with figures: the plotting functions of the library, and its own figures -/
inductive Call (β : Type) where
  | pages (size : ℚ × ℚ) (pages : List (Option String × List β))
  | coeffs (size : ℚ × ℚ) (curves : List (Option String × β))
  | report (name : String) (pages : List (List β))
  | video (videos : List (String × List β))
  /-- the program opens a figure of its own and draws on it -/
  | own (size : ℚ × ℚ) (drawn : List β)

/-- one call (the functions above: postproc.py:181-1342, 1422-1464; spod/base.py:1018-1077) -/
def step (windows : Bool) (s : Plt β) : Call β → Plt β
  | .pages size ps => onePerFile windows size ps s
  | .coeffs size cs => plotCoeffs windows size cs s
  | .report n ps => plotReport n ps s
  | .video vs => dataVideo vs s
  | .own size bs => drawAll bs (newFigure size s)

/-- a session: calls in order, on the one `pyplot` of the process (postproc.py:12 `import matplotlib.pyplot as plt`) -/
def session (windows : Bool) (s : Plt β) (calls : List (Call β)) : Plt β := calls.foldl (step windows) s

/-! ## Axes and colours -/

/-- `np.max` of a list (postproc.py:209); `none` = ValueError for an empty array -/
def maxOf : List ℝ → Option ℝ
  | [] => none
  | x :: xs => some (xs.foldl max x)

/-- `np.min` of a list (postproc.py:1251) -/
def minOf : List ℝ → Option ℝ
  | [] => none
  | x :: xs => some (xs.foldl min x)

/-- `plot_eigs` (postproc.py:209, 221-222): half the width of both axes; the eigenvalues are given by their moduli -/
noncomputable def eigsLimit (moduli : List ℝ) : Option ℝ :=
  (maxOf (moduli.map fun r => (⌈r⌉ : ℝ))).map (· * 1.2)

/-- the abscissae of `plot_eigs_vs_frequency` (postproc.py:266) and `plot_eigs_vs_period` (postproc.py:312): `none` = infinite -/
noncomputable def abscissa (period : Bool) (f : ℝ) : Option ℝ := if period then (if f = 0 then none else some (1 / f)) else some f

/-- a point on two logarithmic axes (postproc.py:267-268, 322-323): drawn inside the axes only if both coordinates are positive and finite -/
noncomputable def visible (period : Bool) (f e : ℝ) : Prop := ∃ x, abscissa period f = some x ∧ 0 < x ∧ 0 < e

/-- the grey of curve `k` out of `n` (postproc.py:261-265, 317-321; spod/base.py:1034-1038) -/
noncomputable def shade (n k : Nat) : ℝ :=
  let ratio : ℝ := 1 / n
  if ratio * k ≥ 0.95 then 0.96 else ratio * k

/-- `generate_2d_subplot` (postproc.py:1250-1251): the range of the colours, from the first variable, `digits` the parameter `N_round` -/
noncomputable def colourRange (digits : Nat) (var1 : List ℝ) : Option (ℝ × ℝ) := do
  let hi ← maxOf var1
  let lo ← minOf var1
  return ((⌊lo * 10 ^ digits⌋ : ℝ) / 10 ^ digits, (⌈hi * 10 ^ digits⌉ : ℝ) / 10 ^ digits)

/-- `np.linspace(lo, hi, 9)` as contour levels (postproc.py:1265, 1274, 1282) -/
noncomputable def levels (r : ℝ × ℝ) (i : Nat) : ℝ := r.1 + (r.2 - r.1) * i / 8

/-- contract of `contourf(z, levels=...)` (postproc.py:1265, 1274, 1282): ValueError unless the levels increase; a value is coloured exactly when it
    lies between the first and the last level -/
noncomputable def contourLevels (r : ℝ × ℝ) : Option (ℝ × ℝ) :=
  open Classical in if ∀ i < 8, levels r i < levels r (i + 1) then some (levels r 0, levels r 8) else none

/-- `generate_2d_subplot` (postproc.py:1249-1287): for every panel, the colour range used on it; `none` = an exception
    (`n_subplots == 3` with `var2 = None`: `contourf(None)`). -/
noncomputable def subplots (digits : Nat) (var1 : List ℝ) (var2 var3 : Option (List ℝ)) : Option (List (List ℝ × (ℝ × ℝ))) := do
  let r ← colourRange digits var1
  let l ← contourLevels r
  match var2, var3 with
  | none, none => some [(var1, l)]
  | some v2, none => some [(var1, l), (v2, l)]
  | some v2, some v3 => some [(var1, l), (v2, l), (v3, l)]
  | none, some _ => none

end Verif.Model.Fig
