import Verif.Model.Emulation
import Verif.Model.Double
/-
  The scaling of the emulation (/repo/pyspod/emulation/base.py:31-110) in double precision: `fl` is the rounding of a real number to a double.  Maxima, minima and absolute
  values of doubles are exact.  For complex data the code treats the real and the imaginary parts separately, each as modelled here.
-/
namespace Verif.Dbl
open Verif Verif.Emu

/-- emulation/base.py:38-41: `max(abs(max*10), abs(min*10))` of a row, the products rounded (exact: `absRange 10`) -/
noncomputable def flRange (fl : ℝ → ℝ) (l : List ℝ) : Option ℝ :=
  match amax l, amin l with
  | some a, some b => some (max |fl (a * 10)| |fl (b * 10)|)
  | _, _ => none

/-- emulation/base.py:37-49 (exact: `rowScales`) -/
noncomputable def flRowScales (fl : ℝ → ℝ) (normalization : String) (data : List (List ℝ)) : Option (List ℝ) :=
  if Spod.lower normalization = "localmax" then data.mapM (flRange fl)
  else if Spod.lower normalization = "globalmax" then
    (globalRange data).map fun v => List.replicate data.length v
  else some (List.replicate data.length 1)

/-- emulation/base.py:86-88: rounded quotients; nan or inf for a zero divisor (exact: `scaleReal`) -/
noncomputable def flScale (fl : ℝ → ℝ) (data : List (List ℝ)) (vec : List ℝ) : List (List (Option ℝ)) :=
  List.zipWith (fun row v => row.map fun x => if v = 0 then none else some (fl (x / v))) data vec

/-- emulation/base.py:103-105: rounded products (exact: `descaleReal`) -/
noncomputable def flDescale (fl : ℝ → ℝ) (data : List (List (Option ℝ))) (vec : List ℝ) : List (List (Option ℝ)) :=
  List.zipWith (fun row v => row.map fun x => x.map fun y => fl (y * v)) data vec

end Verif.Dbl
