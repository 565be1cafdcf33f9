import Mathlib.Analysis.SpecialFunctions.Complex.Circle
import Mathlib.Analysis.SpecialFunctions.Trigonometric.Basic
import Mathlib.Data.Complex.Basic
/-
  Model of /repo/pyspod/utils/postproc.py:1529-1541 `compute_energy_spectrum`.  Exact arithmetic;
  `np.fft.fft` is its definition.
-/
namespace Verif.Energy
open Real

/-- `np.fft.fft(u)[k] = Σ_j u_j exp(-2πi jk/n)` of a real signal (numpy's contract). -/
noncomputable def fft (n : Nat) (u : Nat → ℝ) (k : Nat) : ℂ :=
  ∑ j ∈ Finset.range n, (u j : ℂ) * Complex.exp (-2 * π * Complex.I * j * k / n)

/-- postproc.py:1531-1536: `array_hat = real(fft(u))`, divided by `nx`, then `0.5*|.|**2`. -/
noncomputable def espec (n : Nat) (u : Nat → ℝ) (k : Nat) : ℝ :=
  0.5 * |(fft n u k).re / n| ^ 2

/-- postproc.py:1537-1541: `eplot` has `nx//2` entries; entry 0 stays zero. -/
noncomputable def energySpectrum (n : Nat) (u : Nat → ℝ) : List ℝ :=
  (List.range (n / 2)).map fun (i : Nat) => if i = 0 then 0 else 0.5 * (espec n u i + espec n u (n - i))

end Verif.Energy
