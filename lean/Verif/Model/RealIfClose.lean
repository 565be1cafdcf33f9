import Verif.Model.SpodStd
/-
  What a fit does with the values that the eigen-solver returns, as complex numbers with rounding errors
  (/repo/pyspod/spod/standard.py:207-225, 355-360).  In exact arithmetic they are real and not negative, and this is `spodFreq` of Model/SpodStd.lean.
-/
namespace Verif.Close
open Verif

/-- standard.py:208 `np.real_if_close(L, tol=1000000)`: whether all imaginary parts, of all `nf` frequencies, are below the tolerance `τ` (numpy: `10^6 eps`,
    whatever the size of the values) -/
def AllClose {nb : Nat} (τ : ℝ) (nf : Nat) (L : Nat → Fin nb → ℂ) : Prop := ∀ f < nf, ∀ k, |(L f k).im| < τ

/-- the order in which numpy sorts complex numbers -/
def lexLe (a b : ℂ) : Prop := a.re < b.re ∨ (a.re = b.re ∧ a.im ≤ b.im)

/-- standard.py:215 `np.argsort(Lf)[::-1]` as a contract: a permutation that lists the values in descending order, real numbers if they are close, else complex ones -/
def Sorted {nb : Nat} (close : Prop) (L : Fin nb → ℂ) (σ : Equiv.Perm (Fin nb)) : Prop :=
  (close → ∀ i j, i ≤ j → (L (σ j)).re ≤ (L (σ i)).re) ∧ (¬ close → ∀ i j, i ≤ j → lexLe (L (σ j)) (L (σ i)))

/-- standard.py:216, 355-360: the reported value number `i`; `fac` is 2 where the spectrum is one-sided -/
noncomputable def reported {nb : Nat} (close : Prop) [Decidable close] (fac : Nat) (L : Fin nb → ℂ) (σ : Equiv.Perm (Fin nb)) (i : Fin nb) : ℝ :=
  if close then |(fac : ℝ) * (L (σ i)).re| else ‖(fac : ℂ) * L (σ i)‖

/-- standard.py:224-225 `1. / (np.sqrt(n_blocks) * np.sqrt(L))`: the factor of mode `i`; `none`: nan or inf, which is then in every value of the mode -/
noncomputable def modeFactor {nb : Nat} (close : Prop) [Decidable close] (L : Fin nb → ℂ) (σ : Equiv.Perm (Fin nb)) (i : Fin nb) : Option ℂ :=
  if close then (if 0 < (L (σ i)).re then some (1 / (Real.sqrt nb * Real.sqrt (L (σ i)).re) : ℝ) else none)
  else if L (σ i) = 0 then none else some (1 / ((Real.sqrt nb : ℝ) * (L (σ i)) ^ (1 / 2 : ℂ)))

end Verif.Close
