import Mathlib.Algebra.Order.Floor.Ring
import Mathlib.Algebra.Order.Round
import Mathlib.Data.Int.Log
import Mathlib.Algebra.Order.Archimedean.Real.Basic
/-
  Counts and frequencies that the code computes with double-precision numbers (/repo/pyspod/spod/base.py:115, 622-625, /repo/pyspod/spod/streaming.py:47, 84,
  /repo/pyspod/spod/standard.py:301, /repo/pyspod/utils/reader.py:221-224, 516-520).  `fl` is the rounding of a real number to a double (no overflow, no underflow).
-/
namespace Verif.Dbl

/-- what is used of the rounding to double precision: it is monotone, numbers with at most 53 bits are exact, and the relative error is at most `2^-53` -/
structure IsDouble (fl : ℝ → ℝ) : Prop where
  mono : Monotone fl
  fixed : ∀ m k : ℤ, |m| ≤ 2 ^ 53 → fl ((m : ℝ) * 2 ^ k) = (m : ℝ) * 2 ^ k
  near : ∀ x, |fl x - x| ≤ |x| / 2 ^ 53

/-- rounding of a positive number to the nearest number with 53 bits -/
noncomputable def rnPos (x : ℝ) : ℝ := (round (x * (2 : ℝ) ^ (52 - Int.log 2 x)) : ℤ) * (2 : ℝ) ^ (Int.log 2 x - 52)

/-- rounding to the nearest number with 53 bits, ties away from zero -/
noncomputable def rn (x : ℝ) : ℝ := if 0 < x then rnPos x else if x < 0 then -rnPos (-x) else 0

/-- base.py:115 `int(np.ceil(self._n_dft * self._overlap / 100))` -/
noncomputable def overlap (fl : ℝ → ℝ) (nDft : Nat) (pct : ℝ) : ℤ := ⌈fl (fl (nDft * pct) / 100)⌉

/-- streaming.py:47 `int(np.ceil(self._n_dft / dn))`, standard.py:301 `math.ceil(total_files/comm.size)`, reader.py:520 `math.ceil(nt/comm.size)` -/
noncomputable def ceilDiv (fl : ℝ → ℝ) (a b : Nat) : ℤ := ⌈fl ((a : ℝ) / b)⌉

/-- streaming.py:84 `int(self._n_dft/2+1)` -/
noncomputable def halfCount (fl : ℝ → ℝ) (nDft : Nat) : ℤ := ⌊fl (fl ((nDft : ℝ) / 2) + 1)⌋

/-- reader.py:221-224, 516-519: `size_per_ts = np.prod(shape)*item_size/1024/1024`, `max(int((nt*size_per_ts)/comm.size/256), 1)`; the product `vals` of the extents and the
    product with the item size are products of integers -/
noncomputable def chunks (fl : ℝ → ℝ) (nt vals item p : Nat) : ℤ :=
  max ⌊fl (fl (fl (nt * fl (fl ((vals * item : Nat) / 1024) / 1024)) / p) / 256)⌋ 1

/-- base.py:625: entry `k` of `np.arange(0, n_dft//2+1, 1) / n_dft / dt` -/
noncomputable def freqReal (fl : ℝ → ℝ) (nDft : Nat) (dt : ℝ) (k : Nat) : ℝ := fl (fl ((k : ℝ) / nDft) / dt)

/-- base.py:622: entry `k` of `(np.arange(0, n_dft, 1) / dt) / n_dft` -/
noncomputable def freqFull (fl : ℝ → ℝ) (nDft : Nat) (dt : ℝ) (k : Nat) : ℝ := fl (fl ((k : ℝ) / dt) / nDft)

end Verif.Dbl
