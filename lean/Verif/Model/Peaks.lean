import Mathlib.Data.Real.Basic
/-
  The peak search of `plot_report` (/repo/pyspod/spod/base.py:989-1016).  Simplifications: exact arithmetic, no NaN; numpy's
  `searchsorted` is its binary search.
-/
namespace Verif.Peaks

/-- numpy's binary search (`ndarray.searchsorted`, called in spod/base.py:1007-1008): `before k` says whether entry `k` lies before the key
    (`<` for `'left'`, `≤` for `'right'`). -/
def bsearch (before : Nat → Bool) (lo hi : Nat) : Nat :=
  if lo < hi then
    if before (lo + (hi - lo) / 2) then bsearch before (lo + (hi - lo) / 2 + 1) hi
    else bsearch before lo (lo + (hi - lo) / 2)
  else lo
termination_by hi - lo
decreasing_by all_goals omega

/-- `freq.searchsorted(key, 'left')` (spod/base.py:1007) -/
noncomputable def searchLeft (freq : List ℝ) (key : ℝ) : Nat := bsearch (fun k => decide (freq.getD k 0 < key)) 0 freq.length

/-- `freq.searchsorted(key, 'right')` (spod/base.py:1008) -/
noncomputable def searchRight (freq : List ℝ) (key : ℝ) : Nat := bsearch (fun k => decide (freq.getD k 0 ≤ key)) 0 freq.length

/-- `vals[a:b]` (spod/base.py:1001, 1013) -/
def slice (vals : List ℝ) (a b : Nat) : List ℝ := (vals.take b).drop a

/-- `np.max` (spod/base.py:1013): ValueError for an empty array -/
noncomputable def npMax (l : List ℝ) : Option ℝ := l.max?

/-- the test of one entry (spod/base.py:995-1013); `none` = ValueError.  `and` evaluates the maximum only when the other conditions hold. -/
noncomputable def isPeak (vals freq : List ℝ) (nbr i : Nat) : Option Bool :=
  let val := vals.getD i 0
  let near := slice vals (i - nbr) (min (i + nbr) vals.length)
  let lo := searchLeft freq (freq.getD i 0 * (90 / 100))
  let hi := min (searchRight freq (freq.getD i 0 * (11 / 10))) vals.length
  if near.sum / near.length * (3 / 2) < val ∧ (0 < i → vals.getD (i - 1) 0 < val) ∧ (i + 1 < vals.length → vals.getD (i + 1) 0 < val) then
    (npMax (slice vals lo hi)).map fun m => decide (val = m)
  else some false

/-- `find_peaks` (spod/base.py:992-1016): the indices found, `none` = an exception -/
noncomputable def findPeaks (vals freq : List ℝ) (nbr : Nat) : Option (List Nat) :=
  ((List.range vals.length).mapM fun i => (isPeak vals freq nbr i).map fun b => if b then [i] else []).map List.flatten

/-- the pages of `plot_report` (spod/base.py:1019-1027): the peaks of every mode, without frequency zero (`freq[1:]`, `eigs[1:]`);
    `eigs` has one list of eigenvalues for every mode.  The result is mode, index into `freq[1:]`. -/
noncomputable def reportPages (freq : List ℝ) (eigs : List (List ℝ)) : Option (List (Nat × Nat)) :=
  (eigs.zipIdx.mapM fun (q : List ℝ × Nat) => (findPeaks q.1.tail freq.tail 5).map fun (l : List Nat) => l.map fun i => (q.2, i)).map List.flatten

end Verif.Peaks
