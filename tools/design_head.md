# Formal model of PySPOD in Lean 4: design

Pinned source: `/repo` (MathEXLab/PySPOD). All file:line citations are to that tree. The code is not run here; the only
tie between model and code is the reading of the code, cited definition by definition.
(This file is generated by `tools/design.py` from `tools/design_head.md`, `tools/how.txt`, `properties.jsonl` and
`MANIFEST.json`.)

## 1. Layout

* `lean/Verif/Nd.lean`: n-d arrays (shape + entries), C order, slices, concatenation; the numpy semantics that several models share.
* `lean/Verif/Model/*.lean`: the code, function by function; each definition cites file:lines and says what is simplified.
* `lean/Verif/Props/*.lean`: the property theorems with their specification predicates, helper lemmas, and `example`s
  that show that the hypotheses are met by concrete non-trivial cases.
* `properties.jsonl` (from `tools/props.py`), `MANIFEST.json` (from `tools/manifest.py`), `seeded/LOG.jsonl` (wrong
  programs tried against the theorems; from `tools/mutate.py`, `tools/log.py` and the raw results in `seeded/raw/`).

## 2. Modelling conventions

* **Numbers.** Floats are exact numbers (a field, ℚ, ℝ or ℂ). Rounding is
  modelled only for SPOD fits with given weights, the normalization of the weights, POD fits, projections and reconstructions of both, convolution coefficients, the orthogonality check, streaming fits and the error measures (`Model/Rounding.lean`, `Model/FitRounding.lean`,
  `Model/RealIfClose.lean`, `Model/ModeRounding.lean`, `Model/VarRounding.lean`, `Model/OrthoRounding.lean`, `Model/ProjRounding.lean`, `Model/StreamRounding.lean`, `Model/BasisRounding.lean`, `Model/ConvRounding.lean`, `Model/NormRounding.lean`, `Model/ErrRounding.lean`, `Model/Overflow.lean`, `Model/OverflowMore.lean`, C231–C236, C238, C241, C243–C252: relations with a unit roundoff
  and any order of additions) and for counts, frequencies and the scaling of the data (`Model/Double.lean`, `Model/ScalingDouble.lean`, C239–C240, C242) and for integer-valued data (`Model/IntData.lean`, C253) and under changes of unit by powers of two (C254) and in the symmetry of the POD matrix (`Model/OrderedCorr.lean`, C255); elsewhere it is out of scope. NaN/inf are modelled as `none`
  only where a property is about them. "The same result" means equal in exact arithmetic.
* **Exceptions** are values (`Except String _` or `Option`); every index error, type error and undefined variable that a
  property is about is an explicit branch.
* **Arrays** are a shape and an indexing function; equality (`Arr.Eqv`) is equality of shape and of all in-range entries.
* **MPI.** Per-rank local state. Collectives are functions of the inputs of all ranks; reductions use an arbitrary tree.
  Point-to-point messages are FIFO per (source, destination, tag) with arbitrary interleaving. Collective file writes are
  sets of element writes applied in an arbitrary order. Deadlock and race properties use a transition system in which the
  k-th collective call of a rank is matched with the k-th call of the others, and the MPI library is any relation `Lib`
  of who waits for whom that contains what the standard demands (e.g. a barrier waits for all).
* **Disk.** A map from names to contents; a crash stops a program after any prefix of its writes; parallel sessions are
  lists of operations, each a list of barrier-terminated parts with the file accesses of each rank.
* **Object state** (attributes that survive a `fit`) is a structure; histories are lists of operations.
* **External numerics** (eigen-solver, SVD, `gammaincinv`, FFT library, neural network) are parameters with contracts as
  hypotheses; wherever it is not obvious that something meets the contract, this is proved (`solver_exists` etc.).
* **Violated properties.** When the code at the pinned commit violates a property, the model follows the code, the
  negation is proved, and the part that holds is proved with the suffix `_partial`.

## 3. Trusted base

* Lean 4.33.0's kernel, and Mathlib's definitions where they occur in statements (ℝ, ℂ, matrices, sums, `Real.pi`, `cos`).
* Axioms: at most `propext`, `Classical.choice`, `Quot.sound` (per theorem in section 6). None added. No compiled code
  (`native_decide`, `bv_decide`) is trusted.
* The reading of the code in the model's comments.
* Contracts of what the code calls, as they are written in the models:
  * MPI: sub-array file views and `Write_all`; `Set_size(0)` takes effect before any rank leaves the collective open;
    messages do not overtake each other; collectives match by call number; `Alltoallv`-type exchanges by the counts given.
  * numpy/scipy: C-order reshape, slicing, `argsort` (any permutation that sorts), `np.load` of a regular file, `eig`,
    `svd`, `pinv` deterministic functions of their argument that satisfy the stated equations, FFT = the DFT sum,
    `gammaincinv` monotone in the probability.
  * xarray: `sel`/`isel` select by label/position; opening a file yields the stored values; `glob` returns the names present.
  * Floating-point arithmetic (C231–C236, C238, C241, C243–C252 only): every operation has relative error at most `u` (no underflow, no overflow; C250–C252 bound the values that occur, except inside the Fourier transform and the eigenvalue solver);
    in C239–C240, C242, C253 rounding to double precision is monotone, exact on numbers of 53 bits and has relative error `2^-53`.
  * POSIX: open with truncation, write at an offset, rename of nothing; `mkdir` with `exist_ok`.
  * Python: dict order, `sorted`, truthiness, closures, attribute errors.

**Modelled**: `utils/parallel.py` (all), `utils/reader.py` (all three readers, with the MPI-4 and pre-4 branches),
`utils/io.py` (configuration, checks, `read_data`), `utils/errors.py`, `utils/weights.py`, `utils/postproc.py` (lookups, reading of
modes and of all modes, energy spectrum, orthogonality check; of the plotting functions the coordinates and values handed to
matplotlib, axis limits, colour ranges, file names, pages, and the stack of open figures), `spod/base.py` (parameters,
initialisation, data shape, mean, weights, frequency axis, window, dtype and byte order, folder names, storing, methods of
objects over histories, the report's peaks), `spod/standard.py` (all), `spod/streaming.py` (block bookkeeping, sums, basis
update, stored results), `spod/utils.py` (coefficients, convolution, reconstruction, caches, paths, order of file writes),
`pod/` (all), `emulation/` (scaling, sequences, training with checkpoints, inference).

**Not modelled**: what matplotlib renders from its arguments, fonts and labels, printing and timing,
the internals of xarray, netCDF, HDF5, keras (an epoch is any function of the weights) and of the MPI library, memory use and
speed, floating-point rounding (except in SPOD and POD fits and in POD projections, C231–C236, C238, C241, C243–C252, and in counts and frequencies and integer-valued data, C239–C240, C242, C253–C255), download helpers.
