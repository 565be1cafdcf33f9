# Formal model of PySPOD in Lean 4: design

Pinned source: `/repo` (MathEXLab/PySPOD). All file:line citations are to that tree. The code is not run here; the only
tie between model and code is the reading of the code, cited definition by definition.
(This file is generated by `tools/design.py` from `tools/design_head.md`, `tools/how.txt`, `properties.jsonl` and
`MANIFEST.json`.)

## 1. Layout

* `lean/Verif/Nd.lean`: n-d arrays (shape + entries), C order, slices, concatenation; the numpy semantics that several models share.
* `lean/Verif/Model/*.lean`: the code, function by function; each definition cites file:lines and says what is simplified.
* `lean/Verif/Props/*.lean`: the property theorems with their specification predicates, helper lemmas, and `example`s
  that show that the hypotheses are met by concrete non-trivial cases.
* `properties.jsonl` (from `tools/props.py`), `MANIFEST.json` (from `tools/manifest.py`), `seeded/LOG.jsonl` (wrong
  programs tried against the theorems; from `tools/mutate.py`, `tools/log.py` and the raw results in `seeded/raw/`).

## 2. Modelling conventions

* **Numbers.** Floats are exact numbers (a field, ℚ, ℝ or ℂ). Rounding is
  modelled only for SPOD fits with given weights, the normalization of the weights, POD fits, projections and reconstructions of both, convolution coefficients, the orthogonality check, streaming fits and the error measures (`Model/Rounding.lean`, `Model/FitRounding.lean`,
  `Model/RealIfClose.lean`, `Model/ModeRounding.lean`, `Model/VarRounding.lean`, `Model/OrthoRounding.lean`, `Model/ProjRounding.lean`, `Model/StreamRounding.lean`, `Model/BasisRounding.lean`, `Model/ConvRounding.lean`, `Model/NormRounding.lean`, `Model/ErrRounding.lean`, `Model/Overflow.lean`, `Model/OverflowMore.lean`, C231–C236, C238, C241, C243–C252: relations with a unit roundoff
  and any order of additions) and for counts, frequencies and the scaling of the data (`Model/Double.lean`, `Model/ScalingDouble.lean`, C239–C240, C242) and for integer-valued data (`Model/IntData.lean`, C253) and under changes of unit by powers of two (C254) and in the symmetry of the POD matrix (`Model/OrderedCorr.lean`, C255); elsewhere it is out of scope. NaN/inf are modelled as `none`
  only where a property is about them. "The same result" means equal in exact arithmetic.
* **Exceptions** are values (`Except String _` or `Option`); every index error, type error and undefined variable that a
  property is about is an explicit branch.
* **Arrays** are a shape and an indexing function; equality (`Arr.Eqv`) is equality of shape and of all in-range entries.
* **MPI.** Per-rank local state. Collectives are functions of the inputs of all ranks; reductions use an arbitrary tree.
  Point-to-point messages are FIFO per (source, destination, tag) with arbitrary interleaving. Collective file writes are
  sets of element writes applied in an arbitrary order. Deadlock and race properties use a transition system in which the
  k-th collective call of a rank is matched with the k-th call of the others, and the MPI library is any relation `Lib`
  of who waits for whom that contains what the standard demands (e.g. a barrier waits for all).
* **Disk.** A map from names to contents; a crash stops a program after any prefix of its writes; parallel sessions are
  lists of operations, each a list of barrier-terminated parts with the file accesses of each rank.
* **Object state** (attributes that survive a `fit`) is a structure; histories are lists of operations.
* **External numerics** (eigen-solver, SVD, `gammaincinv`, FFT library, neural network) are parameters with contracts as
  hypotheses; wherever it is not obvious that something meets the contract, this is proved (`solver_exists` etc.).
* **Violated properties.** When the code at the pinned commit violates a property, the model follows the code, the
  negation is proved, and the part that holds is proved with the suffix `_partial`.

## 3. Trusted base

* Lean 4.33.0's kernel, and Mathlib's definitions where they occur in statements (ℝ, ℂ, matrices, sums, `Real.pi`, `cos`).
* Axioms: at most `propext`, `Classical.choice`, `Quot.sound` (per theorem in section 6). None added. No compiled code
  (`native_decide`, `bv_decide`) is trusted.
* The reading of the code in the model's comments.
* Contracts of what the code calls, as they are written in the models:
  * MPI: sub-array file views and `Write_all`; `Set_size(0)` takes effect before any rank leaves the collective open;
    messages do not overtake each other; collectives match by call number; `Alltoallv`-type exchanges by the counts given.
  * numpy/scipy: C-order reshape, slicing, `argsort` (any permutation that sorts), `np.load` of a regular file, `eig`,
    `svd`, `pinv` deterministic functions of their argument that satisfy the stated equations, FFT = the DFT sum,
    `gammaincinv` monotone in the probability.
  * xarray: `sel`/`isel` select by label/position; opening a file yields the stored values; `glob` returns the names present.
  * Floating-point arithmetic (C231–C236, C238, C241, C243–C252 only): every operation has relative error at most `u` (no underflow, no overflow; C250–C252 bound the values that occur, except inside the Fourier transform and the eigenvalue solver);
    in C239–C240, C242, C253 rounding to double precision is monotone, exact on numbers of 53 bits and has relative error `2^-53`.
  * POSIX: open with truncation, write at an offset, rename of nothing; `mkdir` with `exist_ok`.
  * Python: dict order, `sorted`, truthiness, closures, attribute errors.

**Modelled**: `utils/parallel.py` (all), `utils/reader.py` (all three readers, with the MPI-4 and pre-4 branches),
`utils/io.py` (configuration, checks, `read_data`), `utils/errors.py`, `utils/weights.py`, `utils/postproc.py` (lookups, reading of
modes and of all modes, energy spectrum, orthogonality check; of the plotting functions the coordinates and values handed to
matplotlib, axis limits, colour ranges, file names, pages, and the stack of open figures), `spod/base.py` (parameters,
initialisation, data shape, mean, weights, frequency axis, window, dtype and byte order, folder names, storing, methods of
objects over histories, the report's peaks), `spod/standard.py` (all), `spod/streaming.py` (block bookkeeping, sums, basis
update, stored results), `spod/utils.py` (coefficients, convolution, reconstruction, caches, paths, order of file writes),
`pod/` (all), `emulation/` (scaling, sequences, training with checkpoints, inference).

**Not modelled**: what matplotlib renders from its arguments, fonts and labels, printing and timing,
the internals of xarray, netCDF, HDF5, keras (an epoch is any function of the weights) and of the MPI library, memory use and
speed, floating-point rounding (except in SPOD and POD fits and in POD projections, C231–C236, C238, C241, C243–C252, and in counts and frequencies and integer-valued data, C239–C240, C242, C253–C255), download helpers.

## 4. Property by property

What is modelled, how it is proved, and in which file of `lean/Verif/Props/` the theorems are. Status as in MANIFEST.json.

| Property | Status | Modelled | Proof | Theorems in |
|---|---|---|---|---|
| C01 Block distribution is an ordered partition | proved | `_blockdist` | Nat div/mod; partition as ordered, disjoint, covering intervals | Blockdist |
| C02 Block distribution is balanced | proved | `_blockdist` | Nat div/mod | Blockdist |
| C03 Distributing an array loses and duplicates nothing | proved | `distribute`, `distribute_data`, `distribute_dimension` on `Arr` | slice/concatenation lemmas over C01 | Distribute |
| C04 All arrays are split along the same, largest spatial axis | proved | choice of the split axis (`argmax` of the shape) | list argmax; all arrays with the same spatial shape give the same axis | Distribute |
| C05 A collectively saved file equals the serial save of the whole array | proved | `npy_save`: header + one sub-array write per rank, any order | C-order position injective, writes disjoint, invariance under permutation | NpyFile |
| C06 Save / load round trip across ranks | proved | `npy_save`, `npy_load` with explicit count | C05 + slab positions | NpyFile, NpyLoad |
| C07 npy_load without count distributes the whole file | partial | `npy_load` without count, with Python's operator precedence | negation; exact condition on divisibility | NpyFile, NpyLoad |
| C08 Reductions do not depend on how the space is split | proved | local products + allreduce | regrouping of sums over the partition of C01 | Reduce |
| C09 Parallel variance is the population variance of all the data | proved | `pvar`/`op_stat` on (n, mean, M2) triples over any reduction tree | combination law + induction on trees | Reduce |
| C10 Parallel variance with an idle rank | partial | same, rank without data | NaN propagates: negation | Reduce |
| C11 Snapshots read from several files are the concatenation of the files | proved | `reader_1stage.get_data_for_time` | induction over the list of datasets | Reader1 |
| C12 Reading one snapshot at a time from several files | partial | same, one snapshot | negation past the first dataset, exact result | Reader1 |
| C13 Complex input stays complex | partial | dtype of the read buffer | negation; real data by computation | Reader1 |
| C14 Two-stage reading partitions time exactly | proved | chunk and piece intervals of `reader_2stage` | nested C01: tiling with existence and uniqueness | ?, Reader2 |
| C15 Two-stage reading redistributes time slabs to space slabs correctly | proved | isend/irecv layout, buffers written in any order | per-rank message semantics, position arithmetic, permutation invariance | Reader2 |
| C16 The order in which .mat files are listed does not matter | proved | sort of file names, then concatenation | permutation invariance of merge sort | Reader3 |
| C17 Number, position and bounds of SPOD blocks | proved | block count and offsets | Nat division | Blocks |
| C18 The overlap percentage becomes a valid block overlap | proved | overlap from percentage | rational floor/ceil arithmetic | Blocks |
| C19 Every block is cut from the right snapshots even if data come in pieces | proved | `_get_block` with deletion of used pieces from the dict | invariant over block numbers: all pieces that later blocks need are present | Blocks |
| C20 The long-time mean is the arithmetic mean over time | proved | chunked mean for arrays and for pieces | induction over chunks | Mean |
| C21 The chosen mean type decides what is subtracted | proved | mean type decision and subtraction | case analysis, sums | Mean |
| C22 Frequency axis of a one-sided (real-data) spectrum | proved | `get_freq_axis`, real data | ℚ arithmetic by parity | Freq |
| C23 Frequency axis of a two-sided (complex-data) spectrum | partial | same, complex data | negation for every odd n ≥ 3 | Freq |
| C24 One-sided spectra account for the negative frequencies | partial | doubling of interior frequencies | energy sums by parity, negations | Freq |
| C25 The cross-spectral matrix is Hermitian positive semidefinite | proved | Gram matrix of weighted blocks | Mathlib matrices over ℂ | SpodAlgebra |
| C26 Eigenvalues are reported in decreasing order, each with its own mode | proved | eigenvalue order and mode selection | argsort as any sorting permutation | SpodAlgebra |
| C27 SPOD modes are orthonormal in the weighted inner product | proved | modes from eigenvectors | matrix algebra under the eigen-solver contract | SpodAlgebra |
| C28 Total modal energy equals block-averaged energy | proved | sums of eigenvalues | trace identities | SpodAlgebra |
| C29 Confidence bounds bracket the eigenvalues | partial | confidence bounds with `gammaincinv` | monotonicity contract; negation | SpodAlgebra |
| C30 Parallel mode output writes each (frequency, mode) exactly once | proved | assignment of (frequency, mode) to ranks | div/mod bijection | Disk2 |
| C31 Parallel mode output gathers the full spatial mode | proved | gather of a mode from all ranks | message positions, FIFO matching | Disk2 |
| C32 Parallel mode output never deadlocks | proved | transition system with unbuffered sends, receives and barriers | invariant + well-founded measure | Disk2 |
| C33 Cached Fourier blocks are used only when complete | partial | presence test of block files | iff over the set of files; negation | Cache |
| C34 Reloading cached Fourier blocks reproduces them | partial | save/load of blocks with reshape | C-order arithmetic; negations for every shape with nv ≥ 2 | Cache |
| C35 A crash while writing cached blocks cannot corrupt a later fit | partial | crash after any prefix of writes, later fit | prefixes; negations | Crash |
| C36 Reading back modes returns what the last fit computed | partial | histories of fits into one folder, reading back | induction over histories; exact result | Store |
| C37 Mode file names are unambiguous and ordered | proved | file names with zero-padded numbers | injectivity of digits; lexicographic order | Names |
| C38 Streaming processes the same blocks as the standard algorithm | partial | streaming block bookkeeping | invariant by induction on time; exact emission sequence | StreamBlocks |
| C39 Streaming block buffers stay within bounds | proved | slots in use | same invariant | StreamBlocks |
| C40 Streaming running mean | proved | running mean | induction | StreamBlocks |
| C41 Streaming Fourier sums are the DFT of the mean-removed block | proved | Fourier sums per slot | induction + DFT of a constant | StreamBlocks |
| C42 The streaming update keeps a rank-k factorisation of a weighted block average | proved | Gram-Schmidt, SVD update, truncation | matrix algebra under the SVD contract | StreamBasis |
| C43 A longer history of fits does not change what a fit saves | partial | `n_modes_save` over a history | induction over fits | Crash |
| C44 Fitting does not alter the caller's weights | partial | weights array mutated in place | induction over fits | Crash |
| C45 Variance normalization is the same serially and in parallel | partial | serial and parallel variance with NaN | C09 + negation | Reduce |
| C46 Selecting a period band selects exactly the frequencies in the band | proved | frequency band from period bounds | list search lemmas | Lookup |
| C47 Oblique projection recovers data in the span of the modes | partial | oblique projection with `pinv(rcond)` | matrix algebra; negation for small singular values | Coeffs |
| C48 Projecting in parallel equals projecting serially | proved | projection with allreduce | C08 | Coeffs, Project |
| C49 Mode matrix columns are addressed by (frequency, mode) | proved | column index of (frequency, mode) | div/mod | Coeffs |
| C50 Requested reconstruction times are valid and in order | partial | selection of time indices | case analysis per argument kind; negation | Coeffs |
| C51 Time-varying (convolutional) coefficients look at full windows | partial | convolution windows | interval arithmetic; negation on centring | Coeffs |
| C52 POD modes are orthonormal and reproduce the data | partial | POD eigenproblem | matrix algebra; negation for repeated eigenvalues | Pod |
| C53 POD keeps the most energetic modes | partial | selection of leading POD modes | negation; exact for sorted solvers | Pod |
| C54 Scaling and de-scaling coefficients round-trips | partial | scaler and de-scaler | field arithmetic; negations | Emulation |
| C55 Training sequences are aligned windows of the data | partial | `_extract_sequences` | index arithmetic; exact windows | Emulation |
| C56 Emulator inference fills the whole horizon | partial | inference loop | induction over the loop; negation | Emulation |
| C57 Geographic trapezoidal weights integrate over the sphere | partial | latitude/longitude cells | real analysis (sums of cosines); negations | GeoWeights |
| C58 Error measures are norms | partial | error functions | ordered-field inequalities; negations | Errors |
| C59 Configuration files: every recognised key ends in the parameters | partial | YAML reader of the configuration | induction over lines/keys; negations | Config |
| C60 Nearest-frequency lookup | proved | argmin lookup | list argmin | Lookup |
| C61 Nearest-coordinate lookup | partial | coordinate lookup with mirrored axis | exact result; negation | Lookup |
| C62 Energy spectrum reports signal energy at each frequency | partial | energy spectrum from real parts | trigonometric sums; negation | Energy |
| C63 Orthogonality check detects non-orthogonal modes | partial | orthogonality verdict | complex algebra; negations | Ortho |
| C64 Processor grid factorisation | proved | factorisation of the rank count into a grid | loop invariant over divisors | Subcomm |
| C65 All modes read back belong to the last fit | partial | glob + sort of mode files | C36 model; negation | Store |
| C66 Streaming and standard energies agree | partial | streaming energies | induction; exact weights; negation | StreamBasis |
| C67 Streaming accepts any number of saved modes | partial | shapes in the streaming update | case analysis; negation | StreamSource, Succeeds |
| C68 A rank may own any positive number of values | partial | numpy `squeeze` on one value | case analysis; negation | StreamSource, Succeeds |
| C69 Streaming stores the mean of the data | partial | stored mean of a stream | exact formula; negation for every stream | StreamFit, StreamSource |
| C70 Streaming consumes the whole stream and stops | partial | streaming loop over a source | termination proof; non-termination proof for NetCDF lists | StreamSource |
| C71 Data normalisation yields unit variance | partial | `normalize_data` | exact result; negation | NormData |
| C72 Selecting frequencies by index alone | partial | `freq_idx` without band | negations | Coeffs, Lookup |
| C73 Convolution coefficients do not depend on the number of ranks | partial | convolution per rank without reduction | exact condition; negation | ConvCoeffs |
| C74 Amplitude correction of padded windows | partial | padding correction | exact factor; negation | Coeffs |
| C75 Convolution coefficients on a frequency band | partial | convolution on a band | exact condition; negation | ConvCoeffs, ConvFit |
| C76 Modes saved with the convolution coefficients | partial | reinterpretation of the mode array when stored | C-order arithmetic; exact content | ConvCoeffs |
| C77 POD accepts the documented data layouts | partial | POD data layouts | exact acceptance; negation | Pod |
| C78 POD works for every number of requested modes | partial | POD number of modes | exact acceptance; negations | Pod |
| C79 POD uses all of the data | partial | POD loading and dtype | loop induction; negation | Pod |
| C80 POD reconstruction with weights | partial | POD reconstruction with weights | exact result for constant weights; negation | Pod |
| C81 POD does not depend on the number of ranks | proved | POD Gram matrix and coefficients by rank | C08 | Pod |
| C82 A whole parallel fit leaves what a serial fit leaves | proved | all steps of `Standard.fit` composed | simulation of the parallel by the serial fit, step by step | Fit, Succeeds |
| C83 The files of a fit contain the SPOD of the input | proved | same | C82 + matrix algebra: result solves the SPOD eigenproblem of the input | FitFormula |
| C84 Weights reach their grid points | partial | weights acceptance and placement | exact acceptance; negations | Setup |
| C85 Window and gain correction reproduce amplitudes | proved | Hamming window, gain | sums of cosines | Setup |
| C86 Real and complex data are told apart | partial | real/complex detection | exact; negation | Setup |
| C87 A results folder identifies the fit | partial | folder names | string injectivity; negation | Setup |
| C88 Options are accepted or rejected consistently | partial | option checks | exact acceptance; negations | Setup |
| C89 A fit of NetCDF files equals the fit of the same data as arrays | partial | fit of NetCDF files: reader, flattening, all later steps | C15 + C19 + C82 on flattened data, exact success condition | FitFiles |
| C90 Large data are read with every MPI version | partial | padding branch for MPI < 4 | exact limit; negation | FitFiles |
| C91 A fit of MATLAB files equals the fit of the same data as arrays | partial | fit of .mat files | as C89 | FitFiles |
| C92 Ranks never wait for each other in vain during a fit | proved | sequence of collective calls of a fit per rank and option | all ranks issue the same sequence; progress in the transition system for every `Lib` | Spmd |
| C93 An error on one rank ends the run on every rank | partial | same with a rank that raises | stuck-state invariant; negation | Spmd |
| C94 All ranks agree on whether stored blocks are reused | proved | looking for and writing block files around barriers | invariant over reachable states | Spmd |
| C95 File accesses of different ranks never race | proved | sessions of operations with file accesses | barrier-separation invariant lifted over parts, operations and sessions | Workflow |
| C96 A parameter file that every rank writes at the same time is intact | proved | POSIX open/write interleavings | invariant: the last rank that opened has a correct prefix | SharedWrite |
| C97 A whole parallel streaming fit leaves what a serial one leaves | proved | whole streaming fit per rank: reader, all updates, save | slabs of the distributed axis sum to the global inner products; induction over updates; C05 for the files | StreamFit |
| C98 The files of a streaming fit contain the streaming SPOD of the input | proved | same, with any SVD routine meeting its contract | existence of an SVD proved; invariant of the update recursion lifted to the stored files | StreamFit, Svd |
| C99 A whole parallel projection leaves what a serial one leaves | proved | compute_coeffs_op on all ranks, from folder to files | slabs of the distributed axis sum to the global inner products; C05 for the files | Project |
| C100 A reconstruction is the mean plus modes times coefficients at the requested times | proved | compute_reconstruction on all ranks, from folder to file | per-rank product is a slab of the global product; setting the shape recovers the slab; C05 | Project |
| C101 A reconstruction from convolution coefficients sums over frequencies and modes | proved | same with the einsum/reshape of three-dimensional coefficients | product index of (frequency, mode) through finProdFinEquiv | Project |
| C102 A reconstruction that works serially works in parallel | partial | same | negation: the inferred extent is undefined for zero entries | Project |
| C103 Projection followed by reconstruction gives the data back | proved | composition of both models through the folder | C47 applied to the stored matrices | Project |
| C104 Fit, projection and reconstruction may each use their own number of ranks | proved | the models of C83, C99, C100 composed through the stored folder (`storedOf`) | each step equals its global specification | Pipeline |
| C105 The reconstruction of real data is real | partial | same as C103 | negation: one mode, two opposite real snapshots; real modes: the truncated inverse of a real matrix is real (C107) | Project, SvdFree |
| C106 New data can be projected in parallel on the modes of a fit of files | partial | compute_coeffs_op on a folder with weights [N, 1] and modes [N, 1, k] | C-order slabs of the first axis agree iff the extents divide; otherwise a reshape raises | FlatProject |
| C107 The projection does not depend on the linear algebra library nor on the option svd | proved | `_oblique_projection` with any SVD | the truncated inverse is determined by the matrix: link of singular vectors with equal singular values | SvdFree |
| C108 The files of a POD fit do not depend on the number of ranks | proved | POD `Standard.fit` on all ranks, from datasets to files | slabs of the distributed axis sum to the global Gram matrix; setting the shape recovers the slab; C05 | PodFit |
| C109 The files of a POD projection do not depend on the number of ranks | proved | POD compute_coeffs_op on all ranks | as C99 | PodFit |
| C110 The stored POD modes are orthonormal in the stored weights | partial | C108 with an exact eigen-solver (existence from the spectral theorem) | C52 applied to the stored numbers | PodFit |
| C111 POD fit, projection and reconstruction give the data back | partial | the three POD models composed through the folders | each step equals its global specification; C80 for unit weights | PodFit |
| C112 The argument modes_idx of the POD projection selects the modes | partial | the argument is not used | negation: number of stored rows | PodFit |
| C113 Two-dimensional plots and videos put every value at its coordinates | partial | plot_2d_data, video frames: coordinates, transposition, contract of contourf / pcolormesh | case analysis on the extents; negation for square data | Plots |
| C114 Plots of modes within limits show the selected part, one page per variable and stored mode | partial | plot_2d_modes_at_frequency with limits as any selection of indices | selection of coordinates and of values commute | Plots |
| C115 The visible part of a plot contains all coordinates | partial | `_set_2d_axes_limits` | minimum and maximum are attained; linear arithmetic | Plots |
| C116 The marker of plot_max is at the maximum | partial | plot_max: all maxima, lines | the list of maxima is the singleton; negations | Plots |
| C117 shift180 draws the same field and leaves the caller's coordinates alone | partial | roll, fftshift, in-place coordinates | integer and modular arithmetic on columns; longitudes in the reals | Plots |
| C118 Slices of three-dimensional modes are drawn over their own axes | partial | choice of coordinates by length | case analysis; negation | Plots |
| C119 Tracers of modes oscillate at the requested frequency | partial | plot_mode_tracers | trigonometry of the phase | Plots |
| C120 Tracers, videos and plots of data show the requested snapshots | partial | plot_data_tracers, videos, plot_2d_data and the methods that call them | list slices | Plots |
| C121 The report has a page for exactly the peaks of the spectrum | partial | find_peaks with numpy's binary search, pages, titles | invariant of the binary search on sorted arrays; monotonicity in the predicate on arbitrary arrays | Methods, Peaks, Plots |
| C122 weights.npy holds the given weights on every number of ranks, whatever their byte order | partial | npy_save down to bytes, _set_dtype, distribution | slabs as in C01-C05; exact condition on the bytes | ByteOrder |
| C123 The stored weights have the requested precision | partial | _set_dtype on data types | case analysis; negation | ByteOrder |
| C124 A path means the same folder in every call of a session | partial | paths, working directory, functions that read and write folders | simulation of an ideal session by induction on calls; negations | Api |
| C125 Arrays of modes handed out may be changed without touching the stored results | partial | arrays as windows on files | induction on the changes | Api |
| C126 Results on read-only storage can be analysed | partial | permissions of mapped files | case analysis | Api |
| C127 Methods of fitted objects use the folders they are given | partial | methods and attributes of objects | induction on histories of calls | Objects |
| C128 Projections and reconstructions do not overwrite each other | partial | folders and file names of projections and reconstructions | last write wins, by induction; injectivity of folder names | Objects |
| C129 An interrupted projection is never taken for a complete one | partial | order of file writes of a projection, crash points | state of each file after n operations, by induction | Objects |
| C130 An interrupted fit is never taken for a complete one | partial | order of file writes of a fit, crash points | same | Objects |
| C131 A dictionary of parameters can be used for several objects | partial | keys written into the caller's dictionary | induction on sequences of objects: running minimum | Objects |
| C132 A saved picture shows what its own call drew | partial | pyplot's stack of figures, all plotting functions as operations on it | induction on loops and sessions | Figures |
| C133 Saving a plot leaves the program's other figures alone | partial | same | exact final stack of every call | Figures |
| C134 figsize is the size of every saved figure | partial | same | sizes of the saved figures | Figures |
| C135 plot_eigs shows every eigenvalue | proved | axis limits of plot_eigs | ceiling and maximum | Figures |
| C136 A spectrum plot shows every frequency and tells the modes apart | partial | logarithmic axes, grey of each curve | case analysis, linear arithmetic | Figures |
| C137 Side-by-side panels share a colour range that covers the data | partial | rounded colour range, contour levels | floor and ceiling | Figures |
| C138 Training keeps the best network | partial | epochs as arbitrary functions, checkpoint callback | induction on epochs with the best-so-far invariant | Training |
| C139 Inference uses the networks trained for its index | partial | files of weights by name, operations on the object | induction on histories, file frames | Training |
| C140 Training an index does not depend on earlier training or predictions | partial | hidden state of the object | exact start of each training, counterexample network | Training |
| C141 read_data reads .npy, .nc and .mat files | partial | splitext and the branches of read_data | lists of characters | Training |
| C142 dtype means the same precision everywhere | partial | the three interpretations of dtype | case analysis | Training |
| C143 Convolution coefficients are projections of windowed, padded transforms | partial | the whole of compute_coeffs_conv on all ranks, memory as a parameter | sums over rows of a rank, conv_ranks | ConvFit |
| C144 Convolution coefficients respond linearly to the data | proved | as C143 | two runs, linearity of transform and mean | ConvFit |
| C145 Convolution coefficients carry the energy of the SPOD eigenvalues | partial | fit and convolution together | window centres are the fit's blocks, eigenvector normalisation | ConvFit |
| C146 Convolution coefficients of chosen frequencies belong to those frequencies | partial | as C143 with a list of frequencies | exact entry formula and counterexamples | ConvFit |
| C147 SPOD modes are the optimal basis at each frequency | proved | as C83 | Ky Fan inequality from Bessel twice and a rearrangement | Optimal |
| C148 Saved eigenvalues and modes do not depend on the linear algebra library | proved | as C83, solver contract with a basis | roots of the characteristic polynomial, eigenspaces of dimension one | Optimal |
| C149 Scaling the data and adding a steady field | proved | as C83, two runs | scaled realizations give a scaled cross-spectral matrix | Invariance |
| C150 Scaling the weights | proved | as C149 | as C149 | Invariance |
| C151 The order and shape of the grid do not matter | proved | as C149 | bijection of the rows | Invariance |
| C152 Full spectra of real data are symmetric | partial | as C83 with fullspectrum | conjugate realizations at the mirrored frequency | Parseval |
| C153 The eigenvalues of all frequencies sum to the energy of the windowed data | partial | as C83 | Parseval, trace of the cross-spectral matrix, mirror sums | Parseval |
| C154 The reconstruction is the best approximation by the selected modes | partial | as C99, C100 | residual orthogonal to the modes (pseudo-inverse), Pythagoras; counterexample with explicit SVD | Best |
| C155 Selecting more frequencies never makes the reconstruction worse | partial | as C154 | nested spans | Best |
| C156 Projecting the reconstruction gives the same coefficients | proved | as C154 | idempotence of the oblique projection | Best |
| C157 Coefficients follow affine changes and reorderings of the data | proved | as C154 | linearity of the coefficients in the fluctuations | Best |
| C158 Coefficients of the projection have zero mean | proved | as C154 | fluctuations sum to zero | Best |
| C159 POD modes are optimal | partial | as C108 | Ky Fan inequality of C147 for the complexified data; explicit solver in the order of the diagonal | PodInvariance |
| C160 POD follows reorderings, scalings and shifts of data and weights | proved | as C108 | the second decomposition pulled back to the first matrix; characteristic polynomial; simple eigenvectors unique up to sign | PodInvariance |
| C161 Every picture of a call has its own file | proved | file names as character lists, `splitext`, a folder as a log of writes | `splitext` commutes with inserting the tag; numbers and labels are read off from the right | Methods |
| C162 A report page is followed by the picture of its mode | partial | pages of the report by rank, on top of the peak search of C121 | nearest frequency of an entry of the axis is that entry | Methods |
| C163 The report does not depend on the number of ranks | partial | the report file as the last of the ranks' writes | fold over the order of the ranks | Methods |
| C164 Every method of a fitted object works | partial | names of methods and functions | case analysis over the two lists, for all arguments and all behaviours of the functions | Methods |
| C165 The problem size printed by a fit | proved | shares of the ranks and the three reductions | balance and sum of the block distribution | Methods |
| C166 Coefficients at one frequency are inner products with the modes | proved | the projection end to end after a fit | orthonormal modes make the matrix of inner products the identity for every SVD and tolerance below one | Influence |
| C167 Grid points of weight zero have no influence | proved | fit and projection of two data sets that agree where the weight is not zero | every sum over grid points carries the weight | Influence |
| C168 n_modes_save only decides how many modes are saved | proved | fits with two values of `n_modes_save` | the eigenvectors do not depend on it | Influence |
| C169 The order of non-overlapping blocks does not matter | proved | fit of the rearranged snapshots | blocks are permuted, the cross-spectral density is conjugated by a permutation | Influence |
| C170 Reversing time conjugates the modes | proved | fit of the reversed snapshots | the DFT of a reversed block is the conjugate up to a phase | Influence, Setup |
| C171 The unit of time does not matter | proved | frequency axis, selection of the band, projection | scaling commutes with argmin | Units |
| C172 Every accepted network can be trained | partial | choice of the network, keras contract for models that are not compiled | case analysis | Units |
| C173 A prediction depends on earlier columns only | partial | inference of two inputs | each predicted column uses a window before it | Units |
| C174 A session finds the files it reads | proved | the phases of C95, and for each call the calls it needs | every read of a phase is written in an earlier phase of the session; barriers order the phases | ReadWrite |
| C175 Isometries of the fields carry over to the modes | proved | fits of the two data sets, realizations linear in the data | the cross-spectral matrices are equal | Patterns |
| C176 A pattern with a varying amplitude is its own mode | proved | fit of the data given by pattern, amplitude and steady field | the cross-spectral matrix has rank one; trace and eigenvector equations | Patterns |
| C177 Snapshots outside the blocks matter only through the mean | proved | fits of two data sets that agree inside the blocks | the Fourier realizations are equal | Patterns |
| C178 Stored modes are finite | partial | the division by the square root of the eigenvalue (standard.py, pod/standard.py) with a result only for positive eigenvalues | rank of the cross-spectral matrix; kernel of the centred correlation | Finite |
| C179 Normalised weights are the weights divided by the variances of the variables | partial | `apply_normalization` on all ranks inside the fit, reduction by an arbitrary tree | sums over slabs; variance of the union of the ranks' values (C45) | NormFit |
| C180 With normalised weights the units of the variables do not matter | proved | fits of the two data sets with normalised weights | the variances scale with the square; isometry of the normalised inner products (C175) | NormFit |
| C181 Streaming fits normalise with the whole record | partial | `_initialize` with `streaming=True` | unfolding: the variances are those of the first snapshot | NormFit |
| C182 A steady field has no influence on a streaming fit | proved | the streaming fit on all ranks (Model/StreamFit) | the running mean follows the field, so every block transform is unchanged; equal updates | StreamInv |
| C183 Data at points of weight zero have no influence on a streaming fit | proved | the streaming fit on all ranks | points of weight zero contribute zero to every inner product of an update; induction over the updates | StreamInv |
| C184 Results of a streaming fit are finite | partial | the streaming fit with division giving no result for zero (Model/StreamFloat) | induction over the updates; `abs_up` is zero exactly for dependent blocks | StreamFinite |
| C185 Streaming fits respect mean_type and normalize_data | partial | `mean_type` and `normalize_data` as options of the streaming fit | the options are never read by the updates | StreamOptions |
| C186 The stored confidence bounds enclose the eigenvalues | partial | the arrays saved in `eigs_freq_weights` (Model/Attributes) | unfolding; positivity of the first eigenvalue from the energy of the blocks | StreamOptions |
| C187 Every documented attribute can be read after a fit | partial | attributes set by each method, up to any point of failure (Model/Attributes) | invariant over all sessions | StreamOptions |
| C188 Streaming results do not depend on the decomposition routine | proved | runs of the streaming update with two routines | the represented density is the same after every update (induction); its characteristic polynomial determines the values, its eigenspaces the simple modes | StreamUnique |
| C189 Streaming fits commute with changes of units, of sign and of grid numbering | proved | streaming fits of the data and of the image | the image of a run is a run; uniqueness of C188 | StreamImage |
| C190 A slice of a three-dimensional mode shows that slice, with its maximum marked | partial | plot_3d_modes_slice_at_frequency for one variable and mode | case analysis over axes; modular arithmetic for the shift; marker from the exact index of the maximum (C119) | Slices |
| C191 An error while a stream is read is reported | partial | serial streaming fit with a predicate of failing reads | the loop consumes exactly the snapshots before the error; the fit is that of the shorter record | StreamErrors |
| C192 A streaming fit ends on every rank | partial | collective calls of a streaming fit on every rank | C92's lemma; two different collectives at the same position: invariant that neither rank passes it | StreamErrors |
| C193 Reusing blocks does not change the results | partial | whole fits with savefft/reuse_blocks over a list of fits in one folder, files by name | invariant: the file of every block and frequency is that of the fit the specification names; generalised C82 for given realizations | CachedFit |
| C194 All frequencies of a result come from one data set | partial | which fit owns each frequency of the folder | induction over the history: the owned frequencies form an initial segment of one fit | CachedFit |
| C195 The spectrum depends continuously on the data | proved | whole fits (as C82) of three data sets | Weyl's inequality for singular values through a common vector of two subspaces (dimension count), block transforms are additive and bounded | Perturb |
| C196 Larger domains and larger weights never lower an eigenvalue | proved | whole fits on two grids | quadratic forms compared, then min-max through a common vector | Perturb |
| C197 Eigenvalues of a longer record interlace | proved | whole fits of a record and a continuation | block transforms of the first blocks agree; Cauchy interlacing through embedding and restriction of vectors | Perturb |
| C198 Repeating a record does not change the result | proved | whole fits of a record and its repetition | the cross-spectral matrix of the repetition consists of copies; eigenvectors are repeated, uniqueness of sorted eigenvalues | Perturb |
| C199 Truncation in a streaming fit only loses energy | proved | two whole streaming fits (as C97) of the same data with different numbers of modes | the basis after the updates is the rank-k part of a positive matrix; deficit positive semidefinite, its trace counted; Weyl through a common direction | StreamTrunc |
| C200 The POD spectrum depends continuously on the data | proved | whole POD fits (as C108) of two or three data sets | the POD spectrum as that of the realizations matrix, then the perturbation bounds of C195 | PodPerturb |
| C201 POD: larger domains and larger weights never lower an eigenvalue | proved | whole POD fits on two grids | quadratic forms compared, min-max through a common vector | PodPerturb |
| C202 POD of longer and of repeated records | proved | whole POD fits of a record and a continuation | interlacing and copies as for C197, C198 | PodPerturb |
| C203 Reconstruction splits the energy of every snapshot | proved | projection and reconstruction, both on any number of ranks | the reconstruction about the mean is an orthogonal projection for the weighted product, so Pythagoras | Stable |
| C204 Reconstruction does not amplify differences in the data | proved | as C203 for two data sets | linearity and energy bound of the projection; the mean part is orthogonal in time | Stable |
| C205 Energies of subdomains add up | proved | three whole fits (as C83) | quadratic forms add; trace and min-max through a common vector | Subdomains |
| C206 The spectrum of uncorrelated parts is the union of their spectra | proved | three whole fits | product of the two cross-spectral matrices vanishes, so characteristic polynomials multiply | Subdomains |
| C207 The error of a POD reconstruction is the energy of the modes left out | proved | POD fit, projection and reconstruction (as C105, C110) | the stored modes are orthonormal, the projection is orthogonal; trace of the correlation matrix and Ky Fan's bound | PodError |
| C208 Linear relations in the data hold for SPOD modes | proved | standard fit (as C86) | the DFT of a constant minus its mean is 0; modes are combinations of the realizations | Constraints |
| C209 Linear relations in the data hold for streaming SPOD modes | proved | streaming fit (as C98) | basis stays in the span of the weighted blocks, which lies in the kernel of the relation | Constraints |
| C210 Linear relations in the data hold for POD modes | proved | POD fit (as C105) | modes are combinations of fluctuations | Constraints |
| C211 Reconstructions keep the linear relations of the projected data | proved | fit, projection, reconstruction (as C94, C100) | reconstruction = long-time mean of the projected data + combination of selected modes | Constraints |
| C212 Cached blocks of another grid are not used | partial | fits with savefft/reuse_blocks (as C193), numpy assignment with broadcasting | invariant on the folder over the history, each file on the grid of its owner | OtherGrid |
| C213 An accurate emulator gives accurate coefficients | partial | scaler, scale_data, model_inference, descale_data composed as in the emulation workflow; network = any function | entry formula of the composed call, then error propagation | EmulateFlow |
| C214 Errors of emulated coefficients are the errors of the emulated fields | partial | POD fit, projection, emulation, reconstruction from given coefficients on any ranks | Parseval for the stored orthonormal modes | EmulateFlow |
| C215 POD with normalize_weights divides the weights by the variance of the data | partial | all ranks of _initialize with normalize_weights (Model/PodNorm), any order of the reduction | pvar of the slabs is the variance of the whole, then the fit of each rank with the slab of the divided weights | PodNorm |
| C216 With normalize_weights POD does not depend on the units of the data | proved | the same | affine change of the variance, then C160 | PodNorm |
| C217 Few degrees of freedom give few eigenvalues | proved | the whole fit on any ranks (C83) | a vector orthogonal to r amplitudes and to the later eigenvectors; Weyl for the approximation | Rank |
| C218 POD of data with n degrees of freedom is exact with n modes | proved | the whole POD workflow | spectrum of the correlation matrix as in C200, then C207 | Rank |
| C219 The POD of a domain and of its parts | proved | the whole POD fit on any ranks (C108) | the correlation matrix of the whole is the sum of those of the parts; spectrum as in C200, sums and unions as in C205, C206 | PodParts |
| C220 Small changes of the data change the eigenvalues of a streaming fit a little | proved | whole streaming fits on any ranks (C98) | the kept basis represents the exact density (C67); a direction common to strong and weak subspaces; the blocks are linear in the data | StreamNoise |
| C221 Streaming fits of a domain and of its parts | proved | whole streaming fits on any ranks (C98) | as C220, with the directions extended by zero or split over the parts | StreamNoise |
| C222 Projections on POD modes keep linear relations of the projected data | proved | POD fit, projection and reconstruction on any ranks | the modes are combinations of the fluctuations, which satisfy the relation with right-hand side zero | PodOther |
| C223 POD reconstructions of other data are the nearest fields, and no farther from each other than the data | proved | POD fit, projection and reconstruction on any ranks | the modes are orthonormal; Pythagoras for the fluctuation, any combination of modes and the reconstruction | PodOther |
| C224 POD coefficients have mean zero, and projecting a reconstruction again gives the same coefficients | proved | POD fit, projection and reconstruction on any ranks | the coefficients are linear in the fluctuations, whose sum is zero; orthonormal modes | PodOther |
| C225 Projections on streaming modes keep linear relations of the data | proved | `streamStored`: the folder of a streaming fit as the projection reads it | modes are combinations of the blocks (C183); reconstructions are the mean plus combinations of modes | StreamProject |
| C226 Projection on one frequency of a streaming fit gives inner products | proved | `streamStored`; projection on any ranks | the columns of the basis are orthonormal in the weighted product; the pseudo-inverse of the identity | StreamProject |
| C227 The number of positive eigenvalues of a streaming fit is the number of blocks | proved | whole streaming fits on any ranks (C98) | induction over the updates: the matrix of an update has one rank more; truncation keeps the largest | StreamProject |
| C228 The chunks of the two-stage reader are bounded by the announced size | partial | number of chunks of both readers, data of a chunk on a rank | arithmetic of the two block distributions; 9 snapshots of 128 MB as counterexample | ChunkSize |
| C229 More data never lower the energies of a streaming fit | proved | whole streaming fits on any ranks (C98) | the fit of the longer record continues the updates of the shorter; Weyl-type comparison of the Gram matrices along the updates | StreamLonger |
| C230 An interrupted POD fit leaves a folder that is refused or belongs to one fit | partial | order of file writes of a POD fit, crash points, files that the projection reads | states of the files after any number of operations | PodCrash |
| C231 Runs on different numbers of ranks agree up to rounding | proved | floating-point operations of the matrix of a fit as a relation (any rounding, any order) | running error bounds by induction on the tree of additions; Cauchy-Schwarz; residual bound for Hermitian matrices | Rounding |
| C232 The reported eigenvalues are close to the exact ones for all sources of floating-point error together | proved | as C231, transforms with errors | C231 for the perturbed blocks, singular-value perturbation for the transforms | Rounding |
| C233 The eigenvalues of a POD are close to the exact ones for all sources of floating-point error together | proved | floating-point operations of a POD fit (mean, subtraction, matrix) as a relation | running error bounds; the real sums are complex ones with zero imaginary parts, then C231 | PodRounding |
| C234 POD coefficients and reconstructions on different numbers of ranks agree up to rounding | proved | floating-point operations of projection and reconstruction as a relation | running error bounds through mean, fluctuation, local products, reduction, reconstruction | PodRounding |
| C235 The reported spectrum in floating-point arithmetic: near the exact one, nearly sorted, and numbers where it is above the error | proved | real_if_close, sorting, doubling, modulus and mode factors on complex eigenvalues with rounding errors | C231 plus a case distinction on the branch; explicit matrix with a negative eigenvalue | RealIfClose |
| C236 A whole SPOD fit in floating-point arithmetic: the reported spectrum is near the exact one | proved | floating-point operations from the data to the Fourier coefficients as a relation, then those of C231 and C235 | running error bounds for mean, window, transform and scaling; perturbation of the eigenvalues as in C232; C235 | FitRounding |
| C237 Records that repeat from block to block give one mode per frequency: their Fourier coefficients | proved | whole fit | all blocks have the same Fourier coefficients, so the matrix has rank one; eigenvalues and first mode of a rank-one matrix | Periodic |
| C238 Stored SPOD modes keep unit norm and orthogonality in floating-point arithmetic, as far as their eigenvalue exceeds the rounding errors | proved | factors and matrix product of the modes as relations with unit roundoff `u`, additions in any order | errors of a dot product point by point, summed in the weighted norm (Cauchy-Schwarz); residual of the exact matrix of the computed blocks; triangle inequalities; two eigenvectors with residuals are nearly orthogonal when the eigenvalues are apart | ModeRounding |
| C239 The overlap of the blocks is the requested percentage of n_dft, rounded up | partial | the ceiling of the rounded quotient, for any rounding to double precision | monotone rounding, exact integers and the gap between a fraction with denominator 100 and the next integer; the counterexample is computed with rounding to nearest | Double |
| C240 Counts and frequencies computed in double precision are the exact ones | proved | ceilings and floors of rounded quotients, the two rounded quotients of a frequency | a quotient of integers below 2^53 stays on its side of every integer; ratios of neighbouring frequencies exceed the rounding errors | Double |
| C241 Normalization of the weights in floating-point arithmetic: the same on every number of ranks up to rounding | proved | pvar with every operation rounded, as a relation over any reduction tree; the sequential evaluation in doubles | error propagation through sums, products and quotients by induction over the tree; the example evaluates nine roundings | VarRounding |
| C242 Scaling of the emulation data in double precision | proved | scaler, scale_data and descale_data with rounded products and quotients | monotone rounding for the bounds, two relative errors for the round trip; the example is computed with rounding to nearest | ScalingDouble |
| C243 check_orthogonality accepts the modes of a fit in floating-point arithmetic | proved | the weighted product with every operation rounded, summed over ranks in any order, and the comparison with the tolerance | norm and product bounds of C238 plus the rounding error of the product (Cauchy-Schwarz) stay within the tolerance | OrthoRounding |
| C244 SPOD coefficients and reconstructions in floating-point arithmetic | proved | mean, fluctuations, matrix of the modes, right-hand sides, reconstruction with every operation rounded in any order; residual of the pseudo-inverse as contract; exact files by the model of C99/C103 | the error solves the exact normal equations with a perturbed right-hand side; energy estimate with the smallest energy s; singular values of the exact matrix lie between s and the energy of the modes | ProjRounding |
| C245 The blocks of a streaming fit in floating-point arithmetic | proved | running mean, Fourier sums of the parallel slots, subtraction of the mean, scaling and weighting with every operation rounded, as relations beside the loop of C38–C41 | simulation: the computed and the exact loop have the same slots, and every number is an Approx of the exact one with a known number of roundings | StreamRounding |
| C246 The values of a streaming fit in floating-point arithmetic | proved | projection, orthogonal part, its norm, normalization, small matrix, rotation and truncation with every operation rounded, SVD by contract, M updates from the zero basis | the columns of rotated basis times values times V are near the old columns and the new one (update_columns); energy seen by a pattern as a norm, so errors add (update_energy, updates_energy); min-max principle for a nearly orthonormal basis (values_near) | BasisRounding |
| C247 Convolution coefficients in floating-point arithmetic | proved | mean, fluctuations, padding, window, FFT (contract), weights, products with the conjugated modes, amplitude correction, conversion, every operation rounded, sums in any order | ratios of positive numbers are closed under sums, quotients and roots (corr_ratio); the transforms as in C236 (bin_near); products with the modes by row_point (coef_near); the exact values from conv_serial, conv_ranks | ConvRounding |
| C248 SPOD with normalize_data in floating-point arithmetic | partial | as C236, with the mean and variance over the block, the threshold and the division rounded | blockVar_near: the variance as a mean of squares; hat_normalized: same side of the threshold, hence a relative error of the divisor; the rest from C236 (fit_floating, reported_near); negation: data a, -a, a, … with variance equal to the threshold | NormRounding |
| C249 Error measures in floating-point arithmetic | proved | differences, quotients, sums in any order, squares, roots, maxima, every operation rounded | relative errors are kept by sums of non-negative numbers, squares, roots and maxima (near_norm1, near_norm2, near_max); h1: absolute errors of the differences, and the root of a difference | ErrRounding |
| C250 A fit does not overflow | proved | the intermediate values of every operation of the relations of C231 and C236, in every evaluation possible up to there | partial sums are at most (1 + u)^n times the sum of the magnitudes (tree_size, part_leaves); stage by stage: mean, fluctuation, window, transform, scaling, products, sums over points and ranks | Overflow |
| C251 A POD fit does not overflow | proved | the intermediate values of every operation of the relations of C233 | as C250, for real numbers and without the transform | OverflowMore |
| C252 The modes of a fit do not overflow | proved | the intermediate values of the factors and modes of C238 | lower bounds of the rounded roots and products for the reciprocal (rounds_low), then sums of products as in C250 | OverflowMore |
| C253 Integer-valued data give the same POD matrix bit for bit on any number of processes | proved | sums with a rounding function after every addition, over any binary tree of any permutation of the terms | partial sums of integers with magnitudes adding up to at most 2^53 are integers of that size, hence exact (tree_int); the magnitudes of all ranks add up to the sum over all points (gram_procs) | IntData |
| C254 Changing the unit of the data by a power of two changes no digit of a POD fit | proved | sums with a rounding function after every operation, over any binary tree of any permutation of the terms | scaling passes through every rounded operation, by induction on the tree; the converse by scaling back with 2^-k | PowerTwo |
| C255 The eigenvalues of a POD fit are real | partial | the rounded products of a rank and an arbitrary procedure for adding them | the products of entries (i,j) and (j,i) are equal for weights 2^k, hence a symmetric matrix and real eigenvalues; a concrete pair of snapshots otherwise | RealEigs |

## 5. What the proofs found

For every property below the unchanged code violates the English statement. The negation is proved with a general or concrete witness (`..._fails`, `..._hangs`, `..._never_ends`), and next to it what does hold (`..._partial`), in most cases the exact behaviour (`..._exact`).

* **C07 npy_load without count distributes the whole file.** Property violated by the code (operator precedence, parallel.py:288): negation proved, exact condition proved.
* **C10 Parallel variance with an idle rank.** Property violated: idle rank gives NaN.
* **C12 Reading one snapshot at a time from several files.** Property violated when ts lies past the first dataset (reader.py:100 uses cum_read, not the file start); exact condition proved.
* **C13 Complex input stays complex.** Property violated: complex data are cast to the float dtype; negation proved; holds for real data.
* **C23 Frequency axis of a two-sided (complex-data) spectrum.** Property violated for odd n_dft (base.py:630): negation proved for every odd n>=3, full statement proved for even n.
* **C24 One-sided spectra account for the negative frequencies.** Property violated for odd n_dft and for real data with fullspectrum: negations proved; even case proved in full.
* **C29 Confidence bounds bracket the eigenvalues.** Property violated for conf_level > 1/2 (the default): names of the bounds are exchanged; negation proved.
* **C33 Cached Fourier blocks are used only when complete.** Violated when reuse_blocks is set without savefft (AttributeError): negation proved; full iff proved otherwise.
* **C34 Reloading cached Fourier blocks reproduces them.** Violated for nv>=2 (negations proved for all shapes); proved in full for one variable, any grid, any number of ranks.
* **C35 A crash while writing cached blocks cannot corrupt a later fit.** Violated: crash in the last file raises later; stale caches are mixed silently; holes of a parallel file read as zeros.
* **C36 Reading back modes returns what the last fit computed.** Violated after mixed histories: exact result proved for every history.
* **C38 Streaming processes the same blocks as the standard algorithm.** Violated: from block ceil(n/dn) on, streaming blocks start one snapshot later per turn; exact emission sequence proved for every stream.
* **C43 A longer history of fits does not change what a fit saves.** Violated: request is lowered permanently; exact result proved for every history.
* **C44 Fitting does not alter the caller's weights.** Violated with variance normalization: caller's array is divided in place at each fit; exact result proved.
* **C45 Variance normalization is the same serially and in parallel.** False with NaN data or idle ranks.
* **C47 Oblique projection recovers data in the span of the modes.** Violated at the default tolerance for badly scaled modes (negation proved); proved when no singular value is cut off, in particular for tol=0; idempotence proved for every tolerance.
* **C50 Requested reconstruction times are valid and in order.** Violated by the default selection for one snapshot; everything else proved.
* **C51 Time-varying (convolutional) coefficients look at full windows.** Full windows proved; centring violated for odd n_DFT.
* **C52 POD modes are orthonormal and reproduce the data.** Proved for pairwise different positive eigenvalues; violated (non-symmetric eigen-solver) for repeated ones.
* **C53 POD keeps the most energetic modes.** Violated: eigenvalues are not sorted; proved when the solver returns them sorted.
* **C54 Scaling and de-scaling coefficients round-trips.** Violated for zero rows, purely real rows of complex data and data_type='Complex'; proved for all other data.
* **C55 Training sequences are aligned windows of the data.** Violated: the last window is never used; exact result proved for all sizes.
* **C56 Emulator inference fills the whole horizon.** Violated when n_out does not divide the horizon (ValueError): negation proved; exact result proved otherwise.
* **C57 Geographic trapezoidal weights integrate over the sphere.** Violated: the first meridian has weight zero, the total is < 4 pi R^2 on every grid, IndexError for fewer than 4 latitudes, wrong 3-D layout for two or more variables; exact total and weights proved.
* **C58 Error measures are norms.** Absolute l1/l2/linf proved (with the triangle inequality); violated: linf_rel can be negative, one zero of the reference makes relative errors nan, the h1 error is zero for fields whose errors cancel in space; exact values proved.
* **C59 Configuration files: every recognised key ends in the parameters.** Values and acceptance proved exactly; violated: the result of the required-key check is dropped, the second key of a list item is lost.
* **C61 Nearest-coordinate lookup.** Violated: index of the mirrored axis is reported; exact result proved.
* **C62 Energy spectrum reports signal energy at each frequency.** Violated: only the real part of the transform is used, so sine content is invisible; exact value proved, claim proved for time-symmetric signals.
* **C63 Orthogonality check detects non-orthogonal modes.** Violated: the imaginary part of the inner product is ignored, documented int arguments raise, a mode that was not stored is reported orthogonal; exact meaning proved.
* **C65 All modes read back belong to the last fit.** Violated when an earlier fit had more frequencies: stale files included.
* **C66 Streaming and standard energies agree.** Violated: block weights differ from 1/c and eigs holds singular values; exact energies proved.
* **C67 Streaming accepts any number of saved modes.** Violated for one mode; exact condition for the whole fit proved.
* **C68 A rank may own any positive number of values.** Violated on a rank with a single value; exact condition for the whole fit proved.
* **C69 Streaming stores the mean of the data.** Violated for every stream: the mean of the first snapshot over nt is stored; the general formula is proved.
* **C70 Streaming consumes the whole stream and stops.** Violated for several datasets and for NetCDF lists; proved for one dataset.
* **C71 Data normalisation yields unit variance.** Violated: divides by the variance; exact result proved.
* **C72 Selecting frequencies by index alone.** Violated: TypeError without a band, IndexError for more indices than the band holds.
* **C73 Convolution coefficients do not depend on the number of ranks.** Violated: no reduction over ranks; exact condition proved.
* **C74 Amplitude correction of padded windows.** Violated at both ends (off by one) for every length.
* **C75 Convolution coefficients on a frequency band.** Violated for every proper band and for one mode; exact condition proved.
* **C76 Modes saved with the convolution coefficients.** Violated: memory reinterpreted, exact content proved.
* **C77 POD accepts the documented data layouts.** Violated: accepted exactly for one variable without variable axis.
* **C78 POD works for every number of requested modes.** Violated: default is a float (TypeError), more modes than snapshots raise.
* **C79 POD uses all of the data.** Violated for complex data (imaginary part discarded).
* **C80 POD reconstruction with weights.** Violated: weights ignored in the projection; exact result for constant weights.
* **C84 Weights reach their grid points.** Violated: only the number of entries is checked; placement proved for weights of the data's shape.
* **C86 Real and complex data are told apart.** Violated: only the first snapshot of the first dataset is looked at.
* **C87 A results folder identifies the fit.** Violated for mean type, time step, spectrum option, weights; injective in block length, overlap, number of blocks.
* **C88 Options are accepted or rejected consistently.** Violated: files rejected with default options, misspelt precision means single; exact acceptance proved.
* **C89 A fit of NetCDF files equals the fit of the same data as arrays.** Results proved equal whenever the fit succeeds, and success characterised exactly; violated: fewer than 9 snapshots, snapshots of 128 MB per rank or more, normalize_weights, more variables than n_variables raise; missing variables become zero.
* **C90 Large data are read with every MPI version.** Violated: the branch for MPI < 4 uses a variable that has no value and always raises; exact limit proved.
* **C91 A fit of MATLAB files equals the fit of the same data as arrays.** Results proved equal whenever the fit succeeds, and success characterised exactly; violated: shapes are not compared, a single point is spread over the grid, normalize_weights raises.
* **C93 An error on one rank ends the run on every rank.** Violated: an exception on one rank leaves every other rank waiting at the next barrier; proved: errors raised by all ranks at the same point end the run.
* **C102 A reconstruction that works serially works in parallel.** Violated for an empty list of times: one process writes an empty file, every communicator raises; proved for non-empty lists (C100, C101).
* **C105 The reconstruction of real data is real.** Violated whenever the phase of a stored mode varies in space; proved for real modes (and for data in the span of the modes: C103).
* **C106 New data can be projected in parallel on the modes of a fit of files.** Violated: exact characterisation - one process, or first axis largest and divided by the number of ranks; otherwise compute_coeffs_op raises.
* **C110 The stored POD modes are orthonormal in the stored weights.** Proved when the eigenvalues of the stored modes are positive and distinct; for repeated eigenvalues it fails, see pod_repeated_fails (C52).
* **C111 POD fit, projection and reconstruction give the data back.** Proved for unit weights when the non-zero eigenvalues are distinct and come first; with other constant weights it fails (C80).
* **C112 The argument modes_idx of the POD projection selects the modes.** Violated: the argument is only written into the parameter file.
* **C113 Two-dimensional plots and videos put every value at its coordinates.** Violated for square data with x1 along the first axis (and the default coordinates): drawn transposed; proved otherwise, with the exact condition of acceptance; matplotlib is a contract.
* **C114 Plots of modes within limits show the selected part, one page per variable and stored mode.** Violated for square modes with x1 along the first axis; proved otherwise for every selection of indices.
* **C115 The visible part of a plot contains all coordinates.** Violated when all coordinates are positive (or all negative): exact characterisation.
* **C116 The marker of plot_max is at the maximum.** Violated: the two coordinates are exchanged, and ties raise.
* **C117 shift180 draws the same field and leaves the caller's coordinates alone.** Violated for an odd number of longitudes, for longitudes along the first axis, together with fftshift, and after exceptions; proved for even uniform longitudes along the second axis.
* **C118 Slices of three-dimensional modes are drawn over their own axes.** Violated: exact characterisation by the extents; the default slice is 0.
* **C119 Tracers of modes oscillate at the requested frequency.** Violated: the curve oscillates at five times the frequency, and several variables raise; exact.
* **C120 Tracers, videos and plots of data show the requested snapshots.** Violated for the methods with a lower limit above zero, and for the default limits with fewer than ten snapshots; the functions are characterised exactly.
* **C121 The report has a page for exactly the peaks of the spectrum.** Proved for increasing non-negative frequencies (real data, full spectrum); violated for negative frequencies (complex data), where the report raises.
* **C122 weights.npy holds the given weights on every number of ranks, whatever their byte order.** Violated for the byte order that is not the machine's when a communicator is given (the bytes are reinterpreted, parallel.py:190); exact characterisation, proved for native byte order.
* **C123 The stored weights have the requested precision.** Violated: only native double precision is converted; exact characterisation.
* **C124 A path means the same folder in every call of a session.** Violated for relative paths after get_all_modes (which changes the working directory for good) or os.chdir (some functions resolve against the directory of the import); proved for sessions with absolute paths from the first such call on.
* **C125 Arrays of modes handed out may be changed without touching the stored results.** Violated for one file per frequency: the returned array is a writable memory map; proved for one file per mode and for get_all_modes.
* **C126 Results on read-only storage can be analysed.** Violated: files are mapped with mode r+; exact characterisation.
* **C127 Methods of fitted objects use the folders they are given.** Violated: the arguments are ignored; exact characterisation over all histories.
* **C128 Projections and reconstructions do not overwrite each other.** Violated for the same band and savedir; exact characterisation over all histories.
* **C129 An interrupted projection is never taken for a complete one.** Proved for a new folder; violated when the folder holds an earlier projection: exact characterisation by crash point.
* **C130 An interrupted fit is never taken for a complete one.** Proved for a new folder and for each frequency alone; violated when the folder holds an earlier fit.
* **C131 A dictionary of parameters can be used for several objects.** Violated: objects write savedir and n_modes_save into the caller's dictionary; exact characterisation over all sequences of objects.
* **C132 A saved picture shows what its own call drew.** Violated by plot_coeffs with several coefficients when figures are open (for instance after a report); exact characterisation; proved for sessions without open figures and for all other functions in any state.
* **C133 Saving a plot leaves the program's other figures alone.** Violated by plot_coeffs (closes foreign figures), the report (leaves its pages open) and videos (close everything); exact characterisation.
* **C134 figsize is the size of every saved figure.** Violated: plot_coeffs uses the requested size for the first file only, videos never; proved for the other functions.
* **C136 A spectrum plot shows every frequency and tells the modes apart.** Violated: frequencies that are not positive are never shown, forty or more modes share shades; exact characterisation.
* **C137 Side-by-side panels share a colour range that covers the data.** Violated for values outside the range of the first variable, constant first variables, and a third variable without a second; exact characterisation.
* **C138 Training keeps the best network.** Exact: best epoch whenever some loss is finite; violated when none is (the old file, or none, stays).
* **C139 Inference uses the networks trained for its index.** Exact characterisation over all histories; violated for the imaginary part when the last training data of the index were real.
* **C140 Training an index does not depend on earlier training or predictions.** Violated: training starts from whatever weights the object holds, also those loaded by an inference; proved for the real part right after model_initialize.
* **C141 read_data reads .npy, .nc and .mat files.** Violated: every .npy file raises NameError; exact for file names with an extension.
* **C142 dtype means the same precision everywhere.** Violated: np.float64 and unknown strings are single precision in a fit; exact characterisation.
* **C143 Convolution coefficients are projections of windowed, padded transforms.** Proved for one process; on several processes exact: only rank 0's grid points are summed, so the property is violated.
* **C145 Convolution coefficients carry the energy of the SPOD eigenvalues.** Violated: the mean is the eigenvalue times (sum of the window)^2 over the fit's normalisation; exact value proved.
* **C146 Convolution coefficients of chosen frequencies belong to those frequencies.** Violated: row f pairs the transform of the f-th chosen frequency with the modes of frequency f, and rows of frequencies that were not chosen are uninitialised memory; exact value proved.
* **C152 Full spectra of real data are symmetric.** Violated at the first positive frequency, reported with twice the eigenvalues of the last entry of the axis; modes and the other frequencies proved.
* **C153 The eigenvalues of all frequencies sum to the energy of the windowed data.** Proved for one-sided spectra with even n_dft; violated for odd n_dft and full spectra of real data, exact values proved.
* **C154 The reconstruction is the best approximation by the selected modes.** Proved when the tolerance drops no non-zero singular value (always for tol=0, dependent modes included); violated for every tolerance between 0 and 1 by two nearly parallel unit modes.
* **C155 Selecting more frequencies never makes the reconstruction worse.** Proved under the same condition on the larger selection; violated for every tolerance between 0 and 1.
* **C159 POD modes are optimal.** The bound and the energy of each mode are proved for all data; the kept modes are optimal if the solver returns the eigenvalues in decreasing order; violated otherwise (standard.py:52-61 does not sort).
* **C162 A report page is followed by the picture of its mode.** Proved for saved modes and increasing non-negative frequencies; modes beyond the saved ones have the spectrum page only (exact).
* **C163 The report does not depend on the number of ranks.** Violated: all ranks write the same file and only rank 0 draws the modes, so the last rank to finish decides; proved when rank 0 finishes last.
* **C164 Every method of a fitted object works.** Violated: plot_2d_mode_slice_vs_time calls a function that does not exist; proved for the others.
* **C172 Every accepted network can be trained.** Violated: cnn is accepted, but the model is empty and not compiled, so training always raises; proved for lstm and for other names.
* **C173 A prediction depends on earlier columns only.** Violated: one later entry with an imaginary part switches the second network on for all columns; proved for two inputs which both have, or both have not, an imaginary part.
* **C178 Stored modes are finite.** False: modes of eigenvalue zero are divided by zero - always with more blocks than points of non-zero weight, and for POD keeping all modes with the long-time mean removed; exact arithmetic (rounding may replace the zero by a tiny number).
* **C179 Normalised weights are the weights divided by the variances of the variables.** False when variables are split among the ranks, with idle ranks, constant variables, flat weights, and data from the two-stage readers; proved otherwise.
* **C181 Streaming fits normalise with the whole record.** False: only the first snapshot is used; what is done instead is proved for one process.
* **C184 Results of a streaming fit are finite.** False: a block that is a combination of the earlier ones (e.g. a flow starting from rest) divides by zero, and so does a weight that is zero; proved for independent blocks and positive weights.
* **C185 Streaming fits respect mean_type and normalize_data.** False: the running mean is always subtracted and the data are never normalised; unknown types of mean are rejected.
* **C186 The stored confidence bounds enclose the eigenvalues.** False for streaming fits: the bounds stay the zeros of the initialisation, with another shape; proved for standard fits under the contract of gammaincinv.
* **C187 Every documented attribute can be read after a fit.** False for file_dynamics, freq_idx_lb and freq_idx_ub, which no method ever sets; proved for all others.
* **C190 A slice of a three-dimensional mode shows that slice, with its maximum marked.** Values proved; false: the marker is drawn at (x2[column], x1[row]) whichever axes are drawn, or the call raises IndexError; the coordinates of the sliced axis are required across the first and second axis; which coordinates are drawn: exactly C118's condition.
* **C191 An error while a stream is read is reported.** False: the bare except takes every exception for the end of the data; no exception, and the files hold the results of the snapshots before the error (zeros if before the end of the first block); only an error on the first snapshot is raised.
* **C192 A streaming fit ends on every rank.** Proved when all ranks see the same end of the data (one array); false otherwise: a rank that fails to read goes on to save and waits in a reduction, the others in a barrier, for ever.
* **C193 Reusing blocks does not change the results.** One variable, complete files; proved for every history in which all fits have the same snapshots and block settings (any ranks, weights, spectra, flags); false for other data or settings: the old blocks are used silently (exact characterisation).
* **C194 All frequencies of a result come from one data set.** Proved if no fit without reuse_blocks has fewer frequencies than an earlier one; otherwise false: full spectrum, then half spectrum recomputed, then full spectrum reused mixes two data sets in one result.
* **C212 Cached blocks of another grid are not used.** Exact: numpy spreads blocks of a grid with fewer axes or axes of one point over the new grid, and the fit succeeds with the other data; all other grids are refused.
* **C213 An accurate emulator gives accurate coefficients.** Fails if the columns to emulate are not a multiple of n_out (ValueError), for a row that is zero in the training data, and for complex data with a row that is real in the training data (nan).
* **C214 Errors of emulated coefficients are the errors of the emulated fields.** Needs stored modes of positive, distinct eigenvalues: for repeated ones la.eig need not return orthogonal vectors.
* **C215 POD with normalize_weights divides the weights by the variance of the data.** Fails for constant data (division by zero), for more ranks than points on the longest axis (nan) and for weights without variable axis (only the first column is divided).
* **C228 The chunks of the two-stage reader are bounded by the announced size.** Violated by up to a factor of two (number of chunks rounded down); the bound that holds is proved for both readers.
* **C230 An interrupted POD fit leaves a folder that is refused or belongs to one fit.** Holds for a new folder; violated when the folder holds an earlier fit, exact states proved.
* **C239 The overlap of the blocks is the requested percentage of n_dft, rounded up.** Violated: ceil(fl(fl(n_dft*overlap)/100)) is one too large for some decimal percentages (1000, 16.1); whole percentages are exact and the error is at most one.
* **C248 SPOD with normalize_data in floating-point arithmetic.** Proved for variances away from the threshold by more than their rounding error (ClearVar); normalized_floating_fails: at the threshold the code violates the claim, for every roundoff above 0. Standard model of floating-point arithmetic as contract (as C231); numpy's FFT by its error, the eigensolver by its backward error (as C236).
* **C255 The eigenvalues of a POD fit are real.** The full statement is false of the code (eigs_real_fails): with weights that are not powers of two the rounded matrix is not symmetric and scipy.linalg.eig is used; proved for weights that are powers of two; products fused with additions are not modelled.

## 6. Axioms each theorem depends on

From `#print axioms` for every theorem in MANIFEST.json (`tools/axioms.py`). No theorem depends on anything else.

* **propext, Quot.sound** (88): blockdist_partition, distributeDimension_gather, distribute_gather, distributeData_gather, distribute_aligned, npy_save_eq_serial, npy_save_disjoint, npy_load_slab, npy_save_load_roundtrip, pvar_idle_rank_nan, reader1_single, reader1_single_partial, reader1_past_end, reader2_dict_tiles, cache_save_multivariable_serial_fails, cache_save_variable_axis_fails, parallel_crash_hole_exact, stream_no_overlap_drops, stream_dft_entries, pvar_nan, band_default, band_one_bound_ignored, modes_matrix, extract_exact, extract_last_fails, extract_minimal_fails, inference_fails, create_subcomm_grid, pr0_once, stream_modes_shape_partial, gram_shape_partial, gram_shape_fails, stream_netcdf_never_ends, stream_netcdf_no_termination, freq_idx_alone_fails, freq_idx_with_band_partial, modes_matrix_overflow_fails, conv_serial_partial, conv_parallel_exact, pod_modes_exact, pod_many_modes_fails, data_shape_recognised, data_shape_fails, real_detection_exact, netcdf_few_snapshots_fail, fit_ranks_exist, error_hangs, fit_error_hangs, netcdf_error_hangs, mat_error_hangs, rank_stuck, session_fit_calls, shared_write_intact, shared_write_early_fails, shared_inv, count_mul_iff, mode_pages, mode_pages_nodup, data_tracer_exact, data_tracer_values, data_tracer_default_fails, tracer_method_fails, tracer_method_partial, weights_serial_bytes, weights_parallel_bytes_exact, weights_big_endian_fails, weights_native_partial, weights_file_eq, other_order, chdir_mixed_fails, session_partial, session_absolute_partial, coeffs_mixed_fails, project_reconstruct_exact, project_reconstruct_fails, all_modes_copy, folders_exact, recon_files_exact, recon_overwritten_fails, crash_projection_fresh, fit_inputs_exact, params_exact, params_partial, runs_state, chunk_count, pieces_local, crash_pod_fresh, crash_pod_modes_partial

* **propext, Classical.choice, Quot.sound** (680): blockdist_balanced, npy_load_gather, npy_load_default_partial, npy_load_default_exact, npy_load_default_gather_fails, gram_rank_independent, pvar_correct, pvar_idle_rank_fails, reader1_full, reader1_distributed, assign_slice, reader1_complex_partial, reader1_complex_fails, exists_unique, reader2_dict_content, reader2_redistribute, inputData2_spec, mat_reader_order, blocks_position, blocks_number, feasible_iff, overlap_spec, overlap_ge_hundred, getBlocks_correct, fit_blocks_two_stage, long_time_mean_array, long_time_mean_pieces, long_time_mean_same, mean_type_accepted, mean_type_effect, blockwise_zero_mean, freq_axis_real, freq_axis_complex_partial, freq_axis_complex_even, freq_axis_complex_odd_fails, freq_axis_full, one_sided_factor_even_partial, one_sided_energy_even_partial, one_sided_factor_odd_fails, crossSpectral_posSemidef, eigenvalues_real_nonneg, spod_sorted_and_matched, saved_modes_leading, modes_orthonormal, modes_orthonormal_distinct, modes_unit_norm, total_energy, total_energy_reported, csd_expansion, conf_bounds_partial, conf_bounds_fails, conf_bounds_exchanged, disk2_saved_exactly_once, disk2_one_per_pass, disk2_file_content, disk2_messages_match, disk2_file_end_to_end, disk2_no_deadlock, disk2_terminates, blocks_present_iff, cache_used_iff_complete_partial, reuse_without_savefft_fails, cache_reload_serial_partial, cache_reload_parallel_partial, cache_reload_multivariable_parallel_fails, cache_crash_partial, cache_crash_fails, cache_stale_mixture_fails, parallel_crash_hole_fails, get_modes_exact, get_modes_latest_disk_partial, get_modes_latest_disk2_partial, get_modes_stale_disk_fails, get_modes_stale_mode_fails, get_modes_latest_fails, names_injective, names_ordered, names_order_beyond, stream_exact, stream_blocks_fails, stream_count_fails, stream_slots, stream_mean, stream_dft, stream_update, stream_truncate, stream_closed_form, stream_orthonormal, stream_span_fails, stream_repeat_fails, modes_saved_exact, modes_saved_partial, modes_saved_fails, first_fit_weights, refit_weights_exact, refit_weights_partial, refit_weights_fails, normalization_serial_eq_parallel_partial, normalization_nan_differs, band_selection, op_exact_partial, op_independent, op_exact_tol_zero, op_idempotent, op_residual_orthogonal, op_truncation_fails, projection_parallel, projection_files, time_idx_named, time_idx_list, time_idx_default_partial, time_idx_default_fails, conv_window, conv_centred_partial, conv_centred_odd_fails, pod_eig_energy, pod_orthonormal_partial, pod_span, pod_reconstruct_partial, pod_example, pod_repeated_fails, pod_keeps_partial, pod_order_free, pod_keeps_fails, scaling_real_partial, scaling_complex_partial, scaling_zero_row_fails, scaling_real_row_fails, scaling_type_case_fails, extract_aligned_partial, inference_partial, inference_column_partial, dLat_spec, dLon_spec, geo_2d_partial, geo_small_fails, geo_first_meridian_fails, geo_total_exact, geo_total_fails, geo_3d_flat, geo_3d_partial, geo_3d_fails, l1_error, l2_error, linf_error, rel_errors_partial, linf_rel_exact, linf_rel_fails, rel_zero_reference_fails, lErr_unknown, errors_degenerate, h1_exact, h1_partial, h1_degenerate, h1_fails, config_values_partial, config_accepts, parseYaml_spec, config_missing_fails, config_second_key_fails, nearest_freq, nearest_freq_mono, nearest_freq_mono_sorted, nearest_coords_exact, nearest_coords_partial, nearest_coords_fails, energy_exact, energy_even_partial, energy_odd_fails, energy_missing_fails, ortho_call, verdict_exact, ortho_real_partial, ortho_same, ortho_parallel, ortho_imaginary_fails, ortho_int_fails, ortho_int_one_point, ortho_missing_mode_fails, ortho_negative_exact, get_all_modes_partial, get_all_modes_stale_fails, stream_energy, stream_weight_fails, stream_succeeds_exact, fit_succeeds_exact, fit_two_ranks_fails, stream_ltm_fails, stream_fit_rest, stream_reads_partial, stream_datasets_fails, normalize_data_exact, normalize_data_partial, normalize_data_fails, conv_parallel_fails, conv_corr_interior_partial, conv_corr_fails, conv_band_exact, conv_full_axis_partial, conv_band_fails, conv_succeeds_whole_axis, convModesFile_eq, conv_modes_file_partial, conv_modes_file_fails, pod_shape_exact, pod_shape_nt, pod_multivariable_fails, load_eq, pod_load_partial, pod_complex_fails, pod_reconstruct_exact, pod_reconstruct_weights_fails, pod_parallel_corr, pod_parallel_coeffs, fit_rank_independent, fit_two_stage_eq_serial, fit_formula, fit_solves_spod, solver_exists, weights_accepted_exact, variables_checked, data_shape_mismatch, default_weights_one, weights_applied_partial, weights_shape_fails, window_gain, window_mean, hamming_bounds, hamming_symm, hamming_sum, real_detection_partial, real_detection_fails, folder_injective, folder_settings_fails, netcdf_fit_exact, netcdf_reads_partial, netcdf_large_snapshots_fail, netcdf_more_variables_fail, netcdf_missing_variables_zero, netcdf_variables, padding_partial, padding_fails, mat_fit_exact, mat_reads_partial, mat_reads_small, mat_nonfinite_fails, mat_shape_not_checked, mat_point_broadcast, no_deadlock, fit_no_deadlock, reach_sum, mat_error_position, uniform_error_ends, pass_error_exact, stored_blocks_agreed, look_inv, session_no_deadlock, session_no_race, session_complete, barrier_separates, acts_no_deadlock, stream_fit_rank_independent, stream_fit_formula, svd_exists, nUpdates_spec, newCol_spec, project_ser, project_par, reconstruction_file, reconstruction_conv_file, reconstruction_no_times_fails, roundtrip, project_reconstruct, coef_svd_exists, pipeline_rank_independent, reconstruction_real_fails, reconstruction_real_partial, flat_projection_exact, projection_svd_free, projection_svd_option, mInv_unique, pod_fit_files, pod_unknown_mean, pod_projection_files, pod_files_orthonormal_partial, eig_solver_exists, podExEigs, pod_roundtrip_partial, pod_reconstruct_given, pod_modes_idx_fails, plot_data_second, plot_data_first_partial, plot_data_square_fails, plot_default_fails, plot_data_accepts, plot_one_coordinate, video_frame_plot, plot_mode_limits, plot_mode_limits_first_partial, plot_mode_square_fails, axis_limits_exact, axis_limits_fails, axis_limits_margin, max_marker_exact, max_marker_fails, max_marker_tie_fails, shift180_partial, shift180_odd_fails, shift180_first_axis_fails, shift180_restored_partial, shift180_exception_fails, shift180_exception_partial, fftshift_drawn, shift180_fftshift_fails, slice_coords_exact, slice_coords_partial, slice_cube_fails, slice_default_fails, tracer_exact, tracer_fails, tracer_times, tracer_rows_exact, tracer_rows_used, video_times, video_exact, video_frames, video_method_fails, video_method_partial, data_method, report_peaks_partial, report_pages_partial, report_negative_fails, report_period, bsearch_spec, bsearch_mono, report_period_range, modes_alias_file, modes_alias_fails, modes_copy_partial, readonly_modes_exact, readonly_fails, readonly_partial, projection_kept_partial, projection_overwritten_fails, recon_kept_partial, folder_same, interrupted_at, crash_fit_fresh, crash_fit_modes, crash_fit_mixed, crash_fit_mixed_fails, params_modes_fails, params_savedir_fails, pages_files, report_files, video_files, coeffs_files, coeffs_files_exact, coeffs_open_figure_fails, report_then_coeffs_fails, session_files_partial, open_figures_exact, own_figure_lost_fails, report_leaks_fails, coeffs_size_fails, size_partial, eigs_inside, spectrum_visible_exact, spectrum_visible_fails, spectrum_position, shade_mono, shade_injective_exact, subplots_exact, subplots_blank_fails, subplots_constant_fails, checkpoint_best, checkpoint_stale_fails, trained_files, inference_loads_exact, inference_uses, inference_uses_real, imag_missing_fails, imag_stale_fails, names_differ, anyImag_iff, state_after_inference, train_after_init_partial, training_order_fails, read_data_exact, read_npy_fails, read_other_raises, read_format, conv_serial, conv_ranks, conv_affine, conv_affine_ranks, conv_energy_exact, conv_energy_fails, conv_selection_exact, conv_order_fails, conv_single_fails, conv_memory_fails, spod_optimal, spod_optimal_freq, fit_library_independent, fit_affine, fit_weights_scaled, fit_reordered, full_spectrum_exact, full_spectrum_partial, full_spectrum_fails, total_variance_partial, total_variance_odd_exact, total_variance_odd_fails, total_variance_full_exact, reconstruction_splits_partial, best_approximation_partial, best_approximation_fails, more_frequencies_partial, more_frequencies_fails, reproject_same, reproject_real, projection_affine, coeffs_zero_mean, pod_energy_bound, pod_optimal_partial, pod_optimal_fails, pod_changed_data, picture_names, picture_files, mode_call_files, tracer_names, data_tracer_names, report_pages_exact, nearest_self, report_ranks_fails, report_ranks_partial, report_file_last, sizes_printed, single_frequency_coeffs, coeffs_inner_products, fit_masked, projection_masked, saved_modes_prefix, fit_blocks_reordered, fit_time_reversed, unit_of_time, freqAxis_units, nearest_units, band_units, accepted_network_fails, accepted_network_partial, prediction_earlier_fails, prediction_earlier_partial, reads_written, fit_isometry, fit_pattern, fit_outside_blocks, finite_modes_exact, finite_modes_rank, finite_modes_fails, finite_modes_partial, finite_steady_fails, pod_finite_exact, pod_finite_fails, norm_runs, norm_serial, norm_parallel, norm_variable_axis_fails, norm_idle_rank_fails, norm_constant_fails, norm_flat_fails, norm_dict_fails, norm_units, stream_norm_exact, stream_norm_fails, stream_norm_start_fails, stream_steady, stream_steady_ltm, stream_zero_weight, stream_finite_partial, stream_zero_block_fails, stream_rest_fails, stream_masked_fails, stream_options_fail, stream_zero_mean_fails, stream_options_partial, stream_bounds_fail, stream_bounds_shape_fails, standard_bounds_partial, stream_eig_pos, getters_fail, getters_partial, stream_svd_free, stream_isometry, stream_scaled, slice_shown, slice_fftshift, slice_default_coords, slice_missing_fails, slice_first_missing_fails, slice_third_missing, slice_marker_exact, slice_marker_fails, stream_error_silent, stream_error_zero, stream_error_first, stream_read_ok, stream_ends_partial, stream_error_hangs, reuse_same_input_partial, reuse_exact, reuse_energy_exact, reuse_other_data_fails, one_source_partial, reuse_first_fit, reuse_mixes_fails, fit_triangle, fit_noise, fit_domain_mono, fit_longer, fit_repeated, stream_truncation, pod_triangle, pod_noise, pod_domain_mono, pod_longer, pod_repeated, reconstruction_energy, reconstruction_stable, fit_parts, fit_uncorrelated, pod_error, podFour_error, pod_left_out, pod_closest, fit_constraint, stream_constraint, pod_constraint, workflow_constraint, reconstruction_constraint, reuse_any_grid_exact, reuse_other_grid_partial, reuse_spread_fails, emulate_exact, emulate_error, emulate_complex_error, emulate_remainder_fails, emulate_zero_row_fails, emulate_real_row_fails, pod_given_distance, emulated_fields_partial, pod_norm_partial, pod_norm_constant_fails, pod_norm_idle_fails, pod_norm_flat_fails, pod_norm_units, fit_rank, fit_points, fit_low_rank, pod_rank, pod_rank_exact, pod_parts, stream_triangle, stream_noise, stream_domain_mono, stream_parts, pod_workflow_constraint, pod_reconstruction_energy, pod_reconstruction_stable, pod_coeffs_zero_mean, pod_project_again, stream_workflow_constraint, stream_single_frequency, stream_rank, chunk_size_partial, chunk_size_fails, mat_chunk_size, stream_longer, pod_crash_file, fit_rounding, rounding_ranks, roundBound_le, gram_exact_possible, fit_floating, pod_floating, pod_exact_possible, pod_project_floating, pod_project_possible, reported_floating, close_units, rank_one_possible, rank_one_nan, spod_floating, hat_near, hatBound_le, hat_exact_possible, fit_periodic, mode_unit_norm, modes_orthogonal, small_mode_lost, mode_exact_possible, overlap_decimal_fails, overlap_whole_partial, overlap_any_partial, ceilDiv_exact, halfCount_exact, chunks_exact, chunks_mat_exact, freqReal_axis, freqFull_axis, rn_double, pvar_rounding, nanvar_rounding, pvar_nonneg, weight_rounding, weights_serial_parallel, seqStat_possible, constant_variance_positive, scaling_double, scaling_double_inexact, scaling_double_zero_row, check_unit_norm, check_orthogonal, check_double, check_lost_mode, inner_rounding, spod_project_floating, spod_roundtrip_floating, coefficients_rounding, reconstruct_rounding, orthonormal_energy, close_modes_lost, spod_project_possible, stream_floating, column_near, stream_possible, streamBound_le, streaming_fit_floating, basis_floating, stream_values_floating, stream_columns_floating, principal_exists, first_update_possible, conv_floating, conv_floating_ranks, convBound_le, conv_possible, normalized_floating_partial, normBound_le, hat_normalized, hat_normalized_possible, normalized_floating_fails, errors_floating, errors_floating_zero, errors_floating_two, h1_floating, errors_possible, h1_possible, fit_no_overflow, data_below_max_overflow, hatSize_le, pod_no_overflow, fluctValue_le, corrValue_le, modes_no_overflow, factorValue_le, modeValue_le, positive_eigenvalue_overflow, pod_reproducible, mean_reproducible, corr_reproducible, order_matters, unit_power_two, tiny_data_lost, rn_scales, eigs_real_partial, eigs_real_fails, modes_real_fails, ordered_possible

* **none** (3): npy_load_default_fails, pod_default_modes_fails, modes_method

* **propext** (34): npy_load_default_balanced_partial, reader1_single_fails, one_sided_factor_fullspectrum_fails, two_sided_factor_complex, stream_first_blocks_partial, extract_horizon_zero, inference_short, complexPredict_parts, stream_modes_shape_fails, conv_modes_file_wrong, options_exact, options_partial, options_fails, dtype_fails, padding_exact, stored_float_exact, stored_float_fails, get_all_modes_again, get_all_modes_twice_fails, method_reconstruct_exact, method_project_exact, method_project_fails, method_reconstruct_fails, method_partial, crash_projection_exact, crash_projection_mixed_fails, crash_pod_projection_mixed_fails, dtype_same_exact, dtype_single_fails, methods_exact, slice_method_fails, stream_error_harmless, crash_pod_exact, crash_pod_mixed_fails

