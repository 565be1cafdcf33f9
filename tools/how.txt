C01 | `_blockdist` | Nat div/mod; partition as ordered, disjoint, covering intervals
C02 | `_blockdist` | Nat div/mod
C03 | `distribute`, `distribute_data`, `distribute_dimension` on `Arr` | slice/concatenation lemmas over C01
C04 | choice of the split axis (`argmax` of the shape) | list argmax; all arrays with the same spatial shape give the same axis
C05 | `npy_save`: header + one sub-array write per rank, any order | C-order position injective, writes disjoint, invariance under permutation
C06 | `npy_save`, `npy_load` with explicit count | C05 + slab positions
C07 | `npy_load` without count, with Python's operator precedence | negation; exact condition on divisibility
C08 | local products + allreduce | regrouping of sums over the partition of C01
C09 | `pvar`/`op_stat` on (n, mean, M2) triples over any reduction tree | combination law + induction on trees
C10 | same, rank without data | NaN propagates: negation
C11 | `reader_1stage.get_data_for_time` | induction over the list of datasets
C12 | same, one snapshot | negation past the first dataset, exact result
C13 | dtype of the read buffer | negation; real data by computation
C14 | chunk and piece intervals of `reader_2stage` | nested C01: tiling with existence and uniqueness
C15 | isend/irecv layout, buffers written in any order | per-rank message semantics, position arithmetic, permutation invariance
C16 | sort of file names, then concatenation | permutation invariance of merge sort
C17 | block count and offsets | Nat division
C18 | overlap from percentage | rational floor/ceil arithmetic
C19 | `_get_block` with deletion of used pieces from the dict | invariant over block numbers: all pieces that later blocks need are present
C20 | chunked mean for arrays and for pieces | induction over chunks
C21 | mean type decision and subtraction | case analysis, sums
C22 | `get_freq_axis`, real data | ℚ arithmetic by parity
C23 | same, complex data | negation for every odd n ≥ 3
C24 | doubling of interior frequencies | energy sums by parity, negations
C25 | Gram matrix of weighted blocks | Mathlib matrices over ℂ
C26 | eigenvalue order and mode selection | argsort as any sorting permutation
C27 | modes from eigenvectors | matrix algebra under the eigen-solver contract
C28 | sums of eigenvalues | trace identities
C29 | confidence bounds with `gammaincinv` | monotonicity contract; negation
C30 | assignment of (frequency, mode) to ranks | div/mod bijection
C31 | gather of a mode from all ranks | message positions, FIFO matching
C32 | transition system with unbuffered sends, receives and barriers | invariant + well-founded measure
C33 | presence test of block files | iff over the set of files; negation
C34 | save/load of blocks with reshape | C-order arithmetic; negations for every shape with nv ≥ 2
C35 | crash after any prefix of writes, later fit | prefixes; negations
C36 | histories of fits into one folder, reading back | induction over histories; exact result
C37 | file names with zero-padded numbers | injectivity of digits; lexicographic order
C38 | streaming block bookkeeping | invariant by induction on time; exact emission sequence
C39 | slots in use | same invariant
C40 | running mean | induction
C41 | Fourier sums per slot | induction + DFT of a constant
C42 | Gram-Schmidt, SVD update, truncation | matrix algebra under the SVD contract
C43 | `n_modes_save` over a history | induction over fits
C44 | weights array mutated in place | induction over fits
C45 | serial and parallel variance with NaN | C09 + negation
C46 | frequency band from period bounds | list search lemmas
C47 | oblique projection with `pinv(rcond)` | matrix algebra; negation for small singular values
C48 | projection with allreduce | C08
C49 | column index of (frequency, mode) | div/mod
C50 | selection of time indices | case analysis per argument kind; negation
C51 | convolution windows | interval arithmetic; negation on centring
C52 | POD eigenproblem | matrix algebra; negation for repeated eigenvalues
C53 | selection of leading POD modes | negation; exact for sorted solvers
C54 | scaler and de-scaler | field arithmetic; negations
C55 | `_extract_sequences` | index arithmetic; exact windows
C56 | inference loop | induction over the loop; negation
C57 | latitude/longitude cells | real analysis (sums of cosines); negations
C58 | error functions | ordered-field inequalities; negations
C59 | YAML reader of the configuration | induction over lines/keys; negations
C60 | argmin lookup | list argmin
C61 | coordinate lookup with mirrored axis | exact result; negation
C62 | energy spectrum from real parts | trigonometric sums; negation
C63 | orthogonality verdict | complex algebra; negations
C64 | factorisation of the rank count into a grid | loop invariant over divisors
C65 | glob + sort of mode files | C36 model; negation
C66 | streaming energies | induction; exact weights; negation
C67 | shapes in the streaming update | case analysis; negation
C68 | numpy `squeeze` on one value | case analysis; negation
C69 | stored mean of a stream | exact formula; negation for every stream
C70 | streaming loop over a source | termination proof; non-termination proof for NetCDF lists
C71 | `normalize_data` | exact result; negation
C72 | `freq_idx` without band | negations
C73 | convolution per rank without reduction | exact condition; negation
C74 | padding correction | exact factor; negation
C75 | convolution on a band | exact condition; negation
C76 | reinterpretation of the mode array when stored | C-order arithmetic; exact content
C77 | POD data layouts | exact acceptance; negation
C78 | POD number of modes | exact acceptance; negations
C79 | POD loading and dtype | loop induction; negation
C80 | POD reconstruction with weights | exact result for constant weights; negation
C81 | POD Gram matrix and coefficients by rank | C08
C82 | all steps of `Standard.fit` composed | simulation of the parallel by the serial fit, step by step
C83 | same | C82 + matrix algebra: result solves the SPOD eigenproblem of the input
C84 | weights acceptance and placement | exact acceptance; negations
C85 | Hamming window, gain | sums of cosines
C86 | real/complex detection | exact; negation
C87 | folder names | string injectivity; negation
C88 | option checks | exact acceptance; negations
C89 | fit of NetCDF files: reader, flattening, all later steps | C15 + C19 + C82 on flattened data, exact success condition
C90 | padding branch for MPI < 4 | exact limit; negation
C91 | fit of .mat files | as C89
C92 | sequence of collective calls of a fit per rank and option | all ranks issue the same sequence; progress in the transition system for every `Lib`
C93 | same with a rank that raises | stuck-state invariant; negation
C94 | looking for and writing block files around barriers | invariant over reachable states
C95 | sessions of operations with file accesses | barrier-separation invariant lifted over parts, operations and sessions
C96 | POSIX open/write interleavings | invariant: the last rank that opened has a correct prefix
C97 | whole streaming fit per rank: reader, all updates, save | slabs of the distributed axis sum to the global inner products; induction over updates; C05 for the files
C98 | same, with any SVD routine meeting its contract | existence of an SVD proved; invariant of the update recursion lifted to the stored files
C99 | compute_coeffs_op on all ranks, from folder to files | slabs of the distributed axis sum to the global inner products; C05 for the files
C100 | compute_reconstruction on all ranks, from folder to file | per-rank product is a slab of the global product; setting the shape recovers the slab; C05
C101 | same with the einsum/reshape of three-dimensional coefficients | product index of (frequency, mode) through finProdFinEquiv
C102 | same | negation: the inferred extent is undefined for zero entries
C103 | composition of both models through the folder | C47 applied to the stored matrices
C104 | the models of C83, C99, C100 composed through the stored folder (`storedOf`) | each step equals its global specification
C105 | same as C103 | negation: one mode, two opposite real snapshots; real modes: the truncated inverse of a real matrix is real (C107)
C106 | compute_coeffs_op on a folder with weights [N, 1] and modes [N, 1, k] | C-order slabs of the first axis agree iff the extents divide; otherwise a reshape raises
C107 | `_oblique_projection` with any SVD | the truncated inverse is determined by the matrix: link of singular vectors with equal singular values
C108 | POD `Standard.fit` on all ranks, from datasets to files | slabs of the distributed axis sum to the global Gram matrix; setting the shape recovers the slab; C05
C109 | POD compute_coeffs_op on all ranks | as C99
C110 | C108 with an exact eigen-solver (existence from the spectral theorem) | C52 applied to the stored numbers
C111 | the three POD models composed through the folders | each step equals its global specification; C80 for unit weights
C112 | the argument is not used | negation: number of stored rows
C113 | plot_2d_data, video frames: coordinates, transposition, contract of contourf / pcolormesh | case analysis on the extents; negation for square data
C114 | plot_2d_modes_at_frequency with limits as any selection of indices | selection of coordinates and of values commute
C115 | `_set_2d_axes_limits` | minimum and maximum are attained; linear arithmetic
C116 | plot_max: all maxima, lines | the list of maxima is the singleton; negations
C117 | roll, fftshift, in-place coordinates | integer and modular arithmetic on columns; longitudes in the reals
C118 | choice of coordinates by length | case analysis; negation
C119 | plot_mode_tracers | trigonometry of the phase
C120 | plot_data_tracers, videos, plot_2d_data and the methods that call them | list slices
C121 | find_peaks with numpy's binary search, pages, titles | invariant of the binary search on sorted arrays; monotonicity in the predicate on arbitrary arrays
C122 | npy_save down to bytes, _set_dtype, distribution | slabs as in C01-C05; exact condition on the bytes
C123 | _set_dtype on data types | case analysis; negation
C124 | paths, working directory, functions that read and write folders | simulation of an ideal session by induction on calls; negations
C125 | arrays as windows on files | induction on the changes
C126 | permissions of mapped files | case analysis
C127 | methods and attributes of objects | induction on histories of calls
C128 | folders and file names of projections and reconstructions | last write wins, by induction; injectivity of folder names
C129 | order of file writes of a projection, crash points | state of each file after n operations, by induction
C130 | order of file writes of a fit, crash points | same
C131 | keys written into the caller's dictionary | induction on sequences of objects: running minimum
C132 | pyplot's stack of figures, all plotting functions as operations on it | induction on loops and sessions
C133 | same | exact final stack of every call
C134 | same | sizes of the saved figures
C135 | axis limits of plot_eigs | ceiling and maximum
C136 | logarithmic axes, grey of each curve | case analysis, linear arithmetic
C137 | rounded colour range, contour levels | floor and ceiling
C138 | epochs as arbitrary functions, checkpoint callback | induction on epochs with the best-so-far invariant
C139 | files of weights by name, operations on the object | induction on histories, file frames
C140 | hidden state of the object | exact start of each training, counterexample network
C141 | splitext and the branches of read_data | lists of characters
C142 | the three interpretations of dtype | case analysis
C143 | the whole of compute_coeffs_conv on all ranks, memory as a parameter | sums over rows of a rank, conv_ranks
C144 | as C143 | two runs, linearity of transform and mean
C145 | fit and convolution together | window centres are the fit's blocks, eigenvector normalisation
C146 | as C143 with a list of frequencies | exact entry formula and counterexamples
C147 | as C83 | Ky Fan inequality from Bessel twice and a rearrangement
C148 | as C83, solver contract with a basis | roots of the characteristic polynomial, eigenspaces of dimension one
C149 | as C83, two runs | scaled realizations give a scaled cross-spectral matrix
C150 | as C149 | as C149
C151 | as C149 | bijection of the rows
C152 | as C83 with fullspectrum | conjugate realizations at the mirrored frequency
C153 | as C83 | Parseval, trace of the cross-spectral matrix, mirror sums
C154 | as C99, C100 | residual orthogonal to the modes (pseudo-inverse), Pythagoras; counterexample with explicit SVD
C155 | as C154 | nested spans
C156 | as C154 | idempotence of the oblique projection
C157 | as C154 | linearity of the coefficients in the fluctuations
C158 | as C154 | fluctuations sum to zero
C159 | as C108 | Ky Fan inequality of C147 for the complexified data; explicit solver in the order of the diagonal
C160 | as C108 | the second decomposition pulled back to the first matrix; characteristic polynomial; simple eigenvectors unique up to sign
C161 | file names as character lists, `splitext`, a folder as a log of writes | `splitext` commutes with inserting the tag; numbers and labels are read off from the right
C162 | pages of the report by rank, on top of the peak search of C121 | nearest frequency of an entry of the axis is that entry
C163 | the report file as the last of the ranks' writes | fold over the order of the ranks
C164 | names of methods and functions | case analysis over the two lists, for all arguments and all behaviours of the functions
C165 | shares of the ranks and the three reductions | balance and sum of the block distribution
C166 | the projection end to end after a fit | orthonormal modes make the matrix of inner products the identity for every SVD and tolerance below one
C167 | fit and projection of two data sets that agree where the weight is not zero | every sum over grid points carries the weight
C168 | fits with two values of `n_modes_save` | the eigenvectors do not depend on it
C169 | fit of the rearranged snapshots | blocks are permuted, the cross-spectral density is conjugated by a permutation
C170 | fit of the reversed snapshots | the DFT of a reversed block is the conjugate up to a phase
C171 | frequency axis, selection of the band, projection | scaling commutes with argmin
C172 | choice of the network, keras contract for models that are not compiled | case analysis
C173 | inference of two inputs | each predicted column uses a window before it
C174 | the phases of C95, and for each call the calls it needs | every read of a phase is written in an earlier phase of the session; barriers order the phases
C175 | fits of the two data sets, realizations linear in the data | the cross-spectral matrices are equal
C176 | fit of the data given by pattern, amplitude and steady field | the cross-spectral matrix has rank one; trace and eigenvector equations
C177 | fits of two data sets that agree inside the blocks | the Fourier realizations are equal
C178 | the division by the square root of the eigenvalue (standard.py, pod/standard.py) with a result only for positive eigenvalues | rank of the cross-spectral matrix; kernel of the centred correlation
C179 | `apply_normalization` on all ranks inside the fit, reduction by an arbitrary tree | sums over slabs; variance of the union of the ranks' values (C45)
C180 | fits of the two data sets with normalised weights | the variances scale with the square; isometry of the normalised inner products (C175)
C181 | `_initialize` with `streaming=True` | unfolding: the variances are those of the first snapshot
C182 | the streaming fit on all ranks (Model/StreamFit) | the running mean follows the field, so every block transform is unchanged; equal updates
C183 | the streaming fit on all ranks | points of weight zero contribute zero to every inner product of an update; induction over the updates
C184 | the streaming fit with division giving no result for zero (Model/StreamFloat) | induction over the updates; `abs_up` is zero exactly for dependent blocks
C185 | `mean_type` and `normalize_data` as options of the streaming fit | the options are never read by the updates
C186 | the arrays saved in `eigs_freq_weights` (Model/Attributes) | unfolding; positivity of the first eigenvalue from the energy of the blocks
C187 | attributes set by each method, up to any point of failure (Model/Attributes) | invariant over all sessions
C188 | runs of the streaming update with two routines | the represented density is the same after every update (induction); its characteristic polynomial determines the values, its eigenspaces the simple modes
C189 | streaming fits of the data and of the image | the image of a run is a run; uniqueness of C188
C190 | plot_3d_modes_slice_at_frequency for one variable and mode | case analysis over axes; modular arithmetic for the shift; marker from the exact index of the maximum (C119)
C191 | serial streaming fit with a predicate of failing reads | the loop consumes exactly the snapshots before the error; the fit is that of the shorter record
C192 | collective calls of a streaming fit on every rank | C92's lemma; two different collectives at the same position: invariant that neither rank passes it
C193 | whole fits with savefft/reuse_blocks over a list of fits in one folder, files by name | invariant: the file of every block and frequency is that of the fit the specification names; generalised C82 for given realizations
C194 | which fit owns each frequency of the folder | induction over the history: the owned frequencies form an initial segment of one fit
C195 | whole fits (as C82) of three data sets | Weyl's inequality for singular values through a common vector of two subspaces (dimension count), block transforms are additive and bounded
C196 | whole fits on two grids | quadratic forms compared, then min-max through a common vector
C197 | whole fits of a record and a continuation | block transforms of the first blocks agree; Cauchy interlacing through embedding and restriction of vectors
C198 | whole fits of a record and its repetition | the cross-spectral matrix of the repetition consists of copies; eigenvectors are repeated, uniqueness of sorted eigenvalues
C199 | two whole streaming fits (as C97) of the same data with different numbers of modes | the basis after the updates is the rank-k part of a positive matrix; deficit positive semidefinite, its trace counted; Weyl through a common direction
C200 | whole POD fits (as C108) of two or three data sets | the POD spectrum as that of the realizations matrix, then the perturbation bounds of C195
C201 | whole POD fits on two grids | quadratic forms compared, min-max through a common vector
C202 | whole POD fits of a record and a continuation | interlacing and copies as for C197, C198
C203 | projection and reconstruction, both on any number of ranks | the reconstruction about the mean is an orthogonal projection for the weighted product, so Pythagoras
C204 | as C203 for two data sets | linearity and energy bound of the projection; the mean part is orthogonal in time
C205 | three whole fits (as C83) | quadratic forms add; trace and min-max through a common vector
C206 | three whole fits | product of the two cross-spectral matrices vanishes, so characteristic polynomials multiply
C207 | POD fit, projection and reconstruction (as C105, C110) | the stored modes are orthonormal, the projection is orthogonal; trace of the correlation matrix and Ky Fan's bound
C208 | standard fit (as C86) | the DFT of a constant minus its mean is 0; modes are combinations of the realizations
C209 | streaming fit (as C98) | basis stays in the span of the weighted blocks, which lies in the kernel of the relation
C210 | POD fit (as C105) | modes are combinations of fluctuations
C211 | fit, projection, reconstruction (as C94, C100) | reconstruction = long-time mean of the projected data + combination of selected modes
C212 | fits with savefft/reuse_blocks (as C193), numpy assignment with broadcasting | invariant on the folder over the history, each file on the grid of its owner
C213 | scaler, scale_data, model_inference, descale_data composed as in the emulation workflow; network = any function | entry formula of the composed call, then error propagation
C214 | POD fit, projection, emulation, reconstruction from given coefficients on any ranks | Parseval for the stored orthonormal modes
C215 | all ranks of _initialize with normalize_weights (Model/PodNorm), any order of the reduction | pvar of the slabs is the variance of the whole, then the fit of each rank with the slab of the divided weights
C216 | the same | affine change of the variance, then C160
C217 | the whole fit on any ranks (C83) | a vector orthogonal to r amplitudes and to the later eigenvectors; Weyl for the approximation
C218 | the whole POD workflow | spectrum of the correlation matrix as in C200, then C207
C219 | the whole POD fit on any ranks (C108) | the correlation matrix of the whole is the sum of those of the parts; spectrum as in C200, sums and unions as in C205, C206
C220 | whole streaming fits on any ranks (C98) | the kept basis represents the exact density (C67); a direction common to strong and weak subspaces; the blocks are linear in the data
C221 | whole streaming fits on any ranks (C98) | as C220, with the directions extended by zero or split over the parts
C222 | POD fit, projection and reconstruction on any ranks | the modes are combinations of the fluctuations, which satisfy the relation with right-hand side zero
C223 | POD fit, projection and reconstruction on any ranks | the modes are orthonormal; Pythagoras for the fluctuation, any combination of modes and the reconstruction
C224 | POD fit, projection and reconstruction on any ranks | the coefficients are linear in the fluctuations, whose sum is zero; orthonormal modes
C225 | `streamStored`: the folder of a streaming fit as the projection reads it | modes are combinations of the blocks (C183); reconstructions are the mean plus combinations of modes
C226 | `streamStored`; projection on any ranks | the columns of the basis are orthonormal in the weighted product; the pseudo-inverse of the identity
C227 | whole streaming fits on any ranks (C98) | induction over the updates: the matrix of an update has one rank more; truncation keeps the largest
C228 | number of chunks of both readers, data of a chunk on a rank | arithmetic of the two block distributions; 9 snapshots of 128 MB as counterexample
C229 | whole streaming fits on any ranks (C98) | the fit of the longer record continues the updates of the shorter; Weyl-type comparison of the Gram matrices along the updates
C230 | order of file writes of a POD fit, crash points, files that the projection reads | states of the files after any number of operations
C231 | floating-point operations of the matrix of a fit as a relation (any rounding, any order) | running error bounds by induction on the tree of additions; Cauchy-Schwarz; residual bound for Hermitian matrices
C232 | as C231, transforms with errors | C231 for the perturbed blocks, singular-value perturbation for the transforms
C233 | floating-point operations of a POD fit (mean, subtraction, matrix) as a relation | running error bounds; the real sums are complex ones with zero imaginary parts, then C231
C234 | floating-point operations of projection and reconstruction as a relation | running error bounds through mean, fluctuation, local products, reduction, reconstruction
C235 | real_if_close, sorting, doubling, modulus and mode factors on complex eigenvalues with rounding errors | C231 plus a case distinction on the branch; explicit matrix with a negative eigenvalue
C236 | floating-point operations from the data to the Fourier coefficients as a relation, then those of C231 and C235 | running error bounds for mean, window, transform and scaling; perturbation of the eigenvalues as in C232; C235
C237 | whole fit | all blocks have the same Fourier coefficients, so the matrix has rank one; eigenvalues and first mode of a rank-one matrix
C238 | factors and matrix product of the modes as relations with unit roundoff `u`, additions in any order | errors of a dot product point by point, summed in the weighted norm (Cauchy-Schwarz); residual of the exact matrix of the computed blocks; triangle inequalities; two eigenvectors with residuals are nearly orthogonal when the eigenvalues are apart
C239 | the ceiling of the rounded quotient, for any rounding to double precision | monotone rounding, exact integers and the gap between a fraction with denominator 100 and the next integer; the counterexample is computed with rounding to nearest
C240 | ceilings and floors of rounded quotients, the two rounded quotients of a frequency | a quotient of integers below 2^53 stays on its side of every integer; ratios of neighbouring frequencies exceed the rounding errors
C241 | pvar with every operation rounded, as a relation over any reduction tree; the sequential evaluation in doubles | error propagation through sums, products and quotients by induction over the tree; the example evaluates nine roundings
C242 | scaler, scale_data and descale_data with rounded products and quotients | monotone rounding for the bounds, two relative errors for the round trip; the example is computed with rounding to nearest
C243 | the weighted product with every operation rounded, summed over ranks in any order, and the comparison with the tolerance | norm and product bounds of C238 plus the rounding error of the product (Cauchy-Schwarz) stay within the tolerance
C244 | mean, fluctuations, matrix of the modes, right-hand sides, reconstruction with every operation rounded in any order; residual of the pseudo-inverse as contract; exact files by the model of C99/C103 | the error solves the exact normal equations with a perturbed right-hand side; energy estimate with the smallest energy s; singular values of the exact matrix lie between s and the energy of the modes
C245 | running mean, Fourier sums of the parallel slots, subtraction of the mean, scaling and weighting with every operation rounded, as relations beside the loop of C38–C41 | simulation: the computed and the exact loop have the same slots, and every number is an Approx of the exact one with a known number of roundings
C246 | projection, orthogonal part, its norm, normalization, small matrix, rotation and truncation with every operation rounded, SVD by contract, M updates from the zero basis | the columns of rotated basis times values times V are near the old columns and the new one (update_columns); energy seen by a pattern as a norm, so errors add (update_energy, updates_energy); min-max principle for a nearly orthonormal basis (values_near)
C247 | mean, fluctuations, padding, window, FFT (contract), weights, products with the conjugated modes, amplitude correction, conversion, every operation rounded, sums in any order | ratios of positive numbers are closed under sums, quotients and roots (corr_ratio); the transforms as in C236 (bin_near); products with the modes by row_point (coef_near); the exact values from conv_serial, conv_ranks
C248 | as C236, with the mean and variance over the block, the threshold and the division rounded | blockVar_near: the variance as a mean of squares; hat_normalized: same side of the threshold, hence a relative error of the divisor; the rest from C236 (fit_floating, reported_near); negation: data a, -a, a, … with variance equal to the threshold
C249 | differences, quotients, sums in any order, squares, roots, maxima, every operation rounded | relative errors are kept by sums of non-negative numbers, squares, roots and maxima (near_norm1, near_norm2, near_max); h1: absolute errors of the differences, and the root of a difference
C250 | the intermediate values of every operation of the relations of C231 and C236, in every evaluation possible up to there | partial sums are at most (1 + u)^n times the sum of the magnitudes (tree_size, part_leaves); stage by stage: mean, fluctuation, window, transform, scaling, products, sums over points and ranks
C251 | the intermediate values of every operation of the relations of C233 | as C250, for real numbers and without the transform
C252 | the intermediate values of the factors and modes of C238 | lower bounds of the rounded roots and products for the reciprocal (rounds_low), then sums of products as in C250
C253 | sums with a rounding function after every addition, over any binary tree of any permutation of the terms | partial sums of integers with magnitudes adding up to at most 2^53 are integers of that size, hence exact (tree_int); the magnitudes of all ranks add up to the sum over all points (gram_procs)
C254 | sums with a rounding function after every operation, over any binary tree of any permutation of the terms | scaling passes through every rounded operation, by induction on the tree; the converse by scaling back with 2^-k
C255 | the rounded products of a rank and an arbitrary procedure for adding them | the products of entries (i,j) and (j,i) are equal for weights 2^k, hence a symmetric matrix and real eigenvalues; a concrete pair of snapshots otherwise
