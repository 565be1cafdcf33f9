{"id": "C01", "title": "Block distribution is an ordered partition", "statement": "Dividing N items among `size` ranks gives every item index in [0,N) to exactly one rank; the ranges are contiguous, adjacent in rank order, start at 0 and end at N.", "quantifier": "every N >= 0, every number of ranks >= 1, every rank", "why_tests_cant": "N and the number of ranks are unbounded; tests run with 1-4 ranks", "anchors": ["pyspod/utils/parallel.py:_blockdist"]}
{"id": "C02", "title": "Block distribution is balanced", "statement": "The shares of any two ranks differ by at most one item, larger shares come first, each share is floor(N/size) or ceil(N/size), and a rank outside the communicator gets nothing.", "quantifier": "every N, size >= 1, every pair of ranks", "why_tests_cant": "unbounded N and size", "anchors": ["pyspod/utils/parallel.py:_blockdist"]}
{"id": "C03", "title": "Distributing an array loses and duplicates nothing", "statement": "Concatenating, in rank order along the distributed axis, the pieces that distribute / distribute_data / distribute_dimension hand to each rank gives back the original array, element for element; with comm=None the array is returned unchanged.", "quantifier": "every array of every rank and shape, every axis, every number of ranks (including more ranks than entries)", "why_tests_cant": "arbitrary dimensionality, shapes and rank counts", "anchors": ["pyspod/utils/parallel.py:distribute", "pyspod/utils/parallel.py:distribute_data", "pyspod/utils/parallel.py:distribute_dimension"]}
{"id": "C04", "title": "All arrays are split along the same, largest spatial axis", "statement": "distribute_data picks the first spatial axis of maximal extent, and slicing data, mean and weights with that axis gives local arrays whose spatial index i refers to the same global point on every rank; distribute(weights) agrees with distribute_data(data) when the weights have exactly the spatial shape.", "quantifier": "every shape, every number of ranks, every local index", "why_tests_cant": "arbitrary shapes with ties, arbitrary rank counts", "anchors": ["pyspod/utils/parallel.py:distribute_data", "pyspod/utils/parallel.py:distribute", "pyspod/spod/base.py:initialize"]}
{"id": "C05", "title": "A collectively saved file equals the serial save of the whole array", "statement": "npy_save on a communicator writes a file whose shape is the local shape with the axis extent summed over ranks and whose content is the concatenation of the local arrays in rank order along the axis; no byte is written by two ranks, so the result does not depend on the order in which ranks write.", "quantifier": "every number of ranks, every local extents (also zero), every axis, every dimensionality, every interleaving of the ranks' element writes", "why_tests_cant": "write schedules and shapes are unbounded", "anchors": ["pyspod/utils/parallel.py:npy_save"]}
{"id": "C06", "title": "Save / load round trip across ranks", "statement": "npy_load with an explicit per-rank count returns on each rank exactly the slab of the saved array starting at the sum of the previous ranks' counts; if the counts are those used when saving, every rank gets back its own array.", "quantifier": "every number of ranks, all count vectors that fit, every axis and shape", "why_tests_cant": "unbounded shapes, rank counts, and count vectors", "anchors": ["pyspod/utils/parallel.py:npy_load", "pyspod/utils/parallel.py:npy_save"]}
{"id": "C07", "title": "npy_load without count distributes the whole file", "statement": "npy_load(comm, file, axis) with count=None gives the ranks balanced slabs that together cover the whole file.", "quantifier": "every array, axis and number of ranks", "why_tests_cant": "needs every extent x rank-count pair", "anchors": ["pyspod/utils/parallel.py:npy_load"]}
{"id": "C08", "title": "Reductions do not depend on how the space is split", "statement": "The cross-block inner-product (Gram) matrix that SPOD and POD form by summing local products over ranks equals the matrix computed serially on the whole data, for any contiguous split of space, hence eigenvalues and mode combinations do not depend on the number of processes (in exact arithmetic).", "quantifier": "every number of ranks, every split, every data and weights", "why_tests_cant": "needs all rank counts and all data", "anchors": ["pyspod/utils/parallel.py:allreduce", "pyspod/spod/standard.py:_compute_standard_spod", "pyspod/pod/standard.py:fit"]}
{"id": "C09", "title": "Parallel variance is the population variance of all the data", "statement": "pvar returns, on every rank, the count, mean and population variance of the union of all ranks' data, whatever the reduction order and tree used by MPI, provided every rank holds at least one value.", "quantifier": "every data, every partition into non-empty parts, every reduction tree", "why_tests_cant": "reduction trees and partitions are unbounded", "anchors": ["pyspod/utils/parallel.py:pvar"]}
{"id": "C10", "title": "Parallel variance with an idle rank", "statement": "pvar returns the population variance of the union also when some rank holds no data (more ranks than grid points along the split axis).", "quantifier": "every data, every partition possibly with empty parts", "why_tests_cant": "depends on the rank count exceeding an extent", "anchors": ["pyspod/utils/parallel.py:pvar", "pyspod/utils/weights.py:apply_normalization"]}
{"id": "C11", "title": "Snapshots read from several files are the concatenation of the files", "statement": "Fitting on a list of datasets loaded in one stage sees exactly the time-concatenation of the datasets, restricted on each rank to its slab of the largest spatial axis; every snapshot appears once and in order.", "quantifier": "every list of datasets, every file lengths, every number of ranks", "why_tests_cant": "unbounded numbers of files and lengths", "anchors": ["pyspod/utils/reader.py:reader_1stage"]}
{"id": "C12", "title": "Reading one snapshot at a time from several files", "statement": "reader_1stage.get_data(ts) returns global snapshot ts for every ts below the total length, whatever files it spans.", "quantifier": "every list of datasets, every ts", "why_tests_cant": "every file layout x every time index", "anchors": ["pyspod/utils/reader.py:reader_1stage.get_data", "pyspod/spod/streaming.py:_get_next_snapshot"]}
{"id": "C13", "title": "Complex input stays complex", "statement": "Reading complex-valued data through the one-stage reader preserves real and imaginary parts.", "quantifier": "every complex dataset", "why_tests_cant": "all values", "anchors": ["pyspod/utils/reader.py:reader_1stage.get_data", "pyspod/utils/reader.py:reader_1stage.is_real"]}
{"id": "C14", "title": "Two-stage reading partitions time exactly", "statement": "The pieces returned by the two-stage reader (chunk by chunk, block by block, in dictionary order) cover every snapshot index in [0,nt) exactly once and in increasing order, and inside a chunk every file contributes exactly the snapshots the reader rank was assigned.", "quantifier": "every list of file lengths, every number of blocks/readers/ranks", "why_tests_cant": "unbounded numbers of files, readers and ranks", "anchors": ["pyspod/utils/reader.py:reader_2stage"]}
{"id": "C15", "title": "Two-stage reading redistributes time slabs to space slabs correctly", "statement": "After the two-stage read, every rank holds, for every snapshot, exactly its own spatial slab: the value at (t, x) equals the value in the file, regardless of which reader rank read snapshot t and how many reader ranks there are.", "quantifier": "every number of ranks, every number of readers, every interval of snapshots and every spatial shape; distinct file names, strictly increasing time labels in each file, and the exchange without padding (with padding the read raises, see C89)", "why_tests_cant": "all-to-all layouts over unbounded rank counts", "anchors": ["pyspod/utils/reader.py:reader_2stage.get_data_for_time_interval"]}
{"id": "C16", "title": "The order in which .mat files are listed does not matter", "statement": "The MAT reader produces the same snapshot sequence for every permutation of the file list, and the sequence is the concatenation in file-name order.", "quantifier": "every list of distinct file names, every permutation", "why_tests_cant": "all permutations of lists of any length", "anchors": ["pyspod/utils/reader.py:reader_mat"]}
{"id": "C17", "title": "Number, position and bounds of SPOD blocks", "statement": "With n_DFT snapshots per block and n_overlap shared, a fit uses floor((nt - n_overlap)/(n_DFT - n_overlap)) blocks; block i covers snapshots [i(n_DFT-n_overlap), i(n_DFT-n_overlap)+n_DFT); all blocks lie inside [0,nt), consecutive blocks share exactly n_overlap snapshots, one more block would not fit, and fewer than n_DFT-n_overlap trailing snapshots are unused.", "quantifier": "every nt, n_DFT, n_overlap < n_DFT", "why_tests_cant": "unbounded sizes; off-by-one at every boundary", "anchors": ["pyspod/spod/base.py:_initialize", "pyspod/spod/standard.py:_compute_blocks"]}
{"id": "C18", "title": "The overlap percentage becomes a valid block overlap", "statement": "For an overlap percentage in [0,100) the number of overlapping snapshots is ceil(n_DFT*overlap/100), and a fit is rejected exactly when it exceeds n_DFT-1, so that every accepted configuration makes progress from block to block.", "quantifier": "every n_DFT >= 1, every rational overlap in [0,100)", "why_tests_cant": "infinitely many parameter pairs", "anchors": ["pyspod/spod/base.py:__init__", "pyspod/spod/base.py:_initialize"]}
{"id": "C19", "title": "Every block is cut from the right snapshots even if data come in pieces", "statement": "Extracting a block from the dictionary of read time-pieces returns exactly the snapshots [start,end), for every sequence of non-decreasing block starts, although pieces are deleted once they lie entirely before the current block.", "quantifier": "every tiling of [0,nt) into pieces, every non-decreasing sequence of block ranges", "why_tests_cant": "histories of deletions over arbitrary tilings", "anchors": ["pyspod/spod/standard.py:_get_block"]}
{"id": "C20", "title": "The long-time mean is the arithmetic mean over time", "statement": "The mean stored and subtracted under mean_type='longtime' equals (1/nt) * sum of all snapshots, whatever the number of chunks used in the computation and whether data are held in one array or in pieces.", "quantifier": "every data, every nt, every number of blocks/chunks >= 1", "why_tests_cant": "all chunk counts x lengths (the remainder chunk)", "anchors": ["pyspod/spod/base.py:long_t_mean", "pyspod/pod/base.py:long_t_mean"]}
{"id": "C21", "title": "The chosen mean type decides what is subtracted", "statement": "'longtime' subtracts the long-time mean, 'zero' subtracts nothing, 'blockwise' subtracts each block's own mean; any other name is rejected before any block is transformed.", "quantifier": "every string, every data", "why_tests_cant": "all strings and all data", "anchors": ["pyspod/spod/base.py:select_mean", "pyspod/spod/standard.py:_compute_blocks"]}
{"id": "C22", "title": "Frequency axis of a one-sided (real-data) spectrum", "statement": "For real data the frequency axis has floor(n_DFT/2)+1 entries, entry k is k/(n_DFT*dt), it is strictly increasing from 0 and every entry is at most the Nyquist frequency 1/(2 dt).", "quantifier": "every n_DFT >= 1, every dt > 0", "why_tests_cant": "every parity and size", "anchors": ["pyspod/spod/base.py:get_freq_axis"]}
{"id": "C23", "title": "Frequency axis of a two-sided (complex-data) spectrum", "statement": "For complex data the n_DFT frequencies label DFT bin k with an alias of k/(n_DFT*dt) inside the Nyquist band [-1/(2dt), 1/(2dt)].", "quantifier": "every n_DFT >= 1, every dt > 0", "why_tests_cant": "every parity and size", "anchors": ["pyspod/spod/base.py:get_freq_axis"]}
{"id": "C24", "title": "One-sided spectra account for the negative frequencies", "statement": "For real data, the factor applied to the eigenvalues of each stored frequency equals the number of two-sided DFT bins it represents (1 for zero frequency and for Nyquist of an even transform, 2 otherwise), so that summing over stored frequencies gives the total two-sided energy.", "quantifier": "every n_DFT, real data, one-sided or full spectrum", "why_tests_cant": "every parity, every size, every data", "anchors": ["pyspod/spod/standard.py:fit"]}
{"id": "C25", "title": "The cross-spectral matrix is Hermitian positive semidefinite", "statement": "For non-negative weights the matrix whose eigenvalues are reported is Hermitian and positive semidefinite, so the exact eigenvalues are real and non-negative.", "quantifier": "every Fourier-block data, every non-negative weights, every block count", "why_tests_cant": "all complex data", "anchors": ["pyspod/spod/standard.py:_compute_standard_spod"]}
{"id": "C26", "title": "Eigenvalues are reported in decreasing order, each with its own mode", "statement": "At every frequency the reported modal energies are non-increasing and the k-th saved mode is built from an eigenvector of the k-th reported eigenvalue.", "quantifier": "every matrix and every output order of the eigen-solver", "why_tests_cant": "all spectra including ties", "anchors": ["pyspod/spod/standard.py:_compute_standard_spod"]}
{"id": "C27", "title": "SPOD modes are orthonormal in the weighted inner product", "statement": "At each frequency, modes belonging to positive eigenvalues satisfy <phi_i, phi_j>_W = delta_ij whenever the eigen-solver returned orthonormal eigenvectors (automatic for distinct eigenvalues).", "quantifier": "every data, every non-negative weights", "why_tests_cant": "all data", "anchors": ["pyspod/spod/standard.py:_compute_standard_spod", "pyspod/spod/utils.py:check_orthogonality"]}
{"id": "C28", "title": "Total modal energy equals block-averaged energy", "statement": "At each frequency the sum of all eigenvalues is the mean over blocks of the weighted energy of the Fourier block, and the modes-and-eigenvalues expansion reproduces the cross-spectral density.", "quantifier": "every data, weights and block count", "why_tests_cant": "all data", "anchors": ["pyspod/spod/standard.py:_compute_standard_spod"]}
{"id": "C29", "title": "Confidence bounds bracket the eigenvalues", "statement": "The reported lower confidence bound is at most the reported upper one.", "quantifier": "every confidence level in (0,1), every block count, every non-negative eigenvalue", "why_tests_cant": "all levels", "anchors": ["pyspod/spod/base.py:compute_confidence", "pyspod/spod/base.py:_store_and_save", "pyspod/spod/standard.py:_compute_standard_spod"]}
{"id": "C30", "title": "Parallel mode output writes each (frequency, mode) exactly once", "statement": "When modes are written one file per mode, every (frequency, mode) pair is written by exactly one rank, in every fit, and in each pass a rank collects at most one mode.", "quantifier": "every number of frequencies, modes and ranks", "why_tests_cant": "unbounded counts, last incomplete pass", "anchors": ["pyspod/spod/standard.py:_compute_standard_spod (savefreq_disk2)"]}
{"id": "C31", "title": "Parallel mode output gathers the full spatial mode", "statement": "The file written for (frequency, mode) holds, at each spatial point, the value computed on the rank owning that point.", "quantifier": "every number of ranks, every split of space, every data", "why_tests_cant": "unbounded ranks and splits", "anchors": ["pyspod/spod/standard.py:_compute_standard_spod (savefreq_disk2)"]}
{"id": "C32", "title": "Parallel mode output never deadlocks", "statement": "In every interleaving of the ranks' sends, receives and barriers during the per-mode output, some rank can always take a step until all ranks are done, and each receive is matched with the send of the same pass.", "quantifier": "every number of ranks and passes, every schedule", "why_tests_cant": "all schedules", "anchors": ["pyspod/spod/standard.py:_compute_standard_spod (savefreq_disk2)"]}
{"id": "C33", "title": "Cached Fourier blocks are used only when complete", "statement": "With reuse_blocks, cached blocks are used if and only if every file for each (block, frequency) of this configuration exists; otherwise blocks are recomputed.", "quantifier": "every set of existing files, every n_blocks and n_freq", "why_tests_cant": "all subsets of files", "anchors": ["pyspod/spod/base.py:_are_blocks_present", "pyspod/spod/standard.py:fit"]}
{"id": "C34", "title": "Reloading cached Fourier blocks reproduces them", "statement": "After a fit with savefft, a second fit with reuse_blocks on the same data starts from exactly the same Fourier blocks as the first one, serially and in parallel.", "quantifier": "every data, shape, number of variables and ranks", "why_tests_cant": "all shapes and rank counts", "anchors": ["pyspod/spod/standard.py:fit", "pyspod/spod/base.py:_compute_blocks"]}
{"id": "C35", "title": "A crash while writing cached blocks cannot corrupt a later fit", "statement": "If a fit is interrupted at any point while saving Fourier blocks, a later fit with reuse_blocks still works from correct blocks.", "quantifier": "every crash point, every data history", "why_tests_cant": "all crash points", "anchors": ["pyspod/spod/base.py:_are_blocks_present", "pyspod/spod/standard.py:_compute_blocks"]}
{"id": "C36", "title": "Reading back modes returns what the last fit computed", "statement": "get_modes_at_freq(f) after any sequence of fits into the same folder returns the modes the most recent fit computed for frequency f.", "quantifier": "every sequence of fits with any output options, n_modes_save and n_freq", "why_tests_cant": "all histories", "anchors": ["pyspod/utils/postproc.py:get_modes_at_freq", "pyspod/spod/base.py:get_modes_at_freq"]}
{"id": "C37", "title": "Mode file names are unambiguous and ordered", "statement": "Different frequencies (and modes, and blocks) have different file names, and for indices below 10^8 the lexicographic order of names is the numeric order of indices.", "quantifier": "all frequency and mode indices", "why_tests_cant": "unbounded indices", "anchors": ["pyspod/spod/standard.py:_compute_standard_spod", "pyspod/utils/postproc.py:get_all_modes_from_path"]}
{"id": "C38", "title": "Streaming processes the same blocks as the standard algorithm", "statement": "Streaming SPOD transforms the same sequence of blocks (same starts, n_DFT long, sharing n_overlap snapshots) as standard SPOD on the same data.", "quantifier": "every nt, n_DFT, overlap", "why_tests_cant": "all sizes, long histories of a state machine", "anchors": ["pyspod/spod/streaming.py:fit"]}
{"id": "C39", "title": "Streaming block buffers stay within bounds", "statement": "At every time step every slot's time index stays below n_DFT, at most one block completes per snapshot, and the block completing is the slot with the earliest start.", "quantifier": "every n_DFT, overlap, every number of snapshots", "why_tests_cant": "all history lengths", "anchors": ["pyspod/spod/streaming.py:fit"]}
{"id": "C40", "title": "Streaming running mean", "statement": "After reading any number of snapshots the streaming mean equals the arithmetic mean of all snapshots read so far.", "quantifier": "every data, every length", "why_tests_cant": "all lengths and data", "anchors": ["pyspod/spod/streaming.py:fit"]}
{"id": "C41", "title": "Streaming Fourier sums are the DFT of the mean-removed block", "statement": "When a block completes, the accumulated Fourier coefficients equal the windowed DFT of the block's snapshots minus the running mean times the window's DFT.", "quantifier": "every data, window, n_DFT, frequency", "why_tests_cant": "all data", "anchors": ["pyspod/spod/streaming.py:fit"]}
{"id": "C42", "title": "The streaming update keeps a rank-k factorisation of a weighted block average", "statement": "Each streaming update replaces U S^2 U* by an exactly characterised convex-like combination of the old U S^2 U* and the new block's outer product (before truncation), and after c blocks the weights of all blocks are given by a closed form.", "quantifier": "every data, every number of blocks; every new block outside the span of the earlier ones (otherwise the code divides by zero, see C184)", "why_tests_cant": "all histories of updates", "anchors": ["pyspod/spod/streaming.py:fit"]}
{"id": "C43", "title": "A longer history of fits does not change what a fit saves", "statement": "Each fit saves min(requested n_modes_save, number of blocks of this fit) modes, whatever fits the object performed before.", "quantifier": "every sequence of fits on one object", "why_tests_cant": "all histories", "anchors": ["pyspod/spod/base.py:_initialize", "pyspod/spod/base.py:__init__"]}
{"id": "C44", "title": "Fitting does not alter the caller's weights", "statement": "Fitting twice with the same data and the same weights argument gives the same normalized weights both times; the caller's array is unchanged.", "quantifier": "every data and weights, both normalization options, every number of refits", "why_tests_cant": "all histories of fits", "anchors": ["pyspod/spod/base.py:define_weights", "pyspod/utils/weights.py:apply_normalization"]}
{"id": "C45", "title": "Variance normalization is the same serially and in parallel", "statement": "apply_normalization divides each variable's weights by that variable's population variance, with the same result on one process and on many.", "quantifier": "every data, number of variables and ranks", "why_tests_cant": "all splits", "anchors": ["pyspod/utils/weights.py:apply_normalization"]}
{"id": "C46", "title": "Selecting a period band selects exactly the frequencies in the band", "statement": "compute_coeffs_op(T_lb, T_ub) uses the contiguous range of frequency indices between the frequencies nearest to 1/T_ub and 1/T_lb; the range is never empty or reversed for T_lb <= T_ub; with neither given all frequencies are used.", "quantifier": "every frequency axis, every 0 < T_lb <= T_ub", "why_tests_cant": "all bands and axes", "anchors": ["pyspod/spod/utils.py:compute_coeffs_op", "pyspod/utils/postproc.py:find_nearest_freq"]}
{"id": "C47", "title": "Oblique projection recovers data in the span of the modes", "statement": "If the mean-removed data are a linear combination of the modes and the modes are linearly independent, the computed coefficients are exactly those of the combination, and reconstruction with all of them returns the data; with truncated singular values the reconstruct-project map is still idempotent.", "quantifier": "every modes matrix, every data, every tolerance", "why_tests_cant": "all matrices", "anchors": ["pyspod/spod/utils.py:_oblique_projection", "pyspod/spod/utils.py:compute_reconstruction"]}
{"id": "C48", "title": "Projecting in parallel equals projecting serially", "statement": "Coefficients computed from spatially distributed modes, data and weights (local products summed over ranks) equal the serially computed coefficients.", "quantifier": "every number of ranks, every split", "why_tests_cant": "all splits", "anchors": ["pyspod/spod/utils.py:_oblique_projection", "pyspod/spod/utils.py:_compute_l2_norm"]}
{"id": "C49", "title": "Mode matrix columns are addressed by (frequency, mode)", "statement": "Column f*n_modes+m of the matrix used for projection and reconstruction is mode m of the f-th selected frequency, and no two (f,m) share a column.", "quantifier": "every number of frequencies and modes", "why_tests_cant": "all sizes", "anchors": ["pyspod/spod/utils.py:_get_modes"]}
{"id": "C50", "title": "Requested reconstruction times are valid and in order", "statement": "Named time selections ('all','half','quarter','tenth','hundredth') select increasing valid snapshot indices starting from 0; an integer list is used as given; other values are rejected; the default selection is valid.", "quantifier": "every nt >= 1, every selection", "why_tests_cant": "all nt", "anchors": ["pyspod/spod/utils.py:compute_reconstruction"]}
{"id": "C51", "title": "Time-varying (convolutional) coefficients look at full windows", "statement": "Every window of the convolutional coefficients has n_DFT snapshots inside the zero-padded series and window i is centred on snapshot i.", "quantifier": "every nt, n_DFT", "why_tests_cant": "all parities and sizes", "anchors": ["pyspod/spod/utils.py:compute_coeffs_conv"]}
{"id": "C52", "title": "POD modes are orthonormal and reproduce the data", "statement": "With unit weights POD modes belonging to positive eigenvalues are orthonormal, and with all such modes kept, mean + modes*coefficients returns the input data.", "quantifier": "every data", "why_tests_cant": "all data", "anchors": ["pyspod/pod/standard.py:fit", "pyspod/pod/utils.py"]}
{"id": "C53", "title": "POD keeps the most energetic modes", "statement": "The n_modes_save modes that POD keeps are those with the largest eigenvalues.", "quantifier": "every data, every output order of the eigen-solver", "why_tests_cant": "all spectra", "anchors": ["pyspod/pod/standard.py:fit"]}
{"id": "C54", "title": "Scaling and de-scaling coefficients round-trips", "statement": "Emulation.descale(scaler(data, vec), vec) returns data for the scaling vector computed from the data, and the scaled training data lie in the advertised range.", "quantifier": "every data, every scaling option", "why_tests_cant": "all data incl. zero rows", "anchors": ["pyspod/emulation/base.py:scaler", "pyspod/emulation/base.py:descale", "pyspod/emulation/base.py:compute_normalization_vector"]}
{"id": "C55", "title": "Training sequences are aligned windows of the data", "statement": "Training pair k consists of snapshots [k,k+n_in) as input and [k+n_in,k+n_in+n_out) as target, always inside the data, and every such window is used.", "quantifier": "every nt, n_in, n_out", "why_tests_cant": "all sizes", "anchors": ["pyspod/emulation/neural_nets.py:extract_sequences"]}
{"id": "C56", "title": "Emulator inference fills the whole horizon", "statement": "Model inference copies the first n_in columns of the input and predicts each later column exactly once from the preceding n_in columns (predicted or given).", "quantifier": "every nt, n_in, n_out, every model", "why_tests_cant": "all sizes and all models", "anchors": ["pyspod/emulation/neural_nets.py:model_inference"]}
{"id": "C57", "title": "Geographic trapezoidal weights integrate over the sphere", "statement": "geo_trapz weights are non-negative and their total is R^2 times the area of the sphere covered by the grid.", "quantifier": "every regular longitude-latitude grid", "why_tests_cant": "all grids", "anchors": ["pyspod/utils/weights.py:geo_trapz_2D", "pyspod/utils/weights.py:geo_trapz_3D"]}
{"id": "C58", "title": "Error measures are norms", "statement": "compute_l_errors (absolute) and compute_h_errors are non-negative, zero exactly when the two fields agree (for h1: when the difference field vanishes), and symmetric; relative errors are non-negative.", "quantifier": "every pair of fields", "why_tests_cant": "all fields", "anchors": ["pyspod/utils/errors.py:compute_l_errors", "pyspod/utils/errors.py:compute_h_errors"]}
{"id": "C59", "title": "Configuration files: every recognised key ends in the parameters", "statement": "read_config returns the union of required and optional parameters, optional entries overriding required ones, and rejects a file lacking a required parameter.", "quantifier": "every configuration file content", "why_tests_cant": "all contents", "anchors": ["pyspod/utils/io.py:read_config"]}
{"id": "C60", "title": "Nearest-frequency lookup", "statement": "find_nearest_freq returns the entry of the frequency list closest to the request, the earliest such entry on ties, and its index; larger requests never give a smaller index on a sorted axis.", "quantifier": "every non-empty frequency list, every request", "why_tests_cant": "all lists", "anchors": ["pyspod/utils/postproc.py:find_nearest_freq"]}
{"id": "C61", "title": "Nearest-coordinate lookup", "statement": "find_nearest_coords returns, for each requested coordinate, the nearest grid value along that axis and its grid index.", "quantifier": "every grid in 1-3 dimensions, every request", "why_tests_cant": "all grids", "anchors": ["pyspod/utils/postproc.py:find_nearest_coords"]}
{"id": "C62", "title": "Energy spectrum reports signal energy at each frequency", "statement": "compute_energy_spectrum is zero only for signals with no content at that frequency.", "quantifier": "every signal", "why_tests_cant": "all signals", "anchors": ["pyspod/utils/postproc.py:compute_energy_spectrum"]}
{"id": "C63", "title": "Orthogonality check detects non-orthogonal modes", "statement": "check_orthogonality returns true only if the weighted inner product of the two modes is small.", "quantifier": "every pair of modes, every weights, every tolerance", "why_tests_cant": "all complex vectors", "anchors": ["pyspod/spod/utils.py:check_orthogonality"]}
{"id": "C64", "title": "Processor grid factorisation", "statement": "create_subcomm factors the number of ranks into a two-dimensional grid whose product is the number of ranks; every rank belongs to exactly one row group and all groups have equal size, a multiple of the chosen divisor.", "quantifier": "every number of ranks >= 1", "why_tests_cant": "all rank counts", "anchors": ["pyspod/utils/parallel.py:create_subcomm"]}
{"id": "C65", "title": "All modes read back belong to the last fit", "statement": "get_all_modes returns, frequency by frequency in increasing order, exactly the modes of the most recent fit into the folder.", "quantifier": "every sequence of fits into the folder", "why_tests_cant": "all histories", "anchors": ["pyspod/utils/postproc.py:get_all_modes"]}
{"id": "C66", "title": "Streaming and standard energies agree", "statement": "The energies reported by a streaming fit estimate the same spectrum as the standard fit: each of c blocks contributes its energy with weight 1/c.", "quantifier": "every data, every number of blocks", "why_tests_cant": "all streams", "anchors": ["pyspod/spod/streaming.py:fit"]}
{"id": "C67", "title": "Streaming accepts any number of saved modes", "statement": "A streaming fit works for every n_modes_save from 1 to the number of blocks.", "quantifier": "every n_modes_save", "why_tests_cant": "all mode counts", "anchors": ["pyspod/spod/streaming.py:fit"]}
{"id": "C68", "title": "A rank may own any positive number of values", "statement": "The standard fit works for every grid and every distribution that leaves at least one value on each rank.", "quantifier": "every grid, number of ranks", "why_tests_cant": "all distributions", "anchors": ["pyspod/spod/standard.py:_compute_standard_spod"]}
{"id": "C69", "title": "Streaming stores the mean of the data", "statement": "After a streaming fit the stored long-time mean is the arithmetic mean of all snapshots, as after a standard fit.", "quantifier": "every stream", "why_tests_cant": "all streams", "anchors": ["pyspod/spod/base.py:_initialize, long_t_mean"]}
{"id": "C70", "title": "Streaming consumes the whole stream and stops", "statement": "A streaming fit reads every snapshot of every dataset exactly once, in order, and terminates after the last one.", "quantifier": "every list of datasets or files, every number of ranks", "why_tests_cant": "termination and all layouts", "anchors": ["pyspod/spod/streaming.py:fit, pyspod/utils/reader.py"]}
{"id": "C71", "title": "Data normalisation yields unit variance", "statement": "With normalize_data each grid point of each block has unit sample variance before windowing, unless it is (nearly) constant, in which case it is left unchanged.", "quantifier": "every block of data", "why_tests_cant": "all data", "anchors": ["pyspod/spod/standard.py:_compute_blocks"]}
{"id": "C72", "title": "Selecting frequencies by index alone", "statement": "compute_coeffs_op and compute_coeffs_conv accept freq_idx without a period band and then use exactly those frequencies, whatever their number.", "quantifier": "every list of valid frequency indices", "why_tests_cant": "all lists", "anchors": ["pyspod/spod/utils.py:compute_coeffs_op", "pyspod/spod/utils.py:compute_coeffs_conv"]}
{"id": "C73", "title": "Convolution coefficients do not depend on the number of ranks", "statement": "The convolution coefficients written to coeffs.npy are the same for every number of MPI ranks.", "quantifier": "every number of ranks, every data", "why_tests_cant": "all splits of the grid", "anchors": ["pyspod/spod/utils.py:compute_coeffs_conv"]}
{"id": "C74", "title": "Amplitude correction of padded windows", "statement": "The amplitude correction applied to a window that overlaps the zero padding uses exactly the samples of the window that lie over data.", "quantifier": "every nt, n_DFT, every snapshot", "why_tests_cant": "all boundary positions and parities", "anchors": ["pyspod/spod/utils.py:compute_coeffs_conv"]}
{"id": "C75", "title": "Convolution coefficients on a frequency band", "statement": "compute_coeffs_conv works for every period band and every number of saved modes, on any grid.", "quantifier": "every band, number of frequencies, grid points and modes", "why_tests_cant": "all sizes", "anchors": ["pyspod/spod/utils.py:compute_coeffs_conv"]}
{"id": "C76", "title": "Modes saved with the convolution coefficients", "statement": "modes_r.npy written by compute_coeffs_conv holds at [x,f,m] the value at grid point x of mode m of frequency f.", "quantifier": "every grid, number of frequencies and modes", "why_tests_cant": "all sizes", "anchors": ["pyspod/spod/utils.py:compute_coeffs_conv"]}
{"id": "C77", "title": "POD accepts the documented data layouts", "statement": "POD fit accepts data of shape (time, space..., variables) for any number of variables, and single-variable data with or without the variable axis; the number of snapshots is the sum over the datasets.", "quantifier": "every number of variables, every shape, every list of datasets", "why_tests_cant": "all shapes", "anchors": ["pyspod/pod/base.py:_initialize"]}
{"id": "C78", "title": "POD works for every number of requested modes", "statement": "POD fit works for every n_modes_save, keeping at most as many modes as there are snapshots, and without n_modes_save keeps all.", "quantifier": "every n_modes_save including the default", "why_tests_cant": "all counts", "anchors": ["pyspod/pod/base.py:__init__", "pyspod/pod/standard.py:fit"]}
{"id": "C79", "title": "POD uses all of the data", "statement": "POD decomposes the concatenation of all datasets, in order, without loss, for real and complex data.", "quantifier": "every list of datasets", "why_tests_cant": "all data", "anchors": ["pyspod/pod/base.py:_initialize"]}
{"id": "C80", "title": "POD reconstruction with weights", "statement": "With any positive weights, keeping all modes of positive energy, mean + modes*coefficients returns the input data.", "quantifier": "every weights, every data", "why_tests_cant": "all weights", "anchors": ["pyspod/pod/utils.py:compute_coeffs_op", "pyspod/pod/utils.py:compute_reconstruction"]}
{"id": "C81", "title": "POD does not depend on the number of ranks", "statement": "The correlation matrix decomposed by POD and the coefficients computed by projection are the same for every number of ranks.", "quantifier": "every number of ranks and every distributed axis", "why_tests_cant": "all splits", "anchors": ["pyspod/pod/standard.py:fit", "pyspod/pod/utils.py:compute_coeffs_op"]}
{"id": "C82", "title": "A whole parallel fit leaves what a serial fit leaves", "statement": "For array data and for NetCDF files, a standard SPOD fit on p ranks succeeds whenever the serial fit of the concatenated snapshots does, and the eigenvalues, every mode file, the weights file and the mean file are identical to the serial ones, whatever the order of file writes and message arrivals, provided no rank is left with a single value (see C68).", "quantifier": "every data set, accepted configuration, number of ranks and readers, partition into pieces, arrival and write order", "why_tests_cant": "interleavings and sizes unbounded; composition of all steps", "anchors": ["pyspod/spod/standard.py:fit", "pyspod/spod/base.py:_initialize", "pyspod/reader.py", "pyspod/utils/parallel.py:npy_save"]}
{"id": "C83", "title": "The files of a fit contain the SPOD of the input", "statement": "After a standard fit (serial or parallel), for every stored frequency the eigenvalues are non-negative and decreasing, each stored mode with non-zero eigenvalue satisfies the weighted eigenvalue equation of the cross-spectral density estimated from the windowed blocks of the input snapshots with that eigenvalue (times the one-sided factor), the weights file holds the weights and the mean file the time mean.", "quantifier": "every data set, accepted configuration, non-negative weights, number of ranks, write order and every correct eigen-solver", "why_tests_cant": "all inputs; end-to-end over all steps", "anchors": ["pyspod/spod/standard.py:fit", "pyspod/spod/standard.py:_compute_standard_spod", "pyspod/spod/standard.py:_store_and_save"]}
{"id": "C84", "title": "Weights reach their grid points", "statement": "User weights multiply exactly the grid point and variable they are given for, serially and on every rank, and weights whose shape differs from the data's are rejected.", "quantifier": "every grid, number of variables, weight array, number of ranks and distributed axis", "why_tests_cant": "all shapes and splits", "anchors": ["pyspod/spod/base.py:define_weights", "pyspod/spod/base.py:_initialize", "pyspod/spod/base.py:_set_parallel"]}
{"id": "C85", "title": "Window and gain correction reproduce amplitudes", "statement": "For every block length a fit accepts, the window is symmetric, bounded by 0.08 and 1, has positive mean, and a harmonic A*exp(2 pi i k t/n) at a resolved frequency is reported with amplitude A.", "quantifier": "every block length, amplitude and bin", "why_tests_cant": "all block lengths and amplitudes", "anchors": ["pyspod/spod/utils.py:_hamming_window", "pyspod/spod/base.py:_initialize"]}
{"id": "C86", "title": "Real and complex data are told apart", "statement": "Data are treated as real exactly when no value has an imaginary part.", "quantifier": "every list of datasets", "why_tests_cant": "all values at all positions", "anchors": ["pyspod/utils/reader.py:reader_1stage.__init__"]}
{"id": "C87", "title": "A results folder identifies the fit", "statement": "Two fits that differ in a setting that changes their results are stored in different folders.", "quantifier": "every pair of settings", "why_tests_cant": "all pairs of settings", "anchors": ["pyspod/spod/base.py:_initialize"]}
{"id": "C88", "title": "Options are accepted or rejected consistently", "statement": "Every supported kind of input works with the default output options, incompatible output options are rejected, and an unknown precision is rejected.", "quantifier": "every combination of options, kinds of input, with and without a communicator", "why_tests_cant": "all combinations", "anchors": ["pyspod/spod/base.py:__init__", "pyspod/spod/base.py:_initialize", "pyspod/utils/reader.py:reader_2stage.__init__"]}
{"id": "C89", "title": "A fit of NetCDF files equals the fit of the same data as arrays", "statement": "For every set of NetCDF files, every grid, number of variables and ranks, arrival order of messages and order of file writes, a fit of the files succeeds and leaves the eigenvalues, modes, weights and mean of the serial fit of the same snapshots given as arrays.", "quantifier": "every set of files, grid, settings, number of ranks and schedule", "why_tests_cant": "all data sizes, rank counts and message orders", "anchors": ["pyspod/utils/reader.py:reader_2stage", "pyspod/spod/standard.py:Standard.fit", "pyspod/spod/standard.py:_compute_standard_spod"]}
{"id": "C90", "title": "Large data are read with every MPI version", "statement": "An exchange of more than 2^31-1 values between ranks works with MPI libraries before version 4 too (the reader has a branch for it).", "quantifier": "every size of the data, number of ranks and MPI version", "why_tests_cant": "needs terabytes of data on many ranks", "anchors": ["pyspod/utils/reader.py:reader_2stage.get_data_for_time", "pyspod/utils/reader.py:reader_mat.get_data_for_time"]}
{"id": "C91", "title": "A fit of MATLAB files equals the fit of the same data as arrays", "statement": "For every list of .mat files (one snapshot each) in any order, a fit succeeds and leaves the results of the serial fit of the snapshots in name order, entry [v,i,j,k] of a file being value v at point (i,j,k); files with non-finite values or another shape are rejected.", "quantifier": "every list of files, grid, settings, number of ranks and schedule", "why_tests_cant": "all data sizes, rank counts and message orders", "anchors": ["pyspod/utils/reader.py:reader_mat", "pyspod/spod/standard.py:Standard.fit"]}
{"id": "C92", "title": "Ranks never wait for each other in vain during a fit", "statement": "In a fit where no rank raises, every rank issues the same sequence of collective calls, and from every reachable state some rank can go on until all have finished, for every MPI implementation that lets a call return once all ranks have reached it.", "quantifier": "every number of ranks, kind of input, output option, number of blocks, frequencies and datasets, every schedule and every MPI implementation", "why_tests_cant": "all interleavings of all ranks under all implementations of the collectives", "anchors": ["pyspod/spod/standard.py:Standard.fit", "pyspod/spod/base.py:_initialize", "pyspod/utils/reader.py", "pyspod/utils/parallel.py"]}
{"id": "C93", "title": "An error on one rank ends the run on every rank", "statement": "When one rank raises during a fit, no other rank is left waiting for it for ever.", "quantifier": "every number of ranks, rank that fails, point of failure, schedule and MPI implementation", "why_tests_cant": "all failure points under all schedules", "anchors": ["pyspod/spod/standard.py:Standard.fit", "pyspod/utils/reader.py:reader_2stage", "pyspod/utils/reader.py:reader_mat"]}
{"id": "C94", "title": "All ranks agree on whether stored blocks are reused", "statement": "With reuse_blocks, every rank looks for the block files by itself; all ranks take the same decision, the one the files present at the start imply, and no block file is created while a rank is still looking.", "quantifier": "every number of ranks and block files, every set of files present, every schedule and MPI implementation", "why_tests_cant": "a race between looking and writing shows up in few schedules", "anchors": ["pyspod/spod/standard.py:Standard.fit", "pyspod/spod/utils.py:_are_blocks_present", "pyspod/spod/standard.py:_compute_blocks"]}
{"id": "C95", "title": "File accesses of different ranks never race", "statement": "In any sequence of parallel operations (fits of all kinds, projections, reconstructions, orthogonality checks) two accesses of different ranks to the same file or folder, at least one a change, are separated by a barrier that every rank passes in between; no rank waits for ever, and every complete run performs every access.", "quantifier": "every number of ranks, sequence of operations with all their options, schedule and MPI implementation", "why_tests_cant": "races show up in few schedules, on few file systems", "anchors": ["pyspod/spod/standard.py:Standard.fit", "pyspod/spod/streaming.py:Streaming.fit", "pyspod/spod/utils.py:compute_coeffs_op", "pyspod/spod/utils.py:compute_reconstruction", "pyspod/pod/utils.py", "pyspod/utils/parallel.py:npy_save"]}
{"id": "C96", "title": "A parameter file that every rank writes at the same time is intact", "statement": "params_coeffs.yaml and the other files that every rank opens for writing and fills with the same text hold exactly this text once all ranks have written it, for every interleaving and every splitting into pieces; and not before.", "quantifier": "every number of ranks, content, old content of the file, buffering and schedule", "why_tests_cant": "all interleavings of truncations and partial writes", "anchors": ["pyspod/spod/utils.py:compute_coeffs_op", "pyspod/pod/utils.py:compute_coeffs_op"]}
{"id": "C97", "title": "A whole parallel streaming fit leaves what a serial one leaves", "statement": "A streaming fit of an array on any number of ranks, none of which is left with a single value, succeeds and leaves exactly the mode files, eigenvalues and frequencies of the serial streaming fit of the same array.", "quantifier": "every array, weights, accepted configuration that keeps at least two modes, number of ranks, order of element writes and deterministic SVD routine", "why_tests_cant": "all data sizes, rank counts and message orders", "anchors": ["pyspod/spod/streaming.py:Streaming.fit", "pyspod/utils/parallel.py:npy_save", "pyspod/utils/parallel.py:pvar", "pyspod/utils/reader.py:reader_1stage"]}
{"id": "C98", "title": "The files of a streaming fit contain the streaming SPOD of the input", "statement": "A streaming fit reads exactly the blocks that fit into the data; at every frequency with linearly independent blocks the stored modes are orthonormal in the weighted inner product (and zero where the stored value is zero), and when no more blocks are read than modes kept, modes and values recombine to the recursively weighted sum of the outer products of the Fourier-transformed blocks.", "quantifier": "every array, positive weights, accepted configuration and SVD routine that meets its contract", "why_tests_cant": "real-valued inputs of any size; holds only up to rounding in any test", "anchors": ["pyspod/spod/streaming.py:Streaming.fit"]}
{"id": "C99", "title": "A whole parallel projection leaves what a serial one leaves", "statement": "compute_coeffs_op on any number of ranks, for a results folder that fits the data and a selection of frequencies as long as the band, succeeds and leaves the files of the serial run: coeffs.npy holds the oblique projection of the fluctuations on the stored modes (frequency by frequency, mode by mode), modes_r.npy these modes, ltm.npy the time mean.", "quantifier": "every results folder, data, frequency selection, tolerance, number of ranks, order of element writes and deterministic SVD routine", "why_tests_cant": "all data sizes, rank counts and message orders", "anchors": ["pyspod/spod/utils.py:compute_coeffs_op", "pyspod/spod/utils.py:_oblique_projection", "pyspod/spod/utils.py:_get_modes"]}
{"id": "C100", "title": "A reconstruction is the mean plus modes times coefficients at the requested times", "statement": "compute_reconstruction with two-dimensional coefficients (from the file or given) writes, on any number of ranks, one snapshot per requested time, in order: the mean plus the modes times the coefficients at that time, negative times counting from the end.", "quantifier": "every coefficients folder, coefficients, non-empty list of times, number of ranks and order of element writes", "why_tests_cant": "all data sizes, rank counts and message orders", "anchors": ["pyspod/spod/utils.py:compute_reconstruction", "pyspod/spod/utils.py:_compute_rec_op"]}
{"id": "C101", "title": "A reconstruction from convolution coefficients sums over frequencies and modes", "statement": "compute_reconstruction with three-dimensional coefficients [frequency, time, mode] and modes [space, frequency, mode] pairs every coefficient with its own frequency and mode, on any number of ranks.", "quantifier": "every coefficients folder, coefficients, non-empty list of times, number of ranks and order of element writes", "why_tests_cant": "an index permutation error is invisible when extents coincide; all sizes and rank counts", "anchors": ["pyspod/spod/utils.py:compute_reconstruction", "pyspod/spod/utils.py:_compute_rec_conv"]}
{"id": "C102", "title": "A reconstruction that works serially works in parallel", "statement": "Whenever compute_reconstruction succeeds on one process it succeeds on every communicator.", "quantifier": "every coefficients folder, list of times and number of ranks", "why_tests_cant": "all inputs and rank counts", "anchors": ["pyspod/spod/utils.py:compute_reconstruction"]}
{"id": "C103", "title": "Projection followed by reconstruction gives the data back", "statement": "If the fluctuations are combinations of the selected stored modes, the modes are independent, the weights positive and the tolerance zero (or below every singular value), compute_coeffs_op on any number of ranks stores the combination and compute_reconstruction(time_idx='all') on any other number of ranks writes the data.", "quantifier": "every results folder, data, number of ranks of both steps, order of element writes and SVD routine meeting its contract", "why_tests_cant": "real-valued inputs of any size; holds only up to rounding in any test", "anchors": ["pyspod/spod/utils.py:compute_coeffs_op", "pyspod/spod/utils.py:compute_reconstruction"]}
{"id": "C104", "title": "Fit, projection and reconstruction may each use their own number of ranks", "statement": "A standard fit on any number of ranks (none with exactly one value), followed by compute_coeffs_op on any other number and compute_reconstruction on a third, leaves the same files as the three steps on one process.", "quantifier": "every data set, weights, accepted configuration, selection of frequencies, new data, times, three numbers of ranks and orders of element writes", "why_tests_cant": "all inputs, rank counts and message orders of a three-step history", "anchors": ["pyspod/spod/standard.py:Standard.fit", "pyspod/spod/utils.py:compute_coeffs_op", "pyspod/spod/utils.py:compute_reconstruction"]}
{"id": "C105", "title": "The reconstruction of real data is real", "statement": "For real data, compute_coeffs_op followed by compute_reconstruction writes values without imaginary part.", "quantifier": "every results folder, real data, numbers of ranks", "why_tests_cant": "over all real inputs; modes of one-sided spectra have no conjugate partner", "anchors": ["pyspod/spod/utils.py:compute_coeffs_op", "pyspod/spod/utils.py:compute_reconstruction"]}
{"id": "C106", "title": "New data can be projected in parallel on the modes of a fit of files", "statement": "compute_coeffs_op, with the results folder of a fit whose modes and weights were stored with a flattened grid (NetCDF, MATLAB input) and single-variable snapshots on that grid, gives on every number of ranks the projection it gives on one process.", "quantifier": "every grid, folder, data and number of ranks", "why_tests_cant": "all grids and rank counts", "anchors": ["pyspod/spod/utils.py:compute_coeffs_op", "pyspod/spod/utils.py:_get_modes", "pyspod/utils/parallel.py:distribute_dimension", "pyspod/spod/standard.py:Standard.fit"]}
{"id": "C107", "title": "The projection does not depend on the linear algebra library nor on the option svd", "statement": "Any two SVD routines that return a singular value decomposition lead compute_coeffs_op to the same outcome and files, whatever signs, phases and bases of repeated singular values they choose and for every tolerance; the option svd does not change the stored coefficients.", "quantifier": "every results folder, data, tolerance, number of ranks and pair of SVD routines meeting their contract", "why_tests_cant": "over all LAPACK implementations; repeated singular values leave a continuum of choices", "anchors": ["pyspod/spod/utils.py:_oblique_projection", "pyspod/spod/utils.py:compute_coeffs_op"]}
{"id": "C108", "title": "The files of a POD fit do not depend on the number of ranks", "statement": "POD fit of a list of datasets of one variable, given on a grid without variable axis, with any weights of the data's shape and any number of modes from one to the number of snapshots, succeeds on every number of ranks (also more ranks than grid points) and leaves modes.npy, weights.npy and eigs.npz of the concatenated data on one process.", "quantifier": "every list of non-empty datasets, grid, weights, number of modes, mean type, number of ranks, order of element writes and eigen-solver", "why_tests_cant": "all inputs, rank counts and message orders", "anchors": ["pyspod/pod/standard.py:Standard.fit", "pyspod/pod/base.py:_initialize", "pyspod/utils/parallel.py:npy_save"]}
{"id": "C109", "title": "The files of a POD projection do not depend on the number of ranks", "statement": "POD compute_coeffs_op stores, on every number of ranks, the product of the transposed stored modes with the fluctuations of the data, those modes and the time mean.", "quantifier": "every POD results folder of one variable, data on its grid, number of ranks and order of element writes", "why_tests_cant": "all inputs, rank counts and message orders", "anchors": ["pyspod/pod/utils.py:compute_coeffs_op"]}
{"id": "C110", "title": "The stored POD modes are orthonormal in the stored weights", "statement": "After a POD fit on any number of ranks, the numbers in modes.npy and weights.npy satisfy sum_x w(x) phi_i(x) phi_j(x) = delta_ij.", "quantifier": "every accepted data set, weights, number of modes and ranks, every exact eigen-solver", "why_tests_cant": "real-valued inputs of any size; holds only up to rounding in any test", "anchors": ["pyspod/pod/standard.py:Standard.fit", "pyspod/pod/base.py:_store_and_save"]}
{"id": "C111", "title": "POD fit, projection and reconstruction give the data back", "statement": "With default weights and as many modes as there are non-zero eigenvalues, a POD fit, compute_coeffs_op and compute_reconstruction(time_idx='all'), each on its own number of ranks, write back the data.", "quantifier": "every accepted data set, three numbers of ranks and orders of element writes, every exact eigen-solver", "why_tests_cant": "real-valued inputs of any size over three-step histories", "anchors": ["pyspod/pod/standard.py:Standard.fit", "pyspod/pod/utils.py:compute_coeffs_op", "pyspod/pod/utils.py:compute_reconstruction"]}
{"id": "C112", "title": "The argument modes_idx of the POD projection selects the modes", "statement": "POD compute_coeffs_op(modes_idx=list) stores one row of coefficients per listed mode.", "quantifier": "every folder, data, list of modes and number of ranks", "why_tests_cant": "all lists and inputs", "anchors": ["pyspod/pod/utils.py:compute_coeffs_op", "pyspod/pod/base.py:compute_coeffs_op"]}
{"id": "C113", "title": "Two-dimensional plots and videos put every value at its coordinates", "statement": "plot_2d_data(X, x1, x2) and every frame of generate_2d_data_video draw at (x1[i], x2[j]) the value of the grid point with these coordinates, whichever data axis x1 belongs to; without coordinates the first axis is horizontal.", "quantifier": "every grid size, values and coordinates", "why_tests_cant": "all shapes, square ones included", "anchors": ["pyspod/utils/postproc.py:plot_2d_data", "pyspod/utils/postproc.py:generate_2d_data_video"]}
{"id": "C114", "title": "Plots of modes within limits show the selected part, one page per variable and stored mode", "statement": "plot_2d_modes_at_frequency(limits_x1, limits_x2) draws the selected grid points at their own coordinates, and makes a page for exactly the requested variables and those requested modes that are stored.", "quantifier": "every mode size, coordinates, limits, lists of variables and modes", "why_tests_cant": "all shapes and slices", "anchors": ["pyspod/utils/postproc.py:plot_2d_modes_at_frequency"]}
{"id": "C115", "title": "The visible part of a plot contains all coordinates", "statement": "The axis limits set by the two-dimensional plots contain every coordinate of the data.", "quantifier": "every list of coordinates", "why_tests_cant": "real-valued inputs", "anchors": ["pyspod/utils/postproc.py:_set_2d_axes_limits"]}
{"id": "C116", "title": "The marker of plot_max is at the maximum", "statement": "plot_2d_modes_at_frequency(plot_max=True) draws lines that cross where the modulus of the mode is largest.", "quantifier": "every mode and coordinates", "why_tests_cant": "real-valued inputs of any size", "anchors": ["pyspod/utils/postproc.py:_apply_2d_vertical_lines", "pyspod/utils/postproc.py:plot_2d_modes_at_frequency"]}
{"id": "C117", "title": "shift180 draws the same field and leaves the caller's coordinates alone", "statement": "plot_2d_modes_at_frequency(shift180=True) draws every value at a longitude equal to its own up to full turns, and the caller's coordinate array is unchanged after the call.", "quantifier": "every mode, coordinates, limits, with or without fftshift, returning or raising", "why_tests_cant": "all sizes, even and odd; exceptions", "anchors": ["pyspod/utils/postproc.py:plot_2d_modes_at_frequency"]}
{"id": "C118", "title": "Slices of three-dimensional modes are drawn over their own axes", "statement": "plot_3d_modes_slice_at_frequency draws a slice over the coordinates of the two remaining axes and, without slice_id, the slice that contains the maximum.", "quantifier": "every grid size and slice axis", "why_tests_cant": "all combinations of extents", "anchors": ["pyspod/utils/postproc.py:plot_3d_modes_slice_at_frequency"]}
{"id": "C119", "title": "Tracers of modes oscillate at the requested frequency", "statement": "plot_mode_tracers draws, over one period of the requested frequency, the oscillation of the mode value at that frequency, for every number of variables and modes.", "quantifier": "every mode value, frequency, number of variables and modes", "why_tests_cant": "real-valued inputs", "anchors": ["pyspod/utils/postproc.py:plot_mode_tracers"]}
{"id": "C120", "title": "Tracers, videos and plots of data show the requested snapshots", "statement": "plot_data_tracers(time_limits=[a,b]), generate_2d_data_video(time_limits=[a,b], sampling=s) and plot_2d_data(time_idx) show exactly the snapshots asked for, as functions and as methods of a fitted object.", "quantifier": "every data set, limits, sampling and list of times", "why_tests_cant": "all lengths and limits", "anchors": ["pyspod/utils/postproc.py:plot_data_tracers", "pyspod/utils/postproc.py:generate_2d_data_video", "pyspod/spod/base.py:Base.plot_data_tracers", "pyspod/spod/base.py:Base.generate_2d_data_video", "pyspod/spod/base.py:Base.plot_2d_data"]}
{"id": "C121", "title": "The report has a page for exactly the peaks of the spectrum", "statement": "plot_report makes a page for every mode and every non-zero frequency at which the eigenvalue exceeds 1.5 times the local mean, both neighbours and all eigenvalues within ten percent of the frequency, and prints the period of that frequency.", "quantifier": "every spectrum and frequency axis", "why_tests_cant": "real-valued inputs of any length; binary search over any array", "anchors": ["pyspod/spod/base.py:Base.plot_report"]}
{"id": "C122", "title": "weights.npy holds the given weights on every number of ranks, whatever their byte order", "statement": "The weights stored by a fit are the weights given by the user, for arrays of any numpy byte order and any number of MPI ranks.", "quantifier": "every weights array, data type, grid, distributed axis, number of ranks and order of the file writes", "why_tests_cant": "all byte patterns, sizes and schedules", "anchors": ["pyspod/utils/parallel.py:npy_save", "pyspod/spod/base.py:Base._store_and_save", "pyspod/spod/base.py:Base._set_dtype"]}
{"id": "C123", "title": "The stored weights have the requested precision", "statement": "With dtype single or double the stored weights have that floating point type, whatever the type of the array given.", "quantifier": "every data type of the given weights and both settings", "why_tests_cant": "all data types", "anchors": ["pyspod/spod/base.py:Base._set_dtype"]}
{"id": "C124", "title": "A path means the same folder in every call of a session", "statement": "In a Python session every path passed to get_all_modes, get_modes_at_freq, compute_coeffs_op, compute_coeffs_conv and compute_reconstruction names the folder below the working directory set by the user; in particular compute_reconstruction finds the folder that compute_coeffs_op returned, and the same call repeated gives the same result.", "quantifier": "every sequence of calls and os.chdir, every path, file system and start directory", "why_tests_cant": "all histories of calls", "anchors": ["pyspod/utils/postproc.py:get_all_modes", "pyspod/utils/postproc.py:get_modes_at_freq", "pyspod/spod/utils.py:compute_coeffs_op", "pyspod/spod/utils.py:compute_reconstruction", "pyspod/spod/utils.py:_get_required_data"]}
{"id": "C125", "title": "Arrays of modes handed out may be changed without touching the stored results", "statement": "After get_modes_at_freq or get_all_modes the caller may change the returned array in place; the files and later calls are unaffected.", "quantifier": "every folder, frequency and sequence of in-place changes", "why_tests_cant": "all histories of changes", "anchors": ["pyspod/utils/postproc.py:get_modes_at_freq", "pyspod/utils/postproc.py:get_data_from_file", "pyspod/utils/postproc.py:get_all_modes"]}
{"id": "C126", "title": "Results on read-only storage can be analysed", "statement": "Reading modes and weights of a fit needs no permission to write to the files.", "quantifier": "every folder and file permissions", "why_tests_cant": "all folders", "anchors": ["pyspod/utils/postproc.py:get_data_from_file", "pyspod/spod/utils.py:_get_required_data"]}
{"id": "C127", "title": "Methods of fitted objects use the folders they are given", "statement": "compute_coeffs_op(data, results_dir) of an object projects on the modes in results_dir, and compute_reconstruction(coeffs_dir) reconstructs from coeffs_dir, after any history of calls on any number of objects.", "quantifier": "every history of method calls on any number of objects", "why_tests_cant": "all histories", "anchors": ["pyspod/spod/base.py:Base.compute_coeffs_op", "pyspod/spod/base.py:Base.compute_reconstruction", "pyspod/pod/base.py:Base.compute_coeffs_op", "pyspod/pod/base.py:Base.compute_reconstruction"]}
{"id": "C128", "title": "Projections and reconstructions do not overwrite each other", "statement": "The coefficients (and reconstructions) of a call stay on disk after any later calls with other data or options.", "quantifier": "every history of projections and reconstructions", "why_tests_cant": "all histories", "anchors": ["pyspod/spod/utils.py:compute_coeffs_op", "pyspod/spod/utils.py:compute_coeffs_conv", "pyspod/spod/utils.py:compute_reconstruction"]}
{"id": "C129", "title": "An interrupted projection is never taken for a complete one", "statement": "If a projection is interrupted at any point, a later reconstruction from its folder raises or uses the complete files of one projection.", "quantifier": "every crash point, old and new contents, SPOD and POD", "why_tests_cant": "all crash points", "anchors": ["pyspod/spod/utils.py:compute_coeffs_op", "pyspod/pod/utils.py:compute_coeffs_op", "pyspod/spod/utils.py:compute_reconstruction"]}
{"id": "C130", "title": "An interrupted fit is never taken for a complete one", "statement": "If a fit is interrupted at any point, everything that later reads the results folder raises or reads the complete results of one fit.", "quantifier": "every crash point, number of frequencies, old and new contents", "why_tests_cant": "all crash points", "anchors": ["pyspod/spod/standard.py:Standard._compute_standard_spod", "pyspod/spod/base.py:Base._store_and_save", "pyspod/spod/utils.py:_get_required_data", "pyspod/spod/utils.py:_get_modes"]}
{"id": "C131", "title": "A dictionary of parameters can be used for several objects", "statement": "SPOD and POD objects made one after the other from the same dictionary of parameters store their results in the same folders, with the same number of modes, as objects made from fresh copies of it.", "quantifier": "every dictionary and every sequence of objects and fits", "why_tests_cant": "all histories", "anchors": ["pyspod/spod/base.py:Base.__init__", "pyspod/spod/base.py:Base._store_and_save", "pyspod/pod/base.py:Base.__init__"]}
{"id": "C132", "title": "A saved picture shows what its own call drew", "statement": "Every file written by a plotting function shows exactly the curves of that call and file, whatever figures the program or earlier calls left open.", "quantifier": "all sessions of plotting calls, all figures open before, all numbers of coefficients, windows or headless", "why_tests_cant": "the library's figures share one global stack with the program and with earlier calls; a test starts from an empty stack", "anchors": ["pyspod/utils/postproc.py:plot_coeffs", "pyspod/utils/postproc.py:_save_show_plots", "pyspod/spod/base.py:Base.plot_report"]}
{"id": "C133", "title": "Saving a plot leaves the program's other figures alone", "statement": "After a plotting call that saves to a file, exactly the figures that were open before the call are open.", "quantifier": "all calls, all stacks of open figures, all numbers of reports", "why_tests_cant": "leaks and closed foreign figures depend on the history of the process", "anchors": ["pyspod/utils/postproc.py:plot_coeffs", "pyspod/utils/postproc.py:generate_2d_data_video", "pyspod/spod/base.py:Base.plot_report"]}
{"id": "C134", "title": "figsize is the size of every saved figure", "statement": "A plotting function with a parameter figsize saves every file at that size.", "quantifier": "all sizes, all numbers of coefficients, all states of pyplot", "why_tests_cant": "the second and later files of a call are affected by the implicit creation of figures", "anchors": ["pyspod/utils/postproc.py:plot_coeffs"]}
{"id": "C135", "title": "plot_eigs shows every eigenvalue", "statement": "For every non-empty array of complex eigenvalues the limits of both axes contain every eigenvalue, strictly for non-zero ones.", "quantifier": "all non-empty lists of complex numbers", "why_tests_cant": "limits are computed from rounded moduli; holds for all magnitudes", "anchors": ["pyspod/utils/postproc.py:plot_eigs"]}
{"id": "C136", "title": "A spectrum plot shows every frequency and tells the modes apart", "statement": "plot_eigs_vs_frequency and plot_eigs_vs_period show a point for every frequency and mode, and the shades of the modes differ and get lighter with the mode number.", "quantifier": "all frequencies and eigenvalues, all numbers of modes", "why_tests_cant": "logarithmic axes and the cap on the shade depend on the values and the number of modes", "anchors": ["pyspod/utils/postproc.py:plot_eigs_vs_frequency", "pyspod/utils/postproc.py:plot_eigs_vs_period"]}
{"id": "C137", "title": "Side-by-side panels share a colour range that covers the data", "statement": "generate_2d_subplot draws up to three variables with one colour range in which every value has a colour.", "quantifier": "all values of up to three variables, all rounding digits", "why_tests_cant": "the range is rounded from the first variable only", "anchors": ["pyspod/utils/postproc.py:generate_2d_subplot"]}
{"id": "C138", "title": "Training keeps the best network", "statement": "After model_train the weights file holds the weights right after the first epoch with the least training loss.", "quantifier": "all numbers of epochs, all sequences of losses including ones that are not finite, all networks and optimisers", "why_tests_cant": "depends on the whole sequence of losses of a stochastic training", "anchors": ["pyspod/emulation/neural_nets.py:Neural_Nets._train"]}
{"id": "C139", "title": "Inference uses the networks trained for its index", "statement": "model_inference(idx) predicts with the best networks of the last model_train(idx), for real and imaginary parts, whatever was trained or predicted for other indices.", "quantifier": "all histories of model_initialize, model_train and model_inference, all indices and data", "why_tests_cant": "files are shared by name across a history of calls", "anchors": ["pyspod/emulation/neural_nets.py:Neural_Nets.model_train", "pyspod/emulation/neural_nets.py:Neural_Nets.model_inference"]}
{"id": "C140", "title": "Training an index does not depend on earlier training or predictions", "statement": "The network obtained by model_train(idx) is determined by the data, the parameters and the initial weights, not by which indices were trained or predicted before.", "quantifier": "all histories of operations on the object", "why_tests_cant": "one hidden model is reused by all calls; only the order of a whole session shows it", "anchors": ["pyspod/emulation/neural_nets.py:Neural_Nets.model_train", "pyspod/emulation/neural_nets.py:Neural_Nets.model_initialize"]}
{"id": "C141", "title": "read_data reads .npy, .nc and .mat files", "statement": "read_data returns the content of every file whose extension, in any case, is npy, nc or mat, and raises ValueError for other formats.", "quantifier": "all file names and formats", "why_tests_cant": "all names, cases and positions of dots; one branch cannot run at all", "anchors": ["pyspod/utils/io.py:read_data"]}
{"id": "C142", "title": "dtype means the same precision everywhere", "statement": "For every value of dtype a fit, a projection and a reconstruction compute with the same precision, which is double for 'double' and numpy.float64.", "quantifier": "all values of the parameter dtype", "why_tests_cant": "tests use the two documented strings only", "anchors": ["pyspod/spod/base.py:Base.__init__", "pyspod/spod/utils.py:_get_dtype", "pyspod/pod/utils.py:_get_dtype"]}
{"id": "C143", "title": "Convolution coefficients are projections of windowed, padded transforms", "statement": "compute_coeffs_conv writes, for every frequency f, time t and mode m, the weighted inner product over the whole grid of the stored mode with the transform at frequency f of the window centred at t of the zero-padded, mean-removed data, times the amplitude correction; the same on any number of processes.", "quantifier": "all stored results, data, windows, numbers of processes and orders in which the pieces are written", "why_tests_cant": "all data, all process counts, all windows; the result must not depend on uninitialised memory", "anchors": ["pyspod/spod/utils.py:compute_coeffs_conv"]}
{"id": "C144", "title": "Convolution coefficients respond linearly to the data", "statement": "Scaling the data by a and adding any field constant in time multiplies every convolution coefficient by a, on any number of processes and whatever memory was allocated before.", "quantifier": "all data, all factors, all steady fields, all numbers of processes", "why_tests_cant": "relates two runs on arbitrary data", "anchors": ["pyspod/spod/utils.py:compute_coeffs_conv"]}
{"id": "C145", "title": "Convolution coefficients carry the energy of the SPOD eigenvalues", "statement": "With the parameters of the fit, the mean over the fit's blocks of the squared modulus of the convolution coefficient at the block centres is the eigenvalue of that mode and frequency.", "quantifier": "all data, weights, block layouts and eigensolvers", "why_tests_cant": "ties two programs, the fit and the projection, for all data", "anchors": ["pyspod/spod/utils.py:compute_coeffs_conv", "pyspod/spod/standard.py:Standard._compute_standard_spod"]}
{"id": "C146", "title": "Convolution coefficients of chosen frequencies belong to those frequencies", "statement": "compute_coeffs_conv with freq_idx returns, row by row, the coefficients of the chosen frequencies computed from the modes of those frequencies, and no value depends on what memory contained before the call.", "quantifier": "all lists of frequency indices, all data and stored modes", "why_tests_cant": "uninitialised memory differs from run to run; a test sees one run", "anchors": ["pyspod/spod/utils.py:compute_coeffs_conv"]}
{"id": "C147", "title": "SPOD modes are the optimal basis at each frequency", "statement": "At every frequency no K fields that are orthonormal in the weighted inner product capture more block-averaged energy of the Fourier realizations of the input than the sum of the first K saved eigenvalues, and the first K saved modes capture exactly that much.", "quantifier": "all data, non-negative weights, configurations, numbers of ranks, write orders, eigen-solvers, all K and all competing families", "why_tests_cant": "a statement about all competing bases; no finite set of data shows it", "anchors": ["pyspod/spod/standard.py:Standard._compute_standard_spod"]}
{"id": "C148", "title": "Saved eigenvalues and modes do not depend on the linear algebra library", "statement": "Fits of the same data with any two correct eigen-solvers, any numbers of ranks and orders of writing save the same eigenvalues, and the same mode up to a factor of modulus one wherever the eigenvalue is simple.", "quantifier": "all data, all correct solvers, all numbers of ranks", "why_tests_cant": "quantifies over all libraries", "anchors": ["pyspod/spod/standard.py:Standard._compute_standard_spod"]}
{"id": "C149", "title": "Scaling the data and adding a steady field", "statement": "Multiplying the data by a and adding any field constant in time multiplies every eigenvalue by a squared and leaves modes of simple eigenvalues unchanged up to a factor of modulus one (no steady field with mean type zero; no normalisation of the data).", "quantifier": "all data, factors, steady fields, configurations, numbers of ranks, solvers", "why_tests_cant": "relates two runs on arbitrary data", "anchors": ["pyspod/spod/standard.py:Standard.fit", "pyspod/spod/base.py:Base.select_mean"]}
{"id": "C150", "title": "Scaling the weights", "statement": "Multiplying all weights by a positive factor multiplies the eigenvalues by it and divides the modes by its square root (up to a factor of modulus one), and changes nothing else.", "quantifier": "all data, weights, factors, configurations, numbers of ranks, solvers", "why_tests_cant": "relates two runs on arbitrary data", "anchors": ["pyspod/spod/standard.py:Standard._compute_standard_spod"]}
{"id": "C151", "title": "The order and shape of the grid do not matter", "statement": "The same values on the same points listed in another order, transposed, flattened or reshaped give the same eigenvalues and modes with the same values at the same points (up to one factor of modulus one at simple eigenvalues).", "quantifier": "all data, all bijections between grids, numbers of ranks, solvers", "why_tests_cant": "all permutations of all grids", "anchors": ["pyspod/spod/standard.py:Standard.fit", "pyspod/spod/base.py:Base._initialize"]}
{"id": "C152", "title": "Full spectra of real data are symmetric", "statement": "With fullspectrum and real data the eigenvalues at a frequency and at its negative are equal, and the modes complex conjugates up to a factor of modulus one.", "quantifier": "all real data, configurations and frequencies", "why_tests_cant": "all data and both ends of the axis", "anchors": ["pyspod/spod/standard.py:Standard._compute_standard_spod", "pyspod/spod/standard.py:Standard._compute_blocks"]}
{"id": "C153", "title": "The eigenvalues of all frequencies sum to the energy of the windowed data", "statement": "The sum of all reported eigenvalues over all frequencies and modes is n_dft over the squared sum of the window times the block-averaged weighted energy of the windowed fluctuations (Parseval), for even and odd block lengths, one-sided and full spectra.", "quantifier": "all data, weights, windows, block lengths and kinds of spectrum", "why_tests_cant": "an identity for all data; tests compare stored numbers", "anchors": ["pyspod/spod/standard.py:Standard._compute_standard_spod", "pyspod/spod/base.py:Base._initialize"]}
{"id": "C154", "title": "The reconstruction is the best approximation by the selected modes", "statement": "At every time the field compute_reconstruction writes from the coefficients of compute_coeffs_op is, among all combinations of the selected modes plus the mean, the one closest to the snapshot in the weighted norm; the squared distances add up (Pythagoras).", "quantifier": "all results folders, data, weights, selections of frequencies, tolerances, numbers of ranks, all competing combinations", "why_tests_cant": "quantifies over every competing combination of modes", "anchors": ["pyspod/spod/utils.py:compute_coeffs_op", "pyspod/spod/utils.py:_oblique_projection", "pyspod/spod/utils.py:compute_reconstruction"]}
{"id": "C155", "title": "Selecting more frequencies never makes the reconstruction worse", "statement": "If one selection of frequencies contains another, the reconstruction with the larger one is at every time at least as close to the snapshot.", "quantifier": "all results folders, data, pairs of nested selections, tolerances, numbers of ranks", "why_tests_cant": "relates two runs on arbitrary data", "anchors": ["pyspod/spod/utils.py:compute_coeffs_op", "pyspod/spod/utils.py:_oblique_projection", "pyspod/spod/utils.py:compute_reconstruction"]}
{"id": "C156", "title": "Projecting the reconstruction gives the same coefficients", "statement": "Passing the reconstruction (when it is real) to compute_coeffs_op again stores the same coefficients, modes and mean.", "quantifier": "all results folders, data, tolerances, numbers of ranks", "why_tests_cant": "relates two runs on arbitrary data", "anchors": ["pyspod/spod/utils.py:compute_coeffs_op", "pyspod/spod/utils.py:compute_reconstruction"]}
{"id": "C157", "title": "Coefficients follow affine changes and reorderings of the data", "statement": "Multiplying the data by a factor, adding a steady field and reordering the snapshots multiplies the coefficients by the factor and reorders them, changes the mean accordingly, and leaves the stored modes; the reconstruction changes as the data do.", "quantifier": "all results folders, data, factors, steady fields, permutations of the snapshots, tolerances, numbers of ranks", "why_tests_cant": "relates two runs on arbitrary data", "anchors": ["pyspod/spod/utils.py:compute_coeffs_op", "pyspod/spod/utils.py:compute_reconstruction"]}
{"id": "C158", "title": "Coefficients of the projection have zero mean", "statement": "For every mode the coefficients stored by compute_coeffs_op sum to zero over the times of the data.", "quantifier": "all results folders, data, selections, tolerances, numbers of ranks", "why_tests_cant": "an identity for all data", "anchors": ["pyspod/spod/utils.py:compute_coeffs_op"]}
{"id": "C159", "title": "POD modes are optimal", "statement": "No set of K fields orthonormal in the stored weights captures more energy of the (centred) data than the K largest stored eigenvalues, each stored mode captures exactly the eigenvalue stored at its position, and the n modes saved capture at least as much as any other n orthonormal fields.", "quantifier": "all real data, non-negative weights, exact eigen-solvers, numbers of modes to save, numbers of ranks, all competing orthonormal sets", "why_tests_cant": "quantifies over every competing set of fields and every exact solver", "anchors": ["pyspod/pod/standard.py:Standard.fit", "pyspod/pod/base.py:Base._initialize"]}
{"id": "C160", "title": "POD follows reorderings, scalings and shifts of data and weights", "statement": "Reordering grid points (with the weights) or snapshots, multiplying the data by s, adding a steady field (when the mean is subtracted) and multiplying the weights by a multiplies the stored eigenvalues by a s^2 and changes the modes of simple eigenvalues only by the reordering, the factor 1/sqrt(a) and the sign, whatever the solver, the number of ranks and the number of modes saved.", "quantifier": "all pairs of data related in this way, all weights, exact solvers, numbers of ranks, numbers of modes saved", "why_tests_cant": "relates two runs on arbitrary data with arbitrary libraries", "anchors": ["pyspod/pod/standard.py:Standard.fit", "pyspod/pod/base.py:Base._initialize", "pyspod/pod/base.py:Base.select_mean"]}
{"id": "C161", "title": "Every picture of a call has its own file", "statement": "Saving pictures of several variables, modes, time steps or coefficients under one filename gives every picture a file of its own; two pictures have the same file name only if filename, kind of plot and all indices agree, so after any sequence of plotting calls the file shows the last picture asked for with that name and those indices.", "quantifier": "all file names (with and without folder, extension, dots), all lists of variables, modes, times and coefficients (also negative and repeated), all sequences of calls", "why_tests_cant": "file names and index lists are unbounded", "anchors": ["pyspod/utils/postproc.py:plot_2d_modes_at_frequency", "pyspod/utils/postproc.py:plot_2d_data", "pyspod/utils/postproc.py:plot_coeffs", "pyspod/utils/postproc.py:generate_2d_data_video", "pyspod/utils/postproc.py:plot_mode_tracers", "pyspod/utils/postproc.py:plot_data_tracers"]}
{"id": "C162", "title": "A report page is followed by the picture of its mode", "statement": "In the report every page that marks a peak is followed by a page with the picture of that mode at exactly the marked frequency.", "quantifier": "all increasing frequency axes, spectra, numbers of saved modes", "why_tests_cant": "quantifies over all spectra", "anchors": ["pyspod/spod/base.py:Base.plot_report", "pyspod/spod/base.py:Base.plot_2d_modes_at_frequency", "pyspod/utils/postproc.py:find_nearest_freq"]}
{"id": "C163", "title": "The report does not depend on the number of ranks", "statement": "plot_report called by all ranks of a parallel program leaves the report of a serial program.", "quantifier": "all spectra, numbers of ranks, orders in which the ranks finish", "why_tests_cant": "depends on the schedule of the ranks", "anchors": ["pyspod/spod/base.py:Base.plot_report", "pyspod/spod/base.py:Base.plot_2d_modes_at_frequency"]}
{"id": "C164", "title": "Every method of a fitted object works", "statement": "Every method of a fitted object that stands for a function of the post-processing module returns what that function returns for the results of the fit.", "quantifier": "all methods and arguments", "why_tests_cant": "tests call some methods with some arguments", "anchors": ["pyspod/spod/base.py:Base.plot_2d_mode_slice_vs_time", "pyspod/spod/base.py:Base.get_modes_at_freq", "pyspod/spod/base.py:Base.plot_eigs"]}
{"id": "C165", "title": "The problem size printed by a fit", "statement": "The total size printed at the start of a fit is the size of the whole data set on any number of ranks, and the smallest and largest share printed are those of actual ranks and differ by at most one row of the split axis.", "quantifier": "all shapes, split axes, numbers of snapshots and ranks", "why_tests_cant": "quantifies over shapes and ranks", "anchors": ["pyspod/spod/base.py:Base.get_sizes", "pyspod/utils/parallel.py:_blockdist"]}
{"id": "C166", "title": "Coefficients at one frequency are inner products with the modes", "statement": "With one frequency selected, the coefficients are the weighted inner products of the fluctuations (snapshot minus stored mean) with the saved modes of that frequency.", "quantifier": "all data, weights, block parameters and ranks; every eigenvector and SVD routine; modes with positive and distinct eigenvalues, tol < 1", "why_tests_cant": "must hold for every data set and every routine of linear algebra", "anchors": ["pyspod/spod/utils.py:compute_coeffs_op", "pyspod/spod/standard.py:Standard.fit"]}
{"id": "C167", "title": "Grid points of weight zero have no influence", "statement": "Changing the data at grid points of weight zero changes neither the eigenvalues nor the modes at the other points of a fit, nor the coefficients of a projection.", "quantifier": "all data, weights with zeros anywhere, block parameters, ranks, eigenvector routines", "why_tests_cant": "quantifies over all values at the masked points", "anchors": ["pyspod/spod/standard.py:Standard.fit", "pyspod/spod/standard.py:Standard._compute_standard_spod", "pyspod/spod/utils.py:compute_coeffs_op"]}
{"id": "C168", "title": "n_modes_save only decides how many modes are saved", "statement": "Two fits that differ in n_modes_save only have the same eigenvalues, and the modes of the smaller number are the first modes of the larger one.", "quantifier": "all data, configurations, ranks and numbers of saved modes", "why_tests_cant": "quantifies over all pairs of runs", "anchors": ["pyspod/spod/base.py:Base._define_optional_parameters", "pyspod/spod/standard.py:Standard._compute_standard_spod"]}
{"id": "C169", "title": "The order of non-overlapping blocks does not matter", "statement": "Without overlap, exchanging whole blocks of snapshots leaves the eigenvalues of a fit, and the modes of simple eigenvalues up to a factor of modulus one.", "quantifier": "all data, numbers of blocks, rearrangements, ranks and eigenvector routines", "why_tests_cant": "quantifies over all permutations of the blocks", "anchors": ["pyspod/spod/base.py:Base.compute_fft", "pyspod/spod/standard.py:Standard._compute_standard_spod"]}
{"id": "C170", "title": "Reversing time conjugates the modes", "statement": "For real data whose last block ends at the last snapshot, fitting the snapshots in reverse order gives the same eigenvalues and, for simple eigenvalues, the complex conjugates of the modes up to a factor of modulus one.", "quantifier": "all real data, block lengths and overlaps with blocks ending at the last snapshot, symmetric windows, ranks", "why_tests_cant": "quantifies over all data", "anchors": ["pyspod/spod/base.py:Base.compute_fft", "pyspod/spod/base.py:Base._hamming_window"]}
{"id": "C171", "title": "The unit of time does not matter", "statement": "Measuring times in another unit (time step and bounds of the periods multiplied by a > 0) divides every stored frequency by a and changes nothing else: a projection selects the same frequencies and leaves the same files or fails in the same way.", "quantifier": "all results, units, bounds of periods, ranks and schedules", "why_tests_cant": "quantifies over all results and units", "anchors": ["pyspod/spod/base.py:Base.get_freq_axis", "pyspod/spod/utils.py:compute_coeffs_op", "pyspod/utils/postproc.py:find_nearest_freq"]}
{"id": "C172", "title": "Every accepted network can be trained", "statement": "A network name accepted by model_initialize gives a model that model_train can train; other names raise an error.", "quantifier": "all names, data and parameters", "why_tests_cant": "quantifies over all names and data", "anchors": ["pyspod/emulation/neural_nets.py:Neural_Nets.model_initialize", "pyspod/emulation/neural_nets.py:Neural_Nets.build_cnn"]}
{"id": "C173", "title": "A prediction depends on earlier columns only", "statement": "A column predicted by model_inference is the same for two inputs whose earlier columns are the same.", "quantifier": "all networks, window lengths, inputs", "why_tests_cant": "quantifies over pairs of inputs", "anchors": ["pyspod/emulation/neural_nets.py:Neural_Nets.model_inference"]}
{"id": "C174", "title": "A session finds the files it reads", "statement": "In a session in which every call comes after the calls it needs (a fit before a projection on its modes, a projection before a reconstruction, a fit that stored its blocks before one that uses them), whenever a rank comes to read a file, or looks for a folder, some rank has completely written it.", "quantifier": "all sequences of calls, numbers of ranks, arguments, MPI libraries and schedules", "why_tests_cant": "quantifies over all schedules and sequences of calls", "anchors": ["pyspod/spod/base.py:Base._initialize", "pyspod/spod/standard.py:Standard.fit", "pyspod/spod/utils.py:compute_coeffs_op", "pyspod/spod/utils.py:compute_reconstruction", "pyspod/utils/parallel.py:npy_save"]}
{"id": "C175", "title": "Isometries of the fields carry over to the modes", "statement": "Applying to every snapshot a linear map that preserves weighted inner products (turning vector components, changing signs, orthogonal transforms, adding grid points where the data vanish) leaves the eigenvalues of a fit, and the modes are the images of the modes under the map.", "quantifier": "all data, weights, grids, isometries, block parameters, ranks and eigenvector routines; data not normalised", "why_tests_cant": "quantifies over all data and maps", "anchors": ["pyspod/spod/standard.py:Standard.fit", "pyspod/spod/standard.py:Standard._compute_standard_spod"]}
{"id": "C176", "title": "A pattern with a varying amplitude is its own mode", "statement": "If the data are a steady field plus one pattern times an amplitude that varies in time, then at every frequency the first eigenvalue is the squared norm of the pattern times the block-averaged spectrum of the amplitude, all other eigenvalues vanish, and the first mode is the normalised pattern up to a factor of modulus one.", "quantifier": "all patterns, amplitudes, steady fields, weights, block parameters, windows, ranks and eigenvector routines; data not normalised", "why_tests_cant": "quantifies over all patterns and amplitudes", "anchors": ["pyspod/spod/standard.py:Standard.fit", "pyspod/spod/base.py:Base.compute_fft", "pyspod/spod/standard.py:Standard._compute_standard_spod"]}
{"id": "C177", "title": "Snapshots outside the blocks matter only through the mean", "statement": "Snapshots that belong to no block have no influence on eigenvalues and modes, except through the long-time mean when that is the mean removed.", "quantifier": "all data, numbers of snapshots, block parameters, ranks and eigenvector routines", "why_tests_cant": "quantifies over all data outside the blocks", "anchors": ["pyspod/spod/standard.py:Standard.fit", "pyspod/spod/base.py:Base._initialize"]}
{"id": "C178", "title": "Stored modes are finite", "statement": "Every value stored in a mode file by a fit, and every stored POD mode, is a finite number.", "quantifier": "all data, weights, block parameters, ranks, eigenvector routines and write schedules", "why_tests_cant": "quantifies over all data; no division by zero", "anchors": ["pyspod/spod/standard.py:Standard._compute_standard_spod", "pyspod/pod/standard.py:Standard.fit"]}
{"id": "C179", "title": "Normalised weights are the weights divided by the variances of the variables", "statement": "With `normalize_weights`, a fit is the fit with the given weights divided, variable by variable, by the variance of the variable over all snapshots and points, on any number of ranks and for every order in which the ranks' contributions are combined.", "quantifier": "all data, weights, grids, numbers of variables, ranks, reduction trees and write schedules", "why_tests_cant": "quantifies over all data, distributions and reduction orders", "anchors": ["pyspod/utils/weights.py:apply_normalization", "pyspod/utils/parallel.py:pvar", "pyspod/spod/base.py:Base._initialize"]}
{"id": "C180", "title": "With normalised weights the units of the variables do not matter", "statement": "With `normalize_weights`, multiplying a variable by a non-zero constant leaves all eigenvalues of a fit and multiplies that variable of every stored mode by the same constant.", "quantifier": "all data, weights, grids, factors per variable, block parameters, ranks and eigenvector routines; data not normalised", "why_tests_cant": "quantifies over all data and factors", "anchors": ["pyspod/utils/weights.py:apply_normalization", "pyspod/spod/standard.py:Standard.fit"]}
{"id": "C181", "title": "Streaming fits normalise with the whole record", "statement": "With `normalize_weights`, a streaming fit divides the weights by the variances of the variables over the whole record, as the standard fit does.", "quantifier": "all records, weights, grids and block parameters", "why_tests_cant": "quantifies over all records", "anchors": ["pyspod/spod/streaming.py:Streaming.fit", "pyspod/spod/base.py:Base._initialize", "pyspod/utils/weights.py:apply_normalization"]}
{"id": "C182", "title": "A steady field has no influence on a streaming fit", "statement": "Adding the same field to every snapshot leaves all eigenvalues and modes of a streaming fit unchanged.", "quantifier": "all records, fields, weights, block parameters, decomposition routines, numbers of ranks and write schedules", "why_tests_cant": "quantifies over all records and fields", "anchors": ["pyspod/spod/streaming.py:Streaming.fit"]}
{"id": "C183", "title": "Data at points of weight zero have no influence on a streaming fit", "statement": "Changing the data of a streaming fit only where the weight is zero leaves the eigenvalues, and the modes at all other points.", "quantifier": "all pairs of records that agree where the weight is not zero, all block parameters, decomposition routines, numbers of ranks and write schedules", "why_tests_cant": "quantifies over all pairs of records", "anchors": ["pyspod/spod/streaming.py:Streaming.fit"]}
{"id": "C184", "title": "Results of a streaming fit are finite", "statement": "Every eigenvalue and every value of a mode that a streaming fit stores is a finite number.", "quantifier": "all records, weights, block parameters, decomposition routines, numbers of ranks and write schedules", "why_tests_cant": "quantifies over all records; no division by zero in any update", "anchors": ["pyspod/spod/streaming.py:Streaming.fit"]}
{"id": "C185", "title": "Streaming fits respect mean_type and normalize_data", "statement": "A streaming fit subtracts the mean chosen by `mean_type` and normalises the data if `normalize_data` is set, or rejects the options.", "quantifier": "all records, options, decomposition routines, numbers of ranks and write schedules", "why_tests_cant": "quantifies over all records and options", "anchors": ["pyspod/spod/streaming.py:Streaming.fit", "pyspod/spod/base.py:Base._initialize"]}
{"id": "C186", "title": "The stored confidence bounds enclose the eigenvalues", "statement": "The confidence bounds stored next to the eigenvalues, by a standard or a streaming fit, have the shape of the eigenvalues and enclose them.", "quantifier": "all records, block parameters, confidence levels and numbers of modes kept", "why_tests_cant": "quantifies over all records and parameters", "anchors": ["pyspod/spod/streaming.py:Streaming.fit", "pyspod/spod/standard.py:Standard.fit", "pyspod/spod/base.py:Base._store_and_save"]}
{"id": "C187", "title": "Every documented attribute can be read after a fit", "statement": "After a fit has ended every attribute documented on the object can be read without an exception, whatever was called before and after.", "quantifier": "all sessions of calls on one object and all points at which a call may have failed", "why_tests_cant": "quantifies over all histories of calls", "anchors": ["pyspod/spod/base.py:Base"]}
{"id": "C188", "title": "Streaming results do not depend on the decomposition routine", "statement": "The eigenvalues of a streaming fit, and its modes up to a factor of modulus one, do not depend on how the routine that decomposes small matrices chooses among equivalent answers.", "quantifier": "all records, weights, block parameters, pairs of correct decomposition routines, numbers of ranks and write schedules; blocks independent, and no more blocks than modes kept or no tie between kept and discarded singular values", "why_tests_cant": "quantifies over all correct routines", "anchors": ["pyspod/spod/streaming.py:Streaming.fit"]}
{"id": "C189", "title": "Streaming fits commute with changes of units, of sign and of grid numbering", "statement": "A linear map of the fields that multiplies weighted norms by a constant r multiplies the eigenvalues of a streaming fit by r and maps its modes (divided by r), up to a factor of modulus one.", "quantifier": "all records, weights, linear maps (scalings, permutations, rotations), block parameters, correct decomposition routines, numbers of ranks and write schedules, under the conditions of C188", "why_tests_cant": "quantifies over all data and maps", "anchors": ["pyspod/spod/streaming.py:Streaming.fit"]}
{"id": "C190", "title": "A slice of a three-dimensional mode shows that slice, with its maximum marked", "statement": "A plot of a slice of a three-dimensional mode shows the values of the mode at the index asked for along the sliced axis, at the coordinates of the two other axes, and marks the maximum of the slice if asked to.", "quantifier": "all modes, coordinates, slices (counted from the start or the end) and options", "why_tests_cant": "quantifies over all modes and coordinates", "anchors": ["pyspod/utils/postproc.py:plot_3d_modes_slice_at_frequency", "pyspod/utils/postproc.py:_apply_2d_vertical_lines"]}
{"id": "C191", "title": "An error while a stream is read is reported", "statement": "When a snapshot cannot be read during a streaming fit (an I/O error, an interrupt by the user), the fit raises; it does not write results of a part of the data as if they were results of all of it.", "quantifier": "all records, configurations, and times at which reading fails", "why_tests_cant": "quantifies over all failure times and histories", "anchors": ["pyspod/spod/streaming.py:Streaming.fit"]}
{"id": "C192", "title": "A streaming fit ends on every rank", "statement": "A streaming fit on several ranks ends on every rank, also when a snapshot cannot be read on one of them.", "quantifier": "all numbers of ranks, MPI libraries, schedules, lengths of the record and failure times", "why_tests_cant": "quantifies over all schedules", "anchors": ["pyspod/spod/streaming.py:Streaming.fit", "pyspod/utils/parallel.py:allreduce", "pyspod/utils/parallel.py:npy_save"]}
{"id": "C193", "title": "Reusing blocks does not change the results", "statement": "In one results folder, after any sequence of fits, a fit with savefft and reuse_blocks leaves the eigenvalues, modes, weights and mean that it would leave without reusing anything.", "quantifier": "all sequences of fits (data, block settings, weights, spectra, numbers of ranks, write orders, flags)", "why_tests_cant": "quantifies over all histories of fits in a folder", "anchors": ["pyspod/spod/standard.py:Standard.fit", "pyspod/spod/base.py:Base._are_blocks_present", "pyspod/utils/parallel.py:npy_save", "pyspod/utils/parallel.py:distribute_dimension"]}
{"id": "C194", "title": "All frequencies of a result come from one data set", "statement": "Whatever fits ran in a results folder before, the eigenvalues and modes that one fit reports at its different frequencies are computed from one and the same data set.", "quantifier": "all sequences of fits in one results folder", "why_tests_cant": "quantifies over all histories of fits in a folder", "anchors": ["pyspod/spod/standard.py:Standard.fit", "pyspod/spod/base.py:Base._are_blocks_present"]}
{"id": "C195", "title": "The spectrum depends continuously on the data", "statement": "For data that are a sum of two data sets, the square root of eigenvalue i+j at a frequency is at most the sum of the square roots of eigenvalue i of the first and eigenvalue j of the second; so data that nowhere differ by more than eps have spectra whose square roots differ by at most 2 eps sqrt(2 sum of weights).", "quantifier": "all data sets, block settings, windows, weights, numbers of ranks and eigen-solvers (data not normalised)", "why_tests_cant": "quantifies over all pairs of data sets and every noise amplitude", "anchors": ["pyspod/spod/standard.py:Standard.fit", "pyspod/spod/standard.py:Standard._compute_standard_spod", "pyspod/spod/base.py:Base._compute_blocks"]}
{"id": "C196", "title": "Larger domains and larger weights never lower an eigenvalue", "statement": "Adding grid points or variables to the data, or increasing weights, does not decrease any eigenvalue at any frequency.", "quantifier": "all data sets, embeddings of one grid in another, weights, block settings, numbers of ranks and eigen-solvers", "why_tests_cant": "quantifies over all data sets and grids", "anchors": ["pyspod/spod/standard.py:Standard.fit", "pyspod/spod/standard.py:Standard._compute_standard_spod"]}
{"id": "C197", "title": "Eigenvalues of a longer record interlace", "statement": "If a record begins with the snapshots of another one, then with nb and nb' blocks the eigenvalues times the numbers of blocks interlace: nb*lambda_k <= nb'*lambda'_k, and nb'*lambda'_(k+nb'-nb) <= nb*lambda_k.", "quantifier": "all records and continuations, block settings, weights, numbers of ranks and eigen-solvers (with the longtime mean: continuations with the same mean)", "why_tests_cant": "quantifies over all records and all their continuations", "anchors": ["pyspod/spod/standard.py:Standard.fit", "pyspod/spod/base.py:Base._compute_blocks", "pyspod/spod/base.py:Base._set_blocks"]}
{"id": "C198", "title": "Repeating a record does not change the result", "statement": "A record of whole blocks without overlap and the same record repeated R times give the same eigenvalues (followed by zeros) and, for positive simple eigenvalues, the same modes up to a factor of modulus one.", "quantifier": "all records, numbers of repetitions, weights, numbers of ranks and eigen-solvers", "why_tests_cant": "quantifies over all records and repetition counts", "anchors": ["pyspod/spod/standard.py:Standard.fit", "pyspod/spod/standard.py:Standard._compute_standard_spod"]}
{"id": "C199", "title": "Truncation in a streaming fit only loses energy", "statement": "The eigenvalues stored by a streaming fit that saves k modes never exceed those of the fit of the same data that saves at least as many modes as there are blocks; each (squared) is too small by at most the total energy that truncation removed; and with no more blocks read than modes saved nothing is lost.", "quantifier": "all data sets, block settings, weights, numbers of modes to save and of ranks, at every frequency at which the blocks are linearly independent", "why_tests_cant": "quantifies over all data sets, truncations and rank counts", "anchors": ["pyspod/spod/streaming.py:Streaming.fit"]}
{"id": "C200", "title": "The POD spectrum depends continuously on the data", "statement": "For data that are a sum of two data sets, the square root of the (i+j)-th largest POD eigenvalue is at most the sum of the square roots of the i-th largest of the first and the j-th largest of the second; so data that nowhere differ by more than eps have spectra whose square roots differ by at most 2 eps sqrt(number of snapshots times sum of weights).", "quantifier": "all data sets, weights, means, numbers of ranks and eigen-solvers", "why_tests_cant": "quantifies over all pairs of data sets and every noise amplitude", "anchors": ["pyspod/pod/standard.py:Standard.fit", "pyspod/pod/base.py:Base._pre_process"]}
{"id": "C201", "title": "POD: larger domains and larger weights never lower an eigenvalue", "statement": "Adding grid points or variables to the data of a POD, or increasing weights, does not decrease any of its sorted eigenvalues.", "quantifier": "all data sets, embeddings of one grid in another, weights, numbers of ranks and eigen-solvers", "why_tests_cant": "quantifies over all data sets and grids", "anchors": ["pyspod/pod/standard.py:Standard.fit"]}
{"id": "C202", "title": "POD of longer and of repeated records", "statement": "If a record begins with the snapshots of another one (with the same mean, if the mean is subtracted), the sorted eigenvalues of the two PODs interlace; a record repeated R times has R times the eigenvalues, followed by zeros.", "quantifier": "all records, continuations, repetition counts, weights, numbers of ranks and eigen-solvers", "why_tests_cant": "quantifies over all records and all their continuations", "anchors": ["pyspod/pod/standard.py:Standard.fit", "pyspod/pod/base.py:Base._pre_process"]}
{"id": "C203", "title": "Reconstruction splits the energy of every snapshot", "statement": "For the coefficients computed from any data and the reconstruction of all times made from them, the weighted energy of each snapshot about the time mean equals the energy of its reconstruction about the mean plus the energy of the reconstruction error; in particular a reconstruction never has more energy than the data.", "quantifier": "all results folders (any stored modes and non-negative weights), data sets, tolerances that are not negative, selections of frequencies and modes, numbers of ranks", "why_tests_cant": "quantifies over all data sets, sets of modes and tolerances", "anchors": ["pyspod/spod/utils.py:compute_coeffs_op", "pyspod/spod/utils.py:compute_reconstruction"]}
{"id": "C204", "title": "Reconstruction does not amplify differences in the data", "statement": "For two data sets of equal length projected on the same modes, reconstructed snapshots are at no time farther apart (in the weighted norm) about the means than the snapshots are, and summed over time the reconstructions differ by no more than the data.", "quantifier": "all pairs of data sets of equal length, results folders, tolerances that are not negative, numbers of ranks", "why_tests_cant": "quantifies over all pairs of data sets", "anchors": ["pyspod/spod/utils.py:compute_coeffs_op", "pyspod/spod/utils.py:compute_reconstruction"]}
{"id": "C205", "title": "Energies of subdomains add up", "statement": "If a grid (or a set of variables) is cut into two parts and the same SPOD is applied to the whole and to each part, then at every frequency the sum of the eigenvalues of the whole is the sum of those of the parts, and the (i+j)-th eigenvalue of the whole is at most the i-th of one part plus the j-th of the other.", "quantifier": "all data sets, ways to cut the grid, weights, block settings, numbers of ranks and eigen-solvers", "why_tests_cant": "quantifies over all data sets and all partitions of the grid", "anchors": ["pyspod/spod/standard.py:Standard.fit"]}
{"id": "C206", "title": "The spectrum of uncorrelated parts is the union of their spectra", "statement": "If the two parts of a grid are uncorrelated at a frequency (the transforms of the blocks at the points of one are orthogonal to those at the points of the other), the non-zero eigenvalues of the whole are those of the parts, with their multiplicities.", "quantifier": "all data sets, ways to cut the grid, weights, block settings, numbers of ranks and eigen-solvers", "why_tests_cant": "quantifies over all data sets with uncorrelated parts and all partitions of the grid", "anchors": ["pyspod/spod/standard.py:Standard.fit"]}
{"id": "C207", "title": "The error of a POD reconstruction is the energy of the modes left out", "statement": "For a POD with the long-time mean and no weights whose saved modes belong to positive, distinct eigenvalues, projecting the data it was fitted on and reconstructing all times gives a real field whose squared error, summed over all snapshots and grid points, is exactly the sum of the eigenvalues of the modes that were not saved. If the solver returns the eigenvalues in decreasing order, no other choice of as many orthonormal fields and coefficients comes closer to the data.", "quantifier": "all data sets, numbers of saved modes, eigen-solvers, numbers of ranks of each of the three steps", "why_tests_cant": "quantifies over all data sets, all solvers and all competing sets of fields", "anchors": ["pyspod/pod/standard.py:Standard.fit", "pyspod/pod/utils.py:compute_coeffs_op", "pyspod/pod/utils.py:compute_reconstruction"]}
{"id": "C208", "title": "Linear relations in the data hold for SPOD modes", "statement": "If every snapshot satisfies a linear relation between its values (a boundary condition, a symmetry, periodicity, a discrete conservation law or divergence constraint: sum of l(x) q(x) = b with fixed coefficients l and right-hand side b, where b = 0 if no mean is subtracted), then every stored SPOD mode of a positive eigenvalue satisfies the homogeneous relation: sum of l(x) phi(x) = 0. This holds without normalization, for any weights, any eigen-solver and any number of ranks.", "quantifier": "all data sets and linear relations they satisfy, all options without normalization, weights, solvers, numbers of ranks and write orders", "why_tests_cant": "quantifies over all data sets and all linear relations", "anchors": ["pyspod/spod/standard.py:Standard.fit", "pyspod/spod/standard.py:Standard._compute_standard_spod"]}
{"id": "C209", "title": "Linear relations in the data hold for streaming SPOD modes", "statement": "If every snapshot satisfies a linear relation (sum of l(x) q(x) = b), the weights are positive and the blocks at a frequency are linearly independent, then every mode stored by a streaming fit at that frequency satisfies sum of l(x) phi(x) = 0, however many modes are truncated on the way, for any SVD routine and any number of ranks.", "quantifier": "all data sets and linear relations they satisfy, options, positive weights, SVD routines, numbers of ranks and write orders", "why_tests_cant": "quantifies over all data sets, all linear relations and all SVD routines", "anchors": ["pyspod/spod/streaming.py:Streaming.fit"]}
{"id": "C210", "title": "Linear relations in the data hold for POD modes", "statement": "If every snapshot satisfies a linear relation (sum of l(x) q(x) = b, with b = 0 if no mean is subtracted), then every POD mode stored for a positive eigenvalue is real and satisfies sum of l(x) phi(x) = 0, for any weights, any eigen-solver and any number of ranks.", "quantifier": "all data sets and linear relations they satisfy, mean types, weights, solvers, numbers of ranks", "why_tests_cant": "quantifies over all data sets and all linear relations", "anchors": ["pyspod/pod/standard.py:Standard.fit"]}
{"id": "C211", "title": "Reconstructions keep the linear relations of the projected data", "statement": "If the data of the fit satisfy a linear relation between the values of a snapshot, and other (or the same) data that satisfy the same relation, with a possibly different right-hand side, are projected on modes of positive eigenvalues and reconstructed, then every reconstructed snapshot satisfies the relation of the projected data exactly: boundary values, symmetries, conserved sums survive truncation to few modes. For a folder of modes of any origin it is enough that the selected modes satisfy the homogeneous relation, whatever the tolerance of the projection.", "quantifier": "all data sets and relations, bands of frequencies, numbers of saved modes, tolerances, solvers, numbers of ranks of each step", "why_tests_cant": "quantifies over all data sets, all relations and all selections of modes", "anchors": ["pyspod/spod/standard.py:Standard.fit", "pyspod/spod/utils.py:compute_coeffs_op", "pyspod/spod/utils.py:compute_reconstruction"]}
{"id": "C212", "title": "Cached blocks of another grid are not used", "statement": "In one results folder, a fit that reuses saved Fourier blocks never works from blocks saved by a fit of data on another spatial grid: it computes its own blocks or raises.", "quantifier": "all sequences of fits, each on its own grid, with its own data, settings, weights, flags, numbers of ranks and write orders", "why_tests_cant": "quantifies over all histories of fits in a folder and all pairs of grids", "anchors": ["pyspod/spod/standard.py:Standard.fit", "pyspod/spod/base.py:Base._are_blocks_present"]}
{"id": "C213", "title": "An accurate emulator gives accurate coefficients", "statement": "Scaling test coefficients with the factors of the training coefficients, inference and scaling back give coefficients that start with the n_in test columns; if the network is right up to eps on the scaled test data, the emulated coefficients of row i are right up to eps times the factor of row i (exact for eps = 0).", "quantifier": "all training and test coefficients, normalisations, sequence lengths and networks (any function)", "why_tests_cant": "quantifies over all data and all networks", "anchors": ["pyspod/emulation/base.py:Base.scaler", "pyspod/emulation/base.py:Base.scale_data", "pyspod/emulation/base.py:Base.descale_data", "pyspod/emulation/neural_nets.py:Neural_Nets.model_inference"]}
{"id": "C214", "title": "Errors of emulated coefficients are the errors of the emulated fields", "statement": "Fields reconstructed from two sets of POD coefficients in the same folder are, snapshot by snapshot and in the weighted norm, as far apart as the coefficients; so with a network that is right up to eps on scaled data the emulated snapshots differ from the projected ones by at most eps times the root of the sum of the squared scaling factors.", "quantifier": "all POD fits, weights, coefficients, networks and numbers of ranks", "why_tests_cant": "quantifies over all data, coefficients and networks", "anchors": ["pyspod/pod/standard.py:Standard.fit", "pyspod/pod/utils.py:compute_coeffs_op", "pyspod/pod/utils.py:compute_reconstruction", "pyspod/emulation/neural_nets.py:Neural_Nets.model_inference"]}
{"id": "C215", "title": "POD with normalize_weights divides the weights by the variance of the data", "statement": "POD with normalize_weights writes the results of POD with the given weights divided by the variance of all values of all snapshots, whatever the number of ranks and the order in which their contributions are combined.", "quantifier": "all data, weights, mean types, solvers, numbers of ranks and reduction orders", "why_tests_cant": "quantifies over all data, weights and rank counts", "anchors": ["pyspod/pod/base.py:Base._initialize", "pyspod/utils/weights.py:apply_normalization", "pyspod/utils/parallel.py:pvar"]}
{"id": "C216", "title": "With normalize_weights POD does not depend on the units of the data", "statement": "If every value v of the data becomes s v + b (with a mean that is subtracted; b = 0 otherwise), POD with normalize_weights writes the same eigenvalues, and the modes of positive simple eigenvalues times |s| up to sign.", "quantifier": "all data of positive variance, scales, offsets, weights with an axis for the variable, exact eigen-solvers and numbers of ranks up to the length of the longest axis (else C215)", "why_tests_cant": "quantifies over all data and all changes of units", "anchors": ["pyspod/pod/base.py:Base._initialize", "pyspod/utils/weights.py:apply_normalization", "pyspod/pod/standard.py:Standard.fit"]}
{"id": "C217", "title": "Few degrees of freedom give few eigenvalues", "statement": "If the data are combinations of r fields with amplitudes that vary in time, plus a steady field, at most r SPOD eigenvalues per frequency are not zero; there are never more than there are grid points of positive weight; and no data set with r degrees of freedom can be subtracted so that the largest eigenvalue of the rest is below eigenvalue number r of the data.", "quantifier": "all data (not normalised, except for the bound by the number of grid points), fields, amplitudes, weights, frequencies, eigen-solvers and numbers of ranks", "why_tests_cant": "quantifies over all data sets and all approximations", "anchors": ["pyspod/spod/standard.py:Standard._compute_standard_spod", "pyspod/spod/standard.py:Standard.fit"]}
{"id": "C218", "title": "POD of data with n degrees of freedom is exact with n modes", "statement": "If the data are combinations of r fields plus a steady field, at most r POD eigenvalues are not zero; and if n = r modes are saved, belonging to positive distinct eigenvalues, fit, projection and reconstruction give the data back.", "quantifier": "all data, fields, amplitudes, eigen-solvers and numbers of ranks; for the second claim long-time mean, no weights", "why_tests_cant": "quantifies over all data sets", "anchors": ["pyspod/pod/standard.py:Standard.fit", "pyspod/pod/utils.py:compute_coeffs_op", "pyspod/pod/utils.py:compute_reconstruction"]}
{"id": "C219", "title": "The POD of a domain and of its parts", "statement": "If a domain is cut into two parts and POD is fitted on the whole and on each part (same snapshots, same weights, same mean), the stored eigenvalues of the parts add up to those of the whole; the (i+j)-th largest of the whole is at most the i-th largest of one part plus the j-th largest of the other; and if the parts are uncorrelated in time the eigenvalues of the whole are those of the parts together.", "quantifier": "all data, cuts, weights, eigen-solvers and numbers of ranks", "why_tests_cant": "quantifies over all data sets and all cuts of the grid", "anchors": ["pyspod/pod/standard.py:Standard.fit"]}
{"id": "C220", "title": "Small changes of the data change the eigenvalues of a streaming fit a little", "statement": "If no value of two records differs by more than e, no eigenvalue stored by streaming fits of them differs by more than 4 e times the square root of the sum of the weights; and eigenvalue number i+j of a sum of two records is at most eigenvalue i of the one plus eigenvalue j of the other.", "quantifier": "all records, weights, block parameters, correct decomposition routines, numbers of ranks and write schedules; as many modes kept as blocks are read, blocks independent", "why_tests_cant": "quantifies over all records and all perturbations", "anchors": ["pyspod/spod/streaming.py:Streaming.fit"]}
{"id": "C221", "title": "Streaming fits of a domain and of its parts", "statement": "No eigenvalue of a streaming fit of a part of the domain exceeds that of the whole; if the domain is cut into two, the squares of the eigenvalues of the parts add up to those of the whole, and the square of eigenvalue i+j of the whole is at most the square of eigenvalue i of the one part plus the square of eigenvalue j of the other.", "quantifier": "all records, cuts of the grid, weights, block parameters, correct decomposition routines, numbers of ranks and write schedules; as many modes kept as blocks are read, blocks independent on the parts", "why_tests_cant": "quantifies over all records and all cuts of the grid", "anchors": ["pyspod/spod/streaming.py:Streaming.fit"]}
{"id": "C222", "title": "Projections on POD modes keep linear relations of the projected data", "statement": "If every snapshot of the data of a POD fit satisfies a linear relation (sum over the grid of l(x) q(x) = b), and the data projected on its modes satisfy the same relation with any right-hand side b', every reconstructed snapshot satisfies the relation with right-hand side b'.", "quantifier": "all data of the fit, projected data, relations, weights, numbers of modes, solvers, numbers of ranks of the fit, the projection and the reconstruction, and write schedules; eigenvalues of the saved modes positive (otherwise they are nan); b = 0 if the fit subtracts no mean", "why_tests_cant": "quantifies over all data and all linear relations", "anchors": ["pyspod/pod/standard.py:Standard.fit", "pyspod/pod/utils.py:compute_coeffs_op", "pyspod/pod/utils.py:compute_reconstruction"]}
{"id": "C223", "title": "POD reconstructions of other data are the nearest fields, and no farther from each other than the data", "statement": "Without weights, the reconstruction of data projected on the modes of a POD fit of other data is, at every time, nearest to the data among all fields with the data's mean plus a combination of the modes; the energy of the fluctuations is the energy of the reconstruction plus that of the error; and the reconstructions of two records with the same mean are, at every time, no farther apart than the records.", "quantifier": "all data of the fit, projected data on the same grid, numbers of modes, solvers returning an orthonormal eigenbasis, numbers of ranks and write schedules; eigenvalues of the kept modes positive and different", "why_tests_cant": "quantifies over all data, all combinations of modes and all pairs of records", "anchors": ["pyspod/pod/utils.py:compute_coeffs_op", "pyspod/pod/utils.py:compute_reconstruction"]}
{"id": "C224", "title": "POD coefficients have mean zero, and projecting a reconstruction again gives the same coefficients", "statement": "Every row of the coefficients saved by a projection on POD modes sums to zero over time and the reconstruction has the time mean of the data; projecting the reconstruction again on the same modes gives the same coefficients; and the energy of the coefficients at a time is at most that of the data's fluctuation.", "quantifier": "all data of the fit, projected data, numbers of modes, solvers, numbers of ranks and write schedules; eigenvalues of the saved modes positive; the second and third claims without weights and with different eigenvalues", "why_tests_cant": "quantifies over all data, numbers of ranks and schedules", "anchors": ["pyspod/pod/utils.py:compute_coeffs_op", "pyspod/pod/utils.py:compute_reconstruction"]}
{"id": "C225", "title": "Projections on streaming modes keep linear relations of the data", "statement": "If every snapshot of a streaming fit satisfies a linear relation, and the data projected on the modes of selected frequencies satisfy the same relation with any right-hand side b', every reconstructed snapshot satisfies it with right-hand side b'.", "quantifier": "all data, relations, positive weights, block parameters, correct decomposition routines, band selections, tolerances, numbers of ranks of each step and write schedules; blocks independent at the selected frequencies", "why_tests_cant": "quantifies over all data and all linear relations", "anchors": ["pyspod/spod/streaming.py:Streaming.fit", "pyspod/spod/utils.py:compute_coeffs_op", "pyspod/spod/utils.py:compute_reconstruction"]}
{"id": "C226", "title": "Projection on one frequency of a streaming fit gives inner products", "statement": "If one frequency of a streaming fit is selected and none of its eigenvalues is zero, row j of the saved coefficients holds the weighted inner products of stored mode j with the fluctuations of the projected data (also if eigenvalues are equal).", "quantifier": "all data of the fit, projected data on the same grid, positive weights, block parameters, correct decomposition routines, tolerances below one, numbers of ranks and write schedules; blocks independent at the frequency", "why_tests_cant": "quantifies over all data, decompositions, tolerances, numbers of ranks and schedules", "anchors": ["pyspod/spod/streaming.py:Streaming.fit", "pyspod/spod/utils.py:compute_coeffs_op"]}
{"id": "C227", "title": "The number of positive eigenvalues of a streaming fit is the number of blocks", "statement": "At a frequency with independent blocks, stored eigenvalue number j (from zero) of a streaming fit is positive if the record holds more than j complete streaming blocks, and zero otherwise.", "quantifier": "all records, weights, block parameters, numbers of modes kept, correct decomposition routines, numbers of ranks and write schedules", "why_tests_cant": "quantifies over all records and all lengths of the record", "anchors": ["pyspod/spod/streaming.py:Streaming.fit"]}
{"id": "C228", "title": "The chunks of the two-stage reader are bounded by the announced size", "statement": "When files are read in chunks, no rank holds more than about 256 MB of a chunk. (Violated: the number of chunks is rounded down, so a chunk can hold up to nearly 512 MB plus one snapshot per rank, and never more; the record is split into several chunks only if the chunks hold at least 256 MB per rank on average. For both readers.)", "quantifier": "all records of files, grid sizes, numbers of variables, item sizes, numbers of ranks, chunks and ranks", "why_tests_cant": "quantifies over all sizes of records and numbers of ranks; memory of records of many gigabytes cannot be tested", "anchors": ["pyspod/utils/reader.py:reader_2stage", "pyspod/utils/reader.py:reader_mat"]}
{"id": "C229", "title": "More data never lower the energies of a streaming fit", "statement": "Streaming fits of a record with n blocks and of its continuation with n' blocks, with the same number of modes kept (possibly fewer than the blocks): for every j, (n+2) eig_j^2 <= (n'+2) eig'_j^2, and (n'+2) eig'_{j+n'-n}^2 <= (n+2) eig_j^2.", "quantifier": "all records and continuations, weights, block parameters, numbers of modes kept, correct decomposition routines, numbers of ranks and write schedules; blocks independent at the frequency", "why_tests_cant": "quantifies over all pairs of records and all lengths", "anchors": ["pyspod/spod/streaming.py:Streaming.fit"]}
{"id": "C230", "title": "An interrupted POD fit leaves a folder that is refused or belongs to one fit", "statement": "If a POD fit is interrupted at any point, a later projection on its folder raises or reads the results of one complete fit. (True for a new folder. Violated when the folder holds an earlier fit: then it can be read with the new modes and the old weights or eigenvalues; the modes that the projection uses always belong completely to one of the two fits.)", "quantifier": "all earlier and new results and all crash points", "why_tests_cant": "quantifies over all crash points and all earlier contents of the folder", "anchors": ["pyspod/pod/standard.py:Standard.fit", "pyspod/pod/base.py:Base._store_and_save", "pyspod/pod/utils.py:compute_coeffs_op"]}
{"id": "C231", "title": "Runs on different numbers of ranks agree up to rounding", "statement": "In floating-point arithmetic the matrices of a fit on one process or any number of ranks, with the sums taken in any order, agree with the exact matrix (and so with each other): entry (i,j) up to a relative error of about 1.5 (2n+p+1) u of the geometric mean of the energies of the two blocks (n values per rank, p ranks, unit roundoff u). The total energy has this relative error, and every eigenvalue found by a solver with residual d is an exact one up to this fraction of the total energy plus d.", "quantifier": "all data, weights, block parameters, frequencies, numbers of ranks, distributed axes, unit roundoffs, orders of the additions in the local products and in the reduction, results of every rounded operation, solver residuals; no overflow or underflow, exact Fourier transforms of the blocks (see C232)", "why_tests_cant": "quantifies over all orders of additions and all rounding errors; a test sees one order on one machine", "anchors": ["pyspod/spod/standard.py:Standard._compute_standard_spod", "pyspod/utils/parallel.py:allreduce"]}
{"id": "C232", "title": "The reported eigenvalues are close to the exact ones for all sources of floating-point error together", "statement": "If the Fourier transforms of the blocks have errors of at most e in every value, the matrix is computed in floating-point arithmetic on any number of ranks, and the eigen-solver leaves a residual d, then every reported eigenvalue is, up to the rounding bound times the total energy plus d, one of a descending list of numbers whose square roots differ from those of the exact eigenvalues by at most e times the root of the sum of the weights (times the one-sided factor).", "quantifier": "all data, weights, block parameters, frequencies, errors of the transforms, numbers of ranks, orders of the additions, rounding errors and solver residuals; no overflow or underflow", "why_tests_cant": "quantifies over all rounding errors of transforms, products, sums and solver", "anchors": ["pyspod/spod/standard.py:Standard.fit", "pyspod/spod/standard.py:Standard._compute_standard_spod", "pyspod/utils/parallel.py:allreduce"]}
{"id": "C233", "title": "The eigenvalues of a POD are close to the exact ones for all sources of floating-point error together", "statement": "If the mean is computed and subtracted in floating-point arithmetic, the correlation matrix is computed on any number of ranks with any order of additions, and the eigen-solver leaves a residual d, then every computed eigenvalue is, up to the rounding bound times their sum plus d, one of a descending list of numbers whose square roots differ from those of the exact eigenvalues by at most 2 X ((1+u)^(nt+2)-1) times the root of nt times the sum of the weights, where X bounds the data. (The error is relative to the data, not to the fluctuations.)", "quantifier": "all data, weights, mean types, numbers of ranks, distributed axes, unit roundoffs, orders of the additions, rounding errors and solver residuals; no overflow or underflow", "why_tests_cant": "quantifies over all orders of additions and all rounding errors; a test sees one order on one machine", "anchors": ["pyspod/pod/standard.py:Standard.fit", "pyspod/pod/base.py:Base.long_t_mean", "pyspod/utils/parallel.py:allreduce"]}
{"id": "C234", "title": "POD coefficients and reconstructions on different numbers of ranks agree up to rounding", "statement": "For a folder with real modes, the coefficients and the reconstruction computed in floating-point arithmetic on any number of ranks with any order of additions differ from the exact ones by at most ((1+u)^K - 1) times a number that depends only on the modes and the magnitude X of the data: 2 X sum|mode| for a coefficient (K = snapshots + values per rank + ranks), X plus the sum of these over the modes, times their values at the point, for the reconstruction (K larger by the number of modes plus one).", "quantifier": "all folders with real modes, data, numbers of ranks, distributed axes, unit roundoffs, orders of the additions and rounding errors; no overflow or underflow", "why_tests_cant": "quantifies over all orders of additions and all rounding errors; a test sees one order on one machine", "anchors": ["pyspod/pod/utils.py:compute_coeffs_op", "pyspod/pod/utils.py:compute_reconstruction", "pyspod/utils/parallel.py:allreduce"]}
{"id": "C235", "title": "The reported spectrum in floating-point arithmetic: near the exact one, nearly sorted, and numbers where it is above the error", "statement": "With the matrix computed in floating-point arithmetic on any number of ranks with any order of additions and an eigen-solver that leaves a residual d, let B be the rounding bound times the sum of the exact eigenvalues plus the residual. Whether or not the values pass np.real_if_close (an absolute tolerance: it depends on the units of the data), every reported eigenvalue is an exact one up to B, the reported list descends up to 2 B, every mode whose reported eigenvalue is above B has a factor that is a number (not nan or inf), of squared modulus one over blocks times eigenvalue (undoubled), and reporting moduli or absolute real parts makes a difference of at most B. Below B a mode can be nan although its reported eigenvalue is positive.", "quantifier": "all configurations, data, weights, numbers of ranks, unit roundoffs, orders of the additions, rounding errors, solver residuals and tolerances; no overflow or underflow", "why_tests_cant": "quantifies over all rounding errors and both branches of the test for real values; a test sees one", "anchors": ["pyspod/spod/standard.py:Standard._compute_standard_spod"]}
{"id": "C236", "title": "A whole SPOD fit in floating-point arithmetic: the reported spectrum is near the exact one", "statement": "Without normalize_data: if means, fluctuations, window, Fourier transforms (relative error g), scaling, the cross-spectral matrices (any number of ranks, any order of additions) and the eigen-solver (residual d) all make their errors together, then at every frequency there is a descending list of numbers whose roots differ from those of the exact eigenvalues by at most 2 X h times the root of the (one-sided) factor times the sum of the weights, where X bounds the data and h = (1+u)^(nt+7) (1 + g k) / (2 - (1+u)^n_dft) - 1 (k: largest window value over the mean); every reported eigenvalue is one of them up to the rounding bound times their sum plus the residual, the reported list descends up to twice that, and the factors of the modes above it are numbers.", "quantifier": "all configurations without normalisation, data, weights, non-negative windows, numbers of ranks, distributed axes, unit roundoffs, orders of the additions, rounding errors, transforms and solvers of the stated accuracy and tolerances of real_if_close; no overflow or underflow", "why_tests_cant": "quantifies over all orders of additions and all rounding errors; a test sees one order on one machine", "anchors": ["pyspod/spod/standard.py:Standard._compute_blocks", "pyspod/spod/standard.py:Standard._compute_standard_spod", "pyspod/spod/base.py:Base.long_t_mean", "pyspod/utils/parallel.py:allreduce"]}
{"id": "C237", "title": "Records that repeat from block to block give one mode per frequency: their Fourier coefficients", "statement": "If the data have a period that divides the distance between blocks, then at every frequency the first eigenvalue is the weighted energy of the Fourier coefficients of a block (doubled for a one-sided spectrum), all other eigenvalues are zero, and where it is not zero the stored first mode is the field of Fourier coefficients divided by its norm, up to a factor of modulus one.", "quantifier": "all periodic data, mean types, with and without normalisation, windows, overlaps, weights, correct eigen-solvers, numbers of ranks and write schedules", "why_tests_cant": "quantifies over all periodic fields and periods; a test tries one sinusoid", "anchors": ["pyspod/spod/standard.py:Standard._compute_blocks", "pyspod/spod/standard.py:Standard._compute_standard_spod"]}
{"id": "C238", "title": "Stored SPOD modes keep unit norm and orthogonality in floating-point arithmetic, as far as their eigenvalue exceeds the rounding errors", "statement": "When the matrix, the factors and the modes of a frequency are computed with unit roundoff u, on any number of ranks and with additions in any order, and the eigen-solver returns a pair with a small residual, then the weighted norm of the stored mode differs from the norm of the computed vector by at most explicit relative errors: the rounding errors of the matrix relative to (energy / eigenvalue), and those of the products relative to the root of (energy / eigenvalue). The weighted product of two modes with different eigenvalues is bounded in the same way, with the distance of the eigenvalues. Without a lower bound on the eigenvalue nothing holds: a positive eigenvalue of the size of u can come with a mode that is exactly zero.", "quantifier": "all Fourier coefficients, weights, unit roundoffs, numbers of ranks and splits, orders of the additions, residuals of the eigen-solver", "why_tests_cant": "quantifies over all rounding errors, orders and distributions; a test sees the errors of one machine", "anchors": ["pyspod/spod/standard.py:Standard._compute_standard_spod", "pyspod/utils/parallel.py:allreduce"]}
{"id": "C239", "title": "The overlap of the blocks is the requested percentage of n_dft, rounded up", "statement": "For a percentage that the user writes (16.1, say) the blocks overlap by the smallest whole number of snapshots that is at least that percentage of n_dft. (Violated: the product and the quotient are rounded to double precision before the ceiling, and n_dft = 1000 with overlap = 16.1 gives 162 instead of 161. Proved: whole percentages are exact, and all others are off by at most one.)", "quantifier": "all n_dft below 2^50, all percentages from 0 to 100, every rounding to double precision that is monotone, exact on numbers of 53 bits and has relative error 2^-53", "why_tests_cant": "depends on the rounding of each single pair of numbers; a test tries a few pairs", "anchors": ["pyspod/spod/base.py:Base.__init__"]}
{"id": "C240", "title": "Counts and frequencies computed in double precision are the exact ones", "statement": "The numbers that the code computes with floating-point division and then converts to integers are the exact ones: the numbers of passes, of parallel streaming blocks, of frequencies of a streaming fit and of chunks in which files are read (for data below 2^51 bytes). The frequency axis starts at 0, is strictly increasing, has a relative error of at most 2^-51, and for real data no entry exceeds the rounded Nyquist frequency, which is the last entry when n_dft is even.", "quantifier": "all integers below 2^50 (bytes below 2^51), all positive time steps, every rounding to double precision that is monotone, exact on numbers of 53 bits and has relative error 2^-53; no overflow or underflow", "why_tests_cant": "holds for every pair of numbers; a test tries a few", "anchors": ["pyspod/utils/reader.py:reader_2stage.__init__", "pyspod/utils/reader.py:reader_mat.__init__", "pyspod/spod/standard.py:Standard._compute_standard_spod", "pyspod/spod/streaming.py:Streaming.fit", "pyspod/spod/base.py:Base.get_freq_axis"]}
{"id": "C241", "title": "Normalization of the weights in floating-point arithmetic: the same on every number of ranks up to rounding", "statement": "For values of size at most X the variance of a variable over all points, snapshots and ranks is computed with an error of at most ((1+u)^(3L+6p)-1)(p+3)X^2 on p ranks with at most L values each, whatever the order in which numpy adds and MPI reduces; the mean likewise, the count exactly; the variance is never negative. Where the variance is at least twice the error bound, the normalized weights of a serial and a parallel run agree with the exact ones, and with each other, up to the relative size of that error. The bound is relative to X^2 and not to the variance, and has to be: three values 0.1 in double precision have a computed variance of 2^-112, not 0, so a constant variable gets weights multiplied by 5e33 instead of a division by zero.", "quantifier": "all values, all distributions over ranks that leave none empty, all reduction trees, all orders of the additions, all unit roundoffs (0 <= u; u <= 1 for the sign), all non-negative weights", "why_tests_cant": "every order of additions and every reduction tree gives other rounding errors; a test sees one of them", "anchors": ["pyspod/utils/parallel.py:pvar", "pyspod/utils/weights.py:apply_normalization"]}
{"id": "C242", "title": "Scaling of the emulation data in double precision", "statement": "In double precision every scaled value is a number; with globalmax no scaled value exceeds 1 in modulus (rounding included), with localmax none exceeds 1/10 by more than a relative 2^-51. De-scaling returns every value up to a relative error of 2^-51; exactly for normalizations other than localmax and globalmax, and for the values of largest modulus with globalmax. (Not exactly in general: 1 in the data [1, 49] comes back as 1 - 2^-53.)", "quantifier": "all non-empty data of doubles without a row of zeros, all normalizations, every rounding to double precision that is monotone, exact on numbers of 53 bits and has relative error 2^-53; no overflow or underflow", "why_tests_cant": "holds for every value; a test tries a few", "anchors": ["pyspod/emulation/base.py:Base.scaler", "pyspod/emulation/base.py:Base.scale_data", "pyspod/emulation/base.py:Base.descale_data"]}
{"id": "C243", "title": "check_orthogonality accepts the modes of a fit in floating-point arithmetic", "statement": "For modes computed and stored in floating-point arithmetic (as in C238), check_orthogonality of a mode with itself, and of two modes with different eigenvalues, returns True on every number of ranks when the rounding errors relative to the eigenvalues stay below explicit bounds (5e-7 for the norm, 1e-6 for the product). In double precision this covers a hundred blocks, a million values per rank on 64 ranks and eigenvalues of at least a thousandth of the energy. A mode that rounding has made zero does not pass.", "quantifier": "all Fourier coefficients, weights, unit roundoffs up to 1e-8, numbers of ranks in the fit and in the check, orders of the additions, residuals of the eigen-solver within the bounds", "why_tests_cant": "every order of additions gives other rounding errors, and the tolerance 2e-6 of the check has to hold for all of them; a test sees one", "anchors": ["pyspod/spod/utils.py:check_orthogonality", "pyspod/spod/standard.py:Standard._compute_standard_spod"]}
{"id": "C244", "title": "SPOD coefficients and reconstructions in floating-point arithmetic", "statement": "compute_coeffs_op and compute_reconstruction in floating-point arithmetic, on any number of ranks and with any order of additions: if every combination of the selected modes with coefficients of norm one has at least the weighted energy s, and tol is below s relative to the total energy of the modes, the coefficients of every snapshot differ from the exact ones by at most the rounding bound times the energy of the modes times the size of the coefficients and data, plus the residual of the solver, divided by s, plus the rounding of the mean; the reconstruction differs by the value of the modes at the point times that, plus a multiple of the unit roundoff. Data that are a combination of the modes are recovered up to this bound. For modes that are orthonormal s = 1. The condition is needed: for two independent modes (1,0), (1,e) with e^2 below the unit roundoff, coefficients at any distance from the exact ones solve the computed equations exactly.", "quantifier": "all results folders that fit the data, selections of frequencies, data, weights, tolerances, numbers of ranks, distributed axes, unit roundoffs, orders of the additions, rounding errors and solver residuals; no overflow or underflow", "why_tests_cant": "every order of additions and every number of ranks gives other rounding errors, amplified by the inverse of the matrix of the modes; a test sees a few of them on well-conditioned modes", "anchors": ["pyspod/spod/utils.py:_oblique_projection", "pyspod/spod/utils.py:compute_coeffs_op", "pyspod/spod/utils.py:compute_reconstruction", "pyspod/spod/utils.py:_compute_rec_op"]}
{"id": "C245", "title": "The blocks of a streaming fit in floating-point arithmetic", "statement": "In a streaming fit of real data in floating-point arithmetic, at every grid point and frequency: as many blocks are handed to the update of the modes as in exact arithmetic, at the same snapshots, and each differs from the windowed Fourier transform of its segment minus the mean of the snapshots read so far by at most 4 X times a bound of about 4 (4 nt + 3 n_dft + 7) u + 2 n_dft u + 2 gamma, where X bounds the data at the point, nt is the number of snapshots, u the unit roundoff and gamma the error of the computed Fourier matrix. The running mean differs from the mean by at most ((1+u)^(4 nt) - 1) X. So errors grow with the number of snapshots read, linearly to first order, not exponentially.", "quantifier": "all streams of real data, block lengths, overlaps, windows with nonnegative values, frequencies, unit roundoffs with (1+u)^n_dft < 2, rounding errors and errors of the Fourier matrix; no overflow or underflow", "why_tests_cant": "the errors accumulate over the whole stream; a test sees one stream of one length", "anchors": ["pyspod/spod/streaming.py:fit"]}
{"id": "C246", "title": "The values of a streaming fit in floating-point arithmetic", "statement": "A streaming fit of real data in floating-point arithmetic, on any number of ranks and with any order of additions: after M updates the stored basis and values give every spatial pattern the energy that the average of the blocks, with the weights (m+2)/((m+3)(M+2)), gives it, up to a sum over the updates of (k+1)^3 times the unit roundoff times the size of the data, of the residual of the singular value decomposition, and of twice the value that the update dropped. The i-th stored value is the square root of the i-th principal energy of the average of the exact blocks up to that error plus the error of the blocks, and up to the factors sqrt(1-theta), sqrt(1+theta), where theta is the loss of orthogonality of the stored basis. So errors add up over the updates and are not amplified, although the normalization of a nearly zero orthogonal part amplifies its direction errors without bound.", "quantifier": "all streams of real data, weights, block lengths, overlaps, windows, frequencies, numbers of stored modes, numbers of ranks, distributed axes, unit roundoffs, orders of the additions, rounding errors and residuals of the decomposition; columns of the computed basis not longer than 2, no overflow or underflow, no division by zero", "why_tests_cant": "each update divides by the norm of a difference that may cancel; a test sees one stream and one order of additions, and cannot exclude that errors of many updates multiply", "anchors": ["pyspod/spod/streaming.py:fit"]}
{"id": "C247", "title": "Convolution coefficients in floating-point arithmetic", "statement": "compute_coeffs_conv over the whole frequency axis in floating-point arithmetic with unit roundoff u, with any order of the additions: every coefficient written to coeffs.npy differs from the coefficient of exact arithmetic (C143) by at most a factor times the amplitude correction, times twice the largest magnitude of the data, times the sum of the window, times the weighted sum of the moduli of the mode over the grid points that are summed (all on one process, those of rank 0 on several ranks). The factor is at most twice (number of snapshots + window length + twice the number of grid points + 9) u plus twice the error of the Fourier transform. In particular the amplitude correction at the ends of the record, a quotient of sums of the window under a root, does not amplify rounding errors.", "quantifier": "all results folders that fit the data, data, positive windows, transform lengths, times, frequencies, modes, numbers of ranks, distributed axes, unit roundoffs below 1, orders of the additions and rounding errors; non-negative weights, at least two frequencies and modes, no overflow or underflow", "why_tests_cant": "a test sees one record and one order of the additions, and has no exact value to compare with", "anchors": ["pyspod/spod/utils.py:compute_coeffs_conv"]}
{"id": "C248", "title": "SPOD with normalize_data in floating-point arithmetic", "statement": "A SPOD fit with normalize_data in floating-point arithmetic with unit roundoff u, with any order of the additions: the square roots of the eigenvalues differ from those of exact arithmetic by a bound proportional to the relative rounding error of the variances plus about three times (number of snapshots + block length + 8) u plus the error of the Fourier transform, times twice the largest magnitude of the data divided by the smallest divisor, times the square root of the total weight; the reported eigenvalues are within the rounding error of the cross-spectral matrix of these. This holds when every variance over a block at a point is away from the threshold 4 eps below which it is replaced by 1 by more than its rounding error. Where a variance is equal to the threshold it is false: one rounding error decides whether the block is divided by the threshold or by 1, and the coefficients change by a factor of about 10^15.", "quantifier": "all accepted data, configurations with normalize_data, non-negative windows, mean types, weights, numbers of ranks, distributed axes, unit roundoffs, orders of the additions and rounding errors, eigensolver errors; no overflow or underflow", "why_tests_cant": "a test sees one data set and one order of the additions, and has no exact value to compare with; data with a variance at the threshold is not found by chance", "anchors": ["pyspod/spod/standard.py:_compute_blocks", "pyspod/spod/standard.py:fit"]}
{"id": "C249", "title": "Error measures in floating-point arithmetic", "statement": "compute_l_errors in floating-point arithmetic with unit roundoff u, with any order of the additions: for fields of n values each of the six measures (for the relative ones: with a reference without zeros) differs from the exact one by at most (1 + u)^(n + 6) - 1 times the exact one, so that all leading digits are right however close the fields are; the result is never negative, and zero exactly for equal fields (except linf_rel, which is signed), and two evaluations with different orders of the additions differ by at most twice that bound. compute_h_errors differs from the exact h1 error by at most u times it plus a multiple of the root of the roundoff times the magnitude of the fields, since the differences between snapshots cancel.", "quantifier": "all real fields of the same non-zero size, references, measures, time steps above 0, numbers and sizes of snapshots, unit roundoffs, orders of the additions and rounding errors; no overflow or underflow", "why_tests_cant": "a test sees one pair of fields and one order of the additions, and has no exact value to compare with", "anchors": ["pyspod/utils/errors.py:compute_l_errors", "pyspod/utils/errors.py:compute_h_errors"]}
{"id": "C250", "title": "A fit does not overflow", "statement": "In a SPOD fit (without normalize_data) of snapshots of magnitude at most X, with non-negative window values and weights of known size, no intermediate value of the computation of the Fourier coefficients (means, partial sums, fluctuations, windowed values, results of the transform, scaling factor) and of the matrices (weighted blocks, products, partial sums, quotients, partial sums of allreduce) exceeds an explicit number that grows with X times the number of snapshots, and with its square times the number of points, on one process and on p ranks, whatever the order of the additions and the rounding errors; so when that number is below the largest floating-point number nothing overflows (double precision: data up to 10^60; single precision: data up to 10^6 for the cases computed). That the data are below the largest number is not enough: the sum of the long-time mean (computed for every mean type) of eight equal snapshots of that magnitude is above it.", "quantifier": "all data, window lengths, overlaps, windows, weights, mean types blockwise, longtime and zero, numbers of ranks, orders of the additions, unit roundoffs u with (1 + u)^n_dft < 2 and rounding errors; values inside the Fourier transform are not covered", "why_tests_cant": "a test tries data of ordinary magnitude; which intermediate result becomes too large first, and at which magnitude, depends on the sizes and on the order of the additions", "anchors": ["pyspod/spod/standard.py:Standard._compute_blocks", "pyspod/spod/standard.py:Standard.fit", "pyspod/spod/base.py:Base.select_mean", "pyspod/spod/base.py:Base.long_t_mean", "pyspod/spod/base.py:Base._initialize"]}
{"id": "C251", "title": "A POD fit does not overflow", "statement": "In a POD fit of snapshots of magnitude at most X no intermediate value of the computation of the fluctuations (sums of the mean, mean, conversions, differences) and of the correlation matrix (weighted fluctuations, products, partial sums, partial sums of allreduce) exceeds an explicit number that grows with X times the number of snapshots and with its square times the number of points, on one process and on p ranks, in any order of the additions; so when that number is below the largest floating-point number nothing overflows before the eigenvalue computation.", "quantifier": "all data, weights, mean types, numbers of ranks, slabs, orders of the additions, unit roundoffs and rounding errors", "why_tests_cant": "a test tries data of ordinary magnitude; which intermediate result becomes too large first depends on the sizes and on the order of the additions", "anchors": ["pyspod/pod/standard.py:Standard.fit", "pyspod/pod/base.py:Base.select_mean", "pyspod/pod/base.py:Base.long_t_mean"]}
{"id": "C252", "title": "The modes of a fit do not overflow", "statement": "In the computation of the modes of a SPOD fit no intermediate value (roots, products and the reciprocal of the factor, scaled eigenvectors, products and partial sums) exceeds an explicit number that depends on the magnitude of the data, the number of blocks, the norm of the eigenvectors and a lower bound of the eigenvalue; in double precision the factor of any positive eigenvalue stays below 10^163, and the modes of data up to 10^60 below the largest number. A positive eigenvalue alone is not enough: whatever the largest number is, there is a positive eigenvalue (below the range of the format) whose factor is above it.", "quantifier": "all data, windows, eigenvalues between two positive bounds, eigenvectors of bounded norm, orders of the additions, unit roundoffs u with (1 + u)^n_dft < 2 and rounding errors; eigenvalues that real_if_close has made real", "why_tests_cant": "a test sees the eigenvalues of a few data sets, none of them near the ends of the range of the format", "anchors": ["pyspod/spod/standard.py:Standard._compute_standard_spod"]}
{"id": "C253", "title": "Integer-valued data give the same POD matrix bit for bit on any number of processes", "statement": "In double precision, for data with integer values (mean_type zero, or longtime with integer means) and integer weights, of limited size (number of snapshots times magnitude, and number of points times four times the squared magnitude times the weight, at most 2^53), the fluctuations and the correlation matrix of a POD fit are exact: every run returns the same bits, on one process and on any number of ranks, split along any axis, in whatever order np.sum, the matrix product and allreduce add. The long-time mean of integers is the exact mean rounded once, whatever the order. Without the limit on the size this is false: 2^53 + 1 - 2^53 is 1 or 2 depending on the order.", "quantifier": "all integer-valued data, integer weights, numbers of snapshots and points within the limits, numbers of ranks, axes and orders of the additions; every rounding that is monotone and exact on numbers of 53 bits; fused multiply-add not modelled", "why_tests_cant": "a test compares two runs of one library on one machine, which mostly use the same order of the additions", "anchors": ["pyspod/pod/standard.py:Standard.fit", "pyspod/pod/base.py:Base.long_t_mean", "pyspod/utils/parallel.py:allreduce"]}
{"id": "C254", "title": "Changing the unit of the data by a power of two changes no digit of a POD fit", "statement": "In floating-point arithmetic without overflow and underflow, multiplying the data by 2^k multiplies every possible mean and fluctuation by exactly 2^k and every possible entry of the correlation matrix by exactly 4^k: no digit changes, on one process and on any number of ranks and in any order of the additions. With underflow this is false: where products below the smallest representable number become zero, the correlation matrix of small enough data is zero, whatever the data are.", "quantifier": "all data, weights, exponents k (of either sign), numbers of ranks, axes and orders of the additions; every rounding that commutes with powers of two (round-to-nearest with 53 bits is proved to), and every rounding that flushes small numbers", "why_tests_cant": "a test tries a few factors and data of ordinary size, where neither rounding nor underflow shows", "anchors": ["pyspod/pod/standard.py:Standard.fit", "pyspod/pod/base.py:Base.long_t_mean", "pyspod/utils/parallel.py:allreduce"]}
{"id": "C255", "title": "The eigenvalues of a POD fit are real", "statement": "The matrix that a POD fit decomposes is symmetric, so its eigenvalues are real and so are the saved modes. In double precision this holds when every weight is a power of two (the default weights are one) and all entries are added with the same procedure. For other weights it is false, even uniform ones and in whatever order the terms are added: the weight multiplies one of the two snapshots before the product is rounded, so entries (i,j) and (j,i) are rounded differently; two snapshots of two points with weights 5 give a matrix without a real eigenvalue, and the fit, which does not ask for a symmetric decomposition, saves complex eigenvalues and modes that are not real.", "quantifier": "all data, weights that are powers of two, numbers of snapshots, points and ranks, axes and orders of the additions; round-to-nearest with 53 bits", "why_tests_cant": "a test with one data set compares the real parts or uses unit weights; the defect depends on the last bits of the data", "anchors": ["pyspod/pod/standard.py:Standard.fit", "pyspod/utils/parallel.py:allreduce"]}
