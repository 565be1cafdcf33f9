#!/usr/bin/env python3
"""Source of /verif/properties.jsonl (python3 tools/props.py > properties.jsonl)."""
import json
P=[]
def p(title, statement, quantifier, why, *anchors):
    P.append(dict(id="C%02d"%(len(P)+1), title=title, statement=statement,
                  quantifier=quantifier, why_tests_cant=why, anchors=list(anchors)))

p("Block distribution is an ordered partition",
  "Dividing N items among `size` ranks gives every item index in [0,N) to exactly one rank; the ranges are contiguous, adjacent in rank order, start at 0 and end at N.",
  "every N >= 0, every number of ranks >= 1, every rank",
  "N and the number of ranks are unbounded; tests run with 1-4 ranks",
  "pyspod/utils/parallel.py:_blockdist")
p("Block distribution is balanced",
  "The shares of any two ranks differ by at most one item, larger shares come first, each share is floor(N/size) or ceil(N/size), and a rank outside the communicator gets nothing.",
  "every N, size >= 1, every pair of ranks",
  "unbounded N and size",
  "pyspod/utils/parallel.py:_blockdist")
p("Distributing an array loses and duplicates nothing",
  "Concatenating, in rank order along the distributed axis, the pieces that distribute / distribute_data / distribute_dimension hand to each rank gives back the original array, element for element; with comm=None the array is returned unchanged.",
  "every array of every rank and shape, every axis, every number of ranks (including more ranks than entries)",
  "arbitrary dimensionality, shapes and rank counts",
  "pyspod/utils/parallel.py:distribute", "pyspod/utils/parallel.py:distribute_data", "pyspod/utils/parallel.py:distribute_dimension")
p("All arrays are split along the same, largest spatial axis",
  "distribute_data picks the first spatial axis of maximal extent, and slicing data, mean and weights with that axis gives local arrays whose spatial index i refers to the same global point on every rank; distribute(weights) agrees with distribute_data(data) when the weights have exactly the spatial shape.",
  "every shape, every number of ranks, every local index",
  "arbitrary shapes with ties, arbitrary rank counts",
  "pyspod/utils/parallel.py:distribute_data", "pyspod/utils/parallel.py:distribute", "pyspod/spod/base.py:initialize")
p("A collectively saved file equals the serial save of the whole array",
  "npy_save on a communicator writes a file whose shape is the local shape with the axis extent summed over ranks and whose content is the concatenation of the local arrays in rank order along the axis; no byte is written by two ranks, so the result does not depend on the order in which ranks write.",
  "every number of ranks, every local extents (also zero), every axis, every dimensionality, every interleaving of the ranks' element writes",
  "write schedules and shapes are unbounded",
  "pyspod/utils/parallel.py:npy_save")
p("Save / load round trip across ranks",
  "npy_load with an explicit per-rank count returns on each rank exactly the slab of the saved array starting at the sum of the previous ranks' counts; if the counts are those used when saving, every rank gets back its own array.",
  "every number of ranks, all count vectors that fit, every axis and shape",
  "unbounded shapes, rank counts, and count vectors",
  "pyspod/utils/parallel.py:npy_load", "pyspod/utils/parallel.py:npy_save")
p("npy_load without count distributes the whole file",
  "npy_load(comm, file, axis) with count=None gives the ranks balanced slabs that together cover the whole file.",
  "every array, axis and number of ranks",
  "needs every extent x rank-count pair",
  "pyspod/utils/parallel.py:npy_load")
p("Reductions do not depend on how the space is split",
  "The cross-block inner-product (Gram) matrix that SPOD and POD form by summing local products over ranks equals the matrix computed serially on the whole data, for any contiguous split of space, hence eigenvalues and mode combinations do not depend on the number of processes (in exact arithmetic).",
  "every number of ranks, every split, every data and weights",
  "needs all rank counts and all data",
  "pyspod/utils/parallel.py:allreduce", "pyspod/spod/standard.py:_compute_standard_spod", "pyspod/pod/standard.py:fit")
p("Parallel variance is the population variance of all the data",
  "pvar returns, on every rank, the count, mean and population variance of the union of all ranks' data, whatever the reduction order and tree used by MPI, provided every rank holds at least one value.",
  "every data, every partition into non-empty parts, every reduction tree",
  "reduction trees and partitions are unbounded",
  "pyspod/utils/parallel.py:pvar")
p("Parallel variance with an idle rank",
  "pvar returns the population variance of the union also when some rank holds no data (more ranks than grid points along the split axis).",
  "every data, every partition possibly with empty parts",
  "depends on the rank count exceeding an extent",
  "pyspod/utils/parallel.py:pvar", "pyspod/utils/weights.py:apply_normalization")
p("Snapshots read from several files are the concatenation of the files",
  "Fitting on a list of datasets loaded in one stage sees exactly the time-concatenation of the datasets, restricted on each rank to its slab of the largest spatial axis; every snapshot appears once and in order.",
  "every list of datasets, every file lengths, every number of ranks",
  "unbounded numbers of files and lengths",
  "pyspod/utils/reader.py:reader_1stage")
p("Reading one snapshot at a time from several files",
  "reader_1stage.get_data(ts) returns global snapshot ts for every ts below the total length, whatever files it spans.",
  "every list of datasets, every ts",
  "every file layout x every time index",
  "pyspod/utils/reader.py:reader_1stage.get_data", "pyspod/spod/streaming.py:_get_next_snapshot")
p("Complex input stays complex",
  "Reading complex-valued data through the one-stage reader preserves real and imaginary parts.",
  "every complex dataset",
  "all values",
  "pyspod/utils/reader.py:reader_1stage.get_data", "pyspod/utils/reader.py:reader_1stage.is_real")
p("Two-stage reading partitions time exactly",
  "The pieces returned by the two-stage reader (chunk by chunk, block by block, in dictionary order) cover every snapshot index in [0,nt) exactly once and in increasing order, and inside a chunk every file contributes exactly the snapshots the reader rank was assigned.",
  "every list of file lengths, every number of blocks/readers/ranks",
  "unbounded numbers of files, readers and ranks",
  "pyspod/utils/reader.py:reader_2stage")
p("Two-stage reading redistributes time slabs to space slabs correctly",
  "After the two-stage read, every rank holds, for every snapshot, exactly its own spatial slab: the value at (t, x) equals the value in the file, regardless of which reader rank read snapshot t and how many reader ranks there are.",
  "every number of ranks, every number of readers, every interval of snapshots and every spatial shape; distinct file names, strictly increasing time labels in each file, and the exchange without padding (with padding the read raises, see C89)",
  "all-to-all layouts over unbounded rank counts",
  "pyspod/utils/reader.py:reader_2stage.get_data_for_time_interval")
p("The order in which .mat files are listed does not matter",
  "The MAT reader produces the same snapshot sequence for every permutation of the file list, and the sequence is the concatenation in file-name order.",
  "every list of distinct file names, every permutation",
  "all permutations of lists of any length",
  "pyspod/utils/reader.py:reader_mat")
p("Number, position and bounds of SPOD blocks",
  "With n_DFT snapshots per block and n_overlap shared, a fit uses floor((nt - n_overlap)/(n_DFT - n_overlap)) blocks; block i covers snapshots [i(n_DFT-n_overlap), i(n_DFT-n_overlap)+n_DFT); all blocks lie inside [0,nt), consecutive blocks share exactly n_overlap snapshots, one more block would not fit, and fewer than n_DFT-n_overlap trailing snapshots are unused.",
  "every nt, n_DFT, n_overlap < n_DFT",
  "unbounded sizes; off-by-one at every boundary",
  "pyspod/spod/base.py:_initialize", "pyspod/spod/standard.py:_compute_blocks")
p("The overlap percentage becomes a valid block overlap",
  "For an overlap percentage in [0,100) the number of overlapping snapshots is ceil(n_DFT*overlap/100), and a fit is rejected exactly when it exceeds n_DFT-1, so that every accepted configuration makes progress from block to block.",
  "every n_DFT >= 1, every rational overlap in [0,100)",
  "infinitely many parameter pairs",
  "pyspod/spod/base.py:__init__", "pyspod/spod/base.py:_initialize")
p("Every block is cut from the right snapshots even if data come in pieces",
  "Extracting a block from the dictionary of read time-pieces returns exactly the snapshots [start,end), for every sequence of non-decreasing block starts, although pieces are deleted once they lie entirely before the current block.",
  "every tiling of [0,nt) into pieces, every non-decreasing sequence of block ranges",
  "histories of deletions over arbitrary tilings",
  "pyspod/spod/standard.py:_get_block")
p("The long-time mean is the arithmetic mean over time",
  "The mean stored and subtracted under mean_type='longtime' equals (1/nt) * sum of all snapshots, whatever the number of chunks used in the computation and whether data are held in one array or in pieces.",
  "every data, every nt, every number of blocks/chunks >= 1",
  "all chunk counts x lengths (the remainder chunk)",
  "pyspod/spod/base.py:long_t_mean", "pyspod/pod/base.py:long_t_mean")
p("The chosen mean type decides what is subtracted",
  "'longtime' subtracts the long-time mean, 'zero' subtracts nothing, 'blockwise' subtracts each block's own mean; any other name is rejected before any block is transformed.",
  "every string, every data",
  "all strings and all data",
  "pyspod/spod/base.py:select_mean", "pyspod/spod/standard.py:_compute_blocks")
p("Frequency axis of a one-sided (real-data) spectrum",
  "For real data the frequency axis has floor(n_DFT/2)+1 entries, entry k is k/(n_DFT*dt), it is strictly increasing from 0 and every entry is at most the Nyquist frequency 1/(2 dt).",
  "every n_DFT >= 1, every dt > 0",
  "every parity and size",
  "pyspod/spod/base.py:get_freq_axis")
p("Frequency axis of a two-sided (complex-data) spectrum",
  "For complex data the n_DFT frequencies label DFT bin k with an alias of k/(n_DFT*dt) inside the Nyquist band [-1/(2dt), 1/(2dt)].",
  "every n_DFT >= 1, every dt > 0",
  "every parity and size",
  "pyspod/spod/base.py:get_freq_axis")
p("One-sided spectra account for the negative frequencies",
  "For real data, the factor applied to the eigenvalues of each stored frequency equals the number of two-sided DFT bins it represents (1 for zero frequency and for Nyquist of an even transform, 2 otherwise), so that summing over stored frequencies gives the total two-sided energy.",
  "every n_DFT, real data, one-sided or full spectrum",
  "every parity, every size, every data",
  "pyspod/spod/standard.py:fit")
p("The cross-spectral matrix is Hermitian positive semidefinite",
  "For non-negative weights the matrix whose eigenvalues are reported is Hermitian and positive semidefinite, so the exact eigenvalues are real and non-negative.",
  "every Fourier-block data, every non-negative weights, every block count",
  "all complex data",
  "pyspod/spod/standard.py:_compute_standard_spod")
p("Eigenvalues are reported in decreasing order, each with its own mode",
  "At every frequency the reported modal energies are non-increasing and the k-th saved mode is built from an eigenvector of the k-th reported eigenvalue.",
  "every matrix and every output order of the eigen-solver",
  "all spectra including ties",
  "pyspod/spod/standard.py:_compute_standard_spod")
p("SPOD modes are orthonormal in the weighted inner product",
  "At each frequency, modes belonging to positive eigenvalues satisfy <phi_i, phi_j>_W = delta_ij whenever the eigen-solver returned orthonormal eigenvectors (automatic for distinct eigenvalues).",
  "every data, every non-negative weights",
  "all data",
  "pyspod/spod/standard.py:_compute_standard_spod", "pyspod/spod/utils.py:check_orthogonality")
p("Total modal energy equals block-averaged energy",
  "At each frequency the sum of all eigenvalues is the mean over blocks of the weighted energy of the Fourier block, and the modes-and-eigenvalues expansion reproduces the cross-spectral density.",
  "every data, weights and block count",
  "all data",
  "pyspod/spod/standard.py:_compute_standard_spod")
p("Confidence bounds bracket the eigenvalues",
  "The reported lower confidence bound is at most the reported upper one.",
  "every confidence level in (0,1), every block count, every non-negative eigenvalue",
  "all levels",
  "pyspod/spod/base.py:compute_confidence", "pyspod/spod/base.py:_store_and_save", "pyspod/spod/standard.py:_compute_standard_spod")
p("Parallel mode output writes each (frequency, mode) exactly once",
  "When modes are written one file per mode, every (frequency, mode) pair is written by exactly one rank, in every fit, and in each pass a rank collects at most one mode.",
  "every number of frequencies, modes and ranks",
  "unbounded counts, last incomplete pass",
  "pyspod/spod/standard.py:_compute_standard_spod (savefreq_disk2)")
p("Parallel mode output gathers the full spatial mode",
  "The file written for (frequency, mode) holds, at each spatial point, the value computed on the rank owning that point.",
  "every number of ranks, every split of space, every data",
  "unbounded ranks and splits",
  "pyspod/spod/standard.py:_compute_standard_spod (savefreq_disk2)")
p("Parallel mode output never deadlocks",
  "In every interleaving of the ranks' sends, receives and barriers during the per-mode output, some rank can always take a step until all ranks are done, and each receive is matched with the send of the same pass.",
  "every number of ranks and passes, every schedule",
  "all schedules",
  "pyspod/spod/standard.py:_compute_standard_spod (savefreq_disk2)")
p("Cached Fourier blocks are used only when complete",
  "With reuse_blocks, cached blocks are used if and only if every file for each (block, frequency) of this configuration exists; otherwise blocks are recomputed.",
  "every set of existing files, every n_blocks and n_freq",
  "all subsets of files",
  "pyspod/spod/base.py:_are_blocks_present", "pyspod/spod/standard.py:fit")
p("Reloading cached Fourier blocks reproduces them",
  "After a fit with savefft, a second fit with reuse_blocks on the same data starts from exactly the same Fourier blocks as the first one, serially and in parallel.",
  "every data, shape, number of variables and ranks",
  "all shapes and rank counts",
  "pyspod/spod/standard.py:fit", "pyspod/spod/base.py:_compute_blocks")
p("A crash while writing cached blocks cannot corrupt a later fit",
  "If a fit is interrupted at any point while saving Fourier blocks, a later fit with reuse_blocks still works from correct blocks.",
  "every crash point, every data history",
  "all crash points",
  "pyspod/spod/base.py:_are_blocks_present", "pyspod/spod/standard.py:_compute_blocks")
p("Reading back modes returns what the last fit computed",
  "get_modes_at_freq(f) after any sequence of fits into the same folder returns the modes the most recent fit computed for frequency f.",
  "every sequence of fits with any output options, n_modes_save and n_freq",
  "all histories",
  "pyspod/utils/postproc.py:get_modes_at_freq", "pyspod/spod/base.py:get_modes_at_freq")
p("Mode file names are unambiguous and ordered",
  "Different frequencies (and modes, and blocks) have different file names, and for indices below 10^8 the lexicographic order of names is the numeric order of indices.",
  "all frequency and mode indices",
  "unbounded indices",
  "pyspod/spod/standard.py:_compute_standard_spod", "pyspod/utils/postproc.py:get_all_modes_from_path")
p("Streaming processes the same blocks as the standard algorithm",
  "Streaming SPOD transforms the same sequence of blocks (same starts, n_DFT long, sharing n_overlap snapshots) as standard SPOD on the same data.",
  "every nt, n_DFT, overlap",
  "all sizes, long histories of a state machine",
  "pyspod/spod/streaming.py:fit")
p("Streaming block buffers stay within bounds",
  "At every time step every slot's time index stays below n_DFT, at most one block completes per snapshot, and the block completing is the slot with the earliest start.",
  "every n_DFT, overlap, every number of snapshots",
  "all history lengths",
  "pyspod/spod/streaming.py:fit")
p("Streaming running mean",
  "After reading any number of snapshots the streaming mean equals the arithmetic mean of all snapshots read so far.",
  "every data, every length",
  "all lengths and data",
  "pyspod/spod/streaming.py:fit")
p("Streaming Fourier sums are the DFT of the mean-removed block",
  "When a block completes, the accumulated Fourier coefficients equal the windowed DFT of the block's snapshots minus the running mean times the window's DFT.",
  "every data, window, n_DFT, frequency",
  "all data",
  "pyspod/spod/streaming.py:fit")
p("The streaming update keeps a rank-k factorisation of a weighted block average",
  "Each streaming update replaces U S^2 U* by an exactly characterised convex-like combination of the old U S^2 U* and the new block's outer product (before truncation), and after c blocks the weights of all blocks are given by a closed form.",
  "every data, every number of blocks; every new block outside the span of the earlier ones (otherwise the code divides by zero, see C184)",
  "all histories of updates",
  "pyspod/spod/streaming.py:fit")
p("A longer history of fits does not change what a fit saves",
  "Each fit saves min(requested n_modes_save, number of blocks of this fit) modes, whatever fits the object performed before.",
  "every sequence of fits on one object",
  "all histories",
  "pyspod/spod/base.py:_initialize", "pyspod/spod/base.py:__init__")
p("Fitting does not alter the caller's weights",
  "Fitting twice with the same data and the same weights argument gives the same normalized weights both times; the caller's array is unchanged.",
  "every data and weights, both normalization options, every number of refits",
  "all histories of fits",
  "pyspod/spod/base.py:define_weights", "pyspod/utils/weights.py:apply_normalization")
p("Variance normalization is the same serially and in parallel",
  "apply_normalization divides each variable's weights by that variable's population variance, with the same result on one process and on many.",
  "every data, number of variables and ranks",
  "all splits",
  "pyspod/utils/weights.py:apply_normalization")
p("Selecting a period band selects exactly the frequencies in the band",
  "compute_coeffs_op(T_lb, T_ub) uses the contiguous range of frequency indices between the frequencies nearest to 1/T_ub and 1/T_lb; the range is never empty or reversed for T_lb <= T_ub; with neither given all frequencies are used.",
  "every frequency axis, every 0 < T_lb <= T_ub",
  "all bands and axes",
  "pyspod/spod/utils.py:compute_coeffs_op", "pyspod/utils/postproc.py:find_nearest_freq")
p("Oblique projection recovers data in the span of the modes",
  "If the mean-removed data are a linear combination of the modes and the modes are linearly independent, the computed coefficients are exactly those of the combination, and reconstruction with all of them returns the data; with truncated singular values the reconstruct-project map is still idempotent.",
  "every modes matrix, every data, every tolerance",
  "all matrices",
  "pyspod/spod/utils.py:_oblique_projection", "pyspod/spod/utils.py:compute_reconstruction")
p("Projecting in parallel equals projecting serially",
  "Coefficients computed from spatially distributed modes, data and weights (local products summed over ranks) equal the serially computed coefficients.",
  "every number of ranks, every split",
  "all splits",
  "pyspod/spod/utils.py:_oblique_projection", "pyspod/spod/utils.py:_compute_l2_norm")
p("Mode matrix columns are addressed by (frequency, mode)",
  "Column f*n_modes+m of the matrix used for projection and reconstruction is mode m of the f-th selected frequency, and no two (f,m) share a column.",
  "every number of frequencies and modes",
  "all sizes",
  "pyspod/spod/utils.py:_get_modes")
p("Requested reconstruction times are valid and in order",
  "Named time selections ('all','half','quarter','tenth','hundredth') select increasing valid snapshot indices starting from 0; an integer list is used as given; other values are rejected; the default selection is valid.",
  "every nt >= 1, every selection",
  "all nt",
  "pyspod/spod/utils.py:compute_reconstruction")
p("Time-varying (convolutional) coefficients look at full windows",
  "Every window of the convolutional coefficients has n_DFT snapshots inside the zero-padded series and window i is centred on snapshot i.",
  "every nt, n_DFT",
  "all parities and sizes",
  "pyspod/spod/utils.py:compute_coeffs_conv")
p("POD modes are orthonormal and reproduce the data",
  "With unit weights POD modes belonging to positive eigenvalues are orthonormal, and with all such modes kept, mean + modes*coefficients returns the input data.",
  "every data",
  "all data",
  "pyspod/pod/standard.py:fit", "pyspod/pod/utils.py")
p("POD keeps the most energetic modes",
  "The n_modes_save modes that POD keeps are those with the largest eigenvalues.",
  "every data, every output order of the eigen-solver",
  "all spectra",
  "pyspod/pod/standard.py:fit")
p("Scaling and de-scaling coefficients round-trips",
  "Emulation.descale(scaler(data, vec), vec) returns data for the scaling vector computed from the data, and the scaled training data lie in the advertised range.",
  "every data, every scaling option",
  "all data incl. zero rows",
  "pyspod/emulation/base.py:scaler", "pyspod/emulation/base.py:descale", "pyspod/emulation/base.py:compute_normalization_vector")
p("Training sequences are aligned windows of the data",
  "Training pair k consists of snapshots [k,k+n_in) as input and [k+n_in,k+n_in+n_out) as target, always inside the data, and every such window is used.",
  "every nt, n_in, n_out",
  "all sizes",
  "pyspod/emulation/neural_nets.py:extract_sequences")
p("Emulator inference fills the whole horizon",
  "Model inference copies the first n_in columns of the input and predicts each later column exactly once from the preceding n_in columns (predicted or given).",
  "every nt, n_in, n_out, every model",
  "all sizes and all models",
  "pyspod/emulation/neural_nets.py:model_inference")
p("Geographic trapezoidal weights integrate over the sphere",
  "geo_trapz weights are non-negative and their total is R^2 times the area of the sphere covered by the grid.",
  "every regular longitude-latitude grid",
  "all grids",
  "pyspod/utils/weights.py:geo_trapz_2D", "pyspod/utils/weights.py:geo_trapz_3D")
p("Error measures are norms",
  "compute_l_errors (absolute) and compute_h_errors are non-negative, zero exactly when the two fields agree (for h1: when the difference field vanishes), and symmetric; relative errors are non-negative.",
  "every pair of fields",
  "all fields",
  "pyspod/utils/errors.py:compute_l_errors", "pyspod/utils/errors.py:compute_h_errors")
p("Configuration files: every recognised key ends in the parameters",
  "read_config returns the union of required and optional parameters, optional entries overriding required ones, and rejects a file lacking a required parameter.",
  "every configuration file content",
  "all contents",
  "pyspod/utils/io.py:read_config")
p("Nearest-frequency lookup",
  "find_nearest_freq returns the entry of the frequency list closest to the request, the earliest such entry on ties, and its index; larger requests never give a smaller index on a sorted axis.",
  "every non-empty frequency list, every request",
  "all lists",
  "pyspod/utils/postproc.py:find_nearest_freq")
p("Nearest-coordinate lookup",
  "find_nearest_coords returns, for each requested coordinate, the nearest grid value along that axis and its grid index.",
  "every grid in 1-3 dimensions, every request",
  "all grids",
  "pyspod/utils/postproc.py:find_nearest_coords")
p("Energy spectrum reports signal energy at each frequency",
  "compute_energy_spectrum is zero only for signals with no content at that frequency.",
  "every signal",
  "all signals",
  "pyspod/utils/postproc.py:compute_energy_spectrum")
p("Orthogonality check detects non-orthogonal modes",
  "check_orthogonality returns true only if the weighted inner product of the two modes is small.",
  "every pair of modes, every weights, every tolerance",
  "all complex vectors",
  "pyspod/spod/utils.py:check_orthogonality")
p("Processor grid factorisation",
  "create_subcomm factors the number of ranks into a two-dimensional grid whose product is the number of ranks; every rank belongs to exactly one row group and all groups have equal size, a multiple of the chosen divisor.",
  "every number of ranks >= 1",
  "all rank counts",
  "pyspod/utils/parallel.py:create_subcomm")
p("All modes read back belong to the last fit",
  "get_all_modes returns, frequency by frequency in increasing order, exactly the modes of the most recent fit into the folder.",
  "every sequence of fits into the folder",
  "all histories",
  "pyspod/utils/postproc.py:get_all_modes")
p("Streaming and standard energies agree",
  "The energies reported by a streaming fit estimate the same spectrum as the standard fit: each of c blocks contributes its energy with weight 1/c.",
  "every data, every number of blocks",
  "all streams",
  "pyspod/spod/streaming.py:fit")
p("Streaming accepts any number of saved modes",
  "A streaming fit works for every n_modes_save from 1 to the number of blocks.",
  "every n_modes_save",
  "all mode counts",
  "pyspod/spod/streaming.py:fit")
p("A rank may own any positive number of values",
  "The standard fit works for every grid and every distribution that leaves at least one value on each rank.",
  "every grid, number of ranks",
  "all distributions",
  "pyspod/spod/standard.py:_compute_standard_spod")
p("Streaming stores the mean of the data",
  "After a streaming fit the stored long-time mean is the arithmetic mean of all snapshots, as after a standard fit.",
  "every stream",
  "all streams",
  "pyspod/spod/base.py:_initialize, long_t_mean")
p("Streaming consumes the whole stream and stops",
  "A streaming fit reads every snapshot of every dataset exactly once, in order, and terminates after the last one.",
  "every list of datasets or files, every number of ranks",
  "termination and all layouts",
  "pyspod/spod/streaming.py:fit, pyspod/utils/reader.py")
p("Data normalisation yields unit variance",
  "With normalize_data each grid point of each block has unit sample variance before windowing, unless it is (nearly) constant, in which case it is left unchanged.",
  "every block of data",
  "all data",
  "pyspod/spod/standard.py:_compute_blocks")
p("Selecting frequencies by index alone",
  "compute_coeffs_op and compute_coeffs_conv accept freq_idx without a period band and then use exactly those frequencies, whatever their number.",
  "every list of valid frequency indices",
  "all lists",
  "pyspod/spod/utils.py:compute_coeffs_op", "pyspod/spod/utils.py:compute_coeffs_conv")
p("Convolution coefficients do not depend on the number of ranks",
  "The convolution coefficients written to coeffs.npy are the same for every number of MPI ranks.",
  "every number of ranks, every data",
  "all splits of the grid",
  "pyspod/spod/utils.py:compute_coeffs_conv")
p("Amplitude correction of padded windows",
  "The amplitude correction applied to a window that overlaps the zero padding uses exactly the samples of the window that lie over data.",
  "every nt, n_DFT, every snapshot",
  "all boundary positions and parities",
  "pyspod/spod/utils.py:compute_coeffs_conv")
p("Convolution coefficients on a frequency band",
  "compute_coeffs_conv works for every period band and every number of saved modes, on any grid.",
  "every band, number of frequencies, grid points and modes",
  "all sizes",
  "pyspod/spod/utils.py:compute_coeffs_conv")
p("Modes saved with the convolution coefficients",
  "modes_r.npy written by compute_coeffs_conv holds at [x,f,m] the value at grid point x of mode m of frequency f.",
  "every grid, number of frequencies and modes",
  "all sizes",
  "pyspod/spod/utils.py:compute_coeffs_conv")
p("POD accepts the documented data layouts",
  "POD fit accepts data of shape (time, space..., variables) for any number of variables, and single-variable data with or without the variable axis; the number of snapshots is the sum over the datasets.",
  "every number of variables, every shape, every list of datasets",
  "all shapes",
  "pyspod/pod/base.py:_initialize")
p("POD works for every number of requested modes",
  "POD fit works for every n_modes_save, keeping at most as many modes as there are snapshots, and without n_modes_save keeps all.",
  "every n_modes_save including the default",
  "all counts",
  "pyspod/pod/base.py:__init__", "pyspod/pod/standard.py:fit")
p("POD uses all of the data",
  "POD decomposes the concatenation of all datasets, in order, without loss, for real and complex data.",
  "every list of datasets",
  "all data",
  "pyspod/pod/base.py:_initialize")
p("POD reconstruction with weights",
  "With any positive weights, keeping all modes of positive energy, mean + modes*coefficients returns the input data.",
  "every weights, every data",
  "all weights",
  "pyspod/pod/utils.py:compute_coeffs_op", "pyspod/pod/utils.py:compute_reconstruction")
p("POD does not depend on the number of ranks",
  "The correlation matrix decomposed by POD and the coefficients computed by projection are the same for every number of ranks.",
  "every number of ranks and every distributed axis",
  "all splits",
  "pyspod/pod/standard.py:fit", "pyspod/pod/utils.py:compute_coeffs_op")
p("A whole parallel fit leaves what a serial fit leaves",
  "For array data and for NetCDF files, a standard SPOD fit on p ranks succeeds whenever the serial fit of the concatenated snapshots does, and the eigenvalues, every mode file, the weights file and the mean file are identical to the serial ones, whatever the order of file writes and message arrivals, provided no rank is left with a single value (see C68).",
  "every data set, accepted configuration, number of ranks and readers, partition into pieces, arrival and write order",
  "interleavings and sizes unbounded; composition of all steps",
  "pyspod/spod/standard.py:fit", "pyspod/spod/base.py:_initialize", "pyspod/reader.py", "pyspod/utils/parallel.py:npy_save")
p("The files of a fit contain the SPOD of the input",
  "After a standard fit (serial or parallel), for every stored frequency the eigenvalues are non-negative and decreasing, each stored mode with non-zero eigenvalue satisfies the weighted eigenvalue equation of the cross-spectral density estimated from the windowed blocks of the input snapshots with that eigenvalue (times the one-sided factor), the weights file holds the weights and the mean file the time mean.",
  "every data set, accepted configuration, non-negative weights, number of ranks, write order and every correct eigen-solver",
  "all inputs; end-to-end over all steps",
  "pyspod/spod/standard.py:fit", "pyspod/spod/standard.py:_compute_standard_spod", "pyspod/spod/standard.py:_store_and_save")
p("Weights reach their grid points",
  "User weights multiply exactly the grid point and variable they are given for, serially and on every rank, and weights whose shape differs from the data's are rejected.",
  "every grid, number of variables, weight array, number of ranks and distributed axis",
  "all shapes and splits",
  "pyspod/spod/base.py:define_weights", "pyspod/spod/base.py:_initialize", "pyspod/spod/base.py:_set_parallel")
p("Window and gain correction reproduce amplitudes",
  "For every block length a fit accepts, the window is symmetric, bounded by 0.08 and 1, has positive mean, and a harmonic A*exp(2 pi i k t/n) at a resolved frequency is reported with amplitude A.",
  "every block length, amplitude and bin",
  "all block lengths and amplitudes",
  "pyspod/spod/utils.py:_hamming_window", "pyspod/spod/base.py:_initialize")
p("Real and complex data are told apart",
  "Data are treated as real exactly when no value has an imaginary part.",
  "every list of datasets",
  "all values at all positions",
  "pyspod/utils/reader.py:reader_1stage.__init__")
p("A results folder identifies the fit",
  "Two fits that differ in a setting that changes their results are stored in different folders.",
  "every pair of settings",
  "all pairs of settings",
  "pyspod/spod/base.py:_initialize")
p("Options are accepted or rejected consistently",
  "Every supported kind of input works with the default output options, incompatible output options are rejected, and an unknown precision is rejected.",
  "every combination of options, kinds of input, with and without a communicator",
  "all combinations",
  "pyspod/spod/base.py:__init__", "pyspod/spod/base.py:_initialize", "pyspod/utils/reader.py:reader_2stage.__init__")
p("A fit of NetCDF files equals the fit of the same data as arrays",
  "For every set of NetCDF files, every grid, number of variables and ranks, arrival order of messages and order of file writes, a fit of the files succeeds and leaves the eigenvalues, modes, weights and mean of the serial fit of the same snapshots given as arrays.",
  "every set of files, grid, settings, number of ranks and schedule",
  "all data sizes, rank counts and message orders",
  "pyspod/utils/reader.py:reader_2stage", "pyspod/spod/standard.py:Standard.fit", "pyspod/spod/standard.py:_compute_standard_spod")
p("Large data are read with every MPI version",
  "An exchange of more than 2^31-1 values between ranks works with MPI libraries before version 4 too (the reader has a branch for it).",
  "every size of the data, number of ranks and MPI version",
  "needs terabytes of data on many ranks",
  "pyspod/utils/reader.py:reader_2stage.get_data_for_time", "pyspod/utils/reader.py:reader_mat.get_data_for_time")
p("A fit of MATLAB files equals the fit of the same data as arrays",
  "For every list of .mat files (one snapshot each) in any order, a fit succeeds and leaves the results of the serial fit of the snapshots in name order, entry [v,i,j,k] of a file being value v at point (i,j,k); files with non-finite values or another shape are rejected.",
  "every list of files, grid, settings, number of ranks and schedule",
  "all data sizes, rank counts and message orders",
  "pyspod/utils/reader.py:reader_mat", "pyspod/spod/standard.py:Standard.fit")
p("Ranks never wait for each other in vain during a fit",
  "In a fit where no rank raises, every rank issues the same sequence of collective calls, and from every reachable state some rank can go on until all have finished, for every MPI implementation that lets a call return once all ranks have reached it.",
  "every number of ranks, kind of input, output option, number of blocks, frequencies and datasets, every schedule and every MPI implementation",
  "all interleavings of all ranks under all implementations of the collectives",
  "pyspod/spod/standard.py:Standard.fit", "pyspod/spod/base.py:_initialize", "pyspod/utils/reader.py", "pyspod/utils/parallel.py")
p("An error on one rank ends the run on every rank",
  "When one rank raises during a fit, no other rank is left waiting for it for ever.",
  "every number of ranks, rank that fails, point of failure, schedule and MPI implementation",
  "all failure points under all schedules",
  "pyspod/spod/standard.py:Standard.fit", "pyspod/utils/reader.py:reader_2stage", "pyspod/utils/reader.py:reader_mat")
p("All ranks agree on whether stored blocks are reused",
  "With reuse_blocks, every rank looks for the block files by itself; all ranks take the same decision, the one the files present at the start imply, and no block file is created while a rank is still looking.",
  "every number of ranks and block files, every set of files present, every schedule and MPI implementation",
  "a race between looking and writing shows up in few schedules",
  "pyspod/spod/standard.py:Standard.fit", "pyspod/spod/utils.py:_are_blocks_present", "pyspod/spod/standard.py:_compute_blocks")
p("File accesses of different ranks never race",
  "In any sequence of parallel operations (fits of all kinds, projections, reconstructions, orthogonality checks) two accesses of different ranks to the same file or folder, at least one a change, are separated by a barrier that every rank passes in between; no rank waits for ever, and every complete run performs every access.",
  "every number of ranks, sequence of operations with all their options, schedule and MPI implementation",
  "races show up in few schedules, on few file systems",
  "pyspod/spod/standard.py:Standard.fit", "pyspod/spod/streaming.py:Streaming.fit", "pyspod/spod/utils.py:compute_coeffs_op", "pyspod/spod/utils.py:compute_reconstruction", "pyspod/pod/utils.py", "pyspod/utils/parallel.py:npy_save")
p("A parameter file that every rank writes at the same time is intact",
  "params_coeffs.yaml and the other files that every rank opens for writing and fills with the same text hold exactly this text once all ranks have written it, for every interleaving and every splitting into pieces; and not before.",
  "every number of ranks, content, old content of the file, buffering and schedule",
  "all interleavings of truncations and partial writes",
  "pyspod/spod/utils.py:compute_coeffs_op", "pyspod/pod/utils.py:compute_coeffs_op")
p("A whole parallel streaming fit leaves what a serial one leaves",
  "A streaming fit of an array on any number of ranks, none of which is left with a single value, succeeds and leaves exactly the mode files, eigenvalues and frequencies of the serial streaming fit of the same array.",
  "every array, weights, accepted configuration that keeps at least two modes, number of ranks, order of element writes and deterministic SVD routine",
  "all data sizes, rank counts and message orders",
  "pyspod/spod/streaming.py:Streaming.fit", "pyspod/utils/parallel.py:npy_save", "pyspod/utils/parallel.py:pvar", "pyspod/utils/reader.py:reader_1stage")
p("The files of a streaming fit contain the streaming SPOD of the input",
  "A streaming fit reads exactly the blocks that fit into the data; at every frequency with linearly independent blocks the stored modes are orthonormal in the weighted inner product (and zero where the stored value is zero), and when no more blocks are read than modes kept, modes and values recombine to the recursively weighted sum of the outer products of the Fourier-transformed blocks.",
  "every array, positive weights, accepted configuration and SVD routine that meets its contract",
  "real-valued inputs of any size; holds only up to rounding in any test",
  "pyspod/spod/streaming.py:Streaming.fit")
p("A whole parallel projection leaves what a serial one leaves",
  "compute_coeffs_op on any number of ranks, for a results folder that fits the data and a selection of frequencies as long as the band, succeeds and leaves the files of the serial run: coeffs.npy holds the oblique projection of the fluctuations on the stored modes (frequency by frequency, mode by mode), modes_r.npy these modes, ltm.npy the time mean.",
  "every results folder, data, frequency selection, tolerance, number of ranks, order of element writes and deterministic SVD routine",
  "all data sizes, rank counts and message orders",
  "pyspod/spod/utils.py:compute_coeffs_op", "pyspod/spod/utils.py:_oblique_projection", "pyspod/spod/utils.py:_get_modes")
p("A reconstruction is the mean plus modes times coefficients at the requested times",
  "compute_reconstruction with two-dimensional coefficients (from the file or given) writes, on any number of ranks, one snapshot per requested time, in order: the mean plus the modes times the coefficients at that time, negative times counting from the end.",
  "every coefficients folder, coefficients, non-empty list of times, number of ranks and order of element writes",
  "all data sizes, rank counts and message orders",
  "pyspod/spod/utils.py:compute_reconstruction", "pyspod/spod/utils.py:_compute_rec_op")
p("A reconstruction from convolution coefficients sums over frequencies and modes",
  "compute_reconstruction with three-dimensional coefficients [frequency, time, mode] and modes [space, frequency, mode] pairs every coefficient with its own frequency and mode, on any number of ranks.",
  "every coefficients folder, coefficients, non-empty list of times, number of ranks and order of element writes",
  "an index permutation error is invisible when extents coincide; all sizes and rank counts",
  "pyspod/spod/utils.py:compute_reconstruction", "pyspod/spod/utils.py:_compute_rec_conv")
p("A reconstruction that works serially works in parallel",
  "Whenever compute_reconstruction succeeds on one process it succeeds on every communicator.",
  "every coefficients folder, list of times and number of ranks",
  "all inputs and rank counts",
  "pyspod/spod/utils.py:compute_reconstruction")
p("Projection followed by reconstruction gives the data back",
  "If the fluctuations are combinations of the selected stored modes, the modes are independent, the weights positive and the tolerance zero (or below every singular value), compute_coeffs_op on any number of ranks stores the combination and compute_reconstruction(time_idx='all') on any other number of ranks writes the data.",
  "every results folder, data, number of ranks of both steps, order of element writes and SVD routine meeting its contract",
  "real-valued inputs of any size; holds only up to rounding in any test",
  "pyspod/spod/utils.py:compute_coeffs_op", "pyspod/spod/utils.py:compute_reconstruction")
p("Fit, projection and reconstruction may each use their own number of ranks",
  "A standard fit on any number of ranks (none with exactly one value), followed by compute_coeffs_op on any other number and compute_reconstruction on a third, leaves the same files as the three steps on one process.",
  "every data set, weights, accepted configuration, selection of frequencies, new data, times, three numbers of ranks and orders of element writes",
  "all inputs, rank counts and message orders of a three-step history",
  "pyspod/spod/standard.py:Standard.fit", "pyspod/spod/utils.py:compute_coeffs_op", "pyspod/spod/utils.py:compute_reconstruction")
p("The reconstruction of real data is real",
  "For real data, compute_coeffs_op followed by compute_reconstruction writes values without imaginary part.",
  "every results folder, real data, numbers of ranks",
  "over all real inputs; modes of one-sided spectra have no conjugate partner",
  "pyspod/spod/utils.py:compute_coeffs_op", "pyspod/spod/utils.py:compute_reconstruction")
p("New data can be projected in parallel on the modes of a fit of files",
  "compute_coeffs_op, with the results folder of a fit whose modes and weights were stored with a flattened grid (NetCDF, MATLAB input) and single-variable snapshots on that grid, gives on every number of ranks the projection it gives on one process.",
  "every grid, folder, data and number of ranks",
  "all grids and rank counts",
  "pyspod/spod/utils.py:compute_coeffs_op", "pyspod/spod/utils.py:_get_modes", "pyspod/utils/parallel.py:distribute_dimension", "pyspod/spod/standard.py:Standard.fit")
p("The projection does not depend on the linear algebra library nor on the option svd",
  "Any two SVD routines that return a singular value decomposition lead compute_coeffs_op to the same outcome and files, whatever signs, phases and bases of repeated singular values they choose and for every tolerance; the option svd does not change the stored coefficients.",
  "every results folder, data, tolerance, number of ranks and pair of SVD routines meeting their contract",
  "over all LAPACK implementations; repeated singular values leave a continuum of choices",
  "pyspod/spod/utils.py:_oblique_projection", "pyspod/spod/utils.py:compute_coeffs_op")
p("The files of a POD fit do not depend on the number of ranks",
  "POD fit of a list of datasets of one variable, given on a grid without variable axis, with any weights of the data's shape and any number of modes from one to the number of snapshots, succeeds on every number of ranks (also more ranks than grid points) and leaves modes.npy, weights.npy and eigs.npz of the concatenated data on one process.",
  "every list of non-empty datasets, grid, weights, number of modes, mean type, number of ranks, order of element writes and eigen-solver",
  "all inputs, rank counts and message orders",
  "pyspod/pod/standard.py:Standard.fit", "pyspod/pod/base.py:_initialize", "pyspod/utils/parallel.py:npy_save")
p("The files of a POD projection do not depend on the number of ranks",
  "POD compute_coeffs_op stores, on every number of ranks, the product of the transposed stored modes with the fluctuations of the data, those modes and the time mean.",
  "every POD results folder of one variable, data on its grid, number of ranks and order of element writes",
  "all inputs, rank counts and message orders",
  "pyspod/pod/utils.py:compute_coeffs_op")
p("The stored POD modes are orthonormal in the stored weights",
  "After a POD fit on any number of ranks, the numbers in modes.npy and weights.npy satisfy sum_x w(x) phi_i(x) phi_j(x) = delta_ij.",
  "every accepted data set, weights, number of modes and ranks, every exact eigen-solver",
  "real-valued inputs of any size; holds only up to rounding in any test",
  "pyspod/pod/standard.py:Standard.fit", "pyspod/pod/base.py:_store_and_save")
p("POD fit, projection and reconstruction give the data back",
  "With default weights and as many modes as there are non-zero eigenvalues, a POD fit, compute_coeffs_op and compute_reconstruction(time_idx='all'), each on its own number of ranks, write back the data.",
  "every accepted data set, three numbers of ranks and orders of element writes, every exact eigen-solver",
  "real-valued inputs of any size over three-step histories",
  "pyspod/pod/standard.py:Standard.fit", "pyspod/pod/utils.py:compute_coeffs_op", "pyspod/pod/utils.py:compute_reconstruction")
p("The argument modes_idx of the POD projection selects the modes",
  "POD compute_coeffs_op(modes_idx=list) stores one row of coefficients per listed mode.",
  "every folder, data, list of modes and number of ranks",
  "all lists and inputs",
  "pyspod/pod/utils.py:compute_coeffs_op", "pyspod/pod/base.py:compute_coeffs_op")
p("Two-dimensional plots and videos put every value at its coordinates",
  "plot_2d_data(X, x1, x2) and every frame of generate_2d_data_video draw at (x1[i], x2[j]) the value of the grid point with these coordinates, whichever data axis x1 belongs to; without coordinates the first axis is horizontal.",
  "every grid size, values and coordinates", "all shapes, square ones included",
  "pyspod/utils/postproc.py:plot_2d_data", "pyspod/utils/postproc.py:generate_2d_data_video")
p("Plots of modes within limits show the selected part, one page per variable and stored mode",
  "plot_2d_modes_at_frequency(limits_x1, limits_x2) draws the selected grid points at their own coordinates, and makes a page for exactly the requested variables and those requested modes that are stored.",
  "every mode size, coordinates, limits, lists of variables and modes", "all shapes and slices",
  "pyspod/utils/postproc.py:plot_2d_modes_at_frequency")
p("The visible part of a plot contains all coordinates",
  "The axis limits set by the two-dimensional plots contain every coordinate of the data.",
  "every list of coordinates", "real-valued inputs",
  "pyspod/utils/postproc.py:_set_2d_axes_limits")
p("The marker of plot_max is at the maximum",
  "plot_2d_modes_at_frequency(plot_max=True) draws lines that cross where the modulus of the mode is largest.",
  "every mode and coordinates", "real-valued inputs of any size",
  "pyspod/utils/postproc.py:_apply_2d_vertical_lines", "pyspod/utils/postproc.py:plot_2d_modes_at_frequency")
p("shift180 draws the same field and leaves the caller's coordinates alone",
  "plot_2d_modes_at_frequency(shift180=True) draws every value at a longitude equal to its own up to full turns, and the caller's coordinate array is unchanged after the call.",
  "every mode, coordinates, limits, with or without fftshift, returning or raising", "all sizes, even and odd; exceptions",
  "pyspod/utils/postproc.py:plot_2d_modes_at_frequency")
p("Slices of three-dimensional modes are drawn over their own axes",
  "plot_3d_modes_slice_at_frequency draws a slice over the coordinates of the two remaining axes and, without slice_id, the slice that contains the maximum.",
  "every grid size and slice axis", "all combinations of extents",
  "pyspod/utils/postproc.py:plot_3d_modes_slice_at_frequency")
p("Tracers of modes oscillate at the requested frequency",
  "plot_mode_tracers draws, over one period of the requested frequency, the oscillation of the mode value at that frequency, for every number of variables and modes.",
  "every mode value, frequency, number of variables and modes", "real-valued inputs",
  "pyspod/utils/postproc.py:plot_mode_tracers")
p("Tracers, videos and plots of data show the requested snapshots",
  "plot_data_tracers(time_limits=[a,b]), generate_2d_data_video(time_limits=[a,b], sampling=s) and plot_2d_data(time_idx) show exactly the snapshots asked for, as functions and as methods of a fitted object.",
  "every data set, limits, sampling and list of times", "all lengths and limits",
  "pyspod/utils/postproc.py:plot_data_tracers", "pyspod/utils/postproc.py:generate_2d_data_video", "pyspod/spod/base.py:Base.plot_data_tracers", "pyspod/spod/base.py:Base.generate_2d_data_video", "pyspod/spod/base.py:Base.plot_2d_data")
p("The report has a page for exactly the peaks of the spectrum",
  "plot_report makes a page for every mode and every non-zero frequency at which the eigenvalue exceeds 1.5 times the local mean, both neighbours and all eigenvalues within ten percent of the frequency, and prints the period of that frequency.",
  "every spectrum and frequency axis", "real-valued inputs of any length; binary search over any array",
  "pyspod/spod/base.py:Base.plot_report")
p("weights.npy holds the given weights on every number of ranks, whatever their byte order",
  "The weights stored by a fit are the weights given by the user, for arrays of any numpy byte order and any number of MPI ranks.",
  "every weights array, data type, grid, distributed axis, number of ranks and order of the file writes", "all byte patterns, sizes and schedules",
  "pyspod/utils/parallel.py:npy_save", "pyspod/spod/base.py:Base._store_and_save", "pyspod/spod/base.py:Base._set_dtype")
p("The stored weights have the requested precision",
  "With dtype single or double the stored weights have that floating point type, whatever the type of the array given.",
  "every data type of the given weights and both settings", "all data types",
  "pyspod/spod/base.py:Base._set_dtype")
p("A path means the same folder in every call of a session",
  "In a Python session every path passed to get_all_modes, get_modes_at_freq, compute_coeffs_op, compute_coeffs_conv and compute_reconstruction names the folder below the working directory set by the user; in particular compute_reconstruction finds the folder that compute_coeffs_op returned, and the same call repeated gives the same result.",
  "every sequence of calls and os.chdir, every path, file system and start directory", "all histories of calls",
  "pyspod/utils/postproc.py:get_all_modes", "pyspod/utils/postproc.py:get_modes_at_freq", "pyspod/spod/utils.py:compute_coeffs_op", "pyspod/spod/utils.py:compute_reconstruction", "pyspod/spod/utils.py:_get_required_data")
p("Arrays of modes handed out may be changed without touching the stored results",
  "After get_modes_at_freq or get_all_modes the caller may change the returned array in place; the files and later calls are unaffected.",
  "every folder, frequency and sequence of in-place changes", "all histories of changes",
  "pyspod/utils/postproc.py:get_modes_at_freq", "pyspod/utils/postproc.py:get_data_from_file", "pyspod/utils/postproc.py:get_all_modes")
p("Results on read-only storage can be analysed",
  "Reading modes and weights of a fit needs no permission to write to the files.",
  "every folder and file permissions", "all folders",
  "pyspod/utils/postproc.py:get_data_from_file", "pyspod/spod/utils.py:_get_required_data")
p("Methods of fitted objects use the folders they are given",
  "compute_coeffs_op(data, results_dir) of an object projects on the modes in results_dir, and compute_reconstruction(coeffs_dir) reconstructs from coeffs_dir, after any history of calls on any number of objects.",
  "every history of method calls on any number of objects", "all histories",
  "pyspod/spod/base.py:Base.compute_coeffs_op", "pyspod/spod/base.py:Base.compute_reconstruction", "pyspod/pod/base.py:Base.compute_coeffs_op", "pyspod/pod/base.py:Base.compute_reconstruction")
p("Projections and reconstructions do not overwrite each other",
  "The coefficients (and reconstructions) of a call stay on disk after any later calls with other data or options.",
  "every history of projections and reconstructions", "all histories",
  "pyspod/spod/utils.py:compute_coeffs_op", "pyspod/spod/utils.py:compute_coeffs_conv", "pyspod/spod/utils.py:compute_reconstruction")
p("An interrupted projection is never taken for a complete one",
  "If a projection is interrupted at any point, a later reconstruction from its folder raises or uses the complete files of one projection.",
  "every crash point, old and new contents, SPOD and POD", "all crash points",
  "pyspod/spod/utils.py:compute_coeffs_op", "pyspod/pod/utils.py:compute_coeffs_op", "pyspod/spod/utils.py:compute_reconstruction")
p("An interrupted fit is never taken for a complete one",
  "If a fit is interrupted at any point, everything that later reads the results folder raises or reads the complete results of one fit.",
  "every crash point, number of frequencies, old and new contents", "all crash points",
  "pyspod/spod/standard.py:Standard._compute_standard_spod", "pyspod/spod/base.py:Base._store_and_save", "pyspod/spod/utils.py:_get_required_data", "pyspod/spod/utils.py:_get_modes")
p("A dictionary of parameters can be used for several objects",
  "SPOD and POD objects made one after the other from the same dictionary of parameters store their results in the same folders, with the same number of modes, as objects made from fresh copies of it.",
  "every dictionary and every sequence of objects and fits", "all histories",
  "pyspod/spod/base.py:Base.__init__", "pyspod/spod/base.py:Base._store_and_save", "pyspod/pod/base.py:Base.__init__")
p("A saved picture shows what its own call drew",
  "Every file written by a plotting function shows exactly the curves of that call and file, whatever figures the program or earlier calls left open.",
  "all sessions of plotting calls, all figures open before, all numbers of coefficients, windows or headless",
  "the library's figures share one global stack with the program and with earlier calls; a test starts from an empty stack",
  "pyspod/utils/postproc.py:plot_coeffs", "pyspod/utils/postproc.py:_save_show_plots", "pyspod/spod/base.py:Base.plot_report")

p("Saving a plot leaves the program's other figures alone",
  "After a plotting call that saves to a file, exactly the figures that were open before the call are open.",
  "all calls, all stacks of open figures, all numbers of reports",
  "leaks and closed foreign figures depend on the history of the process",
  "pyspod/utils/postproc.py:plot_coeffs", "pyspod/utils/postproc.py:generate_2d_data_video", "pyspod/spod/base.py:Base.plot_report")

p("figsize is the size of every saved figure",
  "A plotting function with a parameter figsize saves every file at that size.",
  "all sizes, all numbers of coefficients, all states of pyplot",
  "the second and later files of a call are affected by the implicit creation of figures",
  "pyspod/utils/postproc.py:plot_coeffs")

p("plot_eigs shows every eigenvalue",
  "For every non-empty array of complex eigenvalues the limits of both axes contain every eigenvalue, strictly for non-zero ones.",
  "all non-empty lists of complex numbers",
  "limits are computed from rounded moduli; holds for all magnitudes",
  "pyspod/utils/postproc.py:plot_eigs")

p("A spectrum plot shows every frequency and tells the modes apart",
  "plot_eigs_vs_frequency and plot_eigs_vs_period show a point for every frequency and mode, and the shades of the modes differ and get lighter with the mode number.",
  "all frequencies and eigenvalues, all numbers of modes",
  "logarithmic axes and the cap on the shade depend on the values and the number of modes",
  "pyspod/utils/postproc.py:plot_eigs_vs_frequency", "pyspod/utils/postproc.py:plot_eigs_vs_period")

p("Side-by-side panels share a colour range that covers the data",
  "generate_2d_subplot draws up to three variables with one colour range in which every value has a colour.",
  "all values of up to three variables, all rounding digits",
  "the range is rounded from the first variable only",
  "pyspod/utils/postproc.py:generate_2d_subplot")

p("Training keeps the best network",
  "After model_train the weights file holds the weights right after the first epoch with the least training loss.",
  "all numbers of epochs, all sequences of losses including ones that are not finite, all networks and optimisers",
  "depends on the whole sequence of losses of a stochastic training",
  "pyspod/emulation/neural_nets.py:Neural_Nets._train")

p("Inference uses the networks trained for its index",
  "model_inference(idx) predicts with the best networks of the last model_train(idx), for real and imaginary parts, whatever was trained or predicted for other indices.",
  "all histories of model_initialize, model_train and model_inference, all indices and data",
  "files are shared by name across a history of calls",
  "pyspod/emulation/neural_nets.py:Neural_Nets.model_train", "pyspod/emulation/neural_nets.py:Neural_Nets.model_inference")

p("Training an index does not depend on earlier training or predictions",
  "The network obtained by model_train(idx) is determined by the data, the parameters and the initial weights, not by which indices were trained or predicted before.",
  "all histories of operations on the object",
  "one hidden model is reused by all calls; only the order of a whole session shows it",
  "pyspod/emulation/neural_nets.py:Neural_Nets.model_train", "pyspod/emulation/neural_nets.py:Neural_Nets.model_initialize")

p("read_data reads .npy, .nc and .mat files",
  "read_data returns the content of every file whose extension, in any case, is npy, nc or mat, and raises ValueError for other formats.",
  "all file names and formats",
  "all names, cases and positions of dots; one branch cannot run at all",
  "pyspod/utils/io.py:read_data")

p("dtype means the same precision everywhere",
  "For every value of dtype a fit, a projection and a reconstruction compute with the same precision, which is double for 'double' and numpy.float64.",
  "all values of the parameter dtype",
  "tests use the two documented strings only",
  "pyspod/spod/base.py:Base.__init__", "pyspod/spod/utils.py:_get_dtype", "pyspod/pod/utils.py:_get_dtype")

p("Convolution coefficients are projections of windowed, padded transforms",
  "compute_coeffs_conv writes, for every frequency f, time t and mode m, the weighted inner product over the whole grid of the stored mode with the transform at frequency f of the window centred at t of the zero-padded, mean-removed data, times the amplitude correction; the same on any number of processes.",
  "all stored results, data, windows, numbers of processes and orders in which the pieces are written",
  "all data, all process counts, all windows; the result must not depend on uninitialised memory",
  "pyspod/spod/utils.py:compute_coeffs_conv")

p("Convolution coefficients respond linearly to the data",
  "Scaling the data by a and adding any field constant in time multiplies every convolution coefficient by a, on any number of processes and whatever memory was allocated before.",
  "all data, all factors, all steady fields, all numbers of processes",
  "relates two runs on arbitrary data",
  "pyspod/spod/utils.py:compute_coeffs_conv")

p("Convolution coefficients carry the energy of the SPOD eigenvalues",
  "With the parameters of the fit, the mean over the fit's blocks of the squared modulus of the convolution coefficient at the block centres is the eigenvalue of that mode and frequency.",
  "all data, weights, block layouts and eigensolvers",
  "ties two programs, the fit and the projection, for all data",
  "pyspod/spod/utils.py:compute_coeffs_conv", "pyspod/spod/standard.py:Standard._compute_standard_spod")

p("Convolution coefficients of chosen frequencies belong to those frequencies",
  "compute_coeffs_conv with freq_idx returns, row by row, the coefficients of the chosen frequencies computed from the modes of those frequencies, and no value depends on what memory contained before the call.",
  "all lists of frequency indices, all data and stored modes",
  "uninitialised memory differs from run to run; a test sees one run",
  "pyspod/spod/utils.py:compute_coeffs_conv")

p("SPOD modes are the optimal basis at each frequency",
  "At every frequency no K fields that are orthonormal in the weighted inner product capture more block-averaged energy of the Fourier realizations of the input than the sum of the first K saved eigenvalues, and the first K saved modes capture exactly that much.",
  "all data, non-negative weights, configurations, numbers of ranks, write orders, eigen-solvers, all K and all competing families",
  "a statement about all competing bases; no finite set of data shows it",
  "pyspod/spod/standard.py:Standard._compute_standard_spod")

p("Saved eigenvalues and modes do not depend on the linear algebra library",
  "Fits of the same data with any two correct eigen-solvers, any numbers of ranks and orders of writing save the same eigenvalues, and the same mode up to a factor of modulus one wherever the eigenvalue is simple.",
  "all data, all correct solvers, all numbers of ranks",
  "quantifies over all libraries",
  "pyspod/spod/standard.py:Standard._compute_standard_spod")

p("Scaling the data and adding a steady field",
  "Multiplying the data by a and adding any field constant in time multiplies every eigenvalue by a squared and leaves modes of simple eigenvalues unchanged up to a factor of modulus one (no steady field with mean type zero; no normalisation of the data).",
  "all data, factors, steady fields, configurations, numbers of ranks, solvers",
  "relates two runs on arbitrary data",
  "pyspod/spod/standard.py:Standard.fit", "pyspod/spod/base.py:Base.select_mean")

p("Scaling the weights",
  "Multiplying all weights by a positive factor multiplies the eigenvalues by it and divides the modes by its square root (up to a factor of modulus one), and changes nothing else.",
  "all data, weights, factors, configurations, numbers of ranks, solvers",
  "relates two runs on arbitrary data",
  "pyspod/spod/standard.py:Standard._compute_standard_spod")

p("The order and shape of the grid do not matter",
  "The same values on the same points listed in another order, transposed, flattened or reshaped give the same eigenvalues and modes with the same values at the same points (up to one factor of modulus one at simple eigenvalues).",
  "all data, all bijections between grids, numbers of ranks, solvers",
  "all permutations of all grids",
  "pyspod/spod/standard.py:Standard.fit", "pyspod/spod/base.py:Base._initialize")

p("Full spectra of real data are symmetric",
  "With fullspectrum and real data the eigenvalues at a frequency and at its negative are equal, and the modes complex conjugates up to a factor of modulus one.",
  "all real data, configurations and frequencies",
  "all data and both ends of the axis",
  "pyspod/spod/standard.py:Standard._compute_standard_spod", "pyspod/spod/standard.py:Standard._compute_blocks")

p("The eigenvalues of all frequencies sum to the energy of the windowed data",
  "The sum of all reported eigenvalues over all frequencies and modes is n_dft over the squared sum of the window times the block-averaged weighted energy of the windowed fluctuations (Parseval), for even and odd block lengths, one-sided and full spectra.",
  "all data, weights, windows, block lengths and kinds of spectrum",
  "an identity for all data; tests compare stored numbers",
  "pyspod/spod/standard.py:Standard._compute_standard_spod", "pyspod/spod/base.py:Base._initialize")

p("The reconstruction is the best approximation by the selected modes",
  "At every time the field compute_reconstruction writes from the coefficients of compute_coeffs_op is, among all combinations of the selected modes plus the mean, the one closest to the snapshot in the weighted norm; the squared distances add up (Pythagoras).",
  "all results folders, data, weights, selections of frequencies, tolerances, numbers of ranks, all competing combinations",
  "quantifies over every competing combination of modes",
  "pyspod/spod/utils.py:compute_coeffs_op", "pyspod/spod/utils.py:_oblique_projection", "pyspod/spod/utils.py:compute_reconstruction")

p("Selecting more frequencies never makes the reconstruction worse",
  "If one selection of frequencies contains another, the reconstruction with the larger one is at every time at least as close to the snapshot.",
  "all results folders, data, pairs of nested selections, tolerances, numbers of ranks",
  "relates two runs on arbitrary data",
  "pyspod/spod/utils.py:compute_coeffs_op", "pyspod/spod/utils.py:_oblique_projection", "pyspod/spod/utils.py:compute_reconstruction")

p("Projecting the reconstruction gives the same coefficients",
  "Passing the reconstruction (when it is real) to compute_coeffs_op again stores the same coefficients, modes and mean.",
  "all results folders, data, tolerances, numbers of ranks",
  "relates two runs on arbitrary data",
  "pyspod/spod/utils.py:compute_coeffs_op", "pyspod/spod/utils.py:compute_reconstruction")

p("Coefficients follow affine changes and reorderings of the data",
  "Multiplying the data by a factor, adding a steady field and reordering the snapshots multiplies the coefficients by the factor and reorders them, changes the mean accordingly, and leaves the stored modes; the reconstruction changes as the data do.",
  "all results folders, data, factors, steady fields, permutations of the snapshots, tolerances, numbers of ranks",
  "relates two runs on arbitrary data",
  "pyspod/spod/utils.py:compute_coeffs_op", "pyspod/spod/utils.py:compute_reconstruction")

p("Coefficients of the projection have zero mean",
  "For every mode the coefficients stored by compute_coeffs_op sum to zero over the times of the data.",
  "all results folders, data, selections, tolerances, numbers of ranks",
  "an identity for all data",
  "pyspod/spod/utils.py:compute_coeffs_op")

p("POD modes are optimal",
  "No set of K fields orthonormal in the stored weights captures more energy of the (centred) data than the K largest stored eigenvalues, each stored mode captures exactly the eigenvalue stored at its position, and the n modes saved capture at least as much as any other n orthonormal fields.",
  "all real data, non-negative weights, exact eigen-solvers, numbers of modes to save, numbers of ranks, all competing orthonormal sets",
  "quantifies over every competing set of fields and every exact solver",
  "pyspod/pod/standard.py:Standard.fit", "pyspod/pod/base.py:Base._initialize")

p("POD follows reorderings, scalings and shifts of data and weights",
  "Reordering grid points (with the weights) or snapshots, multiplying the data by s, adding a steady field (when the mean is subtracted) and multiplying the weights by a multiplies the stored eigenvalues by a s^2 and changes the modes of simple eigenvalues only by the reordering, the factor 1/sqrt(a) and the sign, whatever the solver, the number of ranks and the number of modes saved.",
  "all pairs of data related in this way, all weights, exact solvers, numbers of ranks, numbers of modes saved",
  "relates two runs on arbitrary data with arbitrary libraries",
  "pyspod/pod/standard.py:Standard.fit", "pyspod/pod/base.py:Base._initialize", "pyspod/pod/base.py:Base.select_mean")

p("Every picture of a call has its own file",
  "Saving pictures of several variables, modes, time steps or coefficients under one filename gives every picture a file of its own; two pictures have the same file name only if filename, kind of plot and all indices agree, so after any sequence of plotting calls the file shows the last picture asked for with that name and those indices.",
  "all file names (with and without folder, extension, dots), all lists of variables, modes, times and coefficients (also negative and repeated), all sequences of calls",
  "file names and index lists are unbounded",
  "pyspod/utils/postproc.py:plot_2d_modes_at_frequency", "pyspod/utils/postproc.py:plot_2d_data", "pyspod/utils/postproc.py:plot_coeffs", "pyspod/utils/postproc.py:generate_2d_data_video", "pyspod/utils/postproc.py:plot_mode_tracers", "pyspod/utils/postproc.py:plot_data_tracers")

p("A report page is followed by the picture of its mode",
  "In the report every page that marks a peak is followed by a page with the picture of that mode at exactly the marked frequency.",
  "all increasing frequency axes, spectra, numbers of saved modes",
  "quantifies over all spectra",
  "pyspod/spod/base.py:Base.plot_report", "pyspod/spod/base.py:Base.plot_2d_modes_at_frequency", "pyspod/utils/postproc.py:find_nearest_freq")

p("The report does not depend on the number of ranks",
  "plot_report called by all ranks of a parallel program leaves the report of a serial program.",
  "all spectra, numbers of ranks, orders in which the ranks finish",
  "depends on the schedule of the ranks",
  "pyspod/spod/base.py:Base.plot_report", "pyspod/spod/base.py:Base.plot_2d_modes_at_frequency")

p("Every method of a fitted object works",
  "Every method of a fitted object that stands for a function of the post-processing module returns what that function returns for the results of the fit.",
  "all methods and arguments",
  "tests call some methods with some arguments",
  "pyspod/spod/base.py:Base.plot_2d_mode_slice_vs_time", "pyspod/spod/base.py:Base.get_modes_at_freq", "pyspod/spod/base.py:Base.plot_eigs")

p("The problem size printed by a fit",
  "The total size printed at the start of a fit is the size of the whole data set on any number of ranks, and the smallest and largest share printed are those of actual ranks and differ by at most one row of the split axis.",
  "all shapes, split axes, numbers of snapshots and ranks",
  "quantifies over shapes and ranks",
  "pyspod/spod/base.py:Base.get_sizes", "pyspod/utils/parallel.py:_blockdist")

p("Coefficients at one frequency are inner products with the modes",
  "With one frequency selected, the coefficients are the weighted inner products of the fluctuations (snapshot minus stored mean) with the saved modes of that frequency.",
  "all data, weights, block parameters and ranks; every eigenvector and SVD routine; modes with positive and distinct eigenvalues, tol < 1",
  "must hold for every data set and every routine of linear algebra",
  "pyspod/spod/utils.py:compute_coeffs_op", "pyspod/spod/standard.py:Standard.fit")

p("Grid points of weight zero have no influence",
  "Changing the data at grid points of weight zero changes neither the eigenvalues nor the modes at the other points of a fit, nor the coefficients of a projection.",
  "all data, weights with zeros anywhere, block parameters, ranks, eigenvector routines",
  "quantifies over all values at the masked points",
  "pyspod/spod/standard.py:Standard.fit", "pyspod/spod/standard.py:Standard._compute_standard_spod", "pyspod/spod/utils.py:compute_coeffs_op")

p("n_modes_save only decides how many modes are saved",
  "Two fits that differ in n_modes_save only have the same eigenvalues, and the modes of the smaller number are the first modes of the larger one.",
  "all data, configurations, ranks and numbers of saved modes",
  "quantifies over all pairs of runs",
  "pyspod/spod/base.py:Base._define_optional_parameters", "pyspod/spod/standard.py:Standard._compute_standard_spod")

p("The order of non-overlapping blocks does not matter",
  "Without overlap, exchanging whole blocks of snapshots leaves the eigenvalues of a fit, and the modes of simple eigenvalues up to a factor of modulus one.",
  "all data, numbers of blocks, rearrangements, ranks and eigenvector routines",
  "quantifies over all permutations of the blocks",
  "pyspod/spod/base.py:Base.compute_fft", "pyspod/spod/standard.py:Standard._compute_standard_spod")

p("Reversing time conjugates the modes",
  "For real data whose last block ends at the last snapshot, fitting the snapshots in reverse order gives the same eigenvalues and, for simple eigenvalues, the complex conjugates of the modes up to a factor of modulus one.",
  "all real data, block lengths and overlaps with blocks ending at the last snapshot, symmetric windows, ranks",
  "quantifies over all data",
  "pyspod/spod/base.py:Base.compute_fft", "pyspod/spod/base.py:Base._hamming_window")

p("The unit of time does not matter",
  "Measuring times in another unit (time step and bounds of the periods multiplied by a > 0) divides every stored frequency by a and changes nothing else: a projection selects the same frequencies and leaves the same files or fails in the same way.",
  "all results, units, bounds of periods, ranks and schedules",
  "quantifies over all results and units",
  "pyspod/spod/base.py:Base.get_freq_axis", "pyspod/spod/utils.py:compute_coeffs_op", "pyspod/utils/postproc.py:find_nearest_freq")

p("Every accepted network can be trained",
  "A network name accepted by model_initialize gives a model that model_train can train; other names raise an error.",
  "all names, data and parameters",
  "quantifies over all names and data",
  "pyspod/emulation/neural_nets.py:Neural_Nets.model_initialize", "pyspod/emulation/neural_nets.py:Neural_Nets.build_cnn")

p("A prediction depends on earlier columns only",
  "A column predicted by model_inference is the same for two inputs whose earlier columns are the same.",
  "all networks, window lengths, inputs",
  "quantifies over pairs of inputs",
  "pyspod/emulation/neural_nets.py:Neural_Nets.model_inference")

p("A session finds the files it reads",
  "In a session in which every call comes after the calls it needs (a fit before a projection on its modes, a projection before a reconstruction, a fit that stored its blocks before one that uses them), whenever a rank comes to read a file, or looks for a folder, some rank has completely written it.",
  "all sequences of calls, numbers of ranks, arguments, MPI libraries and schedules",
  "quantifies over all schedules and sequences of calls",
  "pyspod/spod/base.py:Base._initialize", "pyspod/spod/standard.py:Standard.fit", "pyspod/spod/utils.py:compute_coeffs_op", "pyspod/spod/utils.py:compute_reconstruction", "pyspod/utils/parallel.py:npy_save")

p("Isometries of the fields carry over to the modes",
  "Applying to every snapshot a linear map that preserves weighted inner products (turning vector components, changing signs, orthogonal transforms, adding grid points where the data vanish) leaves the eigenvalues of a fit, and the modes are the images of the modes under the map.",
  "all data, weights, grids, isometries, block parameters, ranks and eigenvector routines; data not normalised",
  "quantifies over all data and maps",
  "pyspod/spod/standard.py:Standard.fit", "pyspod/spod/standard.py:Standard._compute_standard_spod")

p("A pattern with a varying amplitude is its own mode",
  "If the data are a steady field plus one pattern times an amplitude that varies in time, then at every frequency the first eigenvalue is the squared norm of the pattern times the block-averaged spectrum of the amplitude, all other eigenvalues vanish, and the first mode is the normalised pattern up to a factor of modulus one.",
  "all patterns, amplitudes, steady fields, weights, block parameters, windows, ranks and eigenvector routines; data not normalised",
  "quantifies over all patterns and amplitudes",
  "pyspod/spod/standard.py:Standard.fit", "pyspod/spod/base.py:Base.compute_fft", "pyspod/spod/standard.py:Standard._compute_standard_spod")

p("Snapshots outside the blocks matter only through the mean",
  "Snapshots that belong to no block have no influence on eigenvalues and modes, except through the long-time mean when that is the mean removed.",
  "all data, numbers of snapshots, block parameters, ranks and eigenvector routines",
  "quantifies over all data outside the blocks",
  "pyspod/spod/standard.py:Standard.fit", "pyspod/spod/base.py:Base._initialize")

p("Stored modes are finite",
  "Every value stored in a mode file by a fit, and every stored POD mode, is a finite number.",
  "all data, weights, block parameters, ranks, eigenvector routines and write schedules",
  "quantifies over all data; no division by zero",
  "pyspod/spod/standard.py:Standard._compute_standard_spod", "pyspod/pod/standard.py:Standard.fit")

p("Normalised weights are the weights divided by the variances of the variables",
  "With `normalize_weights`, a fit is the fit with the given weights divided, variable by variable, by the variance of the variable over all snapshots and points, on any number of ranks and for every order in which the ranks' contributions are combined.",
  "all data, weights, grids, numbers of variables, ranks, reduction trees and write schedules",
  "quantifies over all data, distributions and reduction orders",
  "pyspod/utils/weights.py:apply_normalization", "pyspod/utils/parallel.py:pvar", "pyspod/spod/base.py:Base._initialize")

p("With normalised weights the units of the variables do not matter",
  "With `normalize_weights`, multiplying a variable by a non-zero constant leaves all eigenvalues of a fit and multiplies that variable of every stored mode by the same constant.",
  "all data, weights, grids, factors per variable, block parameters, ranks and eigenvector routines; data not normalised",
  "quantifies over all data and factors",
  "pyspod/utils/weights.py:apply_normalization", "pyspod/spod/standard.py:Standard.fit")

p("Streaming fits normalise with the whole record",
  "With `normalize_weights`, a streaming fit divides the weights by the variances of the variables over the whole record, as the standard fit does.",
  "all records, weights, grids and block parameters",
  "quantifies over all records",
  "pyspod/spod/streaming.py:Streaming.fit", "pyspod/spod/base.py:Base._initialize", "pyspod/utils/weights.py:apply_normalization")

p("A steady field has no influence on a streaming fit",
  "Adding the same field to every snapshot leaves all eigenvalues and modes of a streaming fit unchanged.",
  "all records, fields, weights, block parameters, decomposition routines, numbers of ranks and write schedules",
  "quantifies over all records and fields",
  "pyspod/spod/streaming.py:Streaming.fit")

p("Data at points of weight zero have no influence on a streaming fit",
  "Changing the data of a streaming fit only where the weight is zero leaves the eigenvalues, and the modes at all other points.",
  "all pairs of records that agree where the weight is not zero, all block parameters, decomposition routines, numbers of ranks and write schedules",
  "quantifies over all pairs of records",
  "pyspod/spod/streaming.py:Streaming.fit")

p("Results of a streaming fit are finite",
  "Every eigenvalue and every value of a mode that a streaming fit stores is a finite number.",
  "all records, weights, block parameters, decomposition routines, numbers of ranks and write schedules",
  "quantifies over all records; no division by zero in any update",
  "pyspod/spod/streaming.py:Streaming.fit")

p("Streaming fits respect mean_type and normalize_data",
  "A streaming fit subtracts the mean chosen by `mean_type` and normalises the data if `normalize_data` is set, or rejects the options.",
  "all records, options, decomposition routines, numbers of ranks and write schedules",
  "quantifies over all records and options",
  "pyspod/spod/streaming.py:Streaming.fit", "pyspod/spod/base.py:Base._initialize")

p("The stored confidence bounds enclose the eigenvalues",
  "The confidence bounds stored next to the eigenvalues, by a standard or a streaming fit, have the shape of the eigenvalues and enclose them.",
  "all records, block parameters, confidence levels and numbers of modes kept",
  "quantifies over all records and parameters",
  "pyspod/spod/streaming.py:Streaming.fit", "pyspod/spod/standard.py:Standard.fit", "pyspod/spod/base.py:Base._store_and_save")

p("Every documented attribute can be read after a fit",
  "After a fit has ended every attribute documented on the object can be read without an exception, whatever was called before and after.",
  "all sessions of calls on one object and all points at which a call may have failed",
  "quantifies over all histories of calls",
  "pyspod/spod/base.py:Base")

p("Streaming results do not depend on the decomposition routine",
  "The eigenvalues of a streaming fit, and its modes up to a factor of modulus one, do not depend on how the routine that decomposes small matrices chooses among equivalent answers.",
  "all records, weights, block parameters, pairs of correct decomposition routines, numbers of ranks and write schedules; blocks independent, and no more blocks than modes kept or no tie between kept and discarded singular values",
  "quantifies over all correct routines",
  "pyspod/spod/streaming.py:Streaming.fit")

p("Streaming fits commute with changes of units, of sign and of grid numbering",
  "A linear map of the fields that multiplies weighted norms by a constant r multiplies the eigenvalues of a streaming fit by r and maps its modes (divided by r), up to a factor of modulus one.",
  "all records, weights, linear maps (scalings, permutations, rotations), block parameters, correct decomposition routines, numbers of ranks and write schedules, under the conditions of C188",
  "quantifies over all data and maps",
  "pyspod/spod/streaming.py:Streaming.fit")

p("A slice of a three-dimensional mode shows that slice, with its maximum marked",
  "A plot of a slice of a three-dimensional mode shows the values of the mode at the index asked for along the sliced axis, at the coordinates of the two other axes, and marks the maximum of the slice if asked to.",
  "all modes, coordinates, slices (counted from the start or the end) and options",
  "quantifies over all modes and coordinates",
  "pyspod/utils/postproc.py:plot_3d_modes_slice_at_frequency", "pyspod/utils/postproc.py:_apply_2d_vertical_lines")

p("An error while a stream is read is reported",
  "When a snapshot cannot be read during a streaming fit (an I/O error, an interrupt by the user), the fit raises; it does not write results of a part of the data as if they were results of all of it.",
  "all records, configurations, and times at which reading fails",
  "quantifies over all failure times and histories",
  "pyspod/spod/streaming.py:Streaming.fit")

p("A streaming fit ends on every rank",
  "A streaming fit on several ranks ends on every rank, also when a snapshot cannot be read on one of them.",
  "all numbers of ranks, MPI libraries, schedules, lengths of the record and failure times",
  "quantifies over all schedules",
  "pyspod/spod/streaming.py:Streaming.fit", "pyspod/utils/parallel.py:allreduce", "pyspod/utils/parallel.py:npy_save")

p("Reusing blocks does not change the results",
  "In one results folder, after any sequence of fits, a fit with savefft and reuse_blocks leaves the eigenvalues, modes, weights and mean that it would leave without reusing anything.",
  "all sequences of fits (data, block settings, weights, spectra, numbers of ranks, write orders, flags)",
  "quantifies over all histories of fits in a folder",
  "pyspod/spod/standard.py:Standard.fit", "pyspod/spod/base.py:Base._are_blocks_present", "pyspod/utils/parallel.py:npy_save", "pyspod/utils/parallel.py:distribute_dimension")

p("All frequencies of a result come from one data set",
  "Whatever fits ran in a results folder before, the eigenvalues and modes that one fit reports at its different frequencies are computed from one and the same data set.",
  "all sequences of fits in one results folder",
  "quantifies over all histories of fits in a folder",
  "pyspod/spod/standard.py:Standard.fit", "pyspod/spod/base.py:Base._are_blocks_present")

p("The spectrum depends continuously on the data",
  "For data that are a sum of two data sets, the square root of eigenvalue i+j at a frequency is at most the sum of the square roots of eigenvalue i of the first and eigenvalue j of the second; so data that nowhere differ by more than eps have spectra whose square roots differ by at most 2 eps sqrt(2 sum of weights).",
  "all data sets, block settings, windows, weights, numbers of ranks and eigen-solvers (data not normalised)",
  "quantifies over all pairs of data sets and every noise amplitude",
  "pyspod/spod/standard.py:Standard.fit", "pyspod/spod/standard.py:Standard._compute_standard_spod", "pyspod/spod/base.py:Base._compute_blocks")

p("Larger domains and larger weights never lower an eigenvalue",
  "Adding grid points or variables to the data, or increasing weights, does not decrease any eigenvalue at any frequency.",
  "all data sets, embeddings of one grid in another, weights, block settings, numbers of ranks and eigen-solvers",
  "quantifies over all data sets and grids",
  "pyspod/spod/standard.py:Standard.fit", "pyspod/spod/standard.py:Standard._compute_standard_spod")

p("Eigenvalues of a longer record interlace",
  "If a record begins with the snapshots of another one, then with nb and nb' blocks the eigenvalues times the numbers of blocks interlace: nb*lambda_k <= nb'*lambda'_k, and nb'*lambda'_(k+nb'-nb) <= nb*lambda_k.",
  "all records and continuations, block settings, weights, numbers of ranks and eigen-solvers (with the longtime mean: continuations with the same mean)",
  "quantifies over all records and all their continuations",
  "pyspod/spod/standard.py:Standard.fit", "pyspod/spod/base.py:Base._compute_blocks", "pyspod/spod/base.py:Base._set_blocks")

p("Repeating a record does not change the result",
  "A record of whole blocks without overlap and the same record repeated R times give the same eigenvalues (followed by zeros) and, for positive simple eigenvalues, the same modes up to a factor of modulus one.",
  "all records, numbers of repetitions, weights, numbers of ranks and eigen-solvers",
  "quantifies over all records and repetition counts",
  "pyspod/spod/standard.py:Standard.fit", "pyspod/spod/standard.py:Standard._compute_standard_spod")

p("Truncation in a streaming fit only loses energy",
  "The eigenvalues stored by a streaming fit that saves k modes never exceed those of the fit of the same data that saves at least as many modes as there are blocks; each (squared) is too small by at most the total energy that truncation removed; and with no more blocks read than modes saved nothing is lost.",
  "all data sets, block settings, weights, numbers of modes to save and of ranks, at every frequency at which the blocks are linearly independent",
  "quantifies over all data sets, truncations and rank counts",
  "pyspod/spod/streaming.py:Streaming.fit")

p("The POD spectrum depends continuously on the data",
  "For data that are a sum of two data sets, the square root of the (i+j)-th largest POD eigenvalue is at most the sum of the square roots of the i-th largest of the first and the j-th largest of the second; so data that nowhere differ by more than eps have spectra whose square roots differ by at most 2 eps sqrt(number of snapshots times sum of weights).",
  "all data sets, weights, means, numbers of ranks and eigen-solvers",
  "quantifies over all pairs of data sets and every noise amplitude",
  "pyspod/pod/standard.py:Standard.fit", "pyspod/pod/base.py:Base._pre_process")

p("POD: larger domains and larger weights never lower an eigenvalue",
  "Adding grid points or variables to the data of a POD, or increasing weights, does not decrease any of its sorted eigenvalues.",
  "all data sets, embeddings of one grid in another, weights, numbers of ranks and eigen-solvers",
  "quantifies over all data sets and grids",
  "pyspod/pod/standard.py:Standard.fit")

p("POD of longer and of repeated records",
  "If a record begins with the snapshots of another one (with the same mean, if the mean is subtracted), the sorted eigenvalues of the two PODs interlace; a record repeated R times has R times the eigenvalues, followed by zeros.",
  "all records, continuations, repetition counts, weights, numbers of ranks and eigen-solvers",
  "quantifies over all records and all their continuations",
  "pyspod/pod/standard.py:Standard.fit", "pyspod/pod/base.py:Base._pre_process")

p("Reconstruction splits the energy of every snapshot",
  "For the coefficients computed from any data and the reconstruction of all times made from them, the weighted energy of each snapshot about the time mean equals the energy of its reconstruction about the mean plus the energy of the reconstruction error; in particular a reconstruction never has more energy than the data.",
  "all results folders (any stored modes and non-negative weights), data sets, tolerances that are not negative, selections of frequencies and modes, numbers of ranks",
  "quantifies over all data sets, sets of modes and tolerances",
  "pyspod/spod/utils.py:compute_coeffs_op", "pyspod/spod/utils.py:compute_reconstruction")

p("Reconstruction does not amplify differences in the data",
  "For two data sets of equal length projected on the same modes, reconstructed snapshots are at no time farther apart (in the weighted norm) about the means than the snapshots are, and summed over time the reconstructions differ by no more than the data.",
  "all pairs of data sets of equal length, results folders, tolerances that are not negative, numbers of ranks",
  "quantifies over all pairs of data sets",
  "pyspod/spod/utils.py:compute_coeffs_op", "pyspod/spod/utils.py:compute_reconstruction")

p("Energies of subdomains add up",
  "If a grid (or a set of variables) is cut into two parts and the same SPOD is applied to the whole and to each part, then at every frequency the sum of the eigenvalues of the whole is the sum of those of the parts, and the (i+j)-th eigenvalue of the whole is at most the i-th of one part plus the j-th of the other.",
  "all data sets, ways to cut the grid, weights, block settings, numbers of ranks and eigen-solvers",
  "quantifies over all data sets and all partitions of the grid",
  "pyspod/spod/standard.py:Standard.fit")

p("The spectrum of uncorrelated parts is the union of their spectra",
  "If the two parts of a grid are uncorrelated at a frequency (the transforms of the blocks at the points of one are orthogonal to those at the points of the other), the non-zero eigenvalues of the whole are those of the parts, with their multiplicities.",
  "all data sets, ways to cut the grid, weights, block settings, numbers of ranks and eigen-solvers",
  "quantifies over all data sets with uncorrelated parts and all partitions of the grid",
  "pyspod/spod/standard.py:Standard.fit")

p("The error of a POD reconstruction is the energy of the modes left out",
  "For a POD with the long-time mean and no weights whose saved modes belong to positive, distinct eigenvalues, projecting the data it was fitted on and reconstructing all times gives a real field whose squared error, summed over all snapshots and grid points, is exactly the sum of the eigenvalues of the modes that were not saved. If the solver returns the eigenvalues in decreasing order, no other choice of as many orthonormal fields and coefficients comes closer to the data.",
  "all data sets, numbers of saved modes, eigen-solvers, numbers of ranks of each of the three steps",
  "quantifies over all data sets, all solvers and all competing sets of fields",
  "pyspod/pod/standard.py:Standard.fit", "pyspod/pod/utils.py:compute_coeffs_op", "pyspod/pod/utils.py:compute_reconstruction")

p("Linear relations in the data hold for SPOD modes",
  "If every snapshot satisfies a linear relation between its values (a boundary condition, a symmetry, periodicity, a discrete conservation law or divergence constraint: sum of l(x) q(x) = b with fixed coefficients l and right-hand side b, where b = 0 if no mean is subtracted), then every stored SPOD mode of a positive eigenvalue satisfies the homogeneous relation: sum of l(x) phi(x) = 0. This holds without normalization, for any weights, any eigen-solver and any number of ranks.",
  "all data sets and linear relations they satisfy, all options without normalization, weights, solvers, numbers of ranks and write orders",
  "quantifies over all data sets and all linear relations",
  "pyspod/spod/standard.py:Standard.fit", "pyspod/spod/standard.py:Standard._compute_standard_spod")
p("Linear relations in the data hold for streaming SPOD modes",
  "If every snapshot satisfies a linear relation (sum of l(x) q(x) = b), the weights are positive and the blocks at a frequency are linearly independent, then every mode stored by a streaming fit at that frequency satisfies sum of l(x) phi(x) = 0, however many modes are truncated on the way, for any SVD routine and any number of ranks.",
  "all data sets and linear relations they satisfy, options, positive weights, SVD routines, numbers of ranks and write orders",
  "quantifies over all data sets, all linear relations and all SVD routines",
  "pyspod/spod/streaming.py:Streaming.fit")
p("Linear relations in the data hold for POD modes",
  "If every snapshot satisfies a linear relation (sum of l(x) q(x) = b, with b = 0 if no mean is subtracted), then every POD mode stored for a positive eigenvalue is real and satisfies sum of l(x) phi(x) = 0, for any weights, any eigen-solver and any number of ranks.",
  "all data sets and linear relations they satisfy, mean types, weights, solvers, numbers of ranks",
  "quantifies over all data sets and all linear relations",
  "pyspod/pod/standard.py:Standard.fit")
p("Reconstructions keep the linear relations of the projected data",
  "If the data of the fit satisfy a linear relation between the values of a snapshot, and other (or the same) data that satisfy the same relation, with a possibly different right-hand side, are projected on modes of positive eigenvalues and reconstructed, then every reconstructed snapshot satisfies the relation of the projected data exactly: boundary values, symmetries, conserved sums survive truncation to few modes. For a folder of modes of any origin it is enough that the selected modes satisfy the homogeneous relation, whatever the tolerance of the projection.",
  "all data sets and relations, bands of frequencies, numbers of saved modes, tolerances, solvers, numbers of ranks of each step",
  "quantifies over all data sets, all relations and all selections of modes",
  "pyspod/spod/standard.py:Standard.fit", "pyspod/spod/utils.py:compute_coeffs_op", "pyspod/spod/utils.py:compute_reconstruction")

p("Cached blocks of another grid are not used",
  "In one results folder, a fit that reuses saved Fourier blocks never works from blocks saved by a fit of data on another spatial grid: it computes its own blocks or raises.",
  "all sequences of fits, each on its own grid, with its own data, settings, weights, flags, numbers of ranks and write orders",
  "quantifies over all histories of fits in a folder and all pairs of grids",
  "pyspod/spod/standard.py:Standard.fit", "pyspod/spod/base.py:Base._are_blocks_present")

p("An accurate emulator gives accurate coefficients",
  "Scaling test coefficients with the factors of the training coefficients, inference and scaling back give coefficients that start with the n_in test columns; if the network is right up to eps on the scaled test data, the emulated coefficients of row i are right up to eps times the factor of row i (exact for eps = 0).",
  "all training and test coefficients, normalisations, sequence lengths and networks (any function)",
  "quantifies over all data and all networks",
  "pyspod/emulation/base.py:Base.scaler", "pyspod/emulation/base.py:Base.scale_data", "pyspod/emulation/base.py:Base.descale_data", "pyspod/emulation/neural_nets.py:Neural_Nets.model_inference")
p("Errors of emulated coefficients are the errors of the emulated fields",
  "Fields reconstructed from two sets of POD coefficients in the same folder are, snapshot by snapshot and in the weighted norm, as far apart as the coefficients; so with a network that is right up to eps on scaled data the emulated snapshots differ from the projected ones by at most eps times the root of the sum of the squared scaling factors.",
  "all POD fits, weights, coefficients, networks and numbers of ranks",
  "quantifies over all data, coefficients and networks",
  "pyspod/pod/standard.py:Standard.fit", "pyspod/pod/utils.py:compute_coeffs_op", "pyspod/pod/utils.py:compute_reconstruction", "pyspod/emulation/neural_nets.py:Neural_Nets.model_inference")

p("POD with normalize_weights divides the weights by the variance of the data",
  "POD with normalize_weights writes the results of POD with the given weights divided by the variance of all values of all snapshots, whatever the number of ranks and the order in which their contributions are combined.",
  "all data, weights, mean types, solvers, numbers of ranks and reduction orders",
  "quantifies over all data, weights and rank counts",
  "pyspod/pod/base.py:Base._initialize", "pyspod/utils/weights.py:apply_normalization", "pyspod/utils/parallel.py:pvar")
p("With normalize_weights POD does not depend on the units of the data",
  "If every value v of the data becomes s v + b (with a mean that is subtracted; b = 0 otherwise), POD with normalize_weights writes the same eigenvalues, and the modes of positive simple eigenvalues times |s| up to sign.",
  "all data of positive variance, scales, offsets, weights with an axis for the variable, exact eigen-solvers and numbers of ranks up to the length of the longest axis (else C215)",
  "quantifies over all data and all changes of units",
  "pyspod/pod/base.py:Base._initialize", "pyspod/utils/weights.py:apply_normalization", "pyspod/pod/standard.py:Standard.fit")

p("Few degrees of freedom give few eigenvalues",
  "If the data are combinations of r fields with amplitudes that vary in time, plus a steady field, at most r SPOD eigenvalues per frequency are not zero; there are never more than there are grid points of positive weight; and no data set with r degrees of freedom can be subtracted so that the largest eigenvalue of the rest is below eigenvalue number r of the data.",
  "all data (not normalised, except for the bound by the number of grid points), fields, amplitudes, weights, frequencies, eigen-solvers and numbers of ranks",
  "quantifies over all data sets and all approximations",
  "pyspod/spod/standard.py:Standard._compute_standard_spod", "pyspod/spod/standard.py:Standard.fit")
p("POD of data with n degrees of freedom is exact with n modes",
  "If the data are combinations of r fields plus a steady field, at most r POD eigenvalues are not zero; and if n = r modes are saved, belonging to positive distinct eigenvalues, fit, projection and reconstruction give the data back.",
  "all data, fields, amplitudes, eigen-solvers and numbers of ranks; for the second claim long-time mean, no weights",
  "quantifies over all data sets",
  "pyspod/pod/standard.py:Standard.fit", "pyspod/pod/utils.py:compute_coeffs_op", "pyspod/pod/utils.py:compute_reconstruction")

p("The POD of a domain and of its parts",
  "If a domain is cut into two parts and POD is fitted on the whole and on each part (same snapshots, same weights, same mean), the stored eigenvalues of the parts add up to those of the whole; the (i+j)-th largest of the whole is at most the i-th largest of one part plus the j-th largest of the other; and if the parts are uncorrelated in time the eigenvalues of the whole are those of the parts together.",
  "all data, cuts, weights, eigen-solvers and numbers of ranks",
  "quantifies over all data sets and all cuts of the grid",
  "pyspod/pod/standard.py:Standard.fit")

p("Small changes of the data change the eigenvalues of a streaming fit a little",
  "If no value of two records differs by more than e, no eigenvalue stored by streaming fits of them differs by more than 4 e times the square root of the sum of the weights; and eigenvalue number i+j of a sum of two records is at most eigenvalue i of the one plus eigenvalue j of the other.",
  "all records, weights, block parameters, correct decomposition routines, numbers of ranks and write schedules; as many modes kept as blocks are read, blocks independent",
  "quantifies over all records and all perturbations",
  "pyspod/spod/streaming.py:Streaming.fit")
p("Streaming fits of a domain and of its parts",
  "No eigenvalue of a streaming fit of a part of the domain exceeds that of the whole; if the domain is cut into two, the squares of the eigenvalues of the parts add up to those of the whole, and the square of eigenvalue i+j of the whole is at most the square of eigenvalue i of the one part plus the square of eigenvalue j of the other.",
  "all records, cuts of the grid, weights, block parameters, correct decomposition routines, numbers of ranks and write schedules; as many modes kept as blocks are read, blocks independent on the parts",
  "quantifies over all records and all cuts of the grid",
  "pyspod/spod/streaming.py:Streaming.fit")

p("Projections on POD modes keep linear relations of the projected data",
  "If every snapshot of the data of a POD fit satisfies a linear relation (sum over the grid of l(x) q(x) = b), and the data projected on its modes satisfy the same relation with any right-hand side b', every reconstructed snapshot satisfies the relation with right-hand side b'.",
  "all data of the fit, projected data, relations, weights, numbers of modes, solvers, numbers of ranks of the fit, the projection and the reconstruction, and write schedules; eigenvalues of the saved modes positive (otherwise they are nan); b = 0 if the fit subtracts no mean",
  "quantifies over all data and all linear relations",
  "pyspod/pod/standard.py:Standard.fit","pyspod/pod/utils.py:compute_coeffs_op","pyspod/pod/utils.py:compute_reconstruction")
p("POD reconstructions of other data are the nearest fields, and no farther from each other than the data",
  "Without weights, the reconstruction of data projected on the modes of a POD fit of other data is, at every time, nearest to the data among all fields with the data's mean plus a combination of the modes; the energy of the fluctuations is the energy of the reconstruction plus that of the error; and the reconstructions of two records with the same mean are, at every time, no farther apart than the records.",
  "all data of the fit, projected data on the same grid, numbers of modes, solvers returning an orthonormal eigenbasis, numbers of ranks and write schedules; eigenvalues of the kept modes positive and different",
  "quantifies over all data, all combinations of modes and all pairs of records",
  "pyspod/pod/utils.py:compute_coeffs_op","pyspod/pod/utils.py:compute_reconstruction")
p("POD coefficients have mean zero, and projecting a reconstruction again gives the same coefficients",
  "Every row of the coefficients saved by a projection on POD modes sums to zero over time and the reconstruction has the time mean of the data; projecting the reconstruction again on the same modes gives the same coefficients; and the energy of the coefficients at a time is at most that of the data's fluctuation.",
  "all data of the fit, projected data, numbers of modes, solvers, numbers of ranks and write schedules; eigenvalues of the saved modes positive; the second and third claims without weights and with different eigenvalues",
  "quantifies over all data, numbers of ranks and schedules",
  "pyspod/pod/utils.py:compute_coeffs_op","pyspod/pod/utils.py:compute_reconstruction")
p("Projections on streaming modes keep linear relations of the data",
  "If every snapshot of a streaming fit satisfies a linear relation, and the data projected on the modes of selected frequencies satisfy the same relation with any right-hand side b', every reconstructed snapshot satisfies it with right-hand side b'.",
  "all data, relations, positive weights, block parameters, correct decomposition routines, band selections, tolerances, numbers of ranks of each step and write schedules; blocks independent at the selected frequencies",
  "quantifies over all data and all linear relations",
  "pyspod/spod/streaming.py:Streaming.fit","pyspod/spod/utils.py:compute_coeffs_op","pyspod/spod/utils.py:compute_reconstruction")
p("Projection on one frequency of a streaming fit gives inner products",
  "If one frequency of a streaming fit is selected and none of its eigenvalues is zero, row j of the saved coefficients holds the weighted inner products of stored mode j with the fluctuations of the projected data (also if eigenvalues are equal).",
  "all data of the fit, projected data on the same grid, positive weights, block parameters, correct decomposition routines, tolerances below one, numbers of ranks and write schedules; blocks independent at the frequency",
  "quantifies over all data, decompositions, tolerances, numbers of ranks and schedules",
  "pyspod/spod/streaming.py:Streaming.fit","pyspod/spod/utils.py:compute_coeffs_op")
p("The number of positive eigenvalues of a streaming fit is the number of blocks",
  "At a frequency with independent blocks, stored eigenvalue number j (from zero) of a streaming fit is positive if the record holds more than j complete streaming blocks, and zero otherwise.",
  "all records, weights, block parameters, numbers of modes kept, correct decomposition routines, numbers of ranks and write schedules",
  "quantifies over all records and all lengths of the record",
  "pyspod/spod/streaming.py:Streaming.fit")

p("The chunks of the two-stage reader are bounded by the announced size",
  "When files are read in chunks, no rank holds more than about 256 MB of a chunk. (Violated: the number of chunks is rounded down, so a chunk can hold up to nearly 512 MB plus one snapshot per rank, and never more; the record is split into several chunks only if the chunks hold at least 256 MB per rank on average. For both readers.)",
  "all records of files, grid sizes, numbers of variables, item sizes, numbers of ranks, chunks and ranks",
  "quantifies over all sizes of records and numbers of ranks; memory of records of many gigabytes cannot be tested",
  "pyspod/utils/reader.py:reader_2stage","pyspod/utils/reader.py:reader_mat")
p("More data never lower the energies of a streaming fit",
  "Streaming fits of a record with n blocks and of its continuation with n' blocks, with the same number of modes kept (possibly fewer than the blocks): for every j, (n+2) eig_j^2 <= (n'+2) eig'_j^2, and (n'+2) eig'_{j+n'-n}^2 <= (n+2) eig_j^2.",
  "all records and continuations, weights, block parameters, numbers of modes kept, correct decomposition routines, numbers of ranks and write schedules; blocks independent at the frequency",
  "quantifies over all pairs of records and all lengths",
  "pyspod/spod/streaming.py:Streaming.fit")
p("An interrupted POD fit leaves a folder that is refused or belongs to one fit",
  "If a POD fit is interrupted at any point, a later projection on its folder raises or reads the results of one complete fit. (True for a new folder. Violated when the folder holds an earlier fit: then it can be read with the new modes and the old weights or eigenvalues; the modes that the projection uses always belong completely to one of the two fits.)",
  "all earlier and new results and all crash points",
  "quantifies over all crash points and all earlier contents of the folder",
  "pyspod/pod/standard.py:Standard.fit","pyspod/pod/base.py:Base._store_and_save","pyspod/pod/utils.py:compute_coeffs_op")

p("Runs on different numbers of ranks agree up to rounding",
  "In floating-point arithmetic the matrices of a fit on one process or any number of ranks, with the sums taken in any order, agree with the exact matrix (and so with each other): entry (i,j) up to a relative error of about 1.5 (2n+p+1) u of the geometric mean of the energies of the two blocks (n values per rank, p ranks, unit roundoff u). The total energy has this relative error, and every eigenvalue found by a solver with residual d is an exact one up to this fraction of the total energy plus d.",
  "all data, weights, block parameters, frequencies, numbers of ranks, distributed axes, unit roundoffs, orders of the additions in the local products and in the reduction, results of every rounded operation, solver residuals; no overflow or underflow, exact Fourier transforms of the blocks (see C232)",
  "quantifies over all orders of additions and all rounding errors; a test sees one order on one machine",
  "pyspod/spod/standard.py:Standard._compute_standard_spod","pyspod/utils/parallel.py:allreduce")
p("The reported eigenvalues are close to the exact ones for all sources of floating-point error together",
  "If the Fourier transforms of the blocks have errors of at most e in every value, the matrix is computed in floating-point arithmetic on any number of ranks, and the eigen-solver leaves a residual d, then every reported eigenvalue is, up to the rounding bound times the total energy plus d, one of a descending list of numbers whose square roots differ from those of the exact eigenvalues by at most e times the root of the sum of the weights (times the one-sided factor).",
  "all data, weights, block parameters, frequencies, errors of the transforms, numbers of ranks, orders of the additions, rounding errors and solver residuals; no overflow or underflow",
  "quantifies over all rounding errors of transforms, products, sums and solver",
  "pyspod/spod/standard.py:Standard.fit","pyspod/spod/standard.py:Standard._compute_standard_spod","pyspod/utils/parallel.py:allreduce")

p("The eigenvalues of a POD are close to the exact ones for all sources of floating-point error together",
  "If the mean is computed and subtracted in floating-point arithmetic, the correlation matrix is computed on any number of ranks with any order of additions, and the eigen-solver leaves a residual d, then every computed eigenvalue is, up to the rounding bound times their sum plus d, one of a descending list of numbers whose square roots differ from those of the exact eigenvalues by at most 2 X ((1+u)^(nt+2)-1) times the root of nt times the sum of the weights, where X bounds the data. (The error is relative to the data, not to the fluctuations.)",
  "all data, weights, mean types, numbers of ranks, distributed axes, unit roundoffs, orders of the additions, rounding errors and solver residuals; no overflow or underflow",
  "quantifies over all orders of additions and all rounding errors; a test sees one order on one machine",
  "pyspod/pod/standard.py:Standard.fit","pyspod/pod/base.py:Base.long_t_mean","pyspod/utils/parallel.py:allreduce")
p("POD coefficients and reconstructions on different numbers of ranks agree up to rounding",
  "For a folder with real modes, the coefficients and the reconstruction computed in floating-point arithmetic on any number of ranks with any order of additions differ from the exact ones by at most ((1+u)^K - 1) times a number that depends only on the modes and the magnitude X of the data: 2 X sum|mode| for a coefficient (K = snapshots + values per rank + ranks), X plus the sum of these over the modes, times their values at the point, for the reconstruction (K larger by the number of modes plus one).",
  "all folders with real modes, data, numbers of ranks, distributed axes, unit roundoffs, orders of the additions and rounding errors; no overflow or underflow",
  "quantifies over all orders of additions and all rounding errors; a test sees one order on one machine",
  "pyspod/pod/utils.py:compute_coeffs_op","pyspod/pod/utils.py:compute_reconstruction","pyspod/utils/parallel.py:allreduce")

p("The reported spectrum in floating-point arithmetic: near the exact one, nearly sorted, and numbers where it is above the error",
  "With the matrix computed in floating-point arithmetic on any number of ranks with any order of additions and an eigen-solver that leaves a residual d, let B be the rounding bound times the sum of the exact eigenvalues plus the residual. Whether or not the values pass np.real_if_close (an absolute tolerance: it depends on the units of the data), every reported eigenvalue is an exact one up to B, the reported list descends up to 2 B, every mode whose reported eigenvalue is above B has a factor that is a number (not nan or inf), of squared modulus one over blocks times eigenvalue (undoubled), and reporting moduli or absolute real parts makes a difference of at most B. Below B a mode can be nan although its reported eigenvalue is positive.",
  "all configurations, data, weights, numbers of ranks, unit roundoffs, orders of the additions, rounding errors, solver residuals and tolerances; no overflow or underflow",
  "quantifies over all rounding errors and both branches of the test for real values; a test sees one",
  "pyspod/spod/standard.py:Standard._compute_standard_spod")

p("A whole SPOD fit in floating-point arithmetic: the reported spectrum is near the exact one",
  "Without normalize_data: if means, fluctuations, window, Fourier transforms (relative error g), scaling, the cross-spectral matrices (any number of ranks, any order of additions) and the eigen-solver (residual d) all make their errors together, then at every frequency there is a descending list of numbers whose roots differ from those of the exact eigenvalues by at most 2 X h times the root of the (one-sided) factor times the sum of the weights, where X bounds the data and h = (1+u)^(nt+7) (1 + g k) / (2 - (1+u)^n_dft) - 1 (k: largest window value over the mean); every reported eigenvalue is one of them up to the rounding bound times their sum plus the residual, the reported list descends up to twice that, and the factors of the modes above it are numbers.",
  "all configurations without normalisation, data, weights, non-negative windows, numbers of ranks, distributed axes, unit roundoffs, orders of the additions, rounding errors, transforms and solvers of the stated accuracy and tolerances of real_if_close; no overflow or underflow",
  "quantifies over all orders of additions and all rounding errors; a test sees one order on one machine",
  "pyspod/spod/standard.py:Standard._compute_blocks","pyspod/spod/standard.py:Standard._compute_standard_spod","pyspod/spod/base.py:Base.long_t_mean","pyspod/utils/parallel.py:allreduce")

p("Records that repeat from block to block give one mode per frequency: their Fourier coefficients",
  "If the data have a period that divides the distance between blocks, then at every frequency the first eigenvalue is the weighted energy of the Fourier coefficients of a block (doubled for a one-sided spectrum), all other eigenvalues are zero, and where it is not zero the stored first mode is the field of Fourier coefficients divided by its norm, up to a factor of modulus one.",
  "all periodic data, mean types, with and without normalisation, windows, overlaps, weights, correct eigen-solvers, numbers of ranks and write schedules",
  "quantifies over all periodic fields and periods; a test tries one sinusoid",
  "pyspod/spod/standard.py:Standard._compute_blocks","pyspod/spod/standard.py:Standard._compute_standard_spod")

p("Stored SPOD modes keep unit norm and orthogonality in floating-point arithmetic, as far as their eigenvalue exceeds the rounding errors",
  "When the matrix, the factors and the modes of a frequency are computed with unit roundoff u, on any number of ranks and with additions in any order, and the eigen-solver returns a pair with a small residual, then the weighted norm of the stored mode differs from the norm of the computed vector by at most explicit relative errors: the rounding errors of the matrix relative to (energy / eigenvalue), and those of the products relative to the root of (energy / eigenvalue). The weighted product of two modes with different eigenvalues is bounded in the same way, with the distance of the eigenvalues. Without a lower bound on the eigenvalue nothing holds: a positive eigenvalue of the size of u can come with a mode that is exactly zero.",
  "all Fourier coefficients, weights, unit roundoffs, numbers of ranks and splits, orders of the additions, residuals of the eigen-solver",
  "quantifies over all rounding errors, orders and distributions; a test sees the errors of one machine",
  "pyspod/spod/standard.py:Standard._compute_standard_spod","pyspod/utils/parallel.py:allreduce")

p("The overlap of the blocks is the requested percentage of n_dft, rounded up",
  "For a percentage that the user writes (16.1, say) the blocks overlap by the smallest whole number of snapshots that is at least that percentage of n_dft. (Violated: the product and the quotient are rounded to double precision before the ceiling, and n_dft = 1000 with overlap = 16.1 gives 162 instead of 161. Proved: whole percentages are exact, and all others are off by at most one.)",
  "all n_dft below 2^50, all percentages from 0 to 100, every rounding to double precision that is monotone, exact on numbers of 53 bits and has relative error 2^-53",
  "depends on the rounding of each single pair of numbers; a test tries a few pairs",
  "pyspod/spod/base.py:Base.__init__")
p("Counts and frequencies computed in double precision are the exact ones",
  "The numbers that the code computes with floating-point division and then converts to integers are the exact ones: the numbers of passes, of parallel streaming blocks, of frequencies of a streaming fit and of chunks in which files are read (for data below 2^51 bytes). The frequency axis starts at 0, is strictly increasing, has a relative error of at most 2^-51, and for real data no entry exceeds the rounded Nyquist frequency, which is the last entry when n_dft is even.",
  "all integers below 2^50 (bytes below 2^51), all positive time steps, every rounding to double precision that is monotone, exact on numbers of 53 bits and has relative error 2^-53; no overflow or underflow",
  "holds for every pair of numbers; a test tries a few",
  "pyspod/utils/reader.py:reader_2stage.__init__","pyspod/utils/reader.py:reader_mat.__init__","pyspod/spod/standard.py:Standard._compute_standard_spod","pyspod/spod/streaming.py:Streaming.fit","pyspod/spod/base.py:Base.get_freq_axis")

p("Normalization of the weights in floating-point arithmetic: the same on every number of ranks up to rounding",
  "For values of size at most X the variance of a variable over all points, snapshots and ranks is computed with an error of at most ((1+u)^(3L+6p)-1)(p+3)X^2 on p ranks with at most L values each, whatever the order in which numpy adds and MPI reduces; the mean likewise, the count exactly; the variance is never negative. Where the variance is at least twice the error bound, the normalized weights of a serial and a parallel run agree with the exact ones, and with each other, up to the relative size of that error. The bound is relative to X^2 and not to the variance, and has to be: three values 0.1 in double precision have a computed variance of 2^-112, not 0, so a constant variable gets weights multiplied by 5e33 instead of a division by zero.",
  "all values, all distributions over ranks that leave none empty, all reduction trees, all orders of the additions, all unit roundoffs (0 <= u; u <= 1 for the sign), all non-negative weights",
  "every order of additions and every reduction tree gives other rounding errors; a test sees one of them",
  "pyspod/utils/parallel.py:pvar","pyspod/utils/weights.py:apply_normalization")

p("Scaling of the emulation data in double precision",
  "In double precision every scaled value is a number; with globalmax no scaled value exceeds 1 in modulus (rounding included), with localmax none exceeds 1/10 by more than a relative 2^-51. De-scaling returns every value up to a relative error of 2^-51; exactly for normalizations other than localmax and globalmax, and for the values of largest modulus with globalmax. (Not exactly in general: 1 in the data [1, 49] comes back as 1 - 2^-53.)",
  "all non-empty data of doubles without a row of zeros, all normalizations, every rounding to double precision that is monotone, exact on numbers of 53 bits and has relative error 2^-53; no overflow or underflow",
  "holds for every value; a test tries a few",
  "pyspod/emulation/base.py:Base.scaler","pyspod/emulation/base.py:Base.scale_data","pyspod/emulation/base.py:Base.descale_data")

p("check_orthogonality accepts the modes of a fit in floating-point arithmetic",
  "For modes computed and stored in floating-point arithmetic (as in C238), check_orthogonality of a mode with itself, and of two modes with different eigenvalues, returns True on every number of ranks when the rounding errors relative to the eigenvalues stay below explicit bounds (5e-7 for the norm, 1e-6 for the product). In double precision this covers a hundred blocks, a million values per rank on 64 ranks and eigenvalues of at least a thousandth of the energy. A mode that rounding has made zero does not pass.",
  "all Fourier coefficients, weights, unit roundoffs up to 1e-8, numbers of ranks in the fit and in the check, orders of the additions, residuals of the eigen-solver within the bounds",
  "every order of additions gives other rounding errors, and the tolerance 2e-6 of the check has to hold for all of them; a test sees one",
  "pyspod/spod/utils.py:check_orthogonality","pyspod/spod/standard.py:Standard._compute_standard_spod")

p("SPOD coefficients and reconstructions in floating-point arithmetic",
  "compute_coeffs_op and compute_reconstruction in floating-point arithmetic, on any number of ranks and with any order of additions: if every combination of the selected modes with coefficients of norm one has at least the weighted energy s, and tol is below s relative to the total energy of the modes, the coefficients of every snapshot differ from the exact ones by at most the rounding bound times the energy of the modes times the size of the coefficients and data, plus the residual of the solver, divided by s, plus the rounding of the mean; the reconstruction differs by the value of the modes at the point times that, plus a multiple of the unit roundoff. Data that are a combination of the modes are recovered up to this bound. For modes that are orthonormal s = 1. The condition is needed: for two independent modes (1,0), (1,e) with e^2 below the unit roundoff, coefficients at any distance from the exact ones solve the computed equations exactly.",
  "all results folders that fit the data, selections of frequencies, data, weights, tolerances, numbers of ranks, distributed axes, unit roundoffs, orders of the additions, rounding errors and solver residuals; no overflow or underflow",
  "every order of additions and every number of ranks gives other rounding errors, amplified by the inverse of the matrix of the modes; a test sees a few of them on well-conditioned modes",
  "pyspod/spod/utils.py:_oblique_projection","pyspod/spod/utils.py:compute_coeffs_op","pyspod/spod/utils.py:compute_reconstruction","pyspod/spod/utils.py:_compute_rec_op")

p("The blocks of a streaming fit in floating-point arithmetic",
  "In a streaming fit of real data in floating-point arithmetic, at every grid point and frequency: as many blocks are handed to the update of the modes as in exact arithmetic, at the same snapshots, and each differs from the windowed Fourier transform of its segment minus the mean of the snapshots read so far by at most 4 X times a bound of about 4 (4 nt + 3 n_dft + 7) u + 2 n_dft u + 2 gamma, where X bounds the data at the point, nt is the number of snapshots, u the unit roundoff and gamma the error of the computed Fourier matrix. The running mean differs from the mean by at most ((1+u)^(4 nt) - 1) X. So errors grow with the number of snapshots read, linearly to first order, not exponentially.",
  "all streams of real data, block lengths, overlaps, windows with nonnegative values, frequencies, unit roundoffs with (1+u)^n_dft < 2, rounding errors and errors of the Fourier matrix; no overflow or underflow",
  "the errors accumulate over the whole stream; a test sees one stream of one length",
  "pyspod/spod/streaming.py:fit")

p("The values of a streaming fit in floating-point arithmetic",
  "A streaming fit of real data in floating-point arithmetic, on any number of ranks and with any order of additions: after M updates the stored basis and values give every spatial pattern the energy that the average of the blocks, with the weights (m+2)/((m+3)(M+2)), gives it, up to a sum over the updates of (k+1)^3 times the unit roundoff times the size of the data, of the residual of the singular value decomposition, and of twice the value that the update dropped. The i-th stored value is the square root of the i-th principal energy of the average of the exact blocks up to that error plus the error of the blocks, and up to the factors sqrt(1-theta), sqrt(1+theta), where theta is the loss of orthogonality of the stored basis. So errors add up over the updates and are not amplified, although the normalization of a nearly zero orthogonal part amplifies its direction errors without bound.",
  "all streams of real data, weights, block lengths, overlaps, windows, frequencies, numbers of stored modes, numbers of ranks, distributed axes, unit roundoffs, orders of the additions, rounding errors and residuals of the decomposition; columns of the computed basis not longer than 2, no overflow or underflow, no division by zero",
  "each update divides by the norm of a difference that may cancel; a test sees one stream and one order of additions, and cannot exclude that errors of many updates multiply",
  "pyspod/spod/streaming.py:fit")

p("Convolution coefficients in floating-point arithmetic",
  "compute_coeffs_conv over the whole frequency axis in floating-point arithmetic with unit roundoff u, with any order of the additions: every coefficient written to coeffs.npy differs from the coefficient of exact arithmetic (C143) by at most a factor times the amplitude correction, times twice the largest magnitude of the data, times the sum of the window, times the weighted sum of the moduli of the mode over the grid points that are summed (all on one process, those of rank 0 on several ranks). The factor is at most twice (number of snapshots + window length + twice the number of grid points + 9) u plus twice the error of the Fourier transform. In particular the amplitude correction at the ends of the record, a quotient of sums of the window under a root, does not amplify rounding errors.",
  "all results folders that fit the data, data, positive windows, transform lengths, times, frequencies, modes, numbers of ranks, distributed axes, unit roundoffs below 1, orders of the additions and rounding errors; non-negative weights, at least two frequencies and modes, no overflow or underflow",
  "a test sees one record and one order of the additions, and has no exact value to compare with",
  "pyspod/spod/utils.py:compute_coeffs_conv")

p("SPOD with normalize_data in floating-point arithmetic",
  "A SPOD fit with normalize_data in floating-point arithmetic with unit roundoff u, with any order of the additions: the square roots of the eigenvalues differ from those of exact arithmetic by a bound proportional to the relative rounding error of the variances plus about three times (number of snapshots + block length + 8) u plus the error of the Fourier transform, times twice the largest magnitude of the data divided by the smallest divisor, times the square root of the total weight; the reported eigenvalues are within the rounding error of the cross-spectral matrix of these. This holds when every variance over a block at a point is away from the threshold 4 eps below which it is replaced by 1 by more than its rounding error. Where a variance is equal to the threshold it is false: one rounding error decides whether the block is divided by the threshold or by 1, and the coefficients change by a factor of about 10^15.",
  "all accepted data, configurations with normalize_data, non-negative windows, mean types, weights, numbers of ranks, distributed axes, unit roundoffs, orders of the additions and rounding errors, eigensolver errors; no overflow or underflow",
  "a test sees one data set and one order of the additions, and has no exact value to compare with; data with a variance at the threshold is not found by chance",
  "pyspod/spod/standard.py:_compute_blocks", "pyspod/spod/standard.py:fit")

p("Error measures in floating-point arithmetic",
  "compute_l_errors in floating-point arithmetic with unit roundoff u, with any order of the additions: for fields of n values each of the six measures (for the relative ones: with a reference without zeros) differs from the exact one by at most (1 + u)^(n + 6) - 1 times the exact one, so that all leading digits are right however close the fields are; the result is never negative, and zero exactly for equal fields (except linf_rel, which is signed), and two evaluations with different orders of the additions differ by at most twice that bound. compute_h_errors differs from the exact h1 error by at most u times it plus a multiple of the root of the roundoff times the magnitude of the fields, since the differences between snapshots cancel.",
  "all real fields of the same non-zero size, references, measures, time steps above 0, numbers and sizes of snapshots, unit roundoffs, orders of the additions and rounding errors; no overflow or underflow",
  "a test sees one pair of fields and one order of the additions, and has no exact value to compare with",
  "pyspod/utils/errors.py:compute_l_errors", "pyspod/utils/errors.py:compute_h_errors")

p("A fit does not overflow",
  "In a SPOD fit (without normalize_data) of snapshots of magnitude at most X, with non-negative window values and weights of known size, no intermediate value of the computation of the Fourier coefficients (means, partial sums, fluctuations, windowed values, results of the transform, scaling factor) and of the matrices (weighted blocks, products, partial sums, quotients, partial sums of allreduce) exceeds an explicit number that grows with X times the number of snapshots, and with its square times the number of points, on one process and on p ranks, whatever the order of the additions and the rounding errors; so when that number is below the largest floating-point number nothing overflows (double precision: data up to 10^60; single precision: data up to 10^6 for the cases computed). That the data are below the largest number is not enough: the sum of the long-time mean (computed for every mean type) of eight equal snapshots of that magnitude is above it.",
  "all data, window lengths, overlaps, windows, weights, mean types blockwise, longtime and zero, numbers of ranks, orders of the additions, unit roundoffs u with (1 + u)^n_dft < 2 and rounding errors; values inside the Fourier transform are not covered",
  "a test tries data of ordinary magnitude; which intermediate result becomes too large first, and at which magnitude, depends on the sizes and on the order of the additions",
  "pyspod/spod/standard.py:Standard._compute_blocks", "pyspod/spod/standard.py:Standard.fit", "pyspod/spod/base.py:Base.select_mean", "pyspod/spod/base.py:Base.long_t_mean", "pyspod/spod/base.py:Base._initialize")

p("A POD fit does not overflow",
  "In a POD fit of snapshots of magnitude at most X no intermediate value of the computation of the fluctuations (sums of the mean, mean, conversions, differences) and of the correlation matrix (weighted fluctuations, products, partial sums, partial sums of allreduce) exceeds an explicit number that grows with X times the number of snapshots and with its square times the number of points, on one process and on p ranks, in any order of the additions; so when that number is below the largest floating-point number nothing overflows before the eigenvalue computation.",
  "all data, weights, mean types, numbers of ranks, slabs, orders of the additions, unit roundoffs and rounding errors",
  "a test tries data of ordinary magnitude; which intermediate result becomes too large first depends on the sizes and on the order of the additions",
  "pyspod/pod/standard.py:Standard.fit", "pyspod/pod/base.py:Base.select_mean", "pyspod/pod/base.py:Base.long_t_mean")
p("The modes of a fit do not overflow",
  "In the computation of the modes of a SPOD fit no intermediate value (roots, products and the reciprocal of the factor, scaled eigenvectors, products and partial sums) exceeds an explicit number that depends on the magnitude of the data, the number of blocks, the norm of the eigenvectors and a lower bound of the eigenvalue; in double precision the factor of any positive eigenvalue stays below 10^163, and the modes of data up to 10^60 below the largest number. A positive eigenvalue alone is not enough: whatever the largest number is, there is a positive eigenvalue (below the range of the format) whose factor is above it.",
  "all data, windows, eigenvalues between two positive bounds, eigenvectors of bounded norm, orders of the additions, unit roundoffs u with (1 + u)^n_dft < 2 and rounding errors; eigenvalues that real_if_close has made real",
  "a test sees the eigenvalues of a few data sets, none of them near the ends of the range of the format",
  "pyspod/spod/standard.py:Standard._compute_standard_spod")

p("Integer-valued data give the same POD matrix bit for bit on any number of processes",
  "In double precision, for data with integer values (mean_type zero, or longtime with integer means) and integer weights, of limited size (number of snapshots times magnitude, and number of points times four times the squared magnitude times the weight, at most 2^53), the fluctuations and the correlation matrix of a POD fit are exact: every run returns the same bits, on one process and on any number of ranks, split along any axis, in whatever order np.sum, the matrix product and allreduce add. The long-time mean of integers is the exact mean rounded once, whatever the order. Without the limit on the size this is false: 2^53 + 1 - 2^53 is 1 or 2 depending on the order.",
  "all integer-valued data, integer weights, numbers of snapshots and points within the limits, numbers of ranks, axes and orders of the additions; every rounding that is monotone and exact on numbers of 53 bits; fused multiply-add not modelled",
  "a test compares two runs of one library on one machine, which mostly use the same order of the additions",
  "pyspod/pod/standard.py:Standard.fit", "pyspod/pod/base.py:Base.long_t_mean", "pyspod/utils/parallel.py:allreduce")

p("Changing the unit of the data by a power of two changes no digit of a POD fit",
  "In floating-point arithmetic without overflow and underflow, multiplying the data by 2^k multiplies every possible mean and fluctuation by exactly 2^k and every possible entry of the correlation matrix by exactly 4^k: no digit changes, on one process and on any number of ranks and in any order of the additions. With underflow this is false: where products below the smallest representable number become zero, the correlation matrix of small enough data is zero, whatever the data are.",
  "all data, weights, exponents k (of either sign), numbers of ranks, axes and orders of the additions; every rounding that commutes with powers of two (round-to-nearest with 53 bits is proved to), and every rounding that flushes small numbers",
  "a test tries a few factors and data of ordinary size, where neither rounding nor underflow shows",
  "pyspod/pod/standard.py:Standard.fit", "pyspod/pod/base.py:Base.long_t_mean", "pyspod/utils/parallel.py:allreduce")

p("The eigenvalues of a POD fit are real",
  "The matrix that a POD fit decomposes is symmetric, so its eigenvalues are real and so are the saved modes. In double precision this holds when every weight is a power of two (the default weights are one) and all entries are added with the same procedure. For other weights it is false, even uniform ones and in whatever order the terms are added: the weight multiplies one of the two snapshots before the product is rounded, so entries (i,j) and (j,i) are rounded differently; two snapshots of two points with weights 5 give a matrix without a real eigenvalue, and the fit, which does not ask for a symmetric decomposition, saves complex eigenvalues and modes that are not real.",
  "all data, weights that are powers of two, numbers of snapshots, points and ranks, axes and orders of the additions; round-to-nearest with 53 bits",
  "a test with one data set compares the real parts or uses unit weights; the defect depends on the last bits of the data",
  "pyspod/pod/standard.py:Standard.fit", "pyspod/utils/parallel.py:allreduce")

if __name__=="__main__":
    for d in P: print(json.dumps(d))
