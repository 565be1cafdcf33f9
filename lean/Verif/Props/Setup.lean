import Verif.Model.Setup
import Verif.Model.Reader
import Verif.Props.Names
import Verif.Props.Distribute
import Mathlib.RingTheory.RootsOfUnity.Complex
/-
  C84-C88: set-up of a fit.
-/
namespace Verif.Props
open Verif Verif.Par Verif.Setup

/-! ### C84: weights -/

theorem size_append_one (l : List Nat) (n : Nat) : size (l ++ [n]) = size l * n := by
  induction l with
  | nil => simp [size]
  | cons a l ih => simp [size, ih, Nat.mul_assoc]

/-- **C84 (exact).** Serial run on snapshots of shape `xshape ++ [m]`: user weights are accepted exactly when they have
    as many entries as the data and `n_variables` is the extent of the last axis; their shape is not looked at. -/
theorem weights_accepted_exact (xshape : List Nat) (nv m ax : Nat) (w : Arr ℝ) (hx : 0 < size xshape) :
    (flatWeights xshape nv ax none (xshape ++ [m]) (some w)).isSome ↔
      size w.shape = size (xshape ++ [m]) ∧ nv = m := by
  simp only [flatWeights, defineWeights, distributeDimension, size_append_one]
  by_cases h : size w.shape = size xshape * nv
  · rw [if_pos h]
    simp only
    by_cases h2 : size w.shape = size xshape * m
    · rw [if_pos h2]
      simp only [Option.isSome_some, true_iff]
      exact ⟨h2, Nat.eq_of_mul_eq_mul_left hx (h.symm.trans h2)⟩
    · rw [if_neg h2]
      simp [h2]
  · rw [if_neg h]
    simp only [Option.isSome_none, Bool.false_eq_true, false_iff, not_and]
    rintro h1 rfl
    exact h h1

/-- `n_variables` different from the extent of the last axis is rejected, also with default weights. -/
theorem variables_checked (xshape : List Nat) (nv m ax : Nat) (hx : 0 < size xshape) :
    (flatWeights xshape nv ax none (xshape ++ [m]) none).isSome ↔ nv = m := by
  simp only [flatWeights, defineWeights, distributeDimension, size_append_one]
  by_cases h : nv = m
  · subst h; simp
  · rw [if_neg]
    · simp [h]
    · intro h2; exact h (Nat.eq_of_mul_eq_mul_left hx h2)

/-- **C84 (proved part).** Weights of the shape of the data, on one process or on any rank `r` of `p` split along any
    axis: the weight multiplying the value at local index `idx` is the weight of that grid point and variable. -/
theorem weights_applied_partial (xshape : List Nat) (nv ax : Nat) (w : Arr ℝ) (hw : w.shape = xshape ++ [nv])
    (p r : Nat) :
    (∃ f, flatWeights xshape nv ax none (xshape ++ [nv]) (some w) = some f ∧
      ∀ idx, InRange (xshape ++ [nv]) idx → f (ravel (xshape ++ [nv]) idx) = w.at' idx) ∧
    (∀ D : Arr ℝ, D.shape = w.shape →
      ∃ f, flatWeights xshape nv ax (some (p, r)) (distributeDimension D ax (some (p, r))).shape (some w) = some f ∧
      ∀ idx, InRange (distributeDimension D ax (some (p, r))).shape idx →
        f (ravel (distributeDimension D ax (some (p, r))).shape idx) =
          w.at' (idx.set ax (idx.getD ax 0 + (blockdist (ext w.shape ax) p r).2))) := by
  have h1 : size w.shape = size xshape * nv := by rw [hw, size_append_one]
  constructor
  · refine ⟨fun k => w.at' (unravel w.shape k), ?_, fun idx h => ?_⟩
    · simp only [flatWeights, defineWeights, if_pos h1, distributeDimension]
      exact if_pos (congrArg size hw)
    · simp only [hw, unravel_ravel h]
  · intro D hD
    have hs : (distributeDimension D ax (some (p, r))).shape = (distributeDimension w ax (some (p, r))).shape := by
      simp only [distributeDimension, Arr.slice, hD]
    refine ⟨fun k => (distributeDimension w ax (some (p, r))).at'
      (unravel (distributeDimension w ax (some (p, r))).shape k), ?_, fun idx h => ?_⟩
    · simp only [flatWeights, defineWeights, if_pos h1, hs, ↓reduceIte]
    · rw [hs] at h ⊢
      simp only [unravel_ravel h]
      rfl

/-- **C84 (violated).** Weights of another shape are not rejected: for data on a 2×3 grid, weights of shape (3,2,1)
    are accepted and the point (0,2) gets the weight stored at (1,0). -/
theorem weights_shape_fails :
    ∃ f, flatWeights [2, 3] 1 0 none [2, 3, 1] (some ⟨[3, 2, 1], fun i => ((10 * i.getD 0 0 + i.getD 1 0 : ℕ) : ℝ)⟩)
      = some f ∧ f (ravel [2, 3, 1] [0, 2, 0]) = 10 := by
  refine ⟨_, rfl, ?_⟩
  norm_num [ravel, unravel, size, distributeDimension]

example : (⟨[2, 3, 1], fun _ => 1⟩ : Arr ℝ).shape = [2, 3] ++ [1] ∧ 0 < size [2, 3] := by decide

/-- Default weights are one everywhere, serially and on any rank. -/
theorem default_weights_one (xshape : List Nat) (nv ax : Nat) (comm : Comm) (localShape : List Nat) (f : Nat → ℝ)
    (h : flatWeights xshape nv ax comm localShape none = some f) (k : Nat) : f k = 1 := by
  simp only [flatWeights, defineWeights] at h
  split at h
  · simp only [Option.some.injEq] at h
    rw [← h]
    cases comm <;> rfl
  · simp at h

/-- **C84 (shapes).** Any number of datasets of shape `xs ++ [nv]` per snapshot, or of shape `xs` for one variable, are
    recognised as a grid `xs` with `nv` variables. -/
theorem data_shape_recognised (xs : List Nat) (nv n : Nat) :
    initShape1 nv xs.length (List.replicate (n + 1) (xs ++ [nv])) = some (xs, xs ++ [nv]) ∧
    initShape1 1 xs.length (List.replicate (n + 1) xs) = some (xs, xs ++ [1]) := by
  constructor
  · have h : snapShape nv xs.length (xs ++ [nv]) = xs ++ [nv] := by
      unfold snapShape
      rw [if_neg (by simp)]
    simp [initShape1, List.replicate_succ, h]
  · have h : snapShape 1 xs.length xs = xs ++ [1] := by
      unfold snapShape
      rw [if_pos ⟨rfl, by omega⟩]
    simp [initShape1, List.replicate_succ, h]

/-- Datasets of different spatial shape are rejected, wherever the odd one is. -/
theorem data_shape_mismatch (nv xdim : Nat) (d : List Nat) (ds : List (List Nat)) (e : List Nat) (he : e ∈ ds)
    (hne : e ≠ d) : initShape1 nv xdim (d :: ds) = none := by
  simp only [initShape1]
  rw [if_neg]
  simp only [List.all_eq_true, decide_eq_true_eq, not_forall]
  exact ⟨e, he, hne⟩

/-- **C84 (fails).** Two or more variables requested of data without a variable axis: the last axis of the grid is taken
    for the variables. -/
theorem data_shape_fails (xs : List Nat) (nv n : Nat) (hnv : nv ≠ 1) (hxs : xs ≠ []) :
    initShape1 nv xs.length (List.replicate (n + 1) xs) = some (xs.dropLast, xs) := by
  have h : snapShape nv xs.length xs = xs := by
    unfold snapShape
    rw [if_neg (fun h => hnv h.1)]
  simp [initShape1, List.replicate_succ, h, hxs]

/-! ### C85: the window and its gain correction -/

theorem hamming_getD (N k : Nat) (hk : k < N) :
    (hamming N).getD k 0 = 0.54 - 0.46 * Real.cos (2 * Real.pi * k / ((N : ℝ) - 1)) := by
  simp [hamming, List.getD_eq_getElem?_getD, List.getElem?_map, List.getElem?_range hk]

/-- the window lies between 0.08 and 1 -/
theorem hamming_bounds (N k : Nat) (hk : k < N) : 0.08 ≤ (hamming N).getD k 0 ∧ (hamming N).getD k 0 ≤ 1 := by
  rw [hamming_getD N k hk]
  have h1 := Real.cos_le_one (2 * Real.pi * k / ((N : ℝ) - 1))
  have h2 := Real.neg_one_le_cos (2 * Real.pi * k / ((N : ℝ) - 1))
  constructor <;> linarith

/-- the window is symmetric -/
theorem hamming_symm (N k : Nat) (hN : 2 ≤ N) (hk : k < N) :
    (hamming N).getD (N - 1 - k) 0 = (hamming N).getD k 0 := by
  rw [hamming_getD N k hk, hamming_getD N (N - 1 - k) (by omega)]
  congr 2
  have hn : (N : ℝ) - 1 ≠ 0 := by
    have : (2 : ℝ) ≤ N := by exact_mod_cast hN
    linarith
  have : (((N - 1 - k : ℕ)) : ℝ) = (N : ℝ) - 1 - k := by
    rw [Nat.cast_sub (by omega), Nat.cast_sub (by omega)]; simp
  rw [this, show 2 * Real.pi * ((N : ℝ) - 1 - k) / ((N : ℝ) - 1) = 2 * Real.pi - 2 * Real.pi * k / ((N : ℝ) - 1) by
    field_simp]
  exact Real.cos_two_pi_sub _

theorem sum_cos_zero (n : Nat) (hn : 2 ≤ n) :
    ∑ k ∈ Finset.range n, Real.cos (2 * Real.pi * k / n) = 0 := by
  have h := (Complex.isPrimitiveRoot_exp n (by omega)).geom_sum_eq_zero (by omega)
  have h2 := congrArg Complex.re h
  rw [Complex.re_sum] at h2
  simp only [Complex.zero_re] at h2
  rw [← h2]
  apply Finset.sum_congr rfl
  intro k _
  rw [← Complex.exp_nat_mul, show (k : ℂ) * (2 * Real.pi * Complex.I / n) =
    ((2 * Real.pi * k / n : ℝ) : ℂ) * Complex.I by push_cast; ring, Complex.exp_ofReal_mul_I_re]

theorem list_sum_range_map (n : Nat) (g : Nat → ℝ) : ((List.range n).map g).sum = ∑ k ∈ Finset.range n, g k := by
  induction n with
  | zero => rfl
  | succ n ih => rw [List.range_succ, List.map_append, List.sum_append, ih, Finset.sum_range_succ]; simp

/-- sum of the window in closed form -/
theorem hamming_sum (N : Nat) (hN : 3 ≤ N) : (hamming N).sum = 0.54 * N - 0.46 := by
  obtain ⟨n, rfl⟩ : ∃ n, N = n + 1 := ⟨N - 1, by omega⟩
  have e : (hamming (n + 1)).sum = ∑ k ∈ Finset.range (n + 1), ((0.54 : ℝ) - 0.46 * Real.cos (2 * Real.pi * k / n)) := by
    rw [hamming, list_sum_range_map]
    simp
  rw [e, Finset.sum_sub_distrib, ← Finset.mul_sum, Finset.sum_range_succ (fun (k : ℕ) => Real.cos (2 * Real.pi * k / n)), sum_cos_zero n (by omega)]
  have hn : (n : ℝ) ≠ 0 := by
    have : 0 < n := by omega
    positivity
  rw [mul_div_assoc, div_self hn, mul_one, Real.cos_two_pi]
  simp
  ring

/-- **C85.** Gain correction: for every block length accepted by a fit, window and scaling together reproduce the
    amplitude: the bin at frequency `k` of the transform of `A·exp(2πi k t/n)` is `A` (with `k = 0`: a constant is
    reported with its own value). -/
theorem window_gain (n k : Nat) (hn : 4 ≤ n) (A ω : ℂ) (hω : ω ≠ 0) (isreal full : Bool)
    (hk : k < Spod.nFreq n isreal full) :
    (Spod.blockHat ω ((Spod.winWeight (hamming n) : ℝ) : ℂ) isreal full
      ((List.range n).map fun (t : Nat) => (((hamming n).getD t 0 : ℝ) : ℂ) * (A * (ω ^ (t * k))⁻¹))).getD k 0 = A := by
  have hl : ((List.range n).map fun (t : Nat) => (((hamming n).getD t 0 : ℝ) : ℂ) * (A * (ω ^ (t * k))⁻¹)).length = n := by
    simp
  have hhl : (hamming n).length = n := by simp [hamming]
  simp only [Spod.blockHat]
  rw [hl, List.getD_eq_getElem?_getD, List.getElem?_map, List.getElem?_range hk]
  simp only [Option.map_some, Option.getD_some, Spod.dftBin, hl]
  have e : ∑ t ∈ Finset.range n, ((List.range n).map fun (t : Nat) =>
      (((hamming n).getD t 0 : ℝ) : ℂ) * (A * (ω ^ (t * k))⁻¹)).getD t 0 * ω ^ (t * k) =
      (((hamming n).sum : ℝ) : ℂ) * A := by
    have h1 : (hamming n).sum = ∑ t ∈ Finset.range n, (hamming n).getD t 0 := by
      rw [hamming, list_sum_range_map]
      exact Finset.sum_congr rfl fun t ht => (hamming_getD n t (Finset.mem_range.1 ht)).symm
    rw [h1, Complex.ofReal_sum, Finset.sum_mul]
    apply Finset.sum_congr rfl
    intro t ht
    rw [List.getD_eq_getElem?_getD, List.getElem?_map, List.getElem?_range (Finset.mem_range.1 ht)]
    simp only [Option.map_some, Option.getD_some]
    have : ω ^ (t * k) ≠ 0 := pow_ne_zero _ hω
    field_simp
  rw [e, Spod.winWeight, hhl]
  have hs : (hamming n).sum ≠ 0 := by
    rw [hamming_sum n (by omega)]
    have : (4 : ℝ) ≤ n := by exact_mod_cast hn
    intro h
    linarith
  have hs' : (((hamming n).sum : ℝ) : ℂ) ≠ 0 := by exact_mod_cast hs
  have hn' : (n : ℂ) ≠ 0 := by
    have : 0 < n := by omega
    exact_mod_cast this.ne'
  push_cast
  field_simp

/-- a fit never divides by zero here: the mean of the window is `0.54 - 0.46/n > 0` -/
theorem window_mean (n : Nat) (hn : 4 ≤ n) :
    (hamming n).sum / n = 0.54 - 0.46 / n ∧ 0 < (hamming n).sum / n := by
  have h4 : (4 : ℝ) ≤ n := by exact_mod_cast hn
  have e : (hamming n).sum / n = 0.54 - 0.46 / n := by
    rw [hamming_sum n (by omega)]; field_simp
  refine ⟨e, ?_⟩
  rw [hamming_sum n (by omega)]
  apply div_pos <;> linarith

/-! ### C86: real or complex? -/

/-- The property: the data are classified as real exactly when no value has an imaginary part. -/
def RealDetected (files : List (List (List (ℚ × ℚ)))) : Prop :=
  Rd.isReal1 files = true ↔ ∀ d ∈ files, ∀ snap ∈ d, ∀ z ∈ snap, z.2 = 0

/-- **C86 (exact).** Only the first snapshot of the first dataset decides. -/
theorem real_detection_exact {K : Type} [DecidableEq K] [Zero K] (snap : List (K × K)) (d : List (List (K × K)))
    (files : List (List (List (K × K)))) :
    Rd.isReal1 ((snap :: d) :: files) = true ↔ ∀ z ∈ snap, z.2 = 0 := by
  simp [Rd.isReal1, List.all_eq_true]

/-- **C86 (proved part).** One dataset of one snapshot, or any data whose complex values already show in the first
    snapshot, or real data: classified correctly. -/
theorem real_detection_partial (snap : List (ℚ × ℚ)) (d : List (List (ℚ × ℚ))) (files : List (List (List (ℚ × ℚ))))
    (h : (∃ z ∈ snap, z.2 ≠ 0) ∨ (∀ e ∈ (snap :: d) :: files, ∀ s ∈ e, ∀ z ∈ s, z.2 = 0)) :
    RealDetected ((snap :: d) :: files) := by
  unfold RealDetected
  rw [real_detection_exact]
  constructor
  · intro h1
    rcases h with ⟨z, hz, hne⟩ | h
    · exact absurd (h1 z hz) hne
    · exact h
  · intro h1 z hz
    exact h1 (snap :: d) (by simp) snap (by simp) z hz

/-- **C86 (violated).** -/
theorem real_detection_fails : ¬ ∀ files, RealDetected files := by
  intro h
  have := (h [[[(1, 0), (2, 0)], [(1, 3), (2, 0)]]]).1 (by decide)
  exact absurd (this [[(1, 0), (2, 0)], [(1, 3), (2, 0)]] (by simp) [(1, 3), (2, 0)] (by simp) (1, 3) (by simp))
    (by norm_num)

/-! ### C87: the results folder -/

theorem decStr_inj {n m : Nat} (h : decStr n = decStr m) : n = m := by
  have hd : ∀ k, decStr k = (if k = 0 then [0] else (Nat.digits 10 k).reverse).map Names.digitChar := by
    intro k; unfold decStr; split <;> rfl
  have hlt : ∀ k, ∀ d ∈ (if k = 0 then [0] else (Nat.digits 10 k).reverse), d < 10 := by
    intro k d hd
    split at hd
    · simp at hd; omega
    · exact Nat.digits_lt_base (by norm_num) (List.mem_reverse.1 hd)
  rw [hd, hd] at h
  have h2 := map_digitChar_inj (hlt n) (hlt m) h
  have hv : ∀ k, Nat.ofDigits 10 (if k = 0 then [0] else (Nat.digits 10 k).reverse).reverse = k := by
    intro k
    split
    · rename_i h; subst h; rfl
    · rw [List.reverse_reverse, Nat.ofDigits_digits]
  rw [← hv n, h2, hv m]

theorem decStr_no_us (n : Nat) : '_' ∉ decStr n := by
  unfold decStr
  split
  · decide
  · intro h
    obtain ⟨d, hd, he⟩ := List.mem_map.1 h
    exact digitChar_ne_us (Nat.digits_lt_base (by norm_num) (List.mem_reverse.1 hd)) he

/-- **C87.** Fits that differ in block length, overlap or number of blocks are stored in different folders. -/
theorem folder_injective (a b c a' b' c' : Nat) (h : simFolder a b c = simFolder a' b' c') :
    a = a' ∧ b = b' ∧ c = c' := by
  simp only [simFolder, List.append_assoc, List.cons_append, List.nil_append, List.cons.injEq, true_and] at h
  obtain ⟨h1, h2⟩ := sep_inj (decStr_no_us a) (decStr_no_us a') h
  simp only [List.cons.injEq, true_and] at h2
  obtain ⟨h3, h4⟩ := sep_inj (decStr_no_us b) (decStr_no_us b') h2
  simp only [List.cons.injEq, true_and] at h4
  exact ⟨decStr_inj h1, decStr_inj h3, decStr_inj h4⟩

/-- The settings of a fit that change its results. -/
structure FitId where
  nDft : Nat
  nOvlp : Nat
  nBlocks : Nat
  meanType : String
  timeStep : ℚ
  fullspectrum : Bool

/-- **C87 (violated).** Fits with different settings must not share a folder: two fits that differ only in the mean type
    do. -/
theorem folder_settings_fails : ¬ ∀ x y : FitId,
    simFolder x.nDft x.nOvlp x.nBlocks = simFolder y.nDft y.nOvlp y.nBlocks → x = y := by
  intro h
  have := h ⟨8, 4, 3, "longtime", 1, false⟩ ⟨8, 4, 3, "zero", 1, false⟩ rfl
  simp at this

example : simFolder 64 32 10 = "nfft64_novlp32_nblks10".toList := by decide +kernel

/-! ### C88: options -/

/-- **C88 (exact).** Which output options are accepted. -/
theorem options_exact (o : Opts) (k : Kind) (comm : Bool) :
    (outputAccepted o comm (flattened k) = true ∧ readerAccepted k comm = true) ↔
      (o.savefreqDisk2 = some true → comm = true ∧ o.savefreqDisk = some false) ∧
      (k ≠ .array → comm = true ∧ o.savefreqDisk = some false) := by
  obtain ⟨d, d2, t⟩ := o
  rcases d with _ | _ | _ <;> rcases d2 with _ | _ | _ <;> cases k <;> cases comm <;>
    simp [outputAccepted, readerAccepted, flattened]

/-- **C88 (proved part).** Array data with default output options are accepted, serially and in parallel. -/
theorem options_partial (t : Option String) (comm : Bool) :
    outputAccepted ⟨none, none, t⟩ comm (flattened .array) = true ∧ readerAccepted .array comm = true := by
  cases comm <;> simp [outputAccepted, readerAccepted, flattened]

/-- **C88 (violated).** NetCDF and `.mat` files are rejected with default options, serially and in parallel;
    `savefreq_disk2=True` alone is rejected. -/
theorem options_fails (t : Option String) (comm : Bool) :
    outputAccepted ⟨none, none, t⟩ comm (flattened .netcdf) = false ∧
    outputAccepted ⟨none, none, t⟩ comm (flattened .mat) = false ∧
    outputAccepted ⟨none, some true, t⟩ comm (flattened .array) = false := by
  cases comm <;> simp [outputAccepted, flattened]

/-- **C88 (violated).** A misspelt precision is not rejected but silently means single precision. -/
theorem dtype_fails : precision ⟨none, none, some "Double"⟩ = .single ∧ precision ⟨none, none, some "float64"⟩ = .single ∧
    (∀ o, precision o = .double ↔ o.dtype = none ∨ o.dtype = some "double") := by
  refine ⟨by decide, by decide, fun o => ?_⟩
  obtain ⟨d, d2, t⟩ := o
  rcases t with _ | t
  · simp [precision]
  · by_cases h : t = "double" <;> simp [precision, h]

end Verif.Props
