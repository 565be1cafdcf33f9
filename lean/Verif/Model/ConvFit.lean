import Verif.Model.Project
/-
  The whole of `compute_coeffs_conv` (/repo/pyspod/spod/utils.py:223-438) on all ranks together: what is read from the results
  folder, how it is distributed, the windowed transforms of the padded data, the amplitude correction, the products with the modes and
  the files written.
  Simplifications: exact arithmetic; folder names, prints and the parameter file are left out; frequency indices are not negative;
  the data are an array of `nt` snapshots, given as the list of the snapshots.  The window is a parameter (spod/utils.py:268-273 uses
  the Hamming window, whatever the fit used).
-/
namespace Verif.Proj
open Verif Verif.Par Verif.Fit

/-- spod/utils.py:276-277, 335, 353-364: the amplitude correction of window `i` -/
noncomputable def convCorr (win : List ℝ) (n nt i : Nat) : ℝ :=
  match Coef.corrRange n nt i with
  | none => 1
  | some (lb, ub) => Real.sqrt ((n : ℝ) / Spod.winWeight win / (Rd.pslice win lb ub).sum)

/-- spod/utils.py:333-334, 350: bin `f` of the transform of window `i` of the (centred) series of one grid point -/
noncomputable def convBin (ω : ℂ) (n : Nat) (win series : List ℝ) (i f : Nat) : ℂ :=
  Spod.dftBin ω ((List.zipWith (· * ·) (Coef.convWindow 0 n series i) win).map Complex.ofReal) f

/-- spod/utils.py:322-327: the array of the modes `[n_freq, xsize, n_modes]` of a rank: `np.empty` (`junk`), of which the entries of
    the selected frequencies are assigned -/
noncomputable def convPhir (nModes : Nat) (freqIdx : List Nat) (junk : Nat → Nat → Nat → ℂ) (r : Part) (f x m : Nat) : ℂ :=
  match freqIdx.idxOf? f with
  | some i => r.phir.getD (i * nModes + m) (fun _ => 0) x
  | none => junk f x m

/-- spod/utils.py:347-390 on one rank: `coeffs` of shape `[n_freq_r, nt, n_modes]`.  `x_tmp` has one row per entry of `freq_idx`, `p_tmp`
    one slice per frequency of the axis; a single row is broadcast. -/
noncomputable def convCoeffs (win : List ℝ) (ω : ℂ) (n nt nFreqR nModes : Nat) (freqIdx : List Nat)
    (junk : Nat → Nat → Nat → ℂ) (r : Part) : Arr ℂ where
  shape := [nFreqR, nt, nModes]
  at' := fun idx => match idx with
    | [i, t, m] => (convCorr win n nt t : ℂ) * ∑ x ∈ Finset.range r.xsize,
        convBin ω n win ((List.range nt).map fun (τ : Nat) => r.data τ x) t (freqIdx.getD (if freqIdx.length = 1 then 0 else i) 0) *
          (r.w x : ℂ) * star (convPhir nModes freqIdx junk r i x m)
    | _ => 0

/-- spod/utils.py:396-409: `phir.shape = (*xshape_nv, n_freq_r, n_modes)`: the memory of `[n_freq, xsize, n_modes]` read with
    another shape -/
noncomputable def convModesArr (nFreq nFreqR nModes : Nat) (freqIdx : List Nat) (junk : Nat → Nat → Nat → ℂ) (r : Part) : Arr ℂ where
  shape := r.sh ++ [nFreqR, nModes]
  at' := fun idx => match unravel [nFreq, r.xsize, nModes] (ravel (r.sh ++ [nFreqR, nModes]) idx) with
    | [f, x, m] => convPhir nModes freqIdx junk r f x m
    | _ => 0

/-- spod/utils.py:296-416 with `n_freq_r` frequencies, those of the list `freqIdx`; `n_freq` is the length of the frequency axis,
    `junk` the initial memory of every rank. -/
noncomputable def convolveBand (S : Stored) (nDft : Nat) (win : List ℝ) (ω : ℂ) (junk : Nat → Nat → Nat → Nat → ℂ)
    (frames : List (Arr ℝ)) (comms : List Comm) (sched : Sched) (nFreqR : Nat) (freqIdx : List Nat) : Option Folder :=
  match frames with
  | [] => none
  | a :: _ =>
    match argmax a.shape with
    | none => none
    | some ax =>
      match comms.mapM (rankPart S freqIdx.length freqIdx frames ax) with
      | none => none
      | some rs =>
        -- indices out of range; shapes that do not fit in the products or in the assignment
        if (∀ f ∈ freqIdx, f < S.freq.length ∧ f < nDft) ∧
            ∀ r ∈ rs, Coef.convAssign freqIdx.length nFreqR S.freq.length r.xsize S.nModes = true then
          match rs with
          | [] => none
          | r0 :: _ =>
            some { -- only rank 0 saves its own array
                   coeffs := npSave (convCoeffs win ω nDft frames.length nFreqR S.nModes freqIdx (junk 0) r0)
                   modesR := saveAll sched ax ((List.range rs.length).map fun (k : Nat) =>
                     convModesArr S.freq.length nFreqR S.nModes freqIdx (junk k) (rs.getD k r0))
                   ltm := saveAll sched ax (rs.map fun (r : Part) => ⟨r.sh, fun idx => r.mean (ravel r.sh idx)⟩)
                   maxAxis := ax }
        else none

/-- `compute_coeffs_conv` (spod/utils.py:223-438) on the ranks `comms` (one process: `[none]`); `none` = an exception on some rank. -/
noncomputable def convolve (S : Stored) (o : Opts) (nDft : Nat) (win : List ℝ) (ω : ℂ) (junk : Nat → Nat → Nat → Nat → ℂ)
    (frames : List (Arr ℝ)) (comms : List Comm) (sched : Sched) : Option Folder :=
  match Coef.selectBand S.freq o.tLb o.tUb o.freqIdx with
  | .error _ => none
  | .ok b =>
    -- spod/utils.py:296-297: `np.zeros` of a negative extent raises
    if b.nFreqR < 0 then none
    else convolveBand S nDft win ω junk frames comms sched b.nFreqR.toNat b.freqIdx

end Verif.Proj
