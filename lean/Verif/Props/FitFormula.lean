import Verif.Props.Fit
import Mathlib.Analysis.Matrix.Spectrum
import Mathlib.Data.Fin.Tuple.Sort
/-
  C83: what the files of a fit contain, end to end, in terms of the input snapshots.
-/
namespace Verif.Props
open Verif Verif.Par Verif.Rd Verif.Spod Verif.Fit Matrix

/-- element `idx` of the array `np.load` returns for the file -/
def fileEntry {α} (f : NpyFile α) (idx : List Nat) : Option α := f.data (ravel f.shape idx)

theorem fileEntry_npSave {α} (a : Arr α) (idx : List Nat) (h : InRange a.shape idx) :
    fileEntry (npSave a) idx = some (a.at' idx) := by
  simp [fileEntry, npSave, ravel_lt h, unravel_ravel h]

theorem inRange_snoc {sh x : List Nat} {k n : Nat} (h : InRange sh x) (hk : k < n) : InRange (sh ++ [n]) (x ++ [k]) := by
  induction sh generalizing x with
  | nil => cases x with
    | nil => exact ⟨hk, trivial⟩
    | cons _ _ => exact absurd h (by simp [InRange])
  | cons a sh ih => cases x with
    | nil => exact absurd h (by simp [InRange])
    | cons b x => exact ⟨h.1, ih h.2⟩

theorem serial_out (c : Cfg) (ω : ℂ) (files : List (List (Arr ℝ))) (w : Arr ℝ)
    (hsh : ∀ a ∈ files.flatten, a.shape = w.shape) (hw : w.shape ≠ []) (m : MeanType)
    (hm : parseMean c.meanType = .ok m)
    (hfeas : feasible c.nDft (nBlocks files.flatten.length c.nDft c.nOvlp) = .ok ())
    (hov : c.nOvlp ≤ (c.nDft : Int) - 1)
    (solver : Solver (fitNb c files.flatten.length)) (hone1 : size w.shape ≠ 1) :
    fitSerial c ω files w solver = some (globalOut c ω files.flatten w solver) := by
  have hne : files.flatten ≠ [] := by
    intro h
    have h1 := ((feasible_iff files.flatten.length c.nDft c.nOvlp hov).1 hfeas).2
    rw [h] at h1
    have h2 := (feasible_nb c _ hfeas).2
    simp at h1
    omega
  obtain ⟨ax, hax, -⟩ := maxAxis_ok files w hsh hne hw
  simp only [fitSerial, hax, oneStage_ok files w ax none hne]
  simpa [distributeDimension] using fit_ser_global c m hm ω files.flatten w hfeas solver ax hone1

theorem rows_globalHat (c : Cfg) (m : MeanType) (hm : parseMean c.meanType = .ok m) (ω : ℂ) (frames : List (Arr ℝ))
    (sh : List Nat) (hwin : c.win.length = c.nDft) (hn : 0 < c.nDft) (hov : c.nOvlp ≤ (c.nDft : Int) - 1) (f : Nat)
    (hf : f < nFreq c.nDft c.isreal c.full) :
    (rowsOf sh (globalHat c ω frames sh f) : Matrix _ (Fin (fitNb c frames.length)) ℂ) =
      specQ c m ω frames sh (fitNb c frames.length) f := by
  ext k b
  simp only [rowsOf, specQ, Matrix.of_apply, globalHat]
  have hl : (atIdx (unravel sh k) frames).length = frames.length := List.length_map _
  exact pointHat_spec c m hm ω _ hwin hn hov f b (by rw [hl]; exact b.2) hf

/-- **C83.** Contents of everything a fit leaves behind, as functions of the input snapshots `frames` (all datasets
    concatenated), the weights `w` and the settings, on one process or any number of ranks (`out` is the outcome of
    either): for every stored frequency, the eigenvalues and modes are those of the weighted cross-spectral matrix of
    the windowed Fourier realizations `specQ`; the weights file holds the weights; the mean file the time mean. -/
theorem fit_formula (c : Cfg) (ω : ℂ) (files : List (List (Arr ℝ))) (w : Arr ℝ)
    (hsh : ∀ a ∈ files.flatten, a.shape = w.shape) (hw : w.shape ≠ []) (m : MeanType)
    (hm : parseMean c.meanType = .ok m)
    (hfeas : feasible c.nDft (nBlocks files.flatten.length c.nDft c.nOvlp) = .ok ())
    (hov : c.nOvlp ≤ (c.nDft : Int) - 1) (hwin : c.win.length = c.nDft)
    (solver : Solver (fitNb c files.flatten.length)) (hone1 : size w.shape ≠ 1)
    (p : Nat) (hp : 0 < p) (hone : NoSingleton w p)
    (s : (β : Type) → List (Write β) → List (Write β)) (hs : ∀ β l, (s β l).Perm l) :
    ∃ out, fitSerial c ω files w solver = some out ∧ fitParallel c ω files w solver p s = some out ∧
      (∀ f < nFreq c.nDft c.isreal c.full,
        let Q := specQ c m ω files.flatten w.shape (fitNb c files.flatten.length) f
        let r := solver (crossSpectral Q (specW w))
        let fac := oneSidedFactor c.isreal (nFreq c.nDft c.isreal c.full) f
        out.eigs f = (spodFreq Q r.1 r.2.1 r.2.2 fac).1 ∧
        (out.modes f).shape = w.shape ++ [min c.nSave (fitNb c files.flatten.length)] ∧
        ∀ x, InRange w.shape x → ∀ k : Fin (fitNb c files.flatten.length), k.1 < c.nSave →
          ∃ row : Fin (size w.shape), unravel w.shape row = x ∧
            fileEntry (out.modes f) (x ++ [k.1]) = some ((spodFreq Q r.1 r.2.1 r.2.2 fac).2 row k)) ∧
      (out.weights.shape = w.shape ∧ ∀ x, InRange w.shape x → fileEntry out.weights x = some (w.at' x)) ∧
      (out.ltm.shape = w.shape ∧ ∀ x, InRange w.shape x →
        fileEntry out.ltm x = some ((files.flatten.map fun a => a.at' x).sum / files.flatten.length)) := by
  have hmean : lower c.meanType = "longtime" ∨ lower c.meanType = "blockwise" ∨ lower c.meanType = "zero" :=
    (mean_type_accepted c.meanType).1 ⟨m, hm⟩
  obtain ⟨out, h1, h2⟩ := fit_rank_independent c ω files w hsh hw hmean hfeas hov solver p hp hone hone1 s hs
  have h3 := serial_out c ω files w hsh hw m hm hfeas hov solver hone1
  refine ⟨out, h1, h2, ?_⟩
  rw [h3] at h1
  simp only [Option.some.injEq] at h1
  subst h1
  have hnb := feasible_nb c _ hfeas
  refine ⟨fun f hf => ?_, ⟨rfl, fun x hx => fileEntry_npSave w x hx⟩, rfl, fun x hx => ?_⟩
  · have e := rows_globalHat c m hm ω files.flatten w.shape hwin hnb.2 hov f hf
    refine ⟨by simp only [globalOut, e], rfl, fun x hx k hk => ?_⟩
    refine ⟨⟨ravel w.shape x, ravel_lt hx⟩, unravel_ravel hx, ?_⟩
    simp only [globalOut, e]
    rw [fileEntry_npSave _ _ (by
      simp only [phiArr]
      exact inRange_snoc hx (by omega))]
    rw [phiArr_at _ _ _ x k.1 hx k.2]
  · simp only [globalOut]
    refine (fileEntry_npSave ⟨w.shape, fun idx => longTMeanArr ℝ (fitNb c files.flatten.length)
      (atIdx idx files.flatten)⟩ x hx).trans ?_
    simp only
    rw [long_time_mean_array _ (by omega), smul_eq_mul, ← div_eq_inv_mul, atIdx, List.length_map]

/-- Contract of `la.eig` and `np.argsort(..)[::-1]` (standard.py:210-221) on the matrices they are given: eigen-pairs
    with unit eigenvectors, sorted by decreasing eigenvalue. -/
def SolverOk {nb : Nat} (solver : Solver nb) : Prop :=
  ∀ M : Matrix (Fin nb) (Fin nb) ℂ, M.IsHermitian →
    EigPairs M (solver M).1 (solver M).2.1 ∧ ArgsortDesc (realIfClose (solver M).1) (solver M).2.2

/-- **C83 (corollary).** For every data set, accepted configuration, non-negative weights, number of ranks, write order
    and every correct eigen-solver: the eigenvalues of the fit are non-negative and decreasing, and the columns of the
    mode file that belong to non-zero eigenvalues satisfy, at every grid point, the weighted eigenvalue equation of the
    cross-spectral density of the input snapshots. -/
theorem fit_solves_spod (c : Cfg) (ω : ℂ) (files : List (List (Arr ℝ))) (w : Arr ℝ)
    (hsh : ∀ a ∈ files.flatten, a.shape = w.shape) (hw : w.shape ≠ []) (m : MeanType)
    (hm : parseMean c.meanType = .ok m)
    (hfeas : feasible c.nDft (nBlocks files.flatten.length c.nDft c.nOvlp) = .ok ())
    (hov : c.nOvlp ≤ (c.nDft : Int) - 1) (hwin : c.win.length = c.nDft)
    (hpos : ∀ x, InRange w.shape x → 0 ≤ w.at' x)
    (solver : Solver (fitNb c files.flatten.length)) (hsolver : SolverOk solver) (hone1 : size w.shape ≠ 1)
    (p : Nat) (hp : 0 < p) (hone : NoSingleton w p)
    (s : (β : Type) → List (Write β) → List (Write β)) (hs : ∀ β l, (s β l).Perm l) :
    ∃ out, fitParallel c ω files w solver p s = some out ∧ fitSerial c ω files w solver = some out ∧
      ∀ f < nFreq c.nDft c.isreal c.full,
        (∀ i, 0 ≤ out.eigs f i) ∧ (∀ i j, i ≤ j → out.eigs f j ≤ out.eigs f i) ∧
        ∀ k : Fin (fitNb c files.flatten.length), k.1 < c.nSave → 0 < out.eigs f k →
          ∃ φ : Fin (size w.shape) → ℂ,
            (∀ row : Fin (size w.shape), fileEntry (out.modes f) (unravel w.shape row ++ [k.1]) = some (φ row)) ∧
            ∀ row, (oneSidedFactor c.isreal (nFreq c.nDft c.isreal c.full) f : ℂ) *
                ∑ y, csd (specQ c m ω files.flatten w.shape (fitNb c files.flatten.length) f) row y *
                  (specW w y : ℂ) * φ y = (out.eigs f k : ℂ) * φ row := by
  obtain ⟨out, h1, h2, h3, -, -⟩ :=
    fit_formula c ω files w hsh hw m hm hfeas hov hwin solver hone1 p hp hone s hs
  refine ⟨out, h2, h1, fun f hf => ?_⟩
  obtain ⟨e1, -, e2⟩ := h3 f hf
  set Q := specQ c m ω files.flatten w.shape (fitNb c files.flatten.length) f with hQ
  have hW : ∀ x, 0 ≤ specW w x := fun x => hpos _ (inRange_unravel x.2)
  have hH : (crossSpectral Q (specW w)).IsHermitian := (crossSpectral_posSemidef Q (specW w) hW).1
  obtain ⟨a1, a2⟩ := hsolver _ hH
  obtain ⟨b1, b2⟩ := spod_sorted_and_matched Q (specW w) hW _ _ a1 _ a2
    (oneSidedFactor c.isreal (nFreq c.nDft c.isreal c.full) f)
  refine ⟨fun i => ?_, fun i j hij => ?_, fun k hk _ => ?_⟩
  · rw [e1]; simp only [spodFreq, eigsOut]; exact abs_nonneg _
  · rw [e1]; exact b1 i j hij
  · refine ⟨fun row => (spodFreq Q (solver (crossSpectral Q (specW w))).1 (solver (crossSpectral Q (specW w))).2.1
        (solver (crossSpectral Q (specW w))).2.2
        (oneSidedFactor c.isreal (nFreq c.nDft c.isreal c.full) f)).2 row k, fun row => ?_, fun row => ?_⟩
    · obtain ⟨row', hr, h⟩ := e2 _ (inRange_unravel row.2) k hk
      have : row' = row := by
        apply Fin.ext
        have := congrArg (ravel w.shape) hr
        rwa [ravel_unravel row'.2, ravel_unravel row.2] at this
      rw [h, this]
    · rw [e1]; exact b2 k row

/-- Correct eigen-solvers exist (spectral theorem), so the hypothesis `SolverOk` can be met for every size. -/
theorem solver_exists (nb : Nat) : ∃ solver : Solver nb, SolverOk solver := by
  classical
  have key : ∀ M : Matrix (Fin nb) (Fin nb) ℂ, ∃ r : (Fin nb → ℂ) × Matrix (Fin nb) (Fin nb) ℂ × Equiv.Perm (Fin nb),
      M.IsHermitian → EigPairs M r.1 r.2.1 ∧ ArgsortDesc (realIfClose r.1) r.2.2 := by
    intro M
    by_cases hM : M.IsHermitian
    · refine ⟨(fun j => (hM.eigenvalues j : ℂ), Matrix.of fun i j => hM.eigenvectorBasis j i,
        Tuple.sort fun i => - hM.eigenvalues i), fun _ => ⟨fun j => ⟨?_, ?_⟩, fun i j hij => ?_⟩⟩
      · have := hM.mulVec_eigenvectorBasis j
        funext i
        exact (congrFun this i).trans (by simp only [Pi.smul_apply, smul_eq_mul, Matrix.of_apply]; exact Complex.real_smul)
      · have h := hM.eigenvectorBasis.orthonormal.1 j
        have h2 : ‖hM.eigenvectorBasis j‖ ^ 2 = 1 := by rw [h]; norm_num
        rw [EuclideanSpace.norm_sq_eq] at h2
        simp only [Matrix.of_apply]
        have h3 : ∀ z : ℂ, (starRingEnd ℂ) z * z = ((‖z‖ ^ 2 : ℝ) : ℂ) := fun z => by
          rw [Complex.conj_mul']; push_cast; rfl
        simp only [h3]
        rw [← Complex.ofReal_sum, h2]; rfl
      · have := Tuple.monotone_sort (fun i => - hM.eigenvalues i) hij
        simp only [Function.comp_apply, neg_le_neg_iff] at this
        simpa [realIfClose] using this
    · exact ⟨(fun _ => 0, 0, 1), fun h => absurd h hM⟩
  choose g hg using key
  exact ⟨g, hg⟩

/-! #### The hypotheses are met by a concrete fit -/

/-- 9 snapshots of 4 points of one variable, all different. -/
def exFiles : List (List (Arr ℝ)) :=
  [(List.range 5).map fun (t : Nat) => ⟨[4, 1], fun i => ((i.getD 0 0 + 1) * t ^ 2 : ℕ)⟩,
   (List.range 4).map fun (t : Nat) => ⟨[4, 1], fun i => ((i.getD 0 0 + 2) * (t + 5) ^ 2 : ℕ)⟩]

def exCfg : Cfg := ⟨4, 2, "longtime", false, 0, false, true, [1, 2, 2, 1], 2⟩

def exWeights : Arr ℝ := ⟨[4, 1], fun i => (i.getD 0 0 + 1 : ℕ)⟩

example (s : (β : Type) → List (Write β) → List (Write β)) (hs : ∀ β l, (s β l).Perm l) (ω : ℂ) :
    ∃ (solver : Solver (fitNb exCfg exFiles.flatten.length)) (out : _), SolverOk solver ∧
      fitParallel exCfg ω exFiles exWeights solver 2 s = some out ∧ fitSerial exCfg ω exFiles exWeights solver = some out ∧
      (∀ i, 0 ≤ out.eigs 1 i) ∧ fitNb exCfg exFiles.flatten.length = 3 := by
  obtain ⟨solver, hsol⟩ := solver_exists (fitNb exCfg exFiles.flatten.length)
  have hlen : exFiles.flatten.length = 9 := by simp [exFiles]
  have hnb : fitNb exCfg exFiles.flatten.length = 3 := by rw [hlen]; decide
  obtain ⟨out, h1, h2, h3⟩ := fit_solves_spod exCfg ω exFiles exWeights
    (by
      intro a ha
      simp only [exFiles, List.flatten_cons, List.flatten_nil, List.append_nil, List.mem_append, List.mem_map] at ha
      rcases ha with ⟨t, -, rfl⟩ | ⟨t, -, rfl⟩ <;> rfl)
    (by simp [exWeights]) .longtime (by decide) (by rw [hlen]; decide) (by decide) (by simp [exCfg])
    (fun x _ => Nat.cast_nonneg _) solver hsol (by simp [exWeights, size]) 2 (by norm_num)
    (by
      intro ax hax r hr
      have : ax = 0 := by
        have h := hax.1
        have h0 := hax.2.1 0 (by simp [exWeights])
        simp only [exWeights, List.length_cons, List.length_nil] at h
        interval_cases ax
        · rfl
        · revert h0; simp [exWeights]
      subst this
      interval_cases r <;> simp [exWeights, size, countOf, ext, blockdist]) s hs
  exact ⟨solver, out, hsol, h1, h2, (h3 1 (by decide)).1, hnb⟩

/-- two NetCDF files of 5 and 4 snapshots -/
def exContent (f : String) : NcFile (Arr ℝ) :=
  if f = "a" then ⟨[0, 1, 2, 3, 4], exFiles.getD 0 []⟩ else ⟨[7, 8, 10, 20], exFiles.getD 1 []⟩

example (arrive : Nat → Nat → Nat → List (Write ℝ) → List (Write ℝ)) (harr : ∀ r a b l, (arrive r a b l).Perm l)
    (s : (β : Type) → List (Write β) → List (Write β)) (hs : ∀ β l, (s β l).Perm l) (ω : ℂ)
    (solver : Solver (fitNb exCfg (ncNt ["a", "b"] exContent))) :
    ∃ out, fitTwoStage exCfg ω ["a", "b"] exContent 4 1 2 3 3 exWeights solver 2 arrive s = some out := by
  have hlen : ncNt ["a", "b"] exContent = 9 := by simp [ncNt, exContent, exFiles]
  obtain ⟨out, h, -⟩ := fit_two_stage_eq_serial exCfg ω ["a", "b"] exContent (by decide)
    (by
      intro f hf
      simp at hf
      rcases hf with rfl | rfl
      · exact ⟨by simp [exContent, exFiles], by simp [exContent]⟩
      · exact ⟨by simp [exContent, exFiles], by simp [exContent]⟩)
    4 1 2 3 3 2 (by norm_num) (by norm_num) (by norm_num) (by norm_num) (by rw [hlen]) exWeights rfl (by decide)
    (by rw [hlen]; decide) (by decide) solver (by decide) (by decide) arrive harr s hs
  exact ⟨out, h⟩

end Verif.Props
