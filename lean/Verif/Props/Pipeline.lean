import Verif.Props.SvdFree
import Verif.Props.FitFormula
import Verif.Props.Lookup
/-
  The whole pipeline: fit, projection, reconstruction, each on its own number of ranks.
-/
namespace Verif.Props
open Verif Verif.Par Verif.Fit Verif.Proj Verif.Spod Matrix

/-- How a fit of array data is run: by one process, or by the ranks of a communicator none of which is left with a single value. -/
def FitRun (c : Cfg) (ω : ℂ) (files : List (List (Arr ℝ))) (w : Arr ℝ) (solver : Solver (fitNb c files.flatten.length))
    (r : Option (Out (fitNb c files.flatten.length))) : Prop :=
  r = fitSerial c ω files w solver ∨
  ∃ (p : Nat) (s : (β : Type) → List (Write β) → List (Write β)), 0 < p ∧ NoSingleton w p ∧ (∀ β l, (s β l).Perm l) ∧
    r = fitParallel c ω files w solver p s

/-- **C104.** Fit, projection and reconstruction, each run on any number of ranks: every step succeeds, and its files depend only on
    the data and settings (they are those of the run where every step is done by one process).  The data that are projected
    (`frames`) may be others than those of the fit, with the same grid. -/
theorem pipeline_rank_independent (c : Cfg) (ω : ℂ) (files : List (List (Arr ℝ))) (w : Arr ℝ)
    (hsh : ∀ a ∈ files.flatten, a.shape = w.shape) (hw : w.shape ≠ []) (hpos : 0 < size w.shape)
    (hmean : lower c.meanType = "longtime" ∨ lower c.meanType = "blockwise" ∨ lower c.meanType = "zero")
    (hfeas : feasible c.nDft (nBlocks files.flatten.length c.nDft c.nOvlp) = .ok ())
    (hov : c.nOvlp ≤ (c.nDft : Int) - 1) (hsave : 0 < c.nSave)
    (solver : Solver (fitNb c files.flatten.length)) (hone1 : size w.shape ≠ 1)
    (xdim nv : Nat) (dt : ℝ) (o : Opts) (svd : Svd) (b : Coef.Band)
    (hb : Coef.selectBand (freqAxis c.nDft dt c.isreal c.full) o.tLb o.tUb o.freqIdx = .ok b)
    (hlen : b.nFreqR = b.freqIdx.length) (hfs : b.freqIdx ≠ []) (hex : ∀ f ∈ b.freqIdx, f < nFreq c.nDft c.isreal c.full)
    (frames : List (Arr ℝ)) (hfr : frames ≠ []) (dims : List Nat) (hd : dims ≠ []) (hdims : ∀ a ∈ frames, a.shape = dims)
    (hax : (dims = w.shape ∧ (nv ≠ 1 ∨ dims.length = xdim + 1)) ∨ (w.shape = dims ++ [1] ∧ nv = 1 ∧ dims.length ≠ xdim + 1))
    (time : Coef.TimeArg) (ts : List Int) (hts : Coef.timeIdx frames.length time = .ok ts) (hne : ts ≠ []) :
    ∃ out G R,
      (∀ r, FitRun c ω files w solver r → r = some out) ∧
      (∀ comms sched, IsRun comms sched → project (storedOf c xdim nv dt out) o svd frames comms sched = some G) ∧
      (∀ comms sched, IsRun comms sched → reconstruct G none time comms sched = some R) ∧
      R.shape = ts.length :: w.shape := by
  obtain ⟨m, hm⟩ := (mean_type_accepted c.meanType).2 hmean
  have h3 := serial_out c ω files w hsh hw m hm hfeas hov solver hone1
  have hnb : 2 ≤ fitNb c files.flatten.length := (feasible_nb c _ hfeas).1
  let S : Stored := storedOf c xdim nv dt (globalOut c ω files.flatten w solver)
  have hk : 0 < S.nModes := by show 0 < min _ _; omega
  have F : Fits S b.freqIdx frames dims w.shape := by
    refine ⟨rfl, hdims, hax, fun f hf => ⟨(globalOut c ω files.flatten w solver).modes f, ?_, rfl⟩⟩
    show (if _ then _ else _) = _
    rw [if_pos (hex f hf)]
  obtain ⟨ax, hmax, a1, a2⟩ := projection_files S o svd frames b dims w.shape hb hlen hfs F hfr hd hk
  have hrec := fun comms sched hrun => reconstruction_file (globalFolder S b.freqIdx o.tol svd frames w.shape ax)
    (gridArr w.shape (specPhi S b.freqIdx w.shape (b.freqIdx.length * S.nModes))) (meanArr frames w.shape)
    (fits_axis F hmax.1) rfl rfl hpos none _ rfl (b.freqIdx.length * S.nModes) frames.length rfl rfl time ts hts hne comms sched hrun
  obtain ⟨R0, r1, r2, r3⟩ := hrec [none] none (Or.inl ⟨rfl, rfl⟩)
  refine ⟨globalOut c ω files.flatten w solver, globalFolder S b.freqIdx o.tol svd frames w.shape ax, npSave R0, ?_, ?_, ?_, r2⟩
  · rintro r (rfl | ⟨p, s, hp, hone, hs, rfl⟩)
    · exact h3
    · obtain ⟨out, e1, e2⟩ := fit_rank_independent c ω files w hsh hw hmean hfeas hov solver p hp hone hone1 s hs
      rw [e2, ← e1, h3]
  · rintro comms sched (⟨rfl, rfl⟩ | ⟨p, s, hp, hs, rfl, rfl⟩)
    · exact a2
    · exact a1 p hp s hs
  · intro comms sched hrun
    obtain ⟨R, q1, q2, q3⟩ := hrec comms sched hrun
    rw [q1, Option.some.injEq]
    apply npSave_congr
    refine ⟨by rw [q2, r2], ?_⟩
    intro idx hidx
    rw [q2] at hidx
    cases idx with
    | nil => simp [InRange] at hidx
    | cons t x => rw [q3 t x hidx.1, r3 t x hidx.1]

/-! #### The hypotheses are met: the fit of the example of C83, all frequencies, projection of two other snapshots -/

def qexFrames : List (Arr ℝ) := [⟨[4], fun i => (i.getD 0 0 : ℕ)⟩, ⟨[4], fun i => (i.getD 0 0 ^ 2 : ℕ)⟩]

example (ω : ℂ) (solver : Solver (fitNb exCfg exFiles.flatten.length)) (svd : Svd) :
    ∃ out G R,
      (∀ r, FitRun exCfg ω exFiles exWeights solver r → r = some out) ∧
      (∀ comms sched, IsRun comms sched →
        project (storedOf exCfg 1 1 1 out) ⟨none, none, none, 0, false⟩ svd qexFrames comms sched = some G) ∧
      (∀ comms sched, IsRun comms sched → reconstruct G none (.list [1, -2, 1]) comms sched = some R) ∧
      R.shape = [3, 4, 1] := by
  have hlen : exFiles.flatten.length = 9 := by simp [exFiles]
  exact pipeline_rank_independent exCfg ω exFiles exWeights
    (by
      intro a ha
      simp only [exFiles, List.flatten_cons, List.flatten_nil, List.append_nil, List.mem_append, List.mem_map] at ha
      rcases ha with ⟨t, -, rfl⟩ | ⟨t, -, rfl⟩ <;> rfl)
    (by simp [exWeights]) (by simp [exWeights, size]) (Or.inl (by decide)) (by rw [hlen]; decide) (by decide) (by decide) solver
    (by simp [exWeights, size]) 1 1 1 ⟨none, none, none, 0, false⟩ svd _
    (band_default _ (by simp [freqAxis, exCfg])) (by simp) (by simp [freqAxis, exCfg])
    (by
      intro f hf
      have := List.mem_range.1 hf
      simpa [freqAxis, exCfg, nFreq] using this)
    qexFrames (by simp [qexFrames]) [4] (by simp)
    (by
      intro a ha
      simp only [qexFrames, List.mem_cons, List.not_mem_nil, or_false] at ha
      rcases ha with rfl | rfl <;> rfl)
    (Or.inr ⟨rfl, rfl, by decide⟩) (.list [1, -2, 1]) [1, -2, 1] (by simp [Coef.timeIdx, qexFrames]) (by simp)

end Verif.Props
