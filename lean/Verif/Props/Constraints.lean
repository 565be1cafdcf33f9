import Verif.Props.Patterns
import Verif.Props.StreamImage
import Verif.Props.Stable
import Verif.Props.PodPerturb
import Verif.Props.PodError
/-
  C208-C211: linear relations between the values of a snapshot (boundary conditions, symmetries, conservation laws, discrete divergence) carry over to
  the modes and to reconstructions (pyspod/spod/standard.py:231, streaming.py:203-252, pod/standard.py:55-61, spod/utils.py:540-551).
-/
set_option linter.unusedVariables false
set_option linter.unusedSectionVars false
namespace Verif.Props
open Verif Verif.Par Verif.Rd Verif.Stream Verif.Spod Verif.Fit Verif.SFit Verif.Proj Matrix

/-- Every snapshot satisfies the linear equation `∑ x, l x * q x = b`. -/
def Satisfies (frames : List (Arr ℝ)) (sh : List Nat) (l : Fin (size sh) → ℝ) (b : ℝ) : Prop :=
  ∀ t < frames.length, ∑ x : Fin (size sh), l x * (frames.getD t ⟨[], fun _ => 0⟩).at' (unravel sh x) = b

theorem replicate_getD (N : Nat) (b : ℝ) (t : Nat) (ht : t < N) : (List.replicate N b).getD t 0 = b := by
  simp [List.getD_eq_getElem?_getD, ht]

/-- the transform of a constant signal vanishes once the mean has been subtracted -/
theorem specHat_const (c : Cfg) (m : MeanType) (ω : ℂ) (b : ℝ) (N : Nat) (hb : m = .zero → b = 0) (hnorm : c.normalize = false)
    (hov : c.nOvlp ≤ (c.nDft : Int) - 1) (f k : Nat) (hk : k < fitNb c N) : specHat c m ω (List.replicate N b) f k = 0 := by
  have h := specHat_affine c m ω (List.replicate N 0) (List.replicate N b) 0 b hb (by simp) (by
    intro t ht
    rw [List.length_replicate] at ht
    rw [replicate_getD _ _ _ ht, replicate_getD _ _ _ ht, zero_mul, zero_add]) hnorm hov f k (by simpa using hk)
  rw [h, Complex.ofReal_zero, zero_mul]

/-- **C208.** A linear relation between the values of every snapshot, `∑ l x * q x = b` (`b = 0` for mean type `zero`), not normalised, any number of
    ranks, any library: the values of every stored mode of a positive eigenvalue satisfy `∑ l x * φ x = 0`. -/
theorem fit_constraint (c : Cfg) (ω : ℂ) (files : List (List (Arr ℝ))) (w : Arr ℝ) (m : MeanType) (A : Accepted c files w m)
    (hnorm : c.normalize = false) (l : Fin (size w.shape) → ℝ) (b : ℝ) (hb : m = .zero → b = 0) (h : Satisfies files.flatten w.shape l b)
    (solver : Solver (fitNb c files.flatten.length)) :
    ∃ out, (∀ r, FitRun c ω files w solver r → r = some out) ∧
      ∀ f < nFreq c.nDft c.isreal c.full, ∀ k : Fin (fitNb c files.flatten.length), k.1 < c.nSave → 0 < out.eigs f k →
        ∃ φ : Fin (size w.shape) → ℂ, (∀ x : Fin (size w.shape), fileEntry (out.modes f) (unravel w.shape x ++ [k.1]) = some (φ x)) ∧
          ∑ x, (l x : ℂ) * φ x = 0 := by
  obtain ⟨out, h1, h2⟩ := fit_runs c ω files w m A solver
  refine ⟨out, h1, fun f hf k hk _ => ⟨_, (h2 f hf).2 k hk, ?_⟩⟩
  have hQ : ∀ j : Fin (fitNb c files.flatten.length),
      ∑ x, (l x : ℂ) * specQ c m ω files.flatten w.shape (fitNb c files.flatten.length) f x j = 0 := by
    intro j
    have hlin := specHat_linear (Y := Fin (size w.shape)) c m ω (List.replicate files.flatten.length b)
      (fun y => files.flatten.map fun a => a.at' (unravel w.shape y.1)) l files.flatten.length (by simp)
      (fun y => List.length_map _) (fun t ht => by
        rw [replicate_getD _ _ _ ht, ← h t ht]
        exact Finset.sum_congr rfl fun y _ => by rw [getD_map_arr _ _ t ht]) hnorm A.overlap f j.1 j.2
    rw [specHat_const c m ω b _ hb hnorm A.overlap f j.1 j.2] at hlin
    exact hlin.symm
  simp only [spodFreq, phiAll, Matrix.mul_apply, Matrix.of_apply, reorderV]
  rw [Finset.sum_congr rfl fun x _ => Finset.mul_sum _ _ _, Finset.sum_comm]
  refine Finset.sum_eq_zero fun j _ => ?_
  rw [Finset.sum_congr rfl fun x _ => (mul_assoc _ _ _).symm, ← Finset.sum_mul, hQ j, zero_mul]

/-! ### Streaming -/

/-- **C209.** As C208 for streaming fits (which always subtract a mean), with positive weights and independent blocks: every stored mode satisfies
    `∑ l x * φ x = 0`, for every routine `svd`, whatever is truncated, on every number of ranks. -/
theorem stream_constraint (c : Cfg) (ω : ℂ) (frames : List (Arr ℝ)) (w : Arr ℝ) (h : StreamAccepted c frames w)
    (hw : ∀ idx, InRange w.shape idx → 0 < w.at' idx) (svd : SFit.Svd (SFit.kept c frames.length)) (hsvd : ∀ K, Stream.IsSVD K (svd K).1 (svd K).2)
    (l : Fin (size w.shape) → ℝ) (b : ℝ) (hl : Satisfies frames w.shape l b) :
    ∃ out, streamSerial c ω frames w svd = some out ∧
      (∀ p, 0 < p → NoSingleton w p → ∀ s : (β : Type) → List (Write β) → List (Write β), (∀ β l, (s β l).Perm l) →
        streamParallel c ω frames w svd p s = some out) ∧
      ∀ f, Independent c ω frames w f → ∀ j : Fin (SFit.kept c frames.length),
        ∑ x : Fin (size w.shape), (l x : ℂ) * streamMode out f (unravel w.shape x) j = 0 := by
  refine ⟨_, (h.runs ω svd).1, (h.runs ω svd).2, fun f hind j => ?_⟩
  have run := basis_run w.shape svd hsvd (fun m idx => newCol c ω f m (w.at' idx) (atIdx idx frames)) (nUpdates c ω frames.length)
    (independent_cols c ω frames w h f hind)
  have hs : ∀ x : Fin (size w.shape), ((Real.sqrt (w.at' (unravel w.shape x)) : ℝ) : ℂ) ≠ 0 := fun x => by
    exact_mod_cast (Real.sqrt_pos.2 (hw _ (inRange_unravel x.2))).ne'
  let L : (Fin (size w.shape) → ℂ) →ₗ[ℂ] ℂ :=
    { toFun := fun v => ∑ x, ((l x : ℂ) / ((Real.sqrt (w.at' (unravel w.shape x)) : ℝ) : ℂ)) * v x
      map_add' := fun u v => by simp only [Pi.add_apply, mul_add, Finset.sum_add_distrib]
      map_smul' := fun a v => by
        simp only [Pi.smul_apply, smul_eq_mul, RingHom.id_apply, Finset.mul_sum]
        exact Finset.sum_congr rfl fun x _ => by ring }
  have hspan := run_span run j
  have hker : Submodule.span ℂ {v | v ∈ (List.range (nUpdates c ω frames.length)).map fun (m : Nat) => fun i : Fin (size w.shape) =>
      newCol c ω f m (w.at' (unravel w.shape i)) (atIdx (unravel w.shape i) frames)} ≤ LinearMap.ker L := by
    rw [Submodule.span_le]
    intro v hv
    obtain ⟨m, hm, rfl⟩ := List.mem_map.1 hv
    have hm := List.mem_range.1 hm
    have hlen := (nUpdates_spec c ω h.dft h.sep frames.length m).1 hm
    show (∑ x : Fin (size w.shape), ((l x : ℂ) / ((Real.sqrt (w.at' (unravel w.shape x)) : ℝ) : ℂ)) *
      newCol c ω f m (w.at' (unravel w.shape x)) (atIdx (unravel w.shape x) frames)) = 0
    have e : ∀ x : Fin (size w.shape), ((l x : ℂ) / ((Real.sqrt (w.at' (unravel w.shape x)) : ℝ) : ℂ)) *
        newCol c ω f m (w.at' (unravel w.shape x)) (atIdx (unravel w.shape x) frames) =
        (l x : ℂ) * specBlock c ω f m (frames.map fun a => a.at' (unravel w.shape x)) := by
      intro x
      rw [show newCol c ω f m (w.at' (unravel w.shape x)) (atIdx (unravel w.shape x) frames) = specVec c ω frames w f m x from congrFun (col_spec h f m hm) x, specVec]
      field_simp [hs x]
    rw [Finset.sum_congr rfl fun x _ => e x, ← specBlock_linear c ω f m (List.replicate frames.length b) (fun x : Fin (size w.shape) =>
      frames.map fun a => a.at' (unravel w.shape x)) l frames.length (fun t ht => by
        rw [replicate_getD _ _ _ ht, ← hl t ht]
        exact Finset.sum_congr rfl fun y _ => by rw [getD_map_arr _ _ t ht]) hlen]
    have e2 : List.replicate frames.length b = (List.replicate frames.length 0).map (· + b) := by simp
    rw [e2, specBlock_shift c ω f m _ b (by simpa using hlen) h.dft]
    have := specBlock_linear (Y := Empty) c ω f m (List.replicate frames.length 0) (fun _ => []) (fun _ => 0) frames.length
      (fun t ht => by rw [replicate_getD _ _ _ ht]; simp) hlen
    rw [this]
    simp
  have hz : L (fun i => basisMat w.shape ((lastBasis c ω frames.length f frames w svd).U 0) i j) = 0 := hker hspan
  have iy : ∀ y : Fin (size w.shape), (⟨ravel w.shape (unravel w.shape y), ravel_lt (inRange_unravel y.2)⟩ : Fin (size w.shape)) = y :=
    fun y => Fin.ext (ravel_unravel y.2)
  refine Eq.trans (Finset.sum_congr rfl fun x _ => ?_) hz
  rw [streamMode_at c ω frames w svd f (unravel w.shape x) (inRange_unravel x.2) j, iy]
  ring

/-! ### POD -/

/-- **C210.** As C208 for a POD (`b = 0` for mean type `zero`), any weights: every stored mode of a positive eigenvalue is real and satisfies
    `∑ l x * φ x = 0`. -/
theorem pod_constraint {c weights files dims mk n} (R : PodRun c weights files dims mk n) (solver : PodFit.Solver) (lamV) (hs : PodSolver solver lamV)
    {comms : List Comm} {sched : Sched} (hrun : IsRun comms sched) (l : Fin (size (dims ++ [1])) → ℝ) (b : ℝ) (hb : mk = .zero → b = 0)
    (hl : ∀ t < files.flatten.length, ∑ x : Fin (size (dims ++ [1])), l x * podAt files t x = b) :
    ∃ o, PodFit.podFit c weights solver files comms sched = some o ∧ ∀ j < n, 0 < (o.eigs.getD j 0).re →
      ∃ φ : Fin (size (dims ++ [1])) → ℝ, (∀ x, podStoredMode o _ n j x = (φ x : ℂ)) ∧ ∑ x, l x * φ x = 0 := by
  obtain ⟨o, lam, V, h1, h2, h3, h4, h5⟩ := pod_files_spec R solver lamV hs hrun
  refine ⟨o, h1, fun j hj hpos => ?_⟩
  have hjn : j < files.flatten.length := lt_of_lt_of_le hj R.n_le
  rw [h2, ofFn_getD _ j hjn, Complex.ofReal_re] at hpos
  refine ⟨fun x => Pod.phiAll (Pod.fitData mk (podD files.flatten (dims ++ [1]))) lam V x ⟨j, hjn⟩, h5 j hj hjn hpos, ?_⟩
  have hne : (files.flatten.length : ℝ) ≠ 0 := by exact_mod_cast (by omega : files.flatten.length ≠ 0)
  have hf : ∀ t : Fin files.flatten.length, ∑ x, l x * Pod.fitData mk (podD files.flatten (dims ++ [1])) x t = 0 := by
    intro t
    cases mk with
    | zero =>
      show ∑ x, l x * (podD files.flatten (dims ++ [1]) x t - 0) = 0
      refine Eq.trans (Finset.sum_congr rfl fun x _ => by rw [sub_zero]; rfl) ((hl t t.2).trans (hb rfl))
    | longtime =>
      show ∑ x, l x * (podD files.flatten (dims ++ [1]) x t - (∑ t', podD files.flatten (dims ++ [1]) x t') / files.flatten.length) = 0
      have e1 : ∑ x, l x * podD files.flatten (dims ++ [1]) x t = b := hl t t.2
      have e2 : ∑ x, l x * ((∑ t', podD files.flatten (dims ++ [1]) x t') / files.flatten.length) = b := by
        simp only [← mul_div_assoc, ← Finset.sum_div, Finset.mul_sum]
        rw [Finset.sum_comm, Finset.sum_congr rfl fun (t' : Fin files.flatten.length) _ =>
            show ∑ x, l x * podD files.flatten (dims ++ [1]) x t' = b from hl t' t'.2, Finset.sum_const, Finset.card_univ, Fintype.card_fin, nsmul_eq_mul,
          mul_div_cancel_left₀ _ hne]
      rw [Finset.sum_congr rfl fun x _ => mul_sub _ _ _, Finset.sum_sub_distrib, e1, e2, sub_self]
  simp only [Pod.phiAll, Matrix.of_apply, Matrix.mul_apply]
  simp only [← mul_div_assoc, ← Finset.sum_div, Finset.mul_sum]
  rw [Finset.sum_comm, Finset.sum_eq_zero, zero_div]
  intro t _
  rw [Finset.sum_congr rfl fun x _ => (mul_assoc _ _ _).symm, ← Finset.sum_mul, hf t, zero_mul]

/-! ### Reconstructions -/

/-- **C211 (folders).** Projection of data that satisfy `∑ l x * q x = b` on any stored modes with `∑ l x * φ x = 0` and reconstruction of all times, on any
    numbers of ranks, for every tolerance: every reconstructed snapshot satisfies `∑ l x * q x = b`. -/
theorem reconstruction_constraint (S : Stored) (o : Opts) (svd : Svd)
    (frames : List (Arr ℝ)) (bd : Coef.Band) (dims sh : List Nat) (h : Ready S o frames bd dims sh)
    (comms comms' : List Comm) (sched sched' : Sched) (hrun : IsRun comms sched) (hrun' : IsRun comms' sched')
    (l : Fin (size sh) → ℝ) (b : ℝ) (hl : ∀ t : Fin frames.length, ∑ x, (l x : ℂ) * specD frames sh x t = b)
    (hΦ : ∀ j, ∑ x, (l x : ℂ) * selPhi S bd sh x j = 0) :
    ∃ G R, project S o svd frames comms sched = some G ∧
      reconstruct G none (.str "all") comms' sched' = some (npSave (timeArr sh R)) ∧ ∀ t : Fin frames.length, ∑ x, (l x : ℂ) * R x t = b := by
  obtain ⟨G, h1, -, h3⟩ := project_reconstruct S o svd frames bd dims sh h.band h.len h.sel h.fits h.some_ h.dim h.modes h.pos
    comms comms' sched sched' hrun hrun'
  refine ⟨G, _, h1, h3, fun t => ?_⟩
  have hpos : 0 < frames.length := List.length_pos_iff.2 h.some_
  have hne : ((Fintype.card (Fin frames.length) : ℕ) : ℂ) ≠ 0 := by rw [Fintype.card_fin]; exact_mod_cast hpos.ne'
  simp only [Coef.reconstruct, Matrix.of_apply, Coef.ltMean, mul_add, Finset.sum_add_distrib]
  have e2 : ∑ x, (l x : ℂ) * ((∑ t, specD frames sh x t) / (Fintype.card (Fin frames.length) : ℂ)) = b := by
    simp only [← mul_div_assoc, ← Finset.sum_div, Finset.mul_sum]
    rw [Finset.sum_comm, Finset.sum_congr rfl fun t _ => hl t, Finset.sum_const, Finset.card_univ, nsmul_eq_mul, mul_div_cancel_left₀ _ hne]
  rw [e2]
  simp only [Matrix.mul_apply, Finset.mul_sum]
  rw [Finset.sum_comm, Finset.sum_eq_zero, zero_add]
  intro j _
  rw [Finset.sum_congr rfl fun x _ => (mul_assoc _ _ _).symm, ← Finset.sum_mul]
  exact mul_eq_zero_of_left (hΦ j) _

/-- **C211.** A whole workflow, each step on any number of ranks: a fit of data with `∑ l x * q x = b` (`b = 0` for mean type `zero`), projection of data that
    satisfy the same relation with any right-hand side `b'` (other data than those of the fit, or the same) on the modes of selected frequencies, all of positive
    eigenvalues, and reconstruction of all times: every reconstructed snapshot satisfies `∑ l x * q x = b'`. -/
theorem workflow_constraint (c : Cfg) (ω : ℂ) (files : List (List (Arr ℝ))) (w : Arr ℝ) (m : MeanType) (A : Accepted c files w m)
    (hnorm : c.normalize = false) (l : Fin (size w.shape) → ℝ) (b b' : ℝ) (hb : m = .zero → b = 0) (h : Satisfies files.flatten w.shape l b)
    (solver : Solver (fitNb c files.flatten.length)) (hpos : 0 < size w.shape) (hsave : 0 < c.nSave)
    (xdim nv : Nat) (dt : ℝ) (o : Opts) (svd : Svd) (bd : Coef.Band)
    (hbd : Coef.selectBand (freqAxis c.nDft dt c.isreal c.full) o.tLb o.tUb o.freqIdx = .ok bd)
    (hlen : bd.nFreqR = bd.freqIdx.length) (hfs : bd.freqIdx ≠ []) (hex : ∀ f ∈ bd.freqIdx, f < nFreq c.nDft c.isreal c.full)
    (frames : List (Arr ℝ)) (hfr : frames ≠ []) (dims : List Nat) (hd : dims ≠ []) (hdims : ∀ a ∈ frames, a.shape = dims)
    (hax : (dims = w.shape ∧ (nv ≠ 1 ∨ dims.length = xdim + 1)) ∨ (w.shape = dims ++ [1] ∧ nv = 1 ∧ dims.length ≠ xdim + 1))
    (hl : ∀ t : Fin frames.length, ∑ x, (l x : ℂ) * specD frames w.shape x t = b') :
    ∃ out, (∀ r, FitRun c ω files w solver r → r = some out) ∧
      ((∀ f ∈ bd.freqIdx, ∀ k : Fin (fitNb c files.flatten.length), k.1 < c.nSave → 0 < out.eigs f k) →
        ∀ comms comms' sched sched', IsRun comms sched → IsRun comms' sched' →
          ∃ G R, project (storedOf c xdim nv dt out) o svd frames comms sched = some G ∧
            reconstruct G none (.str "all") comms' sched' = some (npSave (timeArr w.shape R)) ∧ ∀ t : Fin frames.length, ∑ x, (l x : ℂ) * R x t = b') := by
  obtain ⟨out, h1, h2⟩ := fit_constraint c ω files w m A hnorm l b hb h solver
  have hser := serial_out c ω files w A.shapes A.axes m A.mean A.blocks A.overlap solver A.many
  have hout : globalOut c ω files.flatten w solver = out := Option.some.inj (hser.symm.trans (h1 _ (Or.inl rfl)))
  refine ⟨out, h1, fun heig comms comms' sched sched' hrun hrun' => ?_⟩
  have hnb : 2 ≤ fitNb c files.flatten.length := (feasible_nb c _ A.blocks).1
  have hk : 0 < (storedOf c xdim nv dt out).nModes := by show 0 < min _ _; omega
  have F : Fits (storedOf c xdim nv dt out) bd.freqIdx frames dims w.shape := by
    subst hout
    refine ⟨rfl, hdims, hax, fun f hf => ⟨(globalOut c ω files.flatten w solver).modes f, ?_, rfl⟩⟩
    show (if _ then _ else _) = _
    rw [if_pos (hex f hf)]
  refine reconstruction_constraint _ o svd frames bd dims w.shape ⟨hbd, hlen, hfs, F, hfr, hd, hk, hpos⟩ comms comms' sched sched' hrun hrun' l b' hl fun j => ?_
  have hj : j.1 / (storedOf c xdim nv dt out).nModes < bd.freqIdx.length := Nat.div_lt_of_lt_mul (lt_of_lt_of_eq j.2 (mul_comm _ _))
  have hjm : j.1 % (storedOf c xdim nv dt out).nModes < min c.nSave (fitNb c files.flatten.length) := Nat.mod_lt _ hk
  have hmem : bd.freqIdx.getD (j.1 / (storedOf c xdim nv dt out).nModes) 0 ∈ bd.freqIdx := by
    rw [List.getD_eq_getElem?_getD, List.getElem?_eq_getElem hj]
    exact List.getElem_mem hj
  obtain ⟨φ, p1, p2⟩ := h2 _ (hex _ hmem) ⟨j.1 % (storedOf c xdim nv dt out).nModes, by omega⟩ (lt_of_lt_of_le hjm (min_le_left _ _))
    (heig _ hmem _ (lt_of_lt_of_le hjm (min_le_left _ _)))
  refine Eq.trans (Finset.sum_congr rfl fun x _ => ?_) p2
  congr 1
  have q := p1 x
  simp only [selPhi, specPhi, Matrix.of_apply]
  rw [show (storedOf c xdim nv dt out).modes (bd.freqIdx.getD (j.1 / (storedOf c xdim nv dt out).nModes) 0) =
    some (out.modes (bd.freqIdx.getD (j.1 / (storedOf c xdim nv dt out).nModes) 0)) from if_pos (hex _ hmem)]
  simp only [fileEntry] at q
  show Option.getD _ _ = _
  rw [q]
  rfl

/-! ### Cases that meet the hypotheses -/

/-- snapshots `v, 2v` -/
theorem series_satisfies (l : List ℝ) : Satisfies (series l).flatten [2] ![2, -1] 0 := by
  intro t ht
  rw [series_length] at ht
  have e : ∀ g : Fin 2 → ℝ, ∑ x : Fin (size [2]), g x = g 0 + g 1 := fun g => Fin.sum_univ_two g
  rw [e fun x => ![2, -1] x * ((series l).flatten.getD t ⟨[], fun _ => 0⟩).at' (unravel [2] x.1)]
  rw [series_at l t ht, series_at l t ht]
  simp [unravel, size]
  ring

theorem mean_square_pos {n : Nat} (g : Nat → ℂ) (hn : 0 < n) (h : g 0 ≠ 0) : 0 < (∑ k : Fin n, ‖g k.1‖ ^ 2) / n :=
  div_pos (lt_of_lt_of_le (pow_pos (norm_pos_iff.2 h) 2) (Finset.single_le_sum (f := fun k : Fin n => ‖g k.1‖ ^ 2) (fun k _ => sq_nonneg _)
    (Finset.mem_univ ⟨0, hn⟩))) (by exact_mod_cast hn)

/-- `fit_constraint`: one pulse; the first eigenvalue is positive, so the first mode satisfies `2 φ₀ - φ₁ = 0` -/
example (solver : Solver (fitNb calmCfg (series [1, 0, 0, 0, 0, 0, 0, 0]).flatten.length)) (hs : SolverFull solver) :
    ∃ out, (∀ r, FitRun calmCfg (-Complex.I) (series [1, 0, 0, 0, 0, 0, 0, 0]) ⟨[2], fun _ => 1⟩ solver r → r = some out) ∧
      ∃ φ : Fin (size [2]) → ℂ, (∀ x : Fin (size [2]), fileEntry (out.modes 0) (unravel [2] x ++ [0]) = some (φ x)) ∧
        ∑ x, ((![2, -1] : Fin 2 → ℝ) x : ℂ) * φ x = 0 := by
  obtain ⟨out, h1, h2⟩ := fit_constraint calmCfg (-Complex.I) (series [1, 0, 0, 0, 0, 0, 0, 0]) ⟨[2], fun _ => 1⟩ .blockwise (calm_accepted _ (Or.inl rfl)) rfl
    ![2, -1] 0 (fun _ => rfl) (series_satisfies _) solver
  obtain ⟨out', h1', h2'⟩ := fit_pattern calmCfg (-Complex.I) (series [1, 0, 0, 0, 0, 0, 0, 0]) ⟨[2], fun _ => 1⟩ .blockwise (calm_accepted _ (Or.inl rfl)) rfl
    (fun x => (x.getD 0 0 + 1 : ℕ)) (fun _ => 0) (by simp) [1, 0, 0, 0, 0, 0, 0, 0] (series_length _).symm (fun x _ t ht => by
      rw [series_length] at ht
      rw [series_at _ t ht, mul_comm, add_zero]) solver hs
  have e : out' = out := by
    have a := h1 _ (Or.inl rfl)
    rw [h1' _ (Or.inl rfl)] at a
    exact Option.some.inj a
  subst e
  have hnb : 0 < fitNb calmCfg (series [1, 0, 0, 0, 0, 0, 0, 0]).flatten.length := by rw [series_length]; decide
  refine ⟨_, h1, h2 0 (by decide) ⟨0, hnb⟩ (show 0 < 2 by omega) ?_⟩
  rw [(h2' 0 (by decide)).1 ⟨0, hnb⟩, if_pos rfl]
  have hhat : specHat calmCfg .blockwise (-Complex.I) [1, 0, 0, 0, 0, 0, 0, 0] 0 0 ≠ 0 := by
    simp [specHat, specNorm, specFluct, calmCfg, shortCfg, Finset.sum_range_succ]
    norm_num
  have hpow := mean_square_pos (fun k => specHat calmCfg .blockwise (-Complex.I) [1, 0, 0, 0, 0, 0, 0, 0] 0 k) hnb hhat
  have hn : 0 < ∑ x : Fin (size [2]), (1 : ℝ) * (((unravel [2] x.1).getD 0 0 + 1 : ℕ) : ℝ) ^ 2 :=
    Finset.sum_pos (fun x _ => by positivity) ⟨⟨0, by decide⟩, Finset.mem_univ _⟩
  have hf : (oneSidedFactor calmCfg.isreal (nFreq calmCfg.nDft calmCfg.isreal calmCfg.full) 0 : ℝ) = 1 := by
    have : oneSidedFactor calmCfg.isreal (nFreq calmCfg.nDft calmCfg.isreal calmCfg.full) 0 = 1 := by decide
    rw [this]; norm_num
  rw [hf, one_mul]
  exact mul_pos hn hpow


/-- the snapshots `(3, 6)`, `(4, 8)` -/
theorem podLine_corr : Pod.corrMat (Pod.fitData .zero (podD (podPair 3 6 4 8).flatten ([2] ++ [1]))) (fun _ => 1) =
    (!![45, 60; 60, 80] : Matrix (Fin 2) (Fin 2) ℝ) := by
  have hsum : ∀ f : Fin (size ([2] ++ [1])) → ℝ, ∑ x, f x = f ⟨0, by decide⟩ + f ⟨1, by decide⟩ := fun f => Fin.sum_univ_two (fun x : Fin 2 => f x)
  ext i j
  simp only [Pod.corrMat, Matrix.mul_apply, Matrix.transpose_apply, Matrix.of_apply, Pod.fitData, podD]
  rw [hsum]
  have h2 : ∀ i : Fin 2, i = 0 ∨ i = 1 := fun i => by omega
  have hi : i = (0 : Fin 2) ∨ i = (1 : Fin 2) := h2 i
  have hj : j = (0 : Fin 2) ∨ j = (1 : Fin 2) := h2 j
  rcases hi with rfl | rfl <;> rcases hj with rfl | rfl <;> norm_num [podPair, flat, unravel, size]

theorem podLine_eig : Pod.EigBasis (!![45, 60; 60, 80] : Matrix (Fin 2) (Fin 2) ℝ) ![125, 0] !![3 / 5, -(4 / 5); 4 / 5, 3 / 5] := by
  refine ⟨fun j => ?_, fun j => ?_, ?_⟩
  · funext i
    fin_cases i <;> fin_cases j <;> (simp [Matrix.mulVec, dotProduct, Fin.sum_univ_two]; try norm_num)
  · fin_cases j <;> (simp [Fin.sum_univ_two]; try norm_num)
  · rw [Matrix.det_fin_two]
    norm_num

/-- `pod_constraint`: both snapshots satisfy `2 q₀ - q₁ = 0`, and so does the stored mode -/
example : ∃ solver lamV, PodSolver solver lamV ∧ ∃ o, PodFit.podFit podOneCfg none solver (podPair 3 6 4 8) [none] none = some o ∧
    ∃ φ : Fin (size ([2] ++ [1])) → ℝ, (∀ x, podStoredMode o _ 1 0 x = (φ x : ℂ)) ∧ ∑ x : Fin (size ([2] ++ [1])), (![2, -1] : Fin 2 → ℝ) x * φ x = 0 := by
  obtain ⟨solver, lamV, hs, hl⟩ := solver_with _ _ _ podLine_eig
  refine ⟨solver, lamV, hs, ?_⟩
  obtain ⟨o, h1, h2⟩ := pod_constraint (podPairRun 3 6 4 8) solver lamV hs (comms := [none]) (sched := none) (Or.inl ⟨rfl, rfl⟩) (![2, -1] : Fin 2 → ℝ) 0 (fun _ => rfl) (by
    intro t ht
    have ht : t < 2 := ht
    have e : ∀ g : Fin 2 → ℝ, ∑ x : Fin (size ([2] ++ [1])), g x = g 0 + g 1 := fun g => Fin.sum_univ_two g
    rw [e fun x => (![2, -1] : Fin 2 → ℝ) x * podAt (podPair 3 6 4 8) t x.1]
    have p := podPair_at 3 6 4 8
    have : t = 0 ∨ t = 1 := by omega
    rcases this with rfl | rfl
    · show 2 * podAt (podPair 3 6 4 8) 0 0 + -1 * podAt (podPair 3 6 4 8) 0 1 = 0
      rw [p.1, p.2.1]; norm_num
    · show 2 * podAt (podPair 3 6 4 8) 1 0 + -1 * podAt (podPair 3 6 4 8) 1 1 = 0
      rw [p.2.2.1, p.2.2.2]; norm_num)
  have he : o.eigs = [125, 0] := by
    have hfit := (podPairRun 3 6 4 8).fit solver (comms := [none]) (sched := none) (Or.inl ⟨rfl, rfl⟩)
    rw [h1] at hfit
    have : o.eigs = List.ofFn (solver 2 (!![45, 60; 60, 80])).1 := by
      rw [Option.some.inj hfit, ← podLine_corr]; rfl
    rw [this, hs.real, hl]
    simp [List.ofFn_succ]
  exact ⟨o, h1, h2 0 (by omega) (by rw [he]; norm_num)⟩

/-- `reconstruction_constraint`: data and the mode at the second frequency vanish at the first point, and so does the reconstruction -/
example (svd : Svd) (tol : ℝ) : ∃ G R, project (texStored 0 1) (texLast tol) svd texFrames [none] none = some G ∧
    reconstruct G none (.str "all") (ranksOf 2) (some fun _ l => l.reverse) = some (npSave (timeArr [2, 1] R)) ∧
      ∀ t : Fin texFrames.length, ∑ x, (((![1, 0] : Fin 2 → ℝ) x : ℝ) : ℂ) * R x t = (0 : ℝ) := by
  have e : ∀ g : Fin 2 → ℂ, ∑ x : Fin (size [2, 1]), g x = g 0 + g 1 := fun g => Fin.sum_univ_two g
  refine reconstruction_constraint (texStored 0 1) (texLast tol) svd texFrames _ [2] [2, 1] (tex_ready_last 0 1 tol) _ _ _ _ (Or.inl ⟨rfl, rfl⟩)
    (Or.inr ⟨2, _, by omega, fun _ l => List.reverse_perm l, rfl, rfl⟩) (![1, 0] : Fin 2 → ℝ) 0 (fun t => ?_) (fun j => ?_)
  · rw [tex_D]
    refine (e fun x => (((![1, 0] : Fin 2 → ℝ) x : ℝ) : ℂ) * twoD x t).trans ?_
    have ht : t = (0 : Fin 2) ∨ t = (1 : Fin 2) := (fun i : Fin 2 => (by omega : i = 0 ∨ i = 1)) t
    rcases ht with rfl | rfl <;> simp [twoD]
  · rw [tex_phi_last]
    refine (e fun x => (((![1, 0] : Fin 2 → ℝ) x : ℝ) : ℂ) * onePhi 0 1 x j).trans ?_
    have hj : j = (0 : Fin 1) := (fun i : Fin 1 => (by omega : i = 0)) j
    subst hj
    simp [onePhi]

/-- 6 snapshots of 3 points, the third a copy of the first -/
def copyFrames : List (Arr ℝ) :=
  (List.range 6).map fun (t : Nat) => ⟨[3, 1], fun i => if i = [1, 0] then (if t = 4 then 1 else 0) else if t = 1 then 1 else 0⟩

def copyWeights : Arr ℝ := ⟨[3, 1], fun i => if i = [1, 0] then 2 else 1⟩

theorem copy_accepted : StreamAccepted sexCfg copyFrames copyWeights where
  shapes := by
    intro a ha
    simp only [copyFrames, List.mem_map] at ha
    obtain ⟨t, -, rfl⟩ := ha
    rfl
  space := by simp [copyWeights]
  mean := by decide
  blocks := by
    have hlen : copyFrames.length = 6 := by simp [copyFrames]
    rw [hlen]; decide
  overlap := by decide
  save := by decide
  points := by decide

theorem copy_vec (f m : Nat) (i : Fin (size sexWeights.shape)) (i' : Fin (size copyWeights.shape)) (h : i.1 = i'.1) :
    specVec sexCfg (-Complex.I) copyFrames copyWeights f m i' = specVec sexCfg (-Complex.I) sexFrames sexWeights f m i := by
  have hi : i.1 < 2 := i.2
  have e1 : (copyFrames.map fun a => a.at' (unravel copyWeights.shape i')) = sexFrames.map fun a => a.at' (unravel sexWeights.shape i) := by
    have : i.1 = 0 ∨ i.1 = 1 := by omega
    rcases this with h0 | h0 <;> rw [← h, h0] <;> simp [copyFrames, sexFrames, copyWeights, sexWeights, unravel, size]
  have e2 : copyWeights.at' (unravel copyWeights.shape i') = sexWeights.at' (unravel sexWeights.shape i) := by
    have : i.1 = 0 ∨ i.1 = 1 := by omega
    rcases this with h0 | h0 <;> rw [← h, h0] <;> simp [copyWeights, sexWeights, unravel, size] 
    all_goals try norm_num
  simp only [specVec]
  rw [e1, e2]

theorem copy_independent (f : Nat) (hf : f < 3) : Independent sexCfg (-Complex.I) copyFrames copyWeights f := by
  intro m hm hmem
  have hl : copyFrames.length = sexFrames.length := by simp [copyFrames, sexFrames]
  refine sex_independent f hf m (hl ▸ hm) ?_
  let g : Fin (size sexWeights.shape) → Fin (size copyWeights.shape) := fun i => ⟨i.1, lt_trans i.2 (by decide)⟩
  have key := Submodule.mem_map_of_mem (f := LinearMap.funLeft ℂ ℂ g) hmem
  rw [Submodule.map_span] at key
  have hv : ∀ m, LinearMap.funLeft ℂ ℂ g (specVec sexCfg (-Complex.I) copyFrames copyWeights f m) = specVec sexCfg (-Complex.I) sexFrames sexWeights f m :=
    fun m => funext fun i => copy_vec f m i (g i) rfl
  rw [hv] at key
  refine Submodule.span_mono ?_ key
  rintro v ⟨u, ⟨m', hm', rfl⟩, rfl⟩
  exact ⟨m', hm', hv m'⟩

/-- `stream_constraint`: the values of every mode at the first and third point are equal -/
example : ∃ svd : SFit.Svd (SFit.kept sexCfg copyFrames.length), ∃ out, streamSerial sexCfg (-Complex.I) copyFrames copyWeights svd = some out ∧
    ∀ f < 3, ∀ j : Fin (SFit.kept sexCfg copyFrames.length),
      ∑ x : Fin (size [3, 1]), (((![1, 0, -1] : Fin 3 → ℝ) x : ℝ) : ℂ) * streamMode out f (unravel [3, 1] x) j = 0 := by
  choose g1 g2 hg using fun K : Matrix (Fin (SFit.kept sexCfg copyFrames.length) ⊕ Unit) (Fin (SFit.kept sexCfg copyFrames.length) ⊕ Unit) ℂ =>
    svd_exists K
  obtain ⟨out, h1, -, h2⟩ := stream_constraint sexCfg (-Complex.I) copyFrames copyWeights copy_accepted (fun idx _ => by simp only [copyWeights]; split <;> norm_num)
    (fun K => (g1 K, g2 K)) hg (![1, 0, -1] : Fin 3 → ℝ) 0 (by
      intro t ht
      have ht : t < 6 := ht
      have e : ∀ g : Fin 3 → ℝ, ∑ x : Fin (size [3, 1]), g x = g 0 + g 1 + g 2 := fun g => Fin.sum_univ_three g
      refine (e fun x => (![1, 0, -1] : Fin 3 → ℝ) x * (copyFrames.getD t ⟨[], fun _ => 0⟩).at' (unravel [3, 1] x.1)).trans ?_
      simp [copyFrames, List.getD_eq_getElem?_getD, ht, unravel, size]
      split <;> norm_num)
  exact ⟨_, out, h1, fun f hf j => h2 f (copy_independent f hf) j⟩

/-- one mode is kept -/
def calmOne : Cfg := { calmCfg with nSave := 1 }

/-- `workflow_constraint`: the first mode of every frequency of one pulse, snapshots `v, 2v` projected -/
example (solver : Solver (fitNb calmOne (series [1, 0, 0, 0, 0, 0, 0, 0]).flatten.length)) (hs : SolverFull solver) (svd : Svd) (tol dt : ℝ) :
    ∃ out, (∀ r, FitRun calmOne (-Complex.I) (series [1, 0, 0, 0, 0, 0, 0, 0]) ⟨[2], fun _ => 1⟩ solver r → r = some out) ∧
      ∃ G R, project (storedOf calmOne 0 1 dt out) ⟨none, none, none, tol, false⟩ svd (series [1, 3, 2]).flatten [none] none = some G ∧
        reconstruct G none (.str "all") (ranksOf 2) (some fun _ l => l.reverse) = some (npSave (timeArr [2] R)) ∧
        ∀ t : Fin (series [1, 3, 2]).flatten.length, ∑ x, (((![2, -1] : Fin 2 → ℝ) x : ℝ) : ℂ) * R x t = (0 : ℝ) := by
  have A : Accepted calmOne (series [1, 0, 0, 0, 0, 0, 0, 0]) ⟨[2], fun _ => 1⟩ .blockwise := by
    have B := calm_accepted [1, 0, 0, 0, 0, 0, 0, 0] (Or.inl rfl)
    exact { B with }
  have hlen : (freqAxis calmOne.nDft dt calmOne.isreal calmOne.full).length = 3 := by rw [freqAxis_length _ _ _ _ (by decide)]; decide
  obtain ⟨out, h1, h2⟩ := workflow_constraint calmOne (-Complex.I) (series [1, 0, 0, 0, 0, 0, 0, 0]) ⟨[2], fun _ => 1⟩ .blockwise A rfl
    ![2, -1] 0 0 (fun _ => rfl) (series_satisfies _) solver (by decide) (by decide) 0 1 dt ⟨none, none, none, tol, false⟩ svd _
    (band_default _ (by intro h; rw [h] at hlen; cases hlen)) (by simp) (by simp [hlen]) (by
      intro f hf
      rw [hlen] at hf
      exact List.mem_range.1 hf) (series [1, 3, 2]).flatten (by simp [series]) [2] (by simp) (by
      intro a ha
      simp only [series, List.flatten_cons, List.flatten_nil, List.append_nil, List.mem_map] at ha
      obtain ⟨v, -, rfl⟩ := ha
      rfl) (Or.inl ⟨rfl, Or.inr rfl⟩) (by
      intro t
      have h := series_satisfies [1, 3, 2] t.1 t.2
      rw [← h]
      push_cast
      refine Finset.sum_congr rfl fun x _ => ?_
      rw [specD_apply]
      have hx : x = (0 : Fin 2) ∨ x = (1 : Fin 2) := (fun i : Fin 2 => (by omega : i = 0 ∨ i = 1)) x
      congr 2
      have ht := t.2
      simp only [flat]
      have : ((series [1, 3, 2]).flatten.getD t.1 ⟨[], fun _ => 0⟩).shape = [2] := by
        have ht : t.1 < ([1, 3, 2] : List ℝ).length := ht
        simp only [series, List.flatten_cons, List.flatten_nil, List.append_nil, List.getD_eq_getElem?_getD, List.getElem?_map,
          List.getElem?_eq_getElem ht, Option.map_some, Option.getD_some]
      rw [this])
  obtain ⟨out', h1', h2'⟩ := fit_pattern calmOne (-Complex.I) (series [1, 0, 0, 0, 0, 0, 0, 0]) ⟨[2], fun _ => 1⟩ .blockwise A rfl
    (fun x => (x.getD 0 0 + 1 : ℕ)) (fun _ => 0) (by simp) [1, 0, 0, 0, 0, 0, 0, 0] (series_length _).symm (fun x _ t ht => by
      rw [series_length] at ht
      rw [series_at _ t ht, mul_comm, add_zero]) solver hs
  have e : out' = out := by
    have a := h1 _ (Or.inl rfl)
    rw [h1' _ (Or.inl rfl)] at a
    exact Option.some.inj a
  subst e
  have hnb : 0 < fitNb calmOne (series [1, 0, 0, 0, 0, 0, 0, 0]).flatten.length := by rw [series_length]; decide
  refine ⟨_, h1, h2 (fun f hf k hk => ?_) _ _ _ _ (Or.inl ⟨rfl, rfl⟩) (Or.inr ⟨2, _, by omega, fun _ l => List.reverse_perm l, rfl, rfl⟩)⟩
  rw [hlen] at hf
  have hf : f < 3 := List.mem_range.1 hf
  have hk : k.1 < 1 := hk
  rw [(h2' f hf).1 k, if_pos (by omega)]
  have hn : 0 < ∑ x : Fin (size [2]), (1 : ℝ) * (((unravel [2] x.1).getD 0 0 + 1 : ℕ) : ℝ) ^ 2 :=
    Finset.sum_pos (fun x _ => by positivity) ⟨⟨0, by decide⟩, Finset.mem_univ _⟩
  have hhat : specHat calmOne .blockwise (-Complex.I) [1, 0, 0, 0, 0, 0, 0, 0] f 0 ≠ 0 := by
    have i3 : (-Complex.I) ^ 3 = Complex.I := by
      rw [pow_succ, neg_sq, Complex.I_sq]
      ring
    have : f = 0 ∨ f = 1 ∨ f = 2 := by omega
    rcases this with rfl | rfl | rfl
    · simp [specHat, specNorm, specFluct, calmOne, calmCfg, shortCfg, Finset.sum_range_succ]
      norm_num
    · simp [specHat, specNorm, specFluct, calmOne, calmCfg, shortCfg, Finset.sum_range_succ]
      norm_num
      rw [i3]
      intro h
      have := congrArg Complex.re h
      norm_num at this
    · simp [specHat, specNorm, specFluct, calmOne, calmCfg, shortCfg, Finset.sum_range_succ]
      norm_num
  have hpow := mean_square_pos (fun k => specHat calmOne .blockwise (-Complex.I) [1, 0, 0, 0, 0, 0, 0, 0] f k) hnb hhat
  exact mul_pos (by exact_mod_cast fac_pos _ _ _) (mul_pos hn hpow)

end Verif.Props
