import Verif.Props.PodFit
import Verif.Props.Optimal
/-
  C159, C160: POD modes are optimal if kept in decreasing order; what a change of the data changes in the results.
-/
set_option linter.unusedSectionVars false
namespace Verif.Props
open Verif Verif.Par Verif.Fit Verif.Proj Verif.Pod Matrix ComplexConjugate

section
variable {X : Type} [Fintype X] [DecidableEq X] {nt : Nat}

/-! ### The inequality, in real numbers -/

theorem pod_complex_corr (D : Matrix X (Fin nt) ℝ) (w : X → ℝ) (hnt : 0 < nt) (v : Fin nt → ℝ) (l : ℝ)
    (h : corrMat D w *ᵥ v = l • v) :
    Spod.crossSpectral (Matrix.of fun x t => (D x t : ℂ)) w *ᵥ (fun t => (v t : ℂ)) = ((l / nt : ℝ) : ℂ) • fun t => (v t : ℂ) := by
  funext t
  have := congrFun h t
  simp only [corrMat, mulVec, dotProduct, Matrix.mul_apply, Matrix.transpose_apply, Matrix.of_apply, Pi.smul_apply, smul_eq_mul] at this
  have hc := congrArg (fun r : ℝ => (r : ℂ)) this
  push_cast at hc
  simp only [Spod.crossSpectral, mulVec, dotProduct, Pi.smul_apply, smul_eq_mul, Matrix.mul_apply, Matrix.smul_apply,
    Matrix.conjTranspose_apply, Matrix.of_apply, ← starRingEnd_apply, Complex.conj_ofReal]
  push_cast
  rw [div_mul_eq_mul_div, ← hc, Finset.sum_div]
  refine Finset.sum_congr rfl fun t' _ => ?_
  have : (nt : ℂ) ≠ 0 := by exact_mod_cast hnt.ne'
  field_simp

theorem real_inner_W (w : X → ℝ) (f g : X → ℝ) : inner_W w (fun x => (f x : ℂ)) (fun x => (g x : ℂ)) = ((podIp w f g : ℝ) : ℂ) := by
  simp only [inner_W, podIp, Complex.conj_ofReal]
  push_cast
  exact Finset.sum_congr rfl fun x _ => by ring

theorem pod_optimal_bound (D : Matrix X (Fin nt) ℝ) (w : X → ℝ) (hw : ∀ x, 0 ≤ w x) (hnt : 0 < nt) (lam : Fin nt → ℝ)
    (V : Matrix (Fin nt) (Fin nt) ℝ) (h : EigBasis (corrMat D w) lam V) (σ : Equiv.Perm (Fin nt))
    (hσ : ∀ i j, i ≤ j → lam (σ j) ≤ lam (σ i)) (K : Nat) (ψ : Fin K → X → ℝ)
    (hψ : ∀ i j, podIp w (ψ i) (ψ j) = if i = j then 1 else 0) :
    ∑ t, ∑ j, podIp w (ψ j) (fun x => D x t) ^ 2 ≤ ∑ k : Fin nt, if k.1 < K then lam (σ k) else 0 := by
  have hn : (0 : ℝ) < nt := by exact_mod_cast hnt
  have hP : Spod.EigPairs (Spod.crossSpectral (Matrix.of fun x t => (D x t : ℂ)) w) (fun j => ((lam j / nt : ℝ) : ℂ))
      (Matrix.of fun i j => (V i j : ℂ)) := by
    intro j
    refine ⟨pod_complex_corr D w hnt _ _ (h.eig j), ?_⟩
    have := congrArg (fun r : ℝ => (r : ℂ)) (h.unit j)
    push_cast at this
    simpa only [Matrix.of_apply, Complex.conj_ofReal] using this
  have hd : IsUnit (Matrix.of fun i j => (V i j : ℂ)).det := by
    have e : (Matrix.of fun i j => (V i j : ℂ)) = V.map Complex.ofRealHom := rfl
    rw [e, ← RingHom.mapMatrix_apply, ← RingHom.map_det]
    exact h.basis.map _
  have key := spod_optimal_freq _ w hw hnt _ _ hP hd σ
    (by
      intro i j hij
      simp only [Spod.realIfClose, Complex.ofReal_re]
      exact div_le_div_of_nonneg_right (hσ i j hij) hn.le) K (fun j x => (ψ j x : ℂ))
    (by intro i j; rw [real_inner_W, hψ]; split <;> simp)
  rw [captured, div_le_iff₀ hn, Finset.sum_mul] at key
  refine le_trans (le_of_eq ?_) (key.trans (le_of_eq ?_))
  · refine Finset.sum_congr rfl fun t _ => Finset.sum_congr rfl fun j _ => ?_
    simp only [Matrix.of_apply]
    rw [real_inner_W, Complex.norm_real, Real.norm_eq_abs, sq_abs]
  · refine Finset.sum_congr rfl fun k _ => ?_
    split
    · simp only [Spod.reorderL, Spod.realIfClose, Complex.ofReal_re]
      field_simp
    · simp

/-- the energy along the normalised mode is its eigenvalue -/
theorem pod_mode_energy (D : Matrix X (Fin nt) ℝ) (w : X → ℝ) (lam : Fin nt → ℝ)
    (V : Matrix (Fin nt) (Fin nt) ℝ) (h : EigBasis (corrMat D w) lam V) (j : Fin nt) (hj : 0 < lam j) :
    ∑ t, podIp w (fun x => phiAll D lam V x j) (fun x => D x t) ^ 2 = lam j := by
  have e : ∀ t, podIp w (fun x => phiAll D lam V x j) (fun x => D x t) = Real.sqrt (lam j) * V t j := by
    intro t
    have h1 := congrFun (h.eig j) t
    simp only [corrMat, mulVec, dotProduct, Matrix.mul_apply, Matrix.transpose_apply, Matrix.of_apply, Pi.smul_apply, smul_eq_mul,
      Finset.sum_mul] at h1
    rw [Finset.sum_comm] at h1
    have h2 : podIp w (fun x => phiAll D lam V x j) (fun x => D x t) * Real.sqrt (lam j) = lam j * V t j := by
      rw [← h1]
      simp only [podIp, phiAll, Matrix.of_apply, Matrix.mul_apply, Finset.sum_mul, Finset.sum_div, Finset.mul_sum]
      refine Finset.sum_congr rfl fun x _ => Finset.sum_congr rfl fun t' _ => ?_
      have := (Real.sqrt_pos.2 hj).ne'
      field_simp
    have h3 := Real.mul_self_sqrt hj.le
    have h4 := (Real.sqrt_pos.2 hj).ne'
    apply mul_right_cancel₀ h4
    rw [h2]
    linear_combination -(V t j) * h3
  rw [Finset.sum_congr rfl fun t _ => by rw [e t, mul_pow, Real.sq_sqrt hj.le], ← Finset.mul_sum]
  have := h.unit j
  simp only [← sq] at this
  rw [this, mul_one]

/-! ### Two decompositions -/

theorem real_eig_roots (M : Matrix (Fin nt) (Fin nt) ℝ) (L : Fin nt → ℝ) (V : Matrix (Fin nt) (Fin nt) ℝ)
    (h : EigBasis M L V) : M.charpoly.roots = Multiset.map L Finset.univ.val := by
  have hV := h.basis
  have hMV : M * V = V * Matrix.diagonal L := by
    ext a j
    have := congrFun (h.eig j) a
    simp only [mulVec, dotProduct, Pi.smul_apply, smul_eq_mul] at this
    rw [Matrix.mul_apply, Matrix.mul_diagonal, this, mul_comm]
  have h1 : M = V * (Matrix.diagonal L * V⁻¹) := by
    rw [← Matrix.mul_assoc, ← hMV, Matrix.mul_assoc, Matrix.mul_nonsing_inv _ hV, Matrix.mul_one]
  rw [h1, Matrix.charpoly_mul_comm, Matrix.mul_assoc, Matrix.nonsing_inv_mul _ hV, Matrix.mul_one, Matrix.charpoly_diagonal,
    Polynomial.roots_prod]
  · simp
  · simp [Finset.prod_ne_zero_iff, Polynomial.X_sub_C_ne_zero]

theorem real_eig_sign (M : Matrix (Fin nt) (Fin nt) ℝ) (L L' : Fin nt → ℝ) (V V' : Matrix (Fin nt) (Fin nt) ℝ) (h : EigBasis M L V)
    (h' : EigBasis M L' V') (a a' : Fin nt) (ha : L' a' = L a) (hs : ∀ j, j ≠ a → L j ≠ L a) :
    ∃ z : ℝ, (z = 1 ∨ z = -1) ∧ ∀ b, V' b a' = z * V b a := by
  have hV := h.basis
  set c : Fin nt → ℝ := V⁻¹ *ᵥ (fun i => V' i a') with hc
  have hVc : V *ᵥ c = fun i => V' i a' := by
    rw [hc, Matrix.mulVec_mulVec, Matrix.mul_nonsing_inv _ hV, Matrix.one_mulVec]
  have hMV : M * V = V * Matrix.diagonal L := by
    ext a j
    have := congrFun (h.eig j) a
    simp only [mulVec, dotProduct, Pi.smul_apply, smul_eq_mul] at this
    rw [Matrix.mul_apply, Matrix.mul_diagonal, this, mul_comm]
  have e1 : V *ᵥ (Matrix.diagonal L *ᵥ c) = V *ᵥ (L a • c) := by
    rw [Matrix.mulVec_mulVec, ← hMV, ← Matrix.mulVec_mulVec, hVc, h'.eig a', ha, Matrix.mulVec_smul, hVc]
  have e2 : Matrix.diagonal L *ᵥ c = L a • c := by
    have := congrArg (fun v => V⁻¹ *ᵥ v) e1
    simpa [Matrix.mulVec_mulVec, ← Matrix.mul_assoc, Matrix.nonsing_inv_mul _ hV] using this
  have hc0 : ∀ j, j ≠ a → c j = 0 := by
    intro j hj
    have := congrFun e2 j
    rw [Matrix.mulVec_diagonal, Pi.smul_apply, smul_eq_mul] at this
    have : (L j - L a) * c j = 0 := by rw [sub_mul, this, sub_self]
    rcases mul_eq_zero.1 this with h0 | h0
    · exact absurd (sub_eq_zero.1 h0) (hs j hj)
    · exact h0
  have hz : ∀ b, V' b a' = c a * V b a := by
    intro b
    have := congrFun hVc b
    simp only [mulVec, dotProduct] at this
    rw [← this, Finset.sum_eq_single a (fun j _ hj => by rw [hc0 j hj, mul_zero]) (fun h => absurd (Finset.mem_univ a) h), mul_comm]
  refine ⟨c a, ?_, hz⟩
  have h1 := h.unit a
  have h2 := h'.unit a'
  simp only [hz] at h2
  have h3 : (c a * c a) * ∑ i, V i a * V i a = 1 := by
    rw [← h2, Finset.mul_sum]
    exact Finset.sum_congr rfl fun i _ => by ring
  rw [h1, mul_one] at h3
  exact mul_self_eq_one_iff.1 h3

end

/-! ### The files of a fit -/

/-- what POD decomposes: the snapshots in C order, minus their arithmetic mean if the mean is `longtime` (specification) -/
noncomputable def podFluct (mk : MeanKind) (frames : List (Arr ℝ)) (sh : List Nat) (x : Fin (size sh)) (t : Fin frames.length) : ℝ :=
  podD frames sh x t - if mk = .longtime then (∑ t', podD frames sh x t') / frames.length else 0

theorem podFluct_eq (mk : MeanKind) (frames : List (Arr ℝ)) (sh : List Nat) (x t) :
    podFluct mk frames sh x t = fitData mk (podD frames sh) x t := by
  cases mk <;> simp [podFluct, fitData, tMean]

/-- weighted inner product of two fields with the numbers stored in `weights.npy` -/
noncomputable def podStoredIp (o : PodFit.Out) (N : Nat) (f g : Fin N → ℝ) : ℝ := ∑ x : Fin N, NpyFile.num o.weights x * (f x * g x)

/-- mode `j` of `n` as stored -/
noncomputable def podStoredMode (o : PodFit.Out) (N n j : Nat) (x : Fin N) : ℂ := NpyFile.num o.modes (x * n + j)

theorem corr_symm {X : Type} [Fintype X] {nt : Nat} (D : Matrix X (Fin nt) ℝ) (w : X → ℝ) : (corrMat D w)ᵀ = corrMat D w := by
  ext t t'
  simp only [corrMat, Matrix.transpose_apply, Matrix.mul_apply, Matrix.of_apply]
  exact Finset.sum_congr rfl fun x _ => by ring

/-- an exact solver for real symmetric matrices, answering in complex type -/
structure PodSolver (solver : PodFit.Solver) (lamV : (nt : Nat) → Matrix (Fin nt) (Fin nt) ℝ → (Fin nt → ℝ) × Matrix (Fin nt) (Fin nt) ℝ) : Prop where
  real : RealSolver solver lamV
  eig : ∀ nt Q, Qᵀ = Q → EigBasis Q (lamV nt Q).1 (lamV nt Q).2

theorem podPhi_real_at (sh : List Nat) (mk : Pod.MeanKind) {nt : Nat} (d : Matrix (Fin (size sh)) (Fin nt) ℝ) (lam : Fin nt → ℝ)
    (V : Matrix (Fin nt) (Fin nt) ℝ) (n : Nat) (j : Fin n) (hj : j.1 < nt) (hpos : 0 < lam ⟨j, hj⟩) (i : Fin (size sh)) :
    podPhi sh (Pod.fitData mk d) ((fun i => (lam i : ℂ)), Matrix.of fun i j => (V i j : ℂ)) n i j =
      ((Pod.phiAll (Pod.fitData mk d) lam V i ⟨j, hj⟩ : ℝ) : ℂ) := by
  simp only [podPhi, Matrix.of_apply]
  rw [dif_pos hj]
  simp only [Pod.phiAll, Matrix.of_apply]
  rw [Real.sqrt_eq_rpow, Complex.ofReal_div, Complex.ofReal_cpow hpos.le]
  congr 1
  · rw [Complex.ofReal_inj, Matrix.mul_apply, ← Complex.ofReal_re (∑ t, Pod.fitData mk d i t * V t ⟨j.1, hj⟩)]
    push_cast
    rfl
  · push_cast
    rfl

/-- what the files of a run contain, in terms of the answer of the solver -/
theorem pod_files_spec {c weights files dims mk n} (R : PodRun c weights files dims mk n) (solver : PodFit.Solver) (lamV)
    (hs : PodSolver solver lamV) {comms : List Comm} {sched : Sched} (hrun : IsRun comms sched) :
    ∃ o lam V, PodFit.podFit c weights solver files comms sched = some o ∧ o.eigs = List.ofFn (fun i => ((lam i : ℝ) : ℂ)) ∧
      EigBasis (corrMat (fitData mk (podD files.flatten (dims ++ [1]))) (podW (weights.getD ⟨dims ++ [1], fun _ => 1⟩) (dims ++ [1]))) lam V ∧
      (∀ x : Fin (size (dims ++ [1])), NpyFile.num o.weights x = podW (weights.getD ⟨dims ++ [1], fun _ => 1⟩) (dims ++ [1]) x) ∧
      ∀ j < n, ∀ hj : j < files.flatten.length, 0 < lam ⟨j, hj⟩ → ∀ x : Fin (size (dims ++ [1])), podStoredMode o _ n j x =
        ((phiAll (fitData mk (podD files.flatten (dims ++ [1]))) lam V x ⟨j, hj⟩ : ℝ) : ℂ) := by
  refine ⟨_, _, _, R.fit solver hrun, ?_, hs.eig _ _ (corr_symm _ _), fun x => vec_num _ _ x, ?_⟩
  · simp only [podOut]
    rw [hs.real]
  · intro j hjn hj hp x
    simp only [podStoredMode, podOut]
    rw [hs.real, grid_num _ _ _ x ⟨j, hjn⟩]
    exact podPhi_real_at _ _ _ _ _ _ ⟨j, hjn⟩ hj hp x

/-- **C159 (bound).** For every run, every exact solver and weights that are not negative: no `K` fields that are orthonormal in the stored
    weights capture more energy of the data than the sum of the `K` largest stored eigenvalues, and a stored mode captures exactly
    the eigenvalue stored at its position. -/
theorem pod_energy_bound {c weights files dims mk n} (R : PodRun c weights files dims mk n) (solver : PodFit.Solver) (lamV)
    (hs : PodSolver solver lamV) (hw : ∀ w, weights = some w → ∀ k, 0 ≤ flat w k) {comms : List Comm} {sched : Sched}
    (hrun : IsRun comms sched) :
    ∃ (o : PodFit.Out) (lam : Fin files.flatten.length → ℝ), PodFit.podFit c weights solver files comms sched = some o ∧ o.eigs = List.ofFn (fun i => ((lam i : ℝ) : ℂ)) ∧
      (∀ σ : Equiv.Perm (Fin files.flatten.length), (∀ i j, i ≤ j → lam (σ j) ≤ lam (σ i)) → ∀ (K : Nat)
        (ψ : Fin K → Fin (size (dims ++ [1])) → ℝ), (∀ i j, podStoredIp o _ (ψ i) (ψ j) = if i = j then 1 else 0) →
          ∑ t, ∑ j, podStoredIp o _ (ψ j) (fun x => podFluct mk files.flatten (dims ++ [1]) x t) ^ 2 ≤
            ∑ k : Fin files.flatten.length, if k.1 < K then lam (σ k) else 0) ∧
      ∀ j < n, ∀ hj : j < files.flatten.length, 0 < lam ⟨j, hj⟩ → ∃ φ : Fin (size (dims ++ [1])) → ℝ,
        (∀ x, podStoredMode o _ n j x = (φ x : ℂ)) ∧ podStoredIp o _ φ φ = 1 ∧
        ∑ t, podStoredIp o _ φ (fun x => podFluct mk files.flatten (dims ++ [1]) x t) ^ 2 = lam ⟨j, hj⟩ := by
  obtain ⟨o, lam, V, h1, h2, h3, h4, h5⟩ := pod_files_spec R solver lamV hs hrun
  have hip : ∀ f g, podStoredIp o (size (dims ++ [1])) f g =
      podIp (podW (weights.getD ⟨dims ++ [1], fun _ => 1⟩) (dims ++ [1])) f g := fun f g =>
    Finset.sum_congr rfl fun x _ => by rw [h4]
  have hw0 : ∀ x, 0 ≤ podW (weights.getD ⟨dims ++ [1], fun _ => 1⟩) (dims ++ [1]) x := by
    intro x
    cases weights with
    | none => simp [podW, flat]
    | some w => exact hw w rfl _
  have hpos : 0 < files.flatten.length := lt_of_lt_of_le R.n_pos R.n_le
  refine ⟨o, lam, h1, h2, fun σ hσ K ψ hψ => ?_, fun j hjn hj hp => ?_⟩
  · simp only [hip, podFluct_eq] at hψ ⊢
    exact pod_optimal_bound _ _ hw0 hpos lam V h3 σ hσ K ψ hψ
  · refine ⟨fun x => phiAll (fitData mk (podD files.flatten (dims ++ [1]))) lam V x ⟨j, hj⟩, h5 j hjn hj hp, ?_, ?_⟩
    · rw [hip]
      have e := eig_ip h3 ⟨j, hj⟩ ⟨j, hj⟩
      rw [h3.unit, mul_one] at e
      have hq := Real.mul_self_sqrt hp.le
      have hq0 := (Real.sqrt_pos.2 hp).ne'
      rw [show podIp (podW (weights.getD ⟨dims ++ [1], fun _ => 1⟩) (dims ++ [1]))
        (fun x => phiAll (fitData mk (podD files.flatten (dims ++ [1]))) lam V x ⟨j, hj⟩)
        (fun x => phiAll (fitData mk (podD files.flatten (dims ++ [1]))) lam V x ⟨j, hj⟩) =
        podIp (podW (weights.getD ⟨dims ++ [1], fun _ => 1⟩) (dims ++ [1]))
          (fitData mk (podD files.flatten (dims ++ [1])) *ᵥ fun k => V k ⟨j, hj⟩)
          (fitData mk (podD files.flatten (dims ++ [1])) *ᵥ fun k => V k ⟨j, hj⟩) / (Real.sqrt (lam ⟨j, hj⟩) * Real.sqrt (lam ⟨j, hj⟩)) from ?_]
      · rw [e, hq, div_self hp.ne']
      · unfold podIp
        rw [Finset.sum_div]
        refine Finset.sum_congr rfl fun x _ => ?_
        simp only [phiAll, Matrix.of_apply, Matrix.mul_apply, Matrix.mulVec, dotProduct]
        ring
    · simp only [hip, podFluct_eq]
      exact pod_mode_energy _ _ lam V h3 ⟨j, hj⟩ hp

/-- **C159 (partial).** If the solver happens to return the eigenvalues in non-increasing order and the first `n` are positive, no `n` orthonormal
    fields capture more energy of the data than the `n` stored modes. -/
theorem pod_optimal_partial {c weights files dims mk n} (R : PodRun c weights files dims mk n) (solver : PodFit.Solver) (lamV)
    (hs : PodSolver solver lamV) (hw : ∀ w, weights = some w → ∀ k, 0 ≤ flat w k) {comms : List Comm} {sched : Sched}
    (hrun : IsRun comms sched) :
    ∃ o, PodFit.podFit c weights solver files comms sched = some o ∧
      ((∀ i j, i ≤ j → j < files.flatten.length → (o.eigs.getD j 0).re ≤ (o.eigs.getD i 0).re) → (∀ j < n, 0 < (o.eigs.getD j 0).re) →
        ∃ φ : Fin n → Fin (size (dims ++ [1])) → ℝ, (∀ (j : Fin n) x, podStoredMode o _ n j x = (φ j x : ℂ)) ∧
          ∀ ψ : Fin n → Fin (size (dims ++ [1])) → ℝ, (∀ i j, podStoredIp o _ (ψ i) (ψ j) = if i = j then 1 else 0) →
            ∑ t, ∑ j, podStoredIp o _ (ψ j) (fun x => podFluct mk files.flatten (dims ++ [1]) x t) ^ 2 ≤
              ∑ t, ∑ j, podStoredIp o _ (φ j) (fun x => podFluct mk files.flatten (dims ++ [1]) x t) ^ 2) := by
  obtain ⟨o, lam, h1, h2, h3, h4⟩ := pod_energy_bound R solver lamV hs hw hrun
  refine ⟨o, h1, fun hsort hpos => ?_⟩
  have hget : ∀ j, ∀ h : j < files.flatten.length, (o.eigs.getD j 0).re = lam ⟨j, h⟩ := by
    intro j h
    rw [h2, ofFn_getD _ j h, Complex.ofReal_re]
  have hlt : ∀ j : Fin n, j.1 < files.flatten.length := fun j => lt_of_lt_of_le j.2 R.n_le
  choose φ hφ _ hen using fun j : Fin n => h4 j j.2 (hlt j) (by rw [← hget]; exact hpos j j.2)
  refine ⟨φ, hφ, fun ψ hψ => ?_⟩
  refine (h3 (Equiv.refl _) (fun i j hij => ?_) n ψ hψ).trans (le_of_eq ?_)
  · have := hsort i j hij j.2
    rwa [hget _ i.2, hget _ j.2] at this
  · rw [Finset.sum_comm, Finset.sum_congr rfl fun j _ => hen j, ← Finset.sum_filter]
    symm
    refine Finset.sum_bij (fun k _ => ⟨k.1, hlt k⟩) (fun k _ => ?_) (fun a _ b _ hab => ?_) (fun b hb => ?_) (fun k _ => rfl)
    · simp
    · exact Fin.ext (by simpa using congrArg Fin.val hab)
    · exact ⟨⟨b.1, (Finset.mem_filter.1 hb).2⟩, Finset.mem_univ _, Fin.ext rfl⟩

/-! ### The order of the solver decides -/

def podOneCfg : PodFit.Cfg := ⟨1, 1, "Zero", .int 1⟩

theorem podOneRun : PodRun podOneCfg none podExFiles [2] .zero 1 where
  files_ne := by simp [podExFiles]
  ne := by simp [podExFiles]
  snaps := by simp [podExFiles]
  nv := rfl
  xdim := by decide
  dims_ne := by simp
  pos := by decide
  weights := by simp
  mean := podMean_zero _ (by decide +kernel)
  save := rfl
  n_pos := by omega
  n_le := by simp [podExFiles]

/-- an exact solver that answers `1, 4` for the matrix `diag(1, 4)`: the order of the diagonal -/
theorem diagonal_solver : ∃ solver lamV, PodSolver solver lamV ∧ lamV 2 !![1, 0; 0, 4] = (![1, 4], 1) := by
  classical
  obtain ⟨lamV, h⟩ := eig_solver_exists
  let lamV' : (nt : Nat) → Matrix (Fin nt) (Fin nt) ℝ → (Fin nt → ℝ) × Matrix (Fin nt) (Fin nt) ℝ := fun nt =>
    match nt with
    | 2 => fun Q => if Q = !![1, 0; 0, 4] then (![1, 4], 1) else lamV 2 Q
    | k => lamV k
  refine ⟨fun nt Q => ((fun i => ((lamV' nt Q).1 i : ℂ)), Matrix.of fun i j => ((lamV' nt Q).2 i j : ℂ)), lamV',
    ⟨fun _ _ => rfl, fun nt Q hQ => ?_⟩, if_pos rfl⟩
  by_cases hn : nt = 2
  · subst hn
    show EigBasis Q (if Q = !![1, 0; 0, 4] then (![1, 4], 1) else lamV 2 Q).1 (if Q = !![1, 0; 0, 4] then (![1, 4], 1) else lamV 2 Q).2
    split
    · rename_i he
      subst he
      refine ⟨fun j => ?_, fun j => ?_, by simp⟩
      · funext i
        fin_cases i <;> fin_cases j <;> simp [Matrix.mulVec, dotProduct, Fin.sum_univ_two]
      · show ∑ i, (1 : Matrix (Fin 2) (Fin 2) ℝ) i j * (1 : Matrix (Fin 2) (Fin 2) ℝ) i j = 1
        revert j
        intro (j : Fin 2)
        simp [Matrix.one_apply]
    · exact h 2 Q hQ
  · have : lamV' nt = lamV nt := by
      rcases nt with _ | _ | _ | k
      · rfl
      · rfl
      · exact absurd rfl hn
      · rfl
    rw [this]
    exact h nt Q hQ

theorem podExFluct (x : Fin (size ([2] ++ [1]))) (t : Fin podExFiles.flatten.length) :
    podFluct .zero podExFiles.flatten ([2] ++ [1]) x t = if x.1 = t.1 then (x.1 : ℝ) + 1 else 0 := by
  have h2 : ∀ i : Fin 2, i = 0 ∨ i = 1 := fun i => by omega
  have hi : x = (0 : Fin 2) ∨ x = (1 : Fin 2) := h2 x
  have hj : t = (0 : Fin 2) ∨ t = (1 : Fin 2) := h2 t
  rw [podFluct, if_neg (by decide), sub_zero]
  simp only [podD, Matrix.of_apply]
  rcases hi with rfl | rfl <;> rcases hj with rfl | rfl <;> norm_num [podExFiles, flat, unravel, size]

/-- **C159 fails.** There are data, an exact solver and one mode to keep such that some field of unit norm captures four times the energy of
    the stored mode. -/
theorem pod_optimal_fails : ∃ solver lamV, PodSolver solver lamV ∧ ∀ {comms : List Comm} {sched : Sched}, IsRun comms sched →
    ∃ o, PodFit.podFit podOneCfg none solver podExFiles comms sched = some o ∧
      ∃ φ ψ : Fin (size ([2] ++ [1])) → ℝ, (∀ x, podStoredMode o _ 1 0 x = (φ x : ℂ)) ∧ podStoredIp o _ ψ ψ = 1 ∧ podStoredIp o _ φ φ = 1 ∧
        4 * ∑ t, podStoredIp o _ φ (fun x => podFluct .zero podExFiles.flatten ([2] ++ [1]) x t) ^ 2 =
          ∑ t, podStoredIp o _ ψ (fun x => podFluct .zero podExFiles.flatten ([2] ++ [1]) x t) ^ 2 ∧
        0 < ∑ t, podStoredIp o _ φ (fun x => podFluct .zero podExFiles.flatten ([2] ++ [1]) x t) ^ 2 := by
  obtain ⟨solver, lamV, hs, hl⟩ := diagonal_solver
  refine ⟨solver, lamV, hs, fun {comms sched} hrun => ?_⟩
  have hfit := podOneRun.fit solver hrun
  obtain ⟨o, lam, h1, h2, -, h4⟩ := pod_energy_bound podOneRun solver lamV hs (by simp) hrun
  have ho : o = podOut .zero solver podExFiles.flatten [2, 1] ⟨[2, 1], fun _ => 1⟩ 1 := by
    rw [hfit] at h1; exact (Option.some.inj h1).symm
  have he : o.eigs = List.ofFn (fun i => (((![1, 4] : Fin 2 → ℝ) i : ℝ) : ℂ)) := by
    have : o.eigs = List.ofFn (solver 2 (!![1, 0; 0, 4])).1 := by
      rw [ho, ← podExCorr]; rfl
    rw [this, hs.real, hl]
  have hlam : lam ⟨0, by decide⟩ = 1 := by
    have e1 : o.eigs.getD 0 0 = (lam ⟨0, by decide⟩ : ℂ) := by rw [h2]; exact ofFn_getD _ 0 (by decide)
    have e2 : o.eigs.getD 0 0 = 1 := by rw [he]; simp [List.ofFn_succ]
    rw [e1] at e2
    exact_mod_cast e2
  obtain ⟨φ, hφ, hn, hE⟩ := h4 0 (by omega) (by decide) (by rw [hlam]; exact one_pos)
  have hwt : ∀ x : Fin 2, NpyFile.num o.weights x = 1 := by
    intro x
    rw [ho]
    exact vec_num [2, 1] _ x
  refine ⟨o, h1, φ, fun x => if x.1 = 1 then 1 else 0, hφ, ?_, hn, ?_, ?_⟩
  · refine (Fin.sum_univ_two (fun x : Fin 2 => NpyFile.num o.weights x * ((if x.1 = 1 then 1 else 0) * (if x.1 = 1 then 1 else 0)))).trans ?_
    simpa using hwt 1
  · rw [hE, hlam]
    have : ∀ t : Fin podExFiles.flatten.length, podStoredIp o (size ([2] ++ [1])) (fun x => if x.1 = 1 then 1 else 0)
        (fun x => podFluct .zero podExFiles.flatten ([2] ++ [1]) x t) = if t.1 = 1 then 2 else 0 := by
      intro t
      simp only [podStoredIp, podExFluct]
      refine (Fin.sum_univ_two (fun x : Fin 2 => NpyFile.num o.weights x *
        ((if x.1 = 1 then 1 else 0) * if x.1 = t.1 then (x.1 : ℝ) + 1 else 0))).trans ?_
      rw [hwt 0, hwt 1]
      rcases Nat.eq_or_lt_of_le (Nat.le_of_lt_succ (show t.1 < 2 from t.2)) with h | h
      · rw [h]; norm_num
      · have : t.1 = 0 := by omega
        rw [this]; norm_num
    refine Eq.symm ((Finset.sum_congr rfl fun t _ => by rw [this t]).trans ?_)
    refine (Fin.sum_univ_two (fun t : Fin 2 => (if t.1 = 1 then (2 : ℝ) else 0) ^ 2)).trans ?_
    norm_num
  · rw [hE, hlam]; exact one_pos

/-! ### Changed data -/

/-- **C160.** Two runs whose data are related by a reordering `e` of the grid points, a reordering `π` of the snapshots, a factor `s`, an added steady
    field `g` (none if no mean is subtracted) and a factor `a` of the weights, with any exact solvers, any numbers of ranks and of modes
    to save: the stored eigenvalues are those of the first run times `a s²`, in some order, and a mode of a positive simple eigenvalue is the
    mode of the first run at the corresponding points, divided by `√a`, up to its sign. -/
theorem pod_changed_data {c c' weights weights' files files' dims dims' mk n n'} (R : PodRun c weights files dims mk n)
    (R' : PodRun c' weights' files' dims' mk n') (solver solver' : PodFit.Solver) (lamV lamV') (hs : PodSolver solver lamV)
    (hs' : PodSolver solver' lamV') (a s : ℝ) (ha : 0 < a) (hs0 : s ≠ 0)
    (e : Fin (size (dims ++ [1])) ≃ Fin (size (dims' ++ [1]))) (π : Fin files.flatten.length ≃ Fin files'.flatten.length)
    (g : Fin (size (dims ++ [1])) → ℝ) (hg : mk = .zero → ∀ x, g x = 0)
    (hdata : ∀ x t, podD files'.flatten (dims' ++ [1]) (e x) (π t) = s * podD files.flatten (dims ++ [1]) x t + g x)
    (hw : ∀ x, podW (weights'.getD ⟨dims' ++ [1], fun _ => 1⟩) (dims' ++ [1]) (e x) =
      a * podW (weights.getD ⟨dims ++ [1], fun _ => 1⟩) (dims ++ [1]) x)
    {comms comms' : List Comm} {sched sched' : Sched} (hrun : IsRun comms sched) (hrun' : IsRun comms' sched') :
    ∃ o o', PodFit.podFit c weights solver files comms sched = some o ∧ PodFit.podFit c' weights' solver' files' comms' sched' = some o' ∧
      o'.eigs.Perm (o.eigs.map fun l => ((a * s ^ 2 : ℝ) : ℂ) * l) ∧
      ∀ j < n, ∀ j' < n', 0 < (o.eigs.getD j 0).re → (∀ i < files.flatten.length, i ≠ j → o.eigs.getD i 0 ≠ o.eigs.getD j 0) →
        o'.eigs.getD j' 0 = ((a * s ^ 2 : ℝ) : ℂ) * o.eigs.getD j 0 →
        ∃ z : ℝ, (z = 1 ∨ z = -1) ∧ ∀ x, podStoredMode o' _ n' j' (e x) = ((z / Real.sqrt a : ℝ) : ℂ) * podStoredMode o _ n j x := by
  obtain ⟨o, lam, V, h1, h2, h3, -, h5⟩ := pod_files_spec R solver lamV hs hrun
  obtain ⟨o', lam', V', h1', h2', h3', -, h5'⟩ := pod_files_spec R' solver' lamV' hs' hrun'
  have hb : 0 < a * s ^ 2 := by positivity
  have hlen : files'.flatten.length = files.flatten.length := by simpa using (Fintype.card_congr π).symm
  have hnt : 0 < files.flatten.length := lt_of_lt_of_le R.n_pos R.n_le
  -- the fluctuations
  have hfit : ∀ x t, fitData mk (podD files'.flatten (dims' ++ [1])) (e x) (π t) = s * fitData mk (podD files.flatten (dims ++ [1])) x t := by
    intro x t
    cases mk with
    | zero => simp only [fitData, Matrix.of_apply, hdata, hg rfl]; ring
    | longtime =>
      simp only [fitData, Matrix.of_apply, tMean, hdata]
      have : ∑ t', podD files'.flatten (dims' ++ [1]) (e x) t' = s * (∑ t', podD files.flatten (dims ++ [1]) x t') +
          files.flatten.length * g x := by
        rw [← Equiv.sum_comp π]
        simp only [hdata, Finset.sum_add_distrib, ← Finset.mul_sum]
        simp
      rw [this, hlen]
      have hn : (files.flatten.length : ℝ) ≠ 0 := by exact_mod_cast hnt.ne'
      field_simp
      ring
  generalize fitData mk (podD files'.flatten (dims' ++ [1])) = D' at *
  generalize fitData mk (podD files.flatten (dims ++ [1])) = D at *
  generalize podW (weights'.getD ⟨dims' ++ [1], fun _ => 1⟩) (dims' ++ [1]) = w' at *
  generalize podW (weights.getD ⟨dims ++ [1], fun _ => 1⟩) (dims ++ [1]) = w at *
  have hcorr : ∀ t t', corrMat D' w' (π t) (π t') = a * s ^ 2 * corrMat D w t t' := by
    intro t t'
    simp only [corrMat, Matrix.mul_apply, Matrix.transpose_apply, Matrix.of_apply]
    rw [← Equiv.sum_comp e, Finset.mul_sum]
    refine Finset.sum_congr rfl fun x _ => ?_
    rw [hfit, hfit, hw]
    ring
  -- the second decomposition is one of the first matrix
  have hE : EigBasis (corrMat D w) (fun j => lam' (π j) / (a * s ^ 2)) (V'.submatrix π π) := by
    refine ⟨fun j => ?_, fun j => ?_, ?_⟩
    · funext t
      have := congrFun (h3'.eig (π j)) (π t)
      simp only [mulVec, dotProduct, Pi.smul_apply, smul_eq_mul, Matrix.submatrix_apply] at this ⊢
      rw [← Equiv.sum_comp π] at this
      simp only [hcorr] at this
      have e2 : a * s ^ 2 * ∑ i, corrMat D w t i * V' (π i) (π j) = lam' (π j) * V' (π t) (π j) := by
        rw [← this, Finset.mul_sum]
        exact Finset.sum_congr rfl fun i _ => by ring
      rw [div_mul_eq_mul_div, eq_div_iff hb.ne', mul_comm, e2]
    · have := h3'.unit (π j)
      rw [← Equiv.sum_comp π] at this
      exact this
    · have : (V'.submatrix π π).det = V'.det := by
        have := Matrix.det_submatrix_equiv_self π V'
        exact this
      rw [this]; exact h3'.basis
  refine ⟨o, o', h1, h1', ?_, ?_⟩
  · have e1 := real_eig_roots _ _ _ h3
    rw [real_eig_roots _ _ _ hE] at e1
    rw [h2, h2', List.map_ofFn]
    have e3 : List.ofFn (fun i => ((lam' i : ℝ) : ℂ)) = List.ofFn (fun i : Fin files.flatten.length => ((lam' (finCongr hlen.symm i) : ℝ) : ℂ)) := by
      rw [List.ofFn_congr hlen]; rfl
    rw [← Multiset.coe_eq_coe, e3, ← Fin.univ_val_map, ← Fin.univ_val_map]
    have e4 := congrArg (Multiset.map fun r : ℝ => ((a * s ^ 2 : ℝ) : ℂ) * (r : ℂ)) e1
    rw [Multiset.map_map, Multiset.map_map] at e4
    refine Eq.trans ?_ e4
    have e5 := map_perm (fun i => ((lam' (finCongr hlen.symm i) : ℝ) : ℂ)) (π.trans (finCongr hlen))
    refine e5.symm.trans (Multiset.map_congr rfl fun i _ => ?_)
    simp only [Function.comp, Equiv.trans_apply, finCongr_apply, Fin.cast_cast, Fin.cast_eq_self]
    rw [← Complex.ofReal_mul, mul_div_cancel₀ _ hb.ne']
  · intro j hj j' hj' hp hsimple heq
    have hjl : j < files.flatten.length := lt_of_lt_of_le hj R.n_le
    have hjl' : j' < files'.flatten.length := lt_of_lt_of_le hj' R'.n_le
    have hget : ∀ j, ∀ h : j < files.flatten.length, o.eigs.getD j 0 = (lam ⟨j, h⟩ : ℂ) := fun j h => by rw [h2, ofFn_getD _ j h]
    rw [hget j hjl, Complex.ofReal_re] at hp
    rw [hget j hjl, h2', ofFn_getD _ j' hjl', ← Complex.ofReal_mul, Complex.ofReal_inj] at heq
    have hp' : 0 < lam' ⟨j', hjl'⟩ := by rw [heq]; exact mul_pos hb hp
    obtain ⟨z, hz, hzv⟩ := real_eig_sign _ _ _ _ _ h3 hE ⟨j, hjl⟩ (π.symm ⟨j', hjl'⟩)
      (by simp only [Equiv.apply_symm_apply]; rw [heq, mul_div_cancel_left₀ _ hb.ne'])
      (by
        intro i hi hli
        refine hsimple i i.2 (fun h => hi (Fin.ext h)) ?_
        rw [hget i i.2, hget j hjl]
        exact congrArg _ hli)
    simp only [Matrix.submatrix_apply, Equiv.apply_symm_apply] at hzv
    refine ⟨z * (|s| / s), ?_, fun x => ?_⟩
    · rcases abs_choice s with h | h <;> rw [h] <;> rcases hz with rfl | rfl
      · left; field_simp
      · right; field_simp
      · right; field_simp
      · left; field_simp
    · rw [h5' j' hj' hjl' hp', h5 j hj hjl hp, ← Complex.ofReal_mul, Complex.ofReal_inj]
      simp only [phiAll, Matrix.of_apply, Matrix.mul_apply, heq]
      rw [← Equiv.sum_comp π]
      simp only [hfit, hzv]
      have : ∑ t, s * D x t * (z * V t ⟨j, hjl⟩) = s * z * ∑ t, D x t * V t ⟨j, hjl⟩ := by
        rw [Finset.mul_sum]
        exact Finset.sum_congr rfl fun t _ => by ring
      rw [this, Real.sqrt_mul hb.le, Real.sqrt_mul ha.le, Real.sqrt_sq_eq_abs]
      have q1 := (Real.sqrt_pos.2 ha).ne'
      have q2 := (Real.sqrt_pos.2 hp).ne'
      have q3 : |s| ≠ 0 := abs_ne_zero.2 hs0
      field_simp
      rw [sq_abs]
      ring

/-- the same two snapshots in one dataset, in the opposite order and times three -/
def podExSwapped : List (List (Arr ℝ)) :=
  [[⟨[2], fun idx => if idx = [1] then 6 else 0⟩, ⟨[2], fun idx => if idx = [0] then 3 else 0⟩]]

theorem podSwappedRun : PodRun podOneCfg (some ⟨[2], fun _ => 4⟩) podExSwapped [2] .zero 1 where
  files_ne := by simp [podExSwapped]
  ne := by simp [podExSwapped]
  snaps := by simp [podExSwapped]
  nv := rfl
  xdim := by decide
  dims_ne := by simp
  pos := by decide
  weights := by simp
  mean := podMean_zero _ (by decide +kernel)
  save := rfl
  n_pos := by omega
  n_le := by simp [podExSwapped]

/-- an instance of C160: other order, factor 3, weights 4: eigenvalues times 36 -/
example (solver solver' : PodFit.Solver) (lamV lamV') (hs : PodSolver solver lamV) (hs' : PodSolver solver' lamV') :
    ∃ o o', PodFit.podFit podExCfg none solver podExFiles [none] none = some o ∧
      PodFit.podFit podOneCfg (some ⟨[2], fun _ => 4⟩) solver' podExSwapped (ranksOf 3) (some fun _ l => l) = some o' ∧
      o'.eigs.Perm (o.eigs.map fun l => ((4 * 3 ^ 2 : ℝ) : ℂ) * l) := by
  have h1 : IsRun (ranksOf 3) (some fun _ l => l) := Or.inr ⟨3, _, by omega, fun _ _ => List.Perm.refl _, rfl, rfl⟩
  have h2 : IsRun [none] none := Or.inl ⟨rfl, rfl⟩
  obtain ⟨o, o', a1, a2, a3, -⟩ := pod_changed_data podExRun podSwappedRun solver solver' lamV lamV' hs hs' 4 3 (by norm_num) (by norm_num)
    (Equiv.refl _) (show Fin podExFiles.flatten.length ≃ Fin podExSwapped.flatten.length from (Equiv.swap 0 1 : Fin 2 ≃ Fin 2)) (fun _ => 0) (fun _ _ => rfl)
    (by
      intro x t
      have h2 : ∀ i : Fin 2, i = 0 ∨ i = 1 := fun i => by omega
      have hi : x = (0 : Fin 2) ∨ x = (1 : Fin 2) := h2 x
      have hj : t = (0 : Fin 2) ∨ t = (1 : Fin 2) := h2 t
      simp only [podD, Matrix.of_apply]
      rcases hi with rfl | rfl <;> rcases hj with rfl | rfl <;>
        norm_num [podExFiles, podExSwapped, flat, unravel, size] <;> rfl)
    (by intro x; simp [podW, flat])
    h2 h1
  exact ⟨o, o', a1, a2, a3⟩

/-- with the solver of `diagonal_solver` the order is not decreasing; every exact solver meets the hypothesis about the signs -/
example (solver : PodFit.Solver) (lamV) (hs : PodSolver solver lamV) :
    ∃ o, PodFit.podFit podOneCfg none solver podExFiles [none] none = some o ∧ 0 < (o.eigs.getD 0 0).re := by
  have h2 : IsRun [none] none := Or.inl ⟨rfl, rfl⟩
  refine ⟨_, podOneRun.fit solver h2, ?_⟩
  have : (podOut .zero solver podExFiles.flatten [2, 1] ⟨[2, 1], fun _ => 1⟩ 1).eigs = List.ofFn (solver 2 (!![1, 0; 0, 4])).1 := by
    rw [← podExCorr]; rfl
  show 0 < ((podOut .zero solver podExFiles.flatten [2, 1] ⟨[2, 1], fun _ => 1⟩ 1).eigs.getD 0 0).re
  rw [this, hs.real]
  have hl := podExEigs lamV hs.eig
  simp only [] at hl
  simp only [List.ofFn_succ, List.getD_cons_zero, Complex.ofReal_re]
  rcases hl with h | h <;> rw [h.1] <;> norm_num

end Verif.Props
