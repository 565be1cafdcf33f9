import Verif.Props.PodPerturb
set_option linter.unusedSectionVars false
set_option linter.unusedVariables false
/-
  C207: what a POD reconstruction leaves out (pyspod/pod/standard.py:30-74, pyspod/pod/utils.py:14-225).
-/
namespace Verif.Props
open Verif Verif.Par Verif.Fit Verif.Proj Verif.Pod Matrix ComplexConjugate

section
variable {X : Type} [Fintype X] [DecidableEq X] {nt : Nat}

theorem eig_trace (M : Matrix (Fin nt) (Fin nt) ℝ) (L : Fin nt → ℝ) (V : Matrix (Fin nt) (Fin nt) ℝ) (h : EigBasis M L V) :
    M.trace = ∑ j, L j := by
  have hV := h.basis
  have hMV : M * V = V * Matrix.diagonal L := by
    ext a j
    have := congrFun (h.eig j) a
    simp only [mulVec, dotProduct, Pi.smul_apply, smul_eq_mul] at this
    rw [Matrix.mul_apply, Matrix.mul_diagonal, this, mul_comm]
  have h1 : M = V * (Matrix.diagonal L * V⁻¹) := by
    rw [← Matrix.mul_assoc, ← hMV, Matrix.mul_assoc, Matrix.mul_nonsing_inv _ hV, Matrix.mul_one]
  rw [h1, Matrix.trace_mul_comm, Matrix.mul_assoc, Matrix.nonsing_inv_mul _ hV, Matrix.mul_one, Matrix.trace_diagonal]

/-- squared distance of two sets of snapshots -/
theorem projection_error {r : Nat} (Φ : Matrix X (Fin r) ℝ) (F : Matrix X (Fin nt) ℝ) (A : Matrix (Fin r) (Fin nt) ℝ) (hΦ : Φᵀ * Φ = 1) :
    ∑ x, ∑ t, (F x t - (Φ * A) x t) ^ 2 = ∑ x, ∑ t, F x t ^ 2 - ∑ t, ∑ j, (Φᵀ * F) j t ^ 2 + ∑ t, ∑ j, (A j t - (Φᵀ * F) j t) ^ 2 := by
  have tr : ∀ {Y : Type} [Fintype Y] (B : Matrix Y (Fin nt) ℝ), ∑ x, ∑ t, B x t ^ 2 = (Bᵀ * B).trace := by
    intro Y _ B
    rw [Finset.sum_comm, Matrix.trace]
    refine Finset.sum_congr rfl fun t _ => ?_
    rw [Matrix.diag_apply, Matrix.mul_apply]
    exact Finset.sum_congr rfl fun x _ => by rw [Matrix.transpose_apply, sq]
  have e1 := tr (F - Φ * A)
  have e2 := tr (Φᵀ * F)
  have e3 := tr (A - Φᵀ * F)
  simp only [Matrix.sub_apply] at e1 e3
  have s2 : ∑ t, ∑ j, (Φᵀ * F) j t ^ 2 = ∑ j, ∑ t, (Φᵀ * F) j t ^ 2 := Finset.sum_comm
  have s3 : ∑ t, ∑ j, (A j t - (Φᵀ * F) j t) ^ 2 = ∑ j, ∑ t, (A j t - (Φᵀ * F) j t) ^ 2 := Finset.sum_comm
  rw [e1, s2, s3, e2, e3, tr F]
  have hx : (Aᵀ * (Φᵀ * F)).trace = (Fᵀ * Φ * A).trace := by
    rw [← Matrix.trace_transpose (Aᵀ * (Φᵀ * F))]
    simp only [Matrix.transpose_mul, Matrix.transpose_transpose]
  have hq : Aᵀ * Φᵀ * (Φ * A) = Aᵀ * A := by
    rw [show Aᵀ * Φᵀ * (Φ * A) = Aᵀ * (Φᵀ * Φ) * A by simp only [Matrix.mul_assoc], hΦ, Matrix.mul_one]
  simp only [Matrix.transpose_sub, Matrix.transpose_mul, Matrix.transpose_transpose, Matrix.sub_mul, Matrix.mul_sub, Matrix.trace_sub, hq]
  rw [show Aᵀ * Φᵀ * F = Aᵀ * (Φᵀ * F) from Matrix.mul_assoc _ _ _, hx, show Fᵀ * (Φ * A) = Fᵀ * Φ * A from (Matrix.mul_assoc _ _ _).symm]
  ring

/-- sum of the eigenvalues left out -/
theorem rest_sum (lam : Fin nt → ℝ) (r : Nat) (hr : r ≤ nt) : ∑ j, lam j - ∑ j : Fin r, lam (Fin.castLE hr j) = ∑ j, if r ≤ j.1 then lam j else 0 := by
  have h1 : ∑ j, lam j = ∑ j, ((if r ≤ j.1 then lam j else 0) + if j.1 < r then lam j else 0) := by
    refine Finset.sum_congr rfl fun j _ => ?_
    by_cases h : r ≤ j.1
    · rw [if_pos h, if_neg (by omega), add_zero]
    · rw [if_neg h, if_pos (by omega), zero_add]
  have h2 : (∑ j : Fin nt, if j.1 < r then lam j else 0) = ∑ j : Fin r, lam (Fin.castLE hr j) := by
    rw [← Finset.sum_filter]
    symm
    refine Finset.sum_bij (fun k _ => Fin.castLE hr k) (fun k _ => ?_) (fun a _ b _ hab => ?_) (fun b hb => ?_) (fun k _ => rfl)
    · simp
    · exact Fin.ext (by simpa using congrArg Fin.val hab)
    · exact ⟨⟨b.1, (Finset.mem_filter.1 hb).2⟩, Finset.mem_univ _, Fin.ext rfl⟩
  rw [h1, Finset.sum_add_distrib, h2]
  ring

theorem pod_left_out (d : Matrix X (Fin nt) ℝ) (lam : Fin nt → ℝ) (V : Matrix (Fin nt) (Fin nt) ℝ)
    (h : EigBasis (corrMat (fitData .longtime d) fun _ => 1) lam V) (r : Nat) (hr : r ≤ nt)
    (hpos : ∀ j : Fin r, 0 < lam (Fin.castLE hr j)) (hdist : ∀ i j : Fin r, lam (Fin.castLE hr i) = lam (Fin.castLE hr j) → i = j) :
    ∑ x, ∑ t, (d x t - Pod.reconstruct (modes .longtime d lam V r hr) d x t) ^ 2 = ∑ j, if r ≤ j.1 then lam j else 0 := by
  set Φ := modes .longtime d lam V r hr with hΦ
  have horth : Φᵀ * Φ = 1 := by
    ext i j
    have := pod_orthonormal_partial .longtime d (fun _ => 1) lam V h r hr hpos hdist i j
    unfold podIp at this
    simp only [one_mul] at this
    rw [Matrix.one_apply, ← this, Matrix.mul_apply]
    rfl
  have hF : ∀ x t, d x t - Pod.reconstruct Φ d x t = fitData .longtime d x t - (Φ * (Φᵀ * fitData .longtime d)) x t := by
    intro x t
    simp only [Pod.reconstruct, coeffsOp, Matrix.of_apply]
    have : (Matrix.of fun x t => d x t - tMean d x) = fitData .longtime d := rfl
    rw [this]
    simp only [fitData, Matrix.of_apply]
    ring
  simp only [hF]
  rw [projection_error Φ (fitData .longtime d) _ horth]
  simp only [sub_self, ne_eq, OfNat.ofNat_ne_zero, not_false_eq_true, zero_pow, Finset.sum_const_zero, add_zero]
  have h1 : ∑ x, ∑ t, fitData .longtime d x t ^ 2 = ∑ j, lam j := by
    rw [← eig_trace _ _ _ h, Finset.sum_comm, Matrix.trace]
    refine Finset.sum_congr rfl fun t _ => ?_
    rw [Matrix.diag_apply, corrMat, Matrix.mul_apply]
    exact Finset.sum_congr rfl fun x _ => by simp only [Matrix.transpose_apply, Matrix.of_apply, mul_one, sq]
  have h2 : ∑ t, ∑ j, (Φᵀ * fitData .longtime d) j t ^ 2 = ∑ j : Fin r, lam (Fin.castLE hr j) := by
    rw [Finset.sum_comm]
    refine Finset.sum_congr rfl fun j _ => ?_
    rw [← pod_mode_energy _ _ lam V h _ (hpos j)]
    refine Finset.sum_congr rfl fun t _ => ?_
    rw [Matrix.mul_apply, podIp]
    simp only [one_mul]
    rfl
  rw [h1, h2, rest_sum]

/-- no fields with any coefficients come closer -/
theorem pod_closest (F : Matrix X (Fin nt) ℝ) (hnt : 0 < nt) (lam : Fin nt → ℝ) (V : Matrix (Fin nt) (Fin nt) ℝ)
    (h : EigBasis (corrMat F fun _ => 1) lam V) (hsort : ∀ i j, i ≤ j → lam j ≤ lam i) (r : Nat) (hr : r ≤ nt)
    (ψ : Matrix X (Fin r) ℝ) (hψ : ψᵀ * ψ = 1) (A : Matrix (Fin r) (Fin nt) ℝ) :
    (∑ j, if r ≤ j.1 then lam j else 0) ≤ ∑ x, ∑ t, (F x t - (ψ * A) x t) ^ 2 := by
  rw [projection_error ψ F A hψ]
  have h1 : ∑ x, ∑ t, F x t ^ 2 = ∑ j, lam j := by
    rw [← eig_trace _ _ _ h, Finset.sum_comm, Matrix.trace]
    refine Finset.sum_congr rfl fun t _ => ?_
    rw [Matrix.diag_apply, corrMat, Matrix.mul_apply]
    exact Finset.sum_congr rfl fun x _ => by simp only [Matrix.transpose_apply, Matrix.of_apply, mul_one, sq]
  have h2 := pod_optimal_bound F (fun _ => 1) (fun _ => zero_le_one) hnt lam V h (Equiv.refl _) (fun i j hij => hsort i j hij) r (fun j x => ψ x j) (by
    intro i j
    have := congrFun (congrFun hψ i) j
    rw [Matrix.mul_apply, Matrix.one_apply] at this
    rw [← this, podIp]
    exact Finset.sum_congr rfl fun x _ => by rw [one_mul, Matrix.transpose_apply])
  have h3 : ∑ t, ∑ j, (ψᵀ * F) j t ^ 2 = ∑ t, ∑ j, podIp (fun _ => 1) (fun x => ψ x j) (fun x => F x t) ^ 2 := by
    refine Finset.sum_congr rfl fun t _ => Finset.sum_congr rfl fun j _ => ?_
    rw [Matrix.mul_apply, podIp]
    simp only [one_mul, Matrix.transpose_apply]
  have h4 : (0 : ℝ) ≤ ∑ t, ∑ j, (A j t - (ψᵀ * F) j t) ^ 2 := Finset.sum_nonneg fun _ _ => Finset.sum_nonneg fun _ _ => sq_nonneg _
  have h5 := rest_sum lam r hr
  have h6 : (∑ k : Fin nt, if k.1 < r then lam ((Equiv.refl _) k) else 0) = ∑ j : Fin r, lam (Fin.castLE hr j) := by
    rw [← Finset.sum_filter]
    symm
    refine Finset.sum_bij (fun k _ => Fin.castLE hr k) (fun k _ => ?_) (fun a _ b _ hab => ?_) (fun b hb => ?_) (fun k _ => rfl)
    · simp
    · exact Fin.ext (by simpa using congrArg Fin.val hab)
    · exact ⟨⟨b.1, (Finset.mem_filter.1 hb).2⟩, Finset.mem_univ _, Fin.ext rfl⟩
  rw [h6] at h2
  rw [h3, h1]
  linarith

end

/-- what `compute_reconstruction(time_idx='all')` writes after a fit without weights, when the stored modes belong to positive eigenvalues -/
theorem pod_written {c files dims mk n} (R : PodRun c none files dims mk n) (solver : PodFit.Solver) (lamV) (hs : PodSolver solver lamV)
    (mi : Option (List Nat)) (c1 c2 c3 : List Comm) (s1 s2 s3 : Sched) (h1 : IsRun c1 s1) (h2 : IsRun c2 s2) (h3 : IsRun c3 s3) :
    ∃ o lam V, PodFit.podFit c none solver files c1 s1 = some o ∧ o.eigs = List.ofFn (fun i => ((lam i : ℝ) : ℂ)) ∧
      EigBasis (corrMat (fitData mk (podD files.flatten (dims ++ [1]))) fun _ => 1) lam V ∧
      ((∀ j : Fin n, 0 < lam (Fin.castLE R.n_le j)) →
        ∃ G rec, PodFit.podProject (PodFit.storedOf c o) mi files.flatten c2 s2 = some G ∧ PodFit.podReconstruct G none (.str "all") c3 s3 = some rec ∧
          rec.shape = files.flatten.length :: (dims ++ [1]) ∧ ∀ (t : Fin files.flatten.length) (x : Fin (size (dims ++ [1]))),
            fileEntry rec (t.1 :: unravel (dims ++ [1]) x) =
              some ((Pod.reconstruct (Pod.modes mk (podD files.flatten (dims ++ [1])) lam V n R.n_le) (podD files.flatten (dims ++ [1])) x t : ℝ) : ℂ)) := by
  have hw1 : podW ((none : Option (Arr ℝ)).getD ⟨dims ++ [1], fun _ => 1⟩) (dims ++ [1]) = fun _ => 1 := rfl
  refine ⟨_, (lamV files.flatten.length (Pod.corrMat (Pod.fitData mk (podD files.flatten (dims ++ [1]))) fun _ => 1)).1,
    (lamV files.flatten.length (Pod.corrMat (Pod.fitData mk (podD files.flatten (dims ++ [1]))) fun _ => 1)).2, R.fit solver h1,
    by simp only [podOut, hw1]; rw [hs.real], ?_, ?_⟩
  · have := hs.eig _ _ (corr_symm (fitData mk (podD files.flatten (dims ++ [1]))) (fun _ => 1))
    exact this
  have hF := out_folder R solver
  have hfr : files.flatten ≠ [] := by
    have := R.n_pos
    have := R.n_le
    intro h
    rw [h] at this
    simp at this
    omega
  obtain ⟨ax, hmax, hproj⟩ := pod_projection_files _ mi files.flatten dims n hF hfr R.dims_ne
  intro hp
  have hpos1 : 0 < size (dims ++ [1]) := by rw [size_append, Nat.mul_one]; exact R.pos
  have hax' : ax < (dims ++ [1]).length := by have := hmax.1; simp; omega
  have hl : ((none : Option (Arr ℂ)).getD (openMemmap (podFolderOf (PodFit.storedOf c (podOut mk solver files.flatten (dims ++ [1])
      ((none : Option (Arr ℝ)).getD ⟨dims ++ [1], fun _ => 1⟩) n)) files.flatten (dims ++ [1]) ax).coeffs)).shape.length = 2 := rfl
  have hrec := reconstruct_all (podFolderOf (PodFit.storedOf c (podOut mk solver files.flatten (dims ++ [1])
      ((none : Option (Arr ℝ)).getD ⟨dims ++ [1], fun _ => 1⟩) n)) files.flatten (dims ++ [1]) ax) files.flatten hfr (dims ++ [1]) hpos1 hax' _ _ _ rfl rfl rfl c3 s3 h3
  refine ⟨_, _, hproj c2 s2 h2, (if_pos hl).trans hrec, ?_⟩
  · refine ⟨rfl, fun t x => ?_⟩
    have hin : InRange (files.flatten.length :: (dims ++ [1])) (t.1 :: unravel (dims ++ [1]) x) := ⟨t.2, inRange_unravel x.2⟩
    have hr : ravel (dims ++ [1]) (unravel (dims ++ [1]) x) = x := ravel_unravel x.2
    rw [fileEntry_npSave _ _ hin, timeArr_at _ _ _ _ t.2 (by rw [hr]; exact x.2)]
    have hmul := stored_mul (sh := dims ++ [1]) _ n hF.nModes _ (fun i j => by
      exact grid_num (dims ++ [1]) n (podPhi (dims ++ [1]) (Pod.fitData mk (podD files.flatten (dims ++ [1])))
        (solver files.flatten.length (Pod.corrMat (Pod.fitData mk (podD files.flatten (dims ++ [1]))) fun _ => 1)) n) i j)
    rw [hs.real] at hmul
    have hphi : podPhi (dims ++ [1]) (Pod.fitData mk (podD files.flatten (dims ++ [1])))
        ((fun i => (((lamV files.flatten.length (Pod.corrMat (Pod.fitData mk (podD files.flatten (dims ++ [1]))) fun _ => 1)).1 i : ℝ) : ℂ)),
          Matrix.of fun i j => (((lamV files.flatten.length (Pod.corrMat (Pod.fitData mk (podD files.flatten (dims ++ [1]))) fun _ => 1)).2 i j : ℝ) : ℂ)) n =
        (Pod.modes mk (podD files.flatten (dims ++ [1])) (lamV files.flatten.length (Pod.corrMat (Pod.fitData mk (podD files.flatten (dims ++ [1]))) fun _ => 1)).1
          (lamV files.flatten.length (Pod.corrMat (Pod.fitData mk (podD files.flatten (dims ++ [1]))) fun _ => 1)).2 n R.n_le).map Complex.ofRealHom := by
      ext i j
      exact podPhi_real _ _ _ _ _ _ R.n_le hp i j
    rw [hphi] at hmul
    congr 1
    simp only [Coef.reconstruct, Matrix.of_apply, ltMean_real, Pod.reconstruct, Pod.coeffsOp]
    rw [← Matrix.mul_assoc, hmul, centred_real, ← Matrix.transpose_map, ← Matrix.map_mul, ← Matrix.map_mul, Matrix.mul_assoc]
    simp only [Matrix.map_apply, Complex.ofRealHom_eq_coe, hr, Fin.eta]
    rw [← Complex.ofReal_add]

/-- **C207.** A fit with the long-time mean and without weights, the projection of its data and the reconstruction of all times, each on its own number
    of ranks: if the stored modes belong to positive, distinct eigenvalues, the reconstruction is real and its squared error, summed over all
    snapshots and grid points, is the sum of the eigenvalues of the modes that were not saved.  If the eigenvalues are in decreasing order, no `n`
    orthonormal fields with any coefficients come closer to the data. -/
theorem pod_error {c files dims n} (R : PodRun c none files dims .longtime n) (solver : PodFit.Solver) (lamV) (hs : PodSolver solver lamV)
    (mi : Option (List Nat)) (c1 c2 c3 : List Comm) (s1 s2 s3 : Sched) (h1 : IsRun c1 s1) (h2 : IsRun c2 s2) (h3 : IsRun c3 s3) :
    ∃ o, PodFit.podFit c none solver files c1 s1 = some o ∧
      ((∀ j < n, 0 < (o.eigs.getD j 0).re) → (∀ i < n, ∀ j < n, o.eigs.getD i 0 = o.eigs.getD j 0 → i = j) →
        ∃ (G : Folder) (rec : NpyFile ℂ) (v : Fin files.flatten.length → Fin (size (dims ++ [1])) → ℝ),
          PodFit.podProject (PodFit.storedOf c o) mi files.flatten c2 s2 = some G ∧ PodFit.podReconstruct G none (.str "all") c3 s3 = some rec ∧
          rec.shape = files.flatten.length :: (dims ++ [1]) ∧
          (∀ (t : Fin files.flatten.length) (x : Fin (size (dims ++ [1]))), fileEntry rec (t.1 :: unravel (dims ++ [1]) x) = some ((v t x : ℝ) : ℂ)) ∧
          ∑ t : Fin files.flatten.length, ∑ x : Fin (size (dims ++ [1])), (podAt files t x - v t x) ^ 2 = ∑ j : Fin files.flatten.length, (if n ≤ j.1 then (o.eigs.getD j 0).re else 0) ∧
          ((∀ i j, i ≤ j → j < files.flatten.length → (o.eigs.getD j 0).re ≤ (o.eigs.getD i 0).re) →
            ∀ (ψ : Fin n → Fin (size (dims ++ [1])) → ℝ) (a : Fin n → Fin files.flatten.length → ℝ), (∀ i j, ∑ x, ψ i x * ψ j x = if i = j then 1 else 0) →
              ∑ t : Fin files.flatten.length, ∑ x : Fin (size (dims ++ [1])), (podAt files t x - v t x) ^ 2 ≤ ∑ t : Fin files.flatten.length, ∑ x : Fin (size (dims ++ [1])), (podAt files t x -
                ((∑ t' ∈ Finset.range files.flatten.length, podAt files t' x) / files.flatten.length + ∑ j, ψ j x * a j t)) ^ 2)) := by
  obtain ⟨o, lam, V, e1, e2, e3, e4⟩ := pod_written R solver lamV hs mi c1 c2 c3 s1 s2 s3 h1 h2 h3
  refine ⟨o, e1, fun hpos hdist => ?_⟩
  have hget : ∀ j, ∀ h : j < files.flatten.length, o.eigs.getD j 0 = ((lam ⟨j, h⟩ : ℝ) : ℂ) := by
    intro j h
    rw [e2, ofFn_getD _ j h]
  have hlt : ∀ j : Fin n, j.1 < files.flatten.length := fun j => lt_of_lt_of_le j.2 R.n_le
  have hp : ∀ j : Fin n, 0 < lam (Fin.castLE R.n_le j) := by
    intro j
    have := hpos j j.2
    rw [hget j (hlt j), Complex.ofReal_re] at this
    exact this
  have hd : ∀ i j : Fin n, lam (Fin.castLE R.n_le i) = lam (Fin.castLE R.n_le j) → i = j := by
    intro i j h
    refine Fin.ext (hdist i i.2 j j.2 ?_)
    rw [hget i (hlt i), hget j (hlt j)]
    exact congrArg _ h
  obtain ⟨G, rec, g1, g2, g3, g4⟩ := e4 hp
  have key := pod_left_out (podD files.flatten (dims ++ [1])) lam V e3 n R.n_le hp hd
  have hsum : ∑ t : Fin files.flatten.length, ∑ x : Fin (size (dims ++ [1])), (podAt files t x - Pod.reconstruct (Pod.modes .longtime (podD files.flatten (dims ++ [1])) lam V n R.n_le)
      (podD files.flatten (dims ++ [1])) x t) ^ 2 = ∑ j : Fin files.flatten.length, if n ≤ j.1 then (o.eigs.getD j 0).re else 0 := by
    rw [Finset.sum_comm]
    refine Eq.trans ?_ (key.trans ?_)
    · rfl
    · exact Finset.sum_congr rfl fun j _ => by rw [hget j j.2, Complex.ofReal_re]
  refine ⟨G, rec, fun t x => Pod.reconstruct (Pod.modes .longtime (podD files.flatten (dims ++ [1])) lam V n R.n_le) (podD files.flatten (dims ++ [1])) x t,
    g1, g2, g3, g4, hsum, fun hsort ψ a hψ => ?_⟩
  rw [hsum]
  have hbest := pod_closest (fitData .longtime (podD files.flatten (dims ++ [1]))) (lt_of_lt_of_le R.n_pos R.n_le) lam V e3 (by
    intro i j hij
    have := hsort i j hij j.2
    rwa [hget i i.2, hget j j.2, Complex.ofReal_re, Complex.ofReal_re] at this) n R.n_le (Matrix.of fun x j => ψ j x) (by
    ext i j
    rw [Matrix.mul_apply, Matrix.one_apply, ← hψ]
    rfl) (Matrix.of a)
  have hL : (∑ j : Fin files.flatten.length, if n ≤ j.1 then (o.eigs.getD j 0).re else 0) = ∑ j : Fin files.flatten.length, if n ≤ j.1 then lam j else 0 :=
    Finset.sum_congr rfl fun j _ => by rw [hget j j.2, Complex.ofReal_re]
  rw [hL]
  refine hbest.trans (le_of_eq ?_)
  rw [Finset.sum_comm]
  refine Finset.sum_congr rfl fun t _ => Finset.sum_congr rfl fun x _ => ?_
  have hm : fitData .longtime (podD files.flatten (dims ++ [1])) x t = podAt files t x -
      (∑ t' ∈ Finset.range files.flatten.length, podAt files t' x) / files.flatten.length := by
    rw [← podFluct_eq, podFluct_at, if_pos rfl]
  rw [hm, Matrix.mul_apply]
  simp only [Matrix.of_apply]
  congr 1
  ring

/-! ### A case that meets the hypotheses -/

/-- an exact solver with a given answer to a given matrix -/
theorem solver_with {k : Nat} (Q : Matrix (Fin k) (Fin k) ℝ) (L : Fin k → ℝ) (V : Matrix (Fin k) (Fin k) ℝ) (h : EigBasis Q L V) :
    ∃ solver lamV, PodSolver solver lamV ∧ lamV k Q = (L, V) := by
  classical
  obtain ⟨lamV, hl⟩ := eig_solver_exists
  have hex : ∀ nt, ∀ Q' : Matrix (Fin nt) (Fin nt) ℝ, ∃ lv : (Fin nt → ℝ) × Matrix (Fin nt) (Fin nt) ℝ,
      (Q'ᵀ = Q' → EigBasis Q' lv.1 lv.2) ∧ ∀ e : k = nt, (e ▸ Q) = Q' → lv = e ▸ (L, V) := by
    intro nt Q'
    by_cases hk : k = nt
    · subst hk
      by_cases hq : Q = Q'
      · subst hq
        exact ⟨(L, V), fun _ => h, fun _ _ => rfl⟩
      · exact ⟨lamV k Q', hl k Q', fun _ he => absurd he hq⟩
    · exact ⟨lamV nt Q', hl nt Q', fun e => absurd e hk⟩
  choose f hf hf' using hex
  exact ⟨fun nt Q => ((fun i => ((f nt Q).1 i : ℂ)), Matrix.of fun i j => ((f nt Q).2 i j : ℂ)), f, ⟨fun _ _ => rfl, hf⟩, hf' k Q rfl rfl⟩

/-- four snapshots on two points: `(2, 1)`, `(-2, 1)`, `(2, -1)`, `(-2, -1)` -/
def podFour : List (List (Arr ℝ)) :=
  [[⟨[2], fun idx => if idx = [0] then 2 else 1⟩, ⟨[2], fun idx => if idx = [0] then -2 else 1⟩],
   [⟨[2], fun idx => if idx = [0] then 2 else -1⟩, ⟨[2], fun idx => if idx = [0] then -2 else -1⟩]]

/-- the long-time mean removed, one mode kept -/
def podFourCfg : PodFit.Cfg := ⟨1, 1, "longtime", .int 1⟩

theorem podFourRun : PodRun podFourCfg none podFour [2] .longtime 1 where
  files_ne := by simp [podFour]
  ne := by simp [podFour]
  snaps := by simp [podFour]
  nv := rfl
  xdim := by decide
  dims_ne := by simp
  pos := by decide
  weights := by simp
  mean := podMean_longtime _ (by decide +kernel)
  save := rfl
  n_pos := by omega
  n_le := by simp [podFour]

theorem podFour_corr : corrMat (fitData .longtime (podD podFour.flatten ([2] ++ [1]))) (fun _ => 1) =
    (!![5, -3, 3, -5; -3, 5, -5, 3; 3, -5, 5, -3; -5, 3, -3, 5] : Matrix (Fin 4) (Fin 4) ℝ) := by
  have hp : ∀ (x : Fin (size ([2] ++ [1]))) (t : Fin podFour.flatten.length), podD podFour.flatten ([2] ++ [1]) x t =
      if x.1 = 0 then (if t.1 % 2 = 0 then 2 else -2) else if t.1 < 2 then 1 else -1 := by
    intro x t
    have hx : x = (0 : Fin 2) ∨ x = (1 : Fin 2) := (fun i : Fin 2 => (by omega : i = 0 ∨ i = 1)) x
    have ht : t = (0 : Fin 4) ∨ t = (1 : Fin 4) ∨ t = (2 : Fin 4) ∨ t = (3 : Fin 4) := (fun i : Fin 4 => (by omega : i = 0 ∨ i = 1 ∨ i = 2 ∨ i = 3)) t
    simp only [podD, Matrix.of_apply]
    rcases hx with rfl | rfl <;> rcases ht with rfl | rfl | rfl | rfl <;> norm_num [podFour, flat, unravel, size]
  have hm : ∀ x, tMean (podD podFour.flatten ([2] ++ [1])) x = 0 := by
    intro x
    have hx : x = (0 : Fin 2) ∨ x = (1 : Fin 2) := (fun i : Fin 2 => (by omega : i = 0 ∨ i = 1)) x
    simp only [tMean]
    rw [Finset.sum_congr rfl fun t _ => hp x t]
    have e : ∀ g : Fin 4 → ℝ, ∑ t : Fin podFour.flatten.length, g t = g 0 + g 1 + g 2 + g 3 := fun g => Fin.sum_univ_four g
    rw [e fun t => if x.1 = 0 then (if t.1 % 2 = 0 then 2 else -2) else if t.1 < 2 then 1 else -1]
    rcases hx with rfl | rfl <;> norm_num
  have hd : ∀ x t, fitData .longtime (podD podFour.flatten ([2] ++ [1])) x t =
      if x.1 = 0 then (if t.1 % 2 = 0 then 2 else -2) else if t.1 < 2 then 1 else -1 := by
    intro x t
    show podD podFour.flatten ([2] ++ [1]) x t - tMean (podD podFour.flatten ([2] ++ [1])) x = _
    rw [hp, hm, sub_zero]
  have e : ∀ g : Fin 2 → ℝ, ∑ x : Fin (size ([2] ++ [1])), g x = g 0 + g 1 := fun g => Fin.sum_univ_two g
  have hQ : ∀ i j : Fin podFour.flatten.length, corrMat (fitData .longtime (podD podFour.flatten ([2] ++ [1]))) (fun _ => 1) i j =
      (if i.1 % 2 = 0 then 2 else -2) * (if j.1 % 2 = 0 then 2 else -2) + (if i.1 < 2 then 1 else -1) * (if j.1 < 2 then 1 else -1) := by
    intro i j
    rw [corrMat, Matrix.mul_apply]
    simp only [Matrix.transpose_apply, Matrix.of_apply, hd, mul_one]
    rw [e fun x => (if x.1 = 0 then (if i.1 % 2 = 0 then 2 else -2) else if i.1 < 2 then 1 else -1) *
      (if x.1 = 0 then (if j.1 % 2 = 0 then 2 else -2) else if j.1 < 2 then 1 else -1)]
    norm_num
  funext i j
  refine (hQ i j).trans ?_
  have h4 : ∀ i : Fin 4, i = 0 ∨ i = 1 ∨ i = 2 ∨ i = 3 := fun i => by omega
  rcases h4 i with rfl | rfl | rfl | rfl <;> rcases h4 j with rfl | rfl | rfl | rfl <;> norm_num <;> rfl

theorem podFour_eig : EigBasis (!![5, -3, 3, -5; -3, 5, -5, 3; 3, -5, 5, -3; -5, 3, -3, 5] : Matrix (Fin 4) (Fin 4) ℝ) ![16, 4, 0, 0]
    !![1 / 2, 1 / 2, 1 / 2, 1 / 2; -(1 / 2), 1 / 2, 1 / 2, -(1 / 2); 1 / 2, -(1 / 2), 1 / 2, -(1 / 2); -(1 / 2), -(1 / 2), 1 / 2, 1 / 2] := by
  refine ⟨fun j => ?_, fun j => ?_, ?_⟩
  · funext i
    fin_cases i <;> fin_cases j <;> (simp [Matrix.mulVec, dotProduct, Fin.sum_univ_four, Matrix.cons_val]; try norm_num)
  · fin_cases j <;> (simp [Fin.sum_univ_four, Matrix.cons_val]; try norm_num)
  · refine Matrix.isUnit_det_of_left_inverse (B := !![1 / 2, -(1 / 2), 1 / 2, -(1 / 2); 1 / 2, 1 / 2, -(1 / 2), -(1 / 2); 1 / 2, 1 / 2, 1 / 2, 1 / 2; 1 / 2, -(1 / 2), -(1 / 2), 1 / 2]) ?_
    ext i j
    fin_cases i <;> fin_cases j <;> (simp [Matrix.mul_apply, Fin.sum_univ_four, Matrix.cons_val]; try norm_num)

/-- one of two modes kept: the squared error is the other eigenvalue, 4 of 20 -/
theorem podFour_error : ∃ solver lamV, PodSolver solver lamV ∧ ∃ (o : PodFit.Out) (G : Folder) (rec : NpyFile ℂ)
    (v : Fin podFour.flatten.length → Fin (size ([2] ++ [1])) → ℝ), PodFit.podFit podFourCfg none solver podFour [none] none = some o ∧
      PodFit.podProject (PodFit.storedOf podFourCfg o) none podFour.flatten [none] none = some G ∧
      PodFit.podReconstruct G none (.str "all") [none] none = some rec ∧
      (∀ (t : Fin podFour.flatten.length) (x : Fin (size ([2] ++ [1]))), fileEntry rec (t.1 :: unravel ([2] ++ [1]) x) = some ((v t x : ℝ) : ℂ)) ∧
      ∑ t : Fin podFour.flatten.length, ∑ x : Fin (size ([2] ++ [1])), (podAt podFour t x - v t x) ^ 2 = 4 := by
  obtain ⟨solver, lamV, hs, hl⟩ := solver_with _ _ _ podFour_eig
  refine ⟨solver, lamV, hs, ?_⟩
  obtain ⟨o, h1, h2⟩ := pod_error podFourRun solver lamV hs none [none] [none] [none] none none none (Or.inl ⟨rfl, rfl⟩) (Or.inl ⟨rfl, rfl⟩) (Or.inl ⟨rfl, rfl⟩)
  have he : o.eigs = [16, 4, 0, 0] := by
    have hfit := podFourRun.fit solver (comms := [none]) (sched := none) (Or.inl ⟨rfl, rfl⟩)
    rw [h1] at hfit
    have : o.eigs = List.ofFn (solver 4 (!![5, -3, 3, -5; -3, 5, -5, 3; 3, -5, 5, -3; -5, 3, -3, 5])).1 := by
      rw [Option.some.inj hfit, ← podFour_corr]; rfl
    rw [this, hs.real, hl]
    simp [List.ofFn_succ]
  obtain ⟨G, rec, v, g1, g2, -, g4, g5, -⟩ := h2 (by
    intro j hj
    have : j = 0 := by omega
    subst this
    rw [he]; norm_num) (fun i hi j hj _ => by omega)
  refine ⟨o, G, rec, v, h1, g1, g2, g4, ?_⟩
  rw [g5, he]
  show (∑ j : Fin 4, if 1 ≤ j.1 then (([16, 4, 0, 0] : List ℂ).getD j 0).re else 0) = 4
  rw [Fin.sum_univ_four]
  norm_num

end Verif.Props
