import Verif.Props.Constraints
import Verif.Props.PodError
set_option linter.unusedSectionVars false
set_option linter.unusedVariables false
/-
  C222-C224: projecting other data on the modes of a POD (pyspod/pod/standard.py:30-74, pyspod/pod/utils.py:14-225).
-/
namespace Verif.Props
open Verif Verif.Par Verif.Fit Verif.Proj Verif.Pod Matrix ComplexConjugate

/-- what `compute_coeffs_op` and `compute_reconstruction(time_idx='all')` write for a folder of real modes `A` -/
theorem pod_folder_written (S : PodFit.Stored) (frames : List (Arr ℝ)) (dims : List Nat) (n : Nat) (hF : PodFolder S frames dims n) (hfr : frames ≠ [])
    (hd : dims ≠ []) (hpos : 0 < size dims) (A : Matrix (Fin (size (dims ++ [1]))) (Fin n) ℝ)
    (hA : ∀ (x : Fin (size (dims ++ [1]))) (j : Fin n), NpyFile.num S.modes (x * n + j) = ((A x j : ℝ) : ℂ))
    (mi : Option (List Nat)) (c2 c3 : List Comm) (s2 s3 : Sched) (h2 : IsRun c2 s2) (h3 : IsRun c3 s3) :
    ∃ G rec, PodFit.podProject S mi frames c2 s2 = some G ∧ PodFit.podReconstruct G none (.str "all") c3 s3 = some rec ∧
      (G.coeffs.shape = [n, frames.length] ∧ ∀ (j : Fin n) (t : Fin frames.length), fileEntry G.coeffs [j.1, t.1] =
        some ((Pod.coeffsOp A (podD frames (dims ++ [1])) j t : ℝ) : ℂ)) ∧
      rec.shape = frames.length :: (dims ++ [1]) ∧ ∀ (t : Fin frames.length) (x : Fin (size (dims ++ [1]))),
        fileEntry rec (t.1 :: unravel (dims ++ [1]) x) = some ((Pod.reconstruct A (podD frames (dims ++ [1])) x t : ℝ) : ℂ) := by
  have hn := hF.nModes
  subst hn
  obtain ⟨ax, hmax, hproj⟩ := pod_projection_files _ mi frames dims _ hF hfr hd
  have hpos1 : 0 < size (dims ++ [1]) := by rw [size_append, Nat.mul_one]; exact hpos
  have hax' : ax < (dims ++ [1]).length := by have := hmax.1; simp; omega
  have hst : podStoredPhi S (dims ++ [1]) = A.map Complex.ofRealHom := by
    ext i j
    exact hA i j
  have hl : ((none : Option (Arr ℂ)).getD (openMemmap (podFolderOf S frames (dims ++ [1]) ax).coeffs)).shape.length = 2 := rfl
  have hrec := reconstruct_all (podFolderOf S frames (dims ++ [1]) ax) frames hfr (dims ++ [1]) hpos1 hax' _ _ _ rfl rfl rfl c3 s3 h3
  have hco : (podStoredPhi S (dims ++ [1]))ᵀ * Coef.centred (specD frames (dims ++ [1])) =
      (Pod.coeffsOp A (podD frames (dims ++ [1]))).map Complex.ofRealHom := by
    rw [hst, centred_real, ← Matrix.transpose_map, ← Matrix.map_mul]
    rfl
  refine ⟨_, _, hproj c2 s2 h2, (if_pos hl).trans hrec, ⟨rfl, fun j t => ?_⟩, rfl, fun t x => ?_⟩
  · have hin : InRange [S.nModes, frames.length] [j.1, t.1] := ⟨j.2, t.2, trivial⟩
    show fileEntry (npSave (matArr ((podStoredPhi S (dims ++ [1]))ᵀ * Coef.centred (specD frames (dims ++ [1]))))) _ = _
    rw [hco, fileEntry_npSave _ _ hin]
    simp [matArr]
  · have hin : InRange (frames.length :: (dims ++ [1])) (t.1 :: unravel (dims ++ [1]) x) := ⟨t.2, inRange_unravel x.2⟩
    have hr : ravel (dims ++ [1]) (unravel (dims ++ [1]) x) = x := ravel_unravel x.2
    rw [fileEntry_npSave _ _ hin, timeArr_at _ _ _ _ t.2 (by rw [hr]; exact x.2)]
    congr 1
    simp only [Coef.reconstruct, Matrix.of_apply, ltMean_real, Pod.reconstruct]
    rw [hco, hst, ← Matrix.map_mul]
    simp only [Matrix.map_apply, Complex.ofRealHom_eq_coe, hr, Fin.eta]
    rw [← Complex.ofReal_add]

/-- fit, then projection and reconstruction of any data -/
theorem pod_written_other {c weights files dims mk n} (R : PodRun c weights files dims mk n) (solver : PodFit.Solver) (lamV) (hs : PodSolver solver lamV)
    (c1 : List Comm) (s1 : Sched) (h1 : IsRun c1 s1) :
    ∃ o lam V, PodFit.podFit c weights solver files c1 s1 = some o ∧ o.eigs = List.ofFn (fun i => ((lam i : ℝ) : ℂ)) ∧
      EigBasis (corrMat (fitData mk (podD files.flatten (dims ++ [1]))) (podWeight weights dims)) lam V ∧
      ((∀ j : Fin n, 0 < lam (Fin.castLE R.n_le j)) → 
        (∀ (x : Fin (size (dims ++ [1]))) (j : Fin n), podStoredMode o _ n j x = ((Pod.modes mk (podD files.flatten (dims ++ [1])) lam V n R.n_le x j : ℝ) : ℂ)) ∧
        ∀ frames : List (Arr ℝ), frames ≠ [] → (∀ a ∈ frames, a.shape = dims) →
        ∀ (mi : Option (List Nat)) (c2 c3 : List Comm) (s2 s3 : Sched), IsRun c2 s2 → IsRun c3 s3 →
        ∃ G rec, PodFit.podProject (PodFit.storedOf c o) mi frames c2 s2 = some G ∧ PodFit.podReconstruct G none (.str "all") c3 s3 = some rec ∧
          (G.coeffs.shape = [n, frames.length] ∧ ∀ (j : Fin n) (t : Fin frames.length), fileEntry G.coeffs [j.1, t.1] =
            some ((Pod.coeffsOp (Pod.modes mk (podD files.flatten (dims ++ [1])) lam V n R.n_le) (podD frames (dims ++ [1])) j t : ℝ) : ℂ)) ∧
          rec.shape = frames.length :: (dims ++ [1]) ∧ ∀ (t : Fin frames.length) (x : Fin (size (dims ++ [1]))),
            fileEntry rec (t.1 :: unravel (dims ++ [1]) x) =
              some ((Pod.reconstruct (Pod.modes mk (podD files.flatten (dims ++ [1])) lam V n R.n_le) (podD frames (dims ++ [1])) x t : ℝ) : ℂ)) := by
  obtain ⟨o, lam, V, e1, e2, e3, e4, e5⟩ := pod_files_spec R solver lamV hs h1
  have hA : (∀ j : Fin n, 0 < lam (Fin.castLE R.n_le j)) → ∀ (x : Fin (size (dims ++ [1]))) (j : Fin n),
      podStoredMode o _ n j x = ((Pod.modes mk (podD files.flatten (dims ++ [1])) lam V n R.n_le x j : ℝ) : ℂ) :=
    fun hp x j => e5 j j.2 (lt_of_lt_of_le j.2 R.n_le) (hp j) x
  refine ⟨o, lam, V, e1, e2, e3, fun hp => ⟨hA hp, fun frames hfr hsh mi c2 c3 s2 s3 h2 h3 => ?_⟩⟩
  have ho := (Option.some.inj (e1.symm.trans (R.fit solver h1)))
  have hF := out_folder R solver
  rw [← ho] at hF
  exact pod_folder_written (PodFit.storedOf c o) frames dims n ⟨hF.weights, hF.modes, hsh, hF.nv, hF.xdim⟩ hfr R.dims_ne R.pos _ (hA hp) mi c2 c3 s2 s3 h2 h3

/-! ### Projection on orthonormal fields -/

section
variable {X : Type} [Fintype X] [DecidableEq X] {nt r : Nat}

theorem vec_error (Φ : Matrix X (Fin r) ℝ) (hΦ : Φᵀ * Φ = 1) (f : X → ℝ) (b : Fin r → ℝ) :
    ∑ x, (f x - (Φ *ᵥ b) x) ^ 2 = ∑ x, f x ^ 2 - ∑ j, (Φᵀ *ᵥ f) j ^ 2 + ∑ j, (b j - (Φᵀ *ᵥ f) j) ^ 2 := by
  have := projection_error (nt := 1) Φ (Matrix.of fun x _ => f x) (Matrix.of fun j _ => b j) hΦ
  simp only [Finset.univ_unique, Finset.sum_singleton, Matrix.mul_apply, Matrix.of_apply, Matrix.transpose_apply] at this
  simpa [mulVec, dotProduct] using this

theorem vec_size (Φ : Matrix X (Fin r) ℝ) (hΦ : Φᵀ * Φ = 1) (b : Fin r → ℝ) : ∑ x, (Φ *ᵥ b) x ^ 2 = ∑ j, b j ^ 2 := by
  have := vec_error Φ hΦ 0 b
  simpa using this

/-- a snapshot without the mean over time -/
theorem pod_reconstruct_eq (Φ : Matrix X (Fin r) ℝ) (d : Matrix X (Fin nt) ℝ) (x : X) (t : Fin nt) :
    Pod.reconstruct Φ d x t = (Φ *ᵥ (Φᵀ *ᵥ fun x => d x t - tMean d x)) x + tMean d x := by
  simp only [Pod.reconstruct, Pod.coeffsOp, Matrix.of_apply, Matrix.mul_apply, mulVec, dotProduct]

theorem pod_coeffs_eq (Φ : Matrix X (Fin r) ℝ) (d : Matrix X (Fin nt) ℝ) (j : Fin r) (t : Fin nt) :
    Pod.coeffsOp Φ d j t = (Φᵀ *ᵥ fun x => d x t - tMean d x) j := by
  simp only [Pod.coeffsOp, Matrix.of_apply, Matrix.mul_apply, mulVec, dotProduct]

theorem pod_modes_orthonormal (mk : MeanKind) (d : Matrix X (Fin nt) ℝ) (lam : Fin nt → ℝ) (V : Matrix (Fin nt) (Fin nt) ℝ)
    (h : EigBasis (corrMat (fitData mk d) fun _ => 1) lam V) (hr : r ≤ nt)
    (hpos : ∀ j : Fin r, 0 < lam (Fin.castLE hr j)) (hdist : ∀ i j : Fin r, lam (Fin.castLE hr i) = lam (Fin.castLE hr j) → i = j) :
    (modes mk d lam V r hr)ᵀ * modes mk d lam V r hr = 1 := by
  ext i j
  have := pod_orthonormal_partial mk d (fun _ => 1) lam V h r hr hpos hdist i j
  unfold podIp at this
  simp only [one_mul] at this
  rw [Matrix.one_apply, ← this, Matrix.mul_apply]
  rfl

theorem pod_centred_sum (d : Matrix X (Fin nt) ℝ) (x : X) : ∑ t, (d x t - tMean d x) = 0 := by
  rcases Nat.eq_zero_or_pos nt with rfl | h
  · simp
  · rw [Finset.sum_sub_distrib, Finset.sum_const, Finset.card_univ, Fintype.card_fin, nsmul_eq_mul, tMean,
      mul_div_cancel₀ _ (by exact_mod_cast h.ne'), sub_self]

theorem pod_coeffs_sum (Φ : Matrix X (Fin r) ℝ) (d : Matrix X (Fin nt) ℝ) (j : Fin r) : ∑ t, Pod.coeffsOp Φ d j t = 0 := by
  simp only [Pod.coeffsOp, Matrix.mul_apply, Matrix.of_apply]
  rw [Finset.sum_comm]
  exact Finset.sum_eq_zero fun x _ => by rw [← Finset.mul_sum, pod_centred_sum, mul_zero]

theorem pod_reconstruct_mean (Φ : Matrix X (Fin r) ℝ) (d : Matrix X (Fin nt) ℝ) (x : X) : tMean (Pod.reconstruct Φ d) x = tMean d x := by
  rcases Nat.eq_zero_or_pos nt with rfl | h
  · simp [tMean]
  have e : ∑ t, Pod.reconstruct Φ d x t = nt * tMean d x := by
    simp only [Pod.reconstruct, Matrix.of_apply, Matrix.mul_apply, Finset.sum_add_distrib]
    rw [Finset.sum_comm, Finset.sum_eq_zero fun j _ => by rw [← Finset.mul_sum, pod_coeffs_sum, mul_zero]]
    simp
  rw [tMean, e, mul_div_cancel_left₀ _ (by exact_mod_cast h.ne')]

theorem pod_coeffs_again (Φ : Matrix X (Fin r) ℝ) (hΦ : Φᵀ * Φ = 1) (d : Matrix X (Fin nt) ℝ) :
    Pod.coeffsOp Φ (Pod.reconstruct Φ d) = Pod.coeffsOp Φ d := by
  have : (Matrix.of fun x t => Pod.reconstruct Φ d x t - tMean (Pod.reconstruct Φ d) x) = Φ * Pod.coeffsOp Φ d := by
    ext x t
    rw [Matrix.of_apply, pod_reconstruct_mean]
    simp [Pod.reconstruct]
  rw [Pod.coeffsOp, this, ← Matrix.mul_assoc, hΦ, Matrix.one_mul]

end

/-- the stored eigenvalues, as numbers -/
theorem pod_eigs_pos {nt n : Nat} {e : List ℂ} {lam : Fin nt → ℝ} (he : e = List.ofFn fun i => ((lam i : ℝ) : ℂ)) (hn : n ≤ nt)
    (hpos : ∀ j < n, 0 < (e.getD j 0).re) (j : Fin n) : 0 < lam (Fin.castLE hn j) := by
  have := hpos j j.2
  rwa [he, ofFn_getD _ j (lt_of_lt_of_le j.2 hn), Complex.ofReal_re] at this

theorem pod_eigs_dist {nt n : Nat} {e : List ℂ} {lam : Fin nt → ℝ} (he : e = List.ofFn fun i => ((lam i : ℝ) : ℂ)) (hn : n ≤ nt)
    (hdist : ∀ i < n, ∀ j < n, e.getD i 0 = e.getD j 0 → i = j) (i j : Fin n) (h : lam (Fin.castLE hn i) = lam (Fin.castLE hn j)) : i = j := by
  refine Fin.ext (hdist i i.2 j j.2 ?_)
  rw [he, ofFn_getD _ i (lt_of_lt_of_le i.2 hn), ofFn_getD _ j (lt_of_lt_of_le j.2 hn)]
  exact congrArg _ h

/-- value number `x` of snapshot `t` -/
noncomputable def snapVal (frames : List (Arr ℝ)) (t x : Nat) : ℝ := flat (frames.getD t ⟨[], fun _ => 0⟩) x

/-- the mean over the snapshots -/
noncomputable def snapMean (frames : List (Arr ℝ)) (x : Nat) : ℝ := (∑ t ∈ Finset.range frames.length, snapVal frames t x) / frames.length

theorem snapMean_eq (frames : List (Arr ℝ)) (sh : List Nat) (x : Fin (size sh)) : tMean (podD frames sh) x = snapMean frames x := by
  rw [snapMean, Finset.sum_range]
  rfl

/-- `compute_coeffs_op` followed by `compute_reconstruction(time_idx='all')` writes the coefficients `a` and the (real) fields `v` -/
def PodWrites (S : PodFit.Stored) (dims : List Nat) (n : Nat) (frames : List (Arr ℝ)) (mi : Option (List Nat)) (c2 c3 : List Comm) (s2 s3 : Sched)
    (a : Nat → Nat → ℝ) (v : Nat → Fin (size (dims ++ [1])) → ℝ) : Prop :=
  ∃ G rec, PodFit.podProject S mi frames c2 s2 = some G ∧ PodFit.podReconstruct G none (.str "all") c3 s3 = some rec ∧
    G.coeffs.shape = [n, frames.length] ∧ rec.shape = frames.length :: (dims ++ [1]) ∧
    (∀ j < n, ∀ t < frames.length, fileEntry G.coeffs [j, t] = some (a j t : ℂ)) ∧
    ∀ t < frames.length, ∀ x : Fin (size (dims ++ [1])), fileEntry rec (t :: unravel (dims ++ [1]) x) = some (v t x : ℂ)

/-- the numbers written for modes `Φ` -/
noncomputable def podA {sh : List Nat} {n : Nat} (Φ : Matrix (Fin (size sh)) (Fin n) ℝ) (frames : List (Arr ℝ)) (j t : Nat) : ℝ :=
  if h : j < n ∧ t < frames.length then Pod.coeffsOp Φ (podD frames sh) ⟨j, h.1⟩ ⟨t, h.2⟩ else 0

noncomputable def podV {sh : List Nat} {n : Nat} (Φ : Matrix (Fin (size sh)) (Fin n) ℝ) (frames : List (Arr ℝ)) (t : Nat) (x : Fin (size sh)) : ℝ :=
  if h : t < frames.length then Pod.reconstruct Φ (podD frames sh) x ⟨t, h⟩ else 0

theorem podV_at {sh : List Nat} {n : Nat} (Φ : Matrix (Fin (size sh)) (Fin n) ℝ) (frames : List (Arr ℝ)) (t : Fin frames.length) (x : Fin (size sh)) :
    podV Φ frames t x = Pod.reconstruct Φ (podD frames sh) x t := dif_pos t.2

theorem podA_at {sh : List Nat} {n : Nat} (Φ : Matrix (Fin (size sh)) (Fin n) ℝ) (frames : List (Arr ℝ)) (j : Fin n) (t : Fin frames.length) :
    podA Φ frames j t = Pod.coeffsOp Φ (podD frames sh) j t := dif_pos ⟨j.2, t.2⟩

/-- a fit, then projection and reconstruction of any data on its modes `Φ` -/
theorem pod_writes {c weights files dims mk n} (R : PodRun c weights files dims mk n) (solver : PodFit.Solver) (lamV) (hs : PodSolver solver lamV)
    (c1 : List Comm) (s1 : Sched) (h1 : IsRun c1 s1) :
    ∃ o, ∃ Φ : Matrix (Fin (size (dims ++ [1]))) (Fin n) ℝ, PodFit.podFit c weights solver files c1 s1 = some o ∧
      ((∀ j < n, 0 < (o.eigs.getD j 0).re) → (∀ (x : Fin (size (dims ++ [1]))) (j : Fin n), podStoredMode o _ n j x = ((Φ x j : ℝ) : ℂ)) ∧
        (weights = none → (∀ i < n, ∀ j < n, o.eigs.getD i 0 = o.eigs.getD j 0 → i = j) → Φᵀ * Φ = 1) ∧
        ∀ frames : List (Arr ℝ), frames ≠ [] → (∀ a ∈ frames, a.shape = dims) → ∀ mi c2 c3 s2 s3, IsRun c2 s2 → IsRun c3 s3 →
          PodWrites (PodFit.storedOf c o) dims n frames mi c2 c3 s2 s3 (podA Φ frames) (podV Φ frames)) := by
  obtain ⟨o, lam, V, e1, e2, e3, e4⟩ := pod_written_other R solver lamV hs c1 s1 h1
  refine ⟨o, Pod.modes mk (podD files.flatten (dims ++ [1])) lam V n R.n_le, e1, fun hpos => ?_⟩
  have hp := pod_eigs_pos e2 R.n_le hpos
  obtain ⟨k1, k2⟩ := e4 hp
  refine ⟨k1, ?_, ?_⟩
  · rintro rfl hdist
    exact pod_modes_orthonormal mk _ lam V e3 R.n_le hp (pod_eigs_dist e2 R.n_le hdist)
  · intro frames hfr hsh mi c2 c3 s2 s3 h2 h3
    obtain ⟨G, rec, g1, g2, ⟨g3, g4⟩, g5, g6⟩ := k2 frames hfr hsh mi c2 c3 s2 s3 h2 h3
    refine ⟨G, rec, g1, g2, g3, g5, fun j hj t ht => ?_, fun t ht x => ?_⟩
    · rw [g4 ⟨j, hj⟩ ⟨t, ht⟩, ← podA_at]
    · rw [g6 ⟨t, ht⟩ x, ← podV_at]

/-- **C222.** A POD of data with `∑ l x * q x = b` (`b = 0` for mean type `zero`), any weights; projection of data that satisfy the same relation with any
    right-hand side `b'` (other data, or the same) on its modes, all of positive eigenvalues, and reconstruction, each step on any number of ranks: every
    reconstructed snapshot satisfies `∑ l x * q x = b'`. -/
theorem pod_workflow_constraint {c weights files dims mk n} (R : PodRun c weights files dims mk n) (solver : PodFit.Solver) (lamV) (hs : PodSolver solver lamV)
    (c1 : List Comm) (s1 : Sched) (h1 : IsRun c1 s1) (l : Fin (size (dims ++ [1])) → ℝ) (b b' : ℝ) (hb : mk = .zero → b = 0)
    (hl : ∀ t < files.flatten.length, ∑ x : Fin (size (dims ++ [1])), l x * podAt files t x = b)
    (frames : List (Arr ℝ)) (hfr : frames ≠ []) (hsh : ∀ a ∈ frames, a.shape = dims)
    (hl' : ∀ t < frames.length, ∑ x : Fin (size (dims ++ [1])), l x * snapVal frames t x = b') :
    ∃ o, PodFit.podFit c weights solver files c1 s1 = some o ∧ ((∀ j < n, 0 < (o.eigs.getD j 0).re) →
      ∃ a v, (∀ mi c2 c3 s2 s3, IsRun c2 s2 → IsRun c3 s3 → PodWrites (PodFit.storedOf c o) dims n frames mi c2 c3 s2 s3 a v) ∧
        ∀ t < frames.length, ∑ x, l x * v t x = b') := by
  obtain ⟨o, Φ, e1, e2⟩ := pod_writes R solver lamV hs c1 s1 h1
  obtain ⟨o', g1, g2⟩ := pod_constraint R solver lamV hs h1 l b hb hl
  obtain rfl : o = o' := Option.some.inj (e1.symm.trans g1)
  refine ⟨o, e1, fun hpos => ?_⟩
  obtain ⟨k1, -, k2⟩ := e2 hpos
  refine ⟨podA Φ frames, podV Φ frames, k2 frames hfr hsh, fun t ht => ?_⟩
  have hΦ : ∀ j : Fin n, ∑ x, l x * Φ x j = 0 := by
    intro j
    obtain ⟨φ, f1, f2⟩ := g2 j j.2 (hpos j j.2)
    rw [← f2]
    refine Finset.sum_congr rfl fun x _ => ?_
    have := (k1 x j).symm.trans (f1 x)
    rw [Complex.ofReal_inj.1 this]
  have hne : (frames.length : ℝ) ≠ 0 := by exact_mod_cast (by omega : frames.length ≠ 0)
  have hm : ∑ x : Fin (size (dims ++ [1])), l x * snapMean frames x = b' := by
    simp only [snapMean, ← mul_div_assoc, ← Finset.sum_div, Finset.mul_sum]
    rw [Finset.sum_comm, Finset.sum_congr rfl fun t ht => hl' t (Finset.mem_range.1 ht), Finset.sum_const, Finset.card_range, nsmul_eq_mul,
      mul_div_cancel_left₀ _ hne]
  refine Eq.trans (Finset.sum_congr rfl fun x _ => by rw [podV_at Φ frames ⟨t, ht⟩ x]) ?_
  simp only [Pod.reconstruct, Matrix.of_apply, snapMean_eq, mul_add, Finset.sum_add_distrib, hm, Matrix.mul_apply, Finset.mul_sum]
  rw [Finset.sum_comm, Finset.sum_eq_zero, zero_add]
  intro j _
  rw [Finset.sum_congr rfl fun x _ => (mul_assoc _ _ _).symm, ← Finset.sum_mul, hΦ j, zero_mul]

/-- **C223.** A POD without weights whose saved modes belong to positive, distinct eigenvalues; any data on its grid are projected and reconstructed, each step on
    any number of ranks: at every time the energy about the mean is that of the reconstruction plus that of the error, and the reconstruction is
    the nearest of all sums of the mean and multiples of the stored modes `φ`. -/
theorem pod_reconstruction_energy {c files dims mk n} (R : PodRun c none files dims mk n) (solver : PodFit.Solver) (lamV) (hs : PodSolver solver lamV)
    (c1 : List Comm) (s1 : Sched) (h1 : IsRun c1 s1) (frames : List (Arr ℝ)) (hfr : frames ≠ []) (hsh : ∀ a ∈ frames, a.shape = dims) :
    ∃ o, PodFit.podFit c none solver files c1 s1 = some o ∧
      ((∀ j < n, 0 < (o.eigs.getD j 0).re) → (∀ i < n, ∀ j < n, o.eigs.getD i 0 = o.eigs.getD j 0 → i = j) →
      ∃ (φ : Fin n → Fin (size (dims ++ [1])) → ℝ) (a : Nat → Nat → ℝ) (v : Nat → Fin (size (dims ++ [1])) → ℝ),
        (∀ (j : Fin n) (x : Fin (size (dims ++ [1]))), podStoredMode o _ n j x = (φ j x : ℂ)) ∧
        (∀ mi c2 c3 s2 s3, IsRun c2 s2 → IsRun c3 s3 → PodWrites (PodFit.storedOf c o) dims n frames mi c2 c3 s2 s3 a v) ∧
        ∀ t < frames.length,
          ∑ x : Fin (size (dims ++ [1])), (snapVal frames t x - snapMean frames x) ^ 2 =
            ∑ x : Fin (size (dims ++ [1])), (v t x - snapMean frames x) ^ 2 + ∑ x : Fin (size (dims ++ [1])), (snapVal frames t x - v t x) ^ 2 ∧
          ∀ z : Fin n → ℝ, ∑ x : Fin (size (dims ++ [1])), (snapVal frames t x - v t x) ^ 2 ≤
            ∑ x : Fin (size (dims ++ [1])), (snapVal frames t x - (snapMean frames x + ∑ j, z j * φ j x)) ^ 2) := by
  obtain ⟨o, Φ, e1, e2⟩ := pod_writes R solver lamV hs c1 s1 h1
  refine ⟨o, e1, fun hpos hdist => ?_⟩
  obtain ⟨k1, k0, k2⟩ := e2 hpos
  have hΦ := k0 rfl hdist
  refine ⟨fun j x => Φ x j, podA Φ frames, podV Φ frames, fun j x => k1 x j, k2 frames hfr hsh, fun t ht => ?_⟩
  have hv : ∀ x, podV Φ frames t x = (Φ *ᵥ (Φᵀ *ᵥ fun x : Fin (size (dims ++ [1])) => snapVal frames t x - snapMean frames x)) x + snapMean frames x := by
    intro x
    rw [podV_at Φ frames ⟨t, ht⟩ x, pod_reconstruct_eq]
    simp only [snapMean_eq]
    rfl
  have err := vec_error Φ hΦ fun x : Fin (size (dims ++ [1])) => snapVal frames t x - snapMean frames x
  have e0 := err (Φᵀ *ᵥ fun x : Fin (size (dims ++ [1])) => snapVal frames t x - snapMean frames x)
  have sz := vec_size Φ hΦ (Φᵀ *ᵥ fun x : Fin (size (dims ++ [1])) => snapVal frames t x - snapMean frames x)
  simp only [sub_self, ne_eq, OfNat.ofNat_ne_zero, not_false_eq_true, zero_pow, Finset.sum_const_zero, add_zero] at e0
  have hE : ∑ x : Fin (size (dims ++ [1])), (snapVal frames t x - podV Φ frames t x) ^ 2 =
      ∑ x : Fin (size (dims ++ [1])), (snapVal frames t x - snapMean frames x) ^ 2 -
      ∑ j, (Φᵀ *ᵥ fun x : Fin (size (dims ++ [1])) => snapVal frames t x - snapMean frames x) j ^ 2 := by
    rw [← e0]
    exact Finset.sum_congr rfl fun x _ => by rw [hv x]; ring
  refine ⟨?_, fun z => ?_⟩
  · rw [hE, ← sz]
    simp only [hv, add_sub_cancel_right]
    ring
  · have ez := err z
    have hz : ∑ x : Fin (size (dims ++ [1])), (snapVal frames t x - (snapMean frames x + ∑ j, z j * Φ x j)) ^ 2 =
        ∑ x : Fin (size (dims ++ [1])), (snapVal frames t x - snapMean frames x - (Φ *ᵥ z) x) ^ 2 := by
      refine Finset.sum_congr rfl fun x _ => ?_
      have : ∑ j, z j * Φ x j = (Φ *ᵥ z) x := by
        simp only [mulVec, dotProduct]
        exact Finset.sum_congr rfl fun j _ => mul_comm _ _
      rw [this]
      ring
    rw [hE, hz, ez]
    have : (0 : ℝ) ≤ ∑ j, (z j - (Φᵀ *ᵥ fun x : Fin (size (dims ++ [1])) => snapVal frames t x - snapMean frames x) j) ^ 2 :=
      Finset.sum_nonneg fun _ _ => sq_nonneg _
    linarith

/-- **C223 (two data sets).** About the means, the reconstructions of two data sets of the same length are at no time farther apart than the data. -/
theorem pod_reconstruction_stable {c files dims mk n} (R : PodRun c none files dims mk n) (solver : PodFit.Solver) (lamV) (hs : PodSolver solver lamV)
    (c1 : List Comm) (s1 : Sched) (h1 : IsRun c1 s1) (frames frames' : List (Arr ℝ)) (hfr : frames ≠ []) (hsh : ∀ a ∈ frames, a.shape = dims)
    (hsh' : ∀ a ∈ frames', a.shape = dims) (hl : frames'.length = frames.length) :
    ∃ o, PodFit.podFit c none solver files c1 s1 = some o ∧
      ((∀ j < n, 0 < (o.eigs.getD j 0).re) → (∀ i < n, ∀ j < n, o.eigs.getD i 0 = o.eigs.getD j 0 → i = j) →
      ∃ (a a' : Nat → Nat → ℝ) (v v' : Nat → Fin (size (dims ++ [1])) → ℝ),
        (∀ mi c2 c3 s2 s3, IsRun c2 s2 → IsRun c3 s3 → PodWrites (PodFit.storedOf c o) dims n frames mi c2 c3 s2 s3 a v) ∧
        (∀ mi c2 c3 s2 s3, IsRun c2 s2 → IsRun c3 s3 → PodWrites (PodFit.storedOf c o) dims n frames' mi c2 c3 s2 s3 a' v') ∧
        ∀ t < frames.length,
          ∑ x : Fin (size (dims ++ [1])), ((v t x - snapMean frames x) - (v' t x - snapMean frames' x)) ^ 2 ≤
            ∑ x : Fin (size (dims ++ [1])), ((snapVal frames t x - snapMean frames x) - (snapVal frames' t x - snapMean frames' x)) ^ 2) := by
  obtain ⟨o, Φ, e1, e2⟩ := pod_writes R solver lamV hs c1 s1 h1
  refine ⟨o, e1, fun hpos hdist => ?_⟩
  obtain ⟨k1, k0, k2⟩ := e2 hpos
  have hΦ := k0 rfl hdist
  have hfr' : frames' ≠ [] := by
    have := List.length_pos_iff.2 hfr
    exact List.length_pos_iff.1 (by omega)
  refine ⟨podA Φ frames, podA Φ frames', podV Φ frames, podV Φ frames', k2 frames hfr hsh, k2 frames' hfr' hsh', fun t ht => ?_⟩
  have hv : ∀ (fr : List (Arr ℝ)) (h : t < fr.length) (x : Fin (size (dims ++ [1]))), podV Φ fr t x - snapMean fr x =
      (Φ *ᵥ (Φᵀ *ᵥ fun x : Fin (size (dims ++ [1])) => snapVal fr t x - snapMean fr x)) x := by
    intro fr h x
    rw [podV_at Φ fr ⟨t, h⟩ x, pod_reconstruct_eq]
    simp only [snapMean_eq, add_sub_cancel_right]
    rfl
  set f : Fin (size (dims ++ [1])) → ℝ := fun x => snapVal frames t x - snapMean frames x
  set f' : Fin (size (dims ++ [1])) → ℝ := fun x => snapVal frames' t x - snapMean frames' x
  have e0 := vec_error Φ hΦ (f - f') (Φᵀ *ᵥ (f - f'))
  have sz := vec_size Φ hΦ (Φᵀ *ᵥ (f - f'))
  simp only [sub_self, ne_eq, OfNat.ofNat_ne_zero, not_false_eq_true, zero_pow, Finset.sum_const_zero, add_zero] at e0
  have hpos0 : 0 ≤ ∑ x, ((f - f') x - (Φ *ᵥ (Φᵀ *ᵥ (f - f'))) x) ^ 2 := Finset.sum_nonneg fun _ _ => sq_nonneg _
  have hL : ∑ x : Fin (size (dims ++ [1])), ((podV Φ frames t x - snapMean frames x) - (podV Φ frames' t x - snapMean frames' x)) ^ 2 =
      ∑ x, (Φ *ᵥ (Φᵀ *ᵥ (f - f'))) x ^ 2 := by
    refine Finset.sum_congr rfl fun x _ => ?_
    rw [hv frames ht x, hv frames' (by omega) x, Matrix.mulVec_sub, Matrix.mulVec_sub, Pi.sub_apply]
  rw [hL]
  have hR : ∑ x, (f x - f' x) ^ 2 = ∑ x, (f - f') x ^ 2 := rfl
  show _ ≤ ∑ x, (f x - f' x) ^ 2
  rw [hR]
  linarith

/-- **C224.** Coefficients of any data on the modes of a POD (any weights, positive eigenvalues) have zero mean over time. -/
theorem pod_coeffs_zero_mean {c weights files dims mk n} (R : PodRun c weights files dims mk n) (solver : PodFit.Solver) (lamV) (hs : PodSolver solver lamV)
    (c1 : List Comm) (s1 : Sched) (h1 : IsRun c1 s1) (frames : List (Arr ℝ)) (hfr : frames ≠ []) (hsh : ∀ a ∈ frames, a.shape = dims) :
    ∃ o, PodFit.podFit c weights solver files c1 s1 = some o ∧ ((∀ j < n, 0 < (o.eigs.getD j 0).re) →
      ∃ a v, (∀ mi c2 c3 s2 s3, IsRun c2 s2 → IsRun c3 s3 → PodWrites (PodFit.storedOf c o) dims n frames mi c2 c3 s2 s3 a v) ∧
        (∀ j < n, ∑ t ∈ Finset.range frames.length, a j t = 0) ∧
        ∀ x, (∑ t ∈ Finset.range frames.length, v t x) / frames.length = snapMean frames x) := by
  obtain ⟨o, Φ, e1, e2⟩ := pod_writes R solver lamV hs c1 s1 h1
  refine ⟨o, e1, fun hpos => ?_⟩
  obtain ⟨k1, k0, k2⟩ := e2 hpos
  refine ⟨podA Φ frames, podV Φ frames, k2 frames hfr hsh, fun j hj => ?_, fun x => ?_⟩
  · rw [Finset.sum_range]
    exact (Finset.sum_congr rfl fun t _ => podA_at Φ frames ⟨j, hj⟩ t).trans (pod_coeffs_sum Φ _ _)
  · rw [Finset.sum_range, ← snapMean_eq, ← pod_reconstruct_mean Φ, tMean]
    simp only [podV_at]

/-- **C224 (projecting again).** Without weights, modes of positive, distinct eigenvalues: projecting the reconstruction (snapshots `frames'` with the values written) gives the
    same coefficients and the same reconstruction; and the squares of the coefficients at a time add up to at most the energy of the snapshot about the mean. -/
theorem pod_project_again {c files dims mk n} (R : PodRun c none files dims mk n) (solver : PodFit.Solver) (lamV) (hs : PodSolver solver lamV)
    (c1 : List Comm) (s1 : Sched) (h1 : IsRun c1 s1) (frames : List (Arr ℝ)) (hfr : frames ≠ []) (hsh : ∀ a ∈ frames, a.shape = dims) :
    ∃ o, PodFit.podFit c none solver files c1 s1 = some o ∧
      ((∀ j < n, 0 < (o.eigs.getD j 0).re) → (∀ i < n, ∀ j < n, o.eigs.getD i 0 = o.eigs.getD j 0 → i = j) →
      ∃ (a : Nat → Nat → ℝ) (v : Nat → Fin (size (dims ++ [1])) → ℝ),
        (∀ mi c2 c3 s2 s3, IsRun c2 s2 → IsRun c3 s3 → PodWrites (PodFit.storedOf c o) dims n frames mi c2 c3 s2 s3 a v) ∧
        (∀ t < frames.length, ∑ j ∈ Finset.range n, a j t ^ 2 ≤ ∑ x : Fin (size (dims ++ [1])), (snapVal frames t x - snapMean frames x) ^ 2) ∧
        ∀ frames' : List (Arr ℝ), frames'.length = frames.length → (∀ a ∈ frames', a.shape = dims) →
          (∀ t < frames.length, ∀ x : Fin (size (dims ++ [1])), snapVal frames' t x = v t x) →
          ∀ mi c2 c3 s2 s3, IsRun c2 s2 → IsRun c3 s3 → PodWrites (PodFit.storedOf c o) dims n frames' mi c2 c3 s2 s3 a v) := by
  obtain ⟨o, Φ, e1, e2⟩ := pod_writes R solver lamV hs c1 s1 h1
  refine ⟨o, e1, fun hpos hdist => ?_⟩
  obtain ⟨k1, k0, k2⟩ := e2 hpos
  have hΦ := k0 rfl hdist
  refine ⟨podA Φ frames, podV Φ frames, k2 frames hfr hsh, fun t ht => ?_, fun frames' hl hsh' hval mi c2 c3 s2 s3 h2 h3 => ?_⟩
  · have e0 := vec_error Φ hΦ (fun x : Fin (size (dims ++ [1])) => snapVal frames t x - snapMean frames x)
      (Φᵀ *ᵥ fun x : Fin (size (dims ++ [1])) => snapVal frames t x - snapMean frames x)
    simp only [sub_self, ne_eq, OfNat.ofNat_ne_zero, not_false_eq_true, zero_pow, Finset.sum_const_zero, add_zero] at e0
    have h0 : 0 ≤ ∑ x : Fin (size (dims ++ [1])), (snapVal frames t x - snapMean frames x -
      (Φ *ᵥ (Φᵀ *ᵥ fun x : Fin (size (dims ++ [1])) => snapVal frames t x - snapMean frames x)) x) ^ 2 := Finset.sum_nonneg fun _ _ => sq_nonneg _
    rw [Finset.sum_range]
    have ha : ∀ j : Fin n, podA Φ frames j t = (Φᵀ *ᵥ fun x : Fin (size (dims ++ [1])) => snapVal frames t x - snapMean frames x) j := by
      intro j
      rw [podA_at Φ frames j ⟨t, ht⟩, pod_coeffs_eq]
      simp only [snapMean_eq]
      rfl
    rw [Finset.sum_congr rfl fun j _ => by rw [ha j]]
    linarith
  · have hfr' : frames' ≠ [] := by
      have := List.length_pos_iff.2 hfr
      exact List.length_pos_iff.1 (by omega)
    have hd : ∀ (x : Fin (size (dims ++ [1]))) (t : Fin frames'.length), podD frames' (dims ++ [1]) x t =
        Pod.reconstruct Φ (podD frames (dims ++ [1])) x (Fin.cast hl t) := by
      intro x t
      rw [← podV_at Φ frames (Fin.cast hl t) x]
      exact hval t (by have := t.2; omega) x
    have hgen : ∀ (m : Nat) (hm : m = frames.length) (D : Matrix (Fin (size (dims ++ [1]))) (Fin m) ℝ),
        (∀ x t, D x t = Pod.reconstruct Φ (podD frames (dims ++ [1])) x (Fin.cast hm t)) →
        (∀ j t, Pod.coeffsOp Φ D j t = Pod.coeffsOp Φ (podD frames (dims ++ [1])) j (Fin.cast hm t)) ∧
        ∀ x t, Pod.reconstruct Φ D x t = Pod.reconstruct Φ (podD frames (dims ++ [1])) x (Fin.cast hm t) := by
      rintro m rfl D hD
      obtain rfl : D = Pod.reconstruct Φ (podD frames (dims ++ [1])) := by ext x t; exact hD x t
      refine ⟨fun j t => by rw [pod_coeffs_again Φ hΦ]; rfl, fun x t => ?_⟩
      show (Φ * Pod.coeffsOp Φ _) x t + tMean _ x = (Φ * Pod.coeffsOp Φ _) x t + tMean _ x
      rw [pod_coeffs_again Φ hΦ, pod_reconstruct_mean]
    obtain ⟨q1, q2⟩ := hgen _ hl _ hd
    obtain ⟨G, rec, g1, g2, g3, g4, g5, g6⟩ := k2 frames' hfr' hsh' mi c2 c3 s2 s3 h2 h3
    refine ⟨G, rec, g1, g2, g3, g4, fun j hj t ht => ?_, fun t ht x => ?_⟩
    · rw [g5 j hj t ht, podA_at Φ frames' ⟨j, hj⟩ ⟨t, ht⟩, q1, ← podA_at]
      rfl
    · rw [g6 t ht x, podV_at Φ frames' ⟨t, ht⟩ x, q2, ← podV_at]
      rfl

/-! ### Cases that meet the hypotheses: modes of `(3, 6)`, `(4, 8)`; the snapshots `(1, 3)`, `(2, 5)` are projected -/

def otherFrames : List (Arr ℝ) := [⟨[2], fun idx => if idx = [0] then 1 else 3⟩, ⟨[2], fun idx => if idx = [0] then 2 else 5⟩]

theorem podLine_eigs : ∃ solver lamV, PodSolver solver lamV ∧ ∀ o, PodFit.podFit podOneCfg none solver (podPair 3 6 4 8) [none] none = some o →
    o.eigs = [125, 0] := by
  obtain ⟨solver, lamV, hs, hl⟩ := solver_with _ _ _ podLine_eig
  refine ⟨solver, lamV, hs, fun o h1 => ?_⟩
  have hfit := (podPairRun 3 6 4 8).fit solver (comms := [none]) (sched := none) (Or.inl ⟨rfl, rfl⟩)
  rw [h1] at hfit
  have : o.eigs = List.ofFn (solver 2 (!![45, 60; 60, 80])).1 := by
    rw [Option.some.inj hfit, ← podLine_corr]; rfl
  rw [this, hs.real, hl]
  simp [List.ofFn_succ]

/-- the fitted snapshots satisfy `2 q₀ - q₁ = 0`, the projected ones `2 q₀ - q₁ = -1`, and so do their reconstructions, on any numbers of ranks -/
example : ∃ solver o, PodFit.podFit podOneCfg none solver (podPair 3 6 4 8) [none] none = some o ∧
    ∃ a v, (∀ mi c2 c3 s2 s3, IsRun c2 s2 → IsRun c3 s3 → PodWrites (PodFit.storedOf podOneCfg o) [2] 1 otherFrames mi c2 c3 s2 s3 a v) ∧
      ∀ t < 2, ∑ x : Fin (size ([2] ++ [1])), (![2, -1] : Fin 2 → ℝ) x * v t x = -1 := by
  obtain ⟨solver, lamV, hs, he⟩ := podLine_eigs
  have e : ∀ g : Fin 2 → ℝ, ∑ x : Fin (size ([2] ++ [1])), g x = g 0 + g 1 := fun g => Fin.sum_univ_two g
  obtain ⟨o, h1, h2⟩ := pod_workflow_constraint (podPairRun 3 6 4 8) solver lamV hs [none] none (Or.inl ⟨rfl, rfl⟩) (![2, -1] : Fin 2 → ℝ) 0 (-1) (fun _ => rfl) (by
    intro t ht
    have ht : t < 2 := ht
    rw [e fun x => (![2, -1] : Fin 2 → ℝ) x * podAt (podPair 3 6 4 8) t x.1]
    have p := podPair_at 3 6 4 8
    have : t = 0 ∨ t = 1 := by omega
    rcases this with rfl | rfl
    · show 2 * podAt (podPair 3 6 4 8) 0 0 + -1 * podAt (podPair 3 6 4 8) 0 1 = 0
      rw [p.1, p.2.1]; norm_num
    · show 2 * podAt (podPair 3 6 4 8) 1 0 + -1 * podAt (podPair 3 6 4 8) 1 1 = 0
      rw [p.2.2.1, p.2.2.2]; norm_num) otherFrames (by simp [otherFrames]) (by simp [otherFrames]) (by
    intro t ht
    have ht : t < 2 := ht
    rw [e fun x => (![2, -1] : Fin 2 → ℝ) x * snapVal otherFrames t x.1]
    have : t = 0 ∨ t = 1 := by omega
    rcases this with rfl | rfl <;> norm_num [snapVal, otherFrames, flat, unravel, size])
  obtain ⟨a, v, g1, g2⟩ := h2 (by
    intro j hj
    have : j = 0 := by omega
    subst this
    rw [he o h1]; norm_num)
  exact ⟨solver, o, h1, a, v, g1, g2⟩

/-- C223 and C224 for the same data: the hypotheses hold -/
example : ∃ solver o, PodFit.podFit podOneCfg none solver (podPair 3 6 4 8) [none] none = some o ∧ (∀ j < 1, 0 < (o.eigs.getD j 0).re) ∧
    (∀ i < 1, ∀ j < 1, o.eigs.getD i 0 = o.eigs.getD j 0 → i = j) ∧
    ∃ a v, (∀ mi c2 c3 s2 s3, IsRun c2 s2 → IsRun c3 s3 → PodWrites (PodFit.storedOf podOneCfg o) [2] 1 otherFrames mi c2 c3 s2 s3 a v) ∧
      ∀ j < 1, ∑ t ∈ Finset.range 2, a j t = 0 := by
  obtain ⟨solver, lamV, hs, he⟩ := podLine_eigs
  obtain ⟨o, h1, h2⟩ := pod_coeffs_zero_mean (podPairRun 3 6 4 8) solver lamV hs [none] none (Or.inl ⟨rfl, rfl⟩) otherFrames (by simp [otherFrames]) (by simp [otherFrames])
  have hp : ∀ j < 1, 0 < (o.eigs.getD j 0).re := by
    intro j hj
    have : j = 0 := by omega
    subst this
    rw [he o h1]; norm_num
  obtain ⟨a, v, g1, g2, -⟩ := h2 hp
  exact ⟨solver, o, h1, hp, fun i hi j hj _ => by omega, a, v, g1, g2⟩

end Verif.Props
