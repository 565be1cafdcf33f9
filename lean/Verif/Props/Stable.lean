import Verif.Props.Best
/-
  C203, C204: the energy of a reconstruction, for every tolerance of the pseudo-inverse (pyspod/spod/utils.py:155-172, 540-551, 576-608).
-/
set_option linter.unusedVariables false
set_option linter.unusedSectionVars false
namespace Verif.Props
open Verif Verif.Par Verif.Fit Verif.Proj Matrix

section
variable {X m T : Type} [Fintype X] [Fintype m] [DecidableEq X] [DecidableEq m] [Fintype T]

theorem lInv_real (tol : ℝ) (l : m → ℝ) (i : m) : star (Coef.lInv tol l i) = Coef.lInv tol l i := by
  unfold Coef.lInv
  split
  · rw [Complex.star_def, map_div₀, map_one, Complex.conj_ofReal]
  · exact star_zero _

/-- the pseudo-inverse of a Hermitian matrix is Hermitian, whatever is cut -/
theorem mInv_hermitian {M U V : Matrix m m ℂ} {l : m → ℝ} (h : Coef.IsSvd M U l V) (hM : Mᴴ = M) (tol : ℝ) :
    (Coef.mInv tol U l V)ᴴ = Coef.mInv tol U l V := by
  have h' : Coef.IsSvd M V l U := by
    refine ⟨h.right, h.left, h.nonneg, ?_⟩
    have hd : (diagonal fun i => (l i : ℂ))ᴴ = diagonal fun i => (l i : ℂ) := by
      rw [diagonal_conjTranspose]
      congr 1
      funext i
      exact Complex.conj_ofReal _
    rw [← hM, h.factor, conjTranspose_mul, conjTranspose_mul, conjTranspose_conjTranspose, hd, Matrix.mul_assoc]
  refine Eq.trans ?_ (mInv_unique h h' tol).symm
  unfold Coef.mInv
  have hd : (diagonal (Coef.lInv tol l))ᴴ = diagonal (Coef.lInv tol l) := by
    rw [diagonal_conjTranspose]
    congr 1
    funext i
    exact lInv_real tol l i
  rw [conjTranspose_mul, conjTranspose_mul, conjTranspose_conjTranspose, hd, Matrix.mul_assoc]

theorem mInv_mul_mInv {M U V : Matrix m m ℂ} {l : m → ℝ} (h : Coef.IsSvd M U l V) (tol : ℝ) (ht : 0 ≤ tol) :
    Coef.mInv tol U l V * M * Coef.mInv tol U l V = Coef.mInv tol U l V := by
  have hd : diagonal (Coef.lInv tol l) * diagonal (fun i => (l i : ℂ)) * diagonal (Coef.lInv tol l) = diagonal (Coef.lInv tol l) := by
    rw [diagonal_mul_diagonal, diagonal_mul_diagonal]
    congr 1
    funext i
    unfold Coef.lInv
    split
    · rename_i hi
      have : (l i : ℂ) ≠ 0 := by
        intro h0
        have h0 : l i = 0 := by exact_mod_cast h0
        have : 0 ≤ tol * (⨆ j, l j) := mul_nonneg ht (Real.iSup_nonneg h.nonneg)
        rw [h0] at hi
        linarith
      field_simp
    · simp
  rw [h.factor]
  unfold Coef.mInv
  calc _ = V * (diagonal (Coef.lInv tol l) * ((Uᴴ * U) * diagonal (fun i => (l i : ℂ))) * ((Vᴴ * V) * diagonal (Coef.lInv tol l))) * Uᴴ := by
        simp only [Matrix.mul_assoc]
    _ = V * (diagonal (Coef.lInv tol l) * diagonal (fun i => (l i : ℂ)) * diagonal (Coef.lInv tol l)) * Uᴴ := by
        rw [h.left, h.right, Matrix.one_mul, Matrix.one_mul]
    _ = _ := by rw [hd]

theorem mMat_hermitian (Φ : Matrix X m ℂ) (w : X → ℝ) : (Coef.mMat Φ w)ᴴ = Coef.mMat Φ w := by
  have hd : (diagonal fun i => (w i : ℂ))ᴴ = diagonal fun i => (w i : ℂ) := by
    rw [diagonal_conjTranspose]
    congr 1
    funext i
    exact Complex.conj_ofReal _
  unfold Coef.mMat
  rw [conjTranspose_mul, conjTranspose_mul, conjTranspose_conjTranspose, hd, Matrix.mul_assoc]

/-- the reconstruction of fluctuations `d` -/
noncomputable def projected (Φ : Matrix X m ℂ) (w : X → ℝ) (tol : ℝ) (U V : Matrix m m ℂ) (l : m → ℝ) (d : Matrix X T ℂ) : Matrix X T ℂ :=
  Φ * (Coef.mInv tol U l V * Coef.qMat Φ w d)

theorem projected_sub (Φ : Matrix X m ℂ) (w : X → ℝ) (tol : ℝ) (U V : Matrix m m ℂ) (l : m → ℝ) (d e : Matrix X T ℂ) :
    projected Φ w tol U V l (d - e) = projected Φ w tol U V l d - projected Φ w tol U V l e := by
  unfold projected Coef.qMat
  simp only [Matrix.mul_sub]

/-- the error is orthogonal to the reconstruction -/
theorem projected_orthogonal (Φ : Matrix X m ℂ) (w : X → ℝ) (tol : ℝ) (ht : 0 ≤ tol) (U V : Matrix m m ℂ) (l : m → ℝ) (h : Coef.IsSvd (Coef.mMat Φ w) U l V)
    (d : Matrix X T ℂ) (t : T) : ∑ x, (w x : ℂ) * (star (projected Φ w tol U V l d x t) * (d x t - projected Φ w tol U V l d x t)) = 0 := by
  set P := projected Φ w tol U V l d with hP
  set N := Coef.mInv tol U l V with hN
  have hH : Nᴴ = N := mInv_hermitian h (mMat_hermitian Φ w) tol
  have hI : N * Coef.mMat Φ w * N = N := mInv_mul_mInv h tol ht
  have e0 : Coef.qMat Φ w (d - P) = Coef.qMat Φ w d - Coef.mMat Φ w * (N * Coef.qMat Φ w d) := by
    rw [hP]
    unfold projected Coef.qMat Coef.mMat
    simp only [Matrix.mul_sub, Matrix.mul_assoc, hN]
  have e1 : Pᴴ * (diagonal (fun i => (w i : ℂ)) * (d - P)) = 0 := by
    calc _ = (N * Coef.qMat Φ w d)ᴴ * Coef.qMat Φ w (d - P) := by
          rw [hP]; unfold projected
          rw [conjTranspose_mul, Matrix.mul_assoc]; rfl
      _ = (Coef.qMat Φ w d)ᴴ * (N * Coef.qMat Φ w d - (N * Coef.mMat Φ w * N) * Coef.qMat Φ w d) := by
          rw [e0, conjTranspose_mul, hH, Matrix.mul_assoc, Matrix.mul_sub]
          simp only [Matrix.mul_assoc]
      _ = 0 := by rw [hI, sub_self, Matrix.mul_zero]
  have e2 := congrFun (congrFun e1 t) t
  rw [Matrix.mul_apply, Matrix.zero_apply] at e2
  rw [← e2]
  refine Finset.sum_congr rfl fun x _ => ?_
  rw [conjTranspose_apply, diagonal_mul, Matrix.sub_apply]
  ring

/-- the energy of fluctuations splits into that of their reconstruction and that of the error -/
theorem projected_energy (Φ : Matrix X m ℂ) (w : X → ℝ) (tol : ℝ) (ht : 0 ≤ tol) (U V : Matrix m m ℂ) (l : m → ℝ) (h : Coef.IsSvd (Coef.mMat Φ w) U l V)
    (d : Matrix X T ℂ) (t : T) : sqDist w (col d t) 0 = sqDist w (col d t) (col (projected Φ w tol U V l d) t) + sqDist w (col (projected Φ w tol U V l d) t) 0 := by
  refine sqDist_pythagoras w _ _ _ ?_
  simp only [Pi.zero_apply, sub_zero]
  exact projected_orthogonal Φ w tol ht U V l h d t

theorem reconstruct_projected (Φ : Matrix X m ℂ) (w : X → ℝ) (tol : ℝ) (U V : Matrix m m ℂ) (l : m → ℝ) (D : Matrix X T ℂ) (x : X) (t : T) :
    Coef.reconstruct Φ (Coef.coeffs Φ w D tol U l V) (Coef.ltMean D) x t = projected Φ w tol U V l (Coef.centred D) x t + Coef.ltMean D x := rfl

theorem sqDist_congr (w : X → ℝ) (u v u' v' : X → ℂ) (h : ∀ x, u x - v x = u' x - v' x) : sqDist w u v = sqDist w u' v' := by
  unfold sqDist
  exact Finset.sum_congr rfl fun x _ => by rw [h x]

/-- the energy of a snapshot about the mean -/
theorem reconstruct_energy (Φ : Matrix X m ℂ) (w : X → ℝ) (tol : ℝ) (ht : 0 ≤ tol) (U V : Matrix m m ℂ) (l : m → ℝ) (h : Coef.IsSvd (Coef.mMat Φ w) U l V)
    (D : Matrix X T ℂ) (t : T) : sqDist w (col D t) (Coef.ltMean D) = sqDist w (col (Coef.reconstruct Φ (Coef.coeffs Φ w D tol U l V) (Coef.ltMean D)) t) (Coef.ltMean D) +
      sqDist w (col D t) (col (Coef.reconstruct Φ (Coef.coeffs Φ w D tol U l V) (Coef.ltMean D)) t) := by
  have key := projected_energy Φ w tol ht U V l h (Coef.centred D) t
  rw [add_comm] at key
  refine Eq.trans (sqDist_congr _ _ _ _ _ fun x => ?_) (key.trans (congrArg₂ (· + ·) (sqDist_congr _ _ _ _ _ fun x => ?_) (sqDist_congr _ _ _ _ _ fun x => ?_)))
  · simp only [col, Pi.zero_apply, sub_zero, Coef.centred, Matrix.of_apply]
  · simp only [col, Pi.zero_apply, sub_zero, reconstruct_projected]
    ring
  · simp only [col, reconstruct_projected]
    simp only [Coef.centred, Matrix.of_apply]
    ring

/-- sums over time of fluctuations about their mean and of the mean -/
theorem energy_about_mean {n : Nat} (w : X → ℝ) (p : Matrix X (Fin n) ℂ) (hp : ∀ x, ∑ t, p x t = 0) (g : X → ℂ) :
    ∑ t, sqDist w (fun x => p x t + g x) 0 = ∑ t, sqDist w (col p t) 0 + n * sqDist w g 0 := by
  have key : ∀ x, ∑ t, ‖p x t + g x‖ ^ 2 = ∑ t, ‖p x t‖ ^ 2 + n * ‖g x‖ ^ 2 := by
    intro x
    have e : ∀ t, ‖p x t + g x‖ ^ 2 = ‖p x t‖ ^ 2 + ‖g x‖ ^ 2 + 2 * (p x t * star (g x)).re := by
      intro t
      rw [← Complex.normSq_eq_norm_sq, ← Complex.normSq_eq_norm_sq, ← Complex.normSq_eq_norm_sq, Complex.normSq_add]
      rfl
    rw [Finset.sum_congr rfl fun t _ => e t, Finset.sum_add_distrib, Finset.sum_add_distrib, ← Finset.mul_sum, ← Complex.re_sum, ← Finset.sum_mul, hp x]
    simp
  unfold sqDist
  simp only [Pi.zero_apply, sub_zero, col]
  rw [Finset.sum_comm, Finset.sum_congr rfl fun x _ => (Finset.mul_sum _ _ _).symm, Finset.sum_congr rfl fun x _ => by rw [key x], Finset.sum_comm (s := Finset.univ (α := Fin n)),
    Finset.mul_sum, ← Finset.sum_add_distrib]
  refine Finset.sum_congr rfl fun x _ => ?_
  rw [← Finset.mul_sum]
  ring

theorem centred_sum {n : Nat} (hn : 0 < n) (D : Matrix X (Fin n) ℂ) (x : X) : ∑ t, Coef.centred D x t = 0 := by
  have hc : (n : ℂ) ≠ 0 := by exact_mod_cast hn.ne'
  simp only [Coef.centred, Matrix.of_apply, Finset.sum_sub_distrib, Coef.ltMean, Finset.sum_const, Finset.card_univ, nsmul_eq_mul, Fintype.card_fin]
  rw [mul_div_cancel₀ _ hc, sub_self]

theorem projected_sum {n : Nat} (Φ : Matrix X m ℂ) (w : X → ℝ) (tol : ℝ) (U V : Matrix m m ℂ) (l : m → ℝ) (d : Matrix X (Fin n) ℂ) (h : ∀ x, ∑ t, d x t = 0) (x : X) :
    ∑ t, projected Φ w tol U V l d x t = 0 := by
  have e : projected Φ w tol U V l d = (Φ * (Coef.mInv tol U l V * (Φᴴ * diagonal fun i => (w i : ℂ)))) * d := by
    unfold projected Coef.qMat
    simp only [Matrix.mul_assoc]
  rw [e]
  simp only [Matrix.mul_apply (N := d)]
  rw [Finset.sum_comm]
  refine Finset.sum_eq_zero fun y _ => ?_
  rw [← Finset.mul_sum, h y, mul_zero]

/-- the differences of two reconstructions -/
theorem reconstruct_stable {n n' : Nat} (hn' : n' = n) (hn : 0 < n) (Φ : Matrix X m ℂ) (w : X → ℝ) (hw : ∀ x, 0 ≤ w x) (tol : ℝ) (ht : 0 ≤ tol) (U V : Matrix m m ℂ) (l : m → ℝ)
    (h : Coef.IsSvd (Coef.mMat Φ w) U l V) (D : Matrix X (Fin n) ℂ) (D' : Matrix X (Fin n') ℂ) :
    let R := Coef.reconstruct Φ (Coef.coeffs Φ w D tol U l V) (Coef.ltMean D)
    let R' := Coef.reconstruct Φ (Coef.coeffs Φ w D' tol U l V) (Coef.ltMean D')
    (∀ t : Fin n', sqDist w (fun x => R x (Fin.cast hn' t) - Coef.ltMean D x) (fun x => R' x t - Coef.ltMean D' x) ≤
      sqDist w (fun x => D x (Fin.cast hn' t) - Coef.ltMean D x) (fun x => D' x t - Coef.ltMean D' x)) ∧
    ∑ t : Fin n', sqDist w (col R (Fin.cast hn' t)) (col R' t) ≤ ∑ t : Fin n', sqDist w (col D (Fin.cast hn' t)) (col D' t) := by
  subst hn'
  intro R R'
  set d := Coef.centred D - Coef.centred D' with hd
  have key := projected_energy Φ w tol ht U V l h d
  have hs : ∀ x t, projected Φ w tol U V l d x t = projected Φ w tol U V l (Coef.centred D) x t - projected Φ w tol U V l (Coef.centred D') x t := by
    intro x t
    rw [hd, projected_sub, Matrix.sub_apply]
  have hle : ∀ t, sqDist w (col (projected Φ w tol U V l d) t) 0 ≤ sqDist w (col d t) 0 := by
    intro t
    rw [key t]
    exact le_add_of_nonneg_left (sqDist_nonneg w hw _ _)
  have hd0 : ∀ x, ∑ t, d x t = 0 := by
    intro x
    simp only [hd, Matrix.sub_apply, Finset.sum_sub_distrib, centred_sum hn, sub_zero]
  refine ⟨fun t => ?_, ?_⟩
  · refine le_trans (le_of_eq (sqDist_congr _ _ _ _ _ fun x => ?_)) ((hle t).trans (le_of_eq (sqDist_congr _ _ _ _ _ fun x => ?_)))
    · simp only [R, R', reconstruct_projected, col, Pi.zero_apply, sub_zero, hs, Fin.cast_eq_self]
      ring
    · simp only [col, hd, Matrix.sub_apply, Coef.centred, Matrix.of_apply, Pi.zero_apply, sub_zero, Fin.cast_eq_self]
  · have e1 := energy_about_mean w (projected Φ w tol U V l d) (projected_sum Φ w tol U V l d hd0) (fun x => Coef.ltMean D x - Coef.ltMean D' x)
    have e2 := energy_about_mean w d hd0 (fun x => Coef.ltMean D x - Coef.ltMean D' x)
    have f1 : ∀ t, sqDist w (col R (Fin.cast rfl t)) (col R' t) = sqDist w (fun x => projected Φ w tol U V l d x t + (Coef.ltMean D x - Coef.ltMean D' x)) 0 := fun t =>
      sqDist_congr _ _ _ _ _ fun x => by
        simp only [R, R', reconstruct_projected, col, Pi.zero_apply, sub_zero, hs, Fin.cast_eq_self]
        ring
    have f2 : ∀ t, sqDist w (col D (Fin.cast rfl t)) (col D' t) = sqDist w (fun x => d x t + (Coef.ltMean D x - Coef.ltMean D' x)) 0 := fun t =>
      sqDist_congr _ _ _ _ _ fun x => by
        simp only [col, hd, Matrix.sub_apply, Coef.centred, Matrix.of_apply, Pi.zero_apply, sub_zero, Fin.cast_eq_self]
        ring
    rw [Finset.sum_congr rfl fun t _ => f1 t, Finset.sum_congr rfl fun t _ => f2 t, e1, e2]
    have := Finset.sum_le_sum fun t (_ : t ∈ Finset.univ) => hle t
    linarith

end

/-- **C203.** Every results folder with any weights, every data set and every tolerance that is not negative; `compute_coeffs_op` and `compute_reconstruction(time_idx='all')` on any
    numbers of ranks: at each time the energy of the snapshot about the mean is the energy of its reconstruction about the mean plus the energy of the error. -/
theorem reconstruction_energy (S : Stored) (o : Opts) (svd : Svd)
    (hsvd : ∀ k M, Coef.IsSvd M (svd k M).1 (svd k M).2.1 (svd k M).2.2)
    (frames : List (Arr ℝ)) (b : Coef.Band) (dims sh : List Nat) (h : Ready S o frames b dims sh) (htol : 0 ≤ o.tol)
    (comms comms' : List Comm) (sched sched' : Sched) (hrun : IsRun comms sched) (hrun' : IsRun comms' sched') :
    ∃ G R, project S o svd frames comms sched = some G ∧
      reconstruct G none (.str "all") comms' sched' = some (npSave (timeArr sh R)) ∧
      ∀ t, sqDist (specWt S sh) (col (specD frames sh) t) (Coef.ltMean (specD frames sh)) =
        sqDist (specWt S sh) (col R t) (Coef.ltMean (specD frames sh)) + sqDist (specWt S sh) (col (specD frames sh) t) (col R t) := by
  obtain ⟨G, h1, -, h3⟩ := project_reconstruct S o svd frames b dims sh h.band h.len h.sel h.fits h.some_ h.dim h.modes h.pos
    comms comms' sched sched' hrun hrun'
  exact ⟨G, _, h1, h3, fun t => reconstruct_energy _ _ _ htol _ _ _ (hsvd _ _) _ t⟩

/-- **C204.** Two data sets of the same length; any tolerance and numbers of ranks: about the means, reconstructed snapshots are nowhere farther apart (in the weighted norm) than the
    snapshots, and summed over time the reconstructions differ by no more than the data. -/
theorem reconstruction_stable (S : Stored) (o : Opts) (svd : Svd)
    (hsvd : ∀ k M, Coef.IsSvd M (svd k M).1 (svd k M).2.1 (svd k M).2.2)
    (frames frames' : List (Arr ℝ)) (b : Coef.Band) (dims sh : List Nat) (h : Ready S o frames b dims sh) (hsn : ∀ a ∈ frames', a.shape = dims)
    (hn : frames'.length = frames.length) (hw : ∀ i, 0 ≤ specWt S sh i) (htol : 0 ≤ o.tol)
    (comms comms' : List Comm) (sched sched' : Sched) (hrun : IsRun comms sched) (hrun' : IsRun comms' sched') :
    ∃ G G' R R', project S o svd frames comms sched = some G ∧ project S o svd frames' comms' sched' = some G' ∧
      reconstruct G none (.str "all") comms sched = some (npSave (timeArr sh R)) ∧
      reconstruct G' none (.str "all") comms' sched' = some (npSave (timeArr sh R')) ∧
      (∀ t : Fin frames'.length,
        sqDist (specWt S sh) (fun x => R x (Fin.cast hn t) - Coef.ltMean (specD frames sh) x) (fun x => R' x t - Coef.ltMean (specD frames' sh) x) ≤
        sqDist (specWt S sh) (fun x => specD frames sh x (Fin.cast hn t) - Coef.ltMean (specD frames sh) x) (fun x => specD frames' sh x t - Coef.ltMean (specD frames' sh) x)) ∧
      ∑ t : Fin frames'.length, sqDist (specWt S sh) (col R (Fin.cast hn t)) (col R' t) ≤
        ∑ t : Fin frames'.length, sqDist (specWt S sh) (col (specD frames sh) (Fin.cast hn t)) (col (specD frames' sh) t) := by
  have hpos : 0 < frames.length := List.length_pos_iff.2 h.some_
  have h' : Ready S o frames' b dims sh := ⟨h.band, h.len, h.sel, ⟨h.fits.weights, hsn, h.fits.axis, h.fits.modes⟩, by
    intro h0
    rw [h0] at hn
    simp at hn
    omega, h.dim, h.modes, h.pos⟩
  obtain ⟨G, h1, -, h3⟩ := project_reconstruct S o svd frames b dims sh h.band h.len h.sel h.fits h.some_ h.dim h.modes h.pos
    comms comms sched sched hrun hrun
  obtain ⟨G', h1', -, h3'⟩ := project_reconstruct S o svd frames' b dims sh h'.band h'.len h'.sel h'.fits h'.some_ h'.dim h'.modes h'.pos
    comms' comms' sched' sched' hrun' hrun'
  have key := reconstruct_stable hn hpos (selPhi S b sh) (specWt S sh) hw o.tol htol _ _ _ (hsvd _ (Coef.mMat (selPhi S b sh) (specWt S sh))) (specD frames sh) (specD frames' sh)
  exact ⟨G, G', _, _, h1, h1', h3, h3', key.1, key.2⟩

/-! ### Cases that meet the hypotheses -/

/-- `reconstruction_energy` and `reconstruction_stable`: two modes at an angle, some tolerance that may cut, on one and on three ranks -/
example (c s : ℝ) (svd : Svd) (hsvd : ∀ k M, Coef.IsSvd M (svd k M).1 (svd k M).2.1 (svd k M).2.2) :
    ∃ G R, project (texStored c s) (texAll (1 / 10)) svd texFrames [none] none = some G ∧
      reconstruct G none (.str "all") (ranksOf 3) (some fun _ l => l) = some (npSave (timeArr [2, 1] R)) ∧
      ∀ t, sqDist (specWt (texStored c s) [2, 1]) (col (specD texFrames [2, 1]) t) (Coef.ltMean (specD texFrames [2, 1])) =
        sqDist (specWt (texStored c s) [2, 1]) (col R t) (Coef.ltMean (specD texFrames [2, 1])) +
        sqDist (specWt (texStored c s) [2, 1]) (col (specD texFrames [2, 1]) t) (col R t) :=
  reconstruction_energy _ _ svd hsvd _ _ _ _ (tex_ready_all c s (1 / 10)) (by norm_num [texAll]) _ _ _ _ (Or.inl ⟨rfl, rfl⟩)
    (Or.inr ⟨3, _, by omega, fun _ _ => List.Perm.refl _, rfl, rfl⟩)

example (c s : ℝ) (svd : Svd) (hsvd : ∀ k M, Coef.IsSvd M (svd k M).1 (svd k M).2.1 (svd k M).2.2) : ∃ G G' : Folder,
    project (texStored c s) (texAll (1 / 10)) svd texFrames [none] none = some G ∧
      project (texStored c s) (texAll (1 / 10)) svd texFrames.reverse (ranksOf 3) (some fun _ l => l) = some G' ∧
      ∃ R : Matrix (Fin (size [2, 1])) (Fin 2) ℂ, reconstruct G none (.str "all") [none] none = some (npSave (timeArr [2, 1] R)) := by
  obtain ⟨G, G', R, R', h1, h2, h3, -⟩ := reconstruction_stable _ _ svd hsvd texFrames texFrames.reverse _ _ _ (tex_ready_all c s (1 / 10)) (by simp [texFrames]) (by simp [texFrames])
    (fun i => by rw [tex_wt]; exact zero_le_one) (by norm_num [texAll]) _ _ _ _ (Or.inl ⟨rfl, rfl⟩) (Or.inr ⟨3, _, by omega, fun _ _ => List.Perm.refl _, rfl, rfl⟩)
  exact ⟨G, G', h1, h2, R, h3⟩

end Verif.Props
