import Verif.Props.SvdFree
/-
  Projection and reconstruction as a best approximation: the reconstruction is the closest combination of the selected modes, more
  frequencies never make it worse, projecting it again changes nothing, and coefficients and reconstruction follow an affine change
  and a reordering of the data.
-/
set_option linter.unusedVariables false
set_option linter.unusedSectionVars false
namespace Verif.Props
open Verif Verif.Par Verif.Fit Verif.Proj Matrix

/-! ### Specification -/

/-- weighted squared distance of two fields -/
noncomputable def sqDist {X : Type} [Fintype X] (w : X → ℝ) (u v : X → ℂ) : ℝ := ∑ i, w i * ‖u i - v i‖ ^ 2

/-- mean field plus the combination `b` of the columns of `Φ` -/
def combo {X m : Type} [Fintype m] (mean : X → ℂ) (Φ : Matrix X m ℂ) (b : m → ℂ) : X → ℂ := fun i => mean i + (Φ *ᵥ b) i

/-- snapshot `t` -/
def col {X T : Type} (D : Matrix X T ℂ) (t : T) : X → ℂ := fun i => D i t

section Matrices
variable {X m T : Type} [Fintype X] [Fintype m] [DecidableEq X] [DecidableEq m] [Fintype T]

theorem sqDist_nonneg (w : X → ℝ) (hw : ∀ i, 0 ≤ w i) (u v : X → ℂ) : 0 ≤ sqDist w u v :=
  Finset.sum_nonneg fun i _ => mul_nonneg (hw i) (by positivity)

theorem sqDist_self (w : X → ℝ) (u : X → ℂ) : sqDist w u u = 0 := by simp [sqDist]

/-- a vector of the kernel of `Φᴴ W Φ` is mapped to a field that vanishes wherever the weight does not -/
theorem ker_gram (Φ : Matrix X m ℂ) (w : X → ℝ) (hw : ∀ i, 0 ≤ w i) (v : m → ℂ) (h : Coef.mMat Φ w *ᵥ v = 0) (x : X) :
    (w x : ℂ) * (Φ *ᵥ v) x = 0 := by
  have hq : ∑ x, (w x : ℂ) * (star ((Φ *ᵥ v) x) * (Φ *ᵥ v) x) = 0 := by
    have h1 : star v ⬝ᵥ (Coef.mMat Φ w *ᵥ v) = 0 := by rw [h]; simp
    unfold Coef.mMat at h1
    rw [← Matrix.mulVec_mulVec, Matrix.dotProduct_mulVec, ← Matrix.star_mulVec, ← Matrix.mulVec_mulVec] at h1
    simp only [dotProduct, Matrix.mulVec_diagonal, Pi.star_apply] at h1
    rw [← h1]
    exact Finset.sum_congr rfl fun x _ => by ring
  have hreal : ∑ x, w x * Complex.normSq ((Φ *ᵥ v) x) = 0 := by
    have e : ∀ x, (w x : ℂ) * (star ((Φ *ᵥ v) x) * (Φ *ᵥ v) x) = ((w x * Complex.normSq ((Φ *ᵥ v) x) : ℝ) : ℂ) := by
      intro x
      rw [Complex.ofReal_mul, Complex.normSq_eq_conj_mul_self]; rfl
    rw [Finset.sum_congr rfl fun x _ => e x, ← Complex.ofReal_sum] at hq
    exact_mod_cast hq
  have := (Finset.sum_eq_zero_iff_of_nonneg
    (fun x _ => mul_nonneg (hw x) (Complex.normSq_nonneg ((Φ *ᵥ v) x)))).1 hreal x (Finset.mem_univ x)
  rcases mul_eq_zero.1 this with h' | h'
  · rw [h']; simp
  · rw [Complex.normSq_eq_zero.1 h', mul_zero]

/-- the cut-off only drops singular values that are zero -/
def KeepsAll {m : Type} (tol : ℝ) (l : m → ℝ) : Prop := ∀ i, l i ≠ 0 → tol * (⨆ j, l j) < l i

theorem keepsAll_zero {M U V : Matrix m m ℂ} {l : m → ℝ} (h : Coef.IsSvd M U l V) : KeepsAll 0 l := by
  intro i hi
  rw [zero_mul]
  exact lt_of_le_of_ne (h.nonneg i) (Ne.symm hi)

/-- the residual of the fluctuations is orthogonal to every mode, for dependent modes too -/
theorem residual_orthogonal (Φ : Matrix X m ℂ) (w : X → ℝ) (hw : ∀ i, 0 ≤ w i) (d : Matrix X T ℂ) (tol : ℝ) (ht : 0 ≤ tol)
    (U V : Matrix m m ℂ) (l : m → ℝ) (h : Coef.IsSvd (Coef.mMat Φ w) U l V) (hk : KeepsAll tol l) :
    Coef.qMat Φ w (d - Φ * (Coef.mInv tol U l V * Coef.qMat Φ w d)) = 0 := by
  have e : Coef.qMat Φ w (d - Φ * (Coef.mInv tol U l V * Coef.qMat Φ w d)) =
      Coef.qMat Φ w d - Coef.mMat Φ w * (Coef.mInv tol U l V * Coef.qMat Φ w d) := by
    rw [← qMat_mul]; unfold Coef.qMat; simp only [Matrix.mul_sub]
  have hU : U * Uᴴ = 1 := mul_eq_one_comm.1 h.left
  -- it is enough to compare in the basis of the columns of U
  have hz : Uᴴ * (Coef.qMat Φ w d - Coef.mMat Φ w * (Coef.mInv tol U l V * Coef.qMat Φ w d)) = 0 := by
    have hd : Matrix.diagonal (fun i => (l i : ℂ)) * Matrix.diagonal (Coef.lInv tol l) =
        Matrix.diagonal fun i => if l i = 0 then (0 : ℂ) else 1 := by
      rw [Matrix.diagonal_mul_diagonal]
      congr 1
      funext i
      by_cases h0 : l i = 0
      · simp [h0]
      · have hne : (l i : ℂ) ≠ 0 := by exact_mod_cast h0
        simp only [Coef.lInv, gt_iff_lt, if_pos (hk i h0), if_neg h0]
        field_simp
    have hM : Uᴴ * (Coef.mMat Φ w * (Coef.mInv tol U l V * Coef.qMat Φ w d)) =
        (Matrix.diagonal fun i => if l i = 0 then (0 : ℂ) else 1) * (Uᴴ * Coef.qMat Φ w d) := by
      have : Uᴴ * (Coef.mMat Φ w * (Coef.mInv tol U l V * Coef.qMat Φ w d)) =
          (Uᴴ * U) * Matrix.diagonal (fun i => (l i : ℂ)) * (Vᴴ * V) * Matrix.diagonal (Coef.lInv tol l) *
            (Uᴴ * Coef.qMat Φ w d) := by
        rw [h.factor]; unfold Coef.mInv; simp only [Matrix.mul_assoc]
      rw [this, h.left, h.right, Matrix.one_mul, Matrix.mul_one, hd]
    rw [Matrix.mul_sub, hM]
    ext i t
    rw [Matrix.sub_apply, Matrix.diagonal_mul]
    by_cases h0 : l i = 0
    · rw [if_pos h0, zero_mul, sub_zero]
      -- column i of U is in the kernel of the Gram matrix
      have hMH : Coef.mMat Φ w = V * Matrix.diagonal (fun i => (l i : ℂ)) * Uᴴ := by
        have h1 : (Coef.mMat Φ w)ᴴ = Coef.mMat Φ w := by
          unfold Coef.mMat
          rw [Matrix.conjTranspose_mul, Matrix.conjTranspose_mul, Matrix.conjTranspose_conjTranspose,
            Matrix.diagonal_conjTranspose, Matrix.mul_assoc]
          congr 3
          funext x
          simp
        rw [← h1, h.factor, Matrix.conjTranspose_mul, Matrix.conjTranspose_mul, Matrix.conjTranspose_conjTranspose,
            Matrix.diagonal_conjTranspose, Matrix.mul_assoc]
        congr 3
        funext x
        simp
      have hker : Coef.mMat Φ w *ᵥ (fun j => U j i) = 0 := by
        have e1 : (fun j => U j i) = U *ᵥ (Pi.single i 1) := by funext j; simp
        rw [e1, Matrix.mulVec_mulVec, hMH, Matrix.mul_assoc, h.left, Matrix.mul_one, ← Matrix.mulVec_mulVec]
        have : Matrix.diagonal (fun i => (l i : ℂ)) *ᵥ (Pi.single i 1) = 0 := by
          funext j
          rw [Matrix.mulVec_diagonal]
          by_cases hj : j = i
          · subst hj; simp [h0]
          · simp [hj]
        rw [this, Matrix.mulVec_zero]
      have hz := ker_gram Φ w hw _ hker
      have e2 : (Uᴴ * Coef.qMat Φ w d) i t = ∑ x, star ((w x : ℂ) * (Φ *ᵥ fun j => U j i) x) * d x t := by
        have : Uᴴ * Coef.qMat Φ w d = (Φ * U)ᴴ * (Matrix.diagonal (fun i => (w i : ℂ)) * d) := by
          unfold Coef.qMat; rw [Matrix.conjTranspose_mul, Matrix.mul_assoc]
        rw [this, Matrix.mul_apply]
        refine Finset.sum_congr rfl fun x _ => ?_
        rw [Matrix.conjTranspose_apply, Matrix.diagonal_mul, star_mul']
        have : star ((w x : ℂ)) = (w x : ℂ) := by simp
        rw [this]
        have e3 : (Φ * U) x i = (Φ *ᵥ fun j => U j i) x := by simp [Matrix.mul_apply, Matrix.mulVec, dotProduct]
        rw [e3]; ring
      rw [e2]
      exact Finset.sum_eq_zero fun x _ => by rw [hz x]; simp
    · rw [if_neg h0, one_mul, sub_self]; rfl
  rw [e]
  have := congrArg (fun A => U * A) hz
  simp only [← Matrix.mul_assoc, hU, Matrix.one_mul, Matrix.mul_zero] at this
  rw [Matrix.mul_assoc] at this
  exact this

/-- fields that differ by an orthogonal pair: Pythagoras -/
theorem sqDist_pythagoras (w : X → ℝ) (u v z : X → ℂ) (h : ∑ x, (w x : ℂ) * (star (v x - z x) * (u x - v x)) = 0) :
    sqDist w u z = sqDist w u v + sqDist w v z := by
  have hre : ∑ x, w x * (star (v x - z x) * (u x - v x)).re = 0 := by
    have := congrArg Complex.re h
    rw [Complex.re_sum, Complex.zero_re] at this
    rw [← this]
    exact Finset.sum_congr rfl fun x _ => by rw [Complex.re_ofReal_mul]
  unfold sqDist
  rw [← Finset.sum_add_distrib]
  have : ∀ x, w x * ‖u x - z x‖ ^ 2 = (w x * ‖u x - v x‖ ^ 2 + w x * ‖v x - z x‖ ^ 2) +
      2 * (w x * (star (v x - z x) * (u x - v x)).re) := by
    intro x
    rw [← Complex.normSq_eq_norm_sq, ← Complex.normSq_eq_norm_sq, ← Complex.normSq_eq_norm_sq]
    simp only [Complex.normSq_apply, Complex.mul_re, Complex.sub_re, Complex.sub_im, Complex.star_def, Complex.conj_re,
      Complex.conj_im]
    ring
  rw [Finset.sum_congr rfl fun x _ => this x, Finset.sum_add_distrib, ← Finset.mul_sum, hre, mul_zero, add_zero]

/-- the residual at time `t` is orthogonal to every combination of modes -/
theorem residual_combo (Φ : Matrix X m ℂ) (w : X → ℝ) (R : Matrix X T ℂ) (h : Coef.qMat Φ w R = 0) (b : m → ℂ) (t : T) :
    ∑ x, (w x : ℂ) * (star ((Φ *ᵥ b) x) * R x t) = 0 := by
  have h1 : ∀ j, ∑ x, star (Φ x j) * ((w x : ℂ) * R x t) = 0 := by
    intro j
    have := congrFun (congrFun h j) t
    unfold Coef.qMat at this
    rw [Matrix.mul_apply] at this
    simpa only [Matrix.diagonal_mul, Matrix.conjTranspose_apply, Matrix.zero_apply] using this
  have h2 : ∀ x, (w x : ℂ) * (star ((Φ *ᵥ b) x) * R x t) = ∑ j, star (b j) * (star (Φ x j) * ((w x : ℂ) * R x t)) := by
    intro x
    simp only [Matrix.mulVec, dotProduct, star_sum, star_mul', Finset.sum_mul, Finset.mul_sum]
    exact Finset.sum_congr rfl fun j _ => by ring
  rw [Finset.sum_congr rfl fun x _ => h2 x, Finset.sum_comm]
  refine Finset.sum_eq_zero fun j _ => ?_
  rw [← Finset.mul_sum, h1, mul_zero]

/-- The reconstruction splits the distance to every combination of the modes. -/
theorem reconstruct_pythagoras (Φ : Matrix X m ℂ) (w : X → ℝ) (hw : ∀ i, 0 ≤ w i) (D : Matrix X T ℂ) (tol : ℝ) (ht : 0 ≤ tol)
    (U V : Matrix m m ℂ) (l : m → ℝ) (h : Coef.IsSvd (Coef.mMat Φ w) U l V) (hk : KeepsAll tol l) (t : T) (b : m → ℂ) :
    let R := Coef.reconstruct Φ (Coef.coeffs Φ w D tol U l V) (Coef.ltMean D)
    sqDist w (col D t) (combo (Coef.ltMean D) Φ b) =
      sqDist w (col D t) (col R t) + sqDist w (col R t) (combo (Coef.ltMean D) Φ b) := by
  intro R
  apply sqDist_pythagoras
  have hR := residual_orthogonal Φ w hw (Coef.centred D) tol ht U V l h hk
  have := residual_combo Φ w _ hR (fun j => Coef.coeffs Φ w D tol U l V j t - b j) t
  rw [← this]
  refine Finset.sum_congr rfl fun x _ => ?_
  have e1 : col R t x - combo (Coef.ltMean D) Φ b x = (Φ *ᵥ fun j => Coef.coeffs Φ w D tol U l V j t - b j) x := by
    simp only [col, combo, R, Coef.reconstruct, Matrix.of_apply, Matrix.mul_apply, Matrix.mulVec, dotProduct, mul_sub,
      Finset.sum_sub_distrib]
    ring
  have e2 : col D t x - col R t x = (Coef.centred D - Φ * (Coef.mInv tol U l V * Coef.qMat Φ w (Coef.centred D))) x t := by
    simp only [col, R, Coef.reconstruct, Coef.centred, Coef.coeffs, Matrix.of_apply, Matrix.sub_apply]
    ring
  rw [e1, e2]

theorem col_reconstruct (Φ : Matrix X m ℂ) (a : Matrix m T ℂ) (mean : X → ℂ) (t : T) :
    col (Coef.reconstruct Φ a mean) t = combo mean Φ (col a t) := by
  funext x
  simp only [col, combo, Coef.reconstruct, Matrix.of_apply, Matrix.mul_apply, Matrix.mulVec, dotProduct]
  rw [add_comm]

end Matrices

/-! ### End to end -/

/-- Everything a projection needs: the band of frequencies is accepted and not empty, the folder fits the data, there are data. -/
structure Ready (S : Stored) (o : Opts) (frames : List (Arr ℝ)) (b : Coef.Band) (dims sh : List Nat) : Prop where
  band : Coef.selectBand S.freq o.tLb o.tUb o.freqIdx = .ok b
  len : b.nFreqR = b.freqIdx.length
  sel : b.freqIdx ≠ []
  fits : Fits S b.freqIdx frames dims sh
  some_ : frames ≠ []
  dim : dims ≠ []
  modes : 0 < S.nModes
  pos : 0 < size sh

/-- the matrix of the selected modes -/
noncomputable def selPhi (S : Stored) (b : Coef.Band) (sh : List Nat) :
    Matrix (Fin (size sh)) (Fin (b.freqIdx.length * S.nModes)) ℂ := specPhi S b.freqIdx sh (b.freqIdx.length * S.nModes)

/-- every singular value of the weighted Gram matrix of the selected modes that is not zero is above the cut-off; always so for
    `tol = 0` -/
def NoCut (S : Stored) (o : Opts) (svd : Svd) (b : Coef.Band) (sh : List Nat) : Prop :=
  o.tol = 0 ∨ KeepsAll o.tol (svd _ (Coef.mMat (selPhi S b sh) (specWt S sh))).2.1

/-- **C154 (part).** For every results folder with non-negative weights and every data set: if the tolerance drops no non-zero
    singular value (always for `tol = 0`), what `compute_coeffs_op` and `compute_reconstruction(time_idx='all')` write, on any
    numbers of ranks, splits at each time the squared distance between the snapshot and every combination of the selected modes
    (plus the mean) into its own distance to the snapshot and its distance to that combination. -/
theorem reconstruction_splits_partial (S : Stored) (o : Opts) (svd : Svd)
    (hsvd : ∀ k M, Coef.IsSvd M (svd k M).1 (svd k M).2.1 (svd k M).2.2)
    (frames : List (Arr ℝ)) (b : Coef.Band) (dims sh : List Nat) (h : Ready S o frames b dims sh)
    (hw : ∀ i, 0 ≤ specWt S sh i) (htol : 0 ≤ o.tol) (hcut : NoCut S o svd b sh)
    (comms comms' : List Comm) (sched sched' : Sched) (hrun : IsRun comms sched) (hrun' : IsRun comms' sched') :
    ∃ G R, project S o svd frames comms sched = some G ∧
      reconstruct G none (.str "all") comms' sched' = some (npSave (timeArr sh R)) ∧
      (∀ t a, sqDist (specWt S sh) (col (specD frames sh) t) (combo (Coef.ltMean (specD frames sh)) (selPhi S b sh) a) =
        sqDist (specWt S sh) (col (specD frames sh) t) (col R t) +
        sqDist (specWt S sh) (col R t) (combo (Coef.ltMean (specD frames sh)) (selPhi S b sh) a)) ∧
      ∀ t, ∃ a, col R t = combo (Coef.ltMean (specD frames sh)) (selPhi S b sh) a := by
  obtain ⟨G, h1, -, h3⟩ := project_reconstruct S o svd frames b dims sh h.band h.len h.sel h.fits h.some_ h.dim h.modes h.pos
    comms comms' sched sched' hrun hrun'
  refine ⟨G, _, h1, h3, ?_, ?_⟩
  · intro t a
    refine reconstruct_pythagoras (selPhi S b sh) (specWt S sh) hw (specD frames sh) o.tol htol _ _ _ (hsvd _ _) ?_ t a
    rcases hcut with h0 | hk
    · rw [h0]; exact keepsAll_zero (hsvd _ _)
    · exact hk
  · intro t
    exact ⟨_, col_reconstruct _ _ _ t⟩

/-- **C154 (part).** Best approximation: no combination of the selected modes is closer to a snapshot than the reconstruction, and
    with positive weights every other one is farther away. -/
theorem best_approximation_partial (S : Stored) (o : Opts) (svd : Svd)
    (hsvd : ∀ k M, Coef.IsSvd M (svd k M).1 (svd k M).2.1 (svd k M).2.2)
    (frames : List (Arr ℝ)) (b : Coef.Band) (dims sh : List Nat) (h : Ready S o frames b dims sh)
    (hw : ∀ i, 0 ≤ specWt S sh i) (htol : 0 ≤ o.tol) (hcut : NoCut S o svd b sh)
    (comms comms' : List Comm) (sched sched' : Sched) (hrun : IsRun comms sched) (hrun' : IsRun comms' sched') :
    ∃ G R, project S o svd frames comms sched = some G ∧
      reconstruct G none (.str "all") comms' sched' = some (npSave (timeArr sh R)) ∧
      ∀ t a, sqDist (specWt S sh) (col (specD frames sh) t) (col R t) ≤
          sqDist (specWt S sh) (col (specD frames sh) t) (combo (Coef.ltMean (specD frames sh)) (selPhi S b sh) a) ∧
        ((∀ i, 0 < specWt S sh i) → combo (Coef.ltMean (specD frames sh)) (selPhi S b sh) a ≠ col R t →
          sqDist (specWt S sh) (col (specD frames sh) t) (col R t) <
          sqDist (specWt S sh) (col (specD frames sh) t) (combo (Coef.ltMean (specD frames sh)) (selPhi S b sh) a)) := by
  obtain ⟨G, R, h1, h2, h3, -⟩ := reconstruction_splits_partial S o svd hsvd frames b dims sh h hw htol hcut comms comms' sched
    sched' hrun hrun'
  refine ⟨G, R, h1, h2, fun t a => ⟨?_, ?_⟩⟩
  · rw [h3 t a]
    exact le_add_of_nonneg_right (sqDist_nonneg _ hw _ _)
  · intro hpos hne
    rw [h3 t a]
    apply lt_add_of_pos_right
    obtain ⟨i, hi⟩ := Function.ne_iff.1 hne
    refine Finset.sum_pos' (fun i _ => mul_nonneg (hw i) (by positivity)) ⟨i, Finset.mem_univ i, ?_⟩
    refine mul_pos (hpos i) (by have := sub_ne_zero.2 (Ne.symm hi); positivity)

/-- a combination of the modes of some frequencies is one of the modes of more frequencies -/
theorem combo_mono (S : Stored) (fs fs' : List Nat) (sh : List Nat) (hk : 0 < S.nModes) (hsub : ∀ f ∈ fs, f ∈ fs')
    (mean : Fin (size sh) → ℂ) (a : Fin (fs.length * S.nModes) → ℂ) :
    ∃ a', combo mean (specPhi S fs' sh (fs'.length * S.nModes)) a' = combo mean (specPhi S fs sh (fs.length * S.nModes)) a := by
  have hex : ∀ j : Fin (fs.length * S.nModes), ∃ j' : Fin (fs'.length * S.nModes),
      ∀ i, specPhi S fs' sh (fs'.length * S.nModes) i j' = specPhi S fs sh (fs.length * S.nModes) i j := by
    intro j
    have hj : j.1 / S.nModes < fs.length := by rw [Nat.div_lt_iff_lt_mul hk]; exact j.2
    have hmem : fs.getD (j.1 / S.nModes) 0 ∈ fs := by
      rw [List.getD_eq_getElem _ _ hj]; exact List.getElem_mem _
    obtain ⟨n, hn, he⟩ := List.getElem_of_mem (hsub _ hmem)
    have hm : j.1 % S.nModes < S.nModes := Nat.mod_lt _ hk
    refine ⟨⟨n * S.nModes + j.1 % S.nModes, ?_⟩, fun i => ?_⟩
    · calc n * S.nModes + j.1 % S.nModes < n * S.nModes + S.nModes := by omega
        _ = (n + 1) * S.nModes := by ring
        _ ≤ fs'.length * S.nModes := Nat.mul_le_mul_right _ hn
    · have e1 : (n * S.nModes + j.1 % S.nModes) / S.nModes = n := by
        rw [Nat.add_comm, Nat.add_mul_div_right _ _ hk, Nat.div_eq_of_lt hm, Nat.zero_add]
      have e2 : (n * S.nModes + j.1 % S.nModes) % S.nModes = j.1 % S.nModes := by
        rw [Nat.add_comm, Nat.add_mul_mod_self_right, Nat.mod_eq_of_lt hm]
      simp only [specPhi, Matrix.of_apply, e1, e2, List.getD_eq_getElem _ _ hn, he]
  choose σ hσ using hex
  refine ⟨fun k => ∑ j, if σ j = k then a j else 0, ?_⟩
  funext i
  simp only [combo, Matrix.mulVec, dotProduct]
  congr 1
  simp only [Finset.mul_sum]
  rw [Finset.sum_comm]
  refine Finset.sum_congr rfl fun j _ => ?_
  simp only [mul_ite, mul_zero]
  rw [Finset.sum_ite_eq]
  simp [hσ]

/-- **C155 (part).** Selecting more frequencies never makes a snapshot worse: same folder and data, two selections one of which
    contains the other. -/
theorem more_frequencies_partial (S : Stored) (o o' : Opts) (svd : Svd)
    (hsvd : ∀ k M, Coef.IsSvd M (svd k M).1 (svd k M).2.1 (svd k M).2.2)
    (frames : List (Arr ℝ)) (b b' : Coef.Band) (dims sh : List Nat) (h : Ready S o frames b dims sh)
    (h' : Ready S o' frames b' dims sh) (hsub : ∀ f ∈ b.freqIdx, f ∈ b'.freqIdx)
    (hw : ∀ i, 0 ≤ specWt S sh i) (htol' : 0 ≤ o'.tol) (hcut' : NoCut S o' svd b' sh)
    (comms comms' : List Comm) (sched sched' : Sched) (hrun : IsRun comms sched) (hrun' : IsRun comms' sched') :
    ∃ G G' R R', project S o svd frames comms sched = some G ∧ project S o' svd frames comms sched = some G' ∧
      reconstruct G none (.str "all") comms' sched' = some (npSave (timeArr sh R)) ∧
      reconstruct G' none (.str "all") comms' sched' = some (npSave (timeArr sh R')) ∧
      ∀ t, sqDist (specWt S sh) (col (specD frames sh) t) (col R' t) ≤ sqDist (specWt S sh) (col (specD frames sh) t) (col R t) := by
  obtain ⟨G, g1, -, g2⟩ := project_reconstruct S o svd frames b dims sh h.band h.len h.sel h.fits h.some_ h.dim h.modes h.pos
    comms comms' sched sched' hrun hrun'
  obtain ⟨G', R', g3, g4, g5⟩ := best_approximation_partial S o' svd hsvd frames b' dims sh h' hw htol' hcut' comms comms' sched
    sched' hrun hrun'
  refine ⟨G, G', _, R', g1, g3, g2, g4, fun t => ?_⟩
  rw [col_reconstruct]
  obtain ⟨a', ha'⟩ := combo_mono S b.freqIdx b'.freqIdx sh h.modes hsub (Coef.ltMean (specD frames sh)) (col _ t)
  rw [← ha']
  exact (g5 t a').1

/-! ### Projecting the reconstruction -/

theorem npSave_eqv {α} [Inhabited α] {A B : Arr α} (h : npSave A = npSave B) : A.Eqv B := by
  have h1 := open_npSave A
  have h2 := open_npSave B
  rw [h] at h1
  have hs : A.shape = B.shape := by rw [← h1.1, h2.1]
  refine ⟨hs, fun idx hidx => ?_⟩
  have hb : InRange (openMemmap (npSave B)).shape idx := by rw [h1.1]; exact hidx
  rw [← h1.2 idx hb, h2.2 idx hb]

theorem coeffs_congr {X m : Type} [Fintype X] [Fintype m] [DecidableEq X] [DecidableEq m] {n n' : Nat} (hn : n' = n)
    (Φ : Matrix X m ℂ) (w : X → ℝ) (D : Matrix X (Fin n) ℂ) (D' : Matrix X (Fin n') ℂ) (hD : ∀ i t, D' i t = D i (Fin.cast hn t))
    (tol : ℝ) (U : Matrix m m ℂ) (l : m → ℝ) (V : Matrix m m ℂ) :
    (∀ j t, Coef.coeffs Φ w D' tol U l V j t = Coef.coeffs Φ w D tol U l V j (Fin.cast hn t)) ∧
      Coef.ltMean D' = Coef.ltMean D := by
  subst hn
  have : D' = D := by ext i t; exact hD i t
  subst this
  exact ⟨fun _ _ => rfl, rfl⟩

theorem npSave_matArr_congr {k n n' : Nat} (hn : n' = n) (A : Matrix (Fin k) (Fin n) ℂ) (A' : Matrix (Fin k) (Fin n') ℂ)
    (h : ∀ j t, A' j t = A j (Fin.cast hn t)) : npSave (matArr A') = npSave (matArr A) := by
  subst hn
  have : A' = A := by ext i t; exact h i t
  rw [this]

/-- **C156.** Projecting the reconstruction again (when it is real, so that it can be given as data) leaves the same folder: same
    coefficients, same modes, same mean; for every tolerance and all numbers of ranks. -/
theorem reproject_same (S : Stored) (o : Opts) (svd : Svd)
    (hsvd : ∀ k M, Coef.IsSvd M (svd k M).1 (svd k M).2.1 (svd k M).2.2)
    (frames frames' : List (Arr ℝ)) (b : Coef.Band) (dims sh : List Nat) (h : Ready S o frames b dims sh) (htol : 0 ≤ o.tol)
    (hsn : ∀ a ∈ frames', a.shape = dims)
    (comms comms' comms'' : List Comm) (sched sched' sched'' : Sched) (hrun : IsRun comms sched) (hrun' : IsRun comms' sched')
    (hrun'' : IsRun comms'' sched'') (G : Folder) (hG : project S o svd frames comms sched = some G)
    (hrec : reconstruct G none (.str "all") comms' sched' = some (npSave (dataArr frames' sh))) :
    project S o svd frames' comms'' sched'' = some G := by
  obtain ⟨ax, hmax, p1, p2⟩ := projection_files S o svd frames b dims sh h.band h.len h.sel h.fits h.some_ h.dim h.modes
  have hG' : G = globalFolder S b.freqIdx o.tol svd frames sh ax := by
    rcases hrun with ⟨rfl, rfl⟩ | ⟨p, s, hp, hs, rfl, rfl⟩
    · exact Option.some.inj (hG.symm.trans p2)
    · exact Option.some.inj (hG.symm.trans (p1 p hp s hs))
  subst hG'
  have hall := reconstruct_all (globalFolder S b.freqIdx o.tol svd frames sh ax) frames h.some_ sh h.pos (fits_axis h.fits hmax.1) _
    (selPhi S b sh) (Coef.coeffs (selPhi S b sh) (specWt S sh) (specD frames sh)
      o.tol (svd _ (Coef.mMat (selPhi S b sh) (specWt S sh))).1 (svd _ (Coef.mMat (selPhi S b sh) (specWt S sh))).2.1
      (svd _ (Coef.mMat (selPhi S b sh) (specWt S sh))).2.2) rfl rfl rfl comms' sched' hrun'
  have heqv := npSave_eqv (Option.some.inj (hrec.symm.trans hall))
  have hn : frames'.length = frames.length := (List.cons.inj heqv.1).1
  have hfr' : frames' ≠ [] := by
    intro h0
    apply h.some_
    rw [← List.length_eq_zero_iff, ← hn, h0]; rfl
  have F' : Fits S b.freqIdx frames' dims sh := ⟨h.fits.weights, hsn, h.fits.axis, h.fits.modes⟩
  obtain ⟨ax', hmax', q1, q2⟩ := projection_files S o svd frames' b dims sh h.band h.len h.sel F' hfr' h.dim h.modes
  have hres : project S o svd frames' comms'' sched'' = some (globalFolder S b.freqIdx o.tol svd frames' sh ax) := by
    rw [hmax'.unique hmax] at q1 q2
    rcases hrun'' with ⟨rfl, rfl⟩ | ⟨p, s, hp, hs, rfl, rfl⟩
    · exact q2
    · exact q1 p hp s hs
  rw [hres, Option.some.injEq]
  -- the data of the second projection are the reconstruction
  have hD : ∀ i t, specD frames' sh i t = Coef.reconstruct (selPhi S b sh) (Coef.coeffs (selPhi S b sh) (specWt S sh) (specD frames sh)
      o.tol (svd _ (Coef.mMat (selPhi S b sh) (specWt S sh))).1 (svd _ (Coef.mMat (selPhi S b sh) (specWt S sh))).2.1
      (svd _ (Coef.mMat (selPhi S b sh) (specWt S sh))).2.2) (Coef.ltMean (specD frames sh)) i (Fin.cast hn t) := by
    intro i t
    have hir := inRange_unravel i.2
    have hri : ravel sh (unravel sh i.1) = i.1 := ravel_unravel i.2
    have ht : t.1 < frames.length := by have := t.2; omega
    have := heqv.2 (t.1 :: unravel sh i.1) ⟨t.2, hir⟩
    rw [timeArr_at sh _ t.1 _ ht (by rw [hri]; exact i.2)] at this
    simp only [dataArr, List.headD_cons, List.tail_cons, hri] at this
    exact this
  have : Nonempty (Fin frames.length) := ⟨⟨0, List.length_pos_iff.2 h.some_⟩⟩
  have hid := op_idempotent (selPhi S b sh) (specWt S sh) (specD frames sh) o.tol htol _ _ _
    (hsvd _ (Coef.mMat (selPhi S b sh) (specWt S sh)))
  obtain ⟨hc, hm⟩ := coeffs_congr hn (selPhi S b sh) (specWt S sh) _ _ hD o.tol
    (svd _ (Coef.mMat (selPhi S b sh) (specWt S sh))).1 (svd _ (Coef.mMat (selPhi S b sh) (specWt S sh))).2.1
    (svd _ (Coef.mMat (selPhi S b sh) (specWt S sh))).2.2
  rw [hid.1] at hc
  rw [hid.2] at hm
  simp only [globalFolder, Folder.mk.injEq, true_and, and_true]
  refine ⟨npSave_matArr_congr hn _ _ hc, ?_⟩
  apply npSave_congr
  refine ⟨rfl, fun idx hidx => ?_⟩
  have hr := ravel_lt (show InRange sh idx from hidx)
  have e1 := meanArr_spec frames sh idx hr
  have e2 := meanArr_spec frames' sh idx hr
  rw [hm, ← e1] at e2
  exact_mod_cast e2

/-- **C156 (real modes).** When the stored modes are real, the reconstruction is real data that can be projected again. -/
theorem reproject_real (S : Stored) (o : Opts) (svd : Svd)
    (hsvd : ∀ k M, Coef.IsSvd M (svd k M).1 (svd k M).2.1 (svd k M).2.2)
    (frames : List (Arr ℝ)) (b : Coef.Band) (dims sh : List Nat) (h : Ready S o frames b dims sh) (htol : 0 ≤ o.tol)
    (hreal : ∀ f ∈ b.freqIdx, ∀ file, S.modes f = some file → ∀ i z, file.data i = some z → z.im = 0)
    (comms comms' comms'' : List Comm) (sched sched' sched'' : Sched) (hrun : IsRun comms sched) (hrun' : IsRun comms' sched')
    (hrun'' : IsRun comms'' sched'') :
    ∃ G frames', project S o svd frames comms sched = some G ∧
      reconstruct G none (.str "all") comms' sched' = some (npSave (dataArr frames' sh)) ∧
      project S o svd frames' comms'' sched'' = some G := by
  obtain ⟨G, R, g1, g2, g3, g4⟩ := reconstruction_real_partial S o svd hsvd frames b dims sh h.band h.len h.sel h.fits h.some_ h.dim
    h.modes h.pos hreal comms comms' sched sched' hrun hrun'
  have hsz : size dims = size sh := by
    rcases h.fits.axis with ⟨h', _⟩ | ⟨h', _⟩ <;> subst h'
    · rfl
    · rw [size_append, Nat.mul_one]
  let frames' : List (Arr ℝ) := (List.range frames.length).map fun (t : Nat) =>
    ⟨dims, fun idx => (R.at' (t :: unravel sh (ravel dims idx))).re⟩
  have hrec : npSave R = npSave (dataArr frames' sh) := by
    apply npSave_congr
    refine ⟨by rw [g3]; simp [dataArr, frames'], fun idx hidx => ?_⟩
    rw [g3] at hidx
    cases idx with
    | nil => simp [InRange] at hidx
    | cons t x =>
      obtain ⟨ht, hx⟩ := hidx
      have hlt : ravel sh x < size dims := by rw [hsz]; exact ravel_lt hx
      have e : frames'.getD t ⟨[], fun _ => 0⟩ = ⟨dims, fun idx => (R.at' (t :: unravel sh (ravel dims idx))).re⟩ := by
        simp [frames', List.getD_eq_getElem?_getD, ht]
      simp only [dataArr, List.headD_cons, List.tail_cons, flat, e]
      rw [ravel_unravel hlt, unravel_ravel hx]
      exact Complex.ext rfl (by rw [g4, Complex.ofReal_im])
  refine ⟨G, frames', g1, by rw [g2, hrec], ?_⟩
  refine reproject_same S o svd hsvd frames frames' b dims sh h htol ?_ comms comms' comms'' sched sched' sched'' hrun hrun' hrun'' G g1
    (by rw [g2, hrec])
  intro a ha
  simp only [frames', List.mem_map] at ha
  obtain ⟨t, -, rfl⟩ := ha
  rfl

/-! ### Affine changes and reordering of the data -/

theorem coeffs_affine {X m : Type} [Fintype X] [Fintype m] [DecidableEq X] [DecidableEq m] {n n' : Nat} (hn : n' = n) (hpos : 0 < n)
    (π : Equiv.Perm (Fin n)) (c : ℝ) (g : X → ℝ)
    (Φ : Matrix X m ℂ) (w : X → ℝ) (D : Matrix X (Fin n) ℂ) (D' : Matrix X (Fin n') ℂ)
    (hD : ∀ i t, D' i t = c * D i (π (Fin.cast hn t)) + g i) (tol : ℝ) (U : Matrix m m ℂ) (l : m → ℝ) (V : Matrix m m ℂ) :
    (∀ j t, Coef.coeffs Φ w D' tol U l V j t = c * Coef.coeffs Φ w D tol U l V j (π (Fin.cast hn t))) ∧
      ∀ i, Coef.ltMean D' i = c * Coef.ltMean D i + g i := by
  subst hn
  have hne : (n' : ℂ) ≠ 0 := by exact_mod_cast hpos.ne'
  have hm : ∀ i, Coef.ltMean D' i = c * Coef.ltMean D i + g i := by
    intro i
    simp only [Coef.ltMean, hD, Fin.cast_eq_self, Finset.sum_add_distrib, ← Finset.mul_sum, Finset.sum_const, Finset.card_univ,
      Fintype.card_fin, nsmul_eq_mul]
    rw [Equiv.sum_comp π (fun t => D i t)]
    field_simp
  refine ⟨fun j t => ?_, hm⟩
  have hc : ∀ i t, Coef.centred D' i t = c * Coef.centred D i (π t) := by
    intro i t
    simp only [Coef.centred, Matrix.of_apply, hm, hD, Fin.cast_eq_self]
    ring
  have hq : ∀ k t, Coef.qMat Φ w (Coef.centred D') k t = c * Coef.qMat Φ w (Coef.centred D) k (π t) := by
    intro k t
    unfold Coef.qMat
    rw [Matrix.mul_apply, Matrix.mul_apply, Finset.mul_sum]
    refine Finset.sum_congr rfl fun x _ => ?_
    rw [Matrix.diagonal_mul, Matrix.diagonal_mul, hc]
    ring
  unfold Coef.coeffs
  rw [Matrix.mul_apply, Matrix.mul_apply, Finset.mul_sum]
  refine Finset.sum_congr rfl fun k _ => ?_
  rw [hq, Fin.cast_eq_self]
  ring

theorem project_runs (S : Stored) (o : Opts) (svd : Svd) (frames : List (Arr ℝ)) (b : Coef.Band) (dims sh : List Nat)
    (h : Ready S o frames b dims sh) : ∃ ax, IsFirstMax dims ax ∧ ∀ comms sched, IsRun comms sched →
      project S o svd frames comms sched = some (globalFolder S b.freqIdx o.tol svd frames sh ax) := by
  obtain ⟨ax, hmax, p1, p2⟩ := projection_files S o svd frames b dims sh h.band h.len h.sel h.fits h.some_ h.dim h.modes
  refine ⟨ax, hmax, fun comms sched hrun => ?_⟩
  rcases hrun with ⟨rfl, rfl⟩ | ⟨p, s, hp, hs, rfl, rfl⟩
  · exact p2
  · exact p1 p hp s hs

/-- entry `[j, t]` of a saved matrix -/
theorem open_matArr {k n : Nat} (A : Matrix (Fin k) (Fin n) ℂ) (j t : Nat) (hj : j < k) (ht : t < n) :
    (openMemmap (npSave (matArr A))).at' [j, t] = A ⟨j, hj⟩ ⟨t, ht⟩ := by
  have : InRange (matArr A).shape [j, t] := ⟨hj, ht, trivial⟩
  rw [(open_npSave (matArr A)).2 [j, t] this]
  simp [matArr, ht, hj]

/-- **C157.** Snapshot `t` of the second data set is `c` times snapshot `π t` of the first plus a fixed field `g` (so `π` reorders
    the snapshots): column `t` of the coefficients is `c` times column `π t`, the mean is `c` times the mean plus `g`, the stored
    modes are the same, and snapshot `t` of the reconstruction is `c` times snapshot `π t` of the other plus `g`.  For every
    tolerance and all numbers of ranks. -/
theorem projection_affine (S : Stored) (o : Opts) (svd : Svd) (frames frames' : List (Arr ℝ)) (b : Coef.Band) (dims sh : List Nat)
    (h : Ready S o frames b dims sh) (hsn : ∀ a ∈ frames', a.shape = dims) (hn : frames'.length = frames.length)
    (π : Equiv.Perm (Fin frames.length)) (c : ℝ) (g : Fin (size sh) → ℝ)
    (hD : ∀ (t : Fin frames'.length) (i : Fin (size sh)),
      flat (frames'.getD t ⟨[], fun _ => 0⟩) i = c * flat (frames.getD (π (Fin.cast hn t)) ⟨[], fun _ => 0⟩) i + g i)
    (comms comms' : List Comm) (sched sched' : Sched) (hrun : IsRun comms sched) (hrun' : IsRun comms' sched') :
    ∃ G G' R R', project S o svd frames comms sched = some G ∧ project S o svd frames' comms' sched' = some G' ∧
      G'.modesR = G.modesR ∧
      (∀ j (t : Fin frames'.length), j < b.freqIdx.length * S.nModes →
        (openMemmap G'.coeffs).at' [j, t] = c * (openMemmap G.coeffs).at' [j, π (Fin.cast hn t)]) ∧
      (∀ i : Fin (size sh), (openMemmap G'.ltm).at' (unravel sh i) = c * (openMemmap G.ltm).at' (unravel sh i) + g i) ∧
      reconstruct G none (.str "all") comms sched = some (npSave (timeArr sh R)) ∧
      reconstruct G' none (.str "all") comms' sched' = some (npSave (timeArr sh R')) ∧
      ∀ i (t : Fin frames'.length), R' i t = c * R i (π (Fin.cast hn t)) + g i := by
  have hpos : 0 < frames.length := List.length_pos_iff.2 h.some_
  have h' : Ready S o frames' b dims sh := ⟨h.band, h.len, h.sel, ⟨h.fits.weights, hsn, h.fits.axis, h.fits.modes⟩, by
    intro h0
    rw [h0] at hn
    simp at hn
    omega, h.dim, h.modes, h.pos⟩
  obtain ⟨ax, hmax, hp⟩ := project_runs S o svd frames b dims sh h
  obtain ⟨ax', hmax', hp'⟩ := project_runs S o svd frames' b dims sh h'
  have hax := hmax'.unique hmax
  subst hax
  obtain ⟨hc, hm⟩ := coeffs_affine hn hpos π c g (selPhi S b sh) (specWt S sh) (specD frames sh) (specD frames' sh) (by
      intro i t
      simp only [specD, Matrix.of_apply, hD]
      push_cast
      rfl) o.tol
    (svd _ (Coef.mMat (selPhi S b sh) (specWt S sh))).1 (svd _ (Coef.mMat (selPhi S b sh) (specWt S sh))).2.1
    (svd _ (Coef.mMat (selPhi S b sh) (specWt S sh))).2.2
  refine ⟨_, _, _, _, hp _ _ hrun, hp' _ _ hrun', rfl, ?_, ?_, reconstruct_all _ frames h.some_ sh h.pos (fits_axis h.fits hmax.1) _
    (selPhi S b sh) (Coef.coeffs (selPhi S b sh) (specWt S sh) (specD frames sh) o.tol
      (svd _ (Coef.mMat (selPhi S b sh) (specWt S sh))).1 (svd _ (Coef.mMat (selPhi S b sh) (specWt S sh))).2.1
      (svd _ (Coef.mMat (selPhi S b sh) (specWt S sh))).2.2) rfl rfl rfl comms sched hrun,
    reconstruct_all _ frames' h'.some_ sh h.pos (fits_axis h.fits hmax.1) _
    (selPhi S b sh) (Coef.coeffs (selPhi S b sh) (specWt S sh) (specD frames' sh) o.tol
      (svd _ (Coef.mMat (selPhi S b sh) (specWt S sh))).1 (svd _ (Coef.mMat (selPhi S b sh) (specWt S sh))).2.1
      (svd _ (Coef.mMat (selPhi S b sh) (specWt S sh))).2.2) rfl rfl rfl comms' sched' hrun', ?_⟩
  · intro j t hj
    have e := hc ⟨j, hj⟩ t
    refine (open_matArr _ j t hj t.2).trans (e.trans ?_)
    congr 1
    exact (open_matArr _ j _ hj (π (Fin.cast hn t)).2).symm
  · intro i
    have hr := inRange_unravel i.2
    have e1 := (open_npSave (meanArr frames sh)).2 (unravel sh i) hr
    have e2 := (open_npSave (meanArr frames' sh)).2 (unravel sh i) hr
    refine e2.trans ?_
    have e3 : (openMemmap (globalFolder S b.freqIdx o.tol svd frames sh ax').ltm).at' (unravel sh i) =
      (meanArr frames sh).at' (unravel sh i) := e1
    rw [e3]
    have hlt : ravel sh (unravel sh i) < size sh := by rw [ravel_unravel i.2]; exact i.2
    have hi : (⟨ravel sh (unravel sh i), hlt⟩ : Fin (size sh)) = i := Fin.ext (ravel_unravel i.2)
    have m1 := meanArr_spec frames sh (unravel sh i) hlt
    have m2 := meanArr_spec frames' sh (unravel sh i) hlt
    rw [hi] at m1 m2
    rw [hm i, ← m1] at m2
    exact_mod_cast m2
  · intro i t
    simp only [Coef.reconstruct, Matrix.of_apply, Matrix.mul_apply, hm, hc, mul_add, Finset.mul_sum]
    rw [add_assoc]
    congr 1
    exact Finset.sum_congr rfl fun j _ => by ring

theorem coeffs_sum {X m : Type} [Fintype X] [Fintype m] [DecidableEq X] [DecidableEq m] {n : Nat} (hpos : 0 < n)
    (Φ : Matrix X m ℂ) (w : X → ℝ) (D : Matrix X (Fin n) ℂ) (tol : ℝ) (U : Matrix m m ℂ) (l : m → ℝ) (V : Matrix m m ℂ) (j : m) :
    ∑ t, Coef.coeffs Φ w D tol U l V j t = 0 := by
  have hcard : (n : ℂ) ≠ 0 := by exact_mod_cast hpos.ne'
  have hrow : ∀ i, ∑ t, Coef.centred D i t = 0 := by
    intro i
    simp only [Coef.centred, Matrix.of_apply, Finset.sum_sub_distrib, Coef.ltMean, Finset.sum_const, Finset.card_univ,
      nsmul_eq_mul, Fintype.card_fin]
    rw [mul_div_cancel₀ _ hcard, sub_self]
  have e : ∀ t, Coef.coeffs Φ w D tol U l V j t =
      ∑ x, (Coef.mInv tol U l V * Φᴴ * Matrix.diagonal fun i => (w i : ℂ)) j x * Coef.centred D x t := by
    intro t
    rw [← Matrix.mul_apply]
    simp only [Coef.coeffs, Coef.qMat, Matrix.mul_assoc]
  rw [Finset.sum_congr rfl fun t _ => e t, Finset.sum_comm]
  refine Finset.sum_eq_zero fun x _ => ?_
  rw [← Finset.mul_sum, hrow x, mul_zero]

/-- **C158.** For every mode the coefficients stored by `compute_coeffs_op` sum to zero over the times of the data. -/
theorem coeffs_zero_mean (S : Stored) (o : Opts) (svd : Svd) (frames : List (Arr ℝ)) (b : Coef.Band) (dims sh : List Nat)
    (h : Ready S o frames b dims sh) (comms : List Comm) (sched : Sched) (hrun : IsRun comms sched) :
    ∃ G, project S o svd frames comms sched = some G ∧ G.coeffs.shape = [b.freqIdx.length * S.nModes, frames.length] ∧
      ∀ j < b.freqIdx.length * S.nModes, ∑ t ∈ Finset.range frames.length, (openMemmap G.coeffs).at' [j, t] = 0 := by
  obtain ⟨ax, hmax, hp⟩ := project_runs S o svd frames b dims sh h
  refine ⟨_, hp _ _ hrun, rfl, fun j hj => ?_⟩
  rw [Finset.sum_range]
  refine (Finset.sum_congr rfl fun (t : Fin frames.length) _ => open_matArr _ j t.1 hj t.2).trans ?_
  exact coeffs_sum (List.length_pos_iff.2 h.some_) _ _ _ _ _ _ _ _

/-! ### A positive tolerance: nearly parallel modes -/

section Parallel
variable (c s : ℝ)

/-- two unit modes at a small angle -/
noncomputable def twoPhi : Matrix (Fin 2) (Fin 2) ℂ := !![1, (c : ℂ); 0, (s : ℂ)]

/-- only the second one -/
noncomputable def onePhi : Matrix (Fin 2) (Fin 1) ℂ := !![(c : ℂ); (s : ℂ)]

/-- two snapshots of two points -/
def twoD : Matrix (Fin 2) (Fin 2) ℂ := !![0, 0; 1, -1]

theorem twoD_mean : Coef.ltMean twoD = 0 := by
  funext i; fin_cases i <;> simp [Coef.ltMean, twoD]

theorem twoD_centred : Coef.centred twoD = twoD := by
  ext i t; simp [Coef.centred, twoD_mean]

theorem two_q : Coef.qMat (twoPhi c s) (fun _ => 1) twoD = !![0, 0; (s : ℂ), -(s : ℂ)] := by
  ext i t
  fin_cases i <;> fin_cases t <;> simp [Coef.qMat, twoPhi, twoD, Matrix.mul_apply, Fin.sum_univ_two]

theorem one_q : Coef.qMat (onePhi c s) (fun _ => 1) twoD = !![(s : ℂ), -(s : ℂ)] := by
  ext i t
  fin_cases i; fin_cases t <;> simp [Coef.qMat, onePhi, twoD, Matrix.mul_apply, Fin.sum_univ_two]

theorem twoM (h1 : c ^ 2 + s ^ 2 = 1) : Coef.mMat (twoPhi c s) (fun _ => 1) = !![1, (c : ℂ); (c : ℂ), 1] := by
  have : (c : ℂ) * c + s * s = 1 := by
    have : ((c ^ 2 + s ^ 2 : ℝ) : ℂ) = 1 := by rw [h1]; simp
    push_cast at this
    rw [← this]; ring
  ext i j
  fin_cases i <;> fin_cases j <;> simp [Coef.mMat, twoPhi, Matrix.mul_apply, Fin.sum_univ_two, this]

theorem two_svd (r : ℂ) (hr : (starRingEnd ℂ) r = r) (hh : r * r = 1 / 2) (hc0 : 0 ≤ c) (hc1 : c ≤ 1) (h1 : c ^ 2 + s ^ 2 = 1) :
    Coef.IsSvd (Coef.mMat (twoPhi c s) (fun _ => 1)) !![r, r; r, -r] ![1 + c, 1 - c] !![r, r; r, -r] := by
  have hU : (!![r, r; r, -r] : Matrix (Fin 2) (Fin 2) ℂ)ᴴ * !![r, r; r, -r] = 1 := by
    ext i j
    fin_cases i <;> fin_cases j <;> simp [Matrix.mul_apply, Fin.sum_univ_two, hr, hh] <;> norm_num
  refine ⟨hU, hU, ?_, ?_⟩
  · intro i; fin_cases i <;> simp <;> linarith
  · rw [twoM c s h1]
    ext i j
    fin_cases i <;> fin_cases j <;> simp [Matrix.mul_apply, Fin.sum_univ_two, Matrix.vecMul_diagonal, hr] <;>
      first
      | linear_combination (exp := 1) (-2 : ℂ) * hh
      | linear_combination (exp := 1) (-2 * (c : ℂ)) * hh


/-- the reconstruction drops the component that tells the two modes apart -/
theorem two_rec (tol : ℝ) (hc0 : 0 ≤ c) (hc1 : c ≤ 1) (h1 : c ^ 2 + s ^ 2 = 1) (ht : 1 - c ≤ tol * (1 + c)) (ht1 : tol < 1)
    (U V : Matrix (Fin 2) (Fin 2) ℂ) (l : Fin 2 → ℝ) (h : Coef.IsSvd (Coef.mMat (twoPhi c s) (fun _ => 1)) U l V) :
    Coef.reconstruct (twoPhi c s) (Coef.coeffs (twoPhi c s) (fun _ => 1) twoD tol U l V) (Coef.ltMean twoD) =
      !![(s / 2 : ℂ), -(s / 2 : ℂ); ((1 - c) / 2 : ℂ), -((1 - c) / 2 : ℂ)] := by
  obtain ⟨r, hr, hh⟩ : ∃ r : ℂ, (starRingEnd ℂ) r = r ∧ r * r = 1 / 2 := by
    refine ⟨((Real.sqrt (1 / 2) : ℝ) : ℂ), Complex.conj_ofReal _, ?_⟩
    rw [← Complex.ofReal_mul, Real.mul_self_sqrt (by norm_num)]; push_cast; rfl
  have h' := two_svd c s r hr hh hc0 hc1 h1
  have hsup : (⨆ j, (![1 + c, 1 - c] : Fin 2 → ℝ) j) = 1 + c := by
    apply le_antisymm
    · exact ciSup_le fun j => by fin_cases j <;> simp <;> linarith
    · exact le_ciSup (f := (![1 + c, 1 - c] : Fin 2 → ℝ)) (Set.finite_range _).bddAbove 0
  have hl : Coef.lInv tol (![1 + c, 1 - c] : Fin 2 → ℝ) = ![1 / (1 + c : ℂ), 0] := by
    funext i
    unfold Coef.lInv
    rw [hsup]
    fin_cases i
    · have : (1 + c) > tol * (1 + c) := by nlinarith
      simp [this]
    · have : ¬ (1 - c > tol * (1 + c)) := not_lt.2 ht
      simp [this]
  have hne : (1 + c : ℂ) ≠ 0 := by
    have : (1 + c : ℝ) ≠ 0 := by linarith
    exact_mod_cast this
  have hs2 : (s : ℂ) * s = (1 - c) * (1 + c) := by
    have : ((c ^ 2 + s ^ 2 : ℝ) : ℂ) = 1 := by rw [h1]; simp
    push_cast at this
    linear_combination this
  have hI : Coef.mInv tol U l V =
      !![1 / (2 * (1 + (c : ℂ))), 1 / (2 * (1 + (c : ℂ))); 1 / (2 * (1 + (c : ℂ))), 1 / (2 * (1 + (c : ℂ)))] := by
    rw [mInv_unique h h' tol]
    unfold Coef.mInv
    rw [hl]
    ext i j
    fin_cases i <;> fin_cases j <;> simp [Matrix.mul_apply, Fin.sum_univ_two, Matrix.vecMul_diagonal, hr] <;> field_simp <;>
      linear_combination (exp := 1) (2 : ℂ) * hh
  unfold Coef.coeffs Coef.reconstruct
  rw [hI, twoD_centred, twoD_mean, two_q]
  ext i t
  fin_cases i <;> fin_cases t <;>
    simp [twoPhi, Matrix.mul_apply, Fin.sum_univ_two] <;> field_simp <;>
    first
    | ring1
    | linear_combination hs2

/-- one mode only: the exact projection -/
theorem one_rec (tol : ℝ) (h1 : c ^ 2 + s ^ 2 = 1) (ht0 : 0 ≤ tol) (ht1 : tol < 1)
    (U V : Matrix (Fin 1) (Fin 1) ℂ) (l : Fin 1 → ℝ) (h : Coef.IsSvd (Coef.mMat (onePhi c s) (fun _ => 1)) U l V) :
    Coef.reconstruct (onePhi c s) (Coef.coeffs (onePhi c s) (fun _ => 1) twoD tol U l V) (Coef.ltMean twoD) =
      !![(c * s : ℂ), -(c * s : ℂ); (s * s : ℂ), -(s * s : ℂ)] := by
  have hcs : (c : ℂ) * c + s * s = 1 := by
    have : ((c ^ 2 + s ^ 2 : ℝ) : ℂ) = 1 := by rw [h1]; simp
    push_cast at this
    rw [← this]; ring
  have hM : Coef.mMat (onePhi c s) (fun _ => 1) = 1 := by
    ext i j
    fin_cases i; fin_cases j
    simp [Coef.mMat, onePhi, Matrix.mul_apply, Fin.sum_univ_two, hcs]
  have h' : Coef.IsSvd (Coef.mMat (onePhi c s) (fun _ => 1)) 1 (fun _ => 1) 1 :=
    ⟨by simp, by simp, fun _ => zero_le_one, by rw [hM]; simp⟩
  have hI : Coef.mInv tol U l V = 1 := by
    rw [mInv_unique h h' tol]
    unfold Coef.mInv Coef.lInv
    simp [ht1]
  unfold Coef.coeffs Coef.reconstruct
  rw [hI, twoD_centred, twoD_mean, Matrix.one_mul, one_q]
  ext i t
  fin_cases i <;> fin_cases t <;> simp [onePhi, Matrix.mul_apply]

end Parallel

/-- a results folder with one unit mode at each of two frequencies -/
noncomputable def texStored (c s : ℝ) : Stored where
  xdim := 1
  nv := 1
  nModes := 1
  freq := [0, 1]
  weights := npSave ⟨[2, 1], fun _ => 1⟩
  modes := fun f => if f = 0 then some (npSave ⟨[2, 1, 1], fun i => if i = [0, 0, 0] then 1 else 0⟩)
    else if f = 1 then some (npSave ⟨[2, 1, 1], fun i => if i = [0, 0, 0] then (c : ℂ) else (s : ℂ)⟩) else none

def texFrames : List (Arr ℝ) := [⟨[2], fun i => if i = [0] then 0 else 1⟩, ⟨[2], fun i => if i = [0] then 0 else -1⟩]

/-- all frequencies -/
noncomputable def texAll (tol : ℝ) : Opts := ⟨none, none, none, tol, false⟩
/-- only the second frequency -/
noncomputable def texLast (tol : ℝ) : Opts := ⟨some 1, some 1, none, tol, false⟩

theorem tex_ready_all (c s tol : ℝ) : Ready (texStored c s) (texAll tol) texFrames ⟨0, 1, 2, [0, 1]⟩ [2] [2, 1] where
  band := by simp [Coef.selectBand, texStored, texAll, Coef.arange]; rfl
  len := rfl
  sel := by simp
  fits := {
    weights := rfl
    snaps := by
      intro a ha
      simp only [texFrames, List.mem_cons, List.not_mem_nil, or_false] at ha
      rcases ha with rfl | rfl <;> rfl
    axis := Or.inr ⟨rfl, rfl, by simp [texStored]⟩
    modes := by
      intro f hf
      simp only [List.mem_cons, List.not_mem_nil, or_false] at hf
      rcases hf with rfl | rfl
      · exact ⟨_, rfl, rfl⟩
      · exact ⟨_, rfl, rfl⟩ }
  some_ := by simp [texFrames]
  dim := by simp
  modes := Nat.one_pos
  pos := by decide

theorem tex_ready_last (c s tol : ℝ) : Ready (texStored c s) (texLast tol) texFrames ⟨1, 1, 1, [1]⟩ [2] [2, 1] where
  band := by
    simp [Coef.selectBand, texStored, texLast, Coef.arange, Coef.findNearestFreq, Coef.argmin, Coef.argminGo]
  len := rfl
  sel := by simp
  fits := {
    weights := rfl
    snaps := (tex_ready_all c s tol).fits.snaps
    axis := Or.inr ⟨rfl, rfl, by simp [texStored]⟩
    modes := fun f hf => (tex_ready_all c s tol).fits.modes f (by simp at hf ⊢; omega) }
  some_ := by simp [texFrames]
  dim := by simp
  modes := Nat.one_pos
  pos := by decide

theorem tex_entry (c s : ℝ) (fs : List Nat) (k : Nat) (i : Fin (size [2, 1])) (j : Fin k) :
    specPhi (texStored c s) fs [2, 1] k i j = if fs.getD j 0 = 0 then (if i.1 = 0 then 1 else 0)
      else if fs.getD j 0 = 1 then (if i.1 = 0 then (c : ℂ) else (s : ℂ)) else 0 := by
  have hi : i.1 = 0 ∨ i.1 = 1 := by have := i.2; simp [size] at this; omega
  show (match (texStored c s).modes (fs.getD (j.1 / (texStored c s).nModes) 0) with
    | some f => (f.data (ravel f.shape (unravel [2, 1] i.1 ++ [j.1 % (texStored c s).nModes]))).getD default
    | none => 0) = _
  have e : (texStored c s).nModes = 1 := rfl
  rw [e, Nat.div_one, Nat.mod_one]
  by_cases h0 : fs.getD j.1 0 = 0
  · rw [h0]
    rcases hi with h | h <;> simp [texStored, h, npSave, unravel, ravel, size]
  · by_cases h1 : fs.getD j.1 0 = 1
    · rw [h1]
      rcases hi with h | h <;> simp [texStored, h, npSave, unravel, ravel, size]
    · have : (texStored c s).modes (fs.getD j.1 0) = none := by simp only [texStored, if_neg h0, if_neg h1]
      rw [this, if_neg h0, if_neg h1]

theorem tex_phi_all (c s : ℝ) : selPhi (texStored c s) ⟨0, 1, 2, [0, 1]⟩ [2, 1] = twoPhi c s := by
  have : ∀ i j : Fin 2, selPhi (texStored c s) ⟨0, 1, 2, [0, 1]⟩ [2, 1] i j = twoPhi c s i j := by
    intro i j
    refine (tex_entry c s [0, 1] _ i j).trans ?_
    fin_cases i <;> fin_cases j <;> simp [twoPhi]
  funext i j
  exact this i j

theorem tex_phi_last (c s : ℝ) : selPhi (texStored c s) ⟨1, 1, 1, [1]⟩ [2, 1] = onePhi c s := by
  have : ∀ (i : Fin 2) (j : Fin 1), selPhi (texStored c s) ⟨1, 1, 1, [1]⟩ [2, 1] i j = onePhi c s i j := by
    intro i j
    refine (tex_entry c s [1] _ i j).trans ?_
    fin_cases i <;> fin_cases j <;> simp [onePhi]
  funext i j
  exact this i j

theorem tex_D : specD texFrames [2, 1] = twoD := by
  have : ∀ i j : Fin 2, specD texFrames [2, 1] i j = twoD i j := by
    intro i j
    refine (specD_apply texFrames [2, 1] i j).trans ?_
    fin_cases i <;> fin_cases j <;> simp [texFrames, twoD, flat, unravel, size]
  funext i j
  exact this i j

theorem tex_wt (c s : ℝ) : specWt (texStored c s) [2, 1] = fun _ => (1 : ℝ) := by
  have : ∀ i : Fin 2, specWt (texStored c s) [2, 1] i = 1 := by
    intro i
    fin_cases i <;> simp [specWt, texStored, npSave, size]
  funext i
  exact this i

/-- an angle below the resolution of the tolerance -/
theorem angle_exists (tol : ℝ) (h0 : 0 < tol) (h1 : tol < 1) :
    ∃ c s : ℝ, 0 < c ∧ c < 1 ∧ 0 < s ∧ c ^ 2 + s ^ 2 = 1 ∧ 1 - c ≤ tol * (1 + c) := by
  have hp : 0 < 1 + tol := by linarith
  have hc1 : (1 - tol) / (1 + tol) < 1 := by rw [div_lt_one hp]; linarith
  have hc0 : 0 < (1 - tol) / (1 + tol) := div_pos (by linarith) hp
  refine ⟨(1 - tol) / (1 + tol), Real.sqrt (1 - ((1 - tol) / (1 + tol)) ^ 2), hc0, hc1, ?_, ?_, ?_⟩
  · apply Real.sqrt_pos.2
    nlinarith
  · rw [Real.sq_sqrt (by nlinarith)]; ring
  · have : 1 - (1 - tol) / (1 + tol) = tol * (1 + (1 - tol) / (1 + tol)) := by field_simp; ring
    exact this.le

/-- what is written with both modes -/
noncomputable def twoR (c s : ℝ) : Matrix (Fin 2) (Fin 2) ℂ := !![(s / 2 : ℂ), -(s / 2 : ℂ); ((1 - c) / 2 : ℂ), -((1 - c) / 2 : ℂ)]

/-- what is written with the second mode only -/
noncomputable def oneR (c s : ℝ) : Matrix (Fin 2) (Fin 2) ℂ := !![(c * s : ℂ), -(c * s : ℂ); (s * s : ℂ), -(s * s : ℂ)]

theorem tex_run_all (c s tol : ℝ) (hc0 : 0 < c) (hc1 : c < 1) (hcs : c ^ 2 + s ^ 2 = 1) (hle : 1 - c ≤ tol * (1 + c)) (h1 : tol < 1)
    (svd : Svd) (hsvd : ∀ k M, Coef.IsSvd M (svd k M).1 (svd k M).2.1 (svd k M).2.2)
    (comms comms' : List Comm) (sched sched' : Sched) (hrun : IsRun comms sched) (hrun' : IsRun comms' sched') :
    ∃ G, project (texStored c s) (texAll tol) svd texFrames comms sched = some G ∧
      reconstruct G none (.str "all") comms' sched' = some (npSave (timeArr (nt := 2) [2, 1] (twoR c s))) := by
  have hrd := tex_ready_all c s tol
  obtain ⟨G, g1, -, g2⟩ := project_reconstruct (texStored c s) (texAll tol) svd texFrames ⟨0, 1, 2, [0, 1]⟩ [2] [2, 1] hrd.band hrd.len
    hrd.sel hrd.fits hrd.some_ hrd.dim hrd.modes hrd.pos comms comms' sched sched' hrun hrun'
  refine ⟨G, g1, g2.trans ?_⟩
  have hrec := two_rec c s tol hc0.le hc1.le hcs hle h1 _ _ _ (hsvd 2 (Coef.mMat (twoPhi c s) fun _ => 1))
  have e1 := tex_phi_all c s
  have e2 := tex_wt c s
  have e3 := tex_D
  unfold selPhi at e1
  simp only [e1, e2]
  rw [e3]
  exact congrArg (fun R => some (npSave (timeArr (nt := 2) [2, 1] R))) hrec

theorem tex_run_last (c s tol : ℝ) (hcs : c ^ 2 + s ^ 2 = 1) (h0 : 0 < tol) (h1 : tol < 1)
    (svd : Svd) (hsvd : ∀ k M, Coef.IsSvd M (svd k M).1 (svd k M).2.1 (svd k M).2.2)
    (comms comms' : List Comm) (sched sched' : Sched) (hrun : IsRun comms sched) (hrun' : IsRun comms' sched') :
    ∃ G, project (texStored c s) (texLast tol) svd texFrames comms sched = some G ∧
      reconstruct G none (.str "all") comms' sched' = some (npSave (timeArr (nt := 2) [2, 1] (oneR c s))) := by
  have hrd := tex_ready_last c s tol
  obtain ⟨G, g1, -, g2⟩ := project_reconstruct (texStored c s) (texLast tol) svd texFrames ⟨1, 1, 1, [1]⟩ [2] [2, 1] hrd.band hrd.len
    hrd.sel hrd.fits hrd.some_ hrd.dim hrd.modes hrd.pos comms comms' sched sched' hrun hrun'
  refine ⟨G, g1, g2.trans ?_⟩
  have hrec := one_rec c s tol hcs h0.le h1 _ _ _ (hsvd 1 (Coef.mMat (onePhi c s) fun _ => 1))
  have e1 := tex_phi_last c s
  have e2 := tex_wt c s
  have e3 := tex_D
  unfold selPhi at e1
  simp only [e1, e2]
  rw [e3]
  exact congrArg (fun R => some (npSave (timeArr (nt := 2) [2, 1] R))) hrec

theorem norm_sq_real (x : ℝ) (z : ℂ) (h : z = (x : ℂ)) : ‖z‖ ^ 2 = x ^ 2 := by
  rw [h, Complex.norm_real, Real.norm_eq_abs, sq_abs]

theorem two_dist (c s : ℝ) (w : Fin 2 → ℝ) (hw : w = fun _ => 1) :
    sqDist w (col twoD 0) (col (twoR c s) 0) = (s / 2) ^ 2 + ((1 + c) / 2) ^ 2 := by
  subst hw
  simp only [sqDist, Fin.sum_univ_two, one_mul]
  rw [norm_sq_real (-(s / 2)) _ (by simp [col, twoD, twoR]), norm_sq_real ((1 + c) / 2) _ (by simp [col, twoD, twoR]; ring)]
  ring

theorem one_dist (c s : ℝ) (w : Fin 2 → ℝ) (hw : w = fun _ => 1) :
    sqDist w (col twoD 0) (col (oneR c s) 0) = (c * s) ^ 2 + (1 - s ^ 2) ^ 2 := by
  subst hw
  simp only [sqDist, Fin.sum_univ_two, one_mul]
  rw [norm_sq_real (-(c * s)) _ (by simp [col, twoD, oneR]), norm_sq_real (1 - s ^ 2) _ (by simp [col, twoD, oneR]; ring)]
  ring

/-- **C154 fails** for every positive tolerance below one (the default is `1e-10`): there is a results folder with one unit mode at
    each of two frequencies, independent, and data that are exact combinations of them, whose reconstruction misses them. -/
theorem best_approximation_fails (tol : ℝ) (h0 : 0 < tol) (h1 : tol < 1) (svd : Svd)
    (hsvd : ∀ k M, Coef.IsSvd M (svd k M).1 (svd k M).2.1 (svd k M).2.2)
    (comms comms' : List Comm) (sched sched' : Sched) (hrun : IsRun comms sched) (hrun' : IsRun comms' sched') :
    ∃ (S : Stored) (o : Opts) (frames : List (Arr ℝ)) (b : Coef.Band) (dims sh : List Nat) (G : Folder)
      (R : Matrix (Fin (size sh)) (Fin frames.length) ℂ) (t : Fin frames.length) (a : Fin (b.freqIdx.length * S.nModes) → ℂ),
      o.tol = tol ∧ Ready S o frames b dims sh ∧ (∀ i, 0 < specWt S sh i) ∧ (∀ v, selPhi S b sh *ᵥ v = 0 → v = 0) ∧
      project S o svd frames comms sched = some G ∧
      reconstruct G none (.str "all") comms' sched' = some (npSave (timeArr sh R)) ∧
      combo (Coef.ltMean (specD frames sh)) (selPhi S b sh) a = col (specD frames sh) t ∧
      0 < sqDist (specWt S sh) (col (specD frames sh) t) (col R t) := by
  obtain ⟨c, s, hc0, hc1, hs, hcs, hle⟩ := angle_exists tol h0 h1
  obtain ⟨G, g1, g2⟩ := tex_run_all c s tol hc0 hc1 hcs hle h1 svd hsvd comms comms' sched sched' hrun hrun'
  have hs' : (s : ℂ) ≠ 0 := by exact_mod_cast hs.ne'
  refine ⟨texStored c s, texAll tol, texFrames, ⟨0, 1, 2, [0, 1]⟩, [2], [2, 1], G, twoR c s, (0 : Fin 2),
    (![-(c : ℂ) / s, 1 / s] : Fin 2 → ℂ), rfl, tex_ready_all c s tol, ?_, ?_, g1, g2, ?_, ?_⟩
  · intro i; rw [tex_wt]; exact one_pos
  · rw [tex_phi_all]
    have hv2 : ∀ v : Fin 2 → ℂ, twoPhi c s *ᵥ v = 0 → v = 0 := by
      intro v hv
      have e0 := congrFun hv 0
      have e1 := congrFun hv 1
      simp only [Matrix.mulVec, dotProduct, Fin.sum_univ_two, twoPhi] at e0 e1
      simp [hs'] at e0 e1
      funext j
      fin_cases j
      · simpa [e1] using e0
      · simpa using e1
    exact hv2
  · rw [tex_phi_all, tex_D]
    have : combo (Coef.ltMean twoD) (twoPhi c s) ![-(c : ℂ) / s, 1 / s] = col twoD 0 := by
      rw [twoD_mean]
      funext i
      fin_cases i <;> simp [combo, col, twoPhi, twoD, hs'] <;> field_simp <;> ring
    exact this
  · rw [tex_D]
    refine lt_of_lt_of_eq ?_ (two_dist c s _ (tex_wt c s)).symm
    positivity

/-- **C155 fails** for every positive tolerance below one: there is a results folder and data for which selecting both frequencies
    gives a reconstruction farther from a snapshot than selecting one of them. -/
theorem more_frequencies_fails (tol : ℝ) (h0 : 0 < tol) (h1 : tol < 1) (svd : Svd)
    (hsvd : ∀ k M, Coef.IsSvd M (svd k M).1 (svd k M).2.1 (svd k M).2.2)
    (comms comms' : List Comm) (sched sched' : Sched) (hrun : IsRun comms sched) (hrun' : IsRun comms' sched') :
    ∃ (S : Stored) (o o' : Opts) (frames : List (Arr ℝ)) (b b' : Coef.Band) (dims sh : List Nat) (G G' : Folder)
      (R R' : Matrix (Fin (size sh)) (Fin frames.length) ℂ) (t : Fin frames.length),
      o.tol = tol ∧ o'.tol = tol ∧ Ready S o frames b dims sh ∧ Ready S o' frames b' dims sh ∧ (∀ i, 0 < specWt S sh i) ∧
      (∀ f ∈ b.freqIdx, f ∈ b'.freqIdx) ∧
      project S o svd frames comms sched = some G ∧ project S o' svd frames comms sched = some G' ∧
      reconstruct G none (.str "all") comms' sched' = some (npSave (timeArr sh R)) ∧
      reconstruct G' none (.str "all") comms' sched' = some (npSave (timeArr sh R')) ∧
      sqDist (specWt S sh) (col (specD frames sh) t) (col R t) < sqDist (specWt S sh) (col (specD frames sh) t) (col R' t) := by
  obtain ⟨c, s, hc0, hc1, hs, hcs, hle⟩ := angle_exists (tol / 2) (by linarith) (by linarith)
  have hle' : 1 - c ≤ tol * (1 + c) := by nlinarith
  obtain ⟨G', g1, g2⟩ := tex_run_all c s tol hc0 hc1 hcs hle' h1 svd hsvd comms comms' sched sched' hrun hrun'
  obtain ⟨G, g3, g4⟩ := tex_run_last c s tol hcs h0 h1 svd hsvd comms comms' sched sched' hrun hrun'
  refine ⟨texStored c s, texLast tol, texAll tol, texFrames, ⟨1, 1, 1, [1]⟩, ⟨0, 1, 2, [0, 1]⟩, [2], [2, 1], G, G', oneR c s,
    twoR c s, (0 : Fin 2), rfl, rfl, tex_ready_last c s tol, tex_ready_all c s tol, ?_, by simp, g3, g1, g4, g2, ?_⟩
  · intro i; rw [tex_wt]; exact one_pos
  · rw [tex_D]
    refine lt_of_eq_of_lt (one_dist c s _ (tex_wt c s)) (lt_of_lt_of_eq ?_ (two_dist c s _ (tex_wt c s)).symm)
    have hs2 : s ^ 2 = 1 - c ^ 2 := by linarith
    have : (c * s) ^ 2 + (1 - s ^ 2) ^ 2 = c ^ 2 := by rw [mul_pow, hs2]; ring
    rw [this]
    have : (s / 2) ^ 2 + ((1 + c) / 2) ^ 2 = (1 + c) / 2 := by rw [div_pow, hs2]; ring
    rw [this]
    nlinarith

/-! #### The hypotheses are met -/

example (c s : ℝ) (svd : Svd) : Ready (texStored c s) (texAll 0) texFrames ⟨0, 1, 2, [0, 1]⟩ [2] [2, 1] ∧
    Ready (texStored c s) (texLast 0) texFrames ⟨1, 1, 1, [1]⟩ [2] [2, 1] ∧ (∀ i, 0 < specWt (texStored c s) [2, 1] i) ∧
    NoCut (texStored c s) (texAll 0) svd ⟨0, 1, 2, [0, 1]⟩ [2, 1] ∧ ∃ svd : Svd, ∀ k M, Coef.IsSvd M (svd k M).1 (svd k M).2.1 (svd k M).2.2 := by
  refine ⟨tex_ready_all c s 0, tex_ready_last c s 0, fun i => by rw [tex_wt]; exact one_pos, Or.inl rfl, ?_⟩
  choose U l V hsvd using coef_svd_exists
  exact ⟨fun k M => (U k M, l k M, V k M), hsvd⟩

/-- the modes of the example are real -/
example (c s : ℝ) : ∀ f ∈ [0, 1], ∀ file, (texStored c s).modes f = some file → ∀ i z, file.data i = some z → z.im = 0 := by
  intro f hf file hfile i z hz
  simp only [List.mem_cons, List.not_mem_nil, or_false] at hf
  rcases hf with rfl | rfl <;> simp [texStored] at hfile <;> subst hfile <;> simp only [npSave] at hz <;> split at hz <;>
    simp at hz <;> subst hz <;> split <;> simp

/-- the hypothesis of `projection_affine`: twice the first example in reverse order, plus one -/
example : ∀ (t : Fin [(⟨[2], fun i => if i = [0] then 1 else -1⟩ : Arr ℝ), ⟨[2], fun i => if i = [0] then 1 else 3⟩].length)
    (i : Fin (size [2, 1])), flat ([(⟨[2], fun i => if i = [0] then 1 else -1⟩ : Arr ℝ), ⟨[2], fun i => if i = [0] then 1 else 3⟩].getD t
      ⟨[], fun _ => 0⟩) i = 2 * flat (texFrames.getD (Equiv.swap (0 : Fin 2) 1 t).1 ⟨[], fun _ => 0⟩) i + 1 := by
  have : ∀ t i : Fin 2, flat ([(⟨[2], fun i => if i = [0] then 1 else -1⟩ : Arr ℝ), ⟨[2], fun i => if i = [0] then 1 else 3⟩].getD t
      ⟨[], fun _ => 0⟩) i = 2 * flat (texFrames.getD (Equiv.swap (0 : Fin 2) 1 t).1 ⟨[], fun _ => 0⟩) i + 1 := by
    intro t i
    fin_cases t <;> fin_cases i <;> simp [flat, texFrames, unravel, size] <;> norm_num
  exact this

end Verif.Props
