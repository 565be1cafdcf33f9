import Verif.Props.Project
/-
  The coefficients do not depend on which singular value decomposition the library returns; real modes give real
  coefficients and a real reconstruction.
-/
namespace Verif.Props
open Verif Verif.Par Verif.Fit Verif.Proj Matrix

section Unique
variable {m : Type} [Fintype m] [DecidableEq m]

/-- the two decompositions are linked by `W = Vᴴ V'` and `X = Uᴴ U'` -/
theorem svd_link {M U V U' V' : Matrix m m ℂ} {l l' : m → ℝ} (h : Coef.IsSvd M U l V) (h' : Coef.IsSvd M U' l' V') :
    (∀ i j, (l i : ℂ) * (Vᴴ * V') i j = (Uᴴ * U') i j * (l' j : ℂ)) ∧
    (∀ i j, (l i : ℂ) * (Uᴴ * U') i j = (Vᴴ * V') i j * (l' j : ℂ)) := by
  have hU' : U' * U'ᴴ = 1 := mul_eq_one_comm.1 h'.left
  have hV' : V' * V'ᴴ = 1 := mul_eq_one_comm.1 h'.right
  have e : U * diagonal (fun i => (l i : ℂ)) * Vᴴ = U' * diagonal (fun i => (l' i : ℂ)) * V'ᴴ := by rw [← h.factor, ← h'.factor]
  have e1 : diagonal (fun i => (l i : ℂ)) * (Vᴴ * V') = (Uᴴ * U') * diagonal (fun i => (l' i : ℂ)) := by
    have := congrArg (fun A => Uᴴ * A * V') e
    simp only [Matrix.mul_assoc] at this
    rw [h'.right, Matrix.mul_one, ← Matrix.mul_assoc, h.left, Matrix.one_mul] at this
    rw [this, Matrix.mul_assoc]
  have e2 : diagonal (fun i => (l i : ℂ)) * (Uᴴ * U') = (Vᴴ * V') * diagonal (fun i => (l' i : ℂ)) := by
    have hd : ∀ k : m → ℝ, (diagonal fun i => (k i : ℂ))ᴴ = diagonal fun i => (k i : ℂ) := by
      intro k
      rw [diagonal_conjTranspose]
      congr 1
      funext i
      simp
    have hc := congrArg conjTranspose e
    simp only [conjTranspose_mul, conjTranspose_conjTranspose, hd] at hc
    have := congrArg (fun A => Vᴴ * A * U') hc
    simp only [Matrix.mul_assoc] at this
    rw [h'.left, Matrix.mul_one, ← Matrix.mul_assoc, h.right, Matrix.one_mul] at this
    rw [this, Matrix.mul_assoc]
  constructor
  · intro i j
    have := congrFun (congrFun e1 i) j
    rwa [diagonal_mul, mul_diagonal] at this
  · intro i j
    have := congrFun (congrFun e2 i) j
    rwa [diagonal_mul, mul_diagonal] at this

theorem svd_values {M U V U' V' : Matrix m m ℂ} {l l' : m → ℝ} (h : Coef.IsSvd M U l V) (h' : Coef.IsSvd M U' l' V') (i j : m)
    (hne : l i ≠ l' j) : (Vᴴ * V') i j = 0 ∧ (Uᴴ * U') i j = 0 := by
  obtain ⟨h1, h2⟩ := svd_link h h'
  have hsq : ((l i : ℂ) ^ 2 - (l' j : ℂ) ^ 2) ≠ 0 := by
    intro h0
    have : (l i) ^ 2 = (l' j) ^ 2 := by exact_mod_cast sub_eq_zero.1 h0
    exact hne ((sq_eq_sq₀ (h.nonneg i) (h'.nonneg j)).1 this)
  constructor
  · have : ((l i : ℂ) ^ 2 - (l' j : ℂ) ^ 2) * (Vᴴ * V') i j = 0 := by linear_combination (l i : ℂ) * h1 i j + (l' j : ℂ) * h2 i j
    exact (mul_eq_zero.1 this).resolve_left hsq
  · have : ((l i : ℂ) ^ 2 - (l' j : ℂ) ^ 2) * (Uᴴ * U') i j = 0 := by linear_combination (l i : ℂ) * h2 i j + (l' j : ℂ) * h1 i j
    exact (mul_eq_zero.1 this).resolve_left hsq

theorem svd_range_le {M U V U' V' : Matrix m m ℂ} {l l' : m → ℝ} (h : Coef.IsSvd M U l V) (h' : Coef.IsSvd M U' l' V') :
    Set.range l' ⊆ Set.range l := by
  rintro _ ⟨j, rfl⟩
  by_contra hj
  have hz : ∀ i, (Vᴴ * V') i j = 0 := fun i => (svd_values h h' i j fun he => hj ⟨i, he⟩).1
  have hV : V * Vᴴ = 1 := mul_eq_one_comm.1 h.right
  have hu : (Vᴴ * V')ᴴ * (Vᴴ * V') = 1 := by
    rw [conjTranspose_mul, conjTranspose_conjTranspose, Matrix.mul_assoc, ← Matrix.mul_assoc V, hV, Matrix.one_mul, h'.right]
  have := congrFun (congrFun hu j) j
  rw [Matrix.mul_apply, Matrix.one_apply_eq, Finset.sum_eq_zero] at this
  · exact zero_ne_one this
  · intro i _
    rw [hz i, mul_zero]

/-- **C107 (matrix).** The truncated inverse of a matrix is the same for all its singular value decompositions. -/
theorem mInv_unique {M U V U' V' : Matrix m m ℂ} {l l' : m → ℝ} (h : Coef.IsSvd M U l V) (h' : Coef.IsSvd M U' l' V')
    (tol : ℝ) : Coef.mInv tol U l V = Coef.mInv tol U' l' V' := by
  have hU : U * Uᴴ = 1 := mul_eq_one_comm.1 h.left
  have hU' : U' * U'ᴴ = 1 := mul_eq_one_comm.1 h'.left
  have hV : V * Vᴴ = 1 := mul_eq_one_comm.1 h.right
  have hmax : (⨆ j, l j) = ⨆ j, l' j := by
    unfold iSup
    rw [(svd_range_le h' h).antisymm (svd_range_le h h')]
  have key : diagonal (Coef.lInv tol l) * (Uᴴ * U') = (Vᴴ * V') * diagonal (Coef.lInv tol l') := by
    ext i j
    rw [diagonal_mul, mul_diagonal]
    by_cases hij : l i = l' j
    · rcases eq_or_ne (l i) 0 with h0 | h0
      · have h0' : l' j = 0 := by rw [← hij, h0]
        simp [Coef.lInv, h0, h0']
      · have h1 := (svd_link h h').1 i j
        have hX : (Vᴴ * V') i j = (Uᴴ * U') i j := by
          rw [← hij, mul_comm] at h1
          exact mul_right_cancel₀ (by exact_mod_cast h0) h1
        rw [hX, mul_comm]
        simp only [Coef.lInv, hij, hmax]
    · obtain ⟨a, b⟩ := svd_values h h' i j hij
      rw [a, b, zero_mul, mul_zero]
  have := congrArg (fun A => V * A * U'ᴴ) key
  simp only [Matrix.mul_assoc] at this
  rw [hU', Matrix.mul_one, ← Matrix.mul_assoc V Vᴴ, hV, Matrix.one_mul] at this
  unfold Coef.mInv
  rw [Matrix.mul_assoc, this, Matrix.mul_assoc]

/-- entrywise conjugate of a decomposition of a real matrix -/
theorem svd_conj {M U V : Matrix m m ℂ} {l : m → ℝ} (h : Coef.IsSvd M U l V) (hM : M.map (starRingEnd ℂ) = M) :
    Coef.IsSvd M (U.map (starRingEnd ℂ)) l (V.map (starRingEnd ℂ)) := by
  have hct : ∀ A : Matrix m m ℂ, (A.map (starRingEnd ℂ))ᴴ = Aᴴ.map (starRingEnd ℂ) := fun A => rfl
  have hone : (1 : Matrix m m ℂ).map (starRingEnd ℂ) = 1 := Matrix.map_one _ (map_zero _) (map_one _)
  refine ⟨?_, ?_, h.nonneg, ?_⟩
  · rw [hct, ← Matrix.map_mul, h.left, hone]
  · rw [hct, ← Matrix.map_mul, h.right, hone]
  · have hd : (diagonal fun i => (l i : ℂ)).map (starRingEnd ℂ) = diagonal fun i => (l i : ℂ) := by
      rw [diagonal_map (map_zero _)]
      congr 1
      funext i
      simp
    conv_lhs => rw [← hM, h.factor]
    rw [Matrix.map_mul, Matrix.map_mul, hd, hct]

theorem mInv_real {M U V : Matrix m m ℂ} {l : m → ℝ} (h : Coef.IsSvd M U l V) (hM : M.map (starRingEnd ℂ) = M) (tol : ℝ) :
    (Coef.mInv tol U l V).map (starRingEnd ℂ) = Coef.mInv tol U l V := by
  rw [mInv_unique h (svd_conj h hM) tol]
  have hd : (diagonal (Coef.lInv tol l)).map (starRingEnd ℂ) = diagonal (Coef.lInv tol l) := by
    rw [diagonal_map (map_zero _)]
    congr 1
    funext i
    simp only [Coef.lInv]
    split <;> simp
  have hcc : ∀ A : Matrix m m ℂ, (A.map (starRingEnd ℂ)).map (starRingEnd ℂ) = A := by
    intro A; ext i j; simp
  have hct : ∀ A : Matrix m m ℂ, (A.map (starRingEnd ℂ))ᴴ = Aᴴ.map (starRingEnd ℂ) := fun A => rfl
  conv_rhs => rw [← mInv_unique h (svd_conj h hM) tol]
  unfold Coef.mInv
  rw [Matrix.map_mul, Matrix.map_mul, hct, hcc, hcc, hd]

end Unique

/-! ### The projection does not depend on the library -/

/-- **C107.** Any two libraries that return a singular value decomposition lead to the same outcome of `compute_coeffs_op`: the
    same files, or an exception in both cases. -/
theorem projection_svd_free (S : Stored) (o : Opts) (svd svd' : Svd)
    (h : ∀ k M, Coef.IsSvd M (svd k M).1 (svd k M).2.1 (svd k M).2.2)
    (h' : ∀ k M, Coef.IsSvd M (svd' k M).1 (svd' k M).2.1 (svd' k M).2.2)
    (frames : List (Arr ℝ)) (comms : List Comm) (sched : Sched) :
    project S o svd frames comms sched = project S o svd' frames comms sched := by
  have hu : ∀ k M, Coef.mInv o.tol (svd k M).1 (svd k M).2.1 (svd k M).2.2 =
      Coef.mInv o.tol (svd' k M).1 (svd' k M).2.1 (svd' k M).2.2 := fun k M => mInv_unique (h k M) (h' k M) o.tol
  simp only [project, projectBand, hu]

/-- **C107 (the option `svd`).** `svd=True` and `svd=False` store the same. -/
theorem projection_svd_option (S : Stored) (o : Opts) (svd svd' : Svd)
    (h : ∀ k M, Coef.IsSvd M (svd k M).1 (svd k M).2.1 (svd k M).2.2)
    (h' : ∀ k M, Coef.IsSvd M (svd' k M).1 (svd' k M).2.1 (svd' k M).2.2) (frames : List (Arr ℝ)) (b : Coef.Band)
    (dims sh : List Nat) (hb : Coef.selectBand S.freq o.tLb o.tUb o.freqIdx = .ok b) (hlen : b.nFreqR = b.freqIdx.length)
    (hfs : b.freqIdx ≠ []) (F : Fits S b.freqIdx frames dims sh) (hfr : frames ≠ []) (hd : dims ≠ []) (hk : 0 < S.nModes)
    (flag : Bool) (comms comms' : List Comm) (sched sched' : Sched) (hrun : IsRun comms sched) (hrun' : IsRun comms' sched') :
    ∃ G, project S o svd frames comms sched = some G ∧ project S { o with svd := flag } svd' frames comms' sched' = some G := by
  obtain ⟨ax, hmax, a1, a2⟩ := projection_files S o svd frames b dims sh hb hlen hfs F hfr hd hk
  obtain ⟨ax', hmax', b1, b2⟩ := projection_files S { o with svd := flag } svd frames b dims sh hb hlen hfs F hfr hd hk
  refine ⟨globalFolder S b.freqIdx o.tol svd frames sh ax, ?_, ?_⟩
  · rcases hrun with ⟨rfl, rfl⟩ | ⟨p, s, hp, hs, rfl, rfl⟩
    · exact a2
    · exact a1 p hp s hs
  · rw [← projection_svd_free S { o with svd := flag } svd svd' h h']
    rw [hmax'.unique hmax] at b1 b2
    rcases hrun' with ⟨rfl, rfl⟩ | ⟨p, s, hp, hs, rfl, rfl⟩
    · exact b2
    · exact b1 p hp s hs

/-! ### Real modes -/

theorem real_mul {X Y Z : Type} [Fintype Y] (A : Matrix X Y ℂ) (B : Matrix Y Z ℂ) (hA : ∀ i j, (A i j).im = 0)
    (hB : ∀ i j, (B i j).im = 0) (i : X) (j : Z) : ((A * B) i j).im = 0 := by
  rw [Matrix.mul_apply, Complex.im_sum]
  refine Finset.sum_eq_zero fun k _ => ?_
  rw [Complex.mul_im, hA, hB]
  ring

theorem coeffs_real {X m T : Type} [Fintype X] [Fintype m] [DecidableEq X] [DecidableEq m] [Fintype T] (Φ : Matrix X m ℂ)
    (w : X → ℝ) (d : Matrix X T ℂ) (hΦ : ∀ i j, (Φ i j).im = 0) (hd : ∀ i j, (d i j).im = 0) (tol : ℝ) (U V : Matrix m m ℂ)
    (l : m → ℝ) (h : Coef.IsSvd (Coef.mMat Φ w) U l V) (i : m) (t : T) : (Coef.coeffs Φ w d tol U l V i t).im = 0 := by
  have hH : ∀ i j, (Φᴴ i j).im = 0 := by intro i j; simp [hΦ]
  have hW : ∀ i j, ((diagonal fun i => (w i : ℂ)) i j).im = 0 := by
    intro i j
    rw [diagonal_apply]
    split <;> simp
  have hM : (Coef.mMat Φ w).map (starRingEnd ℂ) = Coef.mMat Φ w := by
    ext i j
    rw [Matrix.map_apply, Complex.conj_eq_iff_im]
    exact real_mul _ _ hH (real_mul _ _ hW hΦ) i j
  have hI : ∀ i j, (Coef.mInv tol U l V i j).im = 0 := by
    intro i j
    rw [← Complex.conj_eq_iff_im]
    exact congrFun (congrFun (mInv_real h hM tol) i) j
  have hc : ∀ i t, (Coef.centred d i t).im = 0 := by
    intro i t
    have hs : (∑ t, d i t).im = 0 := by
      rw [Complex.im_sum]
      exact Finset.sum_eq_zero fun t _ => hd i t
    simp [Coef.centred, Coef.ltMean, hd, hs]
  exact real_mul _ _ hI (real_mul _ _ hH (real_mul _ _ hW hc)) i t

/-- **C105 (part).** If the stored modes are real, the reconstruction of real data is real, on any numbers of ranks and for every
    tolerance. -/
theorem reconstruction_real_partial (S : Stored) (o : Opts) (svd : Svd)
    (hsvd : ∀ k M, Coef.IsSvd M (svd k M).1 (svd k M).2.1 (svd k M).2.2)
    (frames : List (Arr ℝ)) (b : Coef.Band) (dims sh : List Nat)
    (hb : Coef.selectBand S.freq o.tLb o.tUb o.freqIdx = .ok b) (hlen : b.nFreqR = b.freqIdx.length) (hfs : b.freqIdx ≠ [])
    (F : Fits S b.freqIdx frames dims sh) (hfr : frames ≠ []) (hd : dims ≠ []) (hk : 0 < S.nModes) (hpos : 0 < size sh)
    (hreal : ∀ f ∈ b.freqIdx, ∀ file, S.modes f = some file → ∀ i z, file.data i = some z → z.im = 0)
    (comms comms' : List Comm) (sched sched' : Sched) (hrun : IsRun comms sched) (hrun' : IsRun comms' sched') :
    ∃ G R, project S o svd frames comms sched = some G ∧ reconstruct G none (.str "all") comms' sched' = some (npSave R) ∧
      R.shape = frames.length :: sh ∧ ∀ idx, (R.at' idx).im = 0 := by
  obtain ⟨G, h1, -, h3⟩ := project_reconstruct S o svd frames b dims sh hb hlen hfs F hfr hd hk hpos comms comms' sched sched'
    hrun hrun'
  refine ⟨G, _, h1, h3, rfl, fun idx => ?_⟩
  have hΦ : ∀ i j, (specPhi S b.freqIdx sh (b.freqIdx.length * S.nModes) i j).im = 0 := by
    intro i j
    have hj : j.1 / S.nModes < b.freqIdx.length := by rw [Nat.div_lt_iff_lt_mul hk]; exact j.2
    have hmem : b.freqIdx.getD (j.1 / S.nModes) 0 ∈ b.freqIdx := by
      rw [List.getD_eq_getElem _ _ hj]
      exact List.getElem_mem _
    obtain ⟨file, g1, -⟩ := F.modes _ hmem
    have : ∀ n, ((file.data n).getD default).im = 0 := by
      intro n
      rcases hn : file.data n with _ | z
      · rfl
      · exact hreal _ hmem file g1 n z hn
    simp only [specPhi, Matrix.of_apply, g1]
    exact this _
  have hD : ∀ i t, (specD frames sh i t).im = 0 := fun i t => Complex.ofReal_im _
  have hc := coeffs_real _ (specWt S sh) _ hΦ hD o.tol _ _ _ (hsvd _ _)
  simp only [timeArr]
  split
  · rename_i hlt
    simp only [Coef.reconstruct, Matrix.of_apply, Complex.add_im]
    rw [real_mul _ _ hΦ hc, zero_add]
    have hs : (∑ t, specD frames sh ⟨ravel sh idx.tail, hlt.1⟩ t).im = 0 := by
      rw [Complex.im_sum]
      exact Finset.sum_eq_zero fun t _ => hD _ t
    simp [Coef.ltMean, hs]
  · rfl

/-- one mode: the projection of a point disturbance `±1` at `y` -/
theorem one_mode_point {X m : Type} [Fintype X] [Fintype m] [DecidableEq X] [DecidableEq m] (j0 : m) (hj : ∀ j, j = j0)
    (Φ : Matrix X m ℂ) (w : X → ℝ) (hw : ∀ i, 0 < w i) (tol : ℝ) (ht : 0 ≤ tol) (ht1 : tol < 1) (U V : Matrix m m ℂ) (l : m → ℝ)
    (h : Coef.IsSvd (Coef.mMat Φ w) U l V) (x y : X) (him : (Φ x j0 * star (Φ y j0)).im ≠ 0) (d : Matrix X (Fin 2) ℂ)
    (h0 : ∀ i, d i 0 = if i = y then 1 else 0) (h1 : ∀ i, d i 1 = if i = y then -1 else 0) :
    (Coef.reconstruct Φ (Coef.coeffs Φ w d tol U l V) (Coef.ltMean d) x 0).im ≠ 0 := by
  have huniv : (Finset.univ : Finset m) = {j0} := by ext j; simp [hj j]
  have hx : Φ x j0 ≠ 0 := by intro h0; simp [h0] at him
  have hpos := op_independent Φ w hw (by
    intro v hv
    have := congrFun hv x
    simp only [Matrix.mulVec, dotProduct, huniv, Finset.sum_singleton, Pi.zero_apply] at this
    funext j
    rw [hj j]
    exact (mul_eq_zero.1 this).resolve_left hx) U V l h
  have hsup : (⨆ j, l j) = l j0 := by
    have : Nonempty m := ⟨j0⟩
    have hl : l = fun _ => l j0 := by funext j; rw [hj j]
    rw [hl, ciSup_const]
  have hinv := mInv_mul h tol ht (by
    intro i
    rw [hsup, hj i]
    have := hpos j0
    nlinarith)
  have hmean : Coef.ltMean d = 0 := by
    funext i
    simp only [Coef.ltMean, Fin.sum_univ_two, h0, h1]
    split <;> simp
  have hc : Coef.centred d = d := by
    ext i t
    simp [Coef.centred, hmean]
  have hM0 := congrFun (congrFun hinv j0) j0
  rw [Matrix.mul_apply, huniv, Finset.sum_singleton, Matrix.one_apply_eq] at hM0
  have hMreal : Coef.mMat Φ w j0 j0 = ((∑ i, w i * Complex.normSq (Φ i j0) : ℝ) : ℂ) := by
    rw [Coef.mMat, Matrix.mul_apply]
    push_cast
    refine Finset.sum_congr rfl fun i _ => ?_
    rw [Matrix.diagonal_mul, Matrix.conjTranspose_apply, Complex.normSq_eq_conj_mul_self, Complex.star_def]
    ring
  set s : ℝ := ∑ i, w i * Complex.normSq (Φ i j0) with hs
  have hs0 : s ≠ 0 := by
    intro h0
    rw [hMreal, h0] at hM0
    simp at hM0
  have hI : Coef.mInv tol U l V j0 j0 = ((s⁻¹ : ℝ) : ℂ) := by
    rw [hMreal] at hM0
    rw [Complex.ofReal_inv]
    exact eq_inv_of_mul_eq_one_left hM0
  have hq : Coef.qMat Φ w d j0 0 = star (Φ y j0) * (w y : ℂ) := by
    rw [Coef.qMat, Matrix.mul_apply, Finset.sum_eq_single y]
    · rw [Matrix.diagonal_mul, Matrix.conjTranspose_apply, h0, if_pos rfl, mul_one]
    · intro i _ hi
      rw [Matrix.diagonal_mul, h0, if_neg hi, mul_zero, mul_zero]
    · simp
  have : Coef.reconstruct Φ (Coef.coeffs Φ w d tol U l V) (Coef.ltMean d) x 0 =
      ((s⁻¹ * w y : ℝ) : ℂ) * (Φ x j0 * star (Φ y j0)) := by
    simp only [Coef.reconstruct, Matrix.of_apply, hmean, Pi.zero_apply, add_zero]
    rw [Matrix.mul_apply, huniv, Finset.sum_singleton]
    simp only [Coef.coeffs]
    rw [hc, Matrix.mul_apply, huniv, Finset.sum_singleton, hI, hq]
    push_cast
    ring
  rw [this, Complex.im_ofReal_mul]
  exact mul_ne_zero (mul_ne_zero (inv_ne_zero hs0) (hw y).ne') him

/-- **C105 fails**: whenever the phase of a stored mode varies in space, there are real data whose reconstruction from this mode is
    not real. -/
theorem reconstruction_real_fails (S : Stored) (o : Opts) (svd : Svd)
    (hsvd : ∀ k M, Coef.IsSvd M (svd k M).1 (svd k M).2.1 (svd k M).2.2)
    (b : Coef.Band) (dims sh : List Nat) (f : Nat) (file : NpyFile ℂ)
    (hb : Coef.selectBand S.freq o.tLb o.tUb o.freqIdx = .ok b) (hlen : b.nFreqR = 1) (hfs : b.freqIdx = [f])
    (F : Fits S b.freqIdx [] dims sh) (hd : dims ≠ []) (hk : S.nModes = 1) (hfile : S.modes f = some file)
    (hw : ∀ i, 0 < specWt S sh i) (ht : 0 ≤ o.tol) (ht1 : o.tol < 1) (x y : List Nat) (hx : InRange sh x) (hy : InRange sh y)
    (him : (((openMemmap file).at' (x ++ [0])) * star ((openMemmap file).at' (y ++ [0]))).im ≠ 0) :
    ∃ frames : List (Arr ℝ), (∀ a ∈ frames, a.shape = dims) ∧
      ∀ comms comms' sched sched', IsRun comms sched → IsRun comms' sched' →
        ∃ G R, project S o svd frames comms sched = some G ∧ reconstruct G none (.str "all") comms' sched' = some (npSave R) ∧
          InRange R.shape (0 :: x) ∧ (R.at' (0 :: x)).im ≠ 0 := by
  have hsz : size sh = size dims := by
    rcases F.axis with ⟨h, _⟩ | ⟨h, _⟩
    · rw [h]
    · rw [h, size_append, Nat.mul_one]
  have hxl := ravel_lt hx
  have hyl := ravel_lt hy
  let fr : List (Arr ℝ) := [⟨dims, fun idx => if ravel dims idx = ravel sh y then 1 else 0⟩,
    ⟨dims, fun idx => if ravel dims idx = ravel sh y then -1 else 0⟩]
  have hfrs : ∀ a ∈ fr, a.shape = dims := by
    intro a ha
    simp only [fr, List.mem_cons, List.not_mem_nil, or_false] at ha
    rcases ha with rfl | rfl <;> rfl
  have F' : Fits S b.freqIdx fr dims sh := ⟨F.weights, hfrs, F.axis, F.modes⟩
  have hfr : fr ≠ [] := by simp [fr]
  refine ⟨fr, hfrs, fun comms comms' sched sched' hrun hrun' => ?_⟩
  obtain ⟨G, h1, -, h3⟩ := project_reconstruct S o svd fr b dims sh hb (by rw [hlen, hfs]; rfl) (by simp [hfs]) F' hfr hd
    (by omega) (by omega) comms comms' sched sched' hrun hrun'
  refine ⟨G, _, h1, h3, ⟨by simp [fr], hx⟩, ?_⟩
  have e : ravel sh x < size sh ∧ 0 < fr.length := ⟨hxl, by simp [fr]⟩
  rw [timeArr_at sh _ 0 x e.2 e.1]
  have hkk : b.freqIdx.length * S.nModes = 1 := by rw [hfs, hk]; rfl
  have j0 : Fin (b.freqIdx.length * S.nModes) := ⟨0, by omega⟩
  have hval : ∀ z, InRange sh z → ∀ h : ravel sh z < size sh, ∀ j : Fin (b.freqIdx.length * S.nModes),
      specPhi S b.freqIdx sh (b.freqIdx.length * S.nModes) ⟨ravel sh z, h⟩ j = (openMemmap file).at' (z ++ [0]) := by
    intro z hz h j
    have hj : j.1 = 0 := by have := j.2; omega
    have e1 : b.freqIdx.getD (j.1 / S.nModes) 0 = f := by rw [hj, Nat.zero_div, hfs]; rfl
    have e2 : j.1 % S.nModes = 0 := by rw [hj, Nat.zero_mod]
    simp only [specPhi, Matrix.of_apply, e1, hfile, openMemmap, unravel_ravel hz, e2]
  have key := one_mode_point j0 (fun j => Fin.ext (by have := j.2; have := j0.2; omega))
    (specPhi S b.freqIdx sh (b.freqIdx.length * S.nModes)) (specWt S sh) hw o.tol ht ht1 _ _ _ (hsvd _ _)
    ⟨ravel sh x, hxl⟩ ⟨ravel sh y, hyl⟩ (by rw [hval x hx, hval y hy]; exact him) (specD fr sh) (by
      intro i
      rw [specD_apply]
      have hi : i.1 < size dims := by rw [← hsz]; exact i.2
      simp only [fr, flat, Fin.val_zero, List.getD_cons_zero, ravel_unravel hi, Fin.ext_iff]
      split <;> simp) (by
      intro i
      rw [specD_apply]
      have hi : i.1 < size dims := by rw [← hsz]; exact i.2
      simp only [fr, flat, Fin.val_one, List.getD_cons_succ, List.getD_cons_zero, ravel_unravel hi, Fin.ext_iff]
      split <;> simp)
  exact key

/-! #### The hypotheses are met: two points, one mode, real or with varying phase -/

noncomputable def rexFile (z : ℂ) : NpyFile ℂ := npSave ⟨[2, 1, 1], fun i => if i = [0, 0, 0] then 1 else z⟩

noncomputable def rexStored (z : ℂ) : Stored where
  xdim := 1
  nv := 1
  nModes := 1
  freq := [0]
  weights := npSave ⟨[2, 1], fun i => if i = [0, 0] then 1 else 2⟩
  modes := fun _ => some (rexFile z)

theorem rex_fits (z : ℂ) (frames : List (Arr ℝ)) (h : ∀ a ∈ frames, a.shape = [2]) :
    Fits (rexStored z) [0] frames [2] [2, 1] :=
  ⟨rfl, h, Or.inr ⟨rfl, rfl, by simp [rexStored]⟩, fun _ _ => ⟨rexFile z, rfl, rfl⟩⟩

theorem rex_band (z : ℂ) : Coef.selectBand (rexStored z).freq pexOpts.tLb pexOpts.tUb pexOpts.freqIdx = .ok ⟨0, 0, 1, [0]⟩ := by
  simp [Coef.selectBand, rexStored, pexOpts, Coef.arange]

theorem rex_weights (z : ℂ) (i : Fin (size [2, 1])) : 0 < specWt (rexStored z) [2, 1] i := by
  have hi : i.1 = 0 ∨ i.1 = 1 := by have := i.2; simp [size] at this; omega
  rcases hi with h | h <;> simp [specWt, rexStored, npSave, h, size, unravel]

theorem rex_at (z : ℂ) : (openMemmap (rexFile z)).at' [0, 0, 0] = 1 ∧ (openMemmap (rexFile z)).at' [1, 0, 0] = z := by
  constructor <;> simp [openMemmap, rexFile, npSave, ravel, size, unravel]

example : ∃ svd : Svd, (∀ k M, Coef.IsSvd M (svd k M).1 (svd k M).2.1 (svd k M).2.2) ∧
    ∃ frames : List (Arr ℝ), (∀ a ∈ frames, a.shape = [2]) ∧
      ∀ comms comms' sched sched', IsRun comms sched → IsRun comms' sched' →
        ∃ G R, project (rexStored Complex.I) pexOpts svd frames comms sched = some G ∧
          reconstruct G none (.str "all") comms' sched' = some (npSave R) ∧ (R.at' (0 :: [0, 0])).im ≠ 0 := by
  choose U l V hsvd using coef_svd_exists
  refine ⟨fun k M => (U k M, l k M, V k M), hsvd, ?_⟩
  obtain ⟨fr, h1, h2⟩ := reconstruction_real_fails (rexStored Complex.I) pexOpts (fun k M => (U k M, l k M, V k M)) hsvd
    ⟨0, 0, 1, [0]⟩ [2] [2, 1] 0 (rexFile Complex.I) (rex_band _) rfl rfl (rex_fits _ [] (by simp)) (by simp) rfl rfl
    (rex_weights _) (by simp [pexOpts]) (by simp [pexOpts]) [0, 0] [1, 0] (by simp [InRange]) (by simp [InRange])
    (by simp [rex_at])
  refine ⟨fr, h1, fun comms comms' sched sched' hr hr' => ?_⟩
  obtain ⟨G, R, a, b, -, c⟩ := h2 comms comms' sched sched' hr hr'
  exact ⟨G, R, a, b, c⟩

example (comms comms' : List Comm) (sched sched' : Sched) (hrun : IsRun comms sched) (hrun' : IsRun comms' sched') :
    ∃ svd G R, project (rexStored 3) pexOpts svd pexFrames comms sched = some G ∧
      reconstruct G none (.str "all") comms' sched' = some (npSave R) ∧ ∀ idx, (R.at' idx).im = 0 := by
  choose U l V hsvd using coef_svd_exists
  obtain ⟨G, R, a, b, -, c⟩ := reconstruction_real_partial (rexStored 3) pexOpts (fun k M => (U k M, l k M, V k M)) hsvd pexFrames
    ⟨0, 0, 1, [0]⟩ [2] [2, 1] (rex_band _) rfl (by simp) (rex_fits _ _ pex_fits.snaps) (by simp [pexFrames]) (by simp)
    (by decide) (by decide) (by
      intro f _ file hfile i z hz
      simp only [rexStored, Option.some.injEq] at hfile
      subst hfile
      simp only [rexFile, npSave] at hz
      split at hz
      · simp only [Option.some.injEq] at hz
        subst hz
        split <;> simp
      · simp at hz) comms comms' sched sched' hrun hrun'
  exact ⟨_, G, R, a, b, c⟩

example (comms comms' : List Comm) (sched sched' : Sched) (hrun : IsRun comms sched) (hrun' : IsRun comms' sched') :
    ∃ svd G, project pexStored pexOpts svd pexFrames comms sched = some G ∧
      project pexStored { pexOpts with svd := true } svd pexFrames comms' sched' = some G := by
  choose U l V hsvd using coef_svd_exists
  obtain ⟨G, a, b⟩ := projection_svd_option pexStored pexOpts (fun k M => (U k M, l k M, V k M))
    (fun k M => (U k M, l k M, V k M)) hsvd hsvd pexFrames ⟨0, 0, 1, [0]⟩ [2] [2, 1] pex_band rfl (by simp) pex_fits
    (by simp [pexFrames]) (by simp) (by decide) true comms comms' sched sched' hrun hrun'
  exact ⟨_, G, a, b⟩

end Verif.Props
