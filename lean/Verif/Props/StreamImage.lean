import Verif.Props.StreamUnique
/-
  C189: streaming fits of linear images of the data.
-/
set_option linter.unusedSectionVars false
set_option linter.unusedVariables false
namespace Verif.Props
open Verif Verif.Par Verif.Rd Verif.Stream Verif.Spod Verif.Fit Verif.SFit Matrix

section
variable {X Y : Type} [Fintype X] [DecidableEq X] [Fintype Y] [DecidableEq Y] {k : Nat}

theorem norm_image (Q : Matrix Y X ℂ) (hQ : Qᴴ * Q = 1) (v : X → ℂ) : ∑ i, Complex.normSq ((Q *ᵥ v) i) = ∑ i, Complex.normSq (v i) := by
  have key : ∀ {Z : Type} [Fintype Z] (u : Z → ℂ), star u ⬝ᵥ u = ((∑ i, Complex.normSq (u i) : ℝ) : ℂ) := by
    intro Z _ u
    simp only [dotProduct, Pi.star_apply]
    push_cast
    refine Finset.sum_congr rfl fun i _ => ?_
    rw [Complex.star_def, mul_comm, Complex.mul_conj]
  have h : star (Q *ᵥ v) ⬝ᵥ (Q *ᵥ v) = star v ⬝ᵥ v := by
    rw [Matrix.star_mulVec, ← Matrix.dotProduct_mulVec, Matrix.mulVec_mulVec, hQ, Matrix.one_mulVec]
  rw [key, key] at h
  exact_mod_cast h

theorem proj_image (Q : Matrix Y X ℂ) (hQ : Qᴴ * Q = 1) (r : ℝ) (U : Matrix X (Fin k) ℂ) (x : X → ℂ) :
    proj (Q * U) ((r : ℂ) • (Q *ᵥ x)) = (r : ℂ) • proj U x := by
  unfold proj
  rw [Matrix.mulVec_smul, Matrix.mulVec_mulVec, Matrix.conjTranspose_mul, Matrix.mul_assoc, hQ, Matrix.mul_one]

theorem perp_image (Q : Matrix Y X ℂ) (hQ : Qᴴ * Q = 1) (r : ℝ) (U : Matrix X (Fin k) ℂ) (x : X → ℂ) :
    uPerp (Q * U) ((r : ℂ) • (Q *ᵥ x)) = (r : ℂ) • (Q *ᵥ uPerp U x) := by
  unfold uPerp
  rw [proj_image Q hQ, Matrix.mulVec_sub, smul_sub, Matrix.mulVec_smul, Matrix.mulVec_mulVec]

theorem absUp_image (Q : Matrix Y X ℂ) (hQ : Qᴴ * Q = 1) (r : ℝ) (hr : 0 ≤ r) (U : Matrix X (Fin k) ℂ) (x : X → ℂ) :
    absUp (Q * U) ((r : ℂ) • (Q *ᵥ x)) = r * absUp U x := by
  unfold absUp
  rw [perp_image Q hQ]
  simp only [Pi.smul_apply, smul_eq_mul, Complex.normSq_mul, Complex.normSq_ofReal]
  rw [← Finset.mul_sum, norm_image Q hQ, Real.sqrt_mul (mul_self_nonneg r), Real.sqrt_mul_self hr]

theorem uNew_image (Q : Matrix Y X ℂ) (hQ : Qᴴ * Q = 1) (r : ℝ) (hr : 0 < r) (U : Matrix X (Fin k) ℂ) (x : X → ℂ) :
    uNew (Q * U) ((r : ℂ) • (Q *ᵥ x)) = Q *ᵥ uNew U x := by
  have hr' : (r : ℂ) ≠ 0 := by exact_mod_cast hr.ne'
  funext i
  unfold uNew
  rw [absUp_image Q hQ r hr.le, perp_image Q hQ]
  simp only [Pi.smul_apply, smul_eq_mul, Matrix.mulVec, dotProduct]
  push_cast
  rw [mul_div_mul_left _ _ hr', Finset.sum_div]
  exact Finset.sum_congr rfl fun j _ => by rw [mul_div_assoc]

theorem kMat_image (Q : Matrix Y X ℂ) (hQ : Qᴴ * Q = 1) (r : ℝ) (hr : 0 ≤ r) (U : Matrix X (Fin k) ℂ) (S : Fin k → ℝ) (x : X → ℂ) (c : Nat) :
    kMat (Q * U) (fun j => r * S j) ((r : ℂ) • (Q *ᵥ x)) c = (r : ℂ) • kMat U S x c := by
  unfold kMat
  rw [proj_image Q hQ, absUp_image Q hQ r hr]
  ext i j
  rcases i with i | i <;> rcases j with j | j
  · by_cases hij : i = j
    · subst hij
      simp [Matrix.smul_apply]
      ring
    · simp [Matrix.smul_apply, hij]
  · simp [Matrix.smul_apply]; ring
  · simp [Matrix.smul_apply]
  · simp [Matrix.smul_apply]; ring

theorem svd_scale {K Up : Matrix (Fin k ⊕ Unit) (Fin k ⊕ Unit) ℂ} {Sp : Fin k ⊕ Unit → ℝ} (h : IsSVD K Up Sp) (r : ℝ) (hr : 0 ≤ r) :
    IsSVD ((r : ℂ) • K) Up (fun j => r * Sp j) where
  left := h.left
  factor := by
    obtain ⟨V, hV, hK⟩ := h.factor
    refine ⟨V, hV, ?_⟩
    rw [hK]
    have : (Matrix.diagonal fun j => ((r * Sp j : ℝ) : ℂ)) = (r : ℂ) • Matrix.diagonal fun j => (Sp j : ℂ) := by
      ext i j
      by_cases hij : i = j
      · subst hij; simp
      · simp [hij]
    rw [this, Matrix.mul_smul, Matrix.smul_mul]
  nonneg j := mul_nonneg hr (h.nonneg j)
  sorted i j hij := mul_le_mul_of_nonneg_left (h.sorted i j hij) hr
  last i := mul_le_mul_of_nonneg_left (h.last i) hr

/-- the image of a run under an isometry times a positive factor is a run -/
theorem run_image {xs : List (X → ℂ)} {U : Matrix X (Fin k) ℂ} {S : Fin k → ℝ} (h : ClearRun k xs U S) (Q : Matrix Y X ℂ) (hQ : Qᴴ * Q = 1) (r : ℝ)
    (hr : 0 < r) : ClearRun k (xs.map fun x => (r : ℂ) • (Q *ᵥ x)) (Q * U) (fun j => r * S j) := by
  induction h with
  | nil =>
    have e : (fun j : Fin k => r * (0 : Fin k → ℝ) j) = 0 := by funext j; simp
    rw [e, Matrix.mul_zero]
    exact .nil
  | @snoc xs U S x Up Sp hr' ha hsvd hgap ih =>
    rw [List.map_append, List.map_cons, List.map_nil]
    have hs := svd_scale hsvd r hr.le
    rw [← kMat_image Q hQ r hr.le] at hs
    have step := ClearRun.snoc (x := (r : ℂ) • (Q *ᵥ x)) (Up := Up) (Sp := fun j => r * Sp j) ih (by
      rw [absUp_image Q hQ r hr.le]
      exact mul_ne_zero hr.ne' ha) (by rw [List.length_map]; exact hs) (by
      rcases hgap with h0 | h0
      · left; simp [h0]
      · right; intro j; exact mul_lt_mul_of_pos_left (h0 j) hr)
    have e1 : (update (Q * U) ((r : ℂ) • (Q *ᵥ x)) Up fun j => r * Sp j).1 = Q * (update U x Up Sp).1 := by
      have hrot : uRot (Q * U) ((r : ℂ) • (Q *ᵥ x)) Up = Q * uRot U x Up := by
        unfold uRot
        rw [uNew_image Q hQ r hr, ← Matrix.mul_assoc]
        congr 1
        ext i j
        rcases j with j | j <;> simp [Matrix.mul_apply, Matrix.mulVec, dotProduct]
      ext i j
      simp only [update, hrot, Matrix.mul_apply, Matrix.of_apply]
    rw [e1] at step
    exact step
end

/-- the transform of a block is linear in the data -/
theorem specBlock_linear {Y : Type} [Fintype Y] (c : Cfg) (ω : ℂ) (f m : Nat) (u' : List ℝ) (u : Y → List ℝ) (g : Y → ℝ) (N : Nat)
    (h : ∀ t < N, u'.getD t 0 = ∑ y, g y * (u y).getD t 0)
    (hm : streamStart (Stream.nPar c.nDft (sep c)) (sep c) m + c.nDft ≤ N) :
    specBlock c ω f m u' = ∑ y, (g y : ℂ) * specBlock c ω f m (u y) := by
  unfold specBlock
  simp only
  set s := streamStart (Stream.nPar c.nDft (sep c)) (sep c) m with hs
  have hg : ∀ i < s + c.nDft, ((u'.getD i 0 : ℝ) : ℂ) = ∑ y, (g y : ℂ) * (((u y).getD i 0 : ℝ) : ℂ) := by
    intro i hi
    rw [h i (by omega)]
    push_cast
    rfl
  have e : ∀ t ∈ Finset.range c.nDft, ((c.win.getD t 0 : ℝ) : ℂ) * Stream.dftMat ω c.isreal (nFreq c.nDft c.isreal c.full) f t *
      (((u'.getD (s + t) 0 : ℝ) : ℂ) - (∑ i ∈ Finset.range (s + c.nDft), ((u'.getD i 0 : ℝ) : ℂ)) / ((s + c.nDft : Nat) : ℂ)) =
      ∑ y, (g y : ℂ) * (((c.win.getD t 0 : ℝ) : ℂ) * Stream.dftMat ω c.isreal (nFreq c.nDft c.isreal c.full) f t *
      ((((u y).getD (s + t) 0 : ℝ) : ℂ) - (∑ i ∈ Finset.range (s + c.nDft), (((u y).getD i 0 : ℝ) : ℂ)) / ((s + c.nDft : Nat) : ℂ))) := by
    intro t ht
    have ht := Finset.mem_range.1 ht
    rw [hg (s + t) (by omega), Finset.sum_congr rfl fun i hi => hg i (Finset.mem_range.1 hi), Finset.sum_comm, Finset.sum_div, ← Finset.sum_sub_distrib,
      Finset.mul_sum]
    refine Finset.sum_congr rfl fun y _ => ?_
    rw [← Finset.mul_sum]
    ring
  rw [Finset.sum_congr rfl e, Finset.sum_comm, Finset.mul_sum]
  refine Finset.sum_congr rfl fun y _ => ?_
  rw [← Finset.mul_sum]
  ring

theorem image_results {X Y : Type} [Fintype X] [DecidableEq X] [Fintype Y] [DecidableEq Y] {k k' : Nat} (hk : k' = k) {xs : List (X → ℂ)}
    {U : Matrix X (Fin k) ℂ} {S : Fin k → ℝ} {U' : Matrix Y (Fin k') ℂ} {S' : Fin k' → ℝ} (Q : Matrix Y X ℂ) (hQ : Qᴴ * Q = 1) (r : ℝ) (hr : 0 < r)
    (h : ClearRun k xs U S) (h' : StreamRun k' (xs.map fun x => (r : ℂ) • (Q *ᵥ x)) U' S') :
    (∀ j (hj : j < k) (hj' : j < k'), S' ⟨j, hj'⟩ = r * S ⟨j, hj⟩) ∧
    ∀ j (hj : j < k) (hj' : j < k'), S ⟨j, hj⟩ ≠ 0 → (∀ l, l ≠ ⟨j, hj⟩ → S l ≠ S ⟨j, hj⟩) →
      ∃ z : ℂ, ‖z‖ = 1 ∧ ∀ y, U' y ⟨j, hj'⟩ = z * ∑ x, Q y x * U x ⟨j, hj⟩ := by
  subst hk
  have hi := run_image h Q hQ r hr
  obtain ⟨hd, hS⟩ := runs_agree hi h'
  refine ⟨fun j hj hj' => by rw [← hS], fun j hj hj' h0 hs => ?_⟩
  have o := stream_orthonormal hi.run
  have o' := stream_orthonormal h'
  rw [← hS] at hd o'
  obtain ⟨z, hz, hzi⟩ := density_phase _ _ _ (run_nonneg hi.run) o o' hd ⟨j, hj⟩ (mul_ne_zero hr.ne' h0) (fun l hl he =>
    hs l hl (mul_left_cancel₀ hr.ne' he))
  exact ⟨z, hz, fun y => by rw [hzi]; rfl⟩

section
variable (c : Cfg) (ω : ℂ) (frames frames' : List (Arr ℝ)) (w w' : Arr ℝ)

/-- the isometry of the weighted blocks that belongs to a map of the fields -/
noncomputable def weightedMap (r : ℝ) (T : Fin (size w'.shape) → Fin (size w.shape) → ℝ) : Matrix (Fin (size w'.shape)) (Fin (size w.shape)) ℂ :=
  Matrix.of fun x y => ((Real.sqrt (w'.at' (unravel w'.shape x)) * T x y / (r * Real.sqrt (w.at' (unravel w.shape y))) : ℝ) : ℂ)

theorem weightedMap_isometry (r : ℝ) (hr : 0 < r) (T : Fin (size w'.shape) → Fin (size w.shape) → ℝ)
    (hw : ∀ idx, InRange w.shape idx → 0 < w.at' idx) (hw' : ∀ idx, InRange w'.shape idx → 0 ≤ w'.at' idx)
    (hT : ∀ y z : Fin (size w.shape), ∑ x : Fin (size w'.shape), w'.at' (unravel w'.shape x) * T x y * T x z =
      if y = z then r ^ 2 * w.at' (unravel w.shape y) else 0) :
    (weightedMap w w' r T)ᴴ * weightedMap w w' r T = 1 := by
  ext y z
  have hy := Real.sqrt_pos.2 (hw _ (inRange_unravel y.2))
  have hz := Real.sqrt_pos.2 (hw _ (inRange_unravel z.2))
  have e : ((weightedMap w w' r T)ᴴ * weightedMap w w' r T) y z =
      (((∑ x : Fin (size w'.shape), w'.at' (unravel w'.shape x) * T x y * T x z) /
        (r * Real.sqrt (w.at' (unravel w.shape y)) * (r * Real.sqrt (w.at' (unravel w.shape z)))) : ℝ) : ℂ) := by
    rw [Matrix.mul_apply, Finset.sum_div]
    push_cast
    refine Finset.sum_congr rfl fun x _ => ?_
    simp only [weightedMap, Matrix.conjTranspose_apply, Matrix.of_apply, Complex.star_def, Complex.conj_ofReal]
    have hx := Real.mul_self_sqrt (hw' _ (inRange_unravel x.2))
    rw [← Complex.ofReal_mul]
    norm_cast
    rw [div_mul_div_comm]
    congr 1
    rw [← hx]
    rw [Real.sqrt_mul_self (Real.sqrt_nonneg _)]
    ring
  rw [e, hT y z]
  by_cases hyz : y = z
  · subst hyz
    rw [if_pos rfl, Matrix.one_apply_eq]
    have := Real.mul_self_sqrt (hw _ (inRange_unravel y.2)).le
    have e2 : r * Real.sqrt (w.at' (unravel w.shape y)) * (r * Real.sqrt (w.at' (unravel w.shape y))) = r ^ 2 * w.at' (unravel w.shape y) := by
      calc _ = r ^ 2 * (Real.sqrt (w.at' (unravel w.shape y)) * Real.sqrt (w.at' (unravel w.shape y))) := by ring
        _ = _ := by rw [this]
    rw [e2, div_self (mul_ne_zero (pow_ne_zero _ hr.ne') (hw _ (inRange_unravel y.2)).ne')]
    simp
  · rw [if_neg hyz, Matrix.one_apply_ne hyz]
    simp

theorem specVec_image (r : ℝ) (hr : 0 < r) (T : Fin (size w'.shape) → Fin (size w.shape) → ℝ)
    (hw : ∀ idx, InRange w.shape idx → 0 < w.at' idx) (hl : frames'.length = frames.length)
    (hd : ∀ t < frames.length, ∀ x : Fin (size w'.shape), (frames'.getD t ⟨[], fun _ => 0⟩).at' (unravel w'.shape x) =
      ∑ y : Fin (size w.shape), T x y * (frames.getD t ⟨[], fun _ => 0⟩).at' (unravel w.shape y)) (f m : Nat)
    (hm : streamStart (Stream.nPar c.nDft (sep c)) (sep c) m + c.nDft ≤ frames.length) :
    specVec c ω frames' w' f m = (r : ℂ) • (weightedMap w w' r T *ᵥ specVec c ω frames w f m) := by
  funext x
  unfold specVec
  rw [specBlock_linear c ω f m (frames'.map fun a => a.at' (unravel w'.shape x)) (fun y : Fin (size w.shape) => frames.map fun a => a.at' (unravel w.shape y))
    (T x) frames.length (fun t ht => by
      rw [getD_map_arr _ _ t (by rw [hl]; exact ht), hd t ht x]
      exact Finset.sum_congr rfl fun y _ => by rw [getD_map_arr _ _ t ht]) hm]
  simp only [Pi.smul_apply, smul_eq_mul, Matrix.mulVec, dotProduct, weightedMap, Matrix.of_apply]
  rw [Finset.sum_mul, Finset.mul_sum]
  refine Finset.sum_congr rfl fun y _ => ?_
  have hy : ((Real.sqrt (w.at' (unravel w.shape y)) : ℝ) : ℂ) ≠ 0 := by exact_mod_cast (Real.sqrt_pos.2 (hw _ (inRange_unravel y.2))).ne'
  have hr' : (r : ℂ) ≠ 0 := by exact_mod_cast hr.ne'
  push_cast
  field_simp

/-- **C189.** Data obtained at every time by a linear map `T` of the fields, possibly to another grid, that multiplies weighted norms by a constant `r`: changes of
    the units of the data (`T = a`, `r = |a|`) or of the weights (`T = 1`, `r = √a`), mirrored or renumbered grids, rotated vector components, changes of sign.
    A streaming fit of the image has the eigenvalues times `r` and the modes `T φ / r`, up to a factor of modulus one for every non-zero eigenvalue that is not
    repeated; for any correct routines, on any number of ranks. -/
theorem stream_isometry (h : StreamAccepted c frames w) (h' : StreamAccepted c frames' w') (hl : frames'.length = frames.length)
    (hw : ∀ idx, InRange w.shape idx → 0 < w.at' idx) (hw' : ∀ idx, InRange w'.shape idx → 0 < w'.at' idx) (r : ℝ) (hr : 0 < r)
    (T : Fin (size w'.shape) → Fin (size w.shape) → ℝ)
    (hT : ∀ y z : Fin (size w.shape), ∑ x : Fin (size w'.shape), w'.at' (unravel w'.shape x) * T x y * T x z =
      if y = z then r ^ 2 * w.at' (unravel w.shape y) else 0)
    (hd : ∀ t < frames.length, ∀ x : Fin (size w'.shape), (frames'.getD t ⟨[], fun _ => 0⟩).at' (unravel w'.shape x) =
      ∑ y : Fin (size w.shape), T x y * (frames.getD t ⟨[], fun _ => 0⟩).at' (unravel w.shape y))
    (svd : Svd (kept c frames.length)) (svd' : Svd (kept c frames'.length)) (hsvd : ∀ K, Stream.IsSVD K (svd K).1 (svd K).2)
    (hsvd' : ∀ K, Stream.IsSVD K (svd' K).1 (svd' K).2) :
    ∃ out out', streamSerial c ω frames w svd = some out ∧ streamSerial c ω frames' w' svd' = some out' ∧
      (∀ p, 0 < p → NoSingleton w p → ∀ s : (β : Type) → List (Write β) → List (Write β), (∀ β l, (s β l).Perm l) →
        streamParallel c ω frames w svd p s = some out) ∧
      (∀ p, 0 < p → NoSingleton w' p → ∀ s : (β : Type) → List (Write β) → List (Write β), (∀ β l, (s β l).Perm l) →
        streamParallel c ω frames' w' svd' p s = some out') ∧
      ∀ f, Independent c ω frames w f →
        ((∀ m, streamStart (Stream.nPar c.nDft (sep c)) (sep c) m + c.nDft ≤ frames.length → m < kept c frames.length) ∨ ClearCut c ω frames w f svd) →
        (∀ j hj hj', out'.eigs f ⟨j, hj'⟩ = r * out.eigs f ⟨j, hj⟩) ∧
        ∀ j hj, out.eigs f ⟨j, hj⟩ ≠ 0 → (∀ l, l ≠ ⟨j, hj⟩ → out.eigs f l ≠ out.eigs f ⟨j, hj⟩) →
          ∃ z : ℂ, ‖z‖ = 1 ∧ ∀ x : Fin (size w'.shape), streamMode out' f (unravel w'.shape x) j =
            z * ∑ y : Fin (size w.shape), ((T x y / r : ℝ) : ℂ) * streamMode out f (unravel w.shape y) j := by
  refine ⟨_, _, (h.runs ω svd).1, (h'.runs ω svd').1, (h.runs ω svd).2, (h'.runs ω svd').2, ?_⟩
  intro f hind hcase
  have hsp := fun m => nUpdates_spec c ω h.dft h.sep frames.length m
  have hQ := weightedMap_isometry w w' r hr T hw (fun idx hi => (hw' idx hi).le) hT
  have himg := specVec_image c ω frames frames' w w' r hr T hw hl hd f
  have hind' : Independent c ω frames' w' f := by
    intro m hm hmem
    rw [hl] at hm
    apply hind m hm
    have h1 := Submodule.mem_map_of_mem (f := (Matrix.mulVecLin (weightedMap w w' r T)ᴴ)) hmem
    rw [Submodule.map_span] at h1
    have hback : ∀ m', streamStart (Stream.nPar c.nDft (sep c)) (sep c) m' + c.nDft ≤ frames.length →
        Matrix.mulVecLin (weightedMap w w' r T)ᴴ (specVec c ω frames' w' f m') = (r : ℂ) • specVec c ω frames w f m' := by
      intro m' hm'
      rw [himg m' hm', Matrix.mulVecLin_apply, Matrix.mulVec_smul, Matrix.mulVec_mulVec, hQ, Matrix.one_mulVec]
    rw [hback m hm] at h1
    have hr' : (r : ℂ) ≠ 0 := by exact_mod_cast hr.ne'
    have h2 : Submodule.span ℂ ((Matrix.mulVecLin (weightedMap w w' r T)ᴴ) '' {v | ∃ m' < m, v = specVec c ω frames' w' f m'}) ≤
        Submodule.span ℂ {v | ∃ m' < m, v = specVec c ω frames w f m'} := by
      rw [Submodule.span_le]
      rintro _ ⟨_, ⟨m', hm', rfl⟩, rfl⟩
      have hle : streamStart (Stream.nPar c.nDft (sep c)) (sep c) m' + c.nDft ≤ frames.length := by
        have := streamStart_mono (P := Stream.nPar c.nDft (sep c)) (dn := sep c) hm'.le
        omega
      rw [SetLike.mem_coe, hback m' hle]
      exact Submodule.smul_mem _ _ (Submodule.subset_span ⟨m', hm', rfl⟩)
    have h3 := Submodule.smul_mem _ (r : ℂ)⁻¹ (h2 h1)
    rwa [smul_smul, inv_mul_cancel₀ hr', one_smul] at h3
  have run' := basis_run w'.shape svd' hsvd' (fun m idx => newCol c ω f m (w'.at' idx) (atIdx idx frames')) (nUpdates c ω frames'.length)
    (independent_cols c ω frames' w' h' f hind')
  have run : ClearRun _ ((List.range (nUpdates c ω frames.length)).map fun (m : Nat) => fun i : Fin (size w.shape) =>
      newCol c ω f m (w.at' (unravel w.shape i)) (atIdx (unravel w.shape i) frames))
      (basisMat w.shape ((lastBasis c ω frames.length f frames w svd).U 0)) (lastBasis c ω frames.length f frames w svd).S :=
    clear_run c ω frames w h svd hsvd f hind hcase
  have hxs : ((List.range (nUpdates c ω frames'.length)).map fun (m : Nat) => fun i : Fin (size w'.shape) =>
      newCol c ω f m (w'.at' (unravel w'.shape i)) (atIdx (unravel w'.shape i) frames')) =
      ((List.range (nUpdates c ω frames.length)).map fun (m : Nat) => fun i : Fin (size w.shape) =>
      newCol c ω f m (w.at' (unravel w.shape i)) (atIdx (unravel w.shape i) frames)).map fun x => (r : ℂ) • (weightedMap w w' r T *ᵥ x) := by
    rw [List.map_map, hl]
    apply List.map_congr_left
    intro m hm
    have hm := List.mem_range.1 hm
    rw [Function.comp_apply, col_spec h f m hm, ← himg m ((hsp m).1 hm)]
    exact col_spec h' f m (by rw [hl]; exact hm)
  rw [hxs] at run'
  obtain ⟨e1, e2⟩ := image_results (by rw [hl]) (weightedMap w w' r T) hQ r hr run run'
  refine ⟨e1, fun j hj h0 hs => ?_⟩
  obtain ⟨z, hz, hzi⟩ := e2 j hj (by rw [hl]; exact hj) h0 hs
  refine ⟨z, hz, fun x => ?_⟩
  have a1 := streamMode_at c ω frames' w' svd' f (unravel w'.shape x) (inRange_unravel x.2) ⟨j, by rw [hl]; exact hj⟩
  have a2 : ∀ y : Fin (size w.shape), _ := fun y => streamMode_at c ω frames w svd f (unravel w.shape y) (inRange_unravel y.2) ⟨j, hj⟩
  have ix : (⟨ravel w'.shape (unravel w'.shape x), ravel_lt (inRange_unravel x.2)⟩ : Fin (size w'.shape)) = x := Fin.ext (ravel_unravel x.2)
  have iy : ∀ y : Fin (size w.shape), (⟨ravel w.shape (unravel w.shape y), ravel_lt (inRange_unravel y.2)⟩ : Fin (size w.shape)) = y :=
    fun y => Fin.ext (ravel_unravel y.2)
  rw [ix] at a1
  simp only [iy] at a2
  simp only at a1
  rw [a1]
  refine Eq.trans (congrArg (· * _) (hzi x)) ?_
  rw [mul_assoc, Finset.sum_mul]
  congr 1
  refine Finset.sum_congr rfl fun y _ => ?_
  rw [a2 y]
  have hx : ((Real.sqrt (w'.at' (unravel w'.shape x)) : ℝ) : ℂ) ≠ 0 := by exact_mod_cast (Real.sqrt_pos.2 (hw' _ (inRange_unravel x.2))).ne'
  have hy : ((Real.sqrt (w.at' (unravel w.shape y)) : ℝ) : ℂ) ≠ 0 := by exact_mod_cast (Real.sqrt_pos.2 (hw _ (inRange_unravel y.2))).ne'
  have hr' : (r : ℂ) ≠ 0 := by exact_mod_cast hr.ne'
  simp only [weightedMap, Matrix.of_apply]
  push_cast
  field_simp

/-- the data in other units -/
def scaleAll (a : ℝ) (frames : List (Arr ℝ)) : List (Arr ℝ) := frames.map fun s => ⟨s.shape, fun idx => a * s.at' idx⟩

/-- **C189**, the case of the units: data multiplied by `a ≠ 0` have the eigenvalues times `|a|` (a streaming fit stores square roots, see C66), and the same
    modes up to a factor of modulus one. -/
theorem stream_scaled (h : StreamAccepted c frames w) (hw : ∀ idx, InRange w.shape idx → 0 < w.at' idx) (a : ℝ) (ha : a ≠ 0)
    (svd : Svd (kept c frames.length)) (svd' : Svd (kept c (scaleAll a frames).length)) (hsvd : ∀ K, Stream.IsSVD K (svd K).1 (svd K).2)
    (hsvd' : ∀ K, Stream.IsSVD K (svd' K).1 (svd' K).2) :
    ∃ out out', streamSerial c ω frames w svd = some out ∧ streamSerial c ω (scaleAll a frames) w svd' = some out' ∧
      ∀ f, Independent c ω frames w f →
        ((∀ m, streamStart (Stream.nPar c.nDft (sep c)) (sep c) m + c.nDft ≤ frames.length → m < kept c frames.length) ∨ ClearCut c ω frames w f svd) →
        (∀ j hj hj', out'.eigs f ⟨j, hj'⟩ = |a| * out.eigs f ⟨j, hj⟩) ∧
        ∀ j hj, out.eigs f ⟨j, hj⟩ ≠ 0 → (∀ l, l ≠ ⟨j, hj⟩ → out.eigs f l ≠ out.eigs f ⟨j, hj⟩) →
          ∃ z : ℂ, ‖z‖ = 1 ∧ ∀ x : Fin (size w.shape), streamMode out' f (unravel w.shape x) j = z * streamMode out f (unravel w.shape x) j := by
  have hl : (scaleAll a frames).length = frames.length := by simp [scaleAll]
  have h' : StreamAccepted c (scaleAll a frames) w := h.of_length hl (by
    intro b hb
    obtain ⟨b', hb', rfl⟩ := List.mem_map.1 hb
    exact h.shapes b' hb')
  obtain ⟨out, out', h1, h2, -, -, h3⟩ := stream_isometry c ω frames (scaleAll a frames) w w h h' hl hw hw |a| (abs_pos.2 ha)
    (fun x y => if x = y then a else 0) (by
      intro y z
      rw [Finset.sum_eq_single y (fun x _ hx => by simp [hx]) (by simp)]
      by_cases hyz : y = z
      · subst hyz
        simp only [if_true]
        rw [sq_abs]
        ring
      · simp [hyz]) (by
      intro t ht x
      rw [Finset.sum_eq_single x (fun y _ hy => by simp [Ne.symm hy]) (by simp), if_pos rfl]
      have ht' : t < (frames.map fun s => (⟨s.shape, fun idx => a * s.at' idx⟩ : Arr ℝ)).length := by simpa using ht
      simp [scaleAll, List.getD_eq_getElem?_getD, List.getElem?_eq_getElem ht]) svd svd' hsvd hsvd'
  refine ⟨out, out', h1, h2, fun f hi hc => ?_⟩
  obtain ⟨e1, e2⟩ := h3 f hi hc
  refine ⟨e1, fun j hj h0 hs => ?_⟩
  obtain ⟨z, hz, hzx⟩ := e2 j hj h0 hs
  refine ⟨z * ((a / |a| : ℝ) : ℂ), ?_, fun x => ?_⟩
  · rw [norm_mul, hz, one_mul, Complex.norm_real, Real.norm_eq_abs, abs_div, abs_abs, div_self (abs_ne_zero.2 ha)]
  · rw [hzx x, Finset.sum_eq_single x (fun y _ hy => by simp [Ne.symm hy]) (by simp), if_pos rfl, mul_assoc]

end

example : ∃ (svd : Svd (kept sexCfg sexFrames.length)) (out out' : _), streamSerial sexCfg (-Complex.I) sexFrames sexWeights svd = some out ∧
    streamSerial sexCfg (-Complex.I) (scaleAll (-3) sexFrames) sexWeights svd = some out' ∧
    ∀ j : Fin (kept sexCfg sexFrames.length), out'.eigs 1 j = 3 * out.eigs 1 j := by
  choose g1 g2 hg using fun K : Matrix (Fin (kept sexCfg sexFrames.length) ⊕ Unit) (Fin (kept sexCfg sexFrames.length) ⊕ Unit) ℂ =>
    svd_exists K
  obtain ⟨out, out', h1, h2, h3⟩ := stream_scaled sexCfg (-Complex.I) sexFrames sexWeights sex_accepted
    (fun idx _ => by simp only [sexWeights]; positivity) (-3) (by norm_num) (fun K => (g1 K, g2 K)) (fun K => (g1 K, g2 K)) hg hg
  refine ⟨_, out, out', h1, h2, fun j => ?_⟩
  have := (h3 1 (sex_independent 1 (by omega)) (Or.inl sex_few)).1 j.1 j.2 j.2
  refine this.trans ?_
  rw [abs_neg, abs_of_pos (by norm_num : (0 : ℝ) < 3)]

end Verif.Props
