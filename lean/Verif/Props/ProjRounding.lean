import Verif.Model.ProjRounding
import Verif.Props.OrthoRounding
import Verif.Props.PodRounding
import Verif.Props.Project
/-
  C244: SPOD coefficients and reconstructions in floating-point arithmetic.
-/
namespace Verif.Props
open Verif Verif.Par Verif.Round Verif.Fit Verif.Spod Verif.Proj Verif.Pod
open scoped ComplexConjugate

section
variable {X m : Type} [Fintype X] [Fintype m]

/-- `√Σ|c_j|²` -/
noncomputable def norm2 (c : m → ℂ) : ℝ := Real.sqrt (∑ j, ‖c j‖ ^ 2)

theorem vnorm_nonneg (c : m → ℂ) : 0 ≤ norm2 c := Real.sqrt_nonneg _

theorem vnorm_eq (c : m → ℂ) : norm2 c = ‖(WithLp.toLp 2 c : EuclideanSpace ℂ m)‖ := by rw [norm2, EuclideanSpace.norm_eq]

theorem norm2_add (c d : m → ℂ) : norm2 (fun j => c j + d j) ≤ norm2 c + norm2 d := by
  rw [vnorm_eq, vnorm_eq, vnorm_eq]; exact norm_add_le (WithLp.toLp 2 c : EuclideanSpace ℂ m) (WithLp.toLp 2 d)

theorem norm2_le {c : m → ℂ} {n : m → ℝ} (B : ℝ) (hB : 0 ≤ B) (h : ∀ j, ‖c j‖ ≤ B * n j) : norm2 c ≤ B * Real.sqrt (∑ j, n j ^ 2) := by
  rw [norm2]
  refine Real.sqrt_le_iff.2 ⟨mul_nonneg hB (Real.sqrt_nonneg _), ?_⟩
  rw [mul_pow, Real.sq_sqrt (Finset.sum_nonneg fun j _ => sq_nonneg _), Finset.mul_sum]
  exact Finset.sum_le_sum fun j _ => by rw [← mul_pow]; exact pow_le_pow_left₀ (norm_nonneg _) (h j) 2

theorem sum_le_norm2 (n : m → ℝ) (c : m → ℂ) : ∑ j, n j * ‖c j‖ ≤ Real.sqrt (∑ j, n j ^ 2) * norm2 c := Real.sum_mul_le_sqrt_mul_sqrt _ _ _

theorem norm_W_nonneg' (w : X → ℝ) (φ : X → ℂ) : 0 ≤ norm_W w φ := Real.sqrt_nonneg _

/-- Cauchy–Schwarz for the weighted product -/
theorem inner_W_le (w : X → ℝ) (hw : ∀ x, 0 ≤ w x) (φ ψ : X → ℂ) : ‖inner_W w φ ψ‖ ≤ norm_W w φ * norm_W w ψ := by
  rw [← wvec_inner w hw, ← wvec_norm w hw, ← wvec_norm w hw]; exact norm_inner_le_norm _ _

theorem inner_W_combo (Φ : Matrix X m ℂ) (w : X → ℝ) (c : m → ℂ) (ψ : X → ℂ) :
    inner_W w (fun x => ∑ j, Φ x j * c j) ψ = ∑ i, conj (c i) * inner_W w (fun x => Φ x i) ψ := by
  simp only [inner_W, map_sum, map_mul, Finset.sum_mul, Finset.mul_sum]
  rw [Finset.sum_comm]
  exact Finset.sum_congr rfl fun i _ => Finset.sum_congr rfl fun x _ => by ring

theorem inner_W_combo_right (Φ : Matrix X m ℂ) (w : X → ℝ) (c : m → ℂ) (ψ : X → ℂ) :
    inner_W w ψ (fun x => ∑ j, Φ x j * c j) = ∑ i, inner_W w ψ (fun x => Φ x i) * c i := by
  simp only [inner_W, Finset.sum_mul, Finset.mul_sum]
  rw [Finset.sum_comm]
  exact Finset.sum_congr rfl fun i _ => Finset.sum_congr rfl fun x _ => by ring

/-- an error in the coefficients: `r` in the normal equations, `g` in the data -/
theorem normal_error (Φ : Matrix X m ℂ) (w : X → ℝ) (hw : ∀ x, 0 ≤ w x) (σ : ℝ) (hσ : 0 < σ)
    (hlow : ∀ c : m → ℂ, σ * norm2 c ^ 2 ≤ norm_W w (fun x => ∑ j, Φ x j * c j) ^ 2) (e r : m → ℂ) (g : X → ℂ)
    (h : ∀ i, ∑ j, inner_W w (fun x => Φ x i) (fun x => Φ x j) * e j = r i + inner_W w (fun x => Φ x i) g) :
    norm2 e ≤ norm2 r / σ + norm_W w g / Real.sqrt σ := by
  set T := norm_W w (fun x => ∑ j, Φ x j * e j) with hT
  have hT0 : 0 ≤ T := norm_W_nonneg' _ _
  have hs : 0 < Real.sqrt σ := Real.sqrt_pos.2 hσ
  have key : T ^ 2 ≤ norm2 e * norm2 r + T * norm_W w g := by
    have e1 : ((T ^ 2 : ℝ) : ℂ) = inner_W w (fun x => ∑ j, Φ x j * e j) (fun x => ∑ j, Φ x j * e j) := by
      rw [hT, ← wvec_norm w hw, ← wvec_inner w hw, inner_self_eq_norm_sq_to_K]; push_cast; rfl
    have e2 : inner_W w (fun x => ∑ j, Φ x j * e j) (fun x => ∑ j, Φ x j * e j) = (∑ i, conj (e i) * r i) + inner_W w (fun x => ∑ j, Φ x j * e j) g := by
      rw [inner_W_combo, inner_W_combo, ← Finset.sum_add_distrib]
      refine Finset.sum_congr rfl fun i _ => ?_
      rw [inner_W_combo_right, h i, mul_add]
    have e3 : ‖((T ^ 2 : ℝ) : ℂ)‖ = T ^ 2 := by rw [Complex.norm_real, Real.norm_eq_abs, abs_of_nonneg (sq_nonneg _)]
    rw [← e3, e1, e2]
    refine (norm_add_le _ _).trans (add_le_add ?_ (inner_W_le w hw _ _))
    refine (norm_sum_le _ _).trans ?_
    simp only [norm_mul, RCLike.norm_conj]
    exact sum_le_norm2 _ _
  have hl := hlow e
  have hle : Real.sqrt σ * norm2 e ≤ T := by
    refine abs_le_of_sq_le_sq' ?_ hT0 |>.2
    rw [mul_pow, Real.sq_sqrt hσ.le]; exact hl
  have hTb : T ≤ norm2 r / Real.sqrt σ + norm_W w g := by
    rcases hT0.eq_or_lt with h0 | h0
    · rw [← h0]; exact add_nonneg (div_nonneg (vnorm_nonneg _) hs.le) (norm_W_nonneg' _ _)
    · have h1 : norm2 e ≤ T / Real.sqrt σ := by rw [le_div_iff₀ hs, mul_comm]; exact hle
      have h2 : T ^ 2 ≤ T * (norm2 r / Real.sqrt σ + norm_W w g) := by
        refine key.trans ?_
        have := mul_le_mul_of_nonneg_right h1 (vnorm_nonneg r)
        calc _ ≤ T / Real.sqrt σ * norm2 r + T * norm_W w g := by linarith
          _ = _ := by ring
      rw [pow_two] at h2
      exact le_of_mul_le_mul_left h2 h0
  have h1 : norm2 e ≤ T / Real.sqrt σ := by rw [le_div_iff₀ hs, mul_comm]; exact hle
  refine h1.trans ?_
  rw [div_le_iff₀ hs]
  refine hTb.trans (le_of_eq ?_)
  have : Real.sqrt σ * Real.sqrt σ = σ := Real.mul_self_sqrt hσ.le
  rw [add_mul, div_mul_cancel₀ _ hs.ne']
  congr 1
  rw [div_mul_eq_mul_div, div_eq_div_iff hs.ne' hσ.ne', mul_assoc, this]

end

/-- the coefficients of one snapshot -/
theorem coefficients_rounding {u δ : ℝ} (hu : 0 ≤ u) (comms : List Comm) (hc : Procs comms) (ax : Nat) {k : Nat} (phi : Fin k → Arr ℂ) (q : Arr ℂ) (w : Arr ℝ)
    (hw : ∀ idx, InRange w.shape idx → 0 ≤ w.at' idx) (hax : ax < w.shape.length) (hp : ∀ j, (phi j).shape = w.shape) (hq : q.shape = w.shape) (n : Nat)
    (hn : ∀ comm ∈ comms, size (distributeDimension w ax comm).shape ≤ n) (σ : ℝ) (hσ : 0 < σ)
    (hlow : ∀ c : Fin k → ℂ, σ * norm2 c ^ 2 ≤ norm_W (specW w) (fun x => ∑ j, (phi j).at' (unravel w.shape x) * c j) ^ 2)
    (ah : Fin k → ℂ) (hah : FlCoefficients u δ comms ax phi q w ah) (d : Fin (size w.shape) → ℂ) (a : Fin k → ℂ)
    (ha : ∀ i, ∑ j, inner_W (specW w) (fun x => (phi i).at' (unravel w.shape x)) (fun x => (phi j).at' (unravel w.shape x)) * a j =
      inner_W (specW w) (fun x => (phi i).at' (unravel w.shape x)) d) :
    norm2 (fun j => ah j - a j) ≤
      (roundBound u n comms.length * Real.sqrt (∑ j, norm_W (specW w) (fun x => (phi j).at' (unravel w.shape x)) ^ 2) *
        (Real.sqrt (∑ j, norm_W (specW w) (fun x => (phi j).at' (unravel w.shape x)) ^ 2) * norm2 ah + norm_W (specW w) (fun x => q.at' (unravel w.shape x))) + δ) / σ +
      norm_W (specW w) (fun x => q.at' (unravel w.shape x) - d x) / Real.sqrt σ := by
  have hw' : ∀ x, 0 ≤ specW w x := fun x => hw _ (inRange_unravel x.2)
  obtain ⟨M, b, hM, hb, hres⟩ := hah
  set N : Fin k → ℝ := fun j => norm_W (specW w) (fun x => (phi j).at' (unravel w.shape x)) with hN
  set ρ := roundBound u n comms.length with hρ
  have hρ0 : 0 ≤ ρ := roundBound_nonneg hu _ _
  set qn := norm_W (specW w) (fun x => q.at' (unravel w.shape x)) with hqn
  have hqn0 : 0 ≤ qn := norm_W_nonneg' _ _
  set F := Real.sqrt (∑ j, N j ^ 2) with hF
  have hF0 : 0 ≤ F := Real.sqrt_nonneg _
  have hMe : ∀ i j, ‖inner_W (specW w) (fun x => (phi i).at' (unravel w.shape x)) (fun x => (phi j).at' (unravel w.shape x)) - M i j‖ ≤ ρ * (N i * N j) := fun i j => by
    rw [norm_sub_rev]; exact inner_rounding hu comms hc ax (phi i) (phi j) w hw hax (hp i) (hp j) n hn _ (hM i j)
  have hbe : ∀ i, ‖b i - inner_W (specW w) (fun x => (phi i).at' (unravel w.shape x)) (fun x => q.at' (unravel w.shape x))‖ ≤ ρ * (N i * qn) := fun i =>
    inner_rounding hu comms hc ax (phi i) q w hw hax (hp i) hq n hn _ (hb i)
  set r1 : Fin k → ℂ := fun i => ∑ j, (inner_W (specW w) (fun x => (phi i).at' (unravel w.shape x)) (fun x => (phi j).at' (unravel w.shape x)) - M i j) * ah j with hr1
  set r2 : Fin k → ℂ := fun i => (∑ j, M i j * ah j) - b i with hr2
  set r3 : Fin k → ℂ := fun i => b i - inner_W (specW w) (fun x => (phi i).at' (unravel w.shape x)) (fun x => q.at' (unravel w.shape x)) with hr3
  have b1 : norm2 r1 ≤ (ρ * (F * norm2 ah)) * F := by
    refine norm2_le (n := N) _ (mul_nonneg hρ0 (mul_nonneg hF0 (vnorm_nonneg _))) fun i => ?_
    refine (norm_sum_le _ _).trans ?_
    calc _ ≤ ∑ j, ρ * N i * (N j * ‖ah j‖) := Finset.sum_le_sum fun j _ => by
          rw [norm_mul]
          refine (mul_le_mul_of_nonneg_right (hMe i j) (norm_nonneg _)).trans (le_of_eq (by ring))
      _ = ρ * N i * ∑ j, N j * ‖ah j‖ := (Finset.mul_sum _ _ _).symm
      _ ≤ ρ * N i * (F * norm2 ah) := mul_le_mul_of_nonneg_left (sum_le_norm2 N ah) (mul_nonneg hρ0 (norm_W_nonneg' _ _))
      _ = _ := by ring
  have b2 : norm2 r2 ≤ δ := by
    refine le_trans (le_of_eq ?_) hres
    rw [norm2]; congr 1
    exact Finset.sum_congr rfl fun i _ => (Complex.normSq_eq_norm_sq _).symm
  have b3 : norm2 r3 ≤ (ρ * qn) * F := norm2_le (n := N) _ (mul_nonneg hρ0 hqn0) fun i => (hbe i).trans (le_of_eq (by ring))
  have hmain := normal_error (Matrix.of fun (x : Fin (size w.shape)) j => (phi j).at' (unravel w.shape x)) (specW w) hw' σ hσ hlow (fun j => ah j - a j)
    (fun i => r1 i + r2 i + r3 i) (fun x => q.at' (unravel w.shape x) - d x) (fun i => by
      simp only [Matrix.of_apply, mul_sub, Finset.sum_sub_distrib, ha i, hr1, hr2, hr3, sub_mul]
      have : inner_W (specW w) (fun x => (phi i).at' (unravel w.shape x)) (fun x => q.at' (unravel w.shape x) - d x) =
          inner_W (specW w) (fun x => (phi i).at' (unravel w.shape x)) (fun x => q.at' (unravel w.shape x)) - inner_W (specW w) (fun x => (phi i).at' (unravel w.shape x)) d := by
        simp only [inner_W, mul_sub, Finset.sum_sub_distrib]
      rw [this]; ring)
  refine hmain.trans (add_le_add ?_ le_rfl)
  refine div_le_div_of_nonneg_right ?_ hσ.le
  have t1 := norm2_add (fun i => r1 i + r2 i) r3
  have t2 := norm2_add r1 r2
  calc _ ≤ (ρ * (F * norm2 ah)) * F + δ + (ρ * qn) * F := by linarith
    _ = _ := by ring

/-- one value of a reconstruction -/
theorem reconstruct_rounding {u : ℝ} (hu : 0 ≤ u) {k : Nat} (phi ah a : Fin k → ℂ) (mh mean X : ℝ) (nt : Nat) (hm : Approx u nt mh mean X) (z : ℂ)
    (hz : FlReconstruct u phi ah mh z) :
    ‖z - (∑ j, phi j * a j + mean)‖ ≤
      norm2 phi * (norm2 (fun j => ah j - a j) + (roundBound u k 0 * (1 + u) + u) * norm2 ah) + ((1 + u) ^ (nt + 1) - 1) * X := by
  obtain ⟨s, h1, h2, h3, h4⟩ := hz
  have hmode := mode_point hu phi ah 1 s ⟨ah, fun b => by rw [mul_one, mul_one]; exact ⟨rounds_exact hu _, rounds_exact hu _⟩, h1, h2⟩
  rw [Complex.ofReal_one, one_mul, _root_.abs_one, one_mul] at hmode
  set ρ := roundBound u k 0 with hρ
  have hρ0 : 0 ≤ ρ := roundBound_nonneg hu _ _
  set P := ∑ j, ‖phi j‖ * ‖ah j‖ with hP
  have hP0 : 0 ≤ P := Finset.sum_nonneg fun j _ => mul_nonneg (norm_nonneg _) (norm_nonneg _)
  have hPle : P ≤ norm2 phi * norm2 ah := sum_le_norm2 _ _
  have hs : ‖s‖ ≤ (1 + ρ) * P := by
    have : ‖∑ j, phi j * ah j‖ ≤ P := (norm_sum_le _ _).trans (le_of_eq (Finset.sum_congr rfl fun j _ => norm_mul _ _))
    have h := norm_add_le (s - ∑ j, phi j * ah j) (∑ j, phi j * ah j)
    rw [sub_add_cancel] at h
    linarith
  have hmh : |mh| ≤ (1 + u) ^ nt * X := by
    have := abs_add_le (mh - mean) mean
    rw [sub_add_cancel] at this
    have := hm.1; have := hm.2
    linarith
  have hz1 : ‖z - (s + mh)‖ ≤ u * ((1 + ρ) * P + (1 + u) ^ nt * X) := by
    have e : z - (s + mh) = ((z.re - (s.re + mh) : ℝ) : ℂ) := by
      apply Complex.ext <;> simp [h4]
    rw [e, Complex.norm_real, Real.norm_eq_abs]
    refine (show |z.re - (s.re + mh)| ≤ u * |s.re + mh| from h3).trans (mul_le_mul_of_nonneg_left ?_ hu)
    exact (abs_add_le _ _).trans (add_le_add ((Complex.abs_re_le_norm _).trans hs) hmh)
  have hd : ‖∑ j, phi j * (ah j - a j)‖ ≤ norm2 phi * norm2 (fun j => ah j - a j) :=
    ((norm_sum_le _ _).trans (le_of_eq (Finset.sum_congr rfl fun j _ => norm_mul _ _))).trans (sum_le_norm2 _ _)
  have hmm : ‖((mh - mean : ℝ) : ℂ)‖ ≤ ((1 + u) ^ nt - 1) * X := by rw [Complex.norm_real, Real.norm_eq_abs]; exact hm.1
  have e : z - (∑ j, phi j * a j + mean) = (z - (s + mh)) + (s - ∑ j, phi j * ah j) + (∑ j, phi j * (ah j - a j)) + ((mh - mean : ℝ) : ℂ) := by
    simp only [mul_sub, Finset.sum_sub_distrib]; push_cast; ring
  rw [e]
  refine (norm_add_le _ _).trans ((add_le_add (norm_add_le _ _) le_rfl).trans ((add_le_add (add_le_add (norm_add_le _ _) le_rfl) le_rfl).trans ?_))
  have hg : u * ((1 + ρ) * P + (1 + u) ^ nt * X) + ρ * P + norm2 phi * norm2 (fun j => ah j - a j) + ((1 + u) ^ nt - 1) * X =
      (ρ * (1 + u) + u) * P + norm2 phi * norm2 (fun j => ah j - a j) + ((1 + u) ^ (nt + 1) - 1) * X := by rw [pow_succ]; ring
  have hk : (ρ * (1 + u) + u) * P ≤ (ρ * (1 + u) + u) * (norm2 phi * norm2 ah) := mul_le_mul_of_nonneg_left hPle (by positivity)
  calc _ ≤ u * ((1 + ρ) * P + (1 + u) ^ nt * X) + ρ * P + norm2 phi * norm2 (fun j => ah j - a j) + ((1 + u) ^ nt - 1) * X := by linarith
    _ ≤ _ := by rw [hg]; linarith

section
variable {X m : Type} [Fintype X] [Fintype m]

theorem combo_le (Φ : Matrix X m ℂ) (w : X → ℝ) (hw : ∀ x, 0 ≤ w x) (c : m → ℂ) :
    norm_W w (fun x => ∑ j, Φ x j * c j) ≤ Real.sqrt (∑ j, norm_W w (fun x => Φ x j) ^ 2) * norm2 c := by
  rw [norm_W]
  refine Real.sqrt_le_iff.2 ⟨mul_nonneg (Real.sqrt_nonneg _) (vnorm_nonneg _), ?_⟩
  have e : ∀ j, norm_W w (fun x => Φ x j) ^ 2 = ∑ x, w x * ‖Φ x j‖ ^ 2 := fun j => Real.sq_sqrt (Finset.sum_nonneg fun x _ => mul_nonneg (hw x) (sq_nonneg _))
  rw [mul_pow, Real.sq_sqrt (Finset.sum_nonneg fun j _ => sq_nonneg _)]
  simp only [e]
  rw [Finset.sum_comm, Finset.sum_mul]
  refine Finset.sum_le_sum fun x _ => ?_
  rw [← Finset.mul_sum, mul_assoc]
  refine mul_le_mul_of_nonneg_left ?_ (hw x)
  have h1 : ‖∑ j, Φ x j * c j‖ ≤ ∑ j, ‖Φ x j‖ * ‖c j‖ := (norm_sum_le _ _).trans (le_of_eq (Finset.sum_congr rfl fun j _ => norm_mul _ _))
  have h2 := pow_le_pow_left₀ (norm_nonneg _) (h1.trans (sum_le_norm2 _ c)) 2
  rw [mul_pow, Real.sq_sqrt (Finset.sum_nonneg fun j _ => sq_nonneg _)] at h2
  refine h2.trans (le_of_eq ?_)
  rw [norm2]

variable [DecidableEq X] [DecidableEq m]

omit [Fintype m] [DecidableEq m] in
theorem mMat_inner (Φ : Matrix X m ℂ) (w : X → ℝ) (i j : m) : Coef.mMat Φ w i j = inner_W w (fun x => Φ x i) (fun x => Φ x j) := by
  rw [Coef.mMat, Matrix.mul_apply, inner_W]
  refine Finset.sum_congr rfl fun x _ => ?_
  rw [Matrix.diagonal_mul, Matrix.conjTranspose_apply, ← mul_assoc]; rfl

omit [Fintype m] [DecidableEq m] in
theorem qMat_inner {T : Type} [Fintype T] (Φ : Matrix X m ℂ) (w : X → ℝ) (d : Matrix X T ℂ) (i : m) (t : T) :
    Coef.qMat Φ w d i t = inner_W w (fun x => Φ x i) (fun x => d x t) := by
  rw [Coef.qMat, Matrix.mul_apply, inner_W]
  refine Finset.sum_congr rfl fun x _ => ?_
  rw [Matrix.diagonal_mul, Matrix.conjTranspose_apply, ← mul_assoc]; rfl

theorem unit_column {U : Matrix m m ℂ} (h : U.conjTranspose * U = 1) (i : m) : norm2 (fun j => U j i) = 1 := by
  have e := congrFun (congrFun h i) i
  rw [Matrix.mul_apply, Matrix.one_apply_eq] at e
  rw [norm2, Real.sqrt_eq_one]
  have : ((∑ j, ‖U j i‖ ^ 2 : ℝ) : ℂ) = 1 := by
    rw [← e]; push_cast
    refine Finset.sum_congr rfl fun j _ => ?_
    rw [Matrix.conjTranspose_apply, ← Complex.conj_mul']; rfl
  exact_mod_cast this

/-- the singular values of `M` lie between the smallest and the largest energy of the combinations of the modes -/
theorem singular_bounds (Φ : Matrix X m ℂ) (w : X → ℝ) (hw : ∀ x, 0 ≤ w x) (σ : ℝ)
    (hlow : ∀ c : m → ℂ, σ * norm2 c ^ 2 ≤ norm_W w (fun x => ∑ j, Φ x j * c j) ^ 2) (U V : Matrix m m ℂ) (l : m → ℝ) (h : Coef.IsSvd (Coef.mMat Φ w) U l V) (i : m) :
    σ ≤ l i ∧ l i ≤ ∑ j, norm_W w (fun x => Φ x j) ^ 2 := by
  have hMV : ∀ a, ∑ b, Coef.mMat Φ w a b * V b i = U a i * l i := by
    intro a
    have : (Coef.mMat Φ w * V) a i = (U * Matrix.diagonal (fun i => (l i : ℂ))) a i := by
      rw [h.factor, Matrix.mul_assoc, h.right, Matrix.mul_one]
    rwa [Matrix.mul_apply, Matrix.mul_diagonal] at this
  have hin : ∀ c : m → ℂ, inner_W w (fun x => ∑ j, Φ x j * c j) (fun x => ∑ j, Φ x j * V j i) = (∑ a, conj (c a) * U a i) * l i := by
    intro c
    rw [inner_W_combo, Finset.sum_mul]
    refine Finset.sum_congr rfl fun a _ => ?_
    rw [inner_W_combo_right, mul_assoc, ← hMV a]
    simp only [mMat_inner]
  have hU := unit_column h.left i
  have hV := unit_column h.right i
  have hcs : ∀ c : m → ℂ, norm2 c = 1 → ‖∑ a, conj (c a) * U a i‖ ≤ 1 := by
    intro c hc
    refine (norm_sum_le _ _).trans ?_
    simp only [norm_mul, RCLike.norm_conj]
    refine (sum_le_norm2 (fun a => ‖c a‖) (fun a => U a i)).trans ?_
    rw [hU, mul_one]; exact hc.le
  constructor
  · have h1 := hlow fun j => V j i
    rw [hV, one_pow, mul_one] at h1
    refine h1.trans ?_
    have e1 : ((norm_W w (fun x => ∑ j, Φ x j * V j i) ^ 2 : ℝ) : ℂ) = inner_W w (fun x => ∑ j, Φ x j * V j i) (fun x => ∑ j, Φ x j * V j i) := by
      rw [← wvec_norm w hw, ← wvec_inner w hw, inner_self_eq_norm_sq_to_K]; push_cast; rfl
    have e2 := congrArg norm (e1.trans (hin fun j => V j i))
    rw [norm_mul, Complex.norm_real, Complex.norm_real, Real.norm_eq_abs, Real.norm_eq_abs, abs_of_nonneg (sq_nonneg _), abs_of_nonneg (h.nonneg i)] at e2
    rw [e2]
    exact mul_le_of_le_one_left (h.nonneg i) (hcs _ hV)
  · have h1 := inner_W_le w hw (fun x => ∑ j, Φ x j * U j i) (fun x => ∑ j, Φ x j * V j i)
    rw [hin] at h1
    have e1 : (∑ a, conj (U a i) * U a i) = 1 := by
      have e := congrFun (congrFun h.left i) i
      rw [Matrix.mul_apply, Matrix.one_apply_eq] at e
      exact e
    rw [e1, one_mul, Complex.norm_real, Real.norm_eq_abs, abs_of_nonneg (h.nonneg i)] at h1
    have h2 := combo_le Φ w hw fun j => U j i
    have h3 := combo_le Φ w hw fun j => V j i
    rw [hU, mul_one] at h2
    rw [hV, mul_one] at h3
    refine (h1.trans (mul_le_mul h2 h3 (norm_W_nonneg' _ _) (Real.sqrt_nonneg _))).trans (le_of_eq ?_)
    exact Real.mul_self_sqrt (Finset.sum_nonneg fun j _ => sq_nonneg _)

/-- the exact coefficients solve the normal equations if no singular value is cut off -/
theorem coeffs_normal {T : Type} [Fintype T] (Φ : Matrix X m ℂ) (w : X → ℝ) (hw : ∀ x, 0 ≤ w x) (σ : ℝ)
    (hlow : ∀ c : m → ℂ, σ * norm2 c ^ 2 ≤ norm_W w (fun x => ∑ j, Φ x j * c j) ^ 2) (tol : ℝ) (ht : 0 ≤ tol)
    (hcut : tol * ∑ j, norm_W w (fun x => Φ x j) ^ 2 < σ) (U V : Matrix m m ℂ) (l : m → ℝ) (h : Coef.IsSvd (Coef.mMat Φ w) U l V) (d : Matrix X T ℂ) (i : m) (t : T) :
    ∑ j, inner_W w (fun x => Φ x i) (fun x => Φ x j) * Coef.coeffs Φ w d tol U l V j t = inner_W w (fun x => Φ x i) (fun x => Coef.centred d x t) := by
  have hall : ∀ i, tol * (⨆ j, l j) < l i := by
    intro i
    have : Nonempty m := ⟨i⟩
    refine lt_of_le_of_lt (mul_le_mul_of_nonneg_left (ciSup_le fun j => (singular_bounds Φ w hw σ hlow U V l h j).2) ht) (hcut.trans_le (singular_bounds Φ w hw σ hlow U V l h i).1)
  have h1 := mul_eq_one_comm.1 (mInv_mul h tol ht hall)
  have h2 : Coef.mMat Φ w * Coef.coeffs Φ w d tol U l V = Coef.qMat Φ w (Coef.centred d) := by
    rw [Coef.coeffs, ← Matrix.mul_assoc, h1, Matrix.one_mul]
  have h3 := congrFun (congrFun h2 i) t
  rw [Matrix.mul_apply, qMat_inner] at h3
  simpa only [mMat_inner] using h3

end

/-- **C244.** Oblique projection of data of magnitude at most `X` on the stored modes `Φ` of the selected frequencies, and reconstruction, in floating-point arithmetic with unit
    roundoff `u`: the mean `mh`, the fluctuations `dh`, the matrix of the modes and the right-hand sides (on one process or on `p` ranks with at most `N` values each, in any
    order of the additions), the coefficients `ah` (the pseudo-inverse leaves a residual `δ`) and the reconstruction `rh`.  If combinations of the modes with coefficients of
    norm one have at least the energy `σ` (and `tol` is below `σ` relative to the energy `F2` of the modes, so that nothing is cut off), they differ from the
    exact ones, which the model without rounding writes to the files, by at most the bounds. -/
theorem spod_project_floating (S : Stored) (o : Opts) (svd : Svd) (hsvd : ∀ k M, Coef.IsSvd M (svd k M).1 (svd k M).2.1 (svd k M).2.2)
    (frames : List (Arr ℝ)) (b : Coef.Band) (dims sh : List Nat)
    (hb : Coef.selectBand S.freq o.tLb o.tUb o.freqIdx = .ok b) (hlen : b.nFreqR = b.freqIdx.length) (hfs : b.freqIdx ≠ [])
    (F : Fits S b.freqIdx frames dims sh) (hfr : frames ≠ []) (hd : dims ≠ []) (hk : 0 < S.nModes) (hpos : 0 < size sh)
    (k : Nat) (hkk : k = b.freqIdx.length * S.nModes) (Φ : Matrix (Fin (size sh)) (Fin k) ℂ) (hΦ : Φ = specPhi S b.freqIdx sh k) (w : Fin (size sh) → ℝ) (hws : w = specWt S sh)
    (hwt : ∀ x, 0 ≤ w x) (F2 : ℝ) (hF2 : F2 = ∑ j, norm_W w (fun x => Φ x j) ^ 2) (σ : ℝ) (hσ : 0 < σ)
    (hlow : ∀ c : Fin k → ℂ, σ * norm2 c ^ 2 ≤ norm_W w (fun x => ∑ j, Φ x j * c j) ^ 2)
    (htol : 0 ≤ o.tol) (hcut : o.tol * F2 < σ) (c2 c3 : List Comm) (s2 s3 : Sched) (h2 : IsRun c2 s2) (h3 : IsRun c3 s3) :
    ∃ G rec, project S o svd frames c2 s2 = some G ∧ reconstruct G none (.str "all") c3 s3 = some rec ∧
      ∀ u : ℝ, 0 ≤ u → ∀ X : ℝ, (∀ t < frames.length, ∀ x < size sh, |snapVal frames t x| ≤ X) →
      ∀ mh : Nat → ℝ, (∀ x < size sh, FlMean u ((List.range frames.length).map fun t => snapVal frames t x) (mh x)) →
      ∀ dh : Nat → Arr ℝ, (∀ t, (dh t).shape = sh) →
      (∀ t < frames.length, ∀ x < size sh, Rounds u (snapVal frames t x - mh x) ((dh t).at' (unravel sh x))) →
      ∀ phi : Fin k → Arr ℂ, (∀ j, (phi j).shape = sh) → (∀ j (x : Fin (size sh)), (phi j).at' (unravel sh x) = Φ x j) →
      ∀ W : Arr ℝ, W.shape = sh → (∀ x : Fin (size sh), W.at' (unravel sh x) = w x) →
      ∀ comms : List Comm, Procs comms → ∀ ax < sh.length, ∀ N : Nat, (∀ comm ∈ comms, size (distributeDimension W ax comm).shape ≤ N) →
      ∀ (δ : ℝ) (ah : Nat → Fin k → ℂ), (∀ t < frames.length, FlCoefficients u δ comms ax phi (complexArr (dh t)) W (ah t)) →
      ∀ rh : Nat → Nat → ℂ, (∀ t < frames.length, ∀ x : Fin (size sh), FlReconstruct u (fun j => Φ x j) (ah t) (mh x) (rh t x)) →
      ∀ D E : ℝ, D = 2 * X * Real.sqrt (∑ x, w x) → ∀ t : Fin frames.length,
        E = (roundBound u N comms.length * Real.sqrt F2 * (Real.sqrt F2 * norm2 (ah t) + (1 + u) ^ (frames.length + 1) * D) + δ) / σ +
          ((1 + u) ^ (frames.length + 1) - 1) * D / Real.sqrt σ →
        (∃ a : Fin k → ℂ, (∀ j : Fin k, fileEntry G.coeffs [j.1, t.1] = some (a j)) ∧ norm2 (fun j => ah t j - a j) ≤ E) ∧
        ∀ x : Fin (size sh), ∃ r : ℂ, fileEntry rec (t.1 :: unravel sh x) = some r ∧
          ‖rh t x - r‖ ≤ norm2 (fun j => Φ x j) * (E + (roundBound u k 0 * (1 + u) + u) * norm2 (ah t)) + ((1 + u) ^ (frames.length + 1) - 1) * X := by
  subst hkk
  obtain ⟨G, g1, g2, g3⟩ := project_reconstruct S o svd frames b dims sh hb hlen hfs F hfr hd hk hpos c2 c3 s2 s3 h2 h3
  rw [← hΦ, ← hws] at g2 g3
  refine ⟨G, _, g1, g3, ?_⟩
  intro u hu X hX mh hmh dh hdh hdr phi hps hpv W hWs hWv comms hc ax hax N hN δ ah hah rh hrh D E hD t hE
  set A := Coef.coeffs Φ w (specD frames sh) o.tol (svd _ (Coef.mMat Φ w)).1 (svd _ (Coef.mMat Φ w)).2.1 (svd _ (Coef.mMat Φ w)).2.2 with hA
  have hnormal : ∀ i, ∑ j, inner_W w (fun x => Φ x i) (fun x => Φ x j) * A j t = inner_W w (fun x => Φ x i) (fun x => Coef.centred (specD frames sh) x t) := fun i =>
    coeffs_normal Φ w hwt σ hlow o.tol htol (by rw [← hF2]; exact hcut) _ _ _ (hsvd _ _) (specD frames sh) i t
  clear_value A
  subst hWs
  have hnt : 0 < frames.length := List.length_pos_iff.2 hfr
  have hX0 : 0 ≤ X := (abs_nonneg _).trans (hX 0 hnt 0 hpos)
  have hsw : specW W = w := funext fun x => hWv x
  have hm : ∀ x < size W.shape, Approx u frames.length (mh x) (snapMean frames x) X := by
    intro x hx
    have := mean_approx hu _ (by simpa using hfr) X (by
      intro y hy
      obtain ⟨t, ht, rfl⟩ := List.mem_map.1 hy
      exact hX t (List.mem_range.1 ht) x hx) (mh x) (hmh x hx)
    rwa [List.length_map, List.length_range, list_range_sum] at this
  have hmean : ∀ x : Fin (size W.shape), Coef.ltMean (specD frames W.shape) x = ((snapMean frames x : ℝ) : ℂ) := by
    intro x
    rw [Coef.ltMean, snapMean, Finset.sum_range, Fintype.card_fin]
    push_cast
    rfl
  have hdev : ∀ x : Fin (size W.shape), Approx u (frames.length + 1) ((dh t).at' (unravel W.shape x)) (snapVal frames t x - snapMean frames x) (2 * X) := fun x =>
    sub_approx hu _ X (hX t t.2 x x.2) _ _ _ _ (hm x x.2) (hdr t t.2 x x.2)
  have hWin : ∀ idx, InRange W.shape idx → 0 ≤ W.at' idx := by
    intro idx hi
    have := hwt ⟨ravel W.shape idx, ravel_lt hi⟩
    rw [← hWv ⟨ravel W.shape idx, ravel_lt hi⟩] at this
    rwa [show unravel W.shape (ravel W.shape idx) = idx from unravel_ravel hi] at this
  have hco := coefficients_rounding hu comms hc ax phi (complexArr (dh t)) W hWin hax hps (hdh t) N hN σ hσ (by simpa only [hpv, hsw] using hlow) (ah t) (hah t t.2)
    (fun x => Coef.centred (specD frames W.shape) x t) (fun j => A j t) (by simpa only [hpv, hsw] using hnormal)
  simp only [hpv, hsw] at hco
  rw [← hF2] at hco
  have hq : norm_W w (fun x => (complexArr (dh t)).at' (unravel W.shape x)) ≤ (1 + u) ^ (frames.length + 1) * D := by
    rw [hD, norm_W]
    have h1 : ∀ x, w x * ‖(complexArr (dh t)).at' (unravel W.shape x)‖ ^ 2 ≤ w x * ((1 + u) ^ (frames.length + 1) * (2 * X)) ^ 2 := by
      intro x
      refine mul_le_mul_of_nonneg_left (pow_le_pow_left₀ (norm_nonneg _) ?_ 2) (hwt x)
      show ‖(((dh t).at' (unravel W.shape x) : ℝ) : ℂ)‖ ≤ _
      rw [Complex.norm_real, Real.norm_eq_abs]
      have a1 := (hdev x).1
      have a2 := (hdev x).2
      have := abs_add_le ((dh t).at' (unravel W.shape x) - (snapVal frames t x - snapMean frames x)) (snapVal frames t x - snapMean frames x)
      rw [sub_add_cancel] at this
      linarith
    refine (Real.sqrt_le_sqrt (Finset.sum_le_sum fun x _ => h1 x)).trans ?_
    rw [← Finset.sum_mul, Real.sqrt_mul (Finset.sum_nonneg fun x _ => hwt x), Real.sqrt_sq (by positivity)]
    exact le_of_eq (by ring)
  have hg : norm_W w (fun x => (complexArr (dh t)).at' (unravel W.shape x) - Coef.centred (specD frames W.shape) x t) ≤ ((1 + u) ^ (frames.length + 1) - 1) * D := by
    have h0 : 0 ≤ (1 + u) ^ (frames.length + 1) - 1 := sub_nonneg.2 (one_le_pow₀ (by linarith))
    rw [hD, norm_W]
    have h1 : ∀ x, w x * ‖(complexArr (dh t)).at' (unravel W.shape x) - Coef.centred (specD frames W.shape) x t‖ ^ 2 ≤ w x * (((1 + u) ^ (frames.length + 1) - 1) * (2 * X)) ^ 2 := by
      intro x
      refine mul_le_mul_of_nonneg_left (pow_le_pow_left₀ (norm_nonneg _) ?_ 2) (hwt x)
      have e : (complexArr (dh t)).at' (unravel W.shape x) - Coef.centred (specD frames W.shape) x t =
          (((dh t).at' (unravel W.shape x) - (snapVal frames t x - snapMean frames x) : ℝ) : ℂ) := by
        rw [Coef.centred, Matrix.of_apply, hmean]; push_cast; rfl
      rw [e, Complex.norm_real, Real.norm_eq_abs]
      exact (hdev x).1
    refine (Real.sqrt_le_sqrt (Finset.sum_le_sum fun x _ => h1 x)).trans ?_
    rw [← Finset.sum_mul, Real.sqrt_mul (Finset.sum_nonneg fun x _ => hwt x), Real.sqrt_sq (by positivity)]
    exact le_of_eq (by ring)
  have hEle : norm2 (fun j => ah t j - A j t) ≤ E := by
    refine hco.trans ?_
    rw [hE]
    refine add_le_add (div_le_div_of_nonneg_right ?_ hσ.le) (div_le_div_of_nonneg_right hg (Real.sqrt_nonneg _))
    refine add_le_add (mul_le_mul_of_nonneg_left (add_le_add le_rfl hq) (mul_nonneg (roundBound_nonneg hu _ _) (Real.sqrt_nonneg _))) le_rfl
  refine ⟨⟨fun j => A j t, fun j => ?_, hEle⟩, fun x => ⟨Coef.reconstruct Φ A (Coef.ltMean (specD frames W.shape)) x t, ?_, ?_⟩⟩
  · have hin : InRange [b.freqIdx.length * S.nModes, frames.length] [j.1, t.1] := ⟨j.2, t.2, trivial⟩
    rw [g2, fileEntry_npSave _ _ hin]
    simp [matArr]
  · have hin : InRange (frames.length :: W.shape) (t.1 :: unravel W.shape x) := ⟨t.2, inRange_unravel x.2⟩
    have hr : ravel W.shape (unravel W.shape x) = x := ravel_unravel x.2
    rw [fileEntry_npSave _ _ hin, timeArr_at _ _ _ _ t.2 (by rw [hr]; exact x.2)]
    simp only [hr, Fin.eta]
  · have h := reconstruct_rounding hu (fun j => Φ x j) (ah t) (fun j => A j t) (mh x) (snapMean frames x) X frames.length (hm x x.2) (rh t x) (hrh t t.2 x)
    have e : Coef.reconstruct Φ A (Coef.ltMean (specD frames W.shape)) x t = ∑ j, Φ x j * A j t + ((snapMean frames x : ℝ) : ℂ) := by
      rw [Coef.reconstruct, Matrix.of_apply, Matrix.mul_apply, hmean]
    rw [e]
    refine h.trans ?_
    have : norm2 (fun j => Φ x j) * (norm2 (fun j => ah t j - A j t) + (roundBound u (b.freqIdx.length * S.nModes) 0 * (1 + u) + u) * norm2 (ah t)) ≤
        norm2 (fun j => Φ x j) * (E + (roundBound u (b.freqIdx.length * S.nModes) 0 * (1 + u) + u) * norm2 (ah t)) :=
      mul_le_mul_of_nonneg_left (by linarith) (vnorm_nonneg _)
    linarith

/-- **C244.** Round trip: data whose fluctuations are a combination of the modes are recovered up to the bound -/
theorem spod_roundtrip_floating (S : Stored) (o : Opts) (svd : Svd) (hsvd : ∀ k M, Coef.IsSvd M (svd k M).1 (svd k M).2.1 (svd k M).2.2)
    (frames : List (Arr ℝ)) (b : Coef.Band) (dims sh : List Nat)
    (hb : Coef.selectBand S.freq o.tLb o.tUb o.freqIdx = .ok b) (hlen : b.nFreqR = b.freqIdx.length) (hfs : b.freqIdx ≠ [])
    (F : Fits S b.freqIdx frames dims sh) (hfr : frames ≠ []) (hd : dims ≠ []) (hk : 0 < S.nModes) (hpos : 0 < size sh)
    (k : Nat) (hkk : k = b.freqIdx.length * S.nModes) (Φ : Matrix (Fin (size sh)) (Fin k) ℂ) (hΦ : Φ = specPhi S b.freqIdx sh k) (w : Fin (size sh) → ℝ) (hws : w = specWt S sh)
    (hwt : ∀ x, 0 ≤ w x) (F2 : ℝ) (hF2 : F2 = ∑ j, norm_W w (fun x => Φ x j) ^ 2) (σ : ℝ) (hσ : 0 < σ)
    (hlow : ∀ c : Fin k → ℂ, σ * norm2 c ^ 2 ≤ norm_W w (fun x => ∑ j, Φ x j * c j) ^ 2)
    (htol : 0 ≤ o.tol) (hcut : o.tol * F2 < σ) (a : Fin k → Fin frames.length → ℂ)
    (hspan : ∀ (x : Fin (size sh)) (t : Fin frames.length), ((snapVal frames t x - snapMean frames x : ℝ) : ℂ) = ∑ j, Φ x j * a j t)
    (u : ℝ) (hu : 0 ≤ u) (X : ℝ) (hX : ∀ t < frames.length, ∀ x < size sh, |snapVal frames t x| ≤ X)
    (mh : Nat → ℝ) (hmh : ∀ x < size sh, FlMean u ((List.range frames.length).map fun t => snapVal frames t x) (mh x))
    (dh : Nat → Arr ℝ) (hdh : ∀ t, (dh t).shape = sh) (hdr : ∀ t < frames.length, ∀ x < size sh, Rounds u (snapVal frames t x - mh x) ((dh t).at' (unravel sh x)))
    (phi : Fin k → Arr ℂ) (hps : ∀ j, (phi j).shape = sh) (hpv : ∀ j (x : Fin (size sh)), (phi j).at' (unravel sh x) = Φ x j)
    (W : Arr ℝ) (hWs : W.shape = sh) (hWv : ∀ x : Fin (size sh), W.at' (unravel sh x) = w x)
    (comms : List Comm) (hc : Procs comms) (ax : Nat) (hax : ax < sh.length) (N : Nat) (hN : ∀ comm ∈ comms, size (distributeDimension W ax comm).shape ≤ N)
    (δ : ℝ) (ah : Nat → Fin k → ℂ) (hah : ∀ t < frames.length, FlCoefficients u δ comms ax phi (complexArr (dh t)) W (ah t))
    (rh : Nat → Nat → ℂ) (hrh : ∀ t < frames.length, ∀ x : Fin (size sh), FlReconstruct u (fun j => Φ x j) (ah t) (mh x) (rh t x))
    (D E : ℝ) (hD : D = 2 * X * Real.sqrt (∑ x, w x)) (t : Fin frames.length)
    (hE : E = (roundBound u N comms.length * Real.sqrt F2 * (Real.sqrt F2 * norm2 (ah t) + (1 + u) ^ (frames.length + 1) * D) + δ) / σ +
          ((1 + u) ^ (frames.length + 1) - 1) * D / Real.sqrt σ) :
    norm2 (fun j => ah t j - a j t) ≤ E ∧ ∀ x : Fin (size sh),
      ‖rh t x - (snapVal frames t x : ℝ)‖ ≤ norm2 (fun j => Φ x j) * (E + (roundBound u k 0 * (1 + u) + u) * norm2 (ah t)) + ((1 + u) ^ (frames.length + 1) - 1) * X := by
  have hmean : ∀ x : Fin (size sh), Coef.ltMean (specD frames sh) x = ((snapMean frames x : ℝ) : ℂ) := by
    intro x
    rw [Coef.ltMean, snapMean, Finset.sum_range, Fintype.card_fin]
    push_cast
    rfl
  obtain ⟨G, rec, g1, g2, g3⟩ := spod_project_floating S o svd hsvd frames b dims sh hb hlen hfs F hfr hd hk hpos k hkk Φ hΦ w hws hwt F2 hF2 σ hσ hlow htol hcut [none] [none] none none
    (Or.inl ⟨rfl, rfl⟩) (Or.inl ⟨rfl, rfl⟩)
  obtain ⟨⟨A, hA1, hA2⟩, hr⟩ := g3 u hu X hX mh hmh dh hdh hdr phi hps hpv W hWs hWv comms hc ax hax N hN δ ah hah rh hrh D E hD t hE
  have hcutb : ∀ i, o.tol * (⨆ j, (svd _ (Coef.mMat Φ w)).2.1 j) < (svd _ (Coef.mMat Φ w)).2.1 i := by
    intro i
    have : Nonempty (Fin k) := ⟨i⟩
    refine lt_of_le_of_lt (mul_le_mul_of_nonneg_left (ciSup_le fun j => (singular_bounds Φ w hwt σ hlow _ _ _ (hsvd k _) j).2) htol)
      ((hF2 ▸ hcut).trans_le (singular_bounds Φ w hwt σ hlow _ _ _ (hsvd k _) i).1)
  subst hkk
  obtain ⟨G', e1, e2, e3⟩ := roundtrip S o svd hsvd frames b dims sh hb hlen hfs F hfr hd hk hpos (Matrix.of a) (by
      ext x t
      rw [Matrix.mul_apply, Coef.centred, Matrix.of_apply, hmean, ← hΦ]
      refine Eq.trans ?_ (hspan x t)
      push_cast; rfl) htol (Or.inr (by rw [← hΦ, ← hws]; exact hcutb)) [none] [none] none none (Or.inl ⟨rfl, rfl⟩) (Or.inl ⟨rfl, rfl⟩)
  obtain rfl : G = G' := Option.some.inj (g1.symm.trans e1)
  constructor
  · have : A = fun j => a j t := by
      funext j
      have h := hA1 j
      have hin : InRange [b.freqIdx.length * S.nModes, frames.length] [j.1, t.1] := ⟨j.2, t.2, trivial⟩
      rw [e2, fileEntry_npSave _ _ hin] at h
      simpa [matArr] using h.symm
    rw [this] at hA2; exact hA2
  · intro x
    obtain ⟨r, h1, h2⟩ := hr x
    have hrec := Option.some.inj (g2.symm.trans e3)
    have hin : InRange (frames.length :: sh) (t.1 :: unravel sh x) := ⟨t.2, inRange_unravel x.2⟩
    rw [hrec, fileEntry_npSave _ _ hin] at h1
    have hx : ravel sh (unravel sh x) = x := ravel_unravel x.2
    have : r = ((snapVal frames t x : ℝ) : ℂ) := by
      rw [← Option.some.inj h1]
      simp [dataArr, snapVal, hx]
    rw [this] at h2; exact h2

/-- modes that are orthonormal in the weighted product: `σ = 1`, and `F2` is their number -/
theorem orthonormal_energy {X : Type} [Fintype X] [DecidableEq X] {k : Nat} (Φ : Matrix X (Fin k) ℂ) (w : X → ℝ) (hw : ∀ x, 0 ≤ w x)
    (h : ∀ i j, inner_W w (fun x => Φ x i) (fun x => Φ x j) = if i = j then 1 else 0) :
    (∀ c : Fin k → ℂ, 1 * norm2 c ^ 2 ≤ norm_W w (fun x => ∑ j, Φ x j * c j) ^ 2) ∧ ∑ j, norm_W w (fun x => Φ x j) ^ 2 = k := by
  constructor
  · intro c
    refine le_of_eq ?_
    have e1 : ((norm_W w (fun x => ∑ j, Φ x j * c j) ^ 2 : ℝ) : ℂ) = ((norm2 c ^ 2 : ℝ) : ℂ) := by
      rw [← norm_W_sq w hw]
      have e : inner_W w (fun x => ∑ j, Φ x j * c j) (fun x => ∑ j, Φ x j * c j) = ((norm2 c ^ 2 : ℝ) : ℂ) := by
        rw [inner_W_combo]
        simp only [inner_W_combo_right, h, ite_mul, one_mul, zero_mul, Finset.sum_ite_eq, Finset.mem_univ, if_true]
        rw [norm2, Real.sq_sqrt (Finset.sum_nonneg fun j _ => sq_nonneg _)]
        push_cast
        exact Finset.sum_congr rfl fun j _ => Complex.conj_mul' _
      rw [e, Complex.ofReal_re]
    rw [one_mul]; exact_mod_cast e1.symm
  · have : ∀ j, norm_W w (fun x => Φ x j) ^ 2 = 1 := fun j => by rw [← norm_W_sq w hw, h, if_pos rfl]; rfl
    simp [this]

/-- possible results exist for all operands -/
theorem spod_project_possible {u : ℝ} (hu : 0 ≤ u) :
    (∀ (comms : List Comm) (ax k : Nat) (phi : Fin k → Arr ℂ) (q : Arr ℂ) (w : Arr ℝ) (a : Fin k → ℂ), ∃ δ, FlCoefficients u δ comms ax phi q w a) ∧
    ∀ (k : Nat) (phi a : Fin k → ℂ) (m : ℝ), ∃ z, FlReconstruct u phi a m z := by
  constructor
  · intro comms ax k phi q w a
    have hin : ∀ a b : Arr ℂ, ∃ z, FlInner u comms ax a b w z := by
      intro a b
      have hloc : ∀ comm : Comm, ∃ z, FlInnerLocal u (distributeDimension a ax comm) (distributeDimension b ax comm) (distributeDimension w ax comm) z :=
        fun comm => ⟨⟨_, _⟩, fun k => ⟨_, _⟩, fun k _ => ⟨rounds_exact hu _, rounds_exact hu _⟩, dot_exact hu _, dot_exact hu _⟩
      choose f hf using hloc
      exact ⟨⟨_, _⟩, comms.map f, by rw [List.forall₂_map_right_iff, List.forall₂_same]; exact fun comm _ => hf comm, sum_exact hu _, sum_exact hu _⟩
    choose z hz using hin
    exact ⟨_, _, _, fun i j => hz (phi i) (phi j), fun i => hz (phi i) q, le_rfl⟩
  · intro k phi a m
    exact ⟨⟨_, _⟩, ⟨_, _⟩, dot_exact hu _, dot_exact hu _, rounds_exact hu _, rfl⟩

/-- the hypotheses of `spod_project_floating` are met by the folder of Props/Project.lean (two points of weights 1 and 2, one mode `(i, -i)`): `σ = 3`, `tol = 0` -/
example (svd : Svd) (hsvd : ∀ k M, Coef.IsSvd M (svd k M).1 (svd k M).2.1 (svd k M).2.2) : ∃ G rec, project pexStored pexOpts svd pexFrames [none] none = some G ∧
    reconstruct G none (.str "all") [none] none = some rec := by
  obtain ⟨G, rec, h1, h2, -⟩ := spod_project_floating pexStored pexOpts svd hsvd pexFrames ⟨0, 0, 1, [0]⟩ [2] [2, 1] pex_band rfl (by simp) pex_fits (by simp [pexFrames])
    (by simp) (by decide) (by decide) ([0].length * pexStored.nModes) rfl _ rfl _ rfl (by
      intro i
      have hi : i.1 = 0 ∨ i.1 = 1 := by have := i.2; simp [size] at this; omega
      rcases hi with h | h <;> simp [specWt, pexStored, npSave, h, size, unravel]) _ rfl 3 (by norm_num) (by
      intro c
      refine le_of_eq ?_
      have hs : ∀ {R : Type} [AddCommMonoid R] (f : Fin ([0].length * pexStored.nModes) → R), ∑ j, f j = f ⟨0, by decide⟩ := by
        intro R _ f
        have : (Finset.univ : Finset (Fin ([0].length * pexStored.nModes))) = {⟨0, by decide⟩} := by
          ext j
          simp only [Finset.mem_univ, Finset.mem_singleton, true_iff, Fin.ext_iff]
          have := j.2
          simp [pexStored] at this
          omega
        rw [this, Finset.sum_singleton]
      have h2 : ∀ f : Fin (size [2, 1]) → ℝ, ∑ x, f x = f ⟨0, by decide⟩ + f ⟨1, by decide⟩ := fun f => Fin.sum_univ_two (fun x : Fin 2 => f x)
      rw [norm2, norm_W, Real.sq_sqrt (Finset.sum_nonneg fun j _ => sq_nonneg _), Real.sq_sqrt, h2, hs, hs, hs, pex_phi, pex_phi]
      · simp [specWt, pexStored, npSave, size, unravel]; ring
      · refine Finset.sum_nonneg fun x _ => mul_nonneg ?_ (sq_nonneg _)
        have hi : x.1 = 0 ∨ x.1 = 1 := by have := x.2; simp [size] at this; omega
        rcases hi with h | h <;> simp [specWt, pexStored, npSave, h, size, unravel])
    le_rfl (by simp [pexOpts]) [none] [none] none none (Or.inl ⟨rfl, rfl⟩) (Or.inl ⟨rfl, rfl⟩)
  exact ⟨G, rec, h1, h2⟩

/-- two modes at two points of weight one: `(1, 0)` and `(1, ε)` -/
noncomputable def closeModes (ε : ℝ) (j : Fin 2) : Arr ℂ := ⟨[2], fun idx => if idx = [0] then 1 else if j = 0 then 0 else (ε : ℂ)⟩

/-- **C244.** The condition on the modes is needed: two independent modes `(1, 0)` and `(1, ε)` with `ε² ≤ u`, data equal to the first mode (exact coefficients `(1, 0)`): the
    computed matrix may be singular, and coefficients at any distance from the exact ones solve the computed normal equations -/
theorem close_modes_lost {u ε : ℝ} (hu : 0 ≤ u) (hε : 0 < ε) (hεu : ε ^ 2 ≤ u) (c : ℝ) :
    (∀ e : Fin 2 → ℂ, (∀ x < 2, ∑ j, (closeModes ε j).at' (unravel [2] x) * e j = 0) → e = 0) ∧
    (∀ x < 2, (closeModes ε 0).at' (unravel [2] x) = ∑ j, (closeModes ε j).at' (unravel [2] x) * (![1, 0] : Fin 2 → ℂ) j) ∧
    FlCoefficients u 0 [none] 0 (closeModes ε) (closeModes ε 0) ⟨[2], fun _ => 1⟩ ![1 - (c : ℂ), (c : ℂ)] ∧ |c| ≤ norm2 (fun j => ![1 - (c : ℂ), (c : ℂ)] j - ![1, 0] j) := by
  have u0 : unravel [2] 0 = [0] := by decide
  have u1 : unravel [2] 1 = [1] := by decide
  refine ⟨fun e h => ?_, fun x hx => ?_, ?_, ?_⟩
  · have h0 := h 0 (by norm_num)
    have h1 := h 1 (by norm_num)
    rw [Fin.sum_univ_two] at h0 h1
    simp only [u0, u1, closeModes] at h0 h1
    simp at h0 h1
    have e1 : e 1 = 0 := by
      rcases h1 with h1 | h1
      · exact absurd h1 hε.ne'
      · exact h1
    rw [e1, add_zero] at h0
    funext j
    fin_cases j
    · exact h0
    · exact e1
  · rw [Fin.sum_univ_two]; simp
  · have hM : ∀ i j, FlInner u [none] 0 (closeModes ε i) (closeModes ε j) ⟨[2], fun _ => 1⟩ 1 := by
      intro i j
      refine ⟨[1], .cons ⟨fun k => (closeModes ε j).at' (unravel [2] k), fun k _ => ?_, ?_, ?_⟩ .nil, Or.inr ⟨.rank 1, List.Perm.refl _, rfl⟩, Or.inr ⟨.rank 0, List.Perm.refl _, rfl⟩⟩
      · simp only [distributeDimension, mul_one]; exact ⟨rounds_exact hu _, rounds_exact hu _⟩
      · refine ⟨[1, 0, if i = 1 ∧ j = 1 then ε ^ 2 else 0, 0], ?_, Or.inr ⟨.node (.node (.node (.rank 1) (.rank 0)) (.rank (if i = 1 ∧ j = 1 then ε ^ 2 else 0))) (.rank 0),
          List.Perm.refl _, 1, 0, ⟨1, _, ⟨1, 0, rfl, rfl, by simpa using rounds_exact hu 1⟩, rfl, ?_⟩, rfl, by simpa using rounds_exact hu 1⟩⟩
        · have hl : dotRe (fun k => (closeModes ε i).at' (unravel [2] k)) (fun k => (closeModes ε j).at' (unravel [2] k)) 2 =
              [(1, 1), (0, 0), (if i = 0 then 0 else ε, if j = 0 then 0 else ε), (0, 0)] := by
            fin_cases i <;> fin_cases j <;> simp [dotRe, List.range_succ, u0, u1, closeModes]
          show List.Forall₂ _ (dotRe (fun k => (closeModes ε i).at' (unravel [2] k)) (fun k => (closeModes ε j).at' (unravel [2] k)) 2) _
          rw [hl]
          refine .cons ?_ (.cons ?_ (.cons ?_ (.cons ?_ .nil)))
          · simpa using rounds_exact hu 1
          · simpa using rounds_exact hu 0
          · have : (if i = 0 then 0 else ε) * (if j = 0 then 0 else ε) = if i = 1 ∧ j = 1 then ε ^ 2 else 0 := by
              fin_cases i <;> fin_cases j <;> simp [pow_two]
            simp only [this]; exact rounds_exact hu _
          · simpa using rounds_exact hu 0
        · unfold Rounds
          have : 0 ≤ (if i = 1 ∧ j = 1 then ε ^ 2 else 0) ∧ (if i = 1 ∧ j = 1 then ε ^ 2 else 0) ≤ u := by
            split
            · exact ⟨by positivity, hεu⟩
            · exact ⟨le_rfl, hu⟩
          rw [abs_of_nonneg (by linarith : (0 : ℝ) ≤ 1 + _), abs_le]
          constructor <;> nlinarith
      · have h0 := dot_exact hu (dotIm (fun k => (closeModes ε i).at' (unravel [2] k)) (fun k => (closeModes ε j).at' (unravel [2] k)) 2)
        have hz : ((dotIm (fun k => (closeModes ε i).at' (unravel [2] k)) (fun k => (closeModes ε j).at' (unravel [2] k)) 2).map fun p => p.1 * p.2).sum = 0 := by
          fin_cases i <;> fin_cases j <;> simp [dotIm, List.range_succ, u0, u1, closeModes]
        rw [hz] at h0
        exact h0
    refine ⟨fun _ _ => 1, fun _ => 1, hM, fun i => hM i 0, ?_⟩
    simp [Fin.sum_univ_two]
  · rw [norm2]
    refine Real.le_sqrt_of_sq_le ?_
    rw [Fin.sum_univ_two]
    simp
    positivity

end Verif.Props
