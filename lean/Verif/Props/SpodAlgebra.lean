import Verif.Model.SpodStd
import Verif.Props.Freq
import Mathlib.LinearAlgebra.Matrix.NonsingularInverse
import Mathlib.Tactic.LinearCombination
import Mathlib.Data.Fin.VecNotation
import Mathlib.LinearAlgebra.Matrix.Notation
/-
  C25-C29: algebra of the standard SPOD.
-/
set_option linter.unusedSectionVars false
set_option linter.unusedSimpArgs false
namespace Verif.Props
open Verif Verif.Spod Matrix ComplexConjugate ComplexOrder

variable {X : Type} [Fintype X] [DecidableEq X] {nb : Nat}

/-! ### Specification: weighted inner product and cross-spectral density -/

/-- `⟨φ, ψ⟩_W = Σ_x conj(φ_x) w_x ψ_x` -/
noncomputable def inner_W (w : X → ℝ) (φ ψ : X → ℂ) : ℂ := ∑ x, conj (φ x) * (w x : ℂ) * ψ x

/-- Block-averaged cross-spectral density `S_{xy} = (1/nb) Σ_b q_b(x) conj(q_b(y))`. -/
noncomputable def csd (Q : Matrix X (Fin nb) ℂ) (x y : X) : ℂ := (nb : ℂ)⁻¹ * ∑ b, Q x b * conj (Q y b)

/-! ### Basic identities -/

theorem crossSpectral_apply (Q : Matrix X (Fin nb) ℂ) (w : X → ℝ) (a b : Fin nb) :
    crossSpectral Q w a b = (nb : ℂ)⁻¹ * inner_W w (fun x => Q x a) (fun x => Q x b) := by
  simp only [crossSpectral, Matrix.smul_apply, Matrix.mul_apply, Matrix.conjTranspose_apply, Matrix.of_apply,
    smul_eq_mul, inner_W, starRingEnd_apply]
  congr 1
  exact Finset.sum_congr rfl fun x _ => by ring

theorem inner_W_mulVec (Q : Matrix X (Fin nb) ℂ) (w : X → ℝ) (hnb : 0 < nb) (u v : Fin nb → ℂ) :
    inner_W w (Q *ᵥ u) (Q *ᵥ v) = (nb : ℂ) * (star u ⬝ᵥ (crossSpectral Q w *ᵥ v)) := by
  have hn : (nb : ℂ) ≠ 0 := by exact_mod_cast hnb.ne'
  simp only [inner_W, dotProduct, mulVec, crossSpectral_apply, Pi.star_apply, map_sum, map_mul,
    Finset.mul_sum, Finset.sum_mul]
  rw [Finset.sum_comm]
  simp only [← starRingEnd_apply]
  have : ∀ (x : X) (i j : Fin nb),
      conj (Q x j) * conj (u j) * (w x : ℂ) * (Q x i * v i) =
      (nb : ℂ) * (conj (u j) * ((nb : ℂ)⁻¹ * (conj (Q x j) * (w x : ℂ) * Q x i) * v i)) := by
    intro x i j
    field_simp
  rw [Finset.sum_congr rfl fun i _ => Finset.sum_congr rfl fun x _ => Finset.sum_congr rfl fun j _ => this x i j]
  rw [Finset.sum_congr rfl fun i _ => Finset.sum_comm, Finset.sum_comm]

theorem inner_W_conj (w : X → ℝ) (φ ψ : X → ℂ) : conj (inner_W w φ ψ) = inner_W w ψ φ := by
  simp only [inner_W, map_sum, map_mul, Complex.conj_conj, Complex.conj_ofReal]
  exact Finset.sum_congr rfl fun x _ => by ring

theorem inner_W_self (w : X → ℝ) (φ : X → ℂ) :
    inner_W w φ φ = ((∑ x, w x * Complex.normSq (φ x) : ℝ) : ℂ) := by
  simp only [inner_W, Complex.ofReal_sum, Complex.ofReal_mul]
  refine Finset.sum_congr rfl fun x _ => ?_
  rw [Complex.normSq_eq_conj_mul_self]
  ring

/-! ### C25 -/

/-- **C25.** For nonnegative weights the matrix handed to the eigen-solver is Hermitian and positive
    semidefinite, for every set of Fourier realizations. -/
theorem crossSpectral_posSemidef (Q : Matrix X (Fin nb) ℂ) (w : X → ℝ) (hw : ∀ x, 0 ≤ w x) :
    (crossSpectral Q w).IsHermitian ∧
    ∀ v : Fin nb → ℂ, 0 ≤ star v ⬝ᵥ (crossSpectral Q w *ᵥ v) := by
  constructor
  · ext a b
    rw [Matrix.conjTranspose_apply, crossSpectral_apply, crossSpectral_apply, ← starRingEnd_apply, map_mul,
      inner_W_conj]
    simp
  · intro v
    rcases Nat.eq_zero_or_pos nb with h0 | hnb
    · subst h0; simp [dotProduct]
    · have h := inner_W_mulVec Q w hnb v v
      rw [inner_W_self] at h
      have hn : (nb : ℂ) ≠ 0 := by exact_mod_cast hnb.ne'
      have h2 : star v ⬝ᵥ (crossSpectral Q w *ᵥ v) =
          (((nb : ℝ)⁻¹ * ∑ x, w x * Complex.normSq ((Q *ᵥ v) x) : ℝ) : ℂ) := by
        push_cast at h ⊢
        rw [h]; field_simp
      rw [h2]
      rw [Complex.zero_le_real]
      have : 0 ≤ ∑ x, w x * Complex.normSq ((Q *ᵥ v) x) :=
        Finset.sum_nonneg fun x _ => mul_nonneg (hw x) (Complex.normSq_nonneg _)
      positivity

/-- `⟨v, v⟩` of a unit column -/
theorem unit_dot (V : Matrix (Fin nb) (Fin nb) ℂ) (j : Fin nb) (h : ∑ i, conj (V i j) * V i j = 1) :
    star (fun i => V i j) ⬝ᵥ (fun i => V i j) = 1 := by
  rw [← h]; rfl

/-- **C25**, consequence: every eigenvalue returned by an exact eigen-solver is real and nonnegative, so
    nothing is lost when the code keeps real parts and takes square roots. -/
theorem eigenvalues_real_nonneg (Q : Matrix X (Fin nb) ℂ) (w : X → ℝ) (hw : ∀ x, 0 ≤ w x)
    (L : Fin nb → ℂ) (V : Matrix (Fin nb) (Fin nb) ℂ) (h : EigPairs (crossSpectral Q w) L V) (j : Fin nb) :
    (L j).im = 0 ∧ 0 ≤ (L j).re ∧ L j = ((realIfClose L j : ℝ) : ℂ) := by
  obtain ⟨h1, h2⟩ := h j
  have h3 := (crossSpectral_posSemidef Q w hw).2 (fun i => V i j)
  rw [h1, dotProduct_smul, unit_dot V j h2, smul_eq_mul, mul_one] at h3
  obtain ⟨hr, hi⟩ := Complex.le_def.1 h3
  refine ⟨hi.symm, hr, ?_⟩
  apply Complex.ext
  · simp [realIfClose]
  · simpa using hi.symm

/-! ### C26 -/

theorem phi_col (Q : Matrix X (Fin nb) ℂ) (L : Fin nb → ℝ) (V : Matrix (Fin nb) (Fin nb) ℂ) (j : Fin nb) :
    (fun x => phiAll Q L V x j) =
      (((1 / (Real.sqrt nb * Real.sqrt (L j)) : ℝ)) : ℂ) • (Q *ᵥ fun i => V i j) := by
  funext x
  simp only [phiAll, Matrix.mul_apply, Matrix.of_apply, Pi.smul_apply, mulVec, dotProduct, smul_eq_mul,
    Finset.mul_sum]
  exact Finset.sum_congr rfl fun i _ => by ring

theorem csd_apply_mulVec (Q : Matrix X (Fin nb) ℂ) (w : X → ℝ) (v : Fin nb → ℂ) (x : X) :
    ∑ y, csd Q x y * (w y : ℂ) * (Q *ᵥ v) y = (Q *ᵥ (crossSpectral Q w *ᵥ v)) x := by
  simp only [csd, mulVec, dotProduct, crossSpectral_apply, inner_W, Finset.mul_sum, Finset.sum_mul]
  have : ∀ (y : X) (i b : Fin nb),
      (nb : ℂ)⁻¹ * (Q x b * conj (Q y b)) * (w y : ℂ) * (Q y i * v i) =
      Q x b * ((nb : ℂ)⁻¹ * (conj (Q y b) * (w y : ℂ) * Q y i) * v i) := by
    intro y i b; ring
  rw [Finset.sum_congr rfl fun y _ => Finset.sum_congr rfl fun i _ => Finset.sum_congr rfl fun b _ => this y i b]
  rw [Finset.sum_congr rfl fun y _ => Finset.sum_comm, Finset.sum_comm]
  exact Finset.sum_congr rfl fun b _ => Finset.sum_comm

/-- **C26.** For every solver output and every admissible argsort: the reported modal energies are
    non-increasing, and the `k`-th mode is an eigenfunction of the weighted cross-spectral density with
    exactly the `k`-th reported energy (up to the one-sided factor `fac`). -/
theorem spod_sorted_and_matched (Q : Matrix X (Fin nb) ℂ) (w : X → ℝ) (hw : ∀ x, 0 ≤ w x)
    (L0 : Fin nb → ℂ) (V0 : Matrix (Fin nb) (Fin nb) ℂ) (h : EigPairs (crossSpectral Q w) L0 V0)
    (σ : Equiv.Perm (Fin nb)) (hσ : ArgsortDesc (realIfClose L0) σ) (fac : Nat) :
    (∀ i j, i ≤ j → (spodFreq Q L0 V0 σ fac).1 j ≤ (spodFreq Q L0 V0 σ fac).1 i) ∧
    ∀ j x, fac * ∑ y, csd Q x y * (w y : ℂ) * (spodFreq Q L0 V0 σ fac).2 y j =
      ((spodFreq Q L0 V0 σ fac).1 j : ℂ) * (spodFreq Q L0 V0 σ fac).2 x j := by
  have hpos : ∀ j, 0 ≤ reorderL (realIfClose L0) σ j := fun j => (eigenvalues_real_nonneg Q w hw L0 V0 h _).2.1
  constructor
  · intro i j hij
    simp only [spodFreq, eigsOut]
    rw [abs_of_nonneg (mul_nonneg (Nat.cast_nonneg _) (hpos j)),
      abs_of_nonneg (mul_nonneg (Nat.cast_nonneg _) (hpos i))]
    exact mul_le_mul_of_nonneg_left (hσ i j hij) (Nat.cast_nonneg _)
  · intro j x
    simp only [spodFreq, eigsOut]
    rw [abs_of_nonneg (mul_nonneg (Nat.cast_nonneg _) (hpos j))]
    set L := reorderL (realIfClose L0) σ
    have hphi := fun y => congrFun (phi_col Q L (reorderV V0 σ) j) y
    simp only [Pi.smul_apply, smul_eq_mul] at hphi
    simp only [hphi]
    set c : ℂ := (((1 / (Real.sqrt nb * Real.sqrt (L j)) : ℝ)) : ℂ)
    have hv : crossSpectral Q w *ᵥ (fun i => reorderV V0 σ i j) = (L j : ℂ) • (fun i => reorderV V0 σ i j) := by
      have := (h (σ j)).1
      rw [(eigenvalues_real_nonneg Q w hw L0 V0 h (σ j)).2.2] at this
      exact this
    have e := csd_apply_mulVec Q w (fun i => reorderV V0 σ i j) x
    rw [hv, mulVec_smul, Pi.smul_apply, smul_eq_mul] at e
    have : ∑ y, csd Q x y * (w y : ℂ) * (c * (Q *ᵥ fun i => reorderV V0 σ i j) y) =
        c * ∑ y, csd Q x y * (w y : ℂ) * (Q *ᵥ fun i => reorderV V0 σ i j) y := by
      rw [Finset.mul_sum]; exact Finset.sum_congr rfl fun y _ => by ring
    rw [this, e]
    push_cast
    ring

/-- the modes kept on disk are the leading ones: column `k` of the saved array is mode `k` -/
theorem saved_modes_leading (phi : Matrix X (Fin nb) ℂ) (nSave : Nat) (hs : nSave ≤ nb) (k : Fin nSave) (x : X) :
    phiSaved phi nSave hs x k = phi x ⟨k.1, by omega⟩ := rfl

/-! ### C27 -/

/-- Weighted inner products of the modes in terms of the eigenvectors. -/
theorem modes_inner (Q : Matrix X (Fin nb) ℂ) (w : X → ℝ) (hw : ∀ x, 0 ≤ w x) (hnb : 0 < nb)
    (L0 : Fin nb → ℂ) (V0 : Matrix (Fin nb) (Fin nb) ℂ) (h : EigPairs (crossSpectral Q w) L0 V0)
    (σ : Equiv.Perm (Fin nb)) (fac : Nat) (i j : Fin nb) (hi : 0 < realIfClose L0 (σ i))
    (hj : 0 < realIfClose L0 (σ j)) :
    inner_W w (fun x => (spodFreq Q L0 V0 σ fac).2 x i) (fun x => (spodFreq Q L0 V0 σ fac).2 x j) =
      (Real.sqrt (realIfClose L0 (σ j)) / Real.sqrt (realIfClose L0 (σ i)) : ℝ) *
        ∑ b, conj (V0 b (σ i)) * V0 b (σ j) := by
  simp only [spodFreq]
  rw [phi_col, phi_col]
  set Li := realIfClose L0 (σ i)
  set Lj := realIfClose L0 (σ j)
  have hLi : reorderL (realIfClose L0) σ i = Li := rfl
  have hLj : reorderL (realIfClose L0) σ j = Lj := rfl
  rw [hLi, hLj]
  have hnb' : (0 : ℝ) < nb := by exact_mod_cast hnb
  have hsm : ∀ (a b : ℝ) (φ ψ : X → ℂ), inner_W w ((a : ℂ) • φ) ((b : ℂ) • ψ) = ((a * b : ℝ) : ℂ) * inner_W w φ ψ := by
    intro a b φ ψ
    simp only [inner_W, Pi.smul_apply, smul_eq_mul, map_mul, Complex.conj_ofReal, Finset.mul_sum]
    exact Finset.sum_congr rfl fun x _ => by push_cast; ring
  rw [hsm, inner_W_mulVec Q w hnb]
  have hv : crossSpectral Q w *ᵥ (fun b => reorderV V0 σ b j) = (Lj : ℂ) • (fun b => reorderV V0 σ b j) := by
    have := (h (σ j)).1
    rw [(eigenvalues_real_nonneg Q w hw L0 V0 h (σ j)).2.2] at this
    exact this
  rw [hv, dotProduct_smul, smul_eq_mul]
  have hd : star (fun b => reorderV V0 σ b i) ⬝ᵥ (fun b => reorderV V0 σ b j) =
      ∑ b, conj (V0 b (σ i)) * V0 b (σ j) := rfl
  rw [hd, ← mul_assoc, ← mul_assoc]
  congr 1
  rw [← Complex.ofReal_natCast, ← Complex.ofReal_mul, ← Complex.ofReal_mul]
  congr 1
  have s1 := Real.sqrt_pos.2 hi
  have s2 := Real.sqrt_pos.2 hj
  have s3 := Real.sqrt_pos.2 hnb'
  have q2 : Lj = Real.sqrt Lj * Real.sqrt Lj := (Real.mul_self_sqrt hj.le).symm
  have q3 : (nb : ℝ) = Real.sqrt nb * Real.sqrt nb := (Real.mul_self_sqrt hnb'.le).symm
  field_simp
  have q2' := Real.sq_sqrt hj.le
  have q3' := Real.sq_sqrt hnb'.le
  nlinarith

/-- **C27.** If the solver returned orthonormal eigenvectors, the modes of positive eigenvalues are
    orthonormal in the weighted inner product. -/
theorem modes_orthonormal (Q : Matrix X (Fin nb) ℂ) (w : X → ℝ) (hw : ∀ x, 0 ≤ w x) (hnb : 0 < nb)
    (L0 : Fin nb → ℂ) (V0 : Matrix (Fin nb) (Fin nb) ℂ) (h : EigPairs (crossSpectral Q w) L0 V0)
    (hV : V0ᴴ * V0 = 1)
    (σ : Equiv.Perm (Fin nb)) (fac : Nat) (i j : Fin nb) (hi : 0 < realIfClose L0 (σ i))
    (hj : 0 < realIfClose L0 (σ j)) :
    inner_W w (fun x => (spodFreq Q L0 V0 σ fac).2 x i) (fun x => (spodFreq Q L0 V0 σ fac).2 x j) =
      if i = j then 1 else 0 := by
  rw [modes_inner Q w hw hnb L0 V0 h σ fac i j hi hj]
  have hd : ∑ b, conj (V0 b (σ i)) * V0 b (σ j) = if i = j then (1 : ℂ) else 0 := by
    have := congrFun (congrFun hV (σ i)) (σ j)
    rw [Matrix.mul_apply, Matrix.one_apply] at this
    simp only [Matrix.conjTranspose_apply, ← starRingEnd_apply] at this
    rw [this]
    simp [EmbeddingLike.apply_eq_iff_eq]
  rw [hd]
  split
  · rename_i hij
    subst hij
    rw [div_self (Real.sqrt_pos.2 hi).ne']; simp
  · simp

/-- Eigenvectors of distinct eigenvalues are orthogonal, so the orthogonality hypothesis of
    `modes_orthonormal` is automatic in the generic case. -/
theorem eig_orthogonal (Q : Matrix X (Fin nb) ℂ) (w : X → ℝ) (hw : ∀ x, 0 ≤ w x)
    (L0 : Fin nb → ℂ) (V0 : Matrix (Fin nb) (Fin nb) ℂ) (h : EigPairs (crossSpectral Q w) L0 V0)
    (a b : Fin nb) (hab : L0 a ≠ L0 b) : ∑ i, conj (V0 i a) * V0 i b = 0 := by
  have hH := (crossSpectral_posSemidef Q w hw).1
  set M := crossSpectral Q w
  have e1 : star (fun i => V0 i a) ⬝ᵥ (M *ᵥ fun i => V0 i b) = L0 b * ∑ i, conj (V0 i a) * V0 i b := by
    rw [(h b).1, dotProduct_smul]; rfl
  have e2 : star (fun i => V0 i a) ⬝ᵥ (M *ᵥ fun i => V0 i b) = L0 a * ∑ i, conj (V0 i a) * V0 i b := by
    rw [dotProduct_mulVec]
    have : star (fun i => V0 i a) ᵥ* M = star (M *ᵥ fun i => V0 i a) := by
      rw [star_mulVec, hH.eq]
    rw [this, (h a).1]
    have hr : star (L0 a) = L0 a := by
      rw [(eigenvalues_real_nonneg Q w hw L0 V0 h a).2.2, ← starRingEnd_apply, Complex.conj_ofReal]
    rw [star_smul, hr, smul_dotProduct]; rfl
  have : (L0 a - L0 b) * ∑ i, conj (V0 i a) * V0 i b = 0 := by
    rw [sub_mul, ← e2, ← e1, sub_self]
  rcases mul_eq_zero.1 this with h0 | h0
  · exact absurd (sub_eq_zero.1 h0) hab
  · exact h0

/-- **C27**, generic case: distinct eigenvalues need no assumption on the solver besides unit eigenvectors. -/
theorem modes_orthonormal_distinct (Q : Matrix X (Fin nb) ℂ) (w : X → ℝ) (hw : ∀ x, 0 ≤ w x) (hnb : 0 < nb)
    (L0 : Fin nb → ℂ) (V0 : Matrix (Fin nb) (Fin nb) ℂ) (h : EigPairs (crossSpectral Q w) L0 V0)
    (hinj : Function.Injective L0) (σ : Equiv.Perm (Fin nb)) (fac : Nat) (i j : Fin nb)
    (hi : 0 < realIfClose L0 (σ i)) (hj : 0 < realIfClose L0 (σ j)) :
    inner_W w (fun x => (spodFreq Q L0 V0 σ fac).2 x i) (fun x => (spodFreq Q L0 V0 σ fac).2 x j) =
      if i = j then 1 else 0 := by
  apply modes_orthonormal Q w hw hnb L0 V0 h _ σ fac i j hi hj
  ext a b
  rw [Matrix.mul_apply, Matrix.one_apply]
  simp only [Matrix.conjTranspose_apply, ← starRingEnd_apply]
  split
  · rename_i hab; subst hab; exact (h a).2
  · rename_i hab; exact eig_orthogonal Q w hw L0 V0 h a b fun he => hab (hinj he)

/-- every mode of a positive eigenvalue has unit weighted norm, whatever the multiplicities -/
theorem modes_unit_norm (Q : Matrix X (Fin nb) ℂ) (w : X → ℝ) (hw : ∀ x, 0 ≤ w x) (hnb : 0 < nb)
    (L0 : Fin nb → ℂ) (V0 : Matrix (Fin nb) (Fin nb) ℂ) (h : EigPairs (crossSpectral Q w) L0 V0)
    (σ : Equiv.Perm (Fin nb)) (fac : Nat) (i : Fin nb) (hi : 0 < realIfClose L0 (σ i)) :
    inner_W w (fun x => (spodFreq Q L0 V0 σ fac).2 x i) (fun x => (spodFreq Q L0 V0 σ fac).2 x i) = 1 := by
  rw [modes_inner Q w hw hnb L0 V0 h σ fac i i hi hi, (h (σ i)).2,
    div_self (Real.sqrt_pos.2 hi).ne']
  simp

/-! ### C28 -/

/-- **C28**, energy: if the eigenvectors returned form a basis (invertible `V`), the sum of the eigenvalues is
    the block average of the weighted energy of the Fourier realizations. -/
theorem total_energy (Q : Matrix X (Fin nb) ℂ) (w : X → ℝ) (L0 : Fin nb → ℂ)
    (V0 : Matrix (Fin nb) (Fin nb) ℂ) (h : EigPairs (crossSpectral Q w) L0 V0) (hV : IsUnit V0.det) :
    ∑ j, L0 j = (nb : ℂ)⁻¹ * ∑ b, inner_W w (fun x => Q x b) (fun x => Q x b) := by
  set M := crossSpectral Q w with hM
  have hMV : M * V0 = V0 * Matrix.diagonal L0 := by
    ext a j
    have := congrFun (h j).1 a
    simp only [mulVec, dotProduct, Pi.smul_apply, smul_eq_mul] at this
    rw [Matrix.mul_apply, Matrix.mul_diagonal, this, mul_comm]
  have h1 : M = V0 * Matrix.diagonal L0 * V0⁻¹ := by
    rw [← hMV, Matrix.mul_assoc, Matrix.mul_nonsing_inv _ hV, Matrix.mul_one]
  have h2 : M.trace = ∑ j, L0 j := by
    rw [h1, Matrix.trace_mul_comm, ← Matrix.mul_assoc, Matrix.nonsing_inv_mul _ hV, Matrix.one_mul,
      Matrix.trace_diagonal]
  rw [← h2, hM, Matrix.trace, Finset.mul_sum]
  exact Finset.sum_congr rfl fun b _ => by rw [Matrix.diag_apply, crossSpectral_apply]

/-- **C28**, energy as reported: the sum of the reported eigenvalues is `fac` times the block-averaged
    weighted energy (`fac` the one-sided factor of the frequency). -/
theorem total_energy_reported (Q : Matrix X (Fin nb) ℂ) (w : X → ℝ) (hw : ∀ x, 0 ≤ w x) (L0 : Fin nb → ℂ)
    (V0 : Matrix (Fin nb) (Fin nb) ℂ) (h : EigPairs (crossSpectral Q w) L0 V0) (hV : IsUnit V0.det)
    (σ : Equiv.Perm (Fin nb)) (fac : Nat) :
    ∑ j, (spodFreq Q L0 V0 σ fac).1 j =
      fac * ((nb : ℝ)⁻¹ * ∑ b, ∑ x, w x * Complex.normSq (Q x b)) := by
  have hpos : ∀ j, 0 ≤ realIfClose L0 j := fun j => (eigenvalues_real_nonneg Q w hw L0 V0 h _).2.1
  have h1 : ∑ j, (spodFreq Q L0 V0 σ fac).1 j = fac * ∑ j, realIfClose L0 j := by
    simp only [spodFreq, eigsOut, reorderL]
    rw [Finset.mul_sum, ← Equiv.sum_comp σ (fun j => (fac : ℝ) * realIfClose L0 j)]
    exact Finset.sum_congr rfl fun j _ => abs_of_nonneg (mul_nonneg (Nat.cast_nonneg _) (hpos _))
  rw [h1]
  congr 1
  have h2 := total_energy Q w L0 V0 h hV
  simp only [inner_W_self] at h2
  have h3 : ∑ j, L0 j = ((∑ j, realIfClose L0 j : ℝ) : ℂ) := by
    push_cast
    exact Finset.sum_congr rfl fun j _ => (eigenvalues_real_nonneg Q w hw L0 V0 h j).2.2
  rw [h3] at h2
  apply Complex.ofReal_injective
  rw [h2]; push_cast; rfl

/-- **C28**, expansion: with positive weights and orthonormal eigenvectors, the modes and eigenvalues
    reproduce the cross-spectral density: `S_{xy} = Σ_j λ_j φ_j(x) conj φ_j(y)`. -/
theorem csd_expansion (Q : Matrix X (Fin nb) ℂ) (w : X → ℝ) (hw : ∀ x, 0 < w x) (hnb : 0 < nb)
    (L0 : Fin nb → ℂ) (V0 : Matrix (Fin nb) (Fin nb) ℂ) (h : EigPairs (crossSpectral Q w) L0 V0)
    (hV : V0ᴴ * V0 = 1) (σ : Equiv.Perm (Fin nb)) (fac : Nat) (x y : X) :
    csd Q x y = ∑ j, (realIfClose L0 (σ j) : ℂ) * (spodFreq Q L0 V0 σ fac).2 x j *
      conj ((spodFreq Q L0 V0 σ fac).2 y j) := by
  have hw' : ∀ x, 0 ≤ w x := fun x => (hw x).le
  have hnb' : (0 : ℝ) < nb := by exact_mod_cast hnb
  have hVV : V0 * V0ᴴ = 1 := mul_eq_one_comm.1 hV
  have key : ∀ j, (realIfClose L0 (σ j) : ℂ) * (spodFreq Q L0 V0 σ fac).2 x j *
      conj ((spodFreq Q L0 V0 σ fac).2 y j) =
      (nb : ℂ)⁻¹ * ((Q *ᵥ fun i => V0 i (σ j)) x * conj ((Q *ᵥ fun i => V0 i (σ j)) y)) := by
    intro j
    simp only [spodFreq]
    have hx := congrFun (phi_col Q (reorderL (realIfClose L0) σ) (reorderV V0 σ) j) x
    have hy := congrFun (phi_col Q (reorderL (realIfClose L0) σ) (reorderV V0 σ) j) y
    simp only [Pi.smul_apply, smul_eq_mul] at hx hy
    rw [hx, hy]
    have hL : reorderL (realIfClose L0) σ j = realIfClose L0 (σ j) := rfl
    have hVc : (fun i => reorderV V0 σ i j) = fun i => V0 i (σ j) := rfl
    rw [hL, hVc, map_mul, Complex.conj_ofReal]
    have hnn := (eigenvalues_real_nonneg Q w hw' L0 V0 h (σ j)).2.1
    rcases hnn.lt_or_eq with hp | hz
    · have hp' : 0 < realIfClose L0 (σ j) := hp
      have s2 := Real.sqrt_pos.2 hp'
      have s3 := Real.sqrt_pos.2 hnb'
      have e : (realIfClose L0 (σ j) : ℝ) * (1 / (Real.sqrt nb * Real.sqrt (realIfClose L0 (σ j)))) *
          (1 / (Real.sqrt nb * Real.sqrt (realIfClose L0 (σ j)))) = (nb : ℝ)⁻¹ := by
        have q2' := Real.sq_sqrt hp'.le
        have q3' := Real.sq_sqrt hnb'.le
        field_simp
        nlinarith
      have e' : (realIfClose L0 (σ j) : ℂ) *
          ((1 / (Real.sqrt nb * Real.sqrt (realIfClose L0 (σ j))) : ℝ) : ℂ) *
          ((1 / (Real.sqrt nb * Real.sqrt (realIfClose L0 (σ j))) : ℝ) : ℂ) = (nb : ℂ)⁻¹ := by
        rw [← Complex.ofReal_mul, ← Complex.ofReal_mul, e]; push_cast; rfl
      rw [← e']
      ring
    · have hz' : realIfClose L0 (σ j) = 0 := hz.symm
      have hq : (Q *ᵥ fun i => V0 i (σ j)) = 0 := by
        have hi := inner_W_mulVec Q w hnb (fun i => V0 i (σ j)) (fun i => V0 i (σ j))
        rw [(h (σ j)).1, (eigenvalues_real_nonneg Q w hw' L0 V0 h (σ j)).2.2, hz'] at hi
        simp only [Complex.ofReal_zero, zero_smul, dotProduct_zero, mul_zero, inner_W_self] at hi
        have hs : ∑ x, w x * Complex.normSq ((Q *ᵥ fun i => V0 i (σ j)) x) = 0 := by exact_mod_cast hi
        rw [Finset.sum_eq_zero_iff_of_nonneg fun x _ => mul_nonneg (hw' x) (Complex.normSq_nonneg _)] at hs
        funext z
        have := hs z (Finset.mem_univ z)
        rcases mul_eq_zero.1 this with h0 | h0
        · exact absurd h0 (hw z).ne'
        · exact Complex.normSq_eq_zero.1 h0
      rw [hz', hq]; simp
  rw [Finset.sum_congr rfl fun j _ => key j, ← Finset.mul_sum]
  unfold csd
  congr 1
  rw [Equiv.sum_comp σ (fun j => (Q *ᵥ fun i => V0 i j) x * conj ((Q *ᵥ fun i => V0 i j) y))]
  have hmm : ∑ b, Q x b * conj (Q y b) = (Q * Qᴴ) x y := by
    rw [Matrix.mul_apply]; rfl
  have hmm2 : ∑ j, (Q *ᵥ fun i => V0 i j) x * conj ((Q *ᵥ fun i => V0 i j) y) = ((Q * V0) * (Q * V0)ᴴ) x y := by
    rw [Matrix.mul_apply]; rfl
  rw [hmm, hmm2, Matrix.conjTranspose_mul, Matrix.mul_assoc, ← Matrix.mul_assoc V0, hVV, Matrix.one_mul]

/-! ### Concrete instance meeting the hypotheses, and the role of orthogonality -/

/-- an instance: two points, two blocks, weights 2 -/
def exQ : Matrix (Fin 2) (Fin 2) ℂ := !![1, 0; 0, 2]

theorem ex_cross : crossSpectral exQ (fun _ => (2 : ℝ)) = !![1, 0; 0, 4] := by
  ext i j
  fin_cases i <;> fin_cases j <;> simp [crossSpectral, exQ, Matrix.mul_apply, Fin.sum_univ_two, map_ofNat] <;> norm_num

/-- the hypotheses of C25-C28 are satisfiable: eigenpairs, distinct, orthonormal -/
example : EigPairs (crossSpectral exQ (fun _ => (2 : ℝ))) ![1, 4] 1 ∧ Function.Injective (![1, 4] : Fin 2 → ℂ) ∧
    (1 : Matrix (Fin 2) (Fin 2) ℂ)ᴴ * 1 = 1 ∧ ArgsortDesc (realIfClose ![1, 4]) (Equiv.swap 0 1) := by
  refine ⟨?_, ?_, by simp, ?_⟩
  · rw [ex_cross]
    intro j
    constructor
    · funext i; fin_cases j <;> fin_cases i <;> simp [mulVec, dotProduct, Fin.sum_univ_two]
    · rw [Fin.sum_univ_two, Matrix.one_apply, Matrix.one_apply]
      fin_cases j <;> simp
  · intro a b hab
    fin_cases a <;> fin_cases b <;> simp_all
  · intro i j hij
    fin_cases i <;> fin_cases j <;> simp_all [realIfClose]

/-- Two blocks with equal energies: the matrix is a multiple of the identity. -/
def exQ2 : Matrix (Fin 2) (Fin 2) ℂ := !![1, 0; 0, 1]

theorem ex_cross2 : crossSpectral exQ2 (fun _ => (2 : ℝ)) = 1 := by
  ext i j
  fin_cases i <;> fin_cases j <;> simp [crossSpectral, exQ2, Matrix.mul_apply, Fin.sum_univ_two]

/-- C27 needs orthonormal eigenvectors when eigenvalues repeat: `numpy.linalg.eig` (a non-symmetric solver)
    only promises unit eigenvectors, and an admissible output for two blocks of equal energy leads to two
    saved modes with weighted inner product `3/5`.  (`eigh` would promise orthonormality.) -/
theorem modes_repeated_eigenvalue_fails :
    ∃ (L0 : Fin 2 → ℂ) (V0 : Matrix (Fin 2) (Fin 2) ℂ) (σ : Equiv.Perm (Fin 2)),
      EigPairs (crossSpectral exQ2 (fun _ => (2 : ℝ))) L0 V0 ∧ ArgsortDesc (realIfClose L0) σ ∧ IsUnit V0.det ∧
      inner_W (fun _ => (2 : ℝ)) (fun x => (spodFreq exQ2 L0 V0 σ 1).2 x 0)
        (fun x => (spodFreq exQ2 L0 V0 σ 1).2 x 1) = 3 / 5 := by
  have hE : EigPairs (crossSpectral exQ2 (fun _ => (2 : ℝ))) (fun _ => 1) !![1, 3 / 5; 0, 4 / 5] := by
    rw [ex_cross2]
    intro j
    refine ⟨by rw [one_mulVec, one_smul], ?_⟩
    fin_cases j <;> simp [Fin.sum_univ_two, map_ofNat] <;> norm_num
  refine ⟨fun _ => 1, !![1, 3 / 5; 0, 4 / 5], 1, hE, fun _ _ _ => le_refl _, ?_, ?_⟩
  · rw [Matrix.det_fin_two]; simp
  · rw [modes_inner exQ2 _ (fun _ => by norm_num) (by norm_num) _ _ hE 1 1 0 1 (by simp [realIfClose])
      (by simp [realIfClose])]
    simp [realIfClose, Fin.sum_univ_two]

/-! ### C29 -/

/-- Contract of `scipy.special.gammaincinv(a, ·)` on `(0,1)`: positive and strictly increasing. -/
def GammaIncInv (ginv : Nat → ℝ → ℝ) : Prop :=
  ∀ nb : Nat, 0 < nb → (∀ p, 0 < p → p < 1 → 0 < ginv nb p) ∧
    ∀ p q, 0 < p → p < q → q < 1 → ginv nb p < ginv nb q

/-- **C29**, proved part: for confidence levels below one half (and only then, see below) the reported lower
    bound is below the reported upper one. -/
theorem conf_bounds_partial (ginv : Nat → ℝ → ℝ) (hg : GammaIncInv ginv) (nb : Nat) (hnb : 0 < nb) (c eig : ℝ)
    (hc0 : 0 < c) (hc : c ≤ 1 / 2) (he : 0 ≤ eig) :
    (confBounds ginv nb c eig).1 ≤ (confBounds ginv nb c eig).2 := by
  obtain ⟨hp, hm⟩ := hg nb hnb
  have h1 := hp c hc0 (by linarith)
  have h2 : ginv nb c ≤ ginv nb (1 - c) := by
    rcases hc.lt_or_eq with h | h
    · exact (hm c (1 - c) hc0 (by linarith) (by linarith)).le
    · rw [h]; norm_num
  simp only [confBounds, xi2]
  apply mul_le_mul_of_nonneg_left _ he
  have : (0 : ℝ) ≤ 2 * nb := by positivity
  exact div_le_div_of_nonneg_left this (by linarith) (by linarith)

/-- **C29 is false** for every confidence level above one half (the default is 0.95): the array stored as
    `eigs_c_l` is strictly larger than the one stored as `eigs_c_u`. -/
theorem conf_bounds_fails (ginv : Nat → ℝ → ℝ) (hg : GammaIncInv ginv) (nb : Nat) (hnb : 0 < nb) (c eig : ℝ)
    (hc0 : c < 1) (hc : 1 / 2 < c) (he : 0 < eig) :
    (confBounds ginv nb c eig).2 < (confBounds ginv nb c eig).1 := by
  obtain ⟨hp, hm⟩ := hg nb hnb
  have h1 := hp (1 - c) (by linarith) (by linarith)
  have h2 := hm (1 - c) c (by linarith) (by linarith) hc0
  have hn : (0 : ℝ) < nb := by exact_mod_cast hnb
  simp only [confBounds, xi2]
  apply mul_lt_mul_of_pos_left _ he
  exact div_lt_div_of_pos_left (by positivity) (by linarith) (by linarith)

/-- Read with the two names exchanged the bounds are ordered at the usual levels. -/
theorem conf_bounds_exchanged (ginv : Nat → ℝ → ℝ) (hg : GammaIncInv ginv) (nb : Nat) (hnb : 0 < nb)
    (c eig : ℝ) (hc0 : c < 1) (hc : 1 / 2 < c) (he : 0 ≤ eig) :
    (confBounds ginv nb c eig).2 ≤ (confBounds ginv nb c eig).1 := by
  rcases he.lt_or_eq with h | h
  · exact (conf_bounds_fails ginv hg nb hnb c eig hc0 hc h).le
  · subst h; simp [confBounds]

example : GammaIncInv (fun _ p => p) := fun _ _ => ⟨fun _ h _ => h, fun _ _ _ h _ => h⟩
example : (confBounds (fun _ p => p) 3 (3 / 4) 1).2 < (confBounds (fun _ p => p) 3 (3 / 4) 1).1 := by
  norm_num [confBounds, xi2]

end Verif.Props
