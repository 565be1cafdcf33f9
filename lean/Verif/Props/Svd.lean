import Verif.Model.Streaming
import Mathlib.Analysis.Matrix.Spectrum
import Mathlib.LinearAlgebra.Matrix.PosDef
import Mathlib.Analysis.Matrix.PosDef
import Mathlib.Data.Fin.Tuple.Sort
/-
  Singular value decompositions exist: the contract on `numpy.linalg.svd` can be met.
-/
namespace Verif.Props
open Verif Verif.Stream Matrix
open scoped ComplexOrder

/-- Every square matrix has a singular value decomposition in the form the code expects from `numpy.linalg.svd`. -/
theorem svd_exists {k : Nat} (K : Matrix (Fin k ⊕ Unit) (Fin k ⊕ Unit) ℂ) : ∃ Up Sp, IsSVD K Up Sp := by
  classical
  have hH : (Kᴴ * K).PosSemidef := Matrix.posSemidef_conjTranspose_mul_self K
  let lam := hH.1.eigenvalues
  have hlam : ∀ i, 0 ≤ lam i := hH.eigenvalues_nonneg
  let e : Fin k ⊕ Unit ≃ Fin (k + 1) := (Equiv.sumCongr (Equiv.refl _) (Equiv.ofUnique Unit (Fin 1))).trans finSumFinEquiv
  let σ := Tuple.sort fun i : Fin (k + 1) => - lam (e.symm i)
  have hσ : ∀ i j, i ≤ j → lam (e.symm (σ j)) ≤ lam (e.symm (σ i)) := by
    intro i j hij
    have := Tuple.monotone_sort (fun i : Fin (k + 1) => - lam (e.symm i)) hij
    simpa using this
  let τ : Equiv.Perm (Fin k ⊕ Unit) := e.trans (σ.trans e.symm)
  let V : Matrix (Fin k ⊕ Unit) (Fin k ⊕ Unit) ℂ := Matrix.of fun i j => hH.1.eigenvectorBasis (τ j) i
  let Sp : Fin k ⊕ Unit → ℝ := fun j => Real.sqrt (lam (τ j))
  have hV : Vᴴ * V = 1 := by
    ext i j
    have h := hH.1.eigenvectorBasis.orthonormal
    rw [orthonormal_iff_ite] at h
    have h := h (τ i) (τ j)
    simp only [EmbeddingLike.apply_eq_iff_eq] at h
    rw [Matrix.one_apply, ← h]
    simp [Matrix.mul_apply, V, PiLp.inner_apply, mul_comm]
  have hA : (K * V)ᴴ * (K * V) = Matrix.diagonal fun j => ((Sp j : ℂ)) ^ 2 := by
    have h1 : (Kᴴ * K) * V = V * Matrix.diagonal fun j => ((lam (τ j) : ℝ) : ℂ) := by
      ext i j
      have := congrFun (hH.1.mulVec_eigenvectorBasis (τ j)) i
      rw [Matrix.mul_diagonal]
      simp only [Pi.smul_apply] at this
      rw [Complex.real_smul] at this
      rw [mul_comm]
      exact this
    rw [Matrix.conjTranspose_mul, Matrix.mul_assoc, ← Matrix.mul_assoc Kᴴ, h1, ← Matrix.mul_assoc, hV, Matrix.one_mul]
    congr 1
    funext j
    simp only [Sp]
    rw [← Complex.ofReal_pow, Real.sq_sqrt (hlam _)]
  let y : Fin k ⊕ Unit → EuclideanSpace ℂ (Fin k ⊕ Unit) := fun j => WithLp.toLp 2 fun i => (K * V) i j / (Sp j : ℂ)
  have hy : Orthonormal ℂ (Set.domRestrict {j | Sp j ≠ 0} y) := by
    rw [orthonormal_iff_ite]
    rintro ⟨i, hi⟩ ⟨j, hj⟩
    have h := congrFun (congrFun hA i) j
    simp only [Matrix.mul_apply, Matrix.conjTranspose_apply] at h
    simp only [Set.domRestrict_apply, y, PiLp.inner_apply, RCLike.inner_apply, Subtype.mk.injEq]
    have hi' : (Sp i : ℂ) ≠ 0 := by exact_mod_cast hi
    have hj' : (Sp j : ℂ) ≠ 0 := by exact_mod_cast hj
    have e1 : ∀ l, (K * V) l j / (Sp j : ℂ) * (starRingEnd ℂ) ((K * V) l i / (Sp i : ℂ)) =
        (star ((K * V) l i) * (K * V) l j) / ((Sp i : ℂ) * (Sp j : ℂ)) := by
      intro l
      simp only [map_div₀, Complex.conj_ofReal, RCLike.star_def]
      field_simp
    simp only [e1, ← Finset.sum_div]
    simp only [Matrix.mul_apply] at h ⊢
    rw [h]
    by_cases hij : i = j
    · subst hij
      simp only [Matrix.diagonal_apply_eq, ↓reduceIte]
      field_simp
    · simp [hij]
  obtain ⟨b, hb⟩ := hy.exists_orthonormalBasis_extension_of_card_eq (by simp)
  refine ⟨Matrix.of fun i j => b j i, Sp, ?_, ⟨V, hV, ?_⟩, fun j => Real.sqrt_nonneg _, fun i j hij => ?_, fun i => ?_⟩
  · ext i j
    have h := b.orthonormal
    rw [orthonormal_iff_ite] at h
    have h := h i j
    rw [Matrix.one_apply, ← h]
    simp [Matrix.mul_apply, PiLp.inner_apply, mul_comm]
  · have hVV : V * Vᴴ = 1 := mul_eq_one_comm.1 hV
    have : K * V = (Matrix.of fun i j => b j i) * Matrix.diagonal fun j => (Sp j : ℂ) := by
      ext i j
      rw [Matrix.mul_diagonal, Matrix.of_apply]
      by_cases hj : Sp j = 0
      · have h := congrFun (congrFun hA j) j
        simp only [Matrix.diagonal_apply_eq, hj, Complex.ofReal_zero] at h
        rw [Matrix.mul_apply] at h
        simp only [Matrix.conjTranspose_apply] at h
        have h2 : ∑ l, Complex.normSq ((K * V) l j) = 0 := by
          have : ((∑ l, Complex.normSq ((K * V) l j) : ℝ) : ℂ) = 0 := by
            push_cast
            rw [← (by simpa using h : ∑ l, star ((K * V) l j) * (K * V) l j = 0)]
            refine Finset.sum_congr rfl fun l _ => ?_
            rw [Complex.normSq_eq_conj_mul_self]; rfl
          exact_mod_cast this
        have h3 := (Finset.sum_eq_zero_iff_of_nonneg fun l _ => Complex.normSq_nonneg _).1 h2 i (Finset.mem_univ i)
        rw [Complex.normSq_eq_zero.1 h3, hj]; simp
      · rw [hb j hj]
        have hj' : (Sp j : ℂ) ≠ 0 := by exact_mod_cast hj
        simp only [y]
        field_simp
    rw [← this, Matrix.mul_assoc, hVV, Matrix.mul_one]
  · exact Real.sqrt_le_sqrt (hσ _ _ (by simp only [e, Fin.le_def]; simpa using hij))
  · refine Real.sqrt_le_sqrt (hσ _ _ ?_)
    simp only [e, Fin.le_def]
    simp
end Verif.Props
