import Verif.Model.Streaming
import Mathlib.Tactic.Ring
import Mathlib.Tactic.Linarith
import Mathlib.Tactic.FieldSimp
import Mathlib.LinearAlgebra.Matrix.Trace
import Mathlib.Data.List.GetD
import Mathlib.Analysis.Complex.Basic
import Mathlib.LinearAlgebra.Matrix.DotProduct
import Mathlib.Algebra.BigOperators.Field
import Mathlib.Data.Complex.BigOperators
import Mathlib.Algebra.BigOperators.Fin
import Mathlib.LinearAlgebra.Matrix.Rank
import Mathlib.LinearAlgebra.Matrix.Diagonal
/-
  C42, C66: the streaming basis update.
-/
set_option linter.unusedSectionVars false
set_option linter.unusedVariables false
namespace Verif.Props
open Verif Verif.Stream Matrix
open scoped ComplexOrder

variable {X : Type} [Fintype X] [DecidableEq X] {k : Nat}

/-! ### Specification -/

/-- `x xᴴ` -/
def outerProd (x : X → ℂ) : Matrix X X ℂ := Matrix.of fun i j => x i * star (x j)

/-- `U diag(S²) Uᴴ`: the cross-spectral density represented by a basis and its singular values. -/
noncomputable def density {m : Type} [Fintype m] [DecidableEq m] (U : Matrix X m ℂ) (S : m → ℝ) : Matrix X X ℂ :=
  U * Matrix.diagonal (fun j => ((S j : ℂ)) ^ 2) * Uᴴ

/-- All runs of the update over a list of (weighted, transformed) blocks, for any results of the SVD routine
    allowed by its contract: `StreamRun xs U S` = after the blocks `xs` the state may be `U`, `S`
    (streaming.py:71-72: both zero at the start; streaming.py:133: `block_i` is incremented first).
    `absUp ≠ 0`: the new block is not in the span of the basis (otherwise line 181 divides by zero). -/
inductive StreamRun (k : Nat) : List (X → ℂ) → Matrix X (Fin k) ℂ → (Fin k → ℝ) → Prop
  | nil : StreamRun k [] 0 0
  | snoc {xs U S x Up Sp} : StreamRun k xs U S → absUp U x ≠ 0 →
      IsSVD (kMat U S x (xs.length + 1)) Up Sp → StreamRun k (xs ++ [x]) (update U x Up Sp).1 (update U x Up Sp).2

/-! ### One update -/

theorem decompose (U : Matrix X (Fin k) ℂ) (x : X → ℂ) (h : absUp U x ≠ 0) (i : X) :
    (U *ᵥ proj U x) i + uNew U x i * (absUp U x : ℂ) = x i := by
  have h' : (absUp U x : ℂ) ≠ 0 := by exact_mod_cast h
  unfold uNew
  rw [div_mul_cancel₀ _ h']
  simp [uPerp]

theorem sq_sqrt_c {a : ℝ} (h : 0 ≤ a) : ((Real.sqrt a : ℝ) : ℂ) * ((Real.sqrt a : ℝ) : ℂ) = (a : ℂ) := by
  rw [← Complex.ofReal_mul, Real.mul_self_sqrt h]

theorem svd_gram {K Up : Matrix (Fin k ⊕ Unit) (Fin k ⊕ Unit) ℂ} {Sp : Fin k ⊕ Unit → ℝ}
    (h : IsSVD K Up Sp) : K * Kᴴ = Up * Matrix.diagonal (fun j => ((Sp j : ℂ)) ^ 2) * Upᴴ := by
  obtain ⟨V, hV, hK⟩ := h.factor
  rw [hK]
  simp only [Matrix.conjTranspose_mul, Matrix.conjTranspose_conjTranspose, Matrix.diagonal_conjTranspose]
  have e : Up * Matrix.diagonal (fun j => (Sp j : ℂ)) * Vᴴ *
      (V * (Matrix.diagonal (star fun j => (Sp j : ℂ)) * Upᴴ)) =
      Up * (Matrix.diagonal (fun j => (Sp j : ℂ)) * (Vᴴ * V) * Matrix.diagonal (star fun j => (Sp j : ℂ))) * Upᴴ := by
    simp only [Matrix.mul_assoc]
  rw [e, hV, Matrix.mul_one, Matrix.diagonal_mul_diagonal]
  congr 3
  funext j
  simp [sq]

/-- `[U u_new] K = s [√(c+2) U S, x]` -/
theorem basis_mul_kMat (U : Matrix X (Fin k) ℂ) (S : Fin k → ℝ) (x : X → ℂ) (c : Nat) (h : absUp U x ≠ 0) :
    Matrix.fromCols U (Matrix.of fun i (_ : Unit) => uNew U x i) * kMat U S x c =
      ((Real.sqrt (((c : ℝ) + 1) / ((c : ℝ) + 2) ^ 2) : ℝ) : ℂ) •
        Matrix.fromCols ((Real.sqrt ((c : ℝ) + 2) : ℂ) • (U * Matrix.diagonal fun j => (S j : ℂ)))
          (Matrix.of fun i (_ : Unit) => x i) := by
  unfold kMat
  rw [Matrix.mul_smul, Matrix.fromCols_mul_fromBlocks]
  congr 2
  · rw [Matrix.mul_zero, add_zero, Matrix.mul_smul]
  · ext i j
    rw [Matrix.add_apply]
    have := decompose U x h i
    simp only [Matrix.mul_apply, Matrix.of_apply, Finset.univ_unique, Finset.sum_singleton]
    simpa [Matrix.mulVec, dotProduct] using this

/-- C42, one step before truncation: the new density is an explicit combination of the old one and the new
    block, whatever the SVD routine returns. -/
theorem stream_update (U : Matrix X (Fin k) ℂ) (S : Fin k → ℝ) (x : X → ℂ) (c : Nat)
    (Up : Matrix (Fin k ⊕ Unit) (Fin k ⊕ Unit) ℂ) (Sp : Fin k ⊕ Unit → ℝ)
    (h : absUp U x ≠ 0) (hsvd : IsSVD (kMat U S x c) Up Sp) :
    density (uRot U x Up) Sp =
      (((c : ℂ) + 1) / ((c : ℂ) + 2)) • density U S + (((c : ℂ) + 1) / ((c : ℂ) + 2) ^ 2) • outerProd x := by
  have e1 : density (uRot U x Up) Sp =
      (Matrix.fromCols U (Matrix.of fun i (_ : Unit) => uNew U x i) * kMat U S x c) *
      (Matrix.fromCols U (Matrix.of fun i (_ : Unit) => uNew U x i) * kMat U S x c)ᴴ := by
    rw [Matrix.conjTranspose_mul, Matrix.mul_assoc, ← Matrix.mul_assoc (kMat U S x c), svd_gram hsvd]
    unfold density uRot
    simp only [Matrix.conjTranspose_mul, Matrix.mul_assoc]
  rw [e1, basis_mul_kMat U S x c h]
  rw [Matrix.conjTranspose_smul, Matrix.smul_mul, Matrix.mul_smul, smul_smul]
  have hpos : (0 : ℝ) ≤ ((c : ℝ) + 1) / ((c : ℝ) + 2) ^ 2 := by positivity
  have hstar : ∀ a : ℝ, star ((a : ℝ) : ℂ) = (a : ℂ) := fun a => Complex.conj_ofReal a
  rw [hstar, sq_sqrt_c hpos]
  rw [Matrix.conjTranspose_fromCols_eq_fromRows_conjTranspose, Matrix.fromCols_mul_fromRows, smul_add]
  have hc2 : ((c : ℂ) + 2) ≠ 0 := by
    have : ((c + 2 : Nat) : ℂ) ≠ 0 := Nat.cast_ne_zero.2 (by omega)
    simpa using this
  congr 1
  · rw [Matrix.conjTranspose_smul, Matrix.smul_mul, Matrix.mul_smul, smul_smul, smul_smul, hstar,
      mul_assoc, sq_sqrt_c (show (0 : ℝ) ≤ (c : ℝ) + 2 by positivity)]
    unfold density
    rw [Matrix.conjTranspose_mul, Matrix.diagonal_conjTranspose]
    have : U * Matrix.diagonal (fun j => (S j : ℂ)) * (Matrix.diagonal (star fun j => (S j : ℂ)) * Uᴴ) =
        U * Matrix.diagonal (fun j => (S j : ℂ) ^ 2) * Uᴴ := by
      rw [Matrix.mul_assoc, ← Matrix.mul_assoc (Matrix.diagonal _), Matrix.diagonal_mul_diagonal,
        ← Matrix.mul_assoc]
      congr 3
      funext j
      simp [sq]
    rw [this]
    congr 1
    push_cast
    field_simp
  · congr 1
    · push_cast; rfl
    · ext i j
      simp [outerProd, Matrix.mul_apply]

/-- What truncation removes: exactly the term of the last (smallest) singular value. -/
theorem stream_truncate (U : Matrix X (Fin k) ℂ) (x : X → ℂ)
    (Up : Matrix (Fin k ⊕ Unit) (Fin k ⊕ Unit) ℂ) (Sp : Fin k ⊕ Unit → ℝ) :
    density (uRot U x Up) Sp = density (update U x Up Sp).1 (update U x Up Sp).2 +
      ((Sp (.inr ()) : ℂ) ^ 2) • outerProd (fun i => uRot U x Up i (.inr ())) := by
  ext i j
  unfold density update outerProd
  rw [Matrix.add_apply, Matrix.smul_apply, Matrix.mul_apply, Matrix.mul_apply]
  simp only [Matrix.mul_diagonal, Matrix.conjTranspose_apply, Matrix.of_apply, Fintype.sum_sum_type,
    Finset.univ_unique, Finset.sum_singleton, smul_eq_mul]
  congr 1
  rw [show (default : Unit) = () from rfl]
  ring

/-! ### Orthonormality -/

/-- indicator of the non-zero singular values -/
noncomputable def ind {m : Type} (S : m → ℝ) : m → ℂ := fun j => if S j = 0 then 0 else 1

theorem gram_basis (U : Matrix X (Fin k) ℂ) (S : Fin k → ℝ) (x : X → ℂ) (h : absUp U x ≠ 0)
    (hU : Uᴴ * U = Matrix.diagonal (ind S)) :
    (Matrix.fromCols U (Matrix.of fun i (_ : Unit) => uNew U x i))ᴴ *
      (Matrix.fromCols U (Matrix.of fun i (_ : Unit) => uNew U x i)) =
      Matrix.fromBlocks (Matrix.diagonal (ind S)) 0 0 1 := by
  have h' : (absUp U x : ℂ) ≠ 0 := by exact_mod_cast h
  have hperp : Uᴴ *ᵥ uPerp U x = 0 := by
    have hUU : U * (Uᴴ * U) = U := by
      rw [hU]
      have hd : (U * Matrix.diagonal (ind S) - U)ᴴ * (U * Matrix.diagonal (ind S) - U) = 0 := by
        rw [Matrix.conjTranspose_sub, Matrix.conjTranspose_mul, Matrix.diagonal_conjTranspose]
        have hs : star (ind S) = ind S := by
          funext j; simp only [ind, Pi.star_apply]; split <;> simp
        rw [hs, Matrix.sub_mul, Matrix.mul_sub, Matrix.mul_sub]
        have e1 : Matrix.diagonal (ind S) * Uᴴ * (U * Matrix.diagonal (ind S)) = Matrix.diagonal (ind S) := by
          rw [Matrix.mul_assoc, ← Matrix.mul_assoc Uᴴ, hU, Matrix.diagonal_mul_diagonal,
            Matrix.diagonal_mul_diagonal]
          congr 1; funext j; simp only [ind]; split <;> simp
        have e2 : Matrix.diagonal (ind S) * Uᴴ * U = Matrix.diagonal (ind S) := by
          rw [Matrix.mul_assoc, hU, Matrix.diagonal_mul_diagonal]
          congr 1; funext j; simp only [ind]; split <;> simp
        have e3 : Uᴴ * (U * Matrix.diagonal (ind S)) = Matrix.diagonal (ind S) := by
          rw [← Matrix.mul_assoc, hU, Matrix.diagonal_mul_diagonal]
          congr 1; funext j; simp only [ind]; split <;> simp
        rw [e1, e2, e3, hU]; simp
      have := Matrix.conjTranspose_mul_self_eq_zero.1 hd
      rwa [sub_eq_zero] at this
    have e : Uᴴ * U * Uᴴ = Uᴴ := by
      have := congrArg Matrix.conjTranspose hUU
      rwa [Matrix.conjTranspose_mul, Matrix.conjTranspose_mul, Matrix.conjTranspose_conjTranspose] at this
    unfold uPerp proj
    rw [Matrix.mulVec_sub, Matrix.mulVec_mulVec, Matrix.mulVec_mulVec, e, sub_self]
  have hperp' : ∀ j, ∑ i, star (U i j) * uPerp U x i = 0 := by
    intro j
    have := congrFun hperp j
    simpa [Matrix.mulVec, dotProduct] using this
  have hnorm : ∑ i, star (uPerp U x i) * uPerp U x i = (absUp U x : ℂ) * (absUp U x : ℂ) := by
    rw [absUp, sq_sqrt_c (Finset.sum_nonneg fun i _ => Complex.normSq_nonneg _)]
    rw [Complex.ofReal_sum]
    refine Finset.sum_congr rfl ?_
    intro i _
    exact (Complex.normSq_eq_conj_mul_self).symm
  have hstar : star ((absUp U x : ℝ) : ℂ) = (absUp U x : ℂ) := Complex.conj_ofReal _
  rw [Matrix.conjTranspose_fromCols_eq_fromRows_conjTranspose, Matrix.fromRows_mul_fromCols, hU]
  congr 1
  · ext i j
    simp only [Matrix.mul_apply, Matrix.conjTranspose_apply, Matrix.of_apply, uNew, Matrix.zero_apply]
    have : ∀ l, star (U l i) * (uPerp U x l / (absUp U x : ℂ)) = star (U l i) * uPerp U x l / (absUp U x : ℂ) :=
      fun l => by ring
    simp only [this]
    rw [← Finset.sum_div, hperp' i, zero_div]
  · ext i j
    simp only [Matrix.mul_apply, Matrix.conjTranspose_apply, Matrix.of_apply, uNew, Matrix.zero_apply, star_div₀]
    have : ∀ l, star (uPerp U x l) / star (absUp U x : ℂ) * U l j =
        star (star (U l j) * uPerp U x l) / star (absUp U x : ℂ) :=
      fun l => by rw [star_mul, star_star]; ring
    simp only [this]
    rw [← Finset.sum_div, ← star_sum, hperp' j, star_zero, zero_div]
  · ext i j
    simp only [Matrix.mul_apply, Matrix.conjTranspose_apply, Matrix.of_apply, uNew, star_div₀]
    have : ∀ l, star (uPerp U x l) / star (absUp U x : ℂ) * (uPerp U x l / (absUp U x : ℂ)) =
        (star (uPerp U x l) * uPerp U x l) / ((absUp U x : ℂ) * (absUp U x : ℂ)) :=
      fun l => by rw [hstar]; field_simp
    simp only [this]
    rw [← Finset.sum_div, hnorm, div_self (mul_ne_zero h' h')]
    simp

theorem update_orthonormal (U : Matrix X (Fin k) ℂ) (S : Fin k → ℝ) (x : X → ℂ) (c : Nat)
    (Up : Matrix (Fin k ⊕ Unit) (Fin k ⊕ Unit) ℂ) (Sp : Fin k ⊕ Unit → ℝ)
    (h : absUp U x ≠ 0) (hsvd : IsSVD (kMat U S x c) Up Sp) (hU : Uᴴ * U = Matrix.diagonal (ind S)) :
    (uRot U x Up)ᴴ * uRot U x Up = Matrix.diagonal (ind Sp) := by
  have h' : (absUp U x : ℂ) ≠ 0 := by exact_mod_cast h
  set Q : Matrix (Fin k ⊕ Unit) (Fin k ⊕ Unit) ℂ := Matrix.fromBlocks (Matrix.diagonal (ind S)) 0 0 1 with hQ
  set K := kMat U S x c with hK
  set s : ℂ := ((Real.sqrt (((c : ℝ) + 1) / ((c : ℝ) + 2) ^ 2) : ℝ) : ℂ) with hs
  set q : ℂ := (Real.sqrt ((c : ℝ) + 2) : ℂ) with hq
  have hs0 : s ≠ 0 := by
    rw [hs]; exact_mod_cast (Real.sqrt_pos.2 (by positivity)).ne'
  have hq0 : q ≠ 0 := by
    rw [hq]; exact_mod_cast (Real.sqrt_pos.2 (by positivity)).ne'
  have hg := gram_basis U S x h hU
  have hPx : ∀ i, ind S i * proj U x i = proj U x i := by
    intro i
    -- a zero singular value belongs to a zero column
    by_cases hi : S i = 0
    · have hcol : ∀ l, U l i = 0 := by
        have := congrFun (congrFun hU i) i
        simp only [Matrix.mul_apply, Matrix.conjTranspose_apply, Matrix.diagonal_apply_eq, ind, hi, if_true] at this
        have e : ∑ l, star (U l i) * U l i = ((∑ l, Complex.normSq (U l i) : ℝ) : ℂ) := by
          rw [Complex.ofReal_sum]
          exact Finset.sum_congr rfl fun l _ => (Complex.normSq_eq_conj_mul_self).symm
        rw [e] at this
        have hz : ∑ l, Complex.normSq (U l i) = 0 := by exact_mod_cast this
        intro l
        have := (Finset.sum_eq_zero_iff_of_nonneg (fun l _ => Complex.normSq_nonneg _)).1 hz l (Finset.mem_univ l)
        exact Complex.normSq_eq_zero.1 this
      simp [proj, Matrix.mulVec, dotProduct, hcol]
    · simp [ind, hi]
  -- K L = Q
  have hL : ∃ L, K * L = Q := by
    refine ⟨s⁻¹ • Matrix.fromBlocks (q⁻¹ • Matrix.diagonal fun j => ((S j : ℂ))⁻¹)
      (Matrix.of fun i _ => - (q⁻¹ * ((S i : ℂ))⁻¹ * proj U x i * (absUp U x : ℂ)⁻¹)) 0
      (Matrix.of fun _ _ => (absUp U x : ℂ)⁻¹), ?_⟩
    rw [hK, kMat, ← hs, ← hq, Matrix.smul_mul, Matrix.mul_smul, smul_smul, mul_inv_cancel₀ hs0, one_smul,
      Matrix.fromBlocks_multiply, hQ]
    congr 1
    · rw [Matrix.mul_zero, add_zero, Matrix.smul_mul, Matrix.mul_smul, smul_smul, mul_inv_cancel₀ hq0, one_smul,
        Matrix.diagonal_mul_diagonal]
      congr 1; funext j
      simp only [ind]
      by_cases hj : S j = 0
      · simp [hj]
      · have : (S j : ℂ) ≠ 0 := by exact_mod_cast hj
        simp [hj, this]
    · ext i j
      rw [Matrix.add_apply, Matrix.smul_mul, Matrix.smul_apply, Matrix.diagonal_mul]
      simp only [Matrix.mul_apply, Matrix.of_apply, Finset.univ_unique, Finset.sum_singleton, smul_eq_mul,
        Matrix.zero_apply]
      by_cases hi : S i = 0
      · have := hPx i
        simp only [ind, hi, if_true, zero_mul] at this
        simp [hi, ← this]
      · have : (S i : ℂ) ≠ 0 := by exact_mod_cast hi
        field_simp
        ring
    · simp
    · ext i j
      simp [Matrix.mul_apply, h']
  -- Q K = K
  have hQK : Q * K = K := by
    rw [hK, kMat, ← hs, ← hq, Matrix.mul_smul, hQ, Matrix.fromBlocks_multiply]
    congr 2
    · rw [Matrix.zero_mul, add_zero, Matrix.mul_smul, Matrix.diagonal_mul_diagonal]
      congr 2; funext j; simp only [ind]; split
      · rename_i hj; simp [hj]
      · simp
    · ext i j
      rw [Matrix.add_apply, Matrix.diagonal_mul]
      simp [hPx i]
    · simp
    · simp
  obtain ⟨L, hL⟩ := hL
  obtain ⟨V, hV, hKV⟩ := hsvd.factor
  set D : Matrix (Fin k ⊕ Unit) (Fin k ⊕ Unit) ℂ := Matrix.diagonal (fun j => (Sp j : ℂ)) with hD
  have hED : Matrix.diagonal (ind Sp) * D = D := by
    rw [hD, Matrix.diagonal_mul_diagonal]
    congr 1; funext j; simp only [ind]; split
    · rename_i hj; simp [hj]
    · simp
  have hUQ : Upᴴ * Q = Matrix.diagonal (ind Sp) * (Upᴴ * Q) := by
    have e : Upᴴ * Q = D * Vᴴ * L := by
      rw [← hL, hKV, ← Matrix.mul_assoc, ← Matrix.mul_assoc, ← Matrix.mul_assoc, hsvd.left, Matrix.one_mul]
    rw [e, ← Matrix.mul_assoc, ← Matrix.mul_assoc, hED]
  have hQUD : Q * (Up * D) = Up * D := by
    have e : Up * D = K * V := by rw [hKV, Matrix.mul_assoc, hV, Matrix.mul_one]
    rw [e, ← Matrix.mul_assoc, hQK]
  have hmain : (uRot U x Up)ᴴ * uRot U x Up = Upᴴ * Q * Up := by
    unfold uRot
    rw [Matrix.conjTranspose_mul, Matrix.mul_assoc, ← Matrix.mul_assoc _ _ Up, hg, ← Matrix.mul_assoc]
  rw [hmain]
  set R := Upᴴ * Q * Up with hR
  have h1 : R = Matrix.diagonal (ind Sp) * R := by
    rw [hR]; conv_lhs => rw [hUQ]
    rw [Matrix.mul_assoc]
  have h2 : R * D = D := by
    rw [hR, Matrix.mul_assoc, Matrix.mul_assoc, hQUD, ← Matrix.mul_assoc, hsvd.left, Matrix.one_mul]
  have h3 : R * Matrix.diagonal (ind Sp) = Matrix.diagonal (ind Sp) := by
    have hDD : D * Matrix.diagonal (fun j => ((Sp j : ℂ))⁻¹) = Matrix.diagonal (ind Sp) := by
      rw [hD, Matrix.diagonal_mul_diagonal]
      congr 1; funext j; simp only [ind]
      by_cases hj : Sp j = 0
      · simp [hj]
      · have : (Sp j : ℂ) ≠ 0 := by exact_mod_cast hj
        simp [hj, this]
    rw [← hDD, ← Matrix.mul_assoc, h2]
  have hherm : Rᴴ = R := by
    rw [← hmain]; simp
  have hEh : (Matrix.diagonal (ind Sp) : Matrix (Fin k ⊕ Unit) (Fin k ⊕ Unit) ℂ)ᴴ = Matrix.diagonal (ind Sp) := by
    rw [Matrix.diagonal_conjTranspose]
    congr 1; funext j; simp only [ind, Pi.star_apply]; split <;> simp
  have h4 : Rᴴ = (Matrix.diagonal (ind Sp) * R)ᴴ := congrArg Matrix.conjTranspose h1
  rw [Matrix.conjTranspose_mul (Matrix.diagonal (ind Sp)) R, hherm, hEh, h3] at h4
  exact h4

/-- C42 (modes): in every reachable state the columns with non-zero singular value are orthonormal and the
    others vanish, whatever the SVD routine returns. -/
theorem stream_orthonormal {xs : List (X → ℂ)} {U : Matrix X (Fin k) ℂ} {S : Fin k → ℝ} (h : StreamRun k xs U S) :
    Uᴴ * U = Matrix.diagonal fun j => if S j = 0 then 0 else 1 := by
  change Uᴴ * U = Matrix.diagonal (ind S)
  induction h with
  | nil => ext i j; simp [ind, Matrix.diagonal_apply]
  | @snoc xs U S x Up Sp hr ha hsvd ih =>
    have := update_orthonormal U S x _ Up Sp ha hsvd ih
    ext i j
    have h2 := congrFun (congrFun this (.inl i)) (.inl j)
    simp only [Matrix.mul_apply, Matrix.conjTranspose_apply, Matrix.diagonal_apply, update, Matrix.of_apply] at h2 ⊢
    rw [h2]
    simp [ind]

/-! ### Closed form -/

theorem csd_psd_last {K Up : Matrix (Fin k ⊕ Unit) (Fin k ⊕ Unit) ℂ} {Sp : Fin k ⊕ Unit → ℝ}
    (h : IsSVD K Up Sp) (r : Nat) (hr : K.rank ≤ r) : Fintype.card {j // (Sp j : ℂ) ≠ 0} ≤ r := by
  classical
  obtain ⟨V, hV, hK⟩ := h.factor
  have hVV : V * Vᴴ = 1 := mul_eq_one_comm.1 hV
  have hD : Matrix.diagonal (fun j => (Sp j : ℂ)) = Upᴴ * K * V := by
    rw [hK, ← Matrix.mul_assoc, ← Matrix.mul_assoc, h.left, Matrix.one_mul, Matrix.mul_assoc, hV, Matrix.mul_one]
  have h1 : (Matrix.diagonal (fun j => (Sp j : ℂ))).rank ≤ K.rank := by
    rw [hD]
    exact (Matrix.rank_mul_le_left _ _).trans (Matrix.rank_mul_le_right _ _)
  rw [Matrix.rank_diagonal] at h1
  exact h1.trans hr

theorem svd_rank_zero {K Up : Matrix (Fin k ⊕ Unit) (Fin k ⊕ Unit) ℂ} {Sp : Fin k ⊕ Unit → ℝ}
    (h : IsSVD K Up Sp) (r : Nat) (hrk : r ≤ k) (hr : K.rank ≤ r) :
    (∀ j : Fin k, r ≤ j.val → Sp (.inl j) = 0) ∧ Sp (.inr ()) = 0 := by
  classical
  have hc := csd_psd_last h r hr
  constructor
  · intro j hj
    by_contra hne
    have hpos : 0 < Sp (.inl j) := lt_of_le_of_ne (h.nonneg _) (Ne.symm hne)
    have hall : ∀ i : Fin (r + 1), (Sp (.inl ⟨i.val, by omega⟩) : ℂ) ≠ 0 := by
      intro i
      have := h.sorted ⟨i.val, by omega⟩ j (by rw [Fin.le_def]; simp only; omega)
      have : 0 < Sp (.inl ⟨i.val, by omega⟩) := lt_of_lt_of_le hpos this
      exact_mod_cast this.ne'
    have := Fintype.card_le_of_injective (α := Fin (r + 1)) (β := {j // (Sp j : ℂ) ≠ 0})
      (fun i => ⟨.inl ⟨i.val, by omega⟩, hall i⟩) (by
        intro a b hab
        simp only [Subtype.mk.injEq, Sum.inl.injEq, Fin.mk.injEq] at hab
        exact Fin.ext hab)
    rw [Fintype.card_fin] at this
    omega
  · by_contra hne
    have hpos : 0 < Sp (.inr ()) := lt_of_le_of_ne (h.nonneg _) (Ne.symm hne)
    have hall : ∀ i, (Sp i : ℂ) ≠ 0 := by
      rintro (i | i)
      · have := lt_of_lt_of_le hpos (h.last i)
        exact_mod_cast this.ne'
      · exact_mod_cast hpos.ne'
    have := Fintype.card_le_of_injective (α := Fin k ⊕ Unit) (β := {j // (Sp j : ℂ) ≠ 0})
      (fun i => ⟨i, hall i⟩) (by intro a b hab; simpa using hab)
    simp at this hc
    omega

theorem kMat_rank (U : Matrix X (Fin k) ℂ) (S : Fin k → ℝ) (x : X → ℂ) (c r : Nat) (hrk : r ≤ k)
    (hS : ∀ j : Fin k, r ≤ j.val → S j = 0) : (kMat U S x c).rank ≤ r + 1 := by
  classical
  set e : Fin k ⊕ Unit → ℂ := fun j => match j with | .inl j => if j.val < r then 1 else 0 | .inr _ => 1 with he
  have hK : kMat U S x c = kMat U S x c * Matrix.diagonal e := by
    ext i j
    rw [Matrix.mul_diagonal]
    rcases j with j | j
    · by_cases hj : j.val < r
      · simp [he, hj]
      · have := hS j (by omega)
        rcases i with i | i
        · by_cases hij : i = j
          · subst hij; simp [kMat, this]
          · simp [kMat, hij]
        · simp [kMat]
    · simp [he]
  rw [hK]
  refine (Matrix.rank_mul_le_right _ _).trans ?_
  rw [Matrix.rank_diagonal]
  have := Fintype.card_le_of_injective (α := {j // e j ≠ 0}) (β := Fin r ⊕ Unit)
    (fun j => match j with
      | ⟨.inl j, h⟩ => .inl ⟨j.val, by by_contra hc; exact h (by simp [he, hc])⟩
      | ⟨.inr _, _⟩ => .inr ()) (by
        rintro ⟨a | a, ha⟩ ⟨b | b, hb⟩ hab <;> simp_all [Fin.ext_iff])
  simpa using this

/-- **C42 (closed form).**  As long as no more blocks have been read than modes are saved, nothing is lost
    by truncation and the represented density after `c` blocks is `1/(c+2) * Σ_b (b+2)/(b+3) x_b x_bᴴ`
    (`b` counted from 0), for every SVD routine. -/
theorem stream_closed_form {xs : List (X → ℂ)} {U : Matrix X (Fin k) ℂ} {S : Fin k → ℝ} (h : StreamRun k xs U S)
    (hk : xs.length ≤ k) :
    density U S = (1 / ((xs.length : ℂ) + 2)) •
      ∑ b ∈ Finset.range xs.length, (((b : ℂ) + 2) / ((b : ℂ) + 3)) • outerProd (xs.getD b 0) := by
  suffices H : (∀ j : Fin k, xs.length ≤ j.val → S j = 0) ∧ density U S = (1 / ((xs.length : ℂ) + 2)) •
      ∑ b ∈ Finset.range xs.length, (((b : ℂ) + 2) / ((b : ℂ) + 3)) • outerProd (xs.getD b 0) from H.2
  induction h with
  | nil => exact ⟨fun _ _ => rfl, by simp [density]⟩
  | @snoc xs U S x Up Sp hr ha hsvd ih =>
    have hlen : (xs ++ [x]).length = xs.length + 1 := by simp
    rw [hlen] at hk ⊢
    obtain ⟨ih1, ih2⟩ := ih (by omega)
    obtain ⟨hz, hlast⟩ := svd_rank_zero hsvd (xs.length + 1) hk
      (kMat_rank U S x _ xs.length (by omega) ih1)
    refine ⟨fun j hj => hz j hj, ?_⟩
    have h1 := stream_truncate U x Up Sp
    rw [hlast] at h1
    simp only [Complex.ofReal_zero, ne_eq, OfNat.ofNat_ne_zero, not_false_eq_true, zero_pow, zero_smul,
      add_zero] at h1
    rw [← h1, stream_update U S x _ Up Sp ha hsvd, ih2, Finset.sum_range_succ]
    have e1 : ∀ b ∈ Finset.range xs.length, (((b : ℂ) + 2) / ((b : ℂ) + 3)) • outerProd ((xs ++ [x]).getD b 0) =
        (((b : ℂ) + 2) / ((b : ℂ) + 3)) • outerProd (xs.getD b 0) := by
      intro b hb
      rw [List.getD_append _ _ _ _ (Finset.mem_range.1 hb)]
    have e2 : (xs ++ [x]).getD xs.length 0 = x := by simp [List.getD]
    rw [Finset.sum_congr rfl e1, e2, smul_add, smul_smul, smul_smul]
    have n2 : ((xs.length : ℂ) + 2) ≠ 0 := by
      have : ((xs.length + 2 : Nat) : ℂ) ≠ 0 := Nat.cast_ne_zero.2 (by omega)
      simpa using this
    have n3 : ((xs.length : ℂ) + 3) ≠ 0 := by
      have : ((xs.length + 3 : Nat) : ℂ) ≠ 0 := Nat.cast_ne_zero.2 (by omega)
      simpa using this
    have e3 : ((xs.length + 1 : Nat) : ℂ) + 2 = (xs.length : ℂ) + 3 := by push_cast; ring
    have e4 : ((xs.length + 1 : Nat) : ℂ) + 1 = (xs.length : ℂ) + 2 := by push_cast; ring
    rw [e3, e4]
    congr 2 <;> field_simp

/-- C66: what `eigs` holds after a streaming fit: the squares of the stored numbers add up to the total
    energy of the represented density. -/
theorem stream_energy {xs : List (X → ℂ)} {U : Matrix X (Fin k) ℂ} {S : Fin k → ℝ} (h : StreamRun k xs U S)
    (hk : xs.length ≤ k) :
    ∑ j, ((S j : ℂ)) ^ 2 = (1 / ((xs.length : ℂ) + 2)) *
      ∑ b ∈ Finset.range xs.length, (((b : ℂ) + 2) / ((b : ℂ) + 3)) * ∑ i, xs.getD b 0 i * star (xs.getD b 0 i) := by
  have h1 := congrArg Matrix.trace (stream_closed_form h hk)
  rw [Matrix.trace_smul, Matrix.trace_sum] at h1
  have e : ∀ b ∈ Finset.range xs.length, Matrix.trace ((((b : ℂ) + 2) / ((b : ℂ) + 3)) • outerProd (xs.getD b 0)) =
      (((b : ℂ) + 2) / ((b : ℂ) + 3)) * ∑ i, xs.getD b 0 i * star (xs.getD b 0 i) := by
    intro b _
    rw [Matrix.trace_smul, smul_eq_mul]; rfl
  rw [Finset.sum_congr rfl e, smul_eq_mul] at h1
  rw [← h1, density, Matrix.trace_mul_comm, ← Matrix.mul_assoc, stream_orthonormal h, Matrix.diagonal_mul_diagonal,
    Matrix.trace_diagonal]
  refine Finset.sum_congr rfl fun j _ => ?_
  by_cases hj : S j = 0 <;> simp [hj]

/-- C66 fails: the standard estimate weights each of `c` blocks by `1/c`; streaming gives each of them less,
    for every `c`. -/
theorem stream_weight_fails (b c : Nat) (h : b < c) :
    (1 / ((c : ℚ) + 2)) * (((b : ℚ) + 2) / ((b : ℚ) + 3)) < 1 / (c : ℚ) := by
  have hc : (0 : ℚ) < c := by exact_mod_cast (by omega : 0 < c)
  have hb : (0 : ℚ) ≤ b := by exact_mod_cast (Nat.zero_le b)
  rw [div_mul_div_comm, div_lt_div_iff₀ (by positivity) hc]
  nlinarith

/-- C42 needs `absUp ≠ 0`: a block in the span of the current basis makes line 181 divide by zero
    (numpy: 0/0 = NaN, which the following SVD cannot process). -/
theorem stream_span_fails {xs : List (X → ℂ)} {U : Matrix X (Fin k) ℂ} {S : Fin k → ℝ} (h : StreamRun k xs U S)
    (y : Fin k → ℂ) : absUp U (U *ᵥ y) = 0 := by
  have hU := stream_orthonormal h
  have hUU : U * (Uᴴ * U) = U := by
    have hz : ∀ j, S j = 0 → ∀ l, U l j = 0 := by
      intro j hj
      have := congrFun (congrFun hU j) j
      simp only [Matrix.mul_apply, Matrix.conjTranspose_apply, Matrix.diagonal_apply_eq, hj, if_true] at this
      have e : ∑ l, star (U l j) * U l j = ((∑ l, Complex.normSq (U l j) : ℝ) : ℂ) := by
        rw [Complex.ofReal_sum]
        exact Finset.sum_congr rfl fun l _ => (Complex.normSq_eq_conj_mul_self).symm
      rw [e] at this
      have hz : ∑ l, Complex.normSq (U l j) = 0 := by exact_mod_cast this
      intro l
      exact Complex.normSq_eq_zero.1
        ((Finset.sum_eq_zero_iff_of_nonneg (fun l _ => Complex.normSq_nonneg _)).1 hz l (Finset.mem_univ l))
    rw [hU]
    ext i j
    rw [Matrix.mul_diagonal]
    by_cases hj : S j = 0
    · simp [hj, hz j hj i]
    · simp [hj]
  have : uPerp U (U *ᵥ y) = 0 := by
    unfold uPerp proj
    rw [Matrix.mulVec_mulVec, Matrix.mulVec_mulVec, Matrix.mul_assoc, hUU, sub_self]
  simp [absUp, this]

/-- For instance, feeding the first block a second time. -/
theorem stream_repeat_fails {x : X → ℂ} {U : Matrix X (Fin k) ℂ} {S : Fin k → ℝ} (h : StreamRun k [x] U S)
    (hk : 1 ≤ k) : absUp U x = 0 := by
  have hcf := stream_closed_form h (by simpa using hk)
  have hx : ∑ i, Complex.normSq (x i) ≠ 0 := by
    generalize hxs : [x] = xs at h
    cases h with
    | nil => simp at hxs
    | @snoc xs' U' S' x' Up Sp hr ha hsvd =>
      rcases xs' with _ | ⟨a, l⟩
      · simp at hxs
        subst hxs
        have hU' : U' = 0 := by
          generalize hn : ([] : List (X → ℂ)) = ys at hr
          cases hr with
          | nil => rfl
          | snoc _ _ _ => simp at hn
        subst hU'
        intro h0
        apply ha
        simp only [absUp, uPerp, proj, Matrix.zero_mulVec, sub_zero, h0, Real.sqrt_zero]
      · simp at hxs
  have hx' : (∑ i, star (x i) * x i) ≠ 0 := by
    have e : ∑ i, star (x i) * x i = ((∑ i, Complex.normSq (x i) : ℝ) : ℂ) := by
      rw [Complex.ofReal_sum]
      exact Finset.sum_congr rfl fun l _ => (Complex.normSq_eq_conj_mul_self).symm
    rw [e]; exact_mod_cast hx
  have hspan : ∃ y, x = U *ᵥ y := by
    have h1 := congrArg (fun M => M *ᵥ x) hcf
    simp only [List.length_singleton, Nat.cast_one, Finset.range_one, Finset.sum_singleton, Nat.cast_zero,
      List.getD_cons_zero, smul_smul] at h1
    have h2 : outerProd x *ᵥ x = (∑ i, star (x i) * x i) • x := by
      funext i
      simp only [Matrix.mulVec, dotProduct, outerProd, Matrix.of_apply, Pi.smul_apply, smul_eq_mul, Finset.sum_mul]
      exact Finset.sum_congr rfl fun l _ => by ring
    rw [Matrix.smul_mulVec, h2, smul_smul] at h1
    set g : ℂ := (1 / ((1 : ℂ) + 2) * ((0 + 2) / (0 + 3))) * ∑ i, star (x i) * x i with hg
    have hg0 : g ≠ 0 := by
      rw [hg]; refine mul_ne_zero ?_ hx'; norm_num
    refine ⟨g⁻¹ • (Matrix.diagonal (fun j => ((S j : ℂ)) ^ 2) * Uᴴ) *ᵥ x, ?_⟩
    rw [Matrix.mulVec_smul, Matrix.mulVec_mulVec, ← Matrix.mul_assoc]
    change _ = g⁻¹ • (density U S *ᵥ x)
    rw [h1, smul_smul, inv_mul_cancel₀ hg0, one_smul]
  obtain ⟨y, hy⟩ := hspan
  rw [hy]
  exact stream_span_fails h y

/-! ### A run exists -/

/-- Non-vacuity: a one-mode run over one non-zero block, with an explicit SVD (a permutation). -/
theorem run_first_exists (x : X → ℂ) (hx : absUp (0 : Matrix X (Fin 1) ℂ) x ≠ 0) :
    ∃ U S, StreamRun 1 [x] U S ∧ S 0 ≠ 0 := by
  have hpos : 0 < absUp (0 : Matrix X (Fin 1) ℂ) x := lt_of_le_of_ne (Real.sqrt_nonneg _) (Ne.symm hx)
  set g : ℝ := Real.sqrt (((1 : ℝ) + 1) / ((1 : ℝ) + 2) ^ 2) with hg
  have hg0 : 0 < g := Real.sqrt_pos.2 (by norm_num)
  let Up : Matrix (Fin 1 ⊕ Unit) (Fin 1 ⊕ Unit) ℂ := Matrix.fromBlocks 0 (Matrix.of fun _ _ => 1) (Matrix.of fun _ _ => 1) 0
  let Sp : Fin 1 ⊕ Unit → ℝ := fun j => match j with
    | .inl _ => g * absUp (0 : Matrix X (Fin 1) ℂ) x | .inr _ => 0
  have hUp : Upᴴ * Up = 1 := by
    ext i j
    rcases i with i | i <;> rcases j with j | j <;>
      simp [Up, Matrix.mul_apply, Matrix.one_apply, Fin.eq_zero]
  have hsvd : IsSVD (kMat (0 : Matrix X (Fin 1) ℂ) 0 x (([] : List (X → ℂ)).length + 1)) Up Sp := by
    refine ⟨hUp, ⟨Up, hUp, ?_⟩, ?_, ?_, ?_⟩
    · ext i j
      rcases i with i | i <;> rcases j with j | j <;>
        simp [Up, Sp, Matrix.mul_apply, kMat, proj, Matrix.diagonal_apply, hg]
    · rintro (j | j)
      · exact (mul_pos hg0 hpos).le
      · exact le_rfl
    · intro i j _
      rw [Fin.eq_zero i, Fin.eq_zero j]
    · intro i; exact (mul_pos hg0 hpos).le
  have := StreamRun.snoc StreamRun.nil hx hsvd
  exact ⟨_, _, this, (mul_pos hg0 hpos).ne'⟩

end Verif.Props
