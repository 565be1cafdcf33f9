import Verif.Model.BasisRounding
import Verif.Props.StreamRounding
import Verif.Props.OrthoRounding
import Verif.Props.Perturb
import Mathlib.Analysis.InnerProductSpace.Basic
/-
  C246: the basis update of the streaming method in floating-point arithmetic.
-/
namespace Verif.Props
open Verif Verif.Par Verif.Round Verif.Stream Verif.SFit Verif.Spod Verif.Fit Finset
open scoped ComplexConjugate

variable {E : Type*} [NormedAddCommGroup E] [InnerProductSpace ℂ E]

/-- one update: every column of `rot · Sp · Vᴴ` is near the column of the old basis times its value, resp. the new column -/
theorem update_columns {k : Nat} (U : Fin k → E) (nw x up : E) (S : Fin k → ℝ) (Ux : Fin k → ℂ) (α : ℂ) (K Up V : Fin (k + 1) → Fin (k + 1) → ℂ) (Sp : Fin (k + 1) → ℝ)
    (R : Fin (k + 1) → E) (c r η δ X : ℝ) (hc : 0 ≤ c) (hc1 : c ≤ 1) (hr : 0 ≤ r) (hcr : c * r ≤ 1) (hη : 0 ≤ η) (hη1 : η ≤ 1) (hX : 0 ≤ X)
    (hU : ∀ j, ‖U j‖ ≤ 2) (hnw : ‖nw‖ ≤ 2) (hUp : ∀ l j, ‖Up l j‖ ≤ 2) (hS : ∀ j, |S j| ≤ X) (hSp : ∀ j, |Sp j| ≤ X) (hx : ‖x‖ ≤ X) (hUx : ∀ j, ‖Ux j‖ ≤ 4 * X)
    (h1 : ‖up - (x - ∑ j, Ux j • U j)‖ ≤ η * (‖x‖ + ∑ j, ‖Ux j‖ * ‖U j‖)) (h2 : ‖α • nw - up‖ ≤ η * ‖up‖)
    (k1 : ∀ j : Fin k, ‖K j.castSucc j.castSucc - ((c * r * S j : ℝ) : ℂ)‖ ≤ η * (c * r * |S j|)) (k2 : ∀ i j : Fin k, i ≠ j → K i.castSucc j.castSucc = 0)
    (k3 : ∀ j : Fin k, ‖K j.castSucc (Fin.last k) - c * Ux j‖ ≤ η * (c * ‖Ux j‖)) (k4 : ∀ j : Fin k, K (Fin.last k) j.castSucc = 0)
    (k5 : ‖K (Fin.last k) (Fin.last k) - c * α‖ ≤ η * (c * ‖α‖)) (hV : ∀ l j, ‖V l j‖ ≤ 1)
    (hsvd : ∀ i l, ‖K i l - ∑ j, Up i j * Sp j * conj (V l j)‖ ≤ δ)
    (hR : ∀ j, ‖R j - ∑ l, Up l j • (Fin.snoc U nw : Fin (k + 1) → E) l‖ ≤ η * ∑ l, ‖Up l j‖ * ‖(Fin.snoc U nw : Fin (k + 1) → E) l‖) (l : Fin (k + 1)) :
    ‖∑ j, (conj (V l j) * Sp j) • R j - (Fin.snoc (fun j => ((c * r * S j : ℝ) : ℂ) • U j) ((c : ℂ) • x) : Fin (k + 1) → E) l‖ ≤
      72 * η * (k + 1) ^ 2 * X + 2 * (k + 1) * δ := by
  set T : Fin (k + 1) → E := Fin.snoc U nw with hT
  have hTn : ∀ l, ‖T l‖ ≤ 2 := by
    intro l
    refine Fin.lastCases ?_ (fun j => ?_) l
    · rw [hT, Fin.snoc_last]; exact hnw
    · rw [hT, Fin.snoc_castSucc]; exact hU j
  have hk0 : (0 : ℝ) ≤ k := Nat.cast_nonneg k
  -- the rotation
  have a1 : ‖∑ j, (conj (V l j) * Sp j) • R j - ∑ j, (conj (V l j) * Sp j) • ∑ m, Up m j • T m‖ ≤ 4 * η * (k + 1) ^ 2 * X := by
    rw [← Finset.sum_sub_distrib]
    have : ∀ j, ‖(conj (V l j) * (Sp j : ℂ)) • R j - (conj (V l j) * (Sp j : ℂ)) • ∑ m, Up m j • T m‖ ≤ X * (η * ((k + 1) * 4)) := by
      intro j
      rw [← smul_sub, norm_smul, norm_mul, RCLike.norm_conj, Complex.norm_real, Real.norm_eq_abs]
      have e1 : ‖V l j‖ * |Sp j| ≤ X := by
        calc ‖V l j‖ * |Sp j| ≤ 1 * X := mul_le_mul (hV l j) (hSp j) (abs_nonneg _) zero_le_one
          _ = X := one_mul X
      have e2 : ∑ m, ‖Up m j‖ * ‖T m‖ ≤ (k + 1) * 4 := by
        calc ∑ m, ‖Up m j‖ * ‖T m‖ ≤ ∑ m : Fin (k + 1), (4 : ℝ) := Finset.sum_le_sum fun m _ => by
              nlinarith [mul_le_mul (hUp m j) (hTn m) (norm_nonneg _) (by norm_num : (0 : ℝ) ≤ 2)]
          _ = (k + 1) * 4 := by simp
      exact mul_le_mul e1 ((hR j).trans (mul_le_mul_of_nonneg_left e2 hη)) (norm_nonneg _) hX
    refine (norm_sum_le _ _).trans ((Finset.sum_le_sum fun j _ => this j).trans (le_of_eq ?_))
    rw [Finset.sum_const, card_univ, Fintype.card_fin, nsmul_eq_mul]
    push_cast
    ring
  -- the decomposition of K
  have e2 : ∑ j, (conj (V l j) * Sp j) • ∑ m, Up m j • T m = ∑ m, (∑ j, Up m j * Sp j * conj (V l j)) • T m := by
    simp only [Finset.smul_sum, Finset.sum_smul, smul_smul]
    rw [Finset.sum_comm]
    refine Finset.sum_congr rfl fun m _ => Finset.sum_congr rfl fun j _ => ?_
    congr 1; ring
  have a2 : ‖∑ m, (∑ j, Up m j * Sp j * conj (V l j)) • T m - ∑ m, K m l • T m‖ ≤ 2 * (k + 1) * δ := by
    rw [← Finset.sum_sub_distrib]
    have : ∀ m, ‖(∑ j, Up m j * Sp j * conj (V l j)) • T m - K m l • T m‖ ≤ δ * 2 := by
      intro m
      rw [← sub_smul, norm_smul, norm_sub_rev]
      exact mul_le_mul (hsvd m l) (hTn m) (norm_nonneg _) ((norm_nonneg _).trans (hsvd m l))
    refine (norm_sum_le _ _).trans ((Finset.sum_le_sum fun m _ => this m).trans (le_of_eq ?_))
    rw [Finset.sum_const, card_univ, Fintype.card_fin, nsmul_eq_mul]
    push_cast
    ring
  -- the columns of K
  have a3 : ‖∑ m, K m l • T m - (Fin.snoc (fun j => ((c * r * S j : ℝ) : ℂ) • U j) ((c : ℂ) • x) : Fin (k + 1) → E) l‖ ≤ 68 * η * (k + 1) * X := by
    refine Fin.lastCases ?_ (fun j => ?_) l
    · rw [Fin.snoc_last, Fin.sum_univ_castSucc]
      simp only [hT, Fin.snoc_castSucc, Fin.snoc_last]
      set P : ℝ := (1 + 8 * k) * X with hP
      have hP0 : 0 ≤ P := by positivity
      have hsum : ∑ j, ‖Ux j‖ * ‖U j‖ ≤ 8 * k * X := by
        calc ∑ j, ‖Ux j‖ * ‖U j‖ ≤ ∑ j : Fin k, 8 * X := Finset.sum_le_sum fun j _ => by
              have := mul_le_mul (hUx j) (hU j) (norm_nonneg _) (by positivity)
              linarith
          _ = 8 * k * X := by simp; ring
      have hxP : ‖x‖ + ∑ j, ‖Ux j‖ * ‖U j‖ ≤ P := by rw [hP]; linarith
      have hup : ‖up‖ ≤ 2 * P := by
        have b1 : ‖x - ∑ j, Ux j • U j‖ ≤ P := by
          refine (norm_sub_le _ _).trans (le_trans ?_ hxP)
          gcongr
          refine (norm_sum_le _ _).trans (le_of_eq (Finset.sum_congr rfl fun j _ => norm_smul _ _))
        have b2 := norm_sub_norm_le up (x - ∑ j, Ux j • U j)
        have b3 : η * (‖x‖ + ∑ j, ‖Ux j‖ * ‖U j‖) ≤ P := by
          calc _ ≤ 1 * P := mul_le_mul hη1 hxP (by positivity) zero_le_one
            _ = P := one_mul P
        linarith
      have hα : ‖α‖ * ‖nw‖ ≤ 4 * P := by
        rw [← norm_smul]
        have b2 := norm_sub_norm_le (α • nw) up
        have b3 : η * ‖up‖ ≤ 1 * (2 * P) := mul_le_mul hη1 hup (norm_nonneg _) zero_le_one
        linarith
      have b4 : ‖∑ j, Ux j • U j + α • nw - x‖ ≤ 3 * η * P := by
        have : ∑ j, Ux j • U j + α • nw - x = (α • nw - up) + (up - (x - ∑ j, Ux j • U j)) := by abel
        rw [this]
        refine (norm_add_le _ _).trans ?_
        have c1 := mul_le_mul_of_nonneg_left hup hη
        have c2 := mul_le_mul_of_nonneg_left hxP hη
        linarith
      have e5 : ∑ j : Fin k, K j.castSucc (Fin.last k) • U j + K (Fin.last k) (Fin.last k) • nw - (c : ℂ) • x =
          (c : ℂ) • (∑ j, Ux j • U j + α • nw - x) + (∑ j : Fin k, (K j.castSucc (Fin.last k) - c * Ux j) • U j + (K (Fin.last k) (Fin.last k) - c * α) • nw) := by
        simp only [sub_smul, smul_sub, smul_add, Finset.smul_sum, smul_smul, Finset.sum_sub_distrib]
        abel
      rw [e5]
      have b5 : ‖(c : ℂ) • (∑ j, Ux j • U j + α • nw - x)‖ ≤ 3 * η * P := by
        rw [norm_smul, Complex.norm_real, Real.norm_of_nonneg hc]
        calc c * ‖∑ j, Ux j • U j + α • nw - x‖ ≤ 1 * (3 * η * P) := mul_le_mul hc1 b4 (norm_nonneg _) zero_le_one
          _ = 3 * η * P := one_mul _
      have b6 : ‖∑ j : Fin k, (K j.castSucc (Fin.last k) - c * Ux j) • U j‖ ≤ η * P := by
        refine (norm_sum_le _ _).trans ?_
        calc ∑ j : Fin k, ‖(K j.castSucc (Fin.last k) - c * Ux j) • U j‖ ≤ ∑ j : Fin k, η * (‖Ux j‖ * ‖U j‖) := Finset.sum_le_sum fun j _ => by
              rw [norm_smul]
              have : η * (c * ‖Ux j‖) ≤ η * ‖Ux j‖ := mul_le_mul_of_nonneg_left (by nlinarith [norm_nonneg (Ux j)]) hη
              calc _ ≤ η * ‖Ux j‖ * ‖U j‖ := mul_le_mul_of_nonneg_right ((k3 j).trans this) (norm_nonneg _)
                _ = _ := by ring
          _ = η * ∑ j, ‖Ux j‖ * ‖U j‖ := by rw [Finset.mul_sum]
          _ ≤ η * P := mul_le_mul_of_nonneg_left (by linarith [norm_nonneg x]) hη
      have b7 : ‖(K (Fin.last k) (Fin.last k) - c * α) • nw‖ ≤ 4 * η * P := by
        rw [norm_smul]
        have : η * (c * ‖α‖) ≤ η * ‖α‖ := mul_le_mul_of_nonneg_left (by nlinarith [norm_nonneg α]) hη
        calc _ ≤ η * ‖α‖ * ‖nw‖ := mul_le_mul_of_nonneg_right (k5.trans this) (norm_nonneg _)
          _ = η * (‖α‖ * ‖nw‖) := by ring
          _ ≤ η * (4 * P) := mul_le_mul_of_nonneg_left hα hη
          _ = _ := by ring
      have hfin := norm_add_le ((c : ℂ) • (∑ j, Ux j • U j + α • nw - x))
        (∑ j : Fin k, (K j.castSucc (Fin.last k) - c * Ux j) • U j + (K (Fin.last k) (Fin.last k) - c * α) • nw)
      have hfin2 := norm_add_le (∑ j : Fin k, (K j.castSucc (Fin.last k) - c * Ux j) • U j) ((K (Fin.last k) (Fin.last k) - c * α) • nw)
      have : 8 * η * P ≤ 68 * η * (k + 1) * X := by
        rw [hP]
        have : 0 ≤ η * X := mul_nonneg hη hX
        nlinarith
      linarith
    · rw [Fin.snoc_castSucc, Fin.sum_univ_castSucc]
      simp only [hT, Fin.snoc_castSucc, Fin.snoc_last, k4 j, zero_smul, add_zero]
      rw [Finset.sum_eq_single j (fun i _ hij => by rw [k2 i j hij, zero_smul]) (fun h => absurd (Finset.mem_univ j) h), ← sub_smul, norm_smul]
      have c1 : η * (c * r * |S j|) ≤ η * X := by
        refine mul_le_mul_of_nonneg_left ?_ hη
        calc c * r * |S j| ≤ 1 * X := mul_le_mul hcr (hS j) (abs_nonneg _) zero_le_one
          _ = X := one_mul X
      have := mul_le_mul ((k1 j).trans c1) (hU j) (norm_nonneg _) (mul_nonneg hη hX)
      have h0 : 0 ≤ η * X := mul_nonneg hη hX
      nlinarith
  rw [e2] at a1
  have t1 := norm_sub_le_norm_sub_add_norm_sub (∑ j, (conj (V l j) * Sp j) • R j) (∑ m, (∑ j, Up m j * Sp j * conj (V l j)) • T m)
    ((Fin.snoc (fun j => ((c * r * S j : ℝ) : ℂ) • U j) ((c : ℂ) • x) : Fin (k + 1) → E) l)
  have t2 := norm_sub_le_norm_sub_add_norm_sub (∑ m, (∑ j, Up m j * Sp j * conj (V l j)) • T m) (∑ m, K m l • T m)
    ((Fin.snoc (fun j => ((c * r * S j : ℝ) : ℂ) • U j) ((c : ℂ) • x) : Fin (k + 1) → E) l)
  have t3 : 4 * η * (k + 1) ^ 2 * X + 68 * η * (k + 1) * X ≤ 72 * η * (k + 1) ^ 2 * X := by
    have : 0 ≤ η * X := mul_nonneg hη hX
    nlinarith [mul_nonneg this hk0, mul_nonneg this (mul_nonneg hk0 hk0)]
  linarith

/-- the energy of the pattern `v` in the basis `U` with the values `S` -/
noncomputable def basisEnergy {ι : Type*} [Fintype ι] (U : ι → E) (S : ι → ℝ) (v : E) : ℝ := Real.sqrt (∑ j, (S j * ‖inner ℂ (U j) v‖) ^ 2)

theorem basisEnergy_norm {ι : Type*} [Fintype ι] (U : ι → E) (S : ι → ℝ) (v : E) :
    basisEnergy U S v = ‖(WithLp.toLp 2 fun j => (S j : ℂ) * inner ℂ (U j) v : EuclideanSpace ℂ ι)‖ := by
  rw [basisEnergy, EuclideanSpace.norm_eq]
  congr 1
  refine Finset.sum_congr rfl fun j _ => ?_
  simp only [norm_mul, Complex.norm_real, Real.norm_eq_abs, mul_pow, sq_abs]

theorem unitary_norm {n : Nat} (V : Matrix (Fin n) (Fin n) ℂ) (hV : V.conjTranspose * V = 1) (y : Fin n → ℂ) :
    ‖(WithLp.toLp 2 (V.mulVec y) : EuclideanSpace ℂ (Fin n))‖ = ‖(WithLp.toLp 2 y : EuclideanSpace ℂ (Fin n))‖ := by
  have key : ∀ z : Fin n → ℂ, ((‖(WithLp.toLp 2 z : EuclideanSpace ℂ (Fin n))‖ ^ 2 : ℝ) : ℂ) = star z ⬝ᵥ z := by
    intro z
    rw [EuclideanSpace.norm_sq_eq]
    simp only [dotProduct, Pi.star_apply, Complex.star_def]
    push_cast
    refine Finset.sum_congr rfl fun i _ => ?_
    rw [← Complex.normSq_eq_conj_mul_self, Complex.normSq_eq_norm_sq]
    push_cast; rfl
  have h : ((‖(WithLp.toLp 2 (V.mulVec y) : EuclideanSpace ℂ (Fin n))‖ ^ 2 : ℝ) : ℂ) = ((‖(WithLp.toLp 2 y : EuclideanSpace ℂ (Fin n))‖ ^ 2 : ℝ) : ℂ) := by
    rw [key, key, Matrix.star_mulVec, Matrix.dotProduct_mulVec, Matrix.vecMul_vecMul, hV, Matrix.vecMul_one]
  have h' : ‖(WithLp.toLp 2 (V.mulVec y) : EuclideanSpace ℂ (Fin n))‖ ^ 2 = ‖(WithLp.toLp 2 y : EuclideanSpace ℂ (Fin n))‖ ^ 2 := by exact_mod_cast h
  exact (pow_left_inj₀ (norm_nonneg _) (norm_nonneg _) two_ne_zero).1 h'

theorem unitary_entry {n : Nat} (V : Matrix (Fin n) (Fin n) ℂ) (hV : V.conjTranspose * V = 1) (l j : Fin n) : ‖V l j‖ ≤ 1 := by
  have h := unitary_norm V hV (Pi.single j 1)
  have e : V.mulVec (Pi.single j 1) = fun i => V i j := by funext i; simp
  rw [e] at h
  have h1 : ‖(WithLp.toLp 2 (Pi.single j (1 : ℂ)) : EuclideanSpace ℂ (Fin n))‖ = 1 := by
    have := EuclideanSpace.norm_single (𝕜 := ℂ) j (1 : ℂ)
    rw [norm_one] at this
    exact this
  rw [h1] at h
  rw [← h]
  exact PiLp.norm_apply_le (WithLp.toLp 2 fun i => V i j : EuclideanSpace ℂ (Fin n)) l

theorem norm_le_sum {n : Nat} (z : EuclideanSpace ℂ (Fin n)) (b : ℝ) (h : ∀ i, ‖z i‖ ≤ b) : ‖z‖ ≤ n * b := by
  rcases Nat.eq_zero_or_pos n with rfl | hn
  · rw [show z = 0 from Subsingleton.elim _ _]; simp
  have hb : 0 ≤ b := (norm_nonneg _).trans (h ⟨0, hn⟩)
  rw [EuclideanSpace.norm_eq]
  refine Real.sqrt_le_iff.2 ⟨by positivity, ?_⟩
  calc ∑ i, ‖z i‖ ^ 2 ≤ ∑ i : Fin n, b ^ 2 := Finset.sum_le_sum fun i _ => pow_le_pow_left₀ (norm_nonneg _) (h i) 2
    _ = n * b ^ 2 := by simp
    _ ≤ (n * b) ^ 2 := by
      have : (1 : ℝ) ≤ n := by exact_mod_cast hn
      nlinarith [sq_nonneg b, mul_nonneg (sq_nonneg b) (by linarith : (0 : ℝ) ≤ (n : ℝ) - 1)]

/-- one update as seen by a pattern `v`: columns near the old basis and the new column, a unitary `V`, one value dropped -/
theorem update_energy {k : Nat} (U : Fin k → E) (x : E) (S : Fin k → ℝ) (V : Matrix (Fin (k + 1)) (Fin (k + 1)) ℂ) (hV : V.conjTranspose * V = 1) (Sp : Fin (k + 1) → ℝ)
    (R : Fin (k + 1) → E) (c r e : ℝ) (hl : ‖R (Fin.last k)‖ ≤ 2)
    (h : ∀ l, ‖∑ j, (conj (V l j) * Sp j) • R j - (Fin.snoc (fun j => ((c * r * S j : ℝ) : ℂ) • U j) ((c : ℂ) • x) : Fin (k + 1) → E) l‖ ≤ e) (v : E) :
    |basisEnergy (fun j : Fin k => R j.castSucc) (fun j => Sp j.castSucc) v - Real.sqrt ((c * r) ^ 2 * basisEnergy U S v ^ 2 + c ^ 2 * ‖inner ℂ x v‖ ^ 2)| ≤
      ((k + 1) * e + 2 * |Sp (Fin.last k)|) * ‖v‖ := by
  set y : Fin (k + 1) → ℂ := fun j => (Sp j : ℂ) * inner ℂ (R j) v with hy
  set T : Fin (k + 1) → E := Fin.snoc (fun j => ((c * r * S j : ℝ) : ℂ) • U j) ((c : ℂ) • x) with hT
  set z : Fin (k + 1) → ℂ := fun l => inner ℂ (T l) v with hz
  have f1 : basisEnergy R Sp v = ‖(WithLp.toLp 2 (V.mulVec y) : EuclideanSpace ℂ (Fin (k + 1)))‖ := by rw [unitary_norm V hV, basisEnergy_norm]
  have f2 : ∀ l, V.mulVec y l = inner ℂ (∑ j, (conj (V l j) * Sp j) • R j) v := by
    intro l
    rw [sum_inner, Matrix.mulVec, dotProduct]
    refine Finset.sum_congr rfl fun j _ => ?_
    rw [inner_smul_left, map_mul, Complex.conj_conj, Complex.conj_ofReal, hy]
    ring
  have f3 : ‖(WithLp.toLp 2 z : EuclideanSpace ℂ (Fin (k + 1)))‖ = Real.sqrt ((c * r) ^ 2 * basisEnergy U S v ^ 2 + c ^ 2 * ‖inner ℂ x v‖ ^ 2) := by
    rw [EuclideanSpace.norm_eq]
    congr 1
    rw [Fin.sum_univ_castSucc]
    simp only [hz, hT, Fin.snoc_castSucc, Fin.snoc_last, inner_smul_left, norm_mul, RCLike.norm_conj, Complex.norm_real, Real.norm_eq_abs]
    rw [basisEnergy, Real.sq_sqrt (Finset.sum_nonneg fun j _ => sq_nonneg _), Finset.mul_sum]
    congr 1
    · refine Finset.sum_congr rfl fun j _ => ?_
      simp only [abs_mul, mul_pow, sq_abs]; ring
    · rw [mul_pow, sq_abs]
  have f4 : |basisEnergy R Sp v - Real.sqrt ((c * r) ^ 2 * basisEnergy U S v ^ 2 + c ^ 2 * ‖inner ℂ x v‖ ^ 2)| ≤ (k + 1) * e * ‖v‖ := by
    rw [f1, ← f3]
    refine (abs_norm_sub_norm_le _ _).trans ?_
    have := norm_le_sum ((WithLp.toLp 2 (V.mulVec y) : EuclideanSpace ℂ (Fin (k + 1))) - WithLp.toLp 2 z) (e * ‖v‖) (by
      intro l
      have : ((WithLp.toLp 2 (V.mulVec y) : EuclideanSpace ℂ (Fin (k + 1))) - WithLp.toLp 2 z) l = inner ℂ (∑ j, (conj (V l j) * Sp j) • R j - T l) v := by
        rw [inner_sub_left, ← f2 l]; rfl
      rw [this]
      exact (norm_inner_le_norm _ _).trans (mul_le_mul_of_nonneg_right (h l) (norm_nonneg _)))
    push_cast at this
    linarith
  have f5 : |basisEnergy (fun j : Fin k => R j.castSucc) (fun j => Sp j.castSucc) v - basisEnergy R Sp v| ≤ 2 * |Sp (Fin.last k)| * ‖v‖ := by
    have g1 : basisEnergy R Sp v ^ 2 = basisEnergy (fun j : Fin k => R j.castSucc) (fun j => Sp j.castSucc) v ^ 2 + (Sp (Fin.last k) * ‖inner ℂ (R (Fin.last k)) v‖) ^ 2 := by
      rw [basisEnergy, basisEnergy, Real.sq_sqrt (Finset.sum_nonneg fun j _ => sq_nonneg _), Real.sq_sqrt (Finset.sum_nonneg fun j _ => sq_nonneg _), Fin.sum_univ_castSucc]
    have g2 : |Sp (Fin.last k)| * ‖inner ℂ (R (Fin.last k)) v‖ ≤ 2 * |Sp (Fin.last k)| * ‖v‖ := by
      have := (norm_inner_le_norm (𝕜 := ℂ) (R (Fin.last k)) v).trans (mul_le_mul_of_nonneg_right hl (norm_nonneg v))
      nlinarith [abs_nonneg (Sp (Fin.last k))]
    set a := basisEnergy (fun j : Fin k => R j.castSucc) (fun j => Sp j.castSucc) v with ha
    set b := basisEnergy R Sp v with hb
    have ha0 : 0 ≤ a := Real.sqrt_nonneg _
    have hb0 : 0 ≤ b := Real.sqrt_nonneg _
    set t := |Sp (Fin.last k)| * ‖inner ℂ (R (Fin.last k)) v‖ with ht
    have ht0 : 0 ≤ t := by positivity
    have g3 : b ^ 2 = a ^ 2 + t ^ 2 := by rw [g1, ht, mul_pow, mul_pow, sq_abs]
    have h1 : a ≤ b := by nlinarith [sq_nonneg t]
    have h2 : b ≤ a + t := by nlinarith
    rw [abs_le]
    constructor <;> linarith
  have := abs_sub_le (basisEnergy (fun j : Fin k => R j.castSucc) (fun j => Sp j.castSucc) v) (basisEnergy R Sp v)
    (Real.sqrt ((c * r) ^ 2 * basisEnergy U S v ^ 2 + c ^ 2 * ‖inner ℂ x v‖ ^ 2))
  linarith

theorem sqrt_near (a b q q' s ε : ℝ) (hq : 0 ≤ q) (hq' : 0 ≤ q') (ha : 0 ≤ a) (ha1 : a ≤ 1) (h : |q - q'| ≤ ε) :
    |Real.sqrt (a ^ 2 * q ^ 2 + b ^ 2 * s ^ 2) - Real.sqrt (a ^ 2 * q' ^ 2 + b ^ 2 * s ^ 2)| ≤ ε := by
  have key : ∀ p : ℝ, Real.sqrt (a ^ 2 * p ^ 2 + b ^ 2 * s ^ 2) = ‖(⟨a * p, b * s⟩ : ℂ)‖ := by
    intro p; rw [complex_norm_sqrt, mul_pow, mul_pow]
  rw [key, key]
  refine (abs_norm_sub_norm_le _ _).trans ?_
  have : (⟨a * q, b * s⟩ : ℂ) - ⟨a * q', b * s⟩ = ((a * (q - q') : ℝ) : ℂ) := by
    apply Complex.ext <;> simp; ring
  rw [this, Complex.norm_real, Real.norm_eq_abs, abs_mul, abs_of_nonneg ha]
  calc a * |q - q'| ≤ 1 * ε := mul_le_mul ha1 h (abs_nonneg _) zero_le_one
    _ = ε := one_mul ε

/-- the weights of the blocks after `M` updates: `(m + 2) / ((m + 3) (M + 2))` -/
noncomputable def blockEnergy (M : Nat) (x : Nat → E) (v : E) : ℝ := Real.sqrt (∑ m ∈ range M, ((m : ℝ) + 2) / ((m + 3) * (M + 2)) * ‖inner ℂ (x m) v‖ ^ 2)

theorem blockEnergy_succ (M : Nat) (x : Nat → E) (v : E) (c r : ℝ) (hc : c ^ 2 = ((M : ℝ) + 2) / (M + 3) ^ 2) (hr : r ^ 2 = (M : ℝ) + 3) :
    blockEnergy (M + 1) x v = Real.sqrt ((c * r) ^ 2 * blockEnergy M x v ^ 2 + c ^ 2 * ‖inner ℂ (x M) v‖ ^ 2) := by
  unfold blockEnergy
  rw [Real.sq_sqrt (Finset.sum_nonneg fun m _ => by positivity), Finset.sum_range_succ, mul_pow, hc, hr, Finset.mul_sum]
  congr 2
  · refine Finset.sum_congr rfl fun m _ => ?_
    push_cast
    field_simp
    ring
  · push_cast
    field_simp
    ring

/-- many updates, as seen by a pattern -/
theorem updates_energy {k : Nat} (B : Nat → (Fin k → ℝ) × (Fin k → E)) (x : Nat → E) (c r : Nat → ℝ) (ε : Nat → ℝ) (h0 : ∀ j, (B 0).1 j = 0) (M : Nat)
    (hc : ∀ m < M, 0 ≤ c m ∧ 0 ≤ r m ∧ c m ^ 2 = ((m : ℝ) + 2) / (m + 3) ^ 2 ∧ r m ^ 2 = (m : ℝ) + 3) (v : E)
    (h : ∀ m < M, |basisEnergy (B (m + 1)).2 (B (m + 1)).1 v - Real.sqrt ((c m * r m) ^ 2 * basisEnergy (B m).2 (B m).1 v ^ 2 + c m ^ 2 * ‖inner ℂ (x m) v‖ ^ 2)| ≤
      ε m * ‖v‖) : |basisEnergy (B M).2 (B M).1 v - blockEnergy M x v| ≤ (∑ m ∈ range M, ε m) * ‖v‖ := by
  induction M with
  | zero => simp [basisEnergy, blockEnergy, h0]
  | succ M ih =>
    have ih := ih (fun m hm => hc m (by omega)) (fun m hm => h m (by omega))
    obtain ⟨c1, c2, c3, c4⟩ := hc M (by omega)
    have hcr : c M * r M ≤ 1 := by
      have : (c M * r M) ^ 2 ≤ 1 := by
        rw [mul_pow, c3, c4, div_mul_eq_mul_div, div_le_one (by positivity)]
        nlinarith [(Nat.cast_nonneg M : (0 : ℝ) ≤ M)]
      nlinarith [mul_nonneg c1 c2]
    have h1 := h M (by omega)
    have h2 := sqrt_near (c M * r M) (c M) _ _ ‖inner ℂ (x M) v‖ _ (Real.sqrt_nonneg _) (Real.sqrt_nonneg _) (mul_nonneg c1 c2) hcr ih
    rw [blockEnergy_succ M x v (c M) (r M) c3 c4, Finset.sum_range_succ]
    have := abs_sub_le (basisEnergy (B (M + 1)).2 (B (M + 1)).1 v)
      (Real.sqrt ((c M * r M) ^ 2 * basisEnergy (B M).2 (B M).1 v ^ 2 + c M ^ 2 * ‖inner ℂ (x M) v‖ ^ 2))
      (Real.sqrt ((c M * r M) ^ 2 * blockEnergy M x v ^ 2 + c M ^ 2 * ‖inner ℂ (x M) v‖ ^ 2))
    have h2' : |Real.sqrt ((c M * r M) ^ 2 * basisEnergy (B M).2 (B M).1 v ^ 2 + c M ^ 2 * ‖inner ℂ (x M) v‖ ^ 2) -
      Real.sqrt ((c M * r M) ^ 2 * blockEnergy M x v ^ 2 + c M ^ 2 * ‖inner ℂ (x M) v‖ ^ 2)| ≤ (∑ m ∈ range M, ε m) * ‖v‖ := h2
    linarith

/-- values of a basis that is orthonormal up to `ω`, near a decomposition: `U`, `S` see every pattern as `e`, `lam` do, up to `ε` -/
theorem values_near {n k : Nat} (U : Fin k → EuclideanSpace ℂ (Fin n)) (S : Fin k → ℝ) (hS : Antitone S) (hS0 : ∀ j, 0 ≤ S j)
    (e : OrthonormalBasis (Fin n) ℂ (EuclideanSpace ℂ (Fin n))) (lam : Fin n → ℝ) (hl : Antitone lam) (hl0 : ∀ i, 0 ≤ lam i) (ω : ℝ) (hω : ω < 1)
    (hU : ∀ c : Fin k → ℂ, (1 - ω) * ∑ j, ‖c j‖ ^ 2 ≤ ‖∑ j, c j • U j‖ ^ 2 ∧ ‖∑ j, c j • U j‖ ^ 2 ≤ (1 + ω) * ∑ j, ‖c j‖ ^ 2) (ε : ℝ)
    (h : ∀ v, |basisEnergy U S v - Real.sqrt (∑ i, lam i * ‖inner ℂ (e i) v‖ ^ 2)| ≤ ε * ‖v‖) (i : Fin k) (i' : Fin n) (hi : i.1 = i'.1) :
    S i * Real.sqrt (1 - ω) ≤ Real.sqrt (lam i') + ε ∧ Real.sqrt (lam i') ≤ S i * Real.sqrt (1 + ω) + ε := by
  classical
  constructor
  · -- a pattern in the span of the first basis vectors, orthogonal to the first eigenvectors
    have hik : i.1 + 1 ≤ k := i.2
    obtain ⟨d, d1, d2⟩ := common_zero (n := i.1 + 1) (ι := {a : Fin n // a < i'}) (by
      rw [Fintype.card_subtype]
      have : #{a : Fin n | a < i'} = i'.1 := by
        have := Fin.card_Iio i'
        rwa [show Finset.Iio i' = ({a : Fin n | a < i'} : Finset (Fin n)) by ext; simp] at this
      omega) (fun a => WithLp.toLp 2 fun j => inner ℂ (U (Fin.castLE hik j)) (e a.1))
    set c : Fin k → ℂ := fun j => if hj : j.1 < i.1 + 1 then d ⟨j.1, hj⟩ else 0 with hc
    have hsum : ∀ {M : Type} [AddCommMonoid M] (g : Fin k → M), (∀ j : Fin k, ¬ j.1 < i.1 + 1 → g j = 0) → ∑ j, g j = ∑ j : Fin (i.1 + 1), g (Fin.castLE hik j) := by
      intro M _ g hg
      refine (Finset.sum_of_injOn (Fin.castLE hik) (fun a _ b _ hab => by simpa using hab) (fun a _ => by simp) (fun j _ hj => ?_) fun a _ => rfl).symm
      refine hg j fun hc => hj ?_
      simp only [coe_univ, Set.image_univ, Set.mem_range]
      exact ⟨⟨j.1, hc⟩, rfl⟩
    have hcl : ∀ j : Fin (i.1 + 1), c (Fin.castLE hik j) = d j := fun j => by
      simp only [hc, Fin.val_castLE, j.2, dif_pos]
    have hc0 : ∀ j : Fin k, ¬ j.1 < i.1 + 1 → c j = 0 := fun j hj => by simp only [hc, hj, dif_neg, not_false_iff]
    have hcn : ∑ j, ‖c j‖ ^ 2 = 1 := by
      rw [hsum (fun j => ‖c j‖ ^ 2) fun j hj => by simp only [hc0 j hj]; simp]
      simp only [hcl]
      rw [← EuclideanSpace.norm_sq_eq, d1, one_pow]
    set v := ∑ j, c j • U j with hv
    have hperp : ∀ a, a < i' → inner ℂ (e a) v = 0 := by
      intro a ha
      have := d2 ⟨a, ha⟩
      rw [hv, hsum (fun j => c j • U j) fun j hj => by simp only [hc0 j hj]; simp]
      rw [inner_sum]
      rw [PiLp.inner_apply] at this
      rw [← this]
      refine Finset.sum_congr rfl fun j _ => ?_
      rw [inner_smul_right, hcl]
      simp only [RCLike.inner_apply, inner_conj_symm]
    have hvn := (hU c).1
    rw [hcn, mul_one, ← hv] at hvn
    have hv0 : 0 < ‖v‖ := by
      have : 0 < ‖v‖ ^ 2 := lt_of_lt_of_le (by linarith) hvn
      exact lt_of_le_of_ne (norm_nonneg v) fun h0 => by rw [← h0] at this; simp at this
    have hsq : Real.sqrt (1 - ω) ≤ ‖v‖ := Real.sqrt_le_iff.2 ⟨hv0.le, hvn⟩
    -- the energy of the decomposition
    have g1 : Real.sqrt (∑ a, lam a * ‖inner ℂ (e a) v‖ ^ 2) ≤ Real.sqrt (lam i') * ‖v‖ := by
      refine Real.sqrt_le_iff.2 ⟨by positivity, ?_⟩
      rw [mul_pow, Real.sq_sqrt (hl0 i'), ← e.sum_sq_norm_inner_right v, Finset.mul_sum]
      refine Finset.sum_le_sum fun a _ => ?_
      rcases lt_or_ge a i' with ha | ha
      · rw [hperp a ha]; simp
      · exact mul_le_mul_of_nonneg_right (hl ha) (sq_nonneg _)
    -- the energy of the basis
    have g2 : S i * ‖v‖ ^ 2 ≤ basisEnergy U S v := by
      have e1 : ((‖v‖ ^ 2 : ℝ) : ℂ) = ∑ j, conj (c j) * inner ℂ (U j) v := by
        have : inner ℂ v v = ∑ j, conj (c j) * inner ℂ (U j) v := by
          conv_lhs => rw [hv]
          rw [sum_inner]
          exact Finset.sum_congr rfl fun j _ => inner_smul_left _ _ _
        rw [← this, inner_self_eq_norm_sq_to_K]
        push_cast; rfl
      have e2 : ‖v‖ ^ 2 ≤ ∑ j, ‖c j‖ * ‖inner ℂ (U j) v‖ := by
        have : ‖((‖v‖ ^ 2 : ℝ) : ℂ)‖ ≤ ∑ j, ‖c j‖ * ‖inner ℂ (U j) v‖ := by
          rw [e1]
          refine (norm_sum_le _ _).trans (le_of_eq (Finset.sum_congr rfl fun j _ => by rw [norm_mul, RCLike.norm_conj]))
        rwa [Complex.norm_real, Real.norm_of_nonneg (sq_nonneg _)] at this
      have e3 : S i * ‖v‖ ^ 2 ≤ ∑ j, ‖c j‖ * (S j * ‖inner ℂ (U j) v‖) := by
        refine (mul_le_mul_of_nonneg_left e2 (hS0 i)).trans ?_
        rw [Finset.mul_sum]
        refine Finset.sum_le_sum fun j _ => ?_
        by_cases hj : j.1 < i.1 + 1
        · have : S i ≤ S j := hS (by rw [Fin.le_def]; omega)
          calc S i * (‖c j‖ * ‖inner ℂ (U j) v‖) ≤ S j * (‖c j‖ * ‖inner ℂ (U j) v‖) := mul_le_mul_of_nonneg_right this (by positivity)
            _ = _ := by ring
        · rw [hc0 j hj]; simp
      refine e3.trans ?_
      have := Real.sum_mul_le_sqrt_mul_sqrt univ (fun j => ‖c j‖) fun j => S j * ‖inner ℂ (U j) v‖
      rw [hcn, Real.sqrt_one, one_mul] at this
      exact this
    have g3 := (abs_le.1 (h v)).2
    have g4 : S i * ‖v‖ * ‖v‖ ≤ (Real.sqrt (lam i') + ε) * ‖v‖ := by nlinarith
    exact (mul_le_mul_of_nonneg_left hsq (hS0 i)).trans (le_of_mul_le_mul_right g4 hv0)
  · obtain ⟨v, v1, v2⟩ := common_zero (n := n) (ι := {a : Fin n // i' < a} ⊕ {j : Fin k // j < i}) (by
      rw [Fintype.card_sum, Fintype.card_subtype, Fintype.card_subtype]
      have c1 : #{a : Fin n | i' < a} = n - 1 - i'.1 := by
        have := Fin.card_Ioi i'
        rwa [show Finset.Ioi i' = ({a : Fin n | i' < a} : Finset (Fin n)) by ext; simp] at this
      have c2 : #{j : Fin k | j < i} = i.1 := by
        have := Fin.card_Iio i
        rwa [show Finset.Iio i = ({a : Fin k | a < i} : Finset (Fin k)) by ext; simp] at this
      have := i'.2
      omega) (Sum.elim (fun a => e a.1) fun j => U j.1)
    have w1 : ∀ a, i' < a → inner ℂ (e a) v = 0 := fun a ha => v2 (.inl ⟨a, ha⟩)
    have w2 : ∀ j, j < i → inner ℂ (U j) v = 0 := fun j hj => v2 (.inr ⟨j, hj⟩)
    have g1 : Real.sqrt (lam i') ≤ Real.sqrt (∑ a, lam a * ‖inner ℂ (e a) v‖ ^ 2) := Real.sqrt_le_sqrt (head_mean_ge e lam hl i' v v1 w1)
    set t := ∑ j, ‖inner ℂ (U j) v‖ ^ 2 with ht
    have ht0 : 0 ≤ t := Finset.sum_nonneg fun j _ => sq_nonneg _
    have hbes : t ≤ 1 + ω := by
      have b1 : (t : ℂ) = inner ℂ (∑ j, inner ℂ (U j) v • U j) v := by
        rw [sum_inner, ht]
        push_cast
        refine Finset.sum_congr rfl fun j _ => ?_
        rw [inner_smul_left, ← Complex.normSq_eq_conj_mul_self, Complex.normSq_eq_norm_sq]
        push_cast; rfl
      have b2 : t ≤ ‖∑ j, inner ℂ (U j) v • U j‖ := by
        have : ‖(t : ℂ)‖ ≤ ‖∑ j, inner ℂ (U j) v • U j‖ * ‖v‖ := by rw [b1]; exact norm_inner_le_norm _ _
        rwa [Complex.norm_real, Real.norm_of_nonneg ht0, v1, mul_one] at this
      have b3 := (hU fun j => inner ℂ (U j) v).2
      rw [← ht] at b3
      have b4 : t ^ 2 ≤ (1 + ω) * t := (pow_le_pow_left₀ ht0 b2 2).trans b3
      rcases ht0.eq_or_lt with h0 | h0
      · rw [← h0]
        rcases le_or_gt 0 (1 + ω) with h1 | h1
        · exact h1
        · have := hU (fun _ => 1)
          have i0 : 0 < ∑ j : Fin k, ‖(1 : ℂ)‖ ^ 2 := by
            rw [norm_one, one_pow, Finset.sum_const, card_univ, Fintype.card_fin, nsmul_eq_mul, mul_one]
            exact_mod_cast (by have := i.2; omega : 0 < k)
          nlinarith [this.2, sq_nonneg ‖∑ j, (1 : ℂ) • U j‖]
      · nlinarith
    have g2 : basisEnergy U S v ≤ S i * Real.sqrt (1 + ω) := by
      refine Real.sqrt_le_iff.2 ⟨mul_nonneg (hS0 i) (Real.sqrt_nonneg _), ?_⟩
      rw [mul_pow (S i), Real.sq_sqrt (ht0.trans hbes)]
      calc ∑ j, (S j * ‖inner ℂ (U j) v‖) ^ 2 ≤ ∑ j, S i ^ 2 * ‖inner ℂ (U j) v‖ ^ 2 := by
            refine Finset.sum_le_sum fun j _ => ?_
            rcases lt_or_ge j i with hj | hj
            · rw [w2 j hj]; simp
            · rw [mul_pow]
              exact mul_le_mul_of_nonneg_right (pow_le_pow_left₀ (hS0 j) (hS hj) 2) (sq_nonneg _)
        _ = S i ^ 2 * t := by rw [← Finset.mul_sum]
        _ ≤ S i ^ 2 * (1 + ω) := mul_le_mul_of_nonneg_left hbes (sq_nonneg _)
    have g3 := (abs_le.1 (h v)).1
    rw [v1, mul_one] at g3
    linarith

/-! ### Columns as vectors -/

/-- the column of an array, its entries in C order -/
noncomputable def colVec (sh : List Nat) (a : Arr ℂ) : EuclideanSpace ℂ (Fin (size sh)) := WithLp.toLp 2 fun i => a.at' (unravel sh i)

/-- a bound on every entry by a combination of the entries of other vectors -/
theorem entries_norm {n k : Nat} (f : EuclideanSpace ℂ (Fin n)) (b : Fin k → EuclideanSpace ℂ (Fin n)) (s : Fin k → ℝ) (hs : ∀ j, 0 ≤ s j)
    (h : ∀ i, ‖f i‖ ≤ ∑ j, s j * ‖b j i‖) : ‖f‖ ≤ ∑ j, s j * ‖b j‖ := by
  set a : Fin k → EuclideanSpace ℂ (Fin n) := fun j => WithLp.toLp 2 fun i => ((‖b j i‖ : ℝ) : ℂ) with ha
  have hab : ∀ j, ‖a j‖ = ‖b j‖ := by
    intro j
    rw [EuclideanSpace.norm_eq, EuclideanSpace.norm_eq]
    congr 1
    refine Finset.sum_congr rfl fun i _ => ?_
    simp only [ha, Complex.norm_real, norm_norm]
  have h1 : ‖f‖ ≤ ‖∑ j, ((s j : ℝ) : ℂ) • a j‖ := by
    rw [EuclideanSpace.norm_eq, EuclideanSpace.norm_eq]
    refine Real.sqrt_le_sqrt (Finset.sum_le_sum fun i _ => pow_le_pow_left₀ (norm_nonneg _) ?_ 2)
    refine (h i).trans (le_of_eq ?_)
    have e : (∑ j, ((s j : ℝ) : ℂ) • a j) i = ((∑ j, s j * ‖b j i‖ : ℝ) : ℂ) := by
      rw [WithLp.ofLp_sum, Finset.sum_apply]
      push_cast
      exact Finset.sum_congr rfl fun j _ => rfl
    rw [e, Complex.norm_real, Real.norm_of_nonneg (Finset.sum_nonneg fun j _ => mul_nonneg (hs j) (norm_nonneg _))]
  refine h1.trans ((norm_sum_le _ _).trans (le_of_eq (Finset.sum_congr rfl fun j _ => ?_)))
  rw [norm_smul, Complex.norm_real, Real.norm_of_nonneg (hs j), hab]

/-- one entry of a matrix product -/
theorem row_point {u : ℝ} (hu : 0 ≤ u) {k : Nat} (a b : Fin k → ℂ) (z : ℂ) (h : FlRow u a b z) : ‖z - ∑ j, a j * b j‖ ≤ roundBound u k 0 * ∑ j, ‖a j‖ * ‖b j‖ := by
  have := mode_point hu a b 1 z ⟨b, fun j => by rw [mul_one, mul_one]; exact ⟨rounds_exact hu _, rounds_exact hu _⟩, h.1, h.2⟩
  simpa using this

/-- both parts rounded -/
theorem parts_round {u : ℝ} (hu : 0 ≤ u) (e z : ℂ) (h1 : Rounds u e.re z.re) (h2 : Rounds u e.im z.im) : ‖z - e‖ ≤ u * ‖e‖ := by
  rw [Rounds] at h1 h2
  rw [complex_norm_sqrt, complex_norm_sqrt, Complex.sub_re, Complex.sub_im]
  have : u = Real.sqrt (u ^ 2) := (Real.sqrt_sq hu).symm
  rw [this, ← Real.sqrt_mul (sq_nonneg u)]
  refine Real.sqrt_le_sqrt ?_
  have q1 := pow_le_pow_left₀ (abs_nonneg _) h1 2
  have q2 := pow_le_pow_left₀ (abs_nonneg _) h2 2
  rw [sq_abs, mul_pow u, sq_abs] at q1 q2
  linarith

theorem scaled_round {u : ℝ} (hu : 0 ≤ u) (c : ℝ) (a z : ℂ) (h : FlScaled u c a z) : ‖z - c * a‖ ≤ u * (|c| * ‖a‖) := by
  have := parts_round hu ((c : ℂ) * a) z (by rw [Complex.re_ofReal_mul]; exact h.1) (by rw [Complex.im_ofReal_mul]; exact h.2)
  rwa [norm_mul, Complex.norm_real, Real.norm_eq_abs] at this

theorem scaled_zero {u : ℝ} (c : ℝ) (z : ℂ) (h : FlScaled u c 0 z) : z = 0 := by
  have h1 := h.1; have h2 := h.2
  simp only [Rounds, Complex.zero_re, Complex.zero_im, mul_zero, abs_zero, sub_zero] at h1 h2
  exact Complex.ext (abs_nonpos_iff.1 h1) (abs_nonpos_iff.1 h2)

/-- the square root of a rounded number -/
theorem sqrt_round {u : ℝ} (hu : 0 ≤ u) (hu1 : u ≤ 1) (q0 q c : ℝ) (h0 : 0 ≤ q0) (h1 : Rounds u q0 q) (h2 : Rounds u (Real.sqrt q) c) :
    0 ≤ c ∧ |c - Real.sqrt q0| ≤ ((1 + u) ^ 2 - 1) * Real.sqrt q0 := by
  unfold Rounds at h1 h2
  rw [abs_of_nonneg h0] at h1
  rw [abs_of_nonneg (Real.sqrt_nonneg q)] at h2
  have a1 := abs_le.1 h1
  have a2 := abs_le.1 h2
  set s := Real.sqrt q0 with hs
  have hs0 : 0 ≤ s := Real.sqrt_nonneg _
  have hsq : s ^ 2 = q0 := Real.sq_sqrt h0
  set r := Real.sqrt q with hr
  have hr0 : 0 ≤ r := Real.sqrt_nonneg _
  have hq : 0 ≤ q := by nlinarith
  have hrq : r ^ 2 = q := Real.sq_sqrt hq
  have b1 : r ≤ (1 + u) * s := by
    have : r ^ 2 ≤ ((1 + u) * s) ^ 2 := by rw [mul_pow, hrq, hsq]; nlinarith [mul_nonneg hu h0, mul_nonneg (mul_nonneg hu hu) h0]
    exact (pow_le_pow_iff_left₀ hr0 (by positivity) two_ne_zero).1 this
  have b2 : (1 - u) * s ≤ r := by
    have : ((1 - u) * s) ^ 2 ≤ r ^ 2 := by
      rw [mul_pow, hrq, hsq]
      have : (1 - u) ^ 2 ≤ 1 - u := by nlinarith
      nlinarith [mul_le_mul_of_nonneg_right this h0]
    exact (pow_le_pow_iff_left₀ (mul_nonneg (by linarith) hs0) hr0 two_ne_zero).1 this
  have c1 : 0 ≤ c := by nlinarith
  refine ⟨c1, abs_le.2 ⟨?_, ?_⟩⟩
  · have : (1 - u) * ((1 - u) * s) ≤ (1 - u) * r := mul_le_mul_of_nonneg_left b2 (by linarith)
    nlinarith [mul_nonneg hu hs0, mul_nonneg (mul_nonneg hu hu) hs0]
  · have : (1 + u) * r ≤ (1 + u) * ((1 + u) * s) := mul_le_mul_of_nonneg_left b1 (by linarith)
    nlinarith

/-- a product of two numbers with relative errors, in norm -/
theorem prod_rel (a a0 : ℝ) (b b0 : ℂ) (e f : ℝ) (h0 : 0 ≤ a0) (ha : |a - a0| ≤ e * a0) (hb : ‖b - b0‖ ≤ f * ‖b0‖) (he : 0 ≤ e) :
    ‖(a : ℂ) * b - a0 * b0‖ ≤ ((1 + e) * (1 + f) - 1) * (a0 * ‖b0‖) := by
  have hb' : ‖b‖ ≤ (1 + f) * ‖b0‖ := by
    have := norm_sub_norm_le b b0
    linarith
  have e1 : (a : ℂ) * b - a0 * b0 = ((a - a0 : ℝ) : ℂ) * b + (a0 : ℂ) * (b - b0) := by push_cast; ring
  rw [e1]
  refine (norm_add_le _ _).trans ?_
  rw [norm_mul, norm_mul, Complex.norm_real, Complex.norm_real, Real.norm_eq_abs, Real.norm_of_nonneg h0]
  have k1 : |a - a0| * ‖b‖ ≤ (e * a0) * ((1 + f) * ‖b0‖) := mul_le_mul ha hb' (norm_nonneg _) (mul_nonneg he h0)
  have k2 : a0 * ‖b - b0‖ ≤ a0 * (f * ‖b0‖) := mul_le_mul_of_nonneg_left hb h0
  nlinarith


/-- the error of one update relative to the size of its numbers -/
noncomputable def updateRound (u v : ℝ) (k : Nat) : ℝ := (1 + u) ^ 5 - 1 + (1 + u) * roundBound u (k + 1) 0 + v

theorem inner_colVec (sh : List Nat) (a b : Arr ℂ) : inner_W (specW ⟨sh, fun _ => 1⟩) (fun x => a.at' (unravel sh x)) (fun x => b.at' (unravel sh x)) = inner ℂ (colVec sh a) (colVec sh b) := by
  rw [PiLp.inner_apply]
  unfold inner_W specW colVec
  refine Finset.sum_congr rfl fun x _ => ?_
  simp only [RCLike.inner_apply, Complex.ofReal_one, mul_one]
  rw [mul_comm]

theorem norm_colVec (sh : List Nat) (a : Arr ℂ) : norm_W (specW ⟨sh, fun _ => 1⟩) (fun x => a.at' (unravel sh x)) = ‖colVec sh a‖ := by
  rw [EuclideanSpace.norm_eq]
  unfold norm_W specW colVec
  congr 1
  refine Finset.sum_congr rfl fun x _ => ?_
  simp only [one_mul]

theorem inner_near {u : ℝ} (hu : 0 ≤ u) (comms : List Comm) (hc : Procs comms) (ax : Nat) (sh : List Nat) (hax : ax < sh.length) (n : Nat)
    (hn : ∀ comm ∈ comms, size (distributeDimension (⟨sh, fun _ => 1⟩ : Arr ℝ) ax comm).shape ≤ n) (a b : Arr ℂ) (ha : a.shape = sh) (hb : b.shape = sh) (z : ℂ)
    (h : FlInner u comms ax a b ⟨sh, fun _ => 1⟩ z) :
    ‖z - inner ℂ (colVec sh a) (colVec sh b)‖ ≤ roundBound u n comms.length * (‖colVec sh a‖ * ‖colVec sh b‖) := by
  have := inner_rounding hu comms hc ax a b ⟨sh, fun _ => 1⟩ (fun _ _ => zero_le_one) hax ha hb n hn z h
  rw [norm_colVec, norm_colVec, inner_colVec] at this
  exact this

/-- the new column after its normalization -/
theorem new_norm {n : Nat} (up nw : EuclideanSpace ℂ (Fin n)) (α q : ℂ) (v ρ : ℝ) (hv1 : v ≤ 1 / 4) (hρ : ρ ≤ 1 / 4)
    (h1 : ‖q - inner ℂ up up‖ ≤ ρ * (‖up‖ * ‖up‖)) (h2 : ‖α ^ 2 - q‖ ≤ v * ‖q‖) (hα : α ≠ 0) (h3 : ‖α • nw - up‖ ≤ v * ‖up‖) : ‖nw‖ ≤ 2 := by
  have e1 : ‖inner ℂ up up‖ = ‖up‖ * ‖up‖ := by rw [inner_self_eq_norm_sq_to_K, norm_pow]; simp [sq]
  have a1 : ‖up‖ * ‖up‖ - ‖q‖ ≤ ρ * (‖up‖ * ‖up‖) := by
    rw [norm_sub_rev] at h1
    have := norm_sub_norm_le (inner ℂ up up) q
    rw [e1] at this
    linarith
  have a2 : ‖q‖ - ‖α‖ ^ 2 ≤ v * ‖q‖ := by
    rw [norm_sub_rev] at h2
    have := norm_sub_norm_le q (α ^ 2)
    rw [norm_pow] at this
    linarith
  have a3 : ‖α‖ * ‖nw‖ ≤ (1 + v) * ‖up‖ := by
    have := norm_sub_norm_le (α • nw) up
    rw [norm_smul] at this
    linarith
  set U := ‖up‖ with hU
  have hU0 : 0 ≤ U := norm_nonneg _
  have hα0 : 0 < ‖α‖ := norm_pos_iff.2 hα
  have a4 : 9 / 16 * U ^ 2 ≤ ‖α‖ ^ 2 := by
    have b1 : 3 / 4 * U ^ 2 ≤ ‖q‖ := by nlinarith [mul_nonneg hU0 hU0]
    have b2 : 3 / 4 * ‖q‖ ≤ ‖α‖ ^ 2 := by nlinarith [norm_nonneg q]
    linarith
  have a5 : 3 / 4 * U ≤ ‖α‖ := by
    have : (3 / 4 * U) ^ 2 ≤ ‖α‖ ^ 2 := by linarith [show (3 / 4 * U) ^ 2 = 9 / 16 * U ^ 2 by ring]
    exact (pow_le_pow_iff_left₀ (by positivity) hα0.le two_ne_zero).1 this
  have a6 : ‖α‖ * ‖nw‖ ≤ ‖α‖ * 2 := by
    have : (1 + v) * U ≤ 5 / 4 * U := mul_le_mul_of_nonneg_right (by linarith) hU0
    linarith
  exact le_of_mul_le_mul_left a6 hα0

set_option maxHeartbeats 1000000 in
/-- one update in floating-point arithmetic, as seen by a pattern -/
theorem update_floating {u v δ : ℝ} (hu : 0 ≤ u) (hv : 0 ≤ v) (hv1 : v ≤ 1 / 4) (hδ1 : δ ≤ 1) (comms : List Comm) (hc : Procs comms) (ax : Nat) (sh : List Nat)
    (hax : ax < sh.length) (n : Nat) (hn : ∀ comm ∈ comms, size (distributeDimension (⟨sh, fun _ => 1⟩ : Arr ℝ) ax comm).shape ≤ n) (hr : roundBound u n comms.length ≤ 1 / 4)
    (m k : Nat) (hη1 : updateRound u v k ≤ 1) (B B' : FlBasis k) (x : Arr ℂ) (t : Trace k) (h : FlUpdate u v δ comms ax sh (m + 1) B x t B')
    (hsh : (∀ j, (B.U j).shape = sh) ∧ x.shape = sh) (X : ℝ) (hU : ∀ j, ‖colVec sh (B.U j)‖ ≤ 2) (hR : ‖colVec sh (t.rot (Fin.last k))‖ ≤ 2) (hS : ∀ j, |B.S j| ≤ X)
    (hSp : ∀ j, |t.Sp j| ≤ X) (hx : ‖colVec sh x‖ ≤ X) (w : EuclideanSpace ℂ (Fin (size sh))) :
    |basisEnergy (fun j => colVec sh (B'.U j)) B'.S w - Real.sqrt ((Real.sqrt (((m : ℝ) + 2) / (m + 3) ^ 2) * Real.sqrt (m + 3)) ^ 2 *
        basisEnergy (fun j => colVec sh (B.U j)) B.S w ^ 2 + Real.sqrt (((m : ℝ) + 2) / (m + 3) ^ 2) ^ 2 * ‖inner ℂ (colVec sh x) w‖ ^ 2)| ≤
      ((k + 1) * (72 * updateRound u v k * (k + 1) ^ 2 * X + 2 * (k + 1) * δ) + 2 * |t.Sp (Fin.last k)|) * ‖w‖ := by
  obtain ⟨c0, hc0⟩ : ∃ c0, c0 = Real.sqrt (((m : ℝ) + 2) / (m + 3) ^ 2) := ⟨_, rfl⟩
  obtain ⟨r0, hr0⟩ : ∃ r0, r0 = Real.sqrt ((m : ℝ) + 3) := ⟨_, rfl⟩
  obtain ⟨η, hη⟩ : ∃ η, η = updateRound u v k := ⟨_, rfl⟩
  rw [← hc0, ← hr0, ← hη]
  have hm0 : (0 : ℝ) ≤ m := Nat.cast_nonneg m
  have hX0 : 0 ≤ X := (norm_nonneg _).trans hx
  have hc0n : 0 ≤ c0 := by rw [hc0]; exact Real.sqrt_nonneg _
  have hr0n : 0 ≤ r0 := by rw [hr0]; exact Real.sqrt_nonneg _
  have hc0s : c0 ^ 2 = ((m : ℝ) + 2) / (m + 3) ^ 2 := by rw [hc0]; exact Real.sq_sqrt (by positivity)
  have hr0s : r0 ^ 2 = (m : ℝ) + 3 := by rw [hr0]; exact Real.sq_sqrt (by positivity)
  have hc01 : c0 ≤ 1 := by
    have : c0 ^ 2 ≤ 1 := by rw [hc0s, div_le_one (by positivity)]; nlinarith
    nlinarith
  have hcr1 : c0 * r0 ≤ 1 := by
    have : (c0 * r0) ^ 2 ≤ 1 := by rw [mul_pow, hc0s, hr0s, div_mul_eq_mul_div, div_le_one (by positivity)]; nlinarith
    nlinarith [mul_nonneg hc0n hr0n]
  -- the parts of the bound
  have hrb := roundBound_nonneg hu (k + 1) 0
  have hrbk : roundBound u k 0 ≤ roundBound u (k + 1) 0 := by
    unfold roundBound
    refine mul_le_mul_of_nonneg_left (sub_le_sub_right (pow_le_pow_right₀ (by linarith) (by omega)) 1) (Real.sqrt_nonneg _)
  have hp1 : (1 : ℝ) + 5 * u ≤ (1 + u) ^ 5 := by nlinarith [mul_nonneg hu hu, mul_nonneg (mul_nonneg hu hu) hu, pow_nonneg hu 4, pow_nonneg hu 5]
  have hη' : η = (1 + u) ^ 5 - 1 + (1 + u) * roundBound u (k + 1) 0 + v := by rw [hη]; rfl
  have hrb1 : 0 ≤ (1 + u) * roundBound u (k + 1) 0 := mul_nonneg (by linarith) hrb
  have hη0 : 0 ≤ η := by rw [hη']; nlinarith
  have hηv : v ≤ η := by rw [hη']; nlinarith
  have hη5 : (1 + u) ^ 5 - 1 ≤ η := by rw [hη']; linarith
  have hηr : roundBound u (k + 1) 0 ≤ η := by
    rw [hη']
    nlinarith [mul_nonneg hu hrb]
  have hη1' : η ≤ 1 := by rw [hη]; exact hη1
  have hu1 : u ≤ 1 := by nlinarith
  -- the projection
  have hUx : ∀ j, ‖t.Ux j‖ ≤ 4 * X := by
    intro j
    have h1 := inner_near hu comms hc ax sh hax n hn (B.U j) x (hsh.1 j) hsh.2 _ (h.proj j)
    have h2 := norm_inner_le_norm (𝕜 := ℂ) (colVec sh (B.U j)) (colVec sh x)
    have h3 := norm_sub_norm_le (t.Ux j) (inner ℂ (colVec sh (B.U j)) (colVec sh x))
    have h4 : ‖colVec sh (B.U j)‖ * ‖colVec sh x‖ ≤ 2 * X := mul_le_mul (hU j) hx (norm_nonneg _) (by norm_num)
    have h5 : roundBound u n comms.length * (‖colVec sh (B.U j)‖ * ‖colVec sh x‖) ≤ 1 * (2 * X) :=
      mul_le_mul (by linarith) h4 (by positivity) zero_le_one
    linarith
  -- the orthogonal part
  have h1 : ‖colVec sh t.up - (colVec sh x - ∑ j, t.Ux j • colVec sh (B.U j))‖ ≤ η * (‖colVec sh x‖ + ∑ j, ‖t.Ux j‖ * ‖colVec sh (B.U j)‖) := by
    have := entries_norm (colVec sh t.up - (colVec sh x - ∑ j, t.Ux j • colVec sh (B.U j)))
      (Fin.snoc (fun j => colVec sh (B.U j)) (colVec sh x) : Fin (k + 1) → EuclideanSpace ℂ (Fin (size sh))) (Fin.snoc (fun j => η * ‖t.Ux j‖) η : Fin (k + 1) → ℝ)
      (fun l => by
        refine Fin.lastCases ?_ (fun j => ?_) l
        · rw [Fin.snoc_last]; exact hη0
        · rw [Fin.snoc_castSucc]; exact mul_nonneg hη0 (norm_nonneg _)) (fun i => by
        obtain ⟨s, s1, s2, s3⟩ := h.perp (unravel sh i) (inRange_unravel i.2)
        have e1 : (colVec sh t.up - (colVec sh x - ∑ j, t.Ux j • colVec sh (B.U j))) i = t.up.at' (unravel sh i) - (x.at' (unravel sh i) - ∑ j, (B.U j).at' (unravel sh i) * t.Ux j) := by
          simp only [WithLp.ofLp_sub, WithLp.ofLp_sum, WithLp.ofLp_smul, Pi.sub_apply, Finset.sum_apply, Pi.smul_apply, smul_eq_mul, colVec]
          congr 2
          exact Finset.sum_congr rfl fun j _ => mul_comm _ _
        rw [e1, Fin.sum_univ_castSucc]
        simp only [Fin.snoc_castSucc, Fin.snoc_last]
        have e2 : ∀ a : Arr ℂ, (colVec sh a) i = a.at' (unravel sh i) := fun _ => rfl
        simp only [e2]
        set a := fun j => (B.U j).at' (unravel sh i) with ha
        set xi := x.at' (unravel sh i) with hxi
        have p1 := row_point hu a t.Ux s s1
        have p2 := parts_round hu (xi - s) (t.up.at' (unravel sh i)) (by rw [Complex.sub_re]; exact s2) (by rw [Complex.sub_im]; exact s3)
        set T := ∑ j, ‖a j‖ * ‖t.Ux j‖ with hT
        have hT0 : 0 ≤ T := Finset.sum_nonneg fun j _ => by positivity
        have p3 : ‖∑ j, a j * t.Ux j‖ ≤ T := (norm_sum_le _ _).trans (le_of_eq (Finset.sum_congr rfl fun j _ => norm_mul _ _))
        have p4 : ‖s‖ ≤ (1 + roundBound u k 0) * T := by
          have := norm_sub_norm_le s (∑ j, a j * t.Ux j)
          linarith
        have p5 : ‖xi - s‖ ≤ ‖xi‖ + (1 + roundBound u k 0) * T := (norm_sub_le _ _).trans (by linarith)
        have e3 : t.up.at' (unravel sh i) - (xi - ∑ j, a j * t.Ux j) = (t.up.at' (unravel sh i) - (xi - s)) - (s - ∑ j, a j * t.Ux j) := by ring
        have e4 : ∑ j, η * ‖t.Ux j‖ * ‖a j‖ = η * T := by
          rw [hT, Finset.mul_sum]
          exact Finset.sum_congr rfl fun j _ => by ring
        have p6 : ‖t.up.at' (unravel sh i) - (xi - ∑ j, a j * t.Ux j)‖ ≤ u * (‖xi‖ + (1 + roundBound u k 0) * T) + roundBound u k 0 * T := by
          rw [e3]
          refine (norm_sub_le _ _).trans (add_le_add (p2.trans (mul_le_mul_of_nonneg_left p5 hu)) p1)
        refine p6.trans ?_
        show _ ≤ ∑ j, η * ‖t.Ux j‖ * ‖a j‖ + η * ‖xi‖
        rw [e4]
        have q1 : u ≤ η := by linarith
        have q2 : u * (1 + roundBound u k 0) + roundBound u k 0 ≤ η := by
          have : (1 + u) * roundBound u k 0 ≤ (1 + u) * roundBound u (k + 1) 0 := mul_le_mul_of_nonneg_left hrbk (by linarith)
          rw [hη']; linarith
        have q3 := mul_le_mul_of_nonneg_right q1 (norm_nonneg xi)
        have q4 := mul_le_mul_of_nonneg_right q2 hT0
        linarith)
    rw [Fin.sum_univ_castSucc] at this
    simp only [Fin.snoc_castSucc, Fin.snoc_last] at this
    refine this.trans (le_of_eq ?_)
    rw [mul_add, Finset.mul_sum, add_comm]
    congr 1
    exact Finset.sum_congr rfl fun j _ => by ring
  -- its normalization
  have h2v : ‖t.abs • colVec sh t.new - colVec sh t.up‖ ≤ v * ‖colVec sh t.up‖ := by
    have := entries_norm (t.abs • colVec sh t.new - colVec sh t.up) (fun _ : Fin 1 => colVec sh t.up) (fun _ => v) (fun _ => hv) (fun i => by
      have d := h.unit.2 (unravel sh i) (inRange_unravel i.2)
      rw [Fin.sum_univ_one]
      show ‖t.abs * t.new.at' (unravel sh i) - t.up.at' (unravel sh i)‖ ≤ v * ‖t.up.at' (unravel sh i)‖
      have hα : 0 < ‖t.abs‖ := norm_pos_iff.2 h.unit.1
      have e : t.abs * t.new.at' (unravel sh i) - t.up.at' (unravel sh i) = t.abs * (t.new.at' (unravel sh i) - t.up.at' (unravel sh i) / t.abs) := by
        have := h.unit.1
        field_simp
      rw [e, norm_mul]
      rw [norm_div] at d
      calc ‖t.abs‖ * ‖t.new.at' (unravel sh i) - t.up.at' (unravel sh i) / t.abs‖ ≤ ‖t.abs‖ * (v * (‖t.up.at' (unravel sh i)‖ / ‖t.abs‖)) :=
            mul_le_mul_of_nonneg_left d hα.le
        _ = _ := by field_simp)
    rwa [Fin.sum_univ_one] at this
  have hnw : ‖colVec sh t.new‖ ≤ 2 := by
    obtain ⟨q, q1, q2⟩ := h.norm
    exact new_norm (colVec sh t.up) (colVec sh t.new) t.abs q v _ hv1 hr (inner_near hu comms hc ax sh hax n hn t.up t.up h.shapes.1 h.shapes.1 q q1) q2 h.unit.1 h2v
  -- the small matrix
  obtain ⟨q, c, r, m1, m2, m3, m4, m5, m6, m7⟩ := h.kMat
  have hb1 : ((m + 1 : ℕ) : ℝ) + 1 = (m : ℝ) + 2 := by push_cast; ring
  have hb2 : ((m + 1 : ℕ) : ℝ) + 2 = (m : ℝ) + 3 := by push_cast; ring
  rw [hb1, hb2] at m1
  rw [hb2, ← hr0] at m3
  obtain ⟨cn, ce⟩ := sqrt_round hu hu1 _ q c (by positivity) m1 m2
  rw [← hc0] at ce
  have re : |r - r0| ≤ u * r0 := by have := m3; unfold Rounds at this; rwa [abs_of_nonneg hr0n] at this
  have hpow : (0 : ℝ) ≤ (1 + u) ^ 2 - 1 := sub_nonneg.2 (one_le_pow₀ (by linarith))
  have key3 : ∀ (a z : ℂ), FlScaled u c a z → ‖z - c0 * a‖ ≤ η * (c0 * ‖a‖) := by
    intro a z hz
    have k1 := scaled_round hu c a z hz
    rw [abs_of_nonneg cn] at k1
    have k2 := prod_rel c c0 a a ((1 + u) ^ 2 - 1) 0 hc0n ce (by simp) hpow
    have k3 : c ≤ (1 + u) ^ 2 * c0 := by have := (abs_le.1 ce).2; linarith
    have k4 := norm_sub_le_norm_sub_add_norm_sub z (c * a) (c0 * a)
    have k5 : u * (c * ‖a‖) ≤ u * ((1 + u) ^ 2 * c0 * ‖a‖) := mul_le_mul_of_nonneg_left (mul_le_mul_of_nonneg_right k3 (norm_nonneg _)) hu
    have k6 : (1 + u) ^ 3 ≤ (1 + u) ^ 5 := pow_le_pow_right₀ (by linarith) (by norm_num)
    have k7 : ((1 + u) ^ 3 - 1) * (c0 * ‖a‖) ≤ η * (c0 * ‖a‖) := mul_le_mul_of_nonneg_right (by linarith) (by positivity)
    refine k4.trans (le_trans ?_ k7)
    calc _ ≤ u * ((1 + u) ^ 2 * c0 * ‖a‖) + ((1 + ((1 + u) ^ 2 - 1)) * (1 + 0) - 1) * (c0 * ‖a‖) := add_le_add (k1.trans k5) k2
      _ = _ := by ring
  have k2 : ∀ i j : Fin k, i ≠ j → t.K i.castSucc j.castSucc = 0 := by
    intro i j hij
    obtain ⟨p, p1, p2⟩ := m4 i j
    rw [if_neg hij, mul_zero] at p1
    have hp : p = 0 := by simpa [Rounds] using p1
    rw [hp, Complex.ofReal_zero] at p2
    exact scaled_zero c _ p2
  have k1 : ∀ j : Fin k, ‖t.K j.castSucc j.castSucc - ((c0 * r0 * B.S j : ℝ) : ℂ)‖ ≤ η * (c0 * r0 * |B.S j|) := by
    intro j
    obtain ⟨p, p1, p2⟩ := m4 j j
    rw [if_pos rfl] at p1
    have q1 : |p - r0 * B.S j| ≤ ((1 + u) ^ 2 - 1) * |r0 * B.S j| := by
      unfold Rounds at p1
      have a1 : |r * B.S j - r0 * B.S j| ≤ u * (r0 * |B.S j|) := by
        rw [← sub_mul, abs_mul, ← mul_assoc]
        exact mul_le_mul_of_nonneg_right re (abs_nonneg _)
      have a2 : |r * B.S j| ≤ (1 + u) * (r0 * |B.S j|) := by
        have := abs_sub_abs_le_abs_sub (r * B.S j) (r0 * B.S j)
        rw [abs_mul r0, abs_of_nonneg hr0n] at this
        linarith
      have a3 := abs_sub_le p (r * B.S j) (r0 * B.S j)
      rw [abs_mul r0, abs_of_nonneg hr0n]
      have a4 := mul_le_mul_of_nonneg_left a2 hu
      nlinarith
    have q2 := scaled_round hu c (p : ℂ) _ p2
    rw [abs_of_nonneg cn] at q2
    have q3 := prod_rel c c0 (p : ℂ) ((r0 * B.S j : ℝ) : ℂ) ((1 + u) ^ 2 - 1) ((1 + u) ^ 2 - 1) hc0n ce (by
      rw [← Complex.ofReal_sub, Complex.norm_real, Complex.norm_real]; exact q1) hpow
    have q4 : ‖(c : ℂ) * p‖ ≤ (1 + u) ^ 4 * (c0 * ‖((r0 * B.S j : ℝ) : ℂ)‖) := by
      have a0 := norm_sub_norm_le ((c : ℂ) * p) (c0 * ((r0 * B.S j : ℝ) : ℂ))
      have a1 : ‖(c0 : ℂ) * ((r0 * B.S j : ℝ) : ℂ)‖ = c0 * ‖((r0 * B.S j : ℝ) : ℂ)‖ := by rw [norm_mul, Complex.norm_real, Real.norm_of_nonneg hc0n]
      rw [a1] at a0
      nlinarith
    rw [norm_mul, Complex.norm_real c, Real.norm_of_nonneg cn] at q4
    have q5 := norm_sub_le_norm_sub_add_norm_sub (t.K j.castSucc j.castSucc) (c * p) (c0 * ((r0 * B.S j : ℝ) : ℂ))
    have e0 : ((c0 * r0 * B.S j : ℝ) : ℂ) = c0 * ((r0 * B.S j : ℝ) : ℂ) := by push_cast; ring
    have e1 : c0 * r0 * |B.S j| = c0 * ‖((r0 * B.S j : ℝ) : ℂ)‖ := by rw [Complex.norm_real, Real.norm_eq_abs, abs_mul, abs_of_nonneg hr0n]; ring
    rw [e0, e1]
    set Y := c0 * ‖((r0 * B.S j : ℝ) : ℂ)‖ with hY
    have hY0 : 0 ≤ Y := by positivity
    have q6 := mul_le_mul_of_nonneg_left q4 hu
    have q7 := mul_le_mul_of_nonneg_right hη5 hY0
    nlinarith
  have k3 : ∀ j : Fin k, ‖t.K j.castSucc (Fin.last k) - c0 * t.Ux j‖ ≤ η * (c0 * ‖t.Ux j‖) := fun j => key3 _ _ (m5 j)
  have k4 : ∀ j : Fin k, t.K (Fin.last k) j.castSucc = 0 := fun j => scaled_zero c _ (m6 j)
  have k5 := key3 _ _ m7
  -- the decomposition
  obtain ⟨v1, ⟨W, w1, w2⟩, v2, v3, v4⟩ := h.svd
  have hUp : ∀ l j, ‖t.Up l j‖ ≤ 2 := by
    intro l j
    have := norm_sub_norm_le (t.Up l j) (W l j)
    have := unitary_entry W w1 l j
    have := w2 l j
    linarith
  -- the rotation
  have hrot : ∀ j, ‖colVec sh (t.rot j) - ∑ l, t.Up l j • (Fin.snoc (fun l => colVec sh (B.U l)) (colVec sh t.new) : Fin (k + 1) → EuclideanSpace ℂ (Fin (size sh))) l‖ ≤
      η * ∑ l, ‖t.Up l j‖ * ‖(Fin.snoc (fun l => colVec sh (B.U l)) (colVec sh t.new) : Fin (k + 1) → EuclideanSpace ℂ (Fin (size sh))) l‖ := by
    intro j
    set T : Fin (k + 1) → EuclideanSpace ℂ (Fin (size sh)) := Fin.snoc (fun l => colVec sh (B.U l)) (colVec sh t.new) with hT
    have hTi : ∀ l i, T l i = (Fin.snoc (fun l => (B.U l).at' (unravel sh i)) (t.new.at' (unravel sh i)) : Fin (k + 1) → ℂ) l := by
      intro l i
      refine Fin.lastCases ?_ (fun j => ?_) l
      · rw [hT, Fin.snoc_last, Fin.snoc_last]; rfl
      · rw [hT, Fin.snoc_castSucc, Fin.snoc_castSucc]; rfl
    have := entries_norm (colVec sh (t.rot j) - ∑ l, t.Up l j • T l) T (fun l => η * ‖t.Up l j‖) (fun l => mul_nonneg hη0 (norm_nonneg _)) (fun i => by
      have p1 := row_point hu _ _ _ (h.rot j (unravel sh i) (inRange_unravel i.2))
      have e1 : (colVec sh (t.rot j) - ∑ l, t.Up l j • T l) i = (t.rot j).at' (unravel sh i) -
          ∑ l, (Fin.snoc (fun l => (B.U l).at' (unravel sh i)) (t.new.at' (unravel sh i)) : Fin (k + 1) → ℂ) l * t.Up l j := by
        simp only [WithLp.ofLp_sub, WithLp.ofLp_sum, WithLp.ofLp_smul, Pi.sub_apply, Finset.sum_apply, Pi.smul_apply, smul_eq_mul, hTi]
        congr 1
        exact Finset.sum_congr rfl fun l _ => mul_comm _ _
      rw [e1]
      refine p1.trans ?_
      rw [Finset.mul_sum]
      refine Finset.sum_le_sum fun l _ => ?_
      rw [hTi]
      have := mul_le_mul_of_nonneg_right hηr (mul_nonneg (norm_nonneg (t.Up l j)) (norm_nonneg ((Fin.snoc (fun l => (B.U l).at' (unravel sh i)) (t.new.at' (unravel sh i)) : Fin (k + 1) → ℂ) l)))
      nlinarith)
    refine this.trans (le_of_eq ?_)
    rw [Finset.mul_sum]
    exact Finset.sum_congr rfl fun l _ => by ring
  have hcol := update_columns (fun j => colVec sh (B.U j)) (colVec sh t.new) (colVec sh x) (colVec sh t.up) B.S t.Ux t.abs t.K t.Up t.V t.Sp (fun j => colVec sh (t.rot j)) c0 r0 η δ X
    hc0n hc01 hr0n hcr1 hη0 hη1' hX0 hU hnw hUp hS hSp hx hUx h1 (h2v.trans (mul_le_mul_of_nonneg_right hηv (norm_nonneg _))) k1 k2 k3 k4 k5 (unitary_entry t.V v1) v2 hrot
  have hfin := update_energy (fun j => colVec sh (B.U j)) (colVec sh x) B.S t.V v1 t.Sp (fun j => colVec sh (t.rot j)) c0 r0 _ hR hcol w
  have e1 : (fun j => colVec sh (B'.U j)) = fun j : Fin k => colVec sh (t.rot j.castSucc) := funext fun j => by rw [(h.keep j).1]
  have e2 : B'.S = fun j : Fin k => t.Sp j.castSucc := funext fun j => (h.keep j).2
  rw [e1, e2]
  exact hfin

/-! ### Many updates -/

/-- what the errors of `M` updates add up to: rounding, residuals of the decompositions, and the values dropped -/
noncomputable def basisError (u v δ X : ℝ) (k M : Nat) (t : Nat → Trace k) : ℝ :=
  ∑ m ∈ range M, ((k + 1) * (72 * updateRound u v k * (k + 1) ^ 2 * X + 2 * (k + 1) * δ) + 2 * |(t m).Sp (Fin.last k)|)

/-- conditions on the computed columns and values: no column is longer than 2, and `X` bounds the values and the blocks -/
structure Tame {k : Nat} (sh : List Nat) (x : Nat → Arr ℂ) (M : Nat) (t : Nat → Trace k) (X : ℝ) : Prop where
  shape : ∀ m < M, (x m).shape = sh
  cols : ∀ m < M, ∀ j, ‖colVec sh ((t m).rot j)‖ ≤ 2
  vals : ∀ m < M, ∀ j, |(t m).Sp j| ≤ X
  data : ∀ m < M, ‖colVec sh (x m)‖ ≤ X

/-- **C246.** The basis update of the streaming method in floating-point arithmetic, on any number of ranks, with any order of additions: after `M` updates the basis and its
    values give every pattern the energy that the average of the blocks with the weights `(m + 2) / ((m + 3) (M + 2))` gives it, up to `basisError`. -/
theorem basis_floating {u v δ : ℝ} (hu : 0 ≤ u) (hv : 0 ≤ v) (hv1 : v ≤ 1 / 4) (hδ1 : δ ≤ 1) (comms : List Comm) (hc : Procs comms) (ax : Nat) (sh : List Nat)
    (hax : ax < sh.length) (n : Nat) (hn : ∀ comm ∈ comms, size (distributeDimension (⟨sh, fun _ => 1⟩ : Arr ℝ) ax comm).shape ≤ n) (hr : roundBound u n comms.length ≤ 1 / 4)
    (k : Nat) (hη1 : updateRound u v k ≤ 1) (x : Nat → Arr ℂ) (M : Nat) (B : Nat → FlBasis k) (t : Nat → Trace k) (h : FlBasisRun u v δ comms ax sh x M B t) (X : ℝ)
    (hT : Tame sh x M t X) (w : EuclideanSpace ℂ (Fin (size sh))) :
    |basisEnergy (fun j => colVec sh ((B M).U j)) (B M).S w - blockEnergy M (fun m => colVec sh (x m)) w| ≤ basisError u v δ X k M t * ‖w‖ := by
  obtain ⟨h0, h⟩ := h
  have hB : ∀ m ≤ M, ∀ j, ((B m).U j).shape = sh ∧ ‖colVec sh ((B m).U j)‖ ≤ 2 ∧ (m < M → |(B m).S j| ≤ X) := by
    intro m hm j
    cases m with
    | zero =>
      rw [h0]
      refine ⟨rfl, ?_, fun hM => ?_⟩
      · have : colVec sh (⟨sh, fun _ => 0⟩ : Arr ℂ) = 0 := rfl
        rw [this, norm_zero]; norm_num
      · rw [abs_zero]; exact (norm_nonneg _).trans (hT.data 0 hM)
    | succ m =>
      have hk := (h m (by omega)).keep j
      rw [hk.1, hk.2]
      exact ⟨(h m (by omega)).shapes.2 _, hT.cols m (by omega) _, fun _ => hT.vals m (by omega) _⟩
  refine updates_energy (fun m => ((B m).S, fun j => colVec sh ((B m).U j))) (fun m => colVec sh (x m)) (fun m => Real.sqrt (((m : ℝ) + 2) / (m + 3) ^ 2))
    (fun m => Real.sqrt ((m : ℝ) + 3)) _ (fun j => by show (B 0).S j = 0; rw [h0]) M
    (fun m _ => ⟨Real.sqrt_nonneg _, Real.sqrt_nonneg _, Real.sq_sqrt (by positivity), Real.sq_sqrt (by positivity)⟩) w fun m hm => ?_
  exact update_floating hu hv hv1 hδ1 comms hc ax sh hax n hn hr m k hη1 (B m) (B (m + 1)) (x m) (t m) (h m hm) ⟨fun j => (hB m hm.le j).1, hT.shape m hm⟩ X
    (fun j => (hB m hm.le j).2.1) (hT.cols m hm _) (fun j => (hB m hm.le j).2.2 hm) (hT.vals m hm) (hT.data m hm) w

/-! ### The exact average of the blocks -/

section
variable {E : Type*} [NormedAddCommGroup E] [InnerProductSpace ℂ E]

theorem weights_le (M : Nat) : ∑ m ∈ range M, ((m : ℝ) + 2) / ((m + 3) * (M + 2)) ≤ 1 := by
  calc ∑ m ∈ range M, ((m : ℝ) + 2) / ((m + 3) * (M + 2)) ≤ ∑ m ∈ range M, 1 / ((M : ℝ) + 2) := Finset.sum_le_sum fun m _ => by
        rw [div_le_div_iff₀ (by positivity) (by positivity)]
        have : (0 : ℝ) ≤ M := Nat.cast_nonneg M
        nlinarith
    _ = M / ((M : ℝ) + 2) := by rw [Finset.sum_const, card_range, nsmul_eq_mul, mul_one_div]
    _ ≤ 1 := by rw [div_le_one (by positivity)]; linarith

theorem blockEnergy_norm (M : Nat) (x : Nat → E) (v : E) :
    blockEnergy M x v = ‖(WithLp.toLp 2 fun m : Fin M => (Real.sqrt (((m : ℝ) + 2) / ((m + 3) * (M + 2))) : ℂ) * inner ℂ (x m) v : EuclideanSpace ℂ (Fin M))‖ := by
  rw [blockEnergy, EuclideanSpace.norm_eq, Finset.sum_range]
  congr 1
  refine Finset.sum_congr rfl fun m _ => ?_
  simp only [norm_mul, Complex.norm_real, Real.norm_eq_abs, mul_pow, sq_abs]
  rw [Real.sq_sqrt (by positivity)]

/-- blocks with an error of at most `D` -/
theorem blockEnergy_near (M : Nat) (x y : Nat → E) (D : ℝ) (h : ∀ m < M, ‖x m - y m‖ ≤ D) (hD : 0 ≤ D) (v : E) : |blockEnergy M x v - blockEnergy M y v| ≤ D * ‖v‖ := by
  rw [blockEnergy_norm, blockEnergy_norm]
  refine (abs_norm_sub_norm_le _ _).trans ?_
  rw [EuclideanSpace.norm_eq]
  refine Real.sqrt_le_iff.2 ⟨by positivity, ?_⟩
  calc _ ≤ ∑ m : Fin M, (((m : ℝ) + 2) / ((m + 3) * (M + 2))) * (D * ‖v‖) ^ 2 := Finset.sum_le_sum fun m _ => by
        simp only [WithLp.ofLp_sub, Pi.sub_apply]
        rw [← mul_sub, ← inner_sub_left, norm_mul, mul_pow, Complex.norm_real, Real.norm_eq_abs, sq_abs, Real.sq_sqrt (by positivity)]
        refine mul_le_mul_of_nonneg_left (pow_le_pow_left₀ (norm_nonneg _) ?_ 2) (by positivity)
        exact (norm_inner_le_norm _ _).trans (mul_le_mul_of_nonneg_right (h m m.2) (norm_nonneg _))
    _ = (∑ m ∈ range M, ((m : ℝ) + 2) / ((m + 3) * (M + 2))) * (D * ‖v‖) ^ 2 := by rw [Finset.sum_range, Finset.sum_mul]
    _ ≤ 1 * (D * ‖v‖) ^ 2 := mul_le_mul_of_nonneg_right (weights_le M) (sq_nonneg _)
    _ = _ := one_mul _
end

/-- `e`, `lam`: the principal directions of the average of the blocks `y` with the weights `(m + 2) / ((m + 3) (M + 2))`, and their energies, sorted -/
def Principal {n : Nat} (M : Nat) (y : Nat → EuclideanSpace ℂ (Fin n)) (e : OrthonormalBasis (Fin n) ℂ (EuclideanSpace ℂ (Fin n))) (lam : Fin n → ℝ) : Prop :=
  Antitone lam ∧ (∀ i, 0 ≤ lam i) ∧ ∀ w, ∑ m ∈ range M, ((m : ℝ) + 2) / ((m + 3) * (M + 2)) * ‖inner ℂ (y m) w‖ ^ 2 = ∑ i, lam i * ‖inner ℂ (e i) w‖ ^ 2

/-- they exist -/
theorem principal_exists {n : Nat} (M : Nat) (y : Nat → EuclideanSpace ℂ (Fin n)) : ∃ e lam, Principal M y e lam := by
  classical
  set wt : Nat → ℝ := fun m => ((m : ℝ) + 2) / ((m + 3) * (M + 2)) with hwt
  set A : Matrix (Fin n) (Fin n) ℂ := Matrix.of fun i j => ∑ m ∈ range M, (wt m : ℂ) * (y m i * conj (y m j)) with hA
  have hM : A.IsHermitian := by
    ext i j
    simp only [hA, Matrix.conjTranspose_apply, Matrix.of_apply, Complex.star_def, map_sum, map_mul, Complex.conj_ofReal, Complex.conj_conj]
    exact Finset.sum_congr rfl fun m _ => by ring
  set μ := hM.eigenvalues with hμ
  set π : Equiv.Perm (Fin n) := Tuple.sort fun i => - μ i with hπ
  have hanti : Antitone fun i => μ (π i) := by
    intro i j hij
    have := Tuple.monotone_sort (fun i => - μ i) hij
    simpa using this
  have hmul : ∀ v : EuclideanSpace ℂ (Fin n), (WithLp.toLp 2 (A.mulVec v.ofLp) : EuclideanSpace ℂ (Fin n)) = ∑ m ∈ range M, ((wt m : ℂ) * inner ℂ (y m) v) • y m := by
    intro v
    ext i
    simp only [hA, Matrix.mulVec, dotProduct, Matrix.of_apply, WithLp.ofLp_sum, Finset.sum_apply, WithLp.ofLp_smul, Pi.smul_apply, smul_eq_mul, PiLp.inner_apply, RCLike.inner_apply,
      Finset.sum_mul, Finset.mul_sum]
    rw [Finset.sum_comm]
    exact Finset.sum_congr rfl fun m _ => Finset.sum_congr rfl fun j _ => by ring
  have hform : ∀ v : EuclideanSpace ℂ (Fin n), inner ℂ v (WithLp.toLp 2 (A.mulVec v.ofLp) : EuclideanSpace ℂ (Fin n)) = ((∑ m ∈ range M, wt m * ‖inner ℂ (y m) v‖ ^ 2 : ℝ) : ℂ) := by
    intro v
    rw [hmul, inner_sum]
    push_cast
    refine Finset.sum_congr rfl fun m _ => ?_
    rw [inner_smul_right, ← inner_conj_symm v, mul_assoc, Complex.mul_conj']
  have e2 : ∀ v k, inner ℂ (hM.eigenvectorBasis k) (WithLp.toLp 2 (A.mulVec v.ofLp) : EuclideanSpace ℂ (Fin n)) = (μ k : ℂ) * inner ℂ (hM.eigenvectorBasis k) v := by
    intro v k
    have h1 : star (hM.eigenvectorBasis k).ofLp ⬝ᵥ (A.mulVec v.ofLp) = star (A.mulVec (hM.eigenvectorBasis k).ofLp) ⬝ᵥ v.ofLp := by
      rw [Matrix.star_mulVec, hM.eq, Matrix.dotProduct_mulVec]
    rw [EuclideanSpace.inner_eq_star_dotProduct, dotProduct_comm]
    show star (hM.eigenvectorBasis k).ofLp ⬝ᵥ (A.mulVec v.ofLp) = _
    rw [h1, hM.mulVec_eigenvectorBasis k, EuclideanSpace.inner_eq_star_dotProduct, dotProduct_comm v.ofLp]
    simp only [star_smul, smul_dotProduct]
    rw [star_trivial, Complex.real_smul]
  have hquad : ∀ w, ∑ m ∈ range M, wt m * ‖inner ℂ (y m) w‖ ^ 2 = ∑ i, μ (π i) * ‖inner ℂ (hM.eigenvectorBasis (π i)) w‖ ^ 2 := by
    intro w
    have : ((∑ m ∈ range M, wt m * ‖inner ℂ (y m) w‖ ^ 2 : ℝ) : ℂ) = ((∑ i, μ (π i) * ‖inner ℂ (hM.eigenvectorBasis (π i)) w‖ ^ 2 : ℝ) : ℂ) := by
      rw [← hform, ← OrthonormalBasis.sum_inner_mul_inner hM.eigenvectorBasis, Complex.ofReal_sum, ← Equiv.sum_comp π]
      refine Finset.sum_congr rfl fun k _ => ?_
      rw [e2, ← inner_conj_symm w, Complex.ofReal_mul, Complex.ofReal_pow, mul_left_comm, Complex.conj_mul']
    exact_mod_cast this
  refine ⟨hM.eigenvectorBasis.reindex π.symm, fun i => μ (π i), hanti, fun i => ?_, fun w => ?_⟩
  · have := hquad (hM.eigenvectorBasis (π i))
    rw [Finset.sum_eq_single i (fun j _ hj => by
      rw [(orthonormal_iff_ite.1 hM.eigenvectorBasis.orthonormal) (π j) (π i), if_neg fun hc => hj (π.injective hc)]; simp) (fun hc => absurd (Finset.mem_univ i) hc),
      (orthonormal_iff_ite.1 hM.eigenvectorBasis.orthonormal) (π i) (π i), if_pos rfl] at this
    have h0 : 0 ≤ ∑ m ∈ range M, wt m * ‖inner ℂ (y m) (hM.eigenvectorBasis (π i))‖ ^ 2 := Finset.sum_nonneg fun m _ => by
      have : 0 ≤ wt m := by simp only [hwt]; positivity
      positivity
    rw [this] at h0
    simpa using h0
  · simp only [OrthonormalBasis.reindex_apply, Equiv.symm_symm]
    exact hquad w

/-- **C246.** The stored values are near the square roots of the principal energies of the average of the exact blocks `y`: the computed blocks differ from `y` by at most `D`,
    the stored basis is orthonormal up to `θ`. -/
theorem stream_values_floating {u v δ : ℝ} (hu : 0 ≤ u) (hv : 0 ≤ v) (hv1 : v ≤ 1 / 4) (hδ1 : δ ≤ 1) (comms : List Comm) (hc : Procs comms) (ax : Nat) (sh : List Nat)
    (hax : ax < sh.length) (n : Nat) (hn : ∀ comm ∈ comms, size (distributeDimension (⟨sh, fun _ => 1⟩ : Arr ℝ) ax comm).shape ≤ n) (hr : roundBound u n comms.length ≤ 1 / 4)
    (k : Nat) (hη1 : updateRound u v k ≤ 1) (x : Nat → Arr ℂ) (M : Nat) (B : Nat → FlBasis k) (t : Nat → Trace k) (h : FlBasisRun u v δ comms ax sh x M B t) (X : ℝ)
    (hT : Tame sh x M t X) (y : Nat → EuclideanSpace ℂ (Fin (size sh))) (D : ℝ) (hD0 : 0 ≤ D) (hD : ∀ m < M, ‖colVec sh (x m) - y m‖ ≤ D)
    (e : OrthonormalBasis (Fin (size sh)) ℂ (EuclideanSpace ℂ (Fin (size sh)))) (lam : Fin (size sh) → ℝ) (hp : Principal M y e lam) (θ : ℝ) (hθ : θ < 1)
    (ho : ∀ c : Fin k → ℂ, (1 - θ) * ∑ j, ‖c j‖ ^ 2 ≤ ‖∑ j, c j • colVec sh ((B M).U j)‖ ^ 2 ∧ ‖∑ j, c j • colVec sh ((B M).U j)‖ ^ 2 ≤ (1 + θ) * ∑ j, ‖c j‖ ^ 2)
    (i : Fin k) (i' : Fin (size sh)) (hi : i.1 = i'.1) :
    (B M).S i * Real.sqrt (1 - θ) ≤ Real.sqrt (lam i') + (basisError u v δ X k M t + D) ∧
      Real.sqrt (lam i') ≤ (B M).S i * Real.sqrt (1 + θ) + (basisError u v δ X k M t + D) := by
  have hS : Antitone (B M).S ∧ ∀ j, 0 ≤ (B M).S j := by
    cases M with
    | zero => rw [h.1]; exact ⟨fun _ _ _ => le_refl _, fun _ => le_refl _⟩
    | succ M =>
      have hk := (h.2 M (by omega)).keep
      obtain ⟨-, -, -, s1, s2⟩ := (h.2 M (by omega)).svd
      refine ⟨fun a b hab => ?_, fun j => ?_⟩
      · rw [(hk a).2, (hk b).2]; exact s2 (by simpa using hab)
      · rw [(hk j).2]; exact s1 _
  refine values_near _ (B M).S hS.1 hS.2 e lam hp.1 hp.2.1 θ hθ ho _ (fun w => ?_) i i' hi
  rw [← hp.2.2 w]
  have h1 := basis_floating hu hv hv1 hδ1 comms hc ax sh hax n hn hr k hη1 x M B t h X hT w
  have h2 := blockEnergy_near M (fun m => colVec sh (x m)) y D hD hD0 w
  have h3 := abs_sub_le (basisEnergy (fun j => colVec sh ((B M).U j)) (B M).S w) (blockEnergy M (fun m => colVec sh (x m)) w) (blockEnergy M y w)
  unfold blockEnergy at h1 h2 h3
  linarith

/-! ### The blocks of the stream -/

theorem specBlock_norm (c : Cfg) (ω : ℂ) (hω : ‖ω‖ = 1) (hn : 0 < c.nDft) (hwin : c.win.length = c.nDft) (hw : ∀ x ∈ c.win, 0 ≤ x) (hpos : 0 < c.win.sum) (f m : Nat)
    (vals : List ℝ) (X : ℝ) (hX0 : 0 ≤ X) (hX : ∀ x ∈ vals, |x| ≤ X) : ‖specBlock c ω f m vals‖ ≤ 4 * X := by
  obtain ⟨a, ha, hda⟩ := dftMat_norm ω hω c.isreal (nFreq c.nDft c.isreal c.full) f
  have ha1 : 0 ≤ a ∧ a ≤ 2 := by rcases ha with rfl | rfl <;> norm_num
  set w : Nat → ℝ := fun t => c.win.getD t 0 with hwdef
  have hw0 : ∀ i, 0 ≤ w i := fun i => by
    rw [hwdef]
    simp only [List.getD_eq_getElem?_getD]
    cases hc : c.win[i]? with
    | none => simp
    | some b => simpa using hw b (List.mem_of_getElem? hc)
  have hsum : ∑ t ∈ range c.nDft, w t = c.win.sum := by
    rw [← hwin, ← list_range_sum]
    congr 1
    refine List.ext_getElem (by simp) fun i h1 h2 => ?_
    simp [hwdef, List.getElem?_eq_getElem h2]
  set N := streamStart (nPar c.nDft (sep c)) (sep c) m with hN
  have hval : ∀ i, |vals.getD i 0| ≤ X := fun i => by
    rw [List.getD_eq_getElem?_getD]
    cases hc : vals[i]? with
    | none => simpa using hX0
    | some b => simpa using hX b (List.mem_of_getElem? hc)
  have hN0 : (0 : ℝ) < ((N + c.nDft : Nat) : ℝ) := by exact_mod_cast (by omega : 0 < N + c.nDft)
  set μ : ℝ := (∑ i ∈ range (N + c.nDft), vals.getD i 0) / ((N + c.nDft : Nat) : ℝ) with hμ
  have hμX : |μ| ≤ X := by
    rw [hμ, abs_div, abs_of_pos hN0, div_le_iff₀ hN0]
    refine (Finset.abs_sum_le_sum_abs _ _).trans ((Finset.sum_le_sum fun i _ => hval i).trans ?_)
    rw [Finset.sum_const, card_range, nsmul_eq_mul, mul_comm]
  have hn0 : (0 : ℝ) < c.nDft := by exact_mod_cast hn
  have hscale : winWeight c.win / (c.nDft : ℝ) = 1 / c.win.sum := by
    rw [winWeight, hwin]
    field_simp
  have hv2 : ∀ t, |vals.getD (N + t) 0 - μ| ≤ 2 * X := fun t => (abs_sub _ _).trans (by linarith [hval (N + t)])
  have e : specBlock c ω f m vals = ((winWeight c.win / (c.nDft : ℝ) : ℝ) : ℂ) * ∑ t ∈ range c.nDft, ((w t : ℝ) : ℂ) * dftMat ω c.isreal (nFreq c.nDft c.isreal c.full) f t *
      ((vals.getD (N + t) 0 - μ : ℝ) : ℂ) := by
    unfold specBlock
    simp only
    rw [Complex.ofReal_div, Complex.ofReal_natCast]
    congr 1
    refine Finset.sum_congr rfl fun t _ => ?_
    rw [hμ]
    push_cast
    rfl
  rw [e, hscale, norm_mul, Complex.norm_real, Real.norm_of_nonneg (by positivity), one_div, inv_mul_le_iff₀ hpos, ← hsum, Finset.sum_mul]
  refine (norm_sum_le _ _).trans (Finset.sum_le_sum fun t _ => ?_)
  rw [norm_mul, norm_mul, Complex.norm_real, Complex.norm_real, Real.norm_of_nonneg (hw0 t), Real.norm_eq_abs, hda t]
  calc w t * a * |vals.getD (N + t) 0 - μ| ≤ w t * 2 * (2 * X) := mul_le_mul (mul_le_mul_of_nonneg_left ha1.2 (hw0 t)) (hv2 t) (abs_nonneg _) (mul_nonneg (hw0 t) (by norm_num))
    _ = w t * (4 * X) := by ring

/-- the error of a column, for data of magnitude at most `Q` and weights that add up to `W` -/
noncomputable def columnError (u γ : ℝ) (nt n : Nat) (Q W : ℝ) : ℝ := Real.sqrt W * ((1 + u) ^ 2 * (4 * Q * streamBound u γ nt n + 4 * Q) - 4 * Q)

/-- **C246.** The columns handed to the update: computed at every grid point by the loop of C245 from the snapshots `frames`, then multiplied with the square roots of the weights -/
theorem stream_columns_floating (c : Cfg) (ω : ℂ) (hω : ‖ω‖ = 1) (hn : 0 < c.nDft) (hd : 0 < sep c) (hwin : c.win.length = c.nDft) (hw : ∀ x ∈ c.win, 0 ≤ x) (hpos : 0 < c.win.sum)
    (u : ℝ) (hu : 0 ≤ u) (hlt : (1 + u) ^ c.nDft < 2) (γ : ℝ) (f : Nat) (frames : List (Arr ℝ)) (wt : Arr ℝ) (Q : ℝ) (hQ0 : 0 ≤ Q)
    (hQ : ∀ a ∈ frames, ∀ idx, InRange wt.shape idx → |a.at' idx| ≤ Q) (hwt : ∀ idx, InRange wt.shape idx → 0 ≤ wt.at' idx) (s : Fin (size wt.shape) → St ℂ)
    (h : ∀ i, FlStream u γ c ω f (frames.map fun a => a.at' (unravel wt.shape i)) (s i)) (x : Nat → Arr ℂ)
    (hx : ∀ m < nUpdates c ω frames.length, ∀ i, ∀ p ∈ (s i).out[m]?, FlColumn u (wt.at' (unravel wt.shape i)) p.2.2 ((x m).at' (unravel wt.shape i))) (m : Nat)
    (hm : m < nUpdates c ω frames.length) :
    ‖colVec wt.shape (x m) - WithLp.toLp 2 (specVec c ω frames wt f m)‖ ≤ columnError u γ frames.length c.nDft Q (∑ i : Fin (size wt.shape), wt.at' (unravel wt.shape i)) := by
  obtain ⟨β, hβ⟩ : ∃ β, β = (1 + u) ^ 2 * (4 * Q * streamBound u γ frames.length c.nDft + 4 * Q) - 4 * Q := ⟨_, rfl⟩
  have hpt : ∀ i : Fin (size wt.shape), ‖(x m).at' (unravel wt.shape i) - specVec c ω frames wt f m i‖ ≤ Real.sqrt (wt.at' (unravel wt.shape i)) * β := by
    intro i
    have hX : ∀ y ∈ frames.map (fun a => a.at' (unravel wt.shape i)), |y| ≤ Q := by
      intro y hy
      obtain ⟨a, ha, rfl⟩ := List.mem_map.1 hy
      exact hQ a ha _ (inRange_unravel i.2)
    obtain ⟨-, h2, -⟩ := stream_floating c ω hω hn hd hwin hw hpos u hu hlt γ f _ Q hX (s i) (h i)
    rw [List.length_map] at h2
    obtain ⟨z, z1, z2⟩ := h2 m hm
    have hcol := hx m hm i _ (by rw [z1]; rfl)
    rw [hβ]
    exact column_near hu _ z _ _ _ _ z2 (specBlock_norm c ω hω hn hwin hw hpos f m _ Q hQ0 hX) hcol
  rw [columnError, ← hβ, EuclideanSpace.norm_eq]
  rcases isEmpty_or_nonempty (Fin (size wt.shape)) with he | ⟨⟨i0⟩⟩
  · simp
  by_cases hβ0 : 0 ≤ β
  · refine Real.sqrt_le_iff.2 ⟨by positivity, ?_⟩
    rw [mul_pow, Real.sq_sqrt (Finset.sum_nonneg fun i _ => hwt _ (inRange_unravel i.2)), Finset.sum_mul]
    refine Finset.sum_le_sum fun i _ => ?_
    have := pow_le_pow_left₀ (norm_nonneg _) (hpt i) 2
    rw [mul_pow, Real.sq_sqrt (hwt _ (inRange_unravel i.2))] at this
    exact this
  · have hz : ∀ i : Fin (size wt.shape), Real.sqrt (wt.at' (unravel wt.shape i)) = 0 := fun i => by
      have := (norm_nonneg _).trans (hpt i)
      nlinarith [Real.sqrt_nonneg (wt.at' (unravel wt.shape i))]
    have hz2 : ∀ i : Fin (size wt.shape), wt.at' (unravel wt.shape i) = 0 := fun i =>
      le_antisymm (Real.sqrt_eq_zero'.1 (hz i)) (hwt _ (inRange_unravel i.2))
    have hz3 : ∀ i : Fin (size wt.shape), ‖(x m).at' (unravel wt.shape i) - specVec c ω frames wt f m i‖ = 0 := fun i => by
      have := hpt i
      rw [hz i, zero_mul] at this
      exact le_antisymm this (norm_nonneg _)
    rw [Finset.sum_eq_zero fun i _ => hz2 i, Real.sqrt_zero, zero_mul, Finset.sum_eq_zero fun i _ => ?_, Real.sqrt_zero]
    exact (pow_eq_zero_iff two_ne_zero).2 (hz3 i)

/-- **C246.** A whole streaming fit of real data at one frequency: the stored value number `i` is near the square root of the `i`-th principal energy of the weighted average of the exact
    blocks.  The error is what rounding, the decompositions and the dropped values add up to in the updates, plus the error of the columns; `θ` is the loss of orthogonality of the stored
    basis. -/
theorem streaming_fit_floating (c : Cfg) (ω : ℂ) (hω : ‖ω‖ = 1) (hn : 0 < c.nDft) (hd : 0 < sep c) (hwin : c.win.length = c.nDft) (hw : ∀ x ∈ c.win, 0 ≤ x) (hpos : 0 < c.win.sum)
    (u : ℝ) (hu : 0 ≤ u) (hlt : (1 + u) ^ c.nDft < 2) (γ : ℝ) (f : Nat) (frames : List (Arr ℝ)) (wt : Arr ℝ) (Q : ℝ) (hQ0 : 0 ≤ Q)
    (hQ : ∀ a ∈ frames, ∀ idx, InRange wt.shape idx → |a.at' idx| ≤ Q) (hwt : ∀ idx, InRange wt.shape idx → 0 ≤ wt.at' idx) (s : Fin (size wt.shape) → St ℂ)
    (h : ∀ i, FlStream u γ c ω f (frames.map fun a => a.at' (unravel wt.shape i)) (s i)) (x : Nat → Arr ℂ)
    (hx : ∀ m < nUpdates c ω frames.length, ∀ i, ∀ p ∈ (s i).out[m]?, FlColumn u (wt.at' (unravel wt.shape i)) p.2.2 ((x m).at' (unravel wt.shape i)))
    (h1 : 0 < nUpdates c ω frames.length) {v δ : ℝ} (hv : 0 ≤ v) (hv1 : v ≤ 1 / 4) (hδ1 : δ ≤ 1) (comms : List Comm) (hc : Procs comms) (ax : Nat) (hax : ax < wt.shape.length) (n : Nat)
    (hnp : ∀ comm ∈ comms, size (distributeDimension (⟨wt.shape, fun _ => 1⟩ : Arr ℝ) ax comm).shape ≤ n) (hr : roundBound u n comms.length ≤ 1 / 4) (k : Nat)
    (hη1 : updateRound u v k ≤ 1) (B : Nat → FlBasis k) (t : Nat → Trace k) (hrun : FlBasisRun u v δ comms ax wt.shape x (nUpdates c ω frames.length) B t) (X : ℝ)
    (hT : Tame wt.shape x (nUpdates c ω frames.length) t X) (e : OrthonormalBasis (Fin (size wt.shape)) ℂ (EuclideanSpace ℂ (Fin (size wt.shape)))) (lam : Fin (size wt.shape) → ℝ)
    (hp : Principal (nUpdates c ω frames.length) (fun m => WithLp.toLp 2 (specVec c ω frames wt f m)) e lam) (θ : ℝ) (hθ : θ < 1)
    (ho : ∀ a : Fin k → ℂ, (1 - θ) * ∑ j, ‖a j‖ ^ 2 ≤ ‖∑ j, a j • colVec wt.shape ((B (nUpdates c ω frames.length)).U j)‖ ^ 2 ∧
      ‖∑ j, a j • colVec wt.shape ((B (nUpdates c ω frames.length)).U j)‖ ^ 2 ≤ (1 + θ) * ∑ j, ‖a j‖ ^ 2)
    (i : Fin k) (i' : Fin (size wt.shape)) (hi : i.1 = i'.1) :
    let ε := basisError u v δ X k (nUpdates c ω frames.length) t + columnError u γ frames.length c.nDft Q (∑ i : Fin (size wt.shape), wt.at' (unravel wt.shape i))
    (B (nUpdates c ω frames.length)).S i * Real.sqrt (1 - θ) ≤ Real.sqrt (lam i') + ε ∧ Real.sqrt (lam i') ≤ (B (nUpdates c ω frames.length)).S i * Real.sqrt (1 + θ) + ε := by
  have hcol := stream_columns_floating c ω hω hn hd hwin hw hpos u hu hlt γ f frames wt Q hQ0 hQ hwt s h x hx
  exact stream_values_floating hu hv hv1 hδ1 comms hc ax wt.shape hax n hnp hr k hη1 x _ B t hrun X hT _ _ ((norm_nonneg _).trans (hcol 0 h1)) hcol e lam hp θ hθ ho i i' hi

/-! ### The exact results are possible -/

theorem inner_possible {u : ℝ} (hu : 0 ≤ u) (comms : List Comm) (hc : Procs comms) (ax : Nat) (sh : List Nat) (hax : ax < sh.length) (a b : Arr ℂ) (ha : a.shape = sh)
    (hb : b.shape = sh) : FlInner u comms ax a b ⟨sh, fun _ => 1⟩ (inner ℂ (colVec sh a) (colVec sh b)) := by
  obtain ⟨Q, hQ⟩ : ∃ Q : Nat → Arr ℂ, Q = fun k => if k = 0 then a else b := ⟨_, rfl⟩
  have hQa : Q 0 = a := by rw [hQ]; rfl
  have hQb : Q 1 = b := by rw [hQ]; rfl
  obtain ⟨w, hw⟩ : ∃ w : Arr ℝ, w = ⟨sh, fun _ => 1⟩ := ⟨_, rfl⟩
  have hQs : ∀ k, (Q k).shape = w.shape := fun k => by rw [hQ, hw]; simp only; split <;> assumption
  have hloc : ∀ (a b : Arr ℂ) (Q : Nat → Arr ℂ) (w : Arr ℝ), Q 0 = a → Q 1 = b → FlInnerLocal u a b w (localGram Q (complexArr w) ((1 : ℝ) : ℂ) 0 1) := by
    rintro a b Q w rfl rfl
    set a : Nat → ℂ := fun k => (Q 0).at' (unravel w.shape k) with ha
    set b : Nat → ℂ := fun k => (Q 1).at' (unravel w.shape k) * ((w.at' (unravel w.shape k) : ℝ) : ℂ) with hb
    have e : localGram Q (complexArr w) ((1 : ℝ) : ℂ) 0 1 = (∑ k ∈ range (size w.shape), conj (a k) * b k) / ((1 : ℝ) : ℂ) := rfl
    rw [e, Complex.ofReal_one, div_one]
    refine ⟨b, fun k _ => ⟨?_, ?_⟩, ?_, ?_⟩
    · have : (b k).re = ((Q 1).at' (unravel w.shape k)).re * w.at' (unravel w.shape k) := by simp [hb]
      rw [this]; exact rounds_exact hu _
    · have : (b k).im = ((Q 1).at' (unravel w.shape k)).im * w.at' (unravel w.shape k) := by simp [hb]
      rw [this]; exact rounds_exact hu _
    · have := dot_exact hu (dotRe a b (size w.shape))
      have e2 : ((dotRe a b (size w.shape)).map fun p => p.1 * p.2).sum = (∑ k ∈ range (size w.shape), conj (a k) * b k).re := by
        rw [dotRe, List.map_flatMap, Complex.re_sum]
        refine Eq.trans (flatMap_two_sum (List.range (size w.shape)) (fun k => (a k).re * (b k).re) fun k => (a k).im * (b k).im) ?_
        rw [list_range_sum]
        exact Finset.sum_congr rfl fun k _ => by simp [Complex.mul_re]
      rw [← e2]; exact this
    · have := dot_exact hu (dotIm a b (size w.shape))
      have e2 : ((dotIm a b (size w.shape)).map fun p => p.1 * p.2).sum = (∑ k ∈ range (size w.shape), conj (a k) * b k).im := by
        rw [dotIm, List.map_flatMap, Complex.im_sum]
        refine Eq.trans (flatMap_two_sum (List.range (size w.shape)) (fun k => (a k).re * (b k).im) fun k => -(a k).im * (b k).re) ?_
        rw [list_range_sum]
        exact Finset.sum_congr rfl fun k _ => by simp [Complex.mul_im]
      rw [← e2]; exact this
  have g := gram_procs comms hc ax Q (complexArr w) ((1 : ℝ) : ℂ) (by rw [hw]; exact hax) hQs 0 1
  have e : gramSpec Q (complexArr w) ((1 : ℝ) : ℂ) 0 1 = inner ℂ (colVec sh a) (colVec sh b) := by
    rw [Complex.ofReal_one, hQ, inner_gram, hw]
    exact inner_colVec sh a b
  rw [e] at g
  rw [← g, ← hw]
  have hs : ∀ L : List ℂ, (L.map Complex.re).sum = L.sum.re ∧ (L.map Complex.im).sum = L.sum.im := by
    intro L
    induction L with
    | nil => simp
    | cons a L ih => simp [ih.1, ih.2]
  refine ⟨comms.map fun comm => localGram (fun b => distributeDimension (Q b) ax comm) (distributeDimension (complexArr w) ax comm) ((1 : ℝ) : ℂ) 0 1, ?_, ?_, ?_⟩
  · rw [List.forall₂_map_right_iff, List.forall₂_same]
    intro comm _
    rw [← complexArr_slab]
    exact hloc _ _ _ _ (by rw [hQa]) (by rw [hQb])
  · rw [← (hs _).1]; exact sum_exact hu _
  · rw [← (hs _).2]; exact sum_exact hu _

theorem row_possible {u : ℝ} (hu : 0 ≤ u) {k : Nat} (a b : Fin k → ℂ) : FlRow u a b (∑ j, a j * b j) := by
  constructor
  · have := dot_exact hu ((List.finRange k).flatMap fun j => [((a j).re, (b j).re), (-(a j).im, (b j).im)])
    simp only [List.map_flatMap, List.map_cons, List.map_nil, finRange_two_sum] at this
    convert this using 1
    rw [Complex.re_sum]
    exact Finset.sum_congr rfl fun j _ => by rw [Complex.mul_re]; ring
  · have := dot_exact hu ((List.finRange k).flatMap fun j => [((a j).re, (b j).im), ((a j).im, (b j).re)])
    simp only [List.map_flatMap, List.map_cons, List.map_nil, finRange_two_sum] at this
    convert this using 1
    rw [Complex.im_sum]
    exact Finset.sum_congr rfl fun j _ => by rw [Complex.mul_im]

theorem scaled_possible {u : ℝ} (hu : 0 ≤ u) (c : ℝ) (a : ℂ) : FlScaled u c a (c * a) := by
  constructor
  · rw [Complex.re_ofReal_mul]; exact rounds_exact hu _
  · rw [Complex.im_ofReal_mul]; exact rounds_exact hu _

/-- the first update, for any nonzero column, on any number of ranks: the exact results are possible; all columns are zero but the first, of norm one -/
theorem first_update_possible {u v δ : ℝ} (hu : 0 ≤ u) (hv : 0 ≤ v) (hδ : 0 ≤ δ) (comms : List Comm) (hc : Procs comms) (ax : Nat) (sh : List Nat) (hax : ax < sh.length) (k : Nat)
    (x : Arr ℂ) (hx : x.shape = sh) (h0 : colVec sh x ≠ 0) :
    ∃ (B : Nat → FlBasis k) (t : Nat → Trace k), FlBasisRun u v δ comms ax sh (fun _ => x) 1 B t ∧ Tame sh (fun _ => x) 1 t ‖colVec sh x‖ ∧
      (∀ j : Fin k, (B 1).S j = if j.1 = 0 then Real.sqrt (2 / 9) * ‖colVec sh x‖ else 0) ∧ ∀ j : Fin k, j.1 = 0 → ‖colVec sh ((B 1).U j)‖ = 1 := by
  obtain ⟨α, hα⟩ : ∃ α, α = ‖colVec sh x‖ := ⟨_, rfl⟩
  have hα0 : 0 < α := by rw [hα]; exact norm_pos_iff.2 h0
  have hαc : (α : ℂ) ≠ 0 := by exact_mod_cast hα0.ne'
  set c := Real.sqrt (2 / 9) with hc'
  have hc0 : 0 ≤ c := Real.sqrt_nonneg _
  have hc1 : c ≤ 1 := Real.sqrt_le_one.2 (by norm_num)
  set σ : Equiv.Perm (Fin (k + 1)) := Equiv.swap 0 (Fin.last k) with hσ
  set P : Matrix (Fin (k + 1)) (Fin (k + 1)) ℂ := Matrix.of fun i j => if i = σ j then 1 else 0 with hP
  have hPP : P.conjTranspose * P = 1 := by
    ext i j
    rw [Matrix.mul_apply, Finset.sum_eq_single (σ j) (fun l _ hl => by simp [hP, hl]) (fun h => absurd (Finset.mem_univ _) h)]
    simp only [hP, Matrix.conjTranspose_apply, Matrix.of_apply, Matrix.one_apply, if_pos, mul_one, σ.injective.eq_iff]
    by_cases hij : i = j
    · simp [hij]
    · rw [if_neg fun h => hij h.symm, if_neg hij, star_zero]
  set Sp : Fin (k + 1) → ℝ := fun j => if j = 0 then c * α else 0 with hSp
  set nw : Arr ℂ := ⟨sh, fun idx => x.at' idx / (α : ℂ)⟩ with hnw
  set B0 : FlBasis k := ⟨fun _ => 0, fun _ => ⟨sh, fun _ => 0⟩⟩ with hB0
  set rot : Fin (k + 1) → Arr ℂ := fun j => ⟨sh, fun idx => if j = 0 then nw.at' idx else 0⟩ with hrot
  set t : Trace k := ⟨fun _ => 0, x, (α : ℂ), nw, fun i j => if i = Fin.last k ∧ j = Fin.last k then (c : ℂ) * α else 0, P, P, Sp, rot⟩ with ht
  have hone : ‖colVec sh (rot 0)‖ = 1 := by
    have e : colVec sh (rot 0) = ((α : ℂ)⁻¹) • colVec sh x := by
      ext i
      simp only [hrot, hnw, colVec, if_pos, WithLp.ofLp_smul, Pi.smul_apply, smul_eq_mul]
      rw [div_eq_inv_mul]
    rw [e, norm_smul, norm_inv, Complex.norm_real, Real.norm_of_nonneg hα0.le, ← hα, inv_mul_cancel₀ hα0.ne']
  refine ⟨fun m => if m = 0 then B0 else ⟨fun j => Sp j.castSucc, fun j => rot j.castSucc⟩, fun _ => t, ⟨rfl, ?_⟩, ?_, ?_, ?_⟩
  · intro m hm
    obtain rfl : m = 0 := by omega
    have hnorm : FlInner u comms ax x x ⟨sh, fun _ => 1⟩ ((α : ℂ) ^ 2) := by
      have := inner_possible hu comms hc ax sh hax x x hx hx
      rwa [inner_self_eq_norm_sq_to_K, ← hα] at this
    refine ⟨fun j => ?_, fun idx hidx => ⟨0, ?_, ?_, ?_⟩, ⟨(α : ℂ) ^ 2, hnorm, ?_⟩, ⟨hαc, fun idx _ => ?_⟩, ?_, ?_, fun j idx hidx => ?_, fun j => ⟨rfl, rfl⟩, hx, fun j => rfl⟩
    · have := inner_possible hu comms hc ax sh hax (⟨sh, fun _ => 0⟩ : Arr ℂ) x rfl hx
      rw [show colVec sh (⟨sh, fun _ => 0⟩ : Arr ℂ) = 0 from rfl, inner_zero_left] at this
      exact this
    · have := row_possible hu (fun j : Fin k => ((B0.U j).at' idx)) t.Ux
      simpa [ht, hB0] using this
    · simpa [ht] using rounds_exact hu (x.at' idx).re
    · simpa [ht] using rounds_exact hu (x.at' idx).im
    · rw [sub_self, norm_zero]; positivity
    · show ‖x.at' idx / (α : ℂ) - x.at' idx / (α : ℂ)‖ ≤ _
      rw [sub_self, norm_zero]; positivity
    · refine ⟨2 / 9, c, Real.sqrt 3, ?_, rounds_exact hu _, ?_, fun i j => ⟨0, ?_, ?_⟩, fun i => ?_, fun j => ?_, ?_⟩
      · have := rounds_exact hu (2 / 9); norm_num; exact this
      · have := rounds_exact hu (Real.sqrt 3); norm_num; exact this
      · simpa [hB0] using rounds_exact hu 0
      · have := scaled_possible hu c 0
        rw [mul_zero] at this
        have e : t.K i.castSucc j.castSucc = 0 := by simp [ht, (Fin.castSucc_lt_last i).ne]
        rw [e, Complex.ofReal_zero]; exact this
      · have := scaled_possible hu c 0
        rw [mul_zero] at this
        have e : t.K i.castSucc (Fin.last k) = 0 := by simp [ht, (Fin.castSucc_lt_last i).ne]
        rw [e]; exact this
      · have := scaled_possible hu c 0
        rw [mul_zero] at this
        have e : t.K (Fin.last k) j.castSucc = 0 := by simp [ht, (Fin.castSucc_lt_last j).ne]
        rw [e]; exact this
      · have e : t.K (Fin.last k) (Fin.last k) = (c : ℂ) * α := by simp [ht]
        rw [e]; exact scaled_possible hu c _
    · refine ⟨hPP, ⟨P, hPP, fun i j => ?_⟩, fun i l => ?_, fun j => ?_, fun a b hab => ?_⟩
      · show ‖P i j - P i j‖ ≤ δ
        rw [sub_self, norm_zero]; exact hδ
      · have e : ∑ j, t.Up i j * t.Sp j * conj (t.V l j) = t.K i l := by
          show ∑ j, P i j * ((Sp j : ℝ) : ℂ) * conj (P l j) = if i = Fin.last k ∧ l = Fin.last k then (c : ℂ) * α else 0
          rw [Finset.sum_eq_single (0 : Fin (k + 1)) (fun j _ hj => by simp [hSp, hj]) (fun h => absurd (Finset.mem_univ _) h)]
          have : σ 0 = Fin.last k := by rw [hσ, Equiv.swap_apply_left]
          simp only [hP, hSp, Matrix.of_apply, this, if_pos]
          by_cases hi : i = Fin.last k <;> by_cases hl : l = Fin.last k <;> simp [hi, hl]
        rw [e, sub_self, norm_zero]; exact hδ
      · show 0 ≤ Sp j
        simp only [hSp]; split_ifs <;> positivity
      · show Sp b ≤ Sp a
        simp only [hSp]
        by_cases hb : b = 0
        · have : a = 0 := by rw [hb] at hab; exact Fin.le_zero_iff.1 hab
          simp [hb, this]
        · rw [if_neg hb]; split_ifs <;> positivity
    · have := row_possible hu (Fin.snoc (fun l => (B0.U l).at' idx) (nw.at' idx) : Fin (k + 1) → ℂ) (fun l => P l j)
      have e : ∑ l, (Fin.snoc (fun l => (B0.U l).at' idx) (nw.at' idx) : Fin (k + 1) → ℂ) l * P l j = (rot j).at' idx := by
        rw [Fin.sum_univ_castSucc]
        simp only [Fin.snoc_castSucc, Fin.snoc_last]
        have e1 : ∀ l : Fin k, (B0.U l).at' idx = 0 := fun l => rfl
        simp only [e1, zero_mul, Finset.sum_const_zero, zero_add]
        have e2 : (Fin.last k = σ j) ↔ j = 0 := by
          rw [hσ, eq_comm, ← Equiv.eq_symm_apply, Equiv.symm_swap, Equiv.swap_apply_right]
        simp only [hP, hrot, Matrix.of_apply, e2]
        split_ifs <;> simp
      rw [e] at this
      exact this
  · have hcol : ∀ j, ‖colVec sh (rot j)‖ ≤ 2 := by
      intro j
      by_cases hj : j = 0
      · rw [hj, hone]; norm_num
      · have e : colVec sh (rot j) = 0 := by
          ext i
          simp [hj, hrot, colVec]
        rw [e, norm_zero]; norm_num
    refine ⟨fun _ _ => hx, fun _ _ j => hcol j, fun _ _ j => ?_, fun _ _ => le_refl _⟩
    show |Sp j| ≤ ‖colVec sh x‖
    rw [← hα]
    simp only [hSp]
    split_ifs
    · rw [abs_of_nonneg (by positivity)]; nlinarith
    · rw [abs_zero]; exact hα0.le
  · intro j
    show Sp j.castSucc = _
    rw [← hα]
    simp only [hSp]
    have : j.castSucc = 0 ↔ j.1 = 0 := by rw [Fin.ext_iff]; simp
    simp only [this]
  · intro j hj
    have : j.castSucc = 0 := by rw [Fin.ext_iff]; simpa using hj
    show ‖colVec sh (rot j.castSucc)‖ = 1
    rw [this]; exact hone


/-- the size of the numbers: double precision, at most ten stored modes, divisions and square roots with relative error `10^-15` -/
theorem updateRound_size (k : Nat) (hk : k ≤ 10) : updateRound (1 / 2 ^ 53) (1 / 10 ^ 15) k ≤ 1 / 10 ^ 14 := by
  have h1 := roundBound_le (u := 1 / 2 ^ 53) (by norm_num) (k + 1) 0 (by
    have : ((2 * (k + 1) + 0 + 1 : ℕ) : ℝ) ≤ 23 := by exact_mod_cast (by omega)
    nlinarith)
  have h2 : roundBound (1 / 2 ^ 53) (k + 1) 0 ≤ 3 / 2 * (23 * (1 / 2 ^ 53)) := h1.trans (by
    have : ((2 * (k + 1) + 0 + 1 : ℕ) : ℝ) ≤ 23 := by exact_mod_cast (by omega)
    nlinarith)
  unfold updateRound
  nlinarith

/-- the theorem applies: a first update with any nonzero column, one stored mode, double precision, on two ranks -/
example (x : Arr ℂ) (hx : x.shape = [4]) (h0 : colVec [4] x ≠ 0) : ∃ (B : Nat → FlBasis 1) (t : Nat → Trace 1),
    FlBasisRun (1 / 2 ^ 53) (1 / 10 ^ 15) (1 / 10 ^ 15) (Proj.ranksOf 2) 0 [4] (fun _ => x) 1 B t ∧
    ∀ e lam, Principal 1 (fun _ => colVec [4] x) e lam → |(B 1).S 0 - Real.sqrt (lam ⟨0, by decide⟩)| ≤ basisError (1 / 2 ^ 53) (1 / 10 ^ 15) (1 / 10 ^ 15) ‖colVec [4] x‖ 1 1 t := by
  have hc : Procs (Proj.ranksOf 2) := Or.inr ⟨2, by norm_num, rfl⟩
  obtain ⟨B, t, h1, h2, -, h3⟩ := first_update_possible (u := 1 / 2 ^ 53) (v := 1 / 10 ^ 15) (δ := 1 / 10 ^ 15) (by norm_num) (by norm_num) (by norm_num) _ hc 0 [4] (by simp) 1 x hx h0
  refine ⟨B, t, h1, fun e lam hp => ?_⟩
  have hU : ∀ c : Fin 1 → ℂ, ‖∑ j, c j • colVec [4] ((B 1).U j)‖ ^ 2 = ∑ j, ‖c j‖ ^ 2 := by
    intro c
    rw [Fin.sum_univ_one, Fin.sum_univ_one, norm_smul, h3 0 rfl, mul_one]
  have := stream_values_floating (u := 1 / 2 ^ 53) (v := 1 / 10 ^ 15) (δ := 1 / 10 ^ 15) (by norm_num) (by norm_num) (by norm_num) (by norm_num) _ hc 0 [4] (by simp) 2 (by decide)
    ((roundBound_le (by norm_num) 2 2 (by norm_num)).trans (by norm_num)) 1 ((updateRound_size 1 (by norm_num)).trans (by norm_num)) (fun _ => x) 1 B t h1 _ h2 (fun _ => colVec [4] x) 0 le_rfl (fun m _ => by rw [sub_self, norm_zero]) e lam hp 0 one_pos
    (fun c => by rw [hU]; constructor <;> linarith) 0 ⟨0, by decide⟩ rfl
  rw [sub_zero, add_zero, add_zero, Real.sqrt_one, mul_one] at this
  rw [abs_le]
  constructor <;> linarith

end Verif.Props
