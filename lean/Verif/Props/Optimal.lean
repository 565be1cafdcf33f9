import Verif.Props.FitFormula
import Verif.Props.ConvFit
import Mathlib.Analysis.InnerProductSpace.Orthonormal
import Mathlib.LinearAlgebra.Matrix.Charpoly.Basic
/-
  C147, C148: SPOD modes are optimal; the saved eigenvalues are determined by the data alone.
-/
set_option linter.unusedSectionVars false
namespace Verif.Props
open Verif Verif.Par Verif.Rd Verif.Spod Verif.Fit Matrix ComplexConjugate ComplexOrder

/-! ### Sorted eigenvalues are unique -/

theorem antitone_unique {n : Nat} (f g : Fin n → ℝ) (hf : Antitone f) (hg : Antitone g)
    (h : Multiset.map f Finset.univ.val = Multiset.map g Finset.univ.val) : f = g := by
  rw [Fin.univ_val_map, Fin.univ_val_map, Multiset.coe_eq_coe] at h
  exact List.ofFn_injective (List.Perm.eq_of_sortedGE hf.sortedGE_ofFn hg.sortedGE_ofFn h)

theorem map_perm {n : Nat} {β} (f : Fin n → β) (σ : Equiv.Perm (Fin n)) :
    Multiset.map (fun i => f (σ i)) Finset.univ.val = Multiset.map f Finset.univ.val := by
  have : Multiset.map (fun i => f (σ i)) Finset.univ.val = Multiset.map f (Multiset.map σ Finset.univ.val) := by
    rw [Multiset.map_map]; rfl
  rw [this, Multiset.map_univ_val_equiv]

/-- the eigenvalues that come with a basis of eigenvectors are the roots of the characteristic polynomial -/
theorem eig_roots {nb : Nat} (M : Matrix (Fin nb) (Fin nb) ℂ) (L : Fin nb → ℂ) (V : Matrix (Fin nb) (Fin nb) ℂ)
    (h : EigPairs M L V) (hV : IsUnit V.det) : M.charpoly.roots = Multiset.map L Finset.univ.val := by
  have hMV : M * V = V * Matrix.diagonal L := by
    ext a j
    have := congrFun (h j).1 a
    simp only [mulVec, dotProduct, Pi.smul_apply, smul_eq_mul] at this
    rw [Matrix.mul_apply, Matrix.mul_diagonal, this, mul_comm]
  have h1 : M = V * (Matrix.diagonal L * V⁻¹) := by
    rw [← Matrix.mul_assoc, ← hMV, Matrix.mul_assoc, Matrix.mul_nonsing_inv _ hV, Matrix.mul_one]
  rw [h1, Matrix.charpoly_mul_comm, Matrix.mul_assoc, Matrix.nonsing_inv_mul _ hV, Matrix.mul_one, Matrix.charpoly_diagonal,
    Polynomial.roots_prod]
  · simp
  · simp [Finset.prod_ne_zero_iff, Polynomial.X_sub_C_ne_zero]

/-- two complete decompositions of matrices with the same characteristic polynomial give the same sorted eigenvalues -/
theorem sorted_eigs_unique {nb : Nat} (M M' : Matrix (Fin nb) (Fin nb) ℂ) (hM : M.charpoly = M'.charpoly) (L L' : Fin nb → ℂ)
    (V V' : Matrix (Fin nb) (Fin nb) ℂ) (h : EigPairs M L V) (h' : EigPairs M' L' V') (hV : IsUnit V.det) (hV' : IsUnit V'.det)
    (σ σ' : Equiv.Perm (Fin nb)) (hσ : ArgsortDesc (realIfClose L) σ) (hσ' : ArgsortDesc (realIfClose L') σ') :
    reorderL (realIfClose L) σ = reorderL (realIfClose L') σ' := by
  refine antitone_unique _ _ (fun i j hij => hσ i j hij) (fun i j hij => hσ' i j hij) ?_
  have e := eig_roots M L V h hV
  rw [hM, eig_roots M' L' V' h' hV'] at e
  have e2 := congrArg (Multiset.map Complex.re) e
  rw [Multiset.map_map, Multiset.map_map] at e2
  have a1 := map_perm (realIfClose L) σ
  have a2 := map_perm (realIfClose L') σ'
  exact a1.trans (e2.symm.trans a2.symm)

/-! ### The inequality of Ky Fan -/

theorem rearrange {n : Nat} (lam t : Fin n → ℝ) (hl : Antitone lam) (h0 : ∀ i, 0 ≤ lam i) (t0 : ∀ i, 0 ≤ t i) (t1 : ∀ i, t i ≤ 1)
    (K : Nat) (ht : ∑ i, t i ≤ K) : ∑ i, lam i * t i ≤ ∑ i : Fin n, if i.1 < K then lam i else 0 := by
  by_cases hn : n ≤ K
  · refine Finset.sum_le_sum fun i _ => ?_
    rw [if_pos (by omega)]
    calc lam i * t i ≤ lam i * 1 := mul_le_mul_of_nonneg_left (t1 i) (h0 i)
      _ = lam i := mul_one _
  · have hK : K < n := by omega
    set c := lam ⟨K, hK⟩ with hc
    have e1 : ∀ i : Fin n, lam i * t i ≤ (if i.1 < K then lam i - c else 0) + c * t i := by
      intro i
      by_cases hi : i.1 < K
      · rw [if_pos hi]
        have : c ≤ lam i := hl (Fin.mk_le_mk.2 hi.le : i ≤ ⟨K, hK⟩)
        nlinarith [t0 i, t1 i]
      · rw [if_neg hi]
        have : lam i ≤ c := hl (Fin.mk_le_mk.2 (not_lt.1 hi) : (⟨K, hK⟩ : Fin n) ≤ i)
        nlinarith [t0 i, t1 i]
    have e2 : ∑ i : Fin n, (if i.1 < K then lam i - c else 0) = (∑ i : Fin n, if i.1 < K then lam i else 0) - K * c := by
      have : ∀ i : Fin n, (if i.1 < K then lam i - c else 0) = (if i.1 < K then lam i else 0) - (if i.1 < K then c else 0) := by
        intro i; split <;> simp
      rw [Finset.sum_congr rfl fun i _ => this i, Finset.sum_sub_distrib]
      congr 1
      rw [← Finset.sum_filter, Finset.sum_const, nsmul_eq_mul]
      congr 2
      have : (Finset.univ.filter fun i : Fin n => i.1 < K).card = K := by
        rw [Fin.card_filter_val_lt]; omega
      exact_mod_cast this
    have h3 := Finset.sum_le_sum fun (i : Fin n) (_ : i ∈ Finset.univ) => e1 i
    rw [Finset.sum_add_distrib, e2, ← Finset.mul_sum] at h3
    have : c * ∑ i, t i ≤ c * K := mul_le_mul_of_nonneg_left ht (h0 _)
    linarith

section
variable {E : Type*} [NormedAddCommGroup E] [InnerProductSpace ℂ E]
local notation "⟪" x ", " y "⟫" => inner ℂ x y

/-- orthogonal vectors `g` with decreasing lengths: no `K` orthonormal vectors capture more than the `K` longest -/
theorem capture_le {n K : Nat} (g : Fin n → E) (hg : ∀ i j, i ≠ j → ⟪g i, g j⟫ = 0) (hd : Antitone fun i => ‖g i‖ ^ 2)
    (ψ : Fin K → E) (hψ : Orthonormal ℂ ψ) :
    ∑ i, ∑ j, ‖⟪ψ j, g i⟫‖ ^ 2 ≤ ∑ i : Fin n, if i.1 < K then ‖g i‖ ^ 2 else 0 := by
  classical
  set t : Fin n → ℝ := fun i => if ‖g i‖ = 0 then 0 else (∑ j, ‖⟪ψ j, g i⟫‖ ^ 2) / ‖g i‖ ^ 2 with ht
  have bessel : ∀ i, ∑ j, ‖⟪ψ j, g i⟫‖ ^ 2 ≤ ‖g i‖ ^ 2 := fun i => hψ.sum_inner_products_le (g i) (s := Finset.univ)
  have e0 : ∀ i, ∑ j, ‖⟪ψ j, g i⟫‖ ^ 2 = ‖g i‖ ^ 2 * t i := by
    intro i
    simp only [ht]
    by_cases h : ‖g i‖ = 0
    · rw [if_pos h, mul_zero, norm_eq_zero.1 h]
      simp
    · rw [if_neg h, mul_div_cancel₀]
      exact pow_ne_zero 2 h
  rw [Finset.sum_congr rfl fun i _ => e0 i]
  refine rearrange _ t hd (fun i => sq_nonneg _) (fun i => ?_) (fun i => ?_) K ?_
  · simp only [ht]; split
    · exact le_rfl
    · exact div_nonneg (Finset.sum_nonneg fun j _ => sq_nonneg _) (sq_nonneg _)
  · simp only [ht]; split
    · exact zero_le_one
    · rename_i h
      rw [div_le_one (by positivity)]
      exact bessel i
  · -- normalised vectors
    set s : Finset (Fin n) := Finset.univ.filter fun i => ‖g i‖ ≠ 0 with hs
    let v : s → E := fun i => ((‖g i.1‖ : ℂ)⁻¹) • g i.1
    have hv : Orthonormal ℂ v := by
      constructor
      · intro i
        have : ‖g i.1‖ ≠ 0 := (Finset.mem_filter.1 i.2).2
        simp only [v, norm_smul, norm_inv, Complex.norm_real, norm_norm]
        exact inv_mul_cancel₀ this
      · intro i j hij
        simp only [v, inner_smul_left, inner_smul_right, hg i.1 j.1 (fun h => hij (Subtype.ext h)), mul_zero]
    have hb : ∀ j, ∑ i : s, ‖⟪v i, ψ j⟫‖ ^ 2 ≤ 1 := by
      intro j
      have := hv.sum_inner_products_le (ψ j) (s := Finset.univ)
      rwa [hψ.1 j, one_pow] at this
    have hterm : ∀ (j : Fin K) (i : s), ‖⟪v i, ψ j⟫‖ ^ 2 = ‖⟪ψ j, g i.1⟫‖ ^ 2 / ‖g i.1‖ ^ 2 := by
      intro j i
      simp only [v, inner_smul_left, norm_mul, mul_pow, map_inv₀, Complex.conj_ofReal, norm_inv, Complex.norm_real, norm_norm]
      rw [norm_inner_symm, inv_pow, inv_mul_eq_div]
    have e1 : ∑ i, t i = ∑ i ∈ s, (∑ j, ‖⟪ψ j, g i⟫‖ ^ 2) / ‖g i‖ ^ 2 := by
      rw [hs, Finset.sum_filter]
      refine Finset.sum_congr rfl fun i _ => ?_
      simp only [ht]
      by_cases h : ‖g i‖ = 0 <;> simp [h]
    rw [e1, ← Finset.sum_coe_sort s]
    calc ∑ i : s, (∑ j, ‖⟪ψ j, g i.1⟫‖ ^ 2) / ‖g i.1‖ ^ 2
        = ∑ j, ∑ i : s, ‖⟪v i, ψ j⟫‖ ^ 2 := by
          rw [Finset.sum_comm]
          refine Finset.sum_congr rfl fun i _ => ?_
          rw [Finset.sum_div]
          exact Finset.sum_congr rfl fun j _ => (hterm j i).symm
      _ ≤ ∑ j : Fin K, (1 : ℝ) := Finset.sum_le_sum fun j _ => hb j
      _ = K := by simp
end

/-! ### At one frequency -/

section
variable {X : Type} [Fintype X] [DecidableEq X] {nb : Nat}

/-- the weighted inner product is the standard one of the rescaled vectors -/
noncomputable def rescale (w : X → ℝ) (φ : X → ℂ) : EuclideanSpace ℂ X := WithLp.toLp 2 fun x => ((Real.sqrt (w x) : ℝ) : ℂ) * φ x

theorem inner_rescale (w : X → ℝ) (hw : ∀ x, 0 ≤ w x) (φ ψ : X → ℂ) :
    inner ℂ (rescale w φ) (rescale w ψ) = inner_W w φ ψ := by
  simp only [PiLp.inner_apply, rescale, inner_W, RCLike.inner_apply, map_mul, Complex.conj_ofReal]
  refine Finset.sum_congr rfl fun x _ => ?_
  have : ((Real.sqrt (w x) : ℝ) : ℂ) * ((Real.sqrt (w x) : ℝ) : ℂ) = (w x : ℂ) := by
    rw [← Complex.ofReal_mul, Real.mul_self_sqrt (hw x)]
  rw [← this]; ring

theorem rescale_sq (w : X → ℝ) (hw : ∀ x, 0 ≤ w x) (φ : X → ℂ) : ((‖rescale w φ‖ ^ 2 : ℝ) : ℂ) = inner_W w φ φ := by
  rw [← inner_rescale w hw, inner_self_eq_norm_sq_to_K]; push_cast; rfl

/-- energy captured by the vectors `ψ`, averaged over the realizations -/
noncomputable def captured {K : Nat} (w : X → ℝ) (Q : Matrix X (Fin nb) ℂ) (ψ : Fin K → X → ℂ) : ℝ :=
  (∑ b, ∑ j, ‖inner_W w (ψ j) (fun x => Q x b)‖ ^ 2) / nb

/-- `ψ` are orthonormal in the weighted inner product -/
def OrthonormalW {K : Nat} (w : X → ℝ) (ψ : Fin K → X → ℂ) : Prop := ∀ i j, inner_W w (ψ i) (ψ j) = if i = j then 1 else 0

theorem spod_optimal_freq (Q : Matrix X (Fin nb) ℂ) (w : X → ℝ) (hw : ∀ x, 0 ≤ w x) (hnb : 0 < nb) (L0 : Fin nb → ℂ)
    (V0 : Matrix (Fin nb) (Fin nb) ℂ) (h : EigPairs (crossSpectral Q w) L0 V0) (hV : IsUnit V0.det) (σ : Equiv.Perm (Fin nb))
    (hσ : ArgsortDesc (realIfClose L0) σ) (K : Nat) (ψ : Fin K → X → ℂ) (hψ : OrthonormalW w ψ) :
    captured w Q ψ ≤ ∑ k : Fin nb, if k.1 < K then reorderL (realIfClose L0) σ k else 0 := by
  classical
  have hnp : (0 : ℝ) < nb := by exact_mod_cast hnb
  -- an orthonormal decomposition of the same matrix
  have hM : (crossSpectral Q w).IsHermitian := (crossSpectral_posSemidef Q w hw).1
  set μ := hM.eigenvalues with hμ
  set u : Fin nb → Fin nb → ℂ := fun i b => hM.eigenvectorBasis i b with hu
  set π : Equiv.Perm (Fin nb) := Tuple.sort fun i => - μ i with hπ
  have hanti : Antitone fun i => μ (π i) := by
    intro i j hij
    have := Tuple.monotone_sort (fun i => - μ i) hij
    simpa using this
  have heq : reorderL (realIfClose L0) σ = fun i => μ (π i) := by
    refine antitone_unique _ _ (fun i j hij => hσ i j hij) hanti ?_
    have e := eig_roots _ L0 V0 h hV
    rw [hM.roots_charpoly_eq_eigenvalues] at e
    have e2 := congrArg (Multiset.map Complex.re) e
    rw [Multiset.map_map, Multiset.map_map] at e2
    have a1 := map_perm (realIfClose L0) σ
    have a2 := map_perm μ π
    refine a1.trans (Eq.trans ?_ a2.symm)
    exact e2.symm.trans (Multiset.map_congr rfl fun i _ => rfl)
  have heig : ∀ i, crossSpectral Q w *ᵥ u i = (μ i : ℂ) • u i := by
    intro i
    have := hM.mulVec_eigenvectorBasis i
    funext b
    exact (congrFun this b).trans (by simp only [Pi.smul_apply, smul_eq_mul, hu]; exact Complex.real_smul)
  have horth : ∀ i j, star (u i) ⬝ᵥ u j = if i = j then 1 else 0 := by
    intro i j
    have := orthonormal_iff_ite.1 hM.eigenvectorBasis.orthonormal i j
    rw [EuclideanSpace.inner_eq_star_dotProduct, dotProduct_comm] at this
    exact this
  -- the combinations of realizations
  set g : Fin nb → EuclideanSpace ℂ X := fun i => rescale w (Q *ᵥ u (π i)) with hgd
  have hgg : ∀ i j, inner ℂ (g i) (g j) = if i = j then ((nb * μ (π j) : ℝ) : ℂ) else 0 := by
    intro i j
    rw [hgd]
    simp only
    rw [inner_rescale w hw, inner_W_mulVec Q w hnb, heig, dotProduct_smul, horth]
    by_cases hij : i = j
    · subst hij; simp
    · simp [hij]
  have hgn : ∀ i, ‖g i‖ ^ 2 = nb * μ (π i) := by
    intro i
    have := hgg i i
    rw [if_pos rfl, inner_self_eq_norm_sq_to_K] at this
    apply Complex.ofReal_injective
    refine Eq.trans ?_ this
    push_cast; rfl
  have hψ' : Orthonormal ℂ fun j => rescale w (ψ j) := by
    rw [orthonormal_iff_ite]
    intro i j
    rw [inner_rescale w hw]
    exact hψ i j
  have key := capture_le g (fun i j hij => by rw [hgg, if_neg hij])
    (by
      intro i j hij
      simp only [hgn]
      exact mul_le_mul_of_nonneg_left (hanti hij) hnp.le) _ hψ'
  -- Parseval in the space of realizations
  have hpars : ∀ j, ∑ b, ‖inner_W w (ψ j) (fun x => Q x b)‖ ^ 2 = ∑ i, ‖inner ℂ (rescale w (ψ j)) (g i)‖ ^ 2 := by
    intro j
    set z : EuclideanSpace ℂ (Fin nb) := WithLp.toLp 2 fun b => conj (inner_W w (ψ j) (fun x => Q x b)) with hz
    have h1 : ∑ b, ‖inner_W w (ψ j) (fun x => Q x b)‖ ^ 2 = ‖z‖ ^ 2 := by
      rw [EuclideanSpace.norm_sq_eq]
      exact Finset.sum_congr rfl fun b _ => by rw [hz]; simp
    have h2 : ∀ i, ‖inner ℂ (rescale w (ψ j)) (g i)‖ ^ 2 = ‖inner ℂ (hM.eigenvectorBasis (π i)) z‖ ^ 2 := by
      intro i
      congr 1
      rw [hgd]
      simp only
      rw [inner_rescale w hw, norm_inner_symm]
      congr 1
      rw [EuclideanSpace.inner_eq_star_dotProduct]
      simp only [inner_W, mulVec, dotProduct, hz, Finset.mul_sum]
      rw [Finset.sum_comm]
      refine Finset.sum_congr rfl fun b _ => ?_
      simp only [Pi.star_apply, ← starRingEnd_apply, map_sum, map_mul, Complex.conj_conj, Complex.conj_ofReal, hu, Finset.mul_sum]
      exact Finset.sum_congr rfl fun x _ => by ring
    rw [h1, Finset.sum_congr rfl fun i _ => h2 i, Equiv.sum_comp π fun i => ‖inner ℂ (hM.eigenvectorBasis i) z‖ ^ 2]
    exact (hM.eigenvectorBasis.sum_sq_norm_inner_right z).symm
  have hcap : captured w Q ψ = (∑ i, ∑ j, ‖inner ℂ (rescale w (ψ j)) (g i)‖ ^ 2) / nb := by
    rw [captured, Finset.sum_comm, Finset.sum_congr rfl fun j _ => hpars j, Finset.sum_comm]
  rw [hcap, div_le_iff₀ hnp, heq]
  refine key.trans (le_of_eq ?_)
  rw [Finset.sum_mul]
  refine Finset.sum_congr rfl fun i _ => ?_
  split
  · rw [hgn]; ring
  · simp

/-- a simple eigenvalue determines its unit eigenvector up to a phase -/
theorem eig_phase (M : Matrix (Fin nb) (Fin nb) ℂ) (L L' : Fin nb → ℂ) (V V' : Matrix (Fin nb) (Fin nb) ℂ) (h : EigPairs M L V)
    (h' : EigPairs M L' V') (hV : IsUnit V.det) (a a' : Fin nb) (ha : L' a' = L a) (hs : ∀ j, j ≠ a → L j ≠ L a) :
    ∃ z : ℂ, ‖z‖ = 1 ∧ ∀ b, V' b a' = z * V b a := by
  set c : Fin nb → ℂ := V⁻¹ *ᵥ (fun i => V' i a') with hc
  have hVc : V *ᵥ c = fun i => V' i a' := by
    rw [hc, Matrix.mulVec_mulVec, Matrix.mul_nonsing_inv _ hV, Matrix.one_mulVec]
  have hMV : M * V = V * Matrix.diagonal L := by
    ext a j
    have := congrFun (h j).1 a
    simp only [mulVec, dotProduct, Pi.smul_apply, smul_eq_mul] at this
    rw [Matrix.mul_apply, Matrix.mul_diagonal, this, mul_comm]
  have e1 : V *ᵥ (Matrix.diagonal L *ᵥ c) = V *ᵥ (L a • c) := by
    rw [Matrix.mulVec_mulVec, ← hMV, ← Matrix.mulVec_mulVec, hVc, (h' a').1, ha, Matrix.mulVec_smul, hVc]
  have e2 : Matrix.diagonal L *ᵥ c = L a • c := by
    have := congrArg (fun v => V⁻¹ *ᵥ v) e1
    simpa [Matrix.mulVec_mulVec, ← Matrix.mul_assoc, Matrix.nonsing_inv_mul _ hV] using this
  have hc0 : ∀ j, j ≠ a → c j = 0 := by
    intro j hj
    have := congrFun e2 j
    rw [Matrix.mulVec_diagonal, Pi.smul_apply, smul_eq_mul] at this
    have : (L j - L a) * c j = 0 := by rw [sub_mul, this, sub_self]
    rcases mul_eq_zero.1 this with h0 | h0
    · exact absurd (sub_eq_zero.1 h0) (hs j hj)
    · exact h0
  have hz : ∀ b, V' b a' = c a * V b a := by
    intro b
    have := congrFun hVc b
    simp only [mulVec, dotProduct] at this
    rw [← this, Finset.sum_eq_single a (fun j _ hj => by rw [hc0 j hj, mul_zero]) (fun h => absurd (Finset.mem_univ a) h), mul_comm]
  refine ⟨c a, ?_, hz⟩
  have h1 := (h a).2
  have h2 := (h' a').2
  simp only [hz, map_mul] at h2
  have h3 : (conj (c a) * c a) * ∑ i, conj (V i a) * V i a = 1 := by
    rw [← h2, Finset.mul_sum]
    exact Finset.sum_congr rfl fun i _ => by ring
  rw [h1, mul_one, Complex.conj_mul'] at h3
  have h4 : ‖c a‖ ^ 2 = 1 := by exact_mod_cast h3
  exact (pow_eq_one_iff_of_nonneg (norm_nonneg _) two_ne_zero).1 h4

theorem spodFreq_phase (Q : Matrix X (Fin nb) ℂ) (L L' : Fin nb → ℂ) (V V' : Matrix (Fin nb) (Fin nb) ℂ) (σ σ' : Equiv.Perm (Fin nb))
    (fac : Nat) (k : Fin nb) (hL : reorderL (realIfClose L) σ k = reorderL (realIfClose L') σ' k) (z : ℂ)
    (hz : ∀ b, V' b (σ' k) = z * V b (σ k)) (x : X) :
    (spodFreq Q L' V' σ' fac).2 x k = z * (spodFreq Q L V σ fac).2 x k := by
  simp only [spodFreq, phiAll, Matrix.mul_apply, Matrix.of_apply, reorderV, hL, hz, Finset.mul_sum]
  exact Finset.sum_congr rfl fun b _ => by ring
end

/-! ### The whole fit -/

/-- Contract of `la.eig` and `np.argsort(..)[::-1]` (standard.py:210-221): a basis of unit eigenvectors with their eigenvalues, sorted by
    decreasing eigenvalue. -/
def SolverFull {nb : Nat} (solver : Solver nb) : Prop :=
  ∀ M : Matrix (Fin nb) (Fin nb) ℂ, M.IsHermitian →
    EigPairs M (solver M).1 (solver M).2.1 ∧ IsUnit (solver M).2.1.det ∧ ArgsortDesc (realIfClose (solver M).1) (solver M).2.2

theorem SolverFull.ok {nb : Nat} {solver : Solver nb} (h : SolverFull solver) : SolverOk solver := fun M hM => ⟨(h M hM).1, (h M hM).2.2⟩

theorem solver_full_exists (nb : Nat) : ∃ solver : Solver nb, SolverFull solver := by
  classical
  have key : ∀ M : Matrix (Fin nb) (Fin nb) ℂ, ∃ r : (Fin nb → ℂ) × Matrix (Fin nb) (Fin nb) ℂ × Equiv.Perm (Fin nb),
      M.IsHermitian → EigPairs M r.1 r.2.1 ∧ IsUnit r.2.1.det ∧ ArgsortDesc (realIfClose r.1) r.2.2 := by
    intro M
    by_cases hM : M.IsHermitian
    · have horth : ∀ i j, ∑ b, conj (hM.eigenvectorBasis i b) * hM.eigenvectorBasis j b = if i = j then 1 else 0 := by
        intro i j
        have := orthonormal_iff_ite.1 hM.eigenvectorBasis.orthonormal i j
        rw [EuclideanSpace.inner_eq_star_dotProduct, dotProduct_comm] at this
        exact this
      refine ⟨(fun j => (hM.eigenvalues j : ℂ), Matrix.of fun i j => hM.eigenvectorBasis j i,
        Tuple.sort fun i => - hM.eigenvalues i), fun _ => ⟨fun j => ⟨?_, ?_⟩, ?_, fun i j hij => ?_⟩⟩
      · have := hM.mulVec_eigenvectorBasis j
        funext i
        exact (congrFun this i).trans (by simp only [Pi.smul_apply, smul_eq_mul, Matrix.of_apply]; exact Complex.real_smul)
      · simpa using horth j j
      · refine Matrix.isUnit_det_of_left_inverse (B := (Matrix.of fun i j => hM.eigenvectorBasis j i)ᴴ) ?_
        ext i j
        rw [Matrix.mul_apply, Matrix.one_apply]
        simp only [Matrix.conjTranspose_apply, ← starRingEnd_apply, Matrix.of_apply]
        exact horth i j
      · have := Tuple.monotone_sort (fun i => - hM.eigenvalues i) hij
        simp only [Function.comp_apply, neg_le_neg_iff] at this
        simpa [realIfClose] using this
    · exact ⟨(fun _ => 0, 0, 1), fun h => absurd h hM⟩
  choose g hg using key
  exact ⟨g, hg⟩

/-- entry of the file of the modes, as a function of the row -/
theorem file_column (F : NpyFile ℂ) (sh : List Nat) (k : Nat) (φ : Fin (size sh) → ℂ)
    (h : ∀ x, InRange sh x → ∃ row : Fin (size sh), unravel sh row = x ∧ fileEntry F (x ++ [k]) = some (φ row)) (row : Fin (size sh)) :
    fileEntry F (unravel sh row ++ [k]) = some (φ row) := by
  obtain ⟨row', hr, h⟩ := h _ (inRange_unravel row.2)
  have : row' = row := by
    apply Fin.ext
    have := congrArg (ravel sh) hr
    rwa [ravel_unravel row'.2, ravel_unravel row.2] at this
  rw [h, this]

theorem fac_pos (isreal : Bool) (nf f : Nat) : 0 < oneSidedFactor isreal nf f := by
  unfold oneSidedFactor; split <;> omega

/-- **C147.** At every stored frequency, for all data, weights that are not negative, numbers of ranks and libraries: no `K` fields that are
    orthonormal in the weighted inner product capture more of the energy of the Fourier realizations than the sum of the first `K`
    eigenvalues, and the first `K` saved modes capture exactly that much; they have unit norm and those of different eigenvalues are
    orthogonal. -/
theorem spod_optimal (c : Cfg) (ω : ℂ) (files : List (List (Arr ℝ))) (w : Arr ℝ)
    (hsh : ∀ a ∈ files.flatten, a.shape = w.shape) (hw : w.shape ≠ []) (m : MeanType)
    (hm : parseMean c.meanType = .ok m)
    (hfeas : feasible c.nDft (nBlocks files.flatten.length c.nDft c.nOvlp) = .ok ())
    (hov : c.nOvlp ≤ (c.nDft : Int) - 1) (hwin : c.win.length = c.nDft)
    (hpos : ∀ x, InRange w.shape x → 0 ≤ w.at' x)
    (solver : Solver (fitNb c files.flatten.length)) (hsolver : SolverFull solver) (hone1 : size w.shape ≠ 1)
    (p : Nat) (hp : 0 < p) (hone : NoSingleton w p)
    (s : (β : Type) → List (Write β) → List (Write β)) (hs : ∀ β l, (s β l).Perm l) :
    ∃ out, fitParallel c ω files w solver p s = some out ∧ fitSerial c ω files w solver = some out ∧
      ∀ f < nFreq c.nDft c.isreal c.full,
        let Q := specQ c m ω files.flatten w.shape (fitNb c files.flatten.length) f
        let fac : ℝ := oneSidedFactor c.isreal (nFreq c.nDft c.isreal c.full) f
        (∀ (K : Nat) (ψ : Fin K → Fin (size w.shape) → ℂ), OrthonormalW (specW w) ψ →
          fac * captured (specW w) Q ψ ≤ ∑ k : Fin (fitNb c files.flatten.length), if k.1 < K then out.eigs f k else 0) ∧
        ∀ K : Nat, K ≤ c.nSave → ∀ hK : K ≤ fitNb c files.flatten.length, (∀ k : Fin K, 0 < out.eigs f (Fin.castLE hK k)) →
          ∃ φ : Fin K → Fin (size w.shape) → ℂ,
            (∀ (k : Fin K) (row : Fin (size w.shape)), fileEntry (out.modes f) (unravel w.shape row ++ [k.1]) = some (φ k row)) ∧
            fac * captured (specW w) Q φ = ∑ k : Fin (fitNb c files.flatten.length), (if k.1 < K then out.eigs f k else 0) ∧
            (∀ i, inner_W (specW w) (φ i) (φ i) = 1) ∧
            ∀ i j, out.eigs f (Fin.castLE hK i) ≠ out.eigs f (Fin.castLE hK j) → inner_W (specW w) (φ i) (φ j) = 0 := by
  obtain ⟨out, h1, h2, h3, -, -⟩ :=
    fit_formula c ω files w hsh hw m hm hfeas hov hwin solver hone1 p hp hone s hs
  refine ⟨out, h2, h1, fun f hf => ?_⟩
  have hnb : 0 < fitNb c files.flatten.length := by have := feasible_nb c _ hfeas; omega
  obtain ⟨e1, -, e2⟩ := h3 f hf
  generalize specQ c m ω files.flatten w.shape (fitNb c files.flatten.length) f = Q at *
  have hfp := fac_pos c.isreal (nFreq c.nDft c.isreal c.full) f
  generalize oneSidedFactor c.isreal (nFreq c.nDft c.isreal c.full) f = fac at *
  have hfr : (0 : ℝ) < fac := by exact_mod_cast hfp
  have hW : ∀ x, 0 ≤ specW w x := fun x => hpos _ (inRange_unravel x.2)
  have hH : (crossSpectral Q (specW w)).IsHermitian := (crossSpectral_posSemidef Q (specW w) hW).1
  obtain ⟨a1, a2, a3⟩ := hsolver _ hH
  generalize solver (crossSpectral Q (specW w)) = r at *
  have hnn : ∀ k, 0 ≤ reorderL (realIfClose r.1) r.2.2 k := fun k => (eigenvalues_real_nonneg Q (specW w) hW r.1 r.2.1 a1 _).2.1
  have he : ∀ k, out.eigs f k = fac * reorderL (realIfClose r.1) r.2.2 k := by
    intro k
    rw [e1]
    simp only [spodFreq, eigsOut]
    exact abs_of_nonneg (mul_nonneg hfr.le (hnn k))
  refine ⟨fun K ψ hψ => ?_, fun K hKs hK hKp => ?_⟩
  · have := spod_optimal_freq Q (specW w) hW hnb r.1 r.2.1 a1 a2 r.2.2 a3 K ψ hψ
    calc (fac : ℝ) * captured (specW w) Q ψ ≤ fac * _ := mul_le_mul_of_nonneg_left this hfr.le
      _ = _ := by
        rw [Finset.mul_sum]
        exact Finset.sum_congr rfl fun k _ => by rw [mul_ite, mul_zero, he]
  · have hp' : ∀ k : Fin K, 0 < reorderL (realIfClose r.1) r.2.2 (Fin.castLE hK k) := fun k => by
      have := hKp k
      rw [he] at this
      exact pos_of_mul_pos_right this hfr.le
    refine ⟨fun k row => (spodFreq Q r.1 r.2.1 r.2.2 fac).2 row (Fin.castLE hK k), fun k row => ?_, ?_, fun i => ?_, fun i j hij => ?_⟩
    · exact file_column _ _ _ (fun row => (spodFreq Q r.1 r.2.1 r.2.2 fac).2 row (Fin.castLE hK k))
        (fun x hx => e2 x hx (Fin.castLE hK k) (lt_of_lt_of_le k.2 hKs)) row
    · have hmode : ∀ k : Fin K, (∑ b, ‖inner_W (specW w) (fun x => (spodFreq Q r.1 r.2.1 r.2.2 fac).2 x (Fin.castLE hK k))
          (fun x => Q x b)‖ ^ 2) / (fitNb c files.flatten.length : ℝ) = reorderL (realIfClose r.1) r.2.2 (Fin.castLE hK k) := fun k =>
        mode_block_energy Q (specW w) hW hnb r.1 r.2.1 a1 r.2.2 (Fin.castLE hK k) (hp' k) fac
      rw [captured, Finset.sum_comm, Finset.sum_div, Finset.sum_congr rfl fun k _ => hmode k, Finset.mul_sum,
        Finset.sum_congr rfl fun k _ => (he (Fin.castLE hK k)).symm]
      rw [← Finset.sum_filter]
      refine Finset.sum_bij (fun k _ => Fin.castLE hK k) (fun k _ => ?_) (fun a _ b _ hab => ?_) (fun b hb => ?_) (fun k _ => rfl)
      · simp
      · exact Fin.ext (by simpa using congrArg Fin.val hab)
      · exact ⟨⟨b.1, (Finset.mem_filter.1 hb).2⟩, Finset.mem_univ _, Fin.ext rfl⟩
    · exact modes_unit_norm Q (specW w) hW hnb r.1 r.2.1 a1 r.2.2 fac _ (hp' i)
    · rw [modes_inner Q (specW w) hW hnb r.1 r.2.1 a1 r.2.2 fac _ _ (hp' i) (hp' j),
        eig_orthogonal Q (specW w) hW r.1 r.2.1 a1 _ _ (fun h => hij ?_), mul_zero]
      rw [he, he]
      simp only [reorderL, realIfClose, h]

/-- **C148.** Two fits of the same data, with any two correct linear algebra libraries, any numbers of ranks and any orders of writing, save the
    same eigenvalues, and at every eigenvalue that is positive and simple the same mode up to a factor of modulus one. -/
theorem fit_library_independent (c : Cfg) (ω : ℂ) (files : List (List (Arr ℝ))) (w : Arr ℝ)
    (hsh : ∀ a ∈ files.flatten, a.shape = w.shape) (hw : w.shape ≠ []) (m : MeanType)
    (hm : parseMean c.meanType = .ok m)
    (hfeas : feasible c.nDft (nBlocks files.flatten.length c.nDft c.nOvlp) = .ok ())
    (hov : c.nOvlp ≤ (c.nDft : Int) - 1) (hwin : c.win.length = c.nDft)
    (hpos : ∀ x, InRange w.shape x → 0 ≤ w.at' x)
    (solver solver' : Solver (fitNb c files.flatten.length)) (hsolver : SolverFull solver) (hsolver' : SolverFull solver')
    (hone1 : size w.shape ≠ 1) (p p' : Nat) (hp : 0 < p) (hp' : 0 < p') (hone : NoSingleton w p) (hone' : NoSingleton w p')
    (s s' : (β : Type) → List (Write β) → List (Write β)) (hs : ∀ β l, (s β l).Perm l) (hs' : ∀ β l, (s' β l).Perm l) :
    ∃ out out', fitParallel c ω files w solver p s = some out ∧ fitParallel c ω files w solver' p' s' = some out' ∧
      fitSerial c ω files w solver = some out ∧ fitSerial c ω files w solver' = some out' ∧
      ∀ f < nFreq c.nDft c.isreal c.full, out'.eigs f = out.eigs f ∧
        ∀ k : Fin (fitNb c files.flatten.length), k.1 < c.nSave → (∀ j, j ≠ k → out.eigs f j ≠ out.eigs f k) →
          ∃ z : ℂ, ‖z‖ = 1 ∧ ∀ x, InRange w.shape x → ∃ v, fileEntry (out.modes f) (x ++ [k.1]) = some v ∧
            fileEntry (out'.modes f) (x ++ [k.1]) = some (z * v) := by
  obtain ⟨out, h1, h2, h3, -, -⟩ :=
    fit_formula c ω files w hsh hw m hm hfeas hov hwin solver hone1 p hp hone s hs
  obtain ⟨out', h1', h2', h3', -, -⟩ :=
    fit_formula c ω files w hsh hw m hm hfeas hov hwin solver' hone1 p' hp' hone' s' hs'
  refine ⟨out, out', h2, h2', h1, h1', fun f hf => ?_⟩
  obtain ⟨e1, -, e2⟩ := h3 f hf
  obtain ⟨e1', -, e2'⟩ := h3' f hf
  generalize specQ c m ω files.flatten w.shape (fitNb c files.flatten.length) f = Q at *
  have hfp := fac_pos c.isreal (nFreq c.nDft c.isreal c.full) f
  generalize oneSidedFactor c.isreal (nFreq c.nDft c.isreal c.full) f = fac at *
  have hW : ∀ x, 0 ≤ specW w x := fun x => hpos _ (inRange_unravel x.2)
  have hH : (crossSpectral Q (specW w)).IsHermitian := (crossSpectral_posSemidef Q (specW w) hW).1
  obtain ⟨a1, a2, a3⟩ := hsolver _ hH
  obtain ⟨a1', a2', a3'⟩ := hsolver' _ hH
  generalize solver (crossSpectral Q (specW w)) = r at *
  generalize solver' (crossSpectral Q (specW w)) = r' at *
  have hL : reorderL (realIfClose r.1) r.2.2 = reorderL (realIfClose r'.1) r'.2.2 :=
    sorted_eigs_unique _ _ rfl r.1 r'.1 r.2.1 r'.2.1 a1 a1' a2 a2' r.2.2 r'.2.2 a3 a3'
  refine ⟨by rw [e1, e1']; simp only [spodFreq, hL], fun k hk hsimple => ?_⟩
  have real := eigenvalues_real_nonneg Q (specW w) hW r.1 r.2.1 a1
  have real' := eigenvalues_real_nonneg Q (specW w) hW r'.1 r'.2.1 a1'
  obtain ⟨z, hz, hzv⟩ := eig_phase _ r.1 r'.1 r.2.1 r'.2.1 a1 a1' a2 (r.2.2 k) (r'.2.2 k)
    (by
      have := congrFun hL k
      simp only [reorderL] at this
      rw [(real' _).2.2, (real _).2.2]
      exact congrArg _ this.symm)
    (by
      intro j hj hLj
      refine hsimple (r.2.2.symm j) (fun h => hj (by rw [← h, Equiv.apply_symm_apply])) ?_
      rw [e1]
      simp only [spodFreq, eigsOut, reorderL, realIfClose, Equiv.apply_symm_apply, hLj])
  refine ⟨z, hz, fun x hx => ?_⟩
  obtain ⟨row, hr, hv⟩ := e2 x hx k hk
  obtain ⟨row', hr', hv'⟩ := e2' x hx k hk
  have : row' = row := by
    apply Fin.ext
    have := congrArg (ravel w.shape) (hr'.trans hr.symm)
    rwa [ravel_unravel row'.2, ravel_unravel row.2] at this
  subst this
  exact ⟨_, hv, by rw [hv', spodFreq_phase Q r.1 r'.1 r.2.1 r'.2.1 r.2.2 r'.2.2 fac k (congrFun hL k) z hzv row']⟩

end Verif.Props
