import Verif.Props.Patterns
import Verif.Props.Finite
/-
  C195-C198: how eigenvalues answer to errors in the data, to larger weights, to a smaller domain and to longer records.
-/
set_option linter.unusedSectionVars false
namespace Verif.Props
open Verif Verif.Par Verif.Rd Verif.Spod Verif.Fit Matrix ComplexConjugate ComplexOrder

section
variable {X : Type} [Fintype X] [DecidableEq X] {nb : Nat}

/-- the quadratic form of a Hermitian matrix in an orthonormal basis that belongs to its sorted eigenvalues -/
theorem sorted_basis (M : Matrix (Fin nb) (Fin nb) ℂ) (hM : M.IsHermitian) (L : Fin nb → ℂ) (V : Matrix (Fin nb) (Fin nb) ℂ)
    (σ : Equiv.Perm (Fin nb)) (h : EigPairs M L V) (hV : IsUnit V.det) (hσ : ArgsortDesc (realIfClose L) σ) :
    ∃ u : OrthonormalBasis (Fin nb) ℂ (EuclideanSpace ℂ (Fin nb)), ∀ v : EuclideanSpace ℂ (Fin nb),
      star v.ofLp ⬝ᵥ (M *ᵥ v.ofLp) = ((∑ k, reorderL (realIfClose L) σ k * ‖inner ℂ (u k) v‖ ^ 2 : ℝ) : ℂ) := by
  classical
  set μ := hM.eigenvalues with hμ
  set π : Equiv.Perm (Fin nb) := Tuple.sort fun i => - μ i with hπ
  have hanti : Antitone fun i => μ (π i) := by
    intro i j hij
    have := Tuple.monotone_sort (fun i => - μ i) hij
    simpa using this
  have heq : reorderL (realIfClose L) σ = fun i => μ (π i) := by
    refine antitone_unique _ _ (fun i j hij => hσ i j hij) hanti ?_
    have e := eig_roots _ L V h hV
    rw [hM.roots_charpoly_eq_eigenvalues] at e
    have e2 := congrArg (Multiset.map Complex.re) e
    rw [Multiset.map_map, Multiset.map_map] at e2
    have a1 := map_perm (realIfClose L) σ
    have a2 := map_perm μ π
    exact a1.trans (e2.symm.trans a2.symm)
  refine ⟨hM.eigenvectorBasis.reindex π.symm, fun v => ?_⟩
  have e1 : star v.ofLp ⬝ᵥ (M *ᵥ v.ofLp) = inner ℂ v (WithLp.toLp 2 (M *ᵥ v.ofLp)) := by
    rw [EuclideanSpace.inner_eq_star_dotProduct, dotProduct_comm]
  have e2 : ∀ k, inner ℂ (hM.eigenvectorBasis k) (WithLp.toLp 2 (M *ᵥ v.ofLp)) = (μ k : ℂ) * inner ℂ (hM.eigenvectorBasis k) v := by
    intro k
    have h1 : star (hM.eigenvectorBasis k).ofLp ⬝ᵥ (M *ᵥ v.ofLp) = star (M *ᵥ (hM.eigenvectorBasis k).ofLp) ⬝ᵥ v.ofLp := by
      rw [Matrix.star_mulVec, hM.eq, Matrix.dotProduct_mulVec]
    rw [EuclideanSpace.inner_eq_star_dotProduct, dotProduct_comm]
    show star (hM.eigenvectorBasis k).ofLp ⬝ᵥ (M *ᵥ v.ofLp) = _
    rw [h1, hM.mulVec_eigenvectorBasis k, EuclideanSpace.inner_eq_star_dotProduct, dotProduct_comm v.ofLp]
    simp only [star_smul, smul_dotProduct]
    rw [star_trivial, Complex.real_smul]
  rw [e1, ← OrthonormalBasis.sum_inner_mul_inner hM.eigenvectorBasis, Complex.ofReal_sum, ← Equiv.sum_comp π]
  refine Finset.sum_congr rfl fun k _ => ?_
  rw [e2, heq, OrthonormalBasis.reindex_apply, Equiv.symm_symm, ← inner_conj_symm v, Complex.ofReal_mul, Complex.ofReal_pow]
  rw [mul_left_comm, Complex.conj_mul']

/-- fewer than `n` linear conditions leave a nonzero vector -/
theorem common_zero {n : Nat} {ι : Type} [Fintype ι] (hι : Fintype.card ι < n) (g : ι → EuclideanSpace ℂ (Fin n)) :
    ∃ v : EuclideanSpace ℂ (Fin n), ‖v‖ = 1 ∧ ∀ i, inner ℂ (g i) v = 0 := by
  let T : EuclideanSpace ℂ (Fin n) →ₗ[ℂ] (ι → ℂ) := LinearMap.pi fun i => (innerSL ℂ (g i)).toLinearMap
  have hk : LinearMap.ker T ≠ ⊥ := LinearMap.ker_ne_bot_of_finrank_lt (by simpa using hι)
  obtain ⟨v, hv, h0⟩ := (Submodule.ne_bot_iff _).1 hk
  refine ⟨((‖v‖ : ℂ)⁻¹) • v, ?_, fun i => ?_⟩
  · rw [norm_smul, norm_inv, Complex.norm_real, norm_norm]
    exact inv_mul_cancel₀ (norm_ne_zero_iff.2 h0)
  · have := congrFun (LinearMap.mem_ker.1 hv) i
    rw [inner_smul_right]
    have e : inner ℂ (g i) v = 0 := this
    rw [e, mul_zero]

/-- a weighted mean of decreasing numbers over the indices from `i` on is at most the `i`-th -/
theorem tail_mean_le {n : Nat} (u : OrthonormalBasis (Fin n) ℂ (EuclideanSpace ℂ (Fin n))) (lam : Fin n → ℝ) (hl : Antitone lam) (i : Fin n)
    (v : EuclideanSpace ℂ (Fin n)) (hv : ‖v‖ = 1) (h : ∀ a, a < i → inner ℂ (u a) v = 0) :
    ∑ k, lam k * ‖inner ℂ (u k) v‖ ^ 2 ≤ lam i := by
  have e : ∑ k, ‖inner ℂ (u k) v‖ ^ 2 = 1 := by rw [u.sum_sq_norm_inner_right, hv, one_pow]
  calc ∑ k, lam k * ‖inner ℂ (u k) v‖ ^ 2 ≤ ∑ k, lam i * ‖inner ℂ (u k) v‖ ^ 2 := by
        refine Finset.sum_le_sum fun k _ => ?_
        rcases lt_or_ge k i with hk | hk
        · rw [h k hk]; simp
        · exact mul_le_mul_of_nonneg_right (hl hk) (sq_nonneg _)
    _ = lam i := by rw [← Finset.mul_sum, e, mul_one]

theorem head_mean_ge {n : Nat} (u : OrthonormalBasis (Fin n) ℂ (EuclideanSpace ℂ (Fin n))) (lam : Fin n → ℝ) (hl : Antitone lam) (i : Fin n)
    (v : EuclideanSpace ℂ (Fin n)) (hv : ‖v‖ = 1) (h : ∀ a, i < a → inner ℂ (u a) v = 0) :
    lam i ≤ ∑ k, lam k * ‖inner ℂ (u k) v‖ ^ 2 := by
  have e : ∑ k, ‖inner ℂ (u k) v‖ ^ 2 = 1 := by rw [u.sum_sq_norm_inner_right, hv, one_pow]
  calc lam i = ∑ k, lam i * ‖inner ℂ (u k) v‖ ^ 2 := by rw [← Finset.mul_sum, e, mul_one]
    _ ≤ ∑ k, lam k * ‖inner ℂ (u k) v‖ ^ 2 := by
        refine Finset.sum_le_sum fun k _ => ?_
        rcases le_or_gt k i with hk | hk
        · exact mul_le_mul_of_nonneg_right (hl hk) (sq_nonneg _)
        · rw [h k hk]; simp

/-- three orthonormal bases: a unit vector in the span of the first `i + j + 1` of one, orthogonal to the first `i` and `j` of the others -/
theorem common_vector {n : Nat} (u u₁ u₂ : OrthonormalBasis (Fin n) ℂ (EuclideanSpace ℂ (Fin n))) (i i₁ i₂ : Fin n) (hi : i.1 = i₁.1 + i₂.1) :
    ∃ v : EuclideanSpace ℂ (Fin n), ‖v‖ = 1 ∧ (∀ a, i < a → inner ℂ (u a) v = 0) ∧ (∀ a, a < i₁ → inner ℂ (u₁ a) v = 0) ∧
      ∀ a, a < i₂ → inner ℂ (u₂ a) v = 0 := by
  classical
  have hi' := i.2
  obtain ⟨v, hv, h0⟩ := common_zero (n := n) (ι := {a : Fin n // i < a} ⊕ ({a : Fin n // a < i₁} ⊕ {a : Fin n // a < i₂})) (by
    have c1 : (Finset.univ.filter fun a : Fin n => i < a).card = n - 1 - i := by rw [Finset.filter_lt_eq_Ioi, Fin.card_Ioi]
    have c2 : ∀ j : Fin n, (Finset.univ.filter fun a : Fin n => a < j).card = j := fun j => by rw [Finset.filter_gt_eq_Iio, Fin.card_Iio]
    rw [Fintype.card_sum, Fintype.card_sum, Fintype.card_subtype, Fintype.card_subtype, Fintype.card_subtype, c1, c2, c2]
    omega) (Sum.elim (fun a => u a.1) (Sum.elim (fun a => u₁ a.1) fun a => u₂ a.1))
  exact ⟨v, hv, fun a ha => h0 (.inl ⟨a, ha⟩), fun a ha => h0 (.inr (.inl ⟨a, ha⟩)), fun a ha => h0 (.inr (.inr ⟨a, ha⟩))⟩

/-- the quadratic form of the cross-spectral matrix: the weighted energy of a combination of the realizations -/
theorem crossSpectral_quad (Q : Matrix X (Fin nb) ℂ) (w : X → ℝ) (hw : ∀ x, 0 ≤ w x) (v : Fin nb → ℂ) :
    star v ⬝ᵥ (crossSpectral Q w *ᵥ v) = ((‖rescale w (Q *ᵥ v)‖ ^ 2 / nb : ℝ) : ℂ) := by
  rw [Complex.ofReal_div, rescale_sq w hw, Complex.ofReal_natCast]
  simp only [crossSpectral, Matrix.smul_mulVec, dotProduct_smul, smul_eq_mul]
  rw [div_eq_inv_mul]
  congr 1
  rw [← Matrix.mulVec_mulVec, Matrix.dotProduct_mulVec, ← Matrix.star_mulVec]
  simp only [dotProduct, inner_W, mulVec, Pi.star_apply, Matrix.of_apply, RCLike.star_def]
  refine Finset.sum_congr rfl fun x _ => ?_
  rw [mul_assoc, Finset.mul_sum Finset.univ _ (w x : ℂ)]
  congr 1
  exact Finset.sum_congr rfl fun b _ => by ring

/-- the reported eigenvalues of one frequency -/
noncomputable def eigsAt (Q : Matrix X (Fin nb) ℂ) (w : X → ℝ) (solver : Solver nb) (fac : Nat) : Fin nb → ℝ :=
  let r := solver (crossSpectral Q w)
  (spodFreq Q r.1 r.2.1 r.2.2 fac).1

/-- the reported eigenvalues and an orthonormal basis that belongs to them -/
theorem eigsAt_basis (Q : Matrix X (Fin nb) ℂ) (w : X → ℝ) (hw : ∀ x, 0 ≤ w x) (solver : Solver nb) (hs : SolverFull solver) (fac : Nat) :
    Antitone (eigsAt Q w solver fac) ∧ (∀ k, 0 ≤ eigsAt Q w solver fac k) ∧
      ∃ u : OrthonormalBasis (Fin nb) ℂ (EuclideanSpace ℂ (Fin nb)), ∀ v : EuclideanSpace ℂ (Fin nb),
        fac * (‖rescale w (Q *ᵥ v.ofLp)‖ ^ 2 / nb) = ∑ k, eigsAt Q w solver fac k * ‖inner ℂ (u k) v‖ ^ 2 := by
  have hM : (crossSpectral Q w).IsHermitian := (crossSpectral_posSemidef Q w hw).1
  obtain ⟨a1, a2, a3⟩ := hs _ hM
  have hnn : ∀ k, 0 ≤ reorderL (realIfClose (solver (crossSpectral Q w)).1) (solver (crossSpectral Q w)).2.2 k := fun k =>
    (eigenvalues_real_nonneg Q w hw _ _ a1 _).2.1
  have he : ∀ k, eigsAt Q w solver fac k = fac * reorderL (realIfClose (solver (crossSpectral Q w)).1) (solver (crossSpectral Q w)).2.2 k := by
    intro k
    simp only [eigsAt, spodFreq, eigsOut]
    exact abs_of_nonneg (mul_nonneg (Nat.cast_nonneg _) (hnn k))
  refine ⟨fun i j hij => ?_, fun k => ?_, ?_⟩
  · rw [he, he]
    exact mul_le_mul_of_nonneg_left (a3 i j hij) (Nat.cast_nonneg _)
  · rw [he]; exact mul_nonneg (Nat.cast_nonneg _) (hnn k)
  · obtain ⟨u, hu⟩ := sorted_basis _ hM _ _ _ a1 a2 a3
    refine ⟨u, fun v => ?_⟩
    have h1 := hu v
    rw [crossSpectral_quad Q w hw] at h1
    rw [Complex.ofReal_injective h1, Finset.mul_sum]
    exact Finset.sum_congr rfl fun k _ => by rw [he, mul_assoc]

/-- realizations on three grids with the same number of blocks -/
theorem eigs_triangle {X₁ X₂ : Type} [Fintype X₁] [DecidableEq X₁] [Fintype X₂] [DecidableEq X₂] {n n₁ n₂ : Nat} (h1 : n₁ = n) (h2 : n₂ = n)
    (Q : Matrix X (Fin n) ℂ) (Q₁ : Matrix X₁ (Fin n₁) ℂ) (Q₂ : Matrix X₂ (Fin n₂) ℂ) (w : X → ℝ) (w₁ : X₁ → ℝ) (w₂ : X₂ → ℝ)
    (hw : ∀ x, 0 ≤ w x) (hw₁ : ∀ x, 0 ≤ w₁ x) (hw₂ : ∀ x, 0 ≤ w₂ x)
    (h : ∀ (v : Nat → ℂ), ‖rescale w (Q *ᵥ fun b => v b)‖ ≤ ‖rescale w₁ (Q₁ *ᵥ fun b => v b)‖ + ‖rescale w₂ (Q₂ *ᵥ fun b => v b)‖)
    (solver : Solver n) (solver₁ : Solver n₁) (solver₂ : Solver n₂) (hs : SolverFull solver) (hs₁ : SolverFull solver₁) (hs₂ : SolverFull solver₂)
    (fac : Nat) (i : Fin n) (i₁ : Fin n₁) (i₂ : Fin n₂) (hi : i.1 = i₁.1 + i₂.1) :
    Real.sqrt (eigsAt Q w solver fac i) ≤ Real.sqrt (eigsAt Q₁ w₁ solver₁ fac i₁) + Real.sqrt (eigsAt Q₂ w₂ solver₂ fac i₂) := by
  subst h1; subst h2
  obtain ⟨m, p, u, hu⟩ := eigsAt_basis Q w hw solver hs fac
  obtain ⟨m₁, p₁, u₁, hu₁⟩ := eigsAt_basis Q₁ w₁ hw₁ solver₁ hs₁ fac
  obtain ⟨m₂, p₂, u₂, hu₂⟩ := eigsAt_basis Q₂ w₂ hw₂ solver₂ hs₂ fac
  obtain ⟨v, hv, o, o₁, o₂⟩ := common_vector u u₁ u₂ i i₁ i₂ hi
  have b := head_mean_ge u _ m i v hv o
  have b₁ := tail_mean_le u₁ _ m₁ i₁ v hv o₁
  have b₂ := tail_mean_le u₂ _ m₂ i₂ v hv o₂
  rw [← hu] at b
  rw [← hu₁] at b₁
  rw [← hu₂] at b₂
  have hq := h fun b => if hb : b < n₂ then v.ofLp ⟨b, hb⟩ else 0
  simp only [Fin.is_lt, dif_pos, Fin.eta] at hq
  have hsq : ∀ y : ℝ, 0 ≤ y → Real.sqrt ((fac : ℝ) * (y ^ 2 / n₂)) = Real.sqrt (fac / n₂) * y := by
    intro y hy
    rw [show (fac : ℝ) * (y ^ 2 / n₂) = fac / n₂ * y ^ 2 by ring, Real.sqrt_mul (by positivity), Real.sqrt_sq hy]
  calc Real.sqrt (eigsAt Q w solver fac i) ≤ _ := Real.sqrt_le_sqrt b
    _ = Real.sqrt (fac / n₂) * ‖rescale w (Q *ᵥ v.ofLp)‖ := hsq _ (norm_nonneg _)
    _ ≤ Real.sqrt (fac / n₂) * (‖rescale w₁ (Q₁ *ᵥ v.ofLp)‖ + ‖rescale w₂ (Q₂ *ᵥ v.ofLp)‖) := mul_le_mul_of_nonneg_left hq (Real.sqrt_nonneg _)
    _ = Real.sqrt (fac * (‖rescale w₁ (Q₁ *ᵥ v.ofLp)‖ ^ 2 / n₂)) + Real.sqrt (fac * (‖rescale w₂ (Q₂ *ᵥ v.ofLp)‖ ^ 2 / n₂)) := by
      rw [hsq _ (norm_nonneg _), hsq _ (norm_nonneg _), mul_add]
    _ ≤ _ := add_le_add (Real.sqrt_le_sqrt b₁) (Real.sqrt_le_sqrt b₂)

/-- one grid dominated by another -/
theorem eigs_mono {Y : Type} [Fintype Y] [DecidableEq Y] {n n' : Nat} (hn : n' = n) (Q : Matrix X (Fin n) ℂ) (Q' : Matrix Y (Fin n') ℂ)
    (w : X → ℝ) (w' : Y → ℝ) (hw : ∀ x, 0 ≤ w x) (hw' : ∀ x, 0 ≤ w' x)
    (h : ∀ (v : Nat → ℂ), ‖rescale w (Q *ᵥ fun b => v b)‖ ^ 2 ≤ ‖rescale w' (Q' *ᵥ fun b => v b)‖ ^ 2)
    (solver : Solver n) (solver' : Solver n') (hs : SolverFull solver) (hs' : SolverFull solver') (fac : Nat) (i : Fin n) (i' : Fin n') (hi : i.1 = i'.1) :
    eigsAt Q w solver fac i ≤ eigsAt Q' w' solver' fac i' := by
  subst hn
  obtain ⟨m, p, u, hu⟩ := eigsAt_basis Q w hw solver hs fac
  obtain ⟨m', p', u', hu'⟩ := eigsAt_basis Q' w' hw' solver' hs' fac
  have hpos : 0 < n' := lt_of_le_of_lt (Nat.zero_le _) i.2
  obtain ⟨v, hv, o, o', -⟩ := common_vector u u' u' i i' ⟨0, hpos⟩ (by simpa using hi)
  have b := head_mean_ge u _ m i v hv o
  have b' := tail_mean_le u' _ m' i' v hv o'
  rw [← hu] at b
  rw [← hu'] at b'
  have hq := h fun b => if hb : b < n' then v.ofLp ⟨b, hb⟩ else 0
  simp only [Fin.is_lt, dif_pos, Fin.eta] at hq
  refine b.trans (le_trans ?_ b')
  exact mul_le_mul_of_nonneg_left (div_le_div_of_nonneg_right hq (Nat.cast_nonneg _)) (Nat.cast_nonneg _)

theorem rescale_add (w : X → ℝ) (φ ψ : X → ℂ) : rescale w (φ + ψ) = rescale w φ + rescale w ψ := by
  ext x
  simp only [rescale, PiLp.add_apply, Pi.add_apply, mul_add]

theorem rescale_smul (w : X → ℝ) (a : ℂ) (φ : X → ℂ) : rescale w (a • φ) = a • rescale w φ := by
  ext x
  simp only [rescale, PiLp.smul_apply, Pi.smul_apply, smul_eq_mul]
  ring

theorem rescale_norm_sq (w : X → ℝ) (hw : ∀ x, 0 ≤ w x) (φ : X → ℂ) : ‖rescale w φ‖ ^ 2 = ∑ x, w x * ‖φ x‖ ^ 2 := by
  rw [EuclideanSpace.norm_sq_eq]
  refine Finset.sum_congr rfl fun x _ => ?_
  simp only [rescale, norm_mul, mul_pow, Complex.norm_real, Real.norm_eq_abs, sq_abs, Real.sq_sqrt (hw x)]

/-- realizations `a Q₁ + b Q₂` -/
theorem rescale_triangle {n n₁ n₂ : Nat} (h1 : n₁ = n) (h2 : n₂ = n) (w : X → ℝ) (Q : Matrix X (Fin n) ℂ) (Q₁ : Matrix X (Fin n₁) ℂ)
    (Q₂ : Matrix X (Fin n₂) ℂ) (a : ℂ) (ha : ‖a‖ = 1)
    (h : ∀ x (k : Fin n) (k₁ : Fin n₁) (k₂ : Fin n₂), k.1 = k₁.1 → k.1 = k₂.1 → Q x k = Q₁ x k₁ + a * Q₂ x k₂) (v : Nat → ℂ) :
    ‖rescale w (Q *ᵥ fun b => v b)‖ ≤ ‖rescale w (Q₁ *ᵥ fun b => v b)‖ + ‖rescale w (Q₂ *ᵥ fun b => v b)‖ := by
  subst h1; subst h2
  have e : (Q *ᵥ fun b => v b) = (Q₁ *ᵥ fun b => v b) + a • (Q₂ *ᵥ fun b => v b) := by
    funext x
    simp only [mulVec, dotProduct, Pi.add_apply, Pi.smul_apply, smul_eq_mul, Finset.mul_sum, ← Finset.sum_add_distrib]
    exact Finset.sum_congr rfl fun b _ => by rw [h x b b b rfl rfl]; ring
  rw [e, rescale_add, rescale_smul]
  refine (norm_add_le _ _).trans ?_
  rw [norm_smul, ha, one_mul]

/-- realizations that are nowhere larger than `δ` -/
theorem eigsAt_le (hnb : 0 < nb) (Q : Matrix X (Fin nb) ℂ) (w : X → ℝ) (hw : ∀ x, 0 ≤ w x) (solver : Solver nb) (hs : SolverFull solver) (fac : Nat)
    (δ : ℝ) (hδ : ∀ x b, ‖Q x b‖ ≤ δ) (i : Fin nb) : eigsAt Q w solver fac i ≤ fac * (∑ x, w x) * δ ^ 2 := by
  obtain ⟨-, -, u, hu⟩ := eigsAt_basis Q w hw solver hs fac
  have h1 := hu (u i)
  have e : ∑ k, eigsAt Q w solver fac k * ‖inner ℂ (u k) (u i)‖ ^ 2 = eigsAt Q w solver fac i := by
    rw [Finset.sum_eq_single i]
    · rw [orthonormal_iff_ite.1 u.orthonormal i i]; simp
    · intro k _ hk
      rw [orthonormal_iff_ite.1 u.orthonormal k i, if_neg hk]; simp
    · simp
  rw [← e, ← h1, mul_assoc, rescale_norm_sq w hw]
  refine mul_le_mul_of_nonneg_left ?_ (Nat.cast_nonneg _)
  rw [div_le_iff₀ (by exact_mod_cast hnb), Finset.sum_mul, Finset.sum_mul]
  refine Finset.sum_le_sum fun x _ => ?_
  rw [mul_assoc]
  refine mul_le_mul_of_nonneg_left ?_ (hw x)
  have hu1 : ∑ b, ‖(u i).ofLp b‖ ^ 2 = 1 := by
    rw [← EuclideanSpace.norm_sq_eq, u.orthonormal.1 i, one_pow]
  have hd : 0 ≤ δ := (norm_nonneg _).trans (hδ x ⟨0, hnb⟩)
  have h2 : ‖(Q *ᵥ (u i).ofLp) x‖ ≤ ∑ b, δ * ‖(u i).ofLp b‖ := by
    show ‖∑ b, Q x b * (u i).ofLp b‖ ≤ _
    refine (norm_sum_le _ _).trans (Finset.sum_le_sum fun b _ => ?_)
    rw [norm_mul]
    exact mul_le_mul_of_nonneg_right (hδ x b) (norm_nonneg _)
  calc ‖(Q *ᵥ (u i).ofLp) x‖ ^ 2 ≤ (∑ b, δ * ‖(u i).ofLp b‖) ^ 2 := pow_le_pow_left₀ (norm_nonneg _) h2 2
    _ ≤ (∑ _b : Fin nb, δ ^ 2) * ∑ b, ‖(u i).ofLp b‖ ^ 2 := Finset.sum_mul_sq_le_sq_mul_sq _ _ _
    _ = δ ^ 2 * nb := by rw [hu1]; simp [mul_comm]

end

/-! ### The whole fit -/

/-- what fits save at one frequency, see `fit_runs` -/
theorem fit_eigsAt (c : Cfg) (ω : ℂ) (files : List (List (Arr ℝ))) (w : Arr ℝ) (m : MeanType) (A : Accepted c files w m)
    (solver : Solver (fitNb c files.flatten.length)) :
    ∃ out, (∀ r, FitRun c ω files w solver r → r = some out) ∧ ∀ f < nFreq c.nDft c.isreal c.full,
      out.eigs f = eigsAt (specQ c m ω files.flatten w.shape (fitNb c files.flatten.length) f) (specW w) solver
        (oneSidedFactor c.isreal (nFreq c.nDft c.isreal c.full) f) := by
  obtain ⟨out, h1, h2⟩ := fit_runs c ω files w m A solver
  exact ⟨out, h1, fun f hf => (h2 f hf).1⟩

theorem specW_nonneg {c : Cfg} {files : List (List (Arr ℝ))} {w : Arr ℝ} {m : MeanType} (A : Accepted c files w m) (x : Fin (size w.shape)) :
    0 ≤ specW w x := A.weights _ (inRange_unravel x.2)

/-- transforms of `D₁ + a D₂` -/
theorem specHat_two (c : Cfg) (m : MeanType) (ω : ℂ) (u u₁ u₂ : List ℝ) (a : ℝ) (N : Nat) (hl : u.length = N) (hl₁ : u₁.length = N)
    (hl₂ : u₂.length = N) (h : ∀ t < N, u.getD t 0 = u₁.getD t 0 + a * u₂.getD t 0) (hnorm : c.normalize = false)
    (hov : c.nOvlp ≤ (c.nDft : Int) - 1) (f k : Nat) (hk : k < fitNb c N) :
    specHat c m ω u f k = specHat c m ω u₁ f k + (a : ℂ) * specHat c m ω u₂ f k := by
  have := specHat_linear (Y := Bool) c m ω u (fun y => if y then u₁ else u₂) (fun y => if y then 1 else a) N hl
    (fun y => by cases y <;> simp [hl₁, hl₂]) (fun t ht => by rw [h t ht]; simp) hnorm hov f k hk
  rw [this]; simp

/-- transforms of bounded data are bounded -/
theorem specHat_le (c : Cfg) (m : MeanType) (ω : ℂ) (hω : ‖ω‖ = 1) (u : List ℝ) (ε : ℝ) (hu : ∀ t < u.length, |u.getD t 0| ≤ ε)
    (hwin : ∀ t, 0 ≤ c.win.getD t 0) (hsum : 0 < c.win.sum) (hlen : c.win.length = c.nDft) (hnorm : c.normalize = false)
    (hov : c.nOvlp ≤ (c.nDft : Int) - 1) (f k : Nat) (hk : k < fitNb c u.length) : ‖specHat c m ω u f k‖ ≤ 2 * ε := by
  have hin := (offsets_getD c hov u.length k hk).2
  set s := k * ((c.nDft : Int) - c.nOvlp).toNat with hs
  have hn : 0 < c.nDft := by
    rcases Nat.eq_zero_or_pos c.nDft with h0 | h0
    · rw [h0, List.length_eq_zero_iff] at hlen
      rw [hlen] at hsum; simp at hsum
    · exact h0
  have h0 : 0 ≤ ε := (abs_nonneg _).trans (hu s (by omega))
  have hfl : ∀ t < c.nDft, |specFluct m u s c.nDft t| ≤ 2 * ε := by
    intro t ht
    have b1 : |u.getD (s + t) 0| ≤ ε := hu _ (by omega)
    cases m with
    | longtime =>
      have b2 : |u.sum / u.length| ≤ ε := by
        have hp : (0 : ℝ) < u.length := by exact_mod_cast (by omega : 0 < u.length)
        rw [abs_div, abs_of_pos hp, div_le_iff₀ hp, list_sum_range]
        refine (Finset.abs_sum_le_sum_abs _ _).trans ?_
        refine (Finset.sum_le_sum fun t ht => hu t (Finset.mem_range.1 ht)).trans ?_
        simp [mul_comm]
      simp only [specFluct]
      exact (abs_sub _ _).trans (by linarith)
    | blockwise =>
      have b2 : |(∑ τ ∈ Finset.range c.nDft, u.getD (s + τ) 0) / c.nDft| ≤ ε := by
        have hp : (0 : ℝ) < c.nDft := by exact_mod_cast hn
        rw [abs_div, abs_of_pos hp, div_le_iff₀ hp]
        refine (Finset.abs_sum_le_sum_abs _ _).trans ?_
        refine (Finset.sum_le_sum fun t ht => hu _ (by have := Finset.mem_range.1 ht; omega)).trans ?_
        simp [mul_comm]
      simp only [specFluct]
      exact (abs_sub _ _).trans (by linarith)
    | zero =>
      simp only [specFluct]
      linarith
  simp only [specHat, specNorm, hnorm, Bool.false_eq_true, if_false]
  rw [norm_div, Complex.norm_real, Real.norm_eq_abs, abs_of_pos hsum, div_le_iff₀ hsum]
  refine (norm_sum_le _ _).trans ?_
  rw [list_sum_range, hlen, Finset.mul_sum]
  refine Finset.sum_le_sum fun t ht => ?_
  rw [norm_mul, norm_pow, hω, one_pow, mul_one, Complex.norm_real, Real.norm_eq_abs, abs_mul, abs_of_nonneg (hwin t), mul_comm]
  exact mul_le_mul_of_nonneg_right (hfl t (Finset.mem_range.1 ht)) (hwin t)

/-- the values of data set `files` at time `t` -/
def frameAt (files : List (List (Arr ℝ))) (t : Nat) : List Nat → ℝ := (files.flatten.getD t ⟨[], fun _ => 0⟩).at'

/-- **C195.** Data that are the sum of two data sets, not normalised; any libraries and numbers of ranks: at every frequency the square root of
    eigenvalue `i₁ + i₂` is at most the sum of those of eigenvalue `i₁` of the first and eigenvalue `i₂` of the second data set. -/
theorem fit_triangle (c : Cfg) (ω : ℂ) (files files₁ files₂ : List (List (Arr ℝ))) (w : Arr ℝ) (m : MeanType) (A : Accepted c files w m)
    (A₁ : Accepted c files₁ w m) (A₂ : Accepted c files₂ w m) (hnorm : c.normalize = false) (hl₁ : files₁.flatten.length = files.flatten.length)
    (hl₂ : files₂.flatten.length = files.flatten.length)
    (h : ∀ t < files.flatten.length, ∀ x, InRange w.shape x → frameAt files t x = frameAt files₁ t x + frameAt files₂ t x)
    (solver : Solver (fitNb c files.flatten.length)) (solver₁ : Solver (fitNb c files₁.flatten.length)) (solver₂ : Solver (fitNb c files₂.flatten.length))
    (hs : SolverFull solver) (hs₁ : SolverFull solver₁) (hs₂ : SolverFull solver₂) :
    ∃ out out₁ out₂, (∀ r, FitRun c ω files w solver r → r = some out) ∧ (∀ r, FitRun c ω files₁ w solver₁ r → r = some out₁) ∧
      (∀ r, FitRun c ω files₂ w solver₂ r → r = some out₂) ∧ ∀ f < nFreq c.nDft c.isreal c.full,
      (∀ i i₁ i₂, i.1 = i₁.1 + i₂.1 → Real.sqrt (out.eigs f i) ≤ Real.sqrt (out₁.eigs f i₁) + Real.sqrt (out₂.eigs f i₂)) ∧
      ∀ i i₁ i₂, i.1 = i₁.1 → i₂.1 = 0 → |Real.sqrt (out.eigs f i) - Real.sqrt (out₁.eigs f i₁)| ≤ Real.sqrt (out₂.eigs f i₂) := by
  obtain ⟨out, g, e⟩ := fit_eigsAt c ω files w m A solver
  obtain ⟨out₁, g₁, e₁⟩ := fit_eigsAt c ω files₁ w m A₁ solver₁
  obtain ⟨out₂, g₂, e₂⟩ := fit_eigsAt c ω files₂ w m A₂ solver₂
  have hW := specW_nonneg A
  refine ⟨out, out₁, out₂, g, g₁, g₂, fun f hf => ?_⟩
  rw [e f hf, e₁ f hf, e₂ f hf]
  have n₁ : fitNb c files₁.flatten.length = fitNb c files.flatten.length := by rw [hl₁]
  have n₂ : fitNb c files₂.flatten.length = fitNb c files.flatten.length := by rw [hl₂]
  have hQ : ∀ x (k : Fin (fitNb c files.flatten.length)) (k₁ : Fin (fitNb c files₁.flatten.length)) (k₂ : Fin (fitNb c files₂.flatten.length)),
      k.1 = k₁.1 → k.1 = k₂.1 → specQ c m ω files.flatten w.shape _ f x k =
        specQ c m ω files₁.flatten w.shape _ f x k₁ + specQ c m ω files₂.flatten w.shape _ f x k₂ := by
    intro x k k₁ k₂ hk₁ hk₂
    have := specHat_two c m ω (files.flatten.map fun a => a.at' (unravel w.shape x.1)) (files₁.flatten.map fun a => a.at' (unravel w.shape x.1))
      (files₂.flatten.map fun a => a.at' (unravel w.shape x.1)) 1 files.flatten.length (List.length_map _) (by rw [List.length_map, hl₁])
      (by rw [List.length_map, hl₂]) (fun t ht => by
        rw [getD_map_arr _ _ t ht, getD_map_arr _ _ t (by omega), getD_map_arr _ _ t (by omega), one_mul]
        exact h t ht _ (inRange_unravel x.2)) hnorm A.overlap f k.1 k.2
    simp only [specQ, Matrix.of_apply]
    rw [this, ← hk₁, ← hk₂, Complex.ofReal_one, one_mul]
  have t1 := fun i i₁ i₂ hi => eigs_triangle n₁ n₂ (specQ c m ω files.flatten w.shape _ f) (specQ c m ω files₁.flatten w.shape _ f)
    (specQ c m ω files₂.flatten w.shape _ f) (specW w) (specW w) (specW w) hW hW hW
    (rescale_triangle n₁ n₂ (specW w) _ _ _ 1 norm_one fun x k k₁ k₂ a b => by rw [one_mul]; exact hQ x k k₁ k₂ a b)
    solver solver₁ solver₂ hs hs₁ hs₂ (oneSidedFactor c.isreal (nFreq c.nDft c.isreal c.full) f) i i₁ i₂ hi
  have t2 := fun i₁ i i₂ hi => eigs_triangle n₁.symm (n₂.trans n₁.symm) (specQ c m ω files₁.flatten w.shape _ f)
    (specQ c m ω files.flatten w.shape _ f)
    (specQ c m ω files₂.flatten w.shape _ f) (specW w) (specW w) (specW w) hW hW hW
    (rescale_triangle n₁.symm (n₂.trans n₁.symm) (specW w) _ _ _ (-1) (by simp) fun x k₁ k k₂ a b => by
      rw [hQ x k k₁ k₂ a.symm (a.symm.trans b)]; ring)
    solver₁ solver solver₂ hs₁ hs hs₂ (oneSidedFactor c.isreal (nFreq c.nDft c.isreal c.full) f) i₁ i i₂ hi
  refine ⟨t1, fun i i₁ i₂ hi h0 => abs_le.2 ⟨?_, ?_⟩⟩
  · have := t2 i₁ i i₂ (by omega)
    linarith
  · have := t1 i i₁ i₂ (by omega)
    linarith

/-- **C195.** Data that nowhere differ by more than `ε`, not normalised, window not negative: the square roots of corresponding eigenvalues differ by
    at most `2 ε` times the square root of twice the sum of the weights. -/
theorem fit_noise (c : Cfg) (ω : ℂ) (hω : ‖ω‖ = 1) (files files' : List (List (Arr ℝ))) (w : Arr ℝ) (m : MeanType) (A : Accepted c files w m)
    (A' : Accepted c files' w m) (hnorm : c.normalize = false) (hwin : ∀ t, 0 ≤ c.win.getD t 0) (hsum : 0 < c.win.sum)
    (hl : files'.flatten.length = files.flatten.length) (ε : ℝ) (h0 : 0 ≤ ε)
    (h : ∀ t < files.flatten.length, ∀ x, InRange w.shape x → |frameAt files t x - frameAt files' t x| ≤ ε)
    (solver : Solver (fitNb c files.flatten.length)) (solver' : Solver (fitNb c files'.flatten.length))
    (hs : SolverFull solver) (hs' : SolverFull solver') :
    ∃ out out', (∀ r, FitRun c ω files w solver r → r = some out) ∧ (∀ r, FitRun c ω files' w solver' r → r = some out') ∧
      ∀ f < nFreq c.nDft c.isreal c.full, ∀ k k', k.1 = k'.1 →
        |Real.sqrt (out.eigs f k) - Real.sqrt (out'.eigs f k')| ≤ 2 * ε * Real.sqrt (2 * ∑ x : Fin (size w.shape), w.at' (unravel w.shape x)) := by
  obtain ⟨out, g, e⟩ := fit_eigsAt c ω files w m A solver
  obtain ⟨out', g', e'⟩ := fit_eigsAt c ω files' w m A' solver'
  have hW := specW_nonneg A
  refine ⟨out, out', g, g', fun f hf k k' hk => ?_⟩
  rw [e f hf, e' f hf]
  have hn : fitNb c files'.flatten.length = fitNb c files.flatten.length := by rw [hl]
  have hnb : 0 < fitNb c files.flatten.length := by have := feasible_nb c _ A.blocks; omega
  set d : Fin (size w.shape) → List ℝ := fun x => List.zipWith (· - ·) (files.flatten.map fun a => a.at' (unravel w.shape x.1))
    (files'.flatten.map fun a => a.at' (unravel w.shape x.1)) with hd
  have dl : ∀ x, (d x).length = files.flatten.length := fun x => by simp only [hd, List.length_zipWith, List.length_map, hl, min_self]
  have dv : ∀ x, ∀ t < files.flatten.length, (d x).getD t 0 = frameAt files t (unravel w.shape x.1) - frameAt files' t (unravel w.shape x.1) := by
    intro x t ht
    have a1 := getD_map_arr files.flatten (unravel w.shape x.1) t ht
    have a2 := getD_map_arr files'.flatten (unravel w.shape x.1) t (by omega)
    simp only [frameAt]
    rw [← a1, ← a2]
    simp only [hd, List.getD_eq_getElem?_getD, List.getElem?_zipWith]
    rw [List.getElem?_eq_getElem (by rw [List.length_map]; exact ht), List.getElem?_eq_getElem (by rw [List.length_map]; omega)]
    rfl
  set D : Matrix (Fin (size w.shape)) (Fin (fitNb c files.flatten.length)) ℂ := Matrix.of fun x b => specHat c m ω (d x) f b with hD
  have hQ : ∀ x (k : Fin (fitNb c files.flatten.length)) (k' : Fin (fitNb c files'.flatten.length)),
      k.1 = k'.1 → D x k = specQ c m ω files.flatten w.shape _ f x k - specQ c m ω files'.flatten w.shape _ f x k' := by
    intro x k k' hk
    have := specHat_two c m ω (d x) (files.flatten.map fun a => a.at' (unravel w.shape x.1))
      (files'.flatten.map fun a => a.at' (unravel w.shape x.1)) (-1) files.flatten.length (dl x) (List.length_map _)
      (by rw [List.length_map, hl]) (fun t ht => by
        rw [dv x t ht, getD_map_arr _ _ t ht, getD_map_arr _ _ t (by omega)]
        simp only [frameAt]; ring) hnorm A.overlap f k.1 k.2
    simp only [specQ, Matrix.of_apply, hD]
    rw [this, ← hk]; push_cast; ring
  have hDle : ∀ x b, ‖D x b‖ ≤ 2 * ε := by
    intro x b
    simp only [hD, Matrix.of_apply]
    refine specHat_le c m ω hω (d x) ε (fun t ht => ?_) hwin hsum A.window hnorm A.overlap f b.1 (by rw [dl]; exact b.2)
    rw [dl] at ht
    rw [dv x t ht]
    exact h t ht _ (inRange_unravel x.2)
  obtain ⟨sol, hsol⟩ := solver_full_exists (fitNb c files.flatten.length)
  set fac := oneSidedFactor c.isreal (nFreq c.nDft c.isreal c.full) f with hfac
  have hbound : Real.sqrt (eigsAt D (specW w) sol fac ⟨0, hnb⟩) ≤ 2 * ε * Real.sqrt (2 * ∑ x : Fin (size w.shape), w.at' (unravel w.shape x)) := by
    have b1 := eigsAt_le hnb D (specW w) hW sol hsol fac (2 * ε) hDle ⟨0, hnb⟩
    have hfac2 : (fac : ℝ) ≤ 2 := by
      have : fac ≤ 2 := by rw [hfac]; unfold oneSidedFactor; split <;> omega
      exact_mod_cast this
    have hS : 0 ≤ ∑ x : Fin (size w.shape), w.at' (unravel w.shape x) := Finset.sum_nonneg fun x _ => hW x
    have hε : 0 ≤ 2 * ε := by linarith
    rw [← Real.sqrt_sq hε, ← Real.sqrt_mul (sq_nonneg _)]
    refine Real.sqrt_le_sqrt (b1.trans ?_)
    have : (fac : ℝ) * (∑ x, specW w x) ≤ 2 * ∑ x : Fin (size w.shape), w.at' (unravel w.shape x) := mul_le_mul_of_nonneg_right hfac2 hS
    calc _ ≤ (2 * ∑ x : Fin (size w.shape), w.at' (unravel w.shape x)) * (2 * ε) ^ 2 := mul_le_mul_of_nonneg_right this (sq_nonneg _)
      _ = _ := mul_comm _ _
  have t1 := eigs_triangle hn rfl (specQ c m ω files.flatten w.shape _ f) (specQ c m ω files'.flatten w.shape _ f) D (specW w) (specW w) (specW w)
    hW hW hW (rescale_triangle hn rfl (specW w) _ _ _ 1 norm_one fun x k k₁ k₂ a b => by
      rw [hQ x k₂ k₁ (b.symm.trans a)]
      obtain rfl : k = k₂ := Fin.ext b
      ring) solver solver' sol hs hs' hsol fac k k' ⟨0, hnb⟩ (by simpa using hk)
  have t2 := eigs_triangle hn.symm hn.symm (specQ c m ω files'.flatten w.shape _ f) (specQ c m ω files.flatten w.shape _ f) D (specW w) (specW w) (specW w)
    hW hW hW (rescale_triangle hn.symm hn.symm (specW w) _ _ _ (-1) (by simp) fun x k' k₁ k₂ a b => by
      rw [hQ x k₂ k' b.symm]
      obtain rfl : k₁ = k₂ := Fin.ext (a.symm.trans b)
      ring) solver' solver sol hs' hs hsol fac k' k ⟨0, hnb⟩ (by simpa using hk.symm)
  exact abs_le.2 ⟨by linarith, by linarith⟩

/-! ### C196: weights and domains -/

/-- **C196.** A grid that contains the points of another with the same data there and weights that are not smaller (a larger domain, more variables,
    larger weights); any libraries and numbers of ranks: no eigenvalue is smaller. -/
theorem fit_domain_mono (c : Cfg) (ω : ℂ) (files files' : List (List (Arr ℝ))) (w w' : Arr ℝ) (m : MeanType) (A : Accepted c files w m)
    (A' : Accepted c files' w' m) (hl : files'.flatten.length = files.flatten.length)
    (g : Fin (size w.shape) → Fin (size w'.shape)) (hg : Function.Injective g)
    (hw : ∀ x : Fin (size w.shape), w.at' (unravel w.shape x) ≤ w'.at' (unravel w'.shape (g x)))
    (h : ∀ t < files.flatten.length, ∀ x : Fin (size w.shape), frameAt files' t (unravel w'.shape (g x)) = frameAt files t (unravel w.shape x))
    (solver : Solver (fitNb c files.flatten.length)) (solver' : Solver (fitNb c files'.flatten.length))
    (hs : SolverFull solver) (hs' : SolverFull solver') :
    ∃ out out', (∀ r, FitRun c ω files w solver r → r = some out) ∧ (∀ r, FitRun c ω files' w' solver' r → r = some out') ∧
      ∀ f < nFreq c.nDft c.isreal c.full, ∀ k k', k.1 = k'.1 → out.eigs f k ≤ out'.eigs f k' := by
  obtain ⟨out, e1, e⟩ := fit_eigsAt c ω files w m A solver
  obtain ⟨out', e1', e'⟩ := fit_eigsAt c ω files' w' m A' solver'
  refine ⟨out, out', e1, e1', fun f hf k k' hk => ?_⟩
  rw [e f hf, e' f hf]
  have hn : fitNb c files'.flatten.length = fitNb c files.flatten.length := by rw [hl]
  have hW := specW_nonneg A
  have hW' := specW_nonneg A'
  refine eigs_mono hn _ _ _ _ hW hW' (fun v => ?_) solver solver' hs hs' _ k k' hk
  rw [rescale_norm_sq _ hW, rescale_norm_sq _ hW']
  have hser : ∀ x : Fin (size w.shape), (files'.flatten.map fun a => a.at' (unravel w'.shape (g x).1)) =
      files.flatten.map fun a => a.at' (unravel w.shape x.1) := by
    intro x
    refine List.ext_getElem (by simp only [List.length_map, hl]) fun t h1 h2 => ?_
    have ht : t < files.flatten.length := by simpa only [List.length_map] using h2
    have ht' : t < files'.flatten.length := by omega
    have := h t ht x
    simp only [frameAt, List.getD_eq_getElem?_getD, List.getElem?_eq_getElem ht, List.getElem?_eq_getElem ht', Option.getD_some] at this
    rw [List.getElem_map, List.getElem_map, this]
  have hmv : ∀ x : Fin (size w.shape), (specQ c m ω files'.flatten w'.shape (fitNb c files'.flatten.length) f *ᵥ fun b => v b) (g x) =
      (specQ c m ω files.flatten w.shape (fitNb c files.flatten.length) f *ᵥ fun b => v b) x := by
    intro x
    simp only [mulVec, dotProduct, specQ, Matrix.of_apply, hser]
    rw [← Finset.sum_range fun b => specHat c m ω (files.flatten.map fun a => a.at' (unravel w.shape x.1)) f b * v b,
      ← Finset.sum_range fun b => specHat c m ω (files.flatten.map fun a => a.at' (unravel w.shape x.1)) f b * v b, hn]
  calc _ ≤ ∑ x, specW w' (g x) * ‖(specQ c m ω files'.flatten w'.shape (fitNb c files'.flatten.length) f *ᵥ fun b => v b) (g x)‖ ^ 2 := by
        refine Finset.sum_le_sum fun x _ => ?_
        rw [hmv]
        exact mul_le_mul_of_nonneg_right (hw x) (sq_nonneg _)
    _ = ∑ y ∈ Finset.univ.map ⟨g, hg⟩, specW w' y * ‖(specQ c m ω files'.flatten w'.shape (fitNb c files'.flatten.length) f *ᵥ fun b => v b) y‖ ^ 2 := by
        rw [Finset.sum_map]; rfl
    _ ≤ _ := Finset.sum_le_sum_of_subset_of_nonneg (Finset.subset_univ _) fun y _ _ => mul_nonneg (hW' y) (sq_nonneg _)

/-! ### C197, C198: longer records -/

section
variable {X : Type} [Fintype X] [DecidableEq X]

/-- a contraction `T` between the spaces of coefficients of the blocks, on the vectors orthogonal to all `g` -/
theorem eigs_embed {Y : Type} [Fintype Y] [DecidableEq Y] {n n' : Nat} (Q : Matrix X (Fin n) ℂ) (Q' : Matrix Y (Fin n') ℂ) (w : X → ℝ) (w' : Y → ℝ)
    (hw : ∀ x, 0 ≤ w x) (hw' : ∀ x, 0 ≤ w' x) (T : EuclideanSpace ℂ (Fin n) →ₗ[ℂ] EuclideanSpace ℂ (Fin n')) (hT : ∀ v, ‖T v‖ ≤ ‖v‖)
    (s : ℝ) (h0 : 0 ≤ s) {ι : Type} [Fintype ι] (g : ι → EuclideanSpace ℂ (Fin n))
    (hq : ∀ v, (∀ j, inner ℂ (g j) v = 0) → ‖rescale w (Q *ᵥ v.ofLp)‖ ^ 2 / n ≤ s * (‖rescale w' (Q' *ᵥ (T v).ofLp)‖ ^ 2 / n'))
    (solver : Solver n) (solver' : Solver n') (hs : SolverFull solver) (hs' : SolverFull solver') (fac : Nat) (i : Fin n) :
    (∀ i' : Fin n', i.1 = i'.1 + Fintype.card ι → eigsAt Q w solver fac i ≤ s * eigsAt Q' w' solver' fac i') ∧
      (n' + Fintype.card ι ≤ i.1 → eigsAt Q w solver fac i = 0) := by
  classical
  obtain ⟨m, p, u, hu⟩ := eigsAt_basis Q w hw solver hs fac
  obtain ⟨m', p', u', hu'⟩ := eigsAt_basis Q' w' hw' solver' hs' fac
  have c1 : (Finset.univ.filter fun a : Fin n => i < a).card = n - 1 - i := by rw [Finset.filter_lt_eq_Ioi, Fin.card_Ioi]
  have hi' := i.2
  constructor
  · intro i' hii
    have c2 : ∀ j : Fin n', (Finset.univ.filter fun a : Fin n' => a < j).card = j := fun j => by rw [Finset.filter_gt_eq_Iio, Fin.card_Iio]
    obtain ⟨v, hv, hz⟩ := common_zero (n := n) (ι := {a : Fin n // i < a} ⊕ ({a : Fin n' // a < i'} ⊕ ι)) (by
      rw [Fintype.card_sum, Fintype.card_sum, Fintype.card_subtype, Fintype.card_subtype, c1, c2]
      omega) (Sum.elim (fun a => u a.1) (Sum.elim (fun a => LinearMap.adjoint T (u' a.1)) g))
    have b := head_mean_ge u _ m i v hv fun a ha => hz (.inl ⟨a, ha⟩)
    rw [← hu] at b
    have hT0 : ∀ a, a < i' → inner ℂ (u' a) (T v) = 0 := fun a ha => by
      have := hz (.inr (.inl ⟨a, ha⟩))
      rwa [Sum.elim_inr, Sum.elim_inl, LinearMap.adjoint_inner_left] at this
    have b' : ∑ k, eigsAt Q' w' solver' fac k * ‖inner ℂ (u' k) (T v)‖ ^ 2 ≤ eigsAt Q' w' solver' fac i' := by
      calc _ ≤ ∑ k, eigsAt Q' w' solver' fac i' * ‖inner ℂ (u' k) (T v)‖ ^ 2 := by
            refine Finset.sum_le_sum fun k _ => ?_
            rcases lt_or_ge k i' with hk | hk
            · rw [hT0 k hk]; simp
            · exact mul_le_mul_of_nonneg_right (m' hk) (sq_nonneg _)
        _ = eigsAt Q' w' solver' fac i' * ‖T v‖ ^ 2 := by rw [← Finset.mul_sum, u'.sum_sq_norm_inner_right]
        _ ≤ eigsAt Q' w' solver' fac i' * 1 := by
            refine mul_le_mul_of_nonneg_left ?_ (p' i')
            have := hT v
            rw [hv] at this
            exact pow_le_one₀ (norm_nonneg _) this
        _ = _ := mul_one _
    rw [← hu'] at b'
    have hq' := hq v fun j => hz (.inr (.inr j))
    calc _ ≤ _ := b
      _ ≤ fac * (s * (‖rescale w' (Q' *ᵥ (T v).ofLp)‖ ^ 2 / n')) := mul_le_mul_of_nonneg_left hq' (Nat.cast_nonneg _)
      _ = s * (fac * (‖rescale w' (Q' *ᵥ (T v).ofLp)‖ ^ 2 / n')) := by ring
      _ ≤ _ := mul_le_mul_of_nonneg_left b' h0
  · intro hii
    obtain ⟨v, hv, hz⟩ := common_zero (n := n) (ι := {a : Fin n // i < a} ⊕ (Fin n' ⊕ ι)) (by
      rw [Fintype.card_sum, Fintype.card_sum, Fintype.card_subtype, Fintype.card_fin, c1]
      omega) (Sum.elim (fun a => u a.1) (Sum.elim (fun a => LinearMap.adjoint T (u' a)) g))
    have b := head_mean_ge u _ m i v hv fun a ha => hz (.inl ⟨a, ha⟩)
    rw [← hu] at b
    have hT0 : ∀ a, inner ℂ (u' a) (T v) = 0 := fun a => by
      have := hz (.inr (.inl a))
      rwa [Sum.elim_inr, Sum.elim_inl, LinearMap.adjoint_inner_left] at this
    have hTv : (fac : ℝ) * (‖rescale w' (Q' *ᵥ (T v).ofLp)‖ ^ 2 / n') = 0 := by
      rw [hu']
      exact Finset.sum_eq_zero fun k _ => by rw [hT0 k]; simp
    have hq' := hq v fun j => hz (.inr (.inr j))
    refine le_antisymm ?_ (p i)
    calc _ ≤ _ := b
      _ ≤ fac * (s * (‖rescale w' (Q' *ᵥ (T v).ofLp)‖ ^ 2 / n')) := mul_le_mul_of_nonneg_left hq' (Nat.cast_nonneg _)
      _ = s * (fac * (‖rescale w' (Q' *ᵥ (T v).ofLp)‖ ^ 2 / n')) := by ring
      _ = 0 := by rw [hTv, mul_zero]

/-- extension by zeros -/
noncomputable def extendZero {n n' : Nat} (_h : n ≤ n') : EuclideanSpace ℂ (Fin n) →ₗ[ℂ] EuclideanSpace ℂ (Fin n') where
  toFun v := WithLp.toLp 2 fun b => if hb : b.1 < n then v.ofLp ⟨b.1, hb⟩ else 0
  map_add' v v' := by ext b; by_cases hb : b.1 < n <;> simp [hb]
  map_smul' a v := by ext b; by_cases hb : b.1 < n <;> simp [hb]

/-- the first coordinates -/
noncomputable def restrictTo {n n' : Nat} (h : n ≤ n') : EuclideanSpace ℂ (Fin n') →ₗ[ℂ] EuclideanSpace ℂ (Fin n) where
  toFun v := WithLp.toLp 2 fun b => v.ofLp (Fin.castLE h b)
  map_add' v v' := by ext b; simp
  map_smul' a v := by ext b; simp

theorem sum_extend {M : Type} [AddCommMonoid M] {n n' : Nat} (h : n ≤ n') (F : Fin n' → M) (hF : ∀ b : Fin n', n ≤ b.1 → F b = 0) :
    ∑ b, F b = ∑ b : Fin n, F (Fin.castLE h b) := by
  symm
  refine Finset.sum_bij_ne_zero (fun b _ _ => Fin.castLE h b) (fun _ _ _ => Finset.mem_univ _)
    (fun a _ _ b _ _ hab => Fin.ext (by simpa using congrArg Fin.val hab)) (fun b _ hb => ?_) fun _ _ _ => rfl
  have hlt : b.1 < n := by
    by_contra hc
    exact hb (hF b (not_lt.1 hc))
  exact ⟨⟨b.1, hlt⟩, Finset.mem_univ _, hb, rfl⟩

/-- the realizations `Q` are the first of the realizations `Q'` -/
theorem eigs_interlace {n n' : Nat} (h : n ≤ n') (hn : 0 < n) (Q : Matrix X (Fin n) ℂ) (Q' : Matrix X (Fin n') ℂ) (w : X → ℝ) (hw : ∀ x, 0 ≤ w x)
    (hQ : ∀ x (b : Fin n), Q' x (Fin.castLE h b) = Q x b) (solver : Solver n) (solver' : Solver n') (hs : SolverFull solver) (hs' : SolverFull solver')
    (fac : Nat) :
    (∀ (i : Fin n) (i' : Fin n'), i.1 = i'.1 → n * eigsAt Q w solver fac i ≤ n' * eigsAt Q' w solver' fac i') ∧
      ∀ (i : Fin n) (i' : Fin n'), i'.1 = i.1 + (n' - n) → n' * eigsAt Q' w solver' fac i' ≤ n * eigsAt Q w solver fac i := by
  have hnp : (0 : ℝ) < n := by exact_mod_cast hn
  have hnp' : (0 : ℝ) < n' := by exact_mod_cast lt_of_lt_of_le hn h
  constructor
  · intro i i' hi
    have key := (eigs_embed Q Q' w w hw hw (extendZero h) (fun v => le_of_eq ?_) (n' / n) (by positivity) (ι := Empty) (fun j => j.elim) (fun v _ => ?_)
      solver solver' hs hs' fac i).1 i' (by simpa using hi)
    · calc (n : ℝ) * eigsAt Q w solver fac i ≤ n * (n' / n * eigsAt Q' w solver' fac i') := mul_le_mul_of_nonneg_left key hnp.le
        _ = _ := by field_simp
    · rw [EuclideanSpace.norm_eq, EuclideanSpace.norm_eq, sum_extend h _ fun b hb => by simp [extendZero, not_lt.2 hb]]
      congr 1
      exact Finset.sum_congr rfl fun b _ => by simp [extendZero]
    · have e : Q' *ᵥ (extendZero h v).ofLp = Q *ᵥ v.ofLp := by
        funext x
        simp only [mulVec, dotProduct]
        rw [sum_extend h _ fun b hb => by simp [extendZero, not_lt.2 hb]]
        exact Finset.sum_congr rfl fun b _ => by simp [extendZero, hQ]
      rw [e]
      refine le_of_eq ?_
      field_simp
  · intro i i' hi
    have key := (eigs_embed Q' Q w w hw hw (restrictTo h) (fun v => ?_) (n / n') (by positivity) (ι := {b : Fin n' // n ≤ b.1})
      (fun j => EuclideanSpace.single j.1 1) (fun v hv => ?_) solver' solver hs' hs fac i').1 i (by
        rw [hi]
        congr 1
        have : (Finset.univ.filter fun b : Fin n' => n ≤ b.1).card = n' - n := by
          have := Finset.card_filter_add_card_filter_not (s := (Finset.univ : Finset (Fin n'))) (fun b : Fin n' => b.1 < n)
          rw [Fin.card_filter_val_lt, Finset.card_univ, Fintype.card_fin] at this
          simp only [not_lt] at this
          omega
        rw [Fintype.card_subtype, this])
    · calc (n' : ℝ) * eigsAt Q' w solver' fac i' ≤ n' * (n / n' * eigsAt Q w solver fac i) := mul_le_mul_of_nonneg_left key hnp'.le
        _ = _ := by field_simp
    · rw [EuclideanSpace.norm_eq, EuclideanSpace.norm_eq]
      refine Real.sqrt_le_sqrt ?_
      have : ∑ b : Fin n, ‖(restrictTo h v).ofLp b‖ ^ 2 = ∑ b ∈ Finset.univ.map ⟨Fin.castLE h, Fin.castLE_injective h⟩, ‖v.ofLp b‖ ^ 2 := by
        rw [Finset.sum_map]; rfl
      rw [this]
      exact Finset.sum_le_sum_of_subset_of_nonneg (Finset.subset_univ _) fun _ _ _ => sq_nonneg _
    · have hv0 : ∀ b : Fin n', n ≤ b.1 → v.ofLp b = 0 := by
        intro b hb
        have := hv ⟨b, hb⟩
        simpa [EuclideanSpace.inner_single_left] using this
      have e : Q *ᵥ (restrictTo h v).ofLp = Q' *ᵥ v.ofLp := by
        funext x
        simp only [mulVec, dotProduct]
        rw [sum_extend h _ fun b hb => by rw [hv0 b hb, mul_zero]]
        exact Finset.sum_congr rfl fun b _ => by simp [restrictTo, hQ]
      rw [e]
      refine le_of_eq ?_
      field_simp

end

/-- blocks with the same fluctuations have the same transforms -/
theorem specHat_congr (c : Cfg) (m : MeanType) (ω : ℂ) (u u' : List ℝ) (f k k' : Nat)
    (h : ∀ t < c.nDft, specFluct m u' (k' * ((c.nDft : Int) - c.nOvlp).toNat) c.nDft t = specFluct m u (k * ((c.nDft : Int) - c.nOvlp).toNat) c.nDft t) :
    specHat c m ω u' f k' = specHat c m ω u f k := by
  simp only [specHat]
  congr 1
  refine Finset.sum_congr rfl fun t ht => ?_
  congr 3
  unfold specNorm
  simp only
  rw [h t (Finset.mem_range.1 ht), Finset.sum_congr rfl fun τ hτ => h τ (Finset.mem_range.1 hτ)]
  have e3 : ∀ a : ℝ, ∑ τ ∈ Finset.range c.nDft, (specFluct m u' (k' * ((c.nDft : Int) - c.nOvlp).toNat) c.nDft τ - a) ^ 2 =
      ∑ τ ∈ Finset.range c.nDft, (specFluct m u (k * ((c.nDft : Int) - c.nOvlp).toNat) c.nDft τ - a) ^ 2 := fun a =>
    Finset.sum_congr rfl fun τ hτ => by rw [h τ (Finset.mem_range.1 hτ)]
  rw [e3]

/-- the fluctuations of blocks with the same snapshots -/
theorem specFluct_congr (c : Cfg) (m : MeanType) (u u' : List ℝ) (s s' : Nat)
    (h : ∀ t < c.nDft, u'.getD (s' + t) 0 = u.getD (s + t) 0) (hm : m = .longtime → u'.sum / u'.length = u.sum / u.length) (t : Nat) (ht : t < c.nDft) :
    specFluct m u' s' c.nDft t = specFluct m u s c.nDft t := by
  cases m with
  | longtime => simp only [specFluct, h t ht, hm rfl]
  | blockwise =>
    simp only [specFluct, h t ht]
    rw [Finset.sum_congr rfl fun τ hτ => h τ (Finset.mem_range.1 hτ)]
  | zero => simp only [specFluct, h t ht]

theorem fitNb_mono (c : Cfg) (hov : c.nOvlp ≤ (c.nDft : Int) - 1) {nt nt' : Nat} (h : nt ≤ nt') : fitNb c nt ≤ fitNb c nt' := by
  unfold fitNb nBlocks
  rw [Int.fdiv_eq_ediv_of_nonneg _ (by omega), Int.fdiv_eq_ediv_of_nonneg _ (by omega)]
  exact Int.toNat_le_toNat (Int.ediv_le_ediv (by omega) (by omega))

/-- **C197.** A record that begins with the snapshots of another (for `longtime`: with the same mean); any libraries and numbers of ranks.  With `nb` and
    `nb'` blocks, the eigenvalues multiplied by the numbers of blocks interlace: none becomes smaller, and the ones of the longer record shifted by the
    number of new blocks are not larger. -/
theorem fit_longer (c : Cfg) (ω : ℂ) (files files' : List (List (Arr ℝ))) (w : Arr ℝ) (m : MeanType) (A : Accepted c files w m)
    (A' : Accepted c files' w m) (hl : files.flatten.length ≤ files'.flatten.length)
    (h : ∀ t < files.flatten.length, ∀ x, InRange w.shape x → frameAt files' t x = frameAt files t x)
    (hmean : m = .longtime → ∀ x, InRange w.shape x → (files'.flatten.map fun s => s.at' x).sum / files'.flatten.length =
      (files.flatten.map fun s => s.at' x).sum / files.flatten.length)
    (solver : Solver (fitNb c files.flatten.length)) (solver' : Solver (fitNb c files'.flatten.length))
    (hs : SolverFull solver) (hs' : SolverFull solver') :
    ∃ out out', (∀ r, FitRun c ω files w solver r → r = some out) ∧ (∀ r, FitRun c ω files' w solver' r → r = some out') ∧
      ∀ f < nFreq c.nDft c.isreal c.full,
        (∀ k k', k.1 = k'.1 → fitNb c files.flatten.length * out.eigs f k ≤ fitNb c files'.flatten.length * out'.eigs f k') ∧
        ∀ k k', k'.1 = k.1 + (fitNb c files'.flatten.length - fitNb c files.flatten.length) →
          fitNb c files'.flatten.length * out'.eigs f k' ≤ fitNb c files.flatten.length * out.eigs f k := by
  obtain ⟨out, e1, e⟩ := fit_eigsAt c ω files w m A solver
  obtain ⟨out', e1', e'⟩ := fit_eigsAt c ω files' w m A' solver'
  refine ⟨out, out', e1, e1', fun f hf => ?_⟩
  rw [e f hf, e' f hf]
  have hnb : 0 < fitNb c files.flatten.length := by have := feasible_nb c _ A.blocks; omega
  refine eigs_interlace (fitNb_mono c A.overlap hl) hnb _ _ (specW w) (specW_nonneg A) (fun x b => ?_) solver solver' hs hs' _
  have hx : InRange w.shape (unravel w.shape x.1) := inRange_unravel x.2
  have hin := (offsets_getD c A.overlap _ b.1 b.2).2
  simp only [specQ, Matrix.of_apply]
  refine specHat_congr c m ω _ _ f _ _ fun t ht => specFluct_congr c m _ _ _ _ (fun t ht => ?_) (fun hm => ?_) t ht
  · simp only [Fin.val_castLE]
    rw [getD_map_arr _ _ _ (by omega), getD_map_arr _ _ _ (by omega)]
    exact h _ (by omega) _ hx
  · have := hmean hm _ hx
    rw [List.length_map, List.length_map]
    exact this

section
variable {X : Type} [Fintype X] [DecidableEq X]

/-- sums over the blocks of a record in which every block of another occurs `R` times -/
theorem sum_copies {M : Type} [AddCommMonoid M] {n n' R : Nat} (π : Fin n' → Fin n) (hπ : ∀ a, (Finset.univ.filter fun b => π b = a).card = R)
    (F : Fin n → M) : ∑ b, F (π b) = R • ∑ a, F a := by
  classical
  rw [← Finset.sum_fiberwise Finset.univ π, Finset.smul_sum]
  refine Finset.sum_congr rfl fun a _ => ?_
  rw [Finset.sum_congr rfl fun b hb => by rw [(Finset.mem_filter.1 hb).2], Finset.sum_const, hπ]

/-- every realization of `Q` occurs `R` times among those of `Q'` -/
theorem eigs_copies {n n' R : Nat} (hR : 0 < R) (π : Fin n' → Fin n) (hπ : ∀ a, (Finset.univ.filter fun b => π b = a).card = R) (hn : 0 < n)
    (Q : Matrix X (Fin n) ℂ) (Q' : Matrix X (Fin n') ℂ) (hQ : ∀ x b, Q' x b = Q x (π b)) (w : X → ℝ) (hw : ∀ x, 0 ≤ w x)
    (solver : Solver n) (solver' : Solver n') (hs : SolverFull solver) (hs' : SolverFull solver') (fac : Nat) (i' : Fin n') :
    (∀ i : Fin n, i.1 = i'.1 → eigsAt Q' w solver' fac i' = eigsAt Q w solver fac i) ∧ (n ≤ i'.1 → eigsAt Q' w solver' fac i' = 0) := by
  classical
  have hn' : n' = R * n := by
    have := sum_copies π hπ fun _ => 1
    simpa using this
  have hRp : (0 : ℝ) < R := by exact_mod_cast hR
  have hnp : (0 : ℝ) < n := by exact_mod_cast hn
  have hcast : (n' : ℝ) = R * n := by rw [hn']; push_cast; ring
  set ρ : ℂ := (((Real.sqrt R)⁻¹ : ℝ) : ℂ) with hρ
  have hρn : ‖ρ‖ ^ 2 = (R : ℝ)⁻¹ := by
    rw [hρ, Complex.norm_real, Real.norm_eq_abs, sq_abs, inv_pow, Real.sq_sqrt hRp.le]
  let T : EuclideanSpace ℂ (Fin n) →ₗ[ℂ] EuclideanSpace ℂ (Fin n') :=
    { toFun := fun v => WithLp.toLp 2 fun b => ρ * v.ofLp (π b)
      map_add' := fun v v' => by ext b; simp [mul_add]
      map_smul' := fun a v => by ext b; simp; ring }
  let S : EuclideanSpace ℂ (Fin n') →ₗ[ℂ] EuclideanSpace ℂ (Fin n) :=
    { toFun := fun v => WithLp.toLp 2 fun a => ρ * ∑ b ∈ Finset.univ.filter (fun b => π b = a), v.ofLp b
      map_add' := fun v v' => by ext b; simp [mul_add, Finset.sum_add_distrib]
      map_smul' := fun a v => by ext b; simp [Finset.mul_sum, mul_left_comm] }
  have hT : ∀ v, ‖T v‖ ≤ ‖v‖ := by
    intro v
    rw [EuclideanSpace.norm_eq, EuclideanSpace.norm_eq]
    refine Real.sqrt_le_sqrt (le_of_eq ?_)
    have : ∀ b, ‖(T v).ofLp b‖ ^ 2 = (R : ℝ)⁻¹ * ‖v.ofLp (π b)‖ ^ 2 := fun b => by
      show ‖ρ * v.ofLp (π b)‖ ^ 2 = _
      rw [norm_mul, mul_pow, hρn]
    rw [Finset.sum_congr rfl fun b _ => this b, sum_copies π hπ fun a => (R : ℝ)⁻¹ * ‖v.ofLp a‖ ^ 2, ← Finset.mul_sum, nsmul_eq_mul, ← mul_assoc,
      mul_inv_cancel₀ hRp.ne', one_mul]
  have hS : ∀ v, ‖S v‖ ≤ ‖v‖ := by
    intro v
    rw [EuclideanSpace.norm_eq, EuclideanSpace.norm_eq]
    refine Real.sqrt_le_sqrt ?_
    rw [← Finset.sum_fiberwise Finset.univ π]
    refine Finset.sum_le_sum fun a _ => ?_
    show ‖ρ * ∑ b ∈ Finset.univ.filter (fun b => π b = a), v.ofLp b‖ ^ 2 ≤ _
    rw [norm_mul, mul_pow, hρn, inv_mul_le_iff₀ hRp]
    calc _ ≤ (∑ b ∈ Finset.univ.filter (fun b => π b = a), ‖v.ofLp b‖) ^ 2 := pow_le_pow_left₀ (norm_nonneg _) (norm_sum_le _ _) 2
      _ = (∑ b ∈ Finset.univ.filter (fun b => π b = a), 1 * ‖v.ofLp b‖) ^ 2 := by simp only [one_mul]
      _ ≤ (∑ b ∈ Finset.univ.filter (fun b => π b = a), (1 : ℝ) ^ 2) * ∑ b ∈ Finset.univ.filter (fun b => π b = a), ‖v.ofLp b‖ ^ 2 :=
        Finset.sum_mul_sq_le_sq_mul_sq _ _ _
      _ = R * ∑ b ∈ Finset.univ.filter (fun b => π b = a), ‖v.ofLp b‖ ^ 2 := by rw [one_pow, Finset.sum_const, hπ, nsmul_eq_mul, mul_one]
  have hT' : ∀ v : EuclideanSpace ℂ (Fin n), Q' *ᵥ (T v).ofLp = ((R : ℂ) * ρ) • (Q *ᵥ v.ofLp) := by
    intro v
    funext x
    have : ∀ b, Q' x b * (T v).ofLp b = (fun a => ρ * (Q x a * v.ofLp a)) (π b) := fun b => by
      show Q' x b * (ρ * v.ofLp (π b)) = _
      rw [hQ]; ring
    simp only [mulVec, dotProduct, Pi.smul_apply, smul_eq_mul]
    rw [Finset.sum_congr rfl fun b _ => this b, sum_copies π hπ fun a => ρ * (Q x a * v.ofLp a), ← Finset.mul_sum, nsmul_eq_mul, mul_assoc]
  have hS' : ∀ v : EuclideanSpace ℂ (Fin n'), ρ • (Q' *ᵥ v.ofLp) = Q *ᵥ (S v).ofLp := by
    intro v
    funext x
    simp only [mulVec, dotProduct, Pi.smul_apply, smul_eq_mul]
    rw [← Finset.sum_fiberwise Finset.univ π, Finset.mul_sum]
    refine Finset.sum_congr rfl fun a _ => ?_
    show _ = Q x a * (ρ * ∑ b ∈ Finset.univ.filter (fun b => π b = a), v.ofLp b)
    rw [Finset.mul_sum, Finset.mul_sum, Finset.mul_sum]
    refine Finset.sum_congr rfl fun b hb => ?_
    rw [hQ, (Finset.mem_filter.1 hb).2]; ring
  have up := eigs_embed Q' Q w w hw hw S hS 1 zero_le_one (ι := Empty) (fun j => j.elim) (fun v _ => by
    rw [← hS', rescale_smul, norm_smul, mul_pow, hρn, one_mul, hcast]
    refine le_of_eq ?_
    field_simp) solver' solver hs' hs fac i'
  refine ⟨fun i hi => le_antisymm ?_ ?_, fun hi => up.2 (by simpa using hi)⟩
  · have := up.1 i (by simpa using hi.symm)
    rwa [one_mul] at this
  · have := (eigs_embed Q Q' w w hw hw T hT 1 zero_le_one (ι := Empty) (fun j => j.elim) (fun v _ => by
      rw [hT', rescale_smul, norm_smul, mul_pow, norm_mul, mul_pow, hρn, Complex.norm_natCast, one_mul, hcast]
      refine le_of_eq ?_
      field_simp) solver solver' hs hs' fac i).1 i' (by simpa using hi)
    rwa [one_mul] at this

/-- a simple positive eigenvalue of the repeated realizations has the same mode, up to a phase -/
theorem modes_copies {n n' R : Nat} (hR : 0 < R) (π : Fin n' → Fin n) (hπ : ∀ a, (Finset.univ.filter fun b => π b = a).card = R) (hn : 0 < n)
    (Q : Matrix X (Fin n) ℂ) (Q' : Matrix X (Fin n') ℂ) (hQ : ∀ x b, Q' x b = Q x (π b)) (w : X → ℝ) (hw : ∀ x, 0 ≤ w x)
    (solver : Solver n) (solver' : Solver n') (hs : SolverFull solver) (hs' : SolverFull solver') (fac : Nat) (hfac : 0 < fac) (i : Fin n) (i' : Fin n')
    (hi : i.1 = i'.1) (hpos : 0 < eigsAt Q w solver fac i) (hsimple : ∀ j, j ≠ i → eigsAt Q w solver fac j ≠ eigsAt Q w solver fac i) :
    let r := solver (crossSpectral Q w)
    let r' := solver' (crossSpectral Q' w)
    ∃ z : ℂ, ‖z‖ = 1 ∧ ∀ x, (spodFreq Q' r'.1 r'.2.1 r'.2.2 fac).2 x i' = z * (spodFreq Q r.1 r.2.1 r.2.2 fac).2 x i := by
  classical
  intro r r'
  have hn' : n' = R * n := by
    have := sum_copies π hπ fun _ => 1
    simpa using this
  have hRp : (0 : ℝ) < R := by exact_mod_cast hR
  have hRc : (R : ℂ) ≠ 0 := by exact_mod_cast hR.ne'
  have hnp : (0 : ℝ) < n := by exact_mod_cast hn
  have hcast : (n' : ℝ) = R * n := by rw [hn']; push_cast; ring
  have hfr : (0 : ℝ) < fac := by exact_mod_cast hfac
  have hM : (crossSpectral Q w).IsHermitian := (crossSpectral_posSemidef Q w hw).1
  have hM' : (crossSpectral Q' w).IsHermitian := (crossSpectral_posSemidef Q' w hw).1
  obtain ⟨a1, a2, a3⟩ := hs _ hM
  obtain ⟨b1, b2, b3⟩ := hs' _ hM'
  have hnn := fun k => eigenvalues_real_nonneg Q w hw _ _ a1 k
  have hnn' := fun k => eigenvalues_real_nonneg Q' w hw _ _ b1 k
  have he : ∀ k, eigsAt Q w solver fac k = fac * reorderL (realIfClose r.1) r.2.2 k := fun k => by
    simp only [eigsAt, spodFreq, eigsOut]
    exact abs_of_nonneg (mul_nonneg (Nat.cast_nonneg _) (hnn _).2.1)
  have he' : ∀ k, eigsAt Q' w solver' fac k = fac * reorderL (realIfClose r'.1) r'.2.2 k := fun k => by
    simp only [eigsAt, spodFreq, eigsOut]
    exact abs_of_nonneg (mul_nonneg (Nat.cast_nonneg _) (hnn' _).2.1)
  have hsame := (eigs_copies hR π hπ hn Q Q' hQ w hw solver solver' hs hs' fac i').1 i hi
  have hLL : reorderL (realIfClose r'.1) r'.2.2 i' = reorderL (realIfClose r.1) r.2.2 i := by
    rw [he, he'] at hsame
    exact mul_left_cancel₀ hfr.ne' hsame
  have hlam : 0 < reorderL (realIfClose r.1) r.2.2 i := by
    rw [he] at hpos
    exact pos_of_mul_pos_right hpos hfr.le
  set lam := reorderL (realIfClose r.1) r.2.2 i with hlamdef
  have hlc : (lam : ℂ) ≠ 0 := by exact_mod_cast hlam.ne'
  -- the eigenvector is the same on all copies of a block
  set v : Fin n' → ℂ := fun b => r'.2.1 b (r'.2.2 i') with hv
  have hentry : ∀ b b', crossSpectral Q' w b b' = (R : ℂ)⁻¹ * crossSpectral Q w (π b) (π b') := by
    intro b b'
    rw [crossSpectral_apply, crossSpectral_apply, ← mul_assoc]
    congr 1
    · rw [hn']; push_cast; rw [mul_inv]
    · simp only [inner_W, hQ]
  have hev : ∀ b, ∑ b', (R : ℂ)⁻¹ * crossSpectral Q w (π b) (π b') * v b' = lam * v b := by
    intro b
    have h1 := congrFun (b1 (r'.2.2 i')).1 b
    have h2 : r'.1 (r'.2.2 i') = (lam : ℂ) := by
      rw [(hnn' (r'.2.2 i')).2.2]
      exact congrArg Complex.ofReal hLL
    simp only [mulVec, dotProduct, Pi.smul_apply, smul_eq_mul] at h1
    change _ = r'.1 (r'.2.2 i') * _ at h1
    rw [h2] at h1
    rw [← h1]
    exact Finset.sum_congr rfl fun b' _ => by rw [hentry]
  set y : Fin n → ℂ := fun a => ((Real.sqrt R : ℝ) : ℂ) * ((lam : ℂ)⁻¹ * ∑ b', (R : ℂ)⁻¹ * crossSpectral Q w a (π b') * v b') with hy
  set ρ : ℂ := ((Real.sqrt R : ℝ) : ℂ) with hρ
  have hρ0 : ρ ≠ 0 := by
    rw [hρ]; exact_mod_cast (Real.sqrt_pos.2 hRp).ne'
  have hρ2 : ρ * ρ = R := by
    rw [hρ, ← Complex.ofReal_mul, Real.mul_self_sqrt hRp.le]; norm_cast
  have hvy : ∀ b, v b = ρ⁻¹ * y (π b) := by
    intro b
    simp only [hy]
    rw [hev b, ← mul_assoc, inv_mul_cancel₀ hρ0, one_mul, ← mul_assoc, inv_mul_cancel₀ hlc, one_mul]
  have hyM : ∀ a, ∑ a', crossSpectral Q w a a' * y a' = lam * y a := by
    intro a
    have h1 : ∑ b', (R : ℂ)⁻¹ * crossSpectral Q w a (π b') * v b' = ρ⁻¹ * ∑ a', crossSpectral Q w a a' * y a' := by
      have : ∀ b', (R : ℂ)⁻¹ * crossSpectral Q w a (π b') * v b' = (fun a' => (R : ℂ)⁻¹ * (ρ⁻¹ * (crossSpectral Q w a a' * y a'))) (π b') := fun b' => by
        rw [hvy]; ring
      rw [Finset.sum_congr rfl fun b' _ => this b', sum_copies π hπ fun a' => (R : ℂ)⁻¹ * (ρ⁻¹ * (crossSpectral Q w a a' * y a')), ← Finset.mul_sum,
        nsmul_eq_mul, ← mul_assoc, mul_inv_cancel₀ hRc, one_mul, ← Finset.mul_sum]
    have h2 : y a = ρ * ((lam : ℂ)⁻¹ * ∑ b', (R : ℂ)⁻¹ * crossSpectral Q w a (π b') * v b') := rfl
    rw [h2, h1]
    field_simp
  have hyn : ∑ a, conj (y a) * y a = 1 := by
    have h1 := (b1 (r'.2.2 i')).2
    have h2 : ∀ b, conj (r'.2.1 b (r'.2.2 i')) * r'.2.1 b (r'.2.2 i') = (fun a => (R : ℂ)⁻¹ * (conj (y a) * y a)) (π b) := fun b => by
      have e := hvy b
      simp only [hv] at e
      rw [e, map_mul, ← hρ2, map_inv₀]
      rw [show conj ρ = ρ from Complex.conj_ofReal _, mul_inv]
      ring
    change ∑ b, conj (r'.2.1 b (r'.2.2 i')) * r'.2.1 b (r'.2.2 i') = 1 at h1
    rw [Finset.sum_congr rfl fun b _ => h2 b, sum_copies π hπ fun a => (R : ℂ)⁻¹ * (conj (y a) * y a), ← Finset.mul_sum, nsmul_eq_mul, ← mul_assoc,
      mul_inv_cancel₀ hRc, one_mul] at h1
    exact h1
  -- it is the eigenvector of the original realizations
  have hpair : EigPairs (crossSpectral Q w) r.1 (Matrix.of fun b j => if j = r.2.2 i then y b else r.2.1 b j) := by
    intro j
    by_cases hj : j = r.2.2 i
    · subst hj
      simp only [Matrix.of_apply, if_true]
      refine ⟨?_, hyn⟩
      funext a
      have h2 : r.1 (r.2.2 i) = (lam : ℂ) := (hnn (r.2.2 i)).2.2
      simp only [mulVec, dotProduct, Pi.smul_apply, smul_eq_mul]
      rw [h2]
      exact hyM a
    · simp only [Matrix.of_apply, if_neg hj]
      exact a1 j
  obtain ⟨z, hz, hzv⟩ := eig_phase _ _ _ _ _ a1 hpair a2 (r.2.2 i) (r.2.2 i) rfl (fun j hj h0 => by
    refine hsimple (r.2.2.symm j) (fun h => hj (by rw [← h, Equiv.apply_symm_apply])) ?_
    rw [he, he]
    congr 1
    simp only [reorderL, Equiv.apply_symm_apply, realIfClose]
    exact congrArg Complex.re h0)
  refine ⟨z, hz, fun x => ?_⟩
  simp only [Matrix.of_apply, if_true] at hzv
  simp only [spodFreq, phiAll, Matrix.mul_apply, Matrix.of_apply, reorderV, hLL]
  have h3 : ∀ b, Q' x b * (r'.2.1 b (r'.2.2 i') * (((1 / (Real.sqrt n' * Real.sqrt lam) : ℝ)) : ℂ)) =
      (fun a => (R : ℂ)⁻¹ * (z * (Q x a * (r.2.1 a (r.2.2 i) * (((1 / (Real.sqrt n * Real.sqrt lam) : ℝ)) : ℂ))))) (π b) := by
    intro b
    have e := hvy b
    simp only [hv] at e
    have e4 : (((1 / (Real.sqrt n' * Real.sqrt lam) : ℝ)) : ℂ) = ρ⁻¹ * (((1 / (Real.sqrt n * Real.sqrt lam) : ℝ)) : ℂ) := by
      rw [hcast, Real.sqrt_mul hRp.le, hρ, ← Complex.ofReal_inv, ← Complex.ofReal_mul]
      congr 1
      rw [one_div, one_div, mul_assoc, mul_inv]
    rw [e, e4, hQ, hzv, ← hρ2, mul_inv]
    ring
  rw [Finset.sum_congr rfl fun b _ => h3 b,
    sum_copies π hπ fun a => (R : ℂ)⁻¹ * (z * (Q x a * (r.2.1 a (r.2.2 i) * (((1 / (Real.sqrt n * Real.sqrt lam) : ℝ)) : ℂ)))),
    ← Finset.mul_sum, nsmul_eq_mul, ← mul_assoc, mul_inv_cancel₀ hRc, one_mul, ← Finset.mul_sum]

end

theorem fitNb_plain (c : Cfg) (h0 : c.nOvlp = 0) (nt : Nat) : fitNb c nt = nt / c.nDft := by
  unfold fitNb nBlocks
  rw [h0, Int.fdiv_eq_ediv_of_nonneg _ (by omega), sub_zero, sub_zero, ← Int.natCast_div, Int.toNat_natCast]

theorem card_copies {n n' R : Nat} (hn : 0 < n) (hn' : n' = R * n) (a : Fin n) :
    (Finset.univ.filter fun b : Fin n' => (⟨b.1 % n, Nat.mod_lt _ hn⟩ : Fin n) = a).card = R := by
  subst hn'
  have hlt : ∀ r : Fin R, r.1 * n + a.1 < R * n := by
    intro r
    have h1 : (r.1 + 1) * n ≤ R * n := Nat.mul_le_mul_right _ r.2
    have h2 := a.2
    rw [Nat.add_mul] at h1
    omega
  have key : (Finset.univ : Finset (Fin R)).card =
      (Finset.univ.filter fun b : Fin (R * n) => (⟨b.1 % n, Nat.mod_lt _ hn⟩ : Fin n) = a).card := by
    refine Finset.card_bij (fun r _ => ⟨r.1 * n + a.1, hlt r⟩) (fun r _ => ?_) (fun r _ r' _ h => ?_) (fun b hb => ?_)
    · refine Finset.mem_filter.2 ⟨Finset.mem_univ _, Fin.ext ?_⟩
      show (r.1 * n + a.1) % n = a.1
      rw [Nat.mul_comm, Nat.mul_add_mod, Nat.mod_eq_of_lt a.2]
    · have := congrArg Fin.val h
      simp only [Nat.add_right_cancel_iff] at this
      exact Fin.ext (Nat.eq_of_mul_eq_mul_right hn this)
    · have h1 : b.1 % n = a.1 := congrArg Fin.val (Finset.mem_filter.1 hb).2
      have h2 : b.1 / n < R := Nat.div_lt_of_lt_mul (lt_of_lt_of_eq b.2 (Nat.mul_comm _ _))
      refine ⟨⟨b.1 / n, h2⟩, Finset.mem_univ _, Fin.ext ?_⟩
      show b.1 / n * n + a.1 = b.1
      rw [← h1, Nat.mul_comm, Nat.div_add_mod]
  rw [← key, Finset.card_univ, Fintype.card_fin]

theorem block_mod (b N n t L : Nat) (hL : L = n * N) : b * n + t = L * (b / N) + (b % N * n + t) := by
  conv_lhs => rw [← Nat.div_add_mod b N]
  rw [hL]; ring

theorem sum_repeat (u : Nat → ℝ) (n R : Nat) : ∑ t ∈ Finset.range (R * n), u (t % n) = R * ∑ t ∈ Finset.range n, u t := by
  induction R with
  | zero => simp
  | succ R ih =>
    rw [Nat.succ_mul, Finset.sum_range_add, ih]
    have : ∀ t ∈ Finset.range n, u ((R * n + t) % n) = u t := fun t ht => by
      rw [Nat.mul_comm, Nat.mul_add_mod, Nat.mod_eq_of_lt (Finset.mem_range.1 ht)]
    rw [Finset.sum_congr rfl this]
    push_cast; ring

/-- **C198.** A record of whole blocks without overlap, repeated `R` times; any libraries and numbers of ranks: the same eigenvalues, followed by zeros, and
    the same modes (up to a factor of modulus one) of the positive simple ones. -/
theorem fit_repeated (c : Cfg) (ω : ℂ) (files files' : List (List (Arr ℝ))) (w : Arr ℝ) (m : MeanType) (A : Accepted c files w m)
    (A' : Accepted c files' w m) (h0 : c.nOvlp = 0) (hwhole : c.nDft ∣ files.flatten.length) (R : Nat) (hR : 0 < R)
    (hl : files'.flatten.length = R * files.flatten.length)
    (h : ∀ t < files'.flatten.length, ∀ x, InRange w.shape x → frameAt files' t x = frameAt files (t % files.flatten.length) x)
    (solver : Solver (fitNb c files.flatten.length)) (solver' : Solver (fitNb c files'.flatten.length))
    (hs : SolverFull solver) (hs' : SolverFull solver') :
    ∃ out out', (∀ r, FitRun c ω files w solver r → r = some out) ∧ (∀ r, FitRun c ω files' w solver' r → r = some out') ∧
      ∀ f < nFreq c.nDft c.isreal c.full,
        (∀ k', fitNb c files.flatten.length ≤ k'.1 → out'.eigs f k' = 0) ∧
        ∀ k k', k.1 = k'.1 → out'.eigs f k' = out.eigs f k ∧
          (k.1 < c.nSave → 0 < out.eigs f k → (∀ j, j ≠ k → out.eigs f j ≠ out.eigs f k) →
            ∃ z : ℂ, ‖z‖ = 1 ∧ ∀ x, InRange w.shape x → ∃ v, fileEntry (out.modes f) (x ++ [k.1]) = some v ∧
              fileEntry (out'.modes f) (x ++ [k.1]) = some (z * v)) := by
  obtain ⟨out, h1, h2⟩ := fit_runs c ω files w m A solver
  obtain ⟨out', h1', h2'⟩ := fit_runs c ω files' w m A' solver'
  refine ⟨out, out', h1, h1', fun f hf => ?_⟩
  obtain ⟨e1, e2⟩ := h2 f hf
  obtain ⟨e1', e2'⟩ := h2' f hf
  have hnb : 0 < fitNb c files.flatten.length := by have := feasible_nb c _ A.blocks; omega
  have hnd : 0 < c.nDft := (feasible_nb c _ A.blocks).2
  obtain ⟨q, hq⟩ := hwhole
  have hn : fitNb c files.flatten.length = q := by rw [fitNb_plain c h0, hq, Nat.mul_div_cancel_left _ hnd]
  have hn' : fitNb c files'.flatten.length = R * fitNb c files.flatten.length := by
    rw [hn, fitNb_plain c h0, hl, hq, Nat.mul_left_comm, Nat.mul_div_cancel_left _ hnd]
  have hstep : ((c.nDft : Int) - c.nOvlp).toNat = c.nDft := by rw [h0]; omega
  set π : Fin (fitNb c files'.flatten.length) → Fin (fitNb c files.flatten.length) := fun b => ⟨b.1 % fitNb c files.flatten.length, Nat.mod_lt _ hnb⟩ with hπd
  have hπ := fun a => card_copies hnb hn' a
  have hQ : ∀ x b, specQ c m ω files'.flatten w.shape (fitNb c files'.flatten.length) f x b =
      specQ c m ω files.flatten w.shape (fitNb c files.flatten.length) f x (π b) := by
    intro x b
    have hx : InRange w.shape (unravel w.shape x.1) := inRange_unravel x.2
    have hin := (offsets_getD c A.overlap _ _ (π b).2).2
    have hin' := (offsets_getD c A'.overlap _ _ b.2).2
    simp only [specQ, Matrix.of_apply]
    rw [hstep] at hin hin'
    refine specHat_congr c m ω _ _ f _ _ ?_
    rw [hstep]
    refine specFluct_congr c m _ _ _ _ (fun t ht => ?_) (fun hm => ?_)
    · rw [getD_map_arr _ _ _ (by omega), getD_map_arr _ _ _ (by omega)]
      have := h (b.1 * c.nDft + t) (by omega) _ hx
      have e : (b.1 * c.nDft + t) % files.flatten.length = (π b).1 * c.nDft + t := by
        have hd : b.1 * c.nDft + t = files.flatten.length * (b.1 / fitNb c files.flatten.length) + ((π b).1 * c.nDft + t) := by
          exact block_mod _ _ _ _ _ (by rw [hn]; exact hq)
        rw [hd, Nat.mul_add_mod, Nat.mod_eq_of_lt (by omega)]
      rw [e] at this
      exact this
    · rw [list_sum_range, list_sum_range, List.length_map, List.length_map]
      have e : ∀ t ∈ Finset.range files'.flatten.length, (files'.flatten.map fun a => a.at' (unravel w.shape x.1)).getD t 0 =
          (fun t => (files.flatten.map fun a => a.at' (unravel w.shape x.1)).getD t 0) (t % files.flatten.length) := by
        intro t ht
        have ht' := Finset.mem_range.1 ht
        have hp : 0 < files.flatten.length := by omega
        show _ = (files.flatten.map fun a => a.at' (unravel w.shape x.1)).getD (t % files.flatten.length) 0
        rw [getD_map_arr _ _ _ ht', getD_map_arr _ _ _ (Nat.mod_lt _ hp)]
        exact h t ht' _ hx
      rw [Finset.sum_congr rfl e, hl, sum_repeat fun t => (files.flatten.map fun a => a.at' (unravel w.shape x.1)).getD t 0]
      have hRp : (R : ℝ) ≠ 0 := by exact_mod_cast hR.ne'
      push_cast
      rw [mul_div_mul_left _ _ hRp]
  have hW := specW_nonneg A
  have key := eigs_copies hR π hπ hnb _ _ hQ (specW w) hW solver solver' hs hs' (oneSidedFactor c.isreal (nFreq c.nDft c.isreal c.full) f)
  have f1 : ∀ k, out.eigs f k = eigsAt (specQ c m ω files.flatten w.shape (fitNb c files.flatten.length) f) (specW w) solver
      (oneSidedFactor c.isreal (nFreq c.nDft c.isreal c.full) f) k := fun k => congrFun e1 k
  have f1' : ∀ k, out'.eigs f k = eigsAt (specQ c m ω files'.flatten w.shape (fitNb c files'.flatten.length) f) (specW w) solver'
      (oneSidedFactor c.isreal (nFreq c.nDft c.isreal c.full) f) k := fun k => congrFun e1' k
  refine ⟨fun k' hk' => by rw [f1']; exact (key k').2 hk', fun k k' hk => ⟨by rw [f1, f1']; exact (key k').1 k hk, fun hks hpos hsimple => ?_⟩⟩
  obtain ⟨z, hz, hzv⟩ := modes_copies hR π hπ hnb _ _ hQ (specW w) hW solver solver' hs hs' (oneSidedFactor c.isreal (nFreq c.nDft c.isreal c.full) f)
    (fac_pos _ _ _) k k' hk (by rw [← f1]; exact hpos) (fun j hj => by rw [← f1, ← f1]; exact hsimple j hj)
  refine ⟨z, hz, fun x hx => ?_⟩
  have hr : unravel w.shape (ravel w.shape x) = x := unravel_ravel hx
  have g1 := e2 k hks ⟨ravel w.shape x, ravel_lt hx⟩
  have g2 := e2' k' (by rw [← hk]; exact hks) ⟨ravel w.shape x, ravel_lt hx⟩
  simp only [hr] at g1 g2
  rw [← hk] at g2
  exact ⟨_, g1, by rw [g2]; exact congrArg some (hzv _)⟩

/-! #### The hypotheses are met: snapshots `v, 2v` on two points, blocks of four without overlap -/

theorem calm_any (l : List ℝ) (hl : 8 ≤ l.length) (g : ℝ) (hg : 0 ≤ g) : Accepted calmCfg (series l) ⟨[2], fun _ => g⟩ .blockwise where
  shapes := by
    intro a ha
    simp only [series, List.flatten_cons, List.flatten_nil, List.append_nil, List.mem_map] at ha
    obtain ⟨v, -, rfl⟩ := ha
    rfl
  axes := by simp
  mean := by decide
  blocks := by
    rw [series_length]
    have e1 : calmCfg.nDft = 4 := rfl
    have e2 : calmCfg.nOvlp = 0 := rfl
    unfold feasible nBlocks
    rw [e1, e2, if_neg]
    rw [Int.fdiv_eq_ediv_of_nonneg _ (by omega)]
    omega
  overlap := by decide
  window := rfl
  weights := fun x _ => hg
  many := by simp [size]

theorem series_frame (l : List ℝ) (t : Nat) (ht : t < l.length) (x : List Nat) : frameAt (series l) t x = l.getD t 0 * (x.getD 0 0 + 1 : ℕ) :=
  series_at l t ht x

/-- two signals added -/
example (ω : ℂ) (l₁ l₂ : List ℝ) (h1 : l₁.length = 8) (h2 : l₂.length = 8) (lib : (nb : Nat) → Solver nb) (hs : ∀ nb, SolverFull (lib nb)) :
    ∃ out out₁ out₂, (∀ r, FitRun calmCfg ω (series (List.zipWith (· + ·) l₁ l₂)) ⟨[2], fun _ => 1⟩ (lib _) r → r = some out) ∧
      (∀ r, FitRun calmCfg ω (series l₁) ⟨[2], fun _ => 1⟩ (lib _) r → r = some out₁) ∧
      (∀ r, FitRun calmCfg ω (series l₂) ⟨[2], fun _ => 1⟩ (lib _) r → r = some out₂) ∧
      ∀ i i₁ i₂, i.1 = i₁.1 + i₂.1 → Real.sqrt (out.eigs 1 i) ≤ Real.sqrt (out₁.eigs 1 i₁) + Real.sqrt (out₂.eigs 1 i₂) := by
  have hz : (List.zipWith (· + ·) l₁ l₂).length = 8 := by simp [h1, h2]
  obtain ⟨out, out₁, out₂, a, b, d, e⟩ := fit_triangle calmCfg ω (series (List.zipWith (· + ·) l₁ l₂)) (series l₁) (series l₂) ⟨[2], fun _ => 1⟩ .blockwise
    (calm_any _ hz.ge 1 zero_le_one) (calm_any _ h1.ge 1 zero_le_one) (calm_any _ h2.ge 1 zero_le_one) rfl
    (by rw [series_length, series_length, hz, h1]) (by rw [series_length, series_length, hz, h2]) (fun t ht x _ => by
      rw [series_length, hz] at ht
      rw [series_frame _ t (by omega), series_frame _ t (by omega), series_frame _ t (by omega), ← add_mul]
      congr 1
      simp only [List.getD_eq_getElem?_getD, List.getElem?_zipWith]
      rw [List.getElem?_eq_getElem (by omega), List.getElem?_eq_getElem (by omega)]
      rfl) (lib _) (lib _) (lib _) (hs _) (hs _) (hs _)
  exact ⟨out, out₁, out₂, a, b, d, (e 1 (by decide)).1⟩

/-- a signal and a rounded one -/
example (ω : ℂ) (hω : ‖ω‖ = 1) (l l' : List ℝ) (h1 : l.length = 8) (h2 : l'.length = 8) (h : ∀ t < 8, |l.getD t 0 - l'.getD t 0| ≤ 1 / 2)
    (lib : (nb : Nat) → Solver nb) (hs : ∀ nb, SolverFull (lib nb)) :
    ∃ out out', (∀ r, FitRun calmCfg ω (series l) ⟨[2], fun _ => 1⟩ (lib _) r → r = some out) ∧
      (∀ r, FitRun calmCfg ω (series l') ⟨[2], fun _ => 1⟩ (lib _) r → r = some out') ∧
      ∀ k k', k.1 = k'.1 → |Real.sqrt (out.eigs 1 k) - Real.sqrt (out'.eigs 1 k')| ≤ 2 * 1 * Real.sqrt (2 * 2) := by
  obtain ⟨out, out', a, b, e⟩ := fit_noise calmCfg ω hω (series l) (series l') ⟨[2], fun _ => 1⟩ .blockwise (calm_any _ h1.ge 1 zero_le_one)
    (calm_any _ h2.ge 1 zero_le_one) rfl (fun t => by
      show 0 ≤ ([1, 2, 2, 1] : List ℝ).getD t 0
      match t with
      | 0 => norm_num
      | 1 => norm_num
      | 2 => norm_num
      | 3 => norm_num
      | t + 4 => simp) (by
      show 0 < ([1, 2, 2, 1] : List ℝ).sum
      norm_num) (by rw [series_length, series_length, h1, h2]) 1 zero_le_one (fun t ht x hx => by
      rw [series_length, h1] at ht
      rw [series_frame _ t (by omega), series_frame _ t (by omega), ← sub_mul, abs_mul, abs_of_nonneg (Nat.cast_nonneg (x.getD 0 0 + 1) : (0 : ℝ) ≤ _)]
      have hx2 : x.getD 0 0 < 2 := by
        match x, hx with
        | [i], hi => exact hi.1
      have : ((x.getD 0 0 + 1 : ℕ) : ℝ) ≤ 2 := by exact_mod_cast hx2
      calc _ ≤ 1 / 2 * (2 : ℝ) := mul_le_mul (h t ht) this (Nat.cast_nonneg _) (by norm_num)
        _ = 1 := by norm_num) (lib _) (lib _) (hs _) (hs _)
  refine ⟨out, out', a, b, fun k k' hk => ?_⟩
  have := e 1 (by decide) k k' hk
  have hsum : ∑ x : Fin (size [2]), (1 : ℝ) = 2 := by
    rw [Finset.sum_const, Finset.card_univ, Fintype.card_fin, show size [2] = 2 by decide]
    norm_num
  exact this.trans (le_of_eq (congrArg (fun q : ℝ => 2 * 1 * Real.sqrt (2 * q)) hsum))

/-- the weights doubled -/
example (ω : ℂ) (l : List ℝ) (h1 : l.length = 8) (lib : (nb : Nat) → Solver nb) (hs : ∀ nb, SolverFull (lib nb)) :
    ∃ out out', (∀ r, FitRun calmCfg ω (series l) ⟨[2], fun _ => 1⟩ (lib _) r → r = some out) ∧
      (∀ r, FitRun calmCfg ω (series l) ⟨[2], fun _ => 2⟩ (lib _) r → r = some out') ∧ ∀ k k', k.1 = k'.1 → out.eigs 1 k ≤ out'.eigs 1 k' := by
  obtain ⟨out, out', a, b, e⟩ := fit_domain_mono calmCfg ω (series l) (series l) ⟨[2], fun _ => 1⟩ ⟨[2], fun _ => 2⟩ .blockwise
    (calm_any _ h1.ge 1 zero_le_one) (calm_any _ h1.ge 2 zero_le_two) rfl id (fun _ _ h => h) (fun x => by norm_num) (fun t ht x => rfl)
    (lib _) (lib _) (hs _) (hs _)
  exact ⟨out, out', a, b, e 1 (by decide)⟩

/-- eight snapshots, and four more -/
example (ω : ℂ) (l l' : List ℝ) (h1 : l.length = 8) (h2 : l'.length = 4) (lib : (nb : Nat) → Solver nb) (hs : ∀ nb, SolverFull (lib nb)) :
    ∃ out out', (∀ r, FitRun calmCfg ω (series l) ⟨[2], fun _ => 1⟩ (lib _) r → r = some out) ∧
      (∀ r, FitRun calmCfg ω (series (l ++ l')) ⟨[2], fun _ => 1⟩ (lib _) r → r = some out') ∧
      (∀ k k', k.1 = k'.1 → 2 * out.eigs 1 k ≤ 3 * out'.eigs 1 k') ∧ ∀ k k', k'.1 = k.1 + 1 → 3 * out'.eigs 1 k' ≤ 2 * out.eigs 1 k := by
  have hz : (l ++ l').length = 12 := by simp [h1, h2]
  have e8 : fitNb calmCfg (series l).flatten.length = 2 := by rw [series_length, h1]; decide
  have e12 : fitNb calmCfg (series (l ++ l')).flatten.length = 3 := by rw [series_length, hz]; decide
  obtain ⟨out, out', a, b, e⟩ := fit_longer calmCfg ω (series l) (series (l ++ l')) ⟨[2], fun _ => 1⟩ .blockwise
    (calm_any _ h1.ge 1 zero_le_one) (calm_any _ (by omega) 1 zero_le_one) (by rw [series_length, series_length]; omega) (fun t ht x _ => by
      rw [series_length] at ht
      rw [series_frame _ t (by omega), series_frame _ t ht]
      congr 1
      rw [List.getD_eq_getElem?_getD, List.getD_eq_getElem?_getD, List.getElem?_append_left ht]) (by simp) (lib _) (lib _) (hs _) (hs _)
  obtain ⟨g1, g2⟩ := e 1 (by decide)
  have c8 : ((fitNb calmCfg (series l).flatten.length : ℕ) : ℝ) = 2 := by rw [e8]; norm_num
  have c12 : ((fitNb calmCfg (series (l ++ l')).flatten.length : ℕ) : ℝ) = 3 := by rw [e12]; norm_num
  rw [c8, c12] at g1 g2
  exact ⟨out, out', a, b, g1, fun k k' hk => g2 k k' (by omega)⟩

/-- the record twice -/
example (ω : ℂ) (l : List ℝ) (h1 : l.length = 8) (lib : (nb : Nat) → Solver nb) (hs : ∀ nb, SolverFull (lib nb)) :
    ∃ out out', (∀ r, FitRun calmCfg ω (series l) ⟨[2], fun _ => 1⟩ (lib _) r → r = some out) ∧
      (∀ r, FitRun calmCfg ω (series (l ++ l)) ⟨[2], fun _ => 1⟩ (lib _) r → r = some out') ∧
      (∀ k k', k.1 = k'.1 → out'.eigs 1 k' = out.eigs 1 k) ∧ ∀ k', 2 ≤ k'.1 → out'.eigs 1 k' = 0 := by
  have hz : (l ++ l).length = 16 := by simp [h1]
  have e8 : fitNb calmCfg (series l).flatten.length = 2 := by rw [series_length, h1]; decide
  obtain ⟨out, out', a, b, e⟩ := fit_repeated calmCfg ω (series l) (series (l ++ l)) ⟨[2], fun _ => 1⟩ .blockwise
    (calm_any _ h1.ge 1 zero_le_one) (calm_any _ (by omega) 1 zero_le_one) rfl (by rw [series_length, h1]; decide) 2 two_pos
    (by rw [series_length, series_length, hz, h1]) (fun t ht x _ => by
      rw [series_length] at *
      rw [hz] at ht
      rw [series_frame _ t (by omega), series_frame _ _ (Nat.mod_lt _ (by omega))]
      congr 1
      rw [List.getD_eq_getElem?_getD, List.getD_eq_getElem?_getD, h1]
      by_cases h8 : t < 8
      · rw [List.getElem?_append_left (by omega), Nat.mod_eq_of_lt h8]
      · rw [List.getElem?_append_right (by omega), h1]
        congr 2
        omega) (lib _) (lib _) (hs _) (hs _)
  obtain ⟨g1, g2⟩ := e 1 (by decide)
  exact ⟨out, out', a, b, fun k k' hk => (g2 k k' hk).1, fun k' hk => g1 k' (by rw [e8]; exact hk)⟩

end Verif.Props
