import Verif.Props.Perturb
/-
  C205, C206: fits of a domain and of the two parts it is cut into.
-/
set_option linter.unusedSectionVars false
namespace Verif.Props
open Verif Verif.Par Verif.Rd Verif.Spod Verif.Fit Matrix ComplexConjugate ComplexOrder

section
variable {X X₁ X₂ : Type} [Fintype X] [DecidableEq X] [Fintype X₁] [DecidableEq X₁] [Fintype X₂] [DecidableEq X₂] {nb : Nat}

/-- the sum of the reported eigenvalues is the energy of the realizations -/
theorem eigsAt_sum (Q : Matrix X (Fin nb) ℂ) (w : X → ℝ) (hw : ∀ x, 0 ≤ w x) (solver : Solver nb) (hs : SolverFull solver) (fac : Nat) :
    ∑ k, eigsAt Q w solver fac k = fac * ((∑ b, ∑ x, w x * ‖Q x b‖ ^ 2) / nb) := by
  obtain ⟨-, -, u, hu⟩ := eigsAt_basis Q w hw solver hs fac
  have e : ∀ b, (fac : ℝ) * ((∑ x, w x * ‖Q x b‖ ^ 2) / nb) = ∑ k, eigsAt Q w solver fac k * ‖inner ℂ (u k) (EuclideanSpace.single b (1 : ℂ))‖ ^ 2 := by
    intro b
    rw [← hu, rescale_norm_sq w hw]
    have : ∀ x, (Q *ᵥ (EuclideanSpace.single b (1 : ℂ) : EuclideanSpace ℂ (Fin nb)).ofLp) x = Q x b := fun x => by
      simp [mulVec, dotProduct]
    simp only [this]
  rw [Finset.sum_div, Finset.mul_sum]
  simp only [e]
  rw [Finset.sum_comm]
  refine Finset.sum_congr rfl fun k _ => ?_
  rw [← Finset.mul_sum]
  have h1 : ∑ b, ‖inner ℂ (u k) (EuclideanSpace.single b (1 : ℂ))‖ ^ 2 = 1 := by
    have h2 : ‖u k‖ ^ 2 = 1 := by rw [u.orthonormal.1 k, one_pow]
    rw [EuclideanSpace.norm_sq_eq] at h2
    rw [← h2]
    exact Finset.sum_congr rfl fun b _ => by rw [EuclideanSpace.inner_single_right, one_mul, RCLike.norm_conj]
  rw [h1, mul_one]

/-- energies of combinations of the realizations that add -/
theorem eigs_subadd {n n₁ n₂ : Nat} (h1 : n₁ = n) (h2 : n₂ = n)
    (Q : Matrix X (Fin n) ℂ) (Q₁ : Matrix X₁ (Fin n₁) ℂ) (Q₂ : Matrix X₂ (Fin n₂) ℂ) (w : X → ℝ) (w₁ : X₁ → ℝ) (w₂ : X₂ → ℝ)
    (hw : ∀ x, 0 ≤ w x) (hw₁ : ∀ x, 0 ≤ w₁ x) (hw₂ : ∀ x, 0 ≤ w₂ x)
    (h : ∀ (v : Nat → ℂ), ‖rescale w (Q *ᵥ fun b => v b)‖ ^ 2 = ‖rescale w₁ (Q₁ *ᵥ fun b => v b)‖ ^ 2 + ‖rescale w₂ (Q₂ *ᵥ fun b => v b)‖ ^ 2)
    (solver : Solver n) (solver₁ : Solver n₁) (solver₂ : Solver n₂) (hs : SolverFull solver) (hs₁ : SolverFull solver₁) (hs₂ : SolverFull solver₂)
    (fac : Nat) : (∑ k, eigsAt Q w solver fac k = ∑ k, eigsAt Q₁ w₁ solver₁ fac k + ∑ k, eigsAt Q₂ w₂ solver₂ fac k) ∧
      ∀ (i : Fin n) (i₁ : Fin n₁) (i₂ : Fin n₂), i.1 = i₁.1 + i₂.1 →
        eigsAt Q w solver fac i ≤ eigsAt Q₁ w₁ solver₁ fac i₁ + eigsAt Q₂ w₂ solver₂ fac i₂ := by
  subst h1; subst h2
  have hv : ∀ v : Fin n₂ → ℂ, ‖rescale w (Q *ᵥ v)‖ ^ 2 = ‖rescale w₁ (Q₁ *ᵥ v)‖ ^ 2 + ‖rescale w₂ (Q₂ *ᵥ v)‖ ^ 2 := by
    intro v
    have hq := h fun b => if hb : b < n₂ then v ⟨b, hb⟩ else 0
    simpa only [Fin.is_lt, dif_pos, Fin.eta] using hq
  refine ⟨?_, fun i i₁ i₂ hi => ?_⟩
  · rw [eigsAt_sum Q w hw solver hs, eigsAt_sum Q₁ w₁ hw₁ solver₁ hs₁, eigsAt_sum Q₂ w₂ hw₂ solver₂ hs₂, ← mul_add, ← add_div, ← Finset.sum_add_distrib]
    congr 2
    refine Finset.sum_congr rfl fun b _ => ?_
    have := hv (Pi.single b 1)
    rw [rescale_norm_sq w hw, rescale_norm_sq w₁ hw₁, rescale_norm_sq w₂ hw₂] at this
    simpa only [Matrix.mulVec_single_one, Matrix.col_apply] using this
  · obtain ⟨m, p, u, hu⟩ := eigsAt_basis Q w hw solver hs fac
    obtain ⟨m₁, p₁, u₁, hu₁⟩ := eigsAt_basis Q₁ w₁ hw₁ solver₁ hs₁ fac
    obtain ⟨m₂, p₂, u₂, hu₂⟩ := eigsAt_basis Q₂ w₂ hw₂ solver₂ hs₂ fac
    obtain ⟨v, hv1, o, o₁, o₂⟩ := common_vector u u₁ u₂ i i₁ i₂ hi
    have b := head_mean_ge u _ m i v hv1 o
    have b₁ := tail_mean_le u₁ _ m₁ i₁ v hv1 o₁
    have b₂ := tail_mean_le u₂ _ m₂ i₂ v hv1 o₂
    rw [← hu, hv, add_div, mul_add] at b
    rw [← hu₁] at b₁
    rw [← hu₂] at b₂
    linarith

/-- two matrices whose product vanishes: the eigenvalues of the sum -/
theorem charpoly_add_of_mul_eq_zero {n : Nat} (A B : Matrix (Fin n) (Fin n) ℂ) (h : A * B = 0) :
    A.charpoly * B.charpoly = Polynomial.X ^ n * (A + B).charpoly := by
  simp only [Matrix.charpoly]
  rw [← Matrix.det_mul]
  have e : A.charmatrix * B.charmatrix = (Polynomial.X : Polynomial ℂ) • (A + B).charmatrix := by
    simp only [Matrix.charmatrix]
    have hAB : (Polynomial.C.mapMatrix A : Matrix (Fin n) (Fin n) (Polynomial ℂ)) * Polynomial.C.mapMatrix B = 0 := by
      rw [← map_mul, h, map_zero]
    rw [sub_mul, mul_sub, mul_sub, hAB, map_add]
    have hs : Matrix.scalar (Fin n) (Polynomial.X : Polynomial ℂ) = (Polynomial.X : Polynomial ℂ) • (1 : Matrix (Fin n) (Fin n) (Polynomial ℂ)) := by
      rw [Matrix.smul_one_eq_diagonal]; rfl
    rw [hs]
    simp only [smul_mul_assoc, mul_smul_comm, one_mul, mul_one, smul_sub, smul_add]
    abel
  rw [e, Matrix.det_smul, Fintype.card_fin]

/-- the reported eigenvalues as a multiset of roots -/
theorem eigsAt_roots (Q : Matrix X (Fin nb) ℂ) (w : X → ℝ) (hw : ∀ x, 0 ≤ w x) (solver : Solver nb) (hs : SolverFull solver) (fac : Nat) :
    Multiset.map (eigsAt Q w solver fac) Finset.univ.val = Multiset.map (fun z : ℂ => fac * z.re) (crossSpectral Q w).charpoly.roots := by
  have hM : (crossSpectral Q w).IsHermitian := (crossSpectral_posSemidef Q w hw).1
  obtain ⟨a1, a2, a3⟩ := hs _ hM
  have he : ∀ k, eigsAt Q w solver fac k = fac * (realIfClose (solver (crossSpectral Q w)).1) ((solver (crossSpectral Q w)).2.2 k) := by
    intro k
    simp only [eigsAt, spodFreq, eigsOut]
    exact abs_of_nonneg (mul_nonneg (Nat.cast_nonneg _) (eigenvalues_real_nonneg Q w hw _ _ a1 _).2.1)
  rw [eig_roots _ _ _ a1 a2, Multiset.map_map]
  have := map_perm (fun k => (fac : ℝ) * realIfClose (solver (crossSpectral Q w)).1 k) (solver (crossSpectral Q w)).2.2
  refine Eq.trans (Multiset.map_congr rfl fun k _ => he k) (this.trans ?_)
  rfl

/-- realizations on two grids that are uncorrelated -/
theorem eigs_union {n n₁ n₂ : Nat} (h1 : n₁ = n) (h2 : n₂ = n)
    (Q : Matrix X (Fin n) ℂ) (Q₁ : Matrix X₁ (Fin n₁) ℂ) (Q₂ : Matrix X₂ (Fin n₂) ℂ) (w : X → ℝ) (w₁ : X₁ → ℝ) (w₂ : X₂ → ℝ)
    (hw : ∀ x, 0 ≤ w x) (hw₁ : ∀ x, 0 ≤ w₁ x) (hw₂ : ∀ x, 0 ≤ w₂ x)
    (h : ∀ (i j : Nat) (hi : i < n) (hj : j < n), crossSpectral Q w ⟨i, hi⟩ ⟨j, hj⟩ =
      crossSpectral Q₁ w₁ ⟨i, h1.symm ▸ hi⟩ ⟨j, h1.symm ▸ hj⟩ + crossSpectral Q₂ w₂ ⟨i, h2.symm ▸ hi⟩ ⟨j, h2.symm ▸ hj⟩)
    (hun : ∀ x y, ∑ b : Fin n, Q₁ x ⟨b, h1.symm ▸ b.2⟩ * conj (Q₂ y ⟨b, h2.symm ▸ b.2⟩) = 0)
    (solver : Solver n) (solver₁ : Solver n₁) (solver₂ : Solver n₂) (hs : SolverFull solver) (hs₁ : SolverFull solver₁) (hs₂ : SolverFull solver₂)
    (fac : Nat) : Multiset.map (eigsAt Q₁ w₁ solver₁ fac) Finset.univ.val + Multiset.map (eigsAt Q₂ w₂ solver₂ fac) Finset.univ.val =
      Multiset.replicate n 0 + Multiset.map (eigsAt Q w solver fac) Finset.univ.val := by
  subst h1; subst h2
  have hadd : crossSpectral Q w = crossSpectral Q₁ w₁ + crossSpectral Q₂ w₂ := by
    ext i j
    exact h i j i.2 j.2
  have hz : Q₁ * Q₂ᴴ = 0 := by
    ext x y
    simp only [Matrix.mul_apply, Matrix.conjTranspose_apply, RCLike.star_def, Matrix.zero_apply]
    exact hun x y
  have hmul : crossSpectral Q₁ w₁ * crossSpectral Q₂ w₂ = 0 := by
    have e : (Matrix.of fun x b => Q₁ x b * (w₁ x : ℂ)) = Matrix.diagonal (fun x => (w₁ x : ℂ)) * Q₁ := by
      ext x b
      rw [Matrix.diagonal_mul, Matrix.of_apply, mul_comm]
    rw [crossSpectral, crossSpectral, e, Matrix.smul_mul, Matrix.mul_smul, ← Matrix.mul_assoc Q₁ᴴ, Matrix.mul_assoc (Q₁ᴴ * _), ← Matrix.mul_assoc Q₁, hz,
      Matrix.zero_mul, Matrix.mul_zero, smul_zero, smul_zero]
  have hp := congrArg Polynomial.roots (charpoly_add_of_mul_eq_zero _ _ hmul)
  rw [← hadd, Polynomial.roots_mul (mul_ne_zero (Matrix.charpoly_monic _).ne_zero (Matrix.charpoly_monic _).ne_zero),
    Polynomial.roots_mul (mul_ne_zero (pow_ne_zero _ Polynomial.X_ne_zero) (Matrix.charpoly_monic _).ne_zero), Polynomial.roots_X_pow] at hp
  rw [eigsAt_roots Q w hw solver hs, eigsAt_roots Q₁ w₁ hw₁ solver₁ hs₁, eigsAt_roots Q₂ w₂ hw₂ solver₂ hs₂, ← Multiset.map_add, hp, Multiset.map_add]
  congr 1
  simp [Multiset.nsmul_singleton]

end

/-! ### The whole fits -/

/-- the grid of the weights `w` is cut into those of `w₁` and `w₂`, with the same weights and the same data -/
structure CutInto (files files₁ files₂ : List (List (Arr ℝ))) (w w₁ w₂ : Arr ℝ) (e : Fin (size w₁.shape) ⊕ Fin (size w₂.shape) ≃ Fin (size w.shape)) :
    Prop where
  length₁ : files₁.flatten.length = files.flatten.length
  length₂ : files₂.flatten.length = files.flatten.length
  weights₁ : ∀ x : Fin (size w₁.shape), w₁.at' (unravel w₁.shape x) = w.at' (unravel w.shape (e (.inl x)))
  weights₂ : ∀ x : Fin (size w₂.shape), w₂.at' (unravel w₂.shape x) = w.at' (unravel w.shape (e (.inr x)))
  data₁ : ∀ t < files.flatten.length, ∀ x : Fin (size w₁.shape), frameAt files₁ t (unravel w₁.shape x) = frameAt files t (unravel w.shape (e (.inl x)))
  data₂ : ∀ t < files.flatten.length, ∀ x : Fin (size w₂.shape), frameAt files₂ t (unravel w₂.shape x) = frameAt files t (unravel w.shape (e (.inr x)))

/-- equal data at two points of two grids have equal transforms -/
theorem same_signal (files files' : List (List (Arr ℝ))) (s s' : List Nat) (x x' : Nat)
    (hl : files'.flatten.length = files.flatten.length)
    (h : ∀ t < files.flatten.length, frameAt files' t (unravel s' x') = frameAt files t (unravel s x)) :
    (files'.flatten.map fun a => a.at' (unravel s' x')) = files.flatten.map fun a => a.at' (unravel s x) := by
  refine List.ext_getElem (by simp only [List.length_map, hl]) fun t h1 h2 => ?_
  have ht : t < files.flatten.length := by simpa only [List.length_map] using h2
  have ht' : t < files'.flatten.length := by omega
  have := h t ht
  simp only [frameAt, List.getD_eq_getElem?_getD, List.getElem?_eq_getElem ht, List.getElem?_eq_getElem ht', Option.getD_some] at this
  rw [List.getElem_map, List.getElem_map, this]

/-- **C205.** A domain cut into two parts (or a set of variables divided into two); three fits with the same settings, any libraries and numbers of ranks:
    at every frequency the total energies of the parts add up to that of the whole, and no eigenvalue of the whole exceeds the sum of
    eigenvalues of the parts whose ranks add up to its own. -/
theorem fit_parts (c : Cfg) (ω : ℂ) (files files₁ files₂ : List (List (Arr ℝ))) (w w₁ w₂ : Arr ℝ) (m : MeanType) (A : Accepted c files w m)
    (A₁ : Accepted c files₁ w₁ m) (A₂ : Accepted c files₂ w₂ m)
    (e : Fin (size w₁.shape) ⊕ Fin (size w₂.shape) ≃ Fin (size w.shape)) (h : CutInto files files₁ files₂ w w₁ w₂ e)
    (solver : Solver (fitNb c files.flatten.length)) (solver₁ : Solver (fitNb c files₁.flatten.length)) (solver₂ : Solver (fitNb c files₂.flatten.length))
    (hs : SolverFull solver) (hs₁ : SolverFull solver₁) (hs₂ : SolverFull solver₂) :
    ∃ out out₁ out₂, (∀ r, FitRun c ω files w solver r → r = some out) ∧ (∀ r, FitRun c ω files₁ w₁ solver₁ r → r = some out₁) ∧
      (∀ r, FitRun c ω files₂ w₂ solver₂ r → r = some out₂) ∧ ∀ f < nFreq c.nDft c.isreal c.full,
        (∑ k, out.eigs f k = ∑ k, out₁.eigs f k + ∑ k, out₂.eigs f k) ∧
        ∀ i i₁ i₂, i.1 = i₁.1 + i₂.1 → out.eigs f i ≤ out₁.eigs f i₁ + out₂.eigs f i₂ := by
  obtain ⟨out, g, q⟩ := fit_eigsAt c ω files w m A solver
  obtain ⟨out₁, g₁, q₁⟩ := fit_eigsAt c ω files₁ w₁ m A₁ solver₁
  obtain ⟨out₂, g₂, q₂⟩ := fit_eigsAt c ω files₂ w₂ m A₂ solver₂
  refine ⟨out, out₁, out₂, g, g₁, g₂, fun f hf => ?_⟩
  rw [q f hf, q₁ f hf, q₂ f hf]
  have hn₁ : fitNb c files₁.flatten.length = fitNb c files.flatten.length := by rw [h.length₁]
  have hn₂ : fitNb c files₂.flatten.length = fitNb c files.flatten.length := by rw [h.length₂]
  refine eigs_subadd hn₁ hn₂ _ _ _ _ _ _ (specW_nonneg A) (specW_nonneg A₁) (specW_nonneg A₂) (fun v => ?_) solver solver₁ solver₂ hs hs₁ hs₂ _
  rw [rescale_norm_sq _ (specW_nonneg A), rescale_norm_sq _ (specW_nonneg A₁), rescale_norm_sq _ (specW_nonneg A₂), ← Equiv.sum_comp e,
    Fintype.sum_sum_type]
  congr 1
  · refine Finset.sum_congr rfl fun x _ => ?_
    have hp := same_signal files files₁ w.shape w₁.shape (e (.inl x)) x h.length₁ fun t ht => h.data₁ t ht x
    have hw : specW w (e (.inl x)) = specW w₁ x := (h.weights₁ x).symm
    rw [hw]
    congr 3
    simp only [mulVec, dotProduct, specQ, Matrix.of_apply, hp]
    rw [← Finset.sum_range fun b => specHat c m ω (files.flatten.map fun a => a.at' (unravel w.shape (e (.inl x)).1)) f b * v b,
      ← Finset.sum_range fun b => specHat c m ω (files.flatten.map fun a => a.at' (unravel w.shape (e (.inl x)).1)) f b * v b, hn₁]
  · refine Finset.sum_congr rfl fun x _ => ?_
    have hp := same_signal files files₂ w.shape w₂.shape (e (.inr x)) x h.length₂ fun t ht => h.data₂ t ht x
    have hw : specW w (e (.inr x)) = specW w₂ x := (h.weights₂ x).symm
    rw [hw]
    congr 3
    simp only [mulVec, dotProduct, specQ, Matrix.of_apply, hp]
    rw [← Finset.sum_range fun b => specHat c m ω (files.flatten.map fun a => a.at' (unravel w.shape (e (.inr x)).1)) f b * v b,
      ← Finset.sum_range fun b => specHat c m ω (files.flatten.map fun a => a.at' (unravel w.shape (e (.inr x)).1)) f b * v b, hn₂]

/-- the snapshots of one point as a time series -/
noncomputable def signalAt (files : List (List (Arr ℝ))) (s : List Nat) (x : Nat) : List ℝ := files.flatten.map fun a => a.at' (unravel s x)

/-- **C206.** As C205, at a frequency at which the two parts are uncorrelated (the transforms of the blocks of every point of one are orthogonal to
    those of every point of the other): the spectrum of the whole is the union of the spectra of the parts (and zeros). -/
theorem fit_uncorrelated (c : Cfg) (ω : ℂ) (files files₁ files₂ : List (List (Arr ℝ))) (w w₁ w₂ : Arr ℝ) (m : MeanType) (A : Accepted c files w m)
    (A₁ : Accepted c files₁ w₁ m) (A₂ : Accepted c files₂ w₂ m)
    (e : Fin (size w₁.shape) ⊕ Fin (size w₂.shape) ≃ Fin (size w.shape)) (h : CutInto files files₁ files₂ w w₁ w₂ e)
    (solver : Solver (fitNb c files.flatten.length)) (solver₁ : Solver (fitNb c files₁.flatten.length)) (solver₂ : Solver (fitNb c files₂.flatten.length))
    (hs : SolverFull solver) (hs₁ : SolverFull solver₁) (hs₂ : SolverFull solver₂) :
    ∃ out out₁ out₂, (∀ r, FitRun c ω files w solver r → r = some out) ∧ (∀ r, FitRun c ω files₁ w₁ solver₁ r → r = some out₁) ∧
      (∀ r, FitRun c ω files₂ w₂ solver₂ r → r = some out₂) ∧ ∀ f < nFreq c.nDft c.isreal c.full,
        (∀ (x : Fin (size w₁.shape)) (y : Fin (size w₂.shape)), ∑ b ∈ Finset.range (fitNb c files.flatten.length),
          specHat c m ω (signalAt files₁ w₁.shape x) f b * conj (specHat c m ω (signalAt files₂ w₂.shape y) f b) = 0) →
        Multiset.map (out₁.eigs f) Finset.univ.val + Multiset.map (out₂.eigs f) Finset.univ.val =
          Multiset.replicate (fitNb c files.flatten.length) 0 + Multiset.map (out.eigs f) Finset.univ.val := by
  obtain ⟨out, g, q⟩ := fit_eigsAt c ω files w m A solver
  obtain ⟨out₁, g₁, q₁⟩ := fit_eigsAt c ω files₁ w₁ m A₁ solver₁
  obtain ⟨out₂, g₂, q₂⟩ := fit_eigsAt c ω files₂ w₂ m A₂ solver₂
  refine ⟨out, out₁, out₂, g, g₁, g₂, fun f hf hun => ?_⟩
  rw [q f hf, q₁ f hf, q₂ f hf]
  have hn₁ : fitNb c files₁.flatten.length = fitNb c files.flatten.length := by rw [h.length₁]
  have hn₂ : fitNb c files₂.flatten.length = fitNb c files.flatten.length := by rw [h.length₂]
  refine eigs_union hn₁ hn₂ _ _ _ _ _ _ (specW_nonneg A) (specW_nonneg A₁) (specW_nonneg A₂) (fun i j hi hj => ?_) (fun x y => ?_) solver solver₁ solver₂
    hs hs₁ hs₂ _
  · simp only [crossSpectral, Matrix.smul_apply, Matrix.mul_apply, Matrix.conjTranspose_apply, Matrix.of_apply, specQ, smul_eq_mul]
    rw [hn₁, hn₂, ← mul_add, ← Equiv.sum_comp e, Fintype.sum_sum_type]
    congr 2
    · refine Finset.sum_congr rfl fun x _ => ?_
      rw [same_signal files files₁ w.shape w₁.shape (e (.inl x)) x h.length₁ fun t ht => h.data₁ t ht x,
        show specW w (e (.inl x)) = specW w₁ x from (h.weights₁ x).symm]
    · refine Finset.sum_congr rfl fun x _ => ?_
      rw [same_signal files files₂ w.shape w₂.shape (e (.inr x)) x h.length₂ fun t ht => h.data₂ t ht x,
        show specW w (e (.inr x)) = specW w₂ x from (h.weights₂ x).symm]
  · exact (Finset.sum_range fun b => specHat c m ω (signalAt files₁ w₁.shape x) f b * conj (specHat c m ω (signalAt files₂ w₂.shape y) f b)).symm.trans (hun x y)

/-- the grids of `series l` and `series l'` side by side -/
def joined (l l' : List ℝ) : List (List (Arr ℝ)) :=
  [List.zipWith (fun v v' => ⟨[4], fun i => if i.getD 0 0 < 2 then v * (i.getD 0 0 + 1 : ℕ) else v' * (i.getD 0 0 - 2 + 1 : ℕ)⟩) l l']

theorem joined_length (l l' : List ℝ) (h : l.length = 8) (h' : l'.length = 8) : (joined l l').flatten.length = 8 := by simp [joined, h, h']

theorem joined_accepted (l l' : List ℝ) (h : l.length = 8) (h' : l'.length = 8) : Accepted calmCfg (joined l l') ⟨[4], fun _ => 1⟩ .blockwise where
  shapes := by
    intro a ha
    simp only [joined, List.flatten_cons, List.flatten_nil, List.append_nil] at ha
    obtain ⟨i, hi, rfl⟩ := List.mem_iff_getElem.1 ha
    simp
  axes := by simp
  mean := by decide
  blocks := by rw [joined_length l l' h h']; decide
  overlap := by decide
  window := rfl
  weights := fun x _ => zero_le_one
  many := by simp [size]

def joinGrids : Fin (size [2]) ⊕ Fin (size [2]) ≃ Fin (size [4]) := finSumFinEquiv (m := 2) (n := 2)

theorem joined_cut (l l' : List ℝ) (h : l.length = 8) (h' : l'.length = 8) :
    CutInto (joined l l') (series l) (series l') ⟨[4], fun _ => 1⟩ ⟨[2], fun _ => 1⟩ ⟨[2], fun _ => 1⟩ joinGrids where
  length₁ := by rw [joined_length l l' h h', series_length, h]
  length₂ := by rw [joined_length l l' h h', series_length, h']
  weights₁ := fun _ => rfl
  weights₂ := fun _ => rfl
  data₁ := fun t ht x => by
    rw [joined_length l l' h h'] at ht
    rw [series_frame _ _ (by omega)]
    have hx : (unravel [4] (joinGrids (.inl x)).1).getD 0 0 = (unravel [2] x.1).getD 0 0 ∧ (unravel [2] x.1).getD 0 0 < 2 := by
      revert x; decide
    simp only [frameAt, joined, List.flatten_cons, List.flatten_nil, List.append_nil, List.getD_eq_getElem?_getD, List.getElem?_zipWith,
      List.getElem?_eq_getElem (show t < l.length by omega), List.getElem?_eq_getElem (show t < l'.length by omega), Option.getD_some] at hx ⊢
    rw [hx.1, if_pos hx.2]
  data₂ := fun t ht x => by
    rw [joined_length l l' h h'] at ht
    rw [series_frame _ _ (by omega)]
    have hx : (unravel [4] (joinGrids (.inr x)).1).getD 0 0 = (unravel [2] x.1).getD 0 0 + 2 := by
      revert x; decide
    simp only [frameAt, joined, List.flatten_cons, List.flatten_nil, List.append_nil, List.getD_eq_getElem?_getD, List.getElem?_zipWith,
      List.getElem?_eq_getElem (show t < l.length by omega), List.getElem?_eq_getElem (show t < l'.length by omega), Option.getD_some] at hx ⊢
    rw [hx, if_neg (by omega), Nat.add_sub_cancel]

/-- two pairs of points -/
example (ω : ℂ) (l l' : List ℝ) (h : l.length = 8) (h' : l'.length = 8) (lib : (nb : Nat) → Solver nb) (hs : ∀ nb, SolverFull (lib nb)) :
    ∃ out out₁ out₂, (∀ r, FitRun calmCfg ω (joined l l') ⟨[4], fun _ => 1⟩ (lib _) r → r = some out) ∧
      (∀ r, FitRun calmCfg ω (series l) ⟨[2], fun _ => 1⟩ (lib _) r → r = some out₁) ∧
      (∀ r, FitRun calmCfg ω (series l') ⟨[2], fun _ => 1⟩ (lib _) r → r = some out₂) ∧
      (∑ k, out.eigs 1 k = ∑ k, out₁.eigs 1 k + ∑ k, out₂.eigs 1 k) ∧ ∀ i i₁ i₂, i.1 = i₁.1 + i₂.1 → out.eigs 1 i ≤ out₁.eigs 1 i₁ + out₂.eigs 1 i₂ := by
  obtain ⟨out, out₁, out₂, a, b, d, e⟩ := fit_parts calmCfg ω (joined l l') (series l) (series l') ⟨[4], fun _ => 1⟩ ⟨[2], fun _ => 1⟩ ⟨[2], fun _ => 1⟩
    .blockwise (joined_accepted l l' h h') (calm_any _ h.ge 1 zero_le_one) (calm_any _ h'.ge 1 zero_le_one) joinGrids (joined_cut l l' h h')
    (lib _) (lib _) (lib _) (hs _) (hs _) (hs _)
  exact ⟨out, out₁, out₂, a, b, d, e 1 (by decide)⟩

/-- a signal at rest in a block -/
theorem calm_rest (ω : ℂ) (u : List ℝ) (f b : Nat) (h : ∀ t < 4, u.getD (b * 4 + t) 0 = 0) : specHat calmCfg .blockwise ω u f b = 0 := by
  have hz : ∀ t < 4, specFluct .blockwise u (b * 4) 4 t = 0 := by
    intro t ht
    simp only [specFluct]
    rw [h t ht, Finset.sum_eq_zero fun τ hτ => h τ (Finset.mem_range.1 hτ)]
    simp
  have e1 : calmCfg.nDft = 4 := rfl
  have e2 : ((calmCfg.nDft : Int) - calmCfg.nOvlp).toNat = 4 := by decide
  have e3 : calmCfg.normalize = false := rfl
  simp only [specHat, e2]
  rw [e1, Finset.sum_eq_zero fun t ht => ?_, zero_div]
  rw [e3]
  simp only [specNorm, Bool.false_eq_true, if_false]
  rw [hz t (Finset.mem_range.1 ht)]
  simp

/-- one pair moves in the first block only, the other in the second only -/
example (ω : ℂ) (a b c d a' b' c' d' : ℝ) (lib : (nb : Nat) → Solver nb) (hs : ∀ nb, SolverFull (lib nb)) :
    ∃ out out₁ out₂, (∀ r, FitRun calmCfg ω (joined [a, b, c, d, 0, 0, 0, 0] [0, 0, 0, 0, a', b', c', d']) ⟨[4], fun _ => 1⟩ (lib _) r → r = some out) ∧
      (∀ r, FitRun calmCfg ω (series [a, b, c, d, 0, 0, 0, 0]) ⟨[2], fun _ => 1⟩ (lib _) r → r = some out₁) ∧
      (∀ r, FitRun calmCfg ω (series [0, 0, 0, 0, a', b', c', d']) ⟨[2], fun _ => 1⟩ (lib _) r → r = some out₂) ∧
      Multiset.map (out₁.eigs 1) Finset.univ.val + Multiset.map (out₂.eigs 1) Finset.univ.val =
        Multiset.replicate 2 0 + Multiset.map (out.eigs 1) Finset.univ.val := by
  obtain ⟨out, out₁, out₂, g, g₁, g₂, e⟩ := fit_uncorrelated calmCfg ω (joined [a, b, c, d, 0, 0, 0, 0] [0, 0, 0, 0, a', b', c', d'])
    (series [a, b, c, d, 0, 0, 0, 0]) (series [0, 0, 0, 0, a', b', c', d']) ⟨[4], fun _ => 1⟩ ⟨[2], fun _ => 1⟩ ⟨[2], fun _ => 1⟩
    .blockwise (joined_accepted _ _ rfl rfl) (calm_any _ (le_refl 8) 1 zero_le_one) (calm_any _ (le_refl 8) 1 zero_le_one) joinGrids
    (joined_cut _ _ rfl rfl) (lib _) (lib _) (lib _) (hs _) (hs _) (hs _)
  have e2 : fitNb calmCfg (joined [a, b, c, d, 0, 0, 0, 0] [0, 0, 0, 0, a', b', c', d']).flatten.length = 2 := by
    rw [joined_length _ _ rfl rfl]; decide
  refine ⟨out, out₁, out₂, g, g₁, g₂, (e 1 (by decide) fun x y => ?_).trans (congrArg (fun n => Multiset.replicate n 0 + _) e2)⟩
  rw [e2, Finset.sum_range_succ, Finset.sum_range_one]
  have z1 : specHat calmCfg .blockwise ω (signalAt (series [a, b, c, d, 0, 0, 0, 0]) [2] x) 1 1 = 0 := calm_rest ω _ 1 1 fun t ht => by
    simp only [signalAt, series]
    interval_cases t <;> simp
  have z2 : specHat calmCfg .blockwise ω (signalAt (series [0, 0, 0, 0, a', b', c', d']) [2] y) 1 0 = 0 := calm_rest ω _ 1 0 fun t ht => by
    simp only [signalAt, series]
    interval_cases t <;> simp
  refine (congrArg₂ (fun p q => _ * conj p + q * _) z2 z1).trans ?_
  simp

end Verif.Props
