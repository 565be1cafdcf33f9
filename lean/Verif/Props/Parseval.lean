import Verif.Props.Invariance
import Mathlib.RingTheory.RootsOfUnity.Complex
/-
  C152, C153: full spectra of real data, and the energy of all frequencies together.
-/
set_option linter.unusedSectionVars false
namespace Verif.Props
open Verif Verif.Par Verif.Rd Verif.Spod Verif.Fit Matrix ComplexConjugate ComplexOrder

/-! ### C152: full spectra of real data -/

theorem root_conj (ω : ℂ) (n : Nat) (hn : 0 < n) (hω : ω ^ n = 1) (t f : Nat) (hf : f ≤ n) : conj (ω ^ (t * f)) = ω ^ (t * (n - f)) := by
  have hnorm : ‖ω‖ = 1 := Complex.norm_eq_one_of_pow_eq_one hω hn.ne'
  have h1 : conj ω * ω = 1 := by rw [Complex.conj_mul', hnorm]; norm_num
  have h0 : ω ^ (t * f) ≠ 0 := pow_ne_zero _ (fun h => by rw [h, norm_zero] at hnorm; exact zero_ne_one hnorm)
  apply mul_right_cancel₀ h0
  rw [map_pow, ← mul_pow, h1, one_pow, ← pow_add, ← Nat.mul_add, Nat.sub_add_cancel hf, mul_comm, pow_mul, hω, one_pow]

theorem specHat_conj (c : Cfg) (m : MeanType) (ω : ℂ) (hn : 0 < c.nDft) (hω : ω ^ c.nDft = 1) (u : List ℝ) (f b : Nat) (hf : f ≤ c.nDft) :
    specHat c m ω u (c.nDft - f) b = conj (specHat c m ω u f b) := by
  simp only [specHat, map_div₀, map_sum, map_mul, Complex.conj_ofReal]
  congr 1
  exact Finset.sum_congr rfl fun t _ => by rw [root_conj ω c.nDft hn hω t f hf]

section
variable {X : Type} [Fintype X] [DecidableEq X] {nb : Nat}

theorem crossSpectral_conj (Q Q' : Matrix X (Fin nb) ℂ) (w : X → ℝ) (hQ : ∀ x b, Q' x b = conj (Q x b)) (a b : Fin nb) :
    crossSpectral Q' w a b = conj (crossSpectral Q w a b) := by
  simp only [crossSpectral_apply, inner_W, hQ, map_mul, map_sum, map_inv₀, map_natCast, Complex.conj_conj, Complex.conj_ofReal]

theorem eigPairs_conj (M M' : Matrix (Fin nb) (Fin nb) ℂ) (hM : ∀ a b, M' a b = conj (M a b)) (L : Fin nb → ℂ) (V : Matrix (Fin nb) (Fin nb) ℂ)
    (h : EigPairs M L V) : EigPairs M' (fun j => conj (L j)) (Matrix.of fun i j => conj (V i j)) := by
  intro j
  constructor
  · funext a
    have := congrArg conj (congrFun (h j).1 a)
    simp only [mulVec, dotProduct, map_sum, map_mul, Pi.smul_apply, smul_eq_mul] at this
    simp only [mulVec, dotProduct, Pi.smul_apply, smul_eq_mul, Matrix.of_apply, hM]
    exact this
  · have := congrArg conj (h j).2
    simp only [map_sum, map_mul, map_one] at this
    simpa only [Matrix.of_apply] using this

theorem spod_conj (Q Q' : Matrix X (Fin nb) ℂ) (w : X → ℝ) (hw : ∀ x, 0 ≤ w x) (hQ : ∀ x b, Q' x b = conj (Q x b))
    (r r' : (Fin nb → ℂ) × Matrix (Fin nb) (Fin nb) ℂ × Equiv.Perm (Fin nb))
    (a1 : EigPairs (crossSpectral Q w) r.1 r.2.1) (a2 : IsUnit r.2.1.det) (a3 : ArgsortDesc (realIfClose r.1) r.2.2)
    (a1' : EigPairs (crossSpectral Q' w) r'.1 r'.2.1) (a2' : IsUnit r'.2.1.det) (a3' : ArgsortDesc (realIfClose r'.1) r'.2.2) (fac fac' : Nat) :
    reorderL (realIfClose r'.1) r'.2.2 = reorderL (realIfClose r.1) r.2.2 ∧
    ∀ k, (∀ j, j ≠ k → reorderL (realIfClose r.1) r.2.2 j ≠ reorderL (realIfClose r.1) r.2.2 k) →
      ∃ z : ℂ, ‖z‖ = 1 ∧ ∀ x, (spodFreq Q' r'.1 r'.2.1 r'.2.2 fac').2 x k = z * conj ((spodFreq Q r.1 r.2.1 r.2.2 fac).2 x k) := by
  have b1 := eigPairs_conj _ _ (crossSpectral_conj Q Q' w hQ) _ _ a1
  have b2 : IsUnit (Matrix.of fun i j => conj (r.2.1 i j)).det := by
    have : (Matrix.of fun i j => conj (r.2.1 i j)) = r.2.1.map (starRingEnd ℂ) := by ext; rfl
    rw [this, ← RingHom.mapMatrix_apply, ← RingHom.map_det]
    exact a2.map (starRingEnd ℂ)
  have hre : realIfClose (fun j => conj (r.1 j)) = realIfClose r.1 := by funext j; simp [realIfClose]
  have hL := sorted_eigs_unique _ _ rfl _ _ _ _ a1' b1 a2' b2 r'.2.2 r.2.2 a3' (by rw [hre]; exact a3)
  rw [hre] at hL
  refine ⟨hL, fun k hsimple => ?_⟩
  have real := eigenvalues_real_nonneg Q w hw r.1 r.2.1 a1
  have real' := eigenvalues_real_nonneg Q' w hw r'.1 r'.2.1 a1'
  obtain ⟨z, hz, hzv⟩ := eig_phase _ _ r'.1 _ r'.2.1 b1 a1' b2 (r.2.2 k) (r'.2.2 k)
    (by
      have := congrFun hL k
      simp only [reorderL] at this
      rw [(real' _).2.2, (real _).2.2, Complex.conj_ofReal]
      exact congrArg _ this)
    (by
      intro j hj hLj
      refine hsimple (r.2.2.symm j) (fun h => hj (by rw [← h, Equiv.apply_symm_apply])) ?_
      simp only [reorderL, realIfClose, Equiv.apply_symm_apply]
      have := congrArg Complex.re hLj
      simpa using this)
  refine ⟨z, hz, fun x => ?_⟩
  simp only [spodFreq, phiAll, Matrix.mul_apply, Matrix.of_apply, reorderV, hzv, hQ, hL, map_sum, map_mul, Complex.conj_ofReal, Finset.mul_sum]
  exact Finset.sum_congr rfl fun b _ => by ring
end

/-- **C152 (exact).** Full spectrum of real data: the eigenvalues at the frequency indices `f` and `n - f` are those of the same matrix, so the reported
    ones differ by the factors of doubling only; modes of simple eigenvalues are complex conjugates up to a factor of modulus one. -/
theorem full_spectrum_exact (c : Cfg) (ω : ℂ) (hω : ω ^ c.nDft = 1) (files : List (List (Arr ℝ))) (w : Arr ℝ) (m : MeanType)
    (A : Accepted c files w m) (hfull : c.full = true)
    (solver : Solver (fitNb c files.flatten.length)) (hs : SolverFull solver) :
    ∃ out, (∀ r, FitRun c ω files w solver r → r = some out) ∧
      ∀ f, 1 ≤ f → f < c.nDft → ∀ k, (oneSidedFactor c.isreal c.nDft f : ℝ) * out.eigs (c.nDft - f) k =
          oneSidedFactor c.isreal c.nDft (c.nDft - f) * out.eigs f k ∧
        (k.1 < c.nSave → (∀ j, j ≠ k → out.eigs f j ≠ out.eigs f k) →
          ∃ z : ℂ, ‖z‖ = 1 ∧ ∀ x, InRange w.shape x → ∃ v, fileEntry (out.modes f) (x ++ [k.1]) = some v ∧
            fileEntry (out.modes (c.nDft - f)) (x ++ [k.1]) = some (z * conj v)) := by
  obtain ⟨out, h1, h2⟩ := fit_runs c ω files w m A solver
  refine ⟨out, h1, fun f hf1 hfn => ?_⟩
  have hn : 0 < c.nDft := by omega
  have hnf : nFreq c.nDft c.isreal c.full = c.nDft := by simp [nFreq, hfull]
  rw [hnf] at h2
  obtain ⟨e1, e2⟩ := h2 f hfn
  obtain ⟨e1', e2'⟩ := h2 (c.nDft - f) (by omega)
  have hQ : ∀ x b, specQ c m ω files.flatten w.shape (fitNb c files.flatten.length) (c.nDft - f) x b =
      conj (specQ c m ω files.flatten w.shape (fitNb c files.flatten.length) f x b) := by
    intro x b
    simp only [specQ, Matrix.of_apply]
    exact specHat_conj c m ω hn hω _ f b hfn.le
  have hW : ∀ x, 0 ≤ specW w x := fun x => A.weights _ (inRange_unravel x.2)
  generalize specQ c m ω files.flatten w.shape (fitNb c files.flatten.length) f = Q at *
  generalize specQ c m ω files.flatten w.shape (fitNb c files.flatten.length) (c.nDft - f) = Q' at *
  generalize oneSidedFactor c.isreal c.nDft f = fac at *
  generalize oneSidedFactor c.isreal c.nDft (c.nDft - f) = fac' at *
  obtain ⟨a1, a2, a3⟩ := hs _ (crossSpectral_posSemidef Q (specW w) hW).1
  obtain ⟨a1', a2', a3'⟩ := hs _ (crossSpectral_posSemidef Q' (specW w) hW).1
  generalize solver (crossSpectral Q (specW w)) = r at *
  generalize solver (crossSpectral Q' (specW w)) = r' at *
  obtain ⟨g1, g2⟩ := spod_conj Q Q' (specW w) hW hQ r r' a1 a2 a3 a1' a2' a3' fac fac'
  intro k
  refine ⟨?_, fun hks hsimple => ?_⟩
  · rw [e1, e1']
    simp only [spodFreq, eigsOut, g1, abs_mul, Nat.abs_cast]
    ring
  · obtain ⟨z, hz, hzv⟩ := g2 k (by
      intro j hj hE
      refine hsimple j hj ?_
      rw [e1]
      simp only [spodFreq, eigsOut, hE])
    refine ⟨z, hz, fun x hx => ?_⟩
    have q1 := e2 k hks ⟨ravel w.shape x, ravel_lt hx⟩
    have q2 := e2' k hks ⟨ravel w.shape x, ravel_lt hx⟩
    simp only [unravel_ravel hx] at q1 q2
    exact ⟨_, q1, by rw [q2, hzv]⟩

/-- **C152 (partial).** Away from the ends of the axis the spectrum is symmetric. -/
theorem full_spectrum_partial (c : Cfg) (ω : ℂ) (hω : ω ^ c.nDft = 1) (files : List (List (Arr ℝ))) (w : Arr ℝ) (m : MeanType)
    (A : Accepted c files w m) (hfull : c.full = true)
    (solver : Solver (fitNb c files.flatten.length)) (hs : SolverFull solver) :
    ∃ out, (∀ r, FitRun c ω files w solver r → r = some out) ∧
      ∀ f, 2 ≤ f → f + 2 ≤ c.nDft → ∀ k, out.eigs (c.nDft - f) k = out.eigs f k := by
  obtain ⟨out, h1, h2⟩ := full_spectrum_exact c ω hω files w m A hfull solver hs
  refine ⟨out, h1, fun f hf hfn k => ?_⟩
  have := (h2 f (by omega) (by omega) k).1
  have e : oneSidedFactor c.isreal c.nDft (c.nDft - f) = oneSidedFactor c.isreal c.nDft f := by
    simp only [oneSidedFactor]
    cases c.isreal
    · simp
    · rw [if_pos ⟨rfl, by omega, by omega⟩, if_pos ⟨rfl, by omega, by omega⟩]
  rw [e] at this
  exact mul_left_cancel₀ (by exact_mod_cast (fac_pos c.isreal c.nDft f).ne') this

/-- **C152 (fails).** The first positive frequency is reported with twice the eigenvalues of its negative counterpart, the last entry of the axis. -/
theorem full_spectrum_fails (c : Cfg) (ω : ℂ) (hω : ω ^ c.nDft = 1) (files : List (List (Arr ℝ))) (w : Arr ℝ) (m : MeanType)
    (A : Accepted c files w m) (hfull : c.full = true) (hreal : c.isreal = true) (hn : 3 ≤ c.nDft)
    (solver : Solver (fitNb c files.flatten.length)) (hs : SolverFull solver) :
    ∃ out, (∀ r, FitRun c ω files w solver r → r = some out) ∧ ∀ k, out.eigs 1 k = 2 * out.eigs (c.nDft - 1) k := by
  obtain ⟨out, h1, h2⟩ := full_spectrum_exact c ω hω files w m A hfull solver hs
  refine ⟨out, h1, fun k => ?_⟩
  have := (h2 1 le_rfl (by omega) k).1
  have e1 : oneSidedFactor c.isreal c.nDft 1 = 2 := by simp [oneSidedFactor, hreal]; omega
  have e2 : oneSidedFactor c.isreal c.nDft (c.nDft - 1) = 1 := by simp [oneSidedFactor]; omega
  rw [e1, e2] at this
  push_cast at this
  linarith

/-! ### C153: the energy of all frequencies -/

/-- Parseval: the squared moduli of all bins sum to `n` times the squares of the values -/
theorem parseval (n : Nat) (ω : ℂ) (hω : IsPrimitiveRoot ω n) (hn : 0 < n) (a : Nat → ℝ) :
    ∑ f ∈ Finset.range n, ‖∑ t ∈ Finset.range n, (a t : ℂ) * ω ^ (t * f)‖ ^ 2 = n * ∑ t ∈ Finset.range n, a t ^ 2 := by
  have h1 : ω ^ n = 1 := hω.pow_eq_one
  have hnorm : ‖ω‖ = 1 := Complex.norm_eq_one_of_pow_eq_one h1 hn.ne'
  have h0 : ω ≠ 0 := fun h => by rw [h, norm_zero] at hnorm; exact zero_ne_one hnorm
  have hconj : conj ω = ω⁻¹ := by
    apply mul_right_cancel₀ h0
    rw [Complex.conj_mul', hnorm, inv_mul_cancel₀ h0]; norm_num
  have horth : ∀ t ∈ Finset.range n, ∀ s ∈ Finset.range n, ∑ f ∈ Finset.range n, (ω ^ t * (ω ^ s)⁻¹) ^ f = if t = s then (n : ℂ) else 0 := by
    intro t ht s hs
    by_cases h : t = s
    · subst h
      simp [mul_inv_cancel₀ (pow_ne_zero t h0)]
    · rw [if_neg h]
      have hx : (1 - ω ^ t * (ω ^ s)⁻¹) ≠ 0 := by
        intro hx
        apply h
        apply hω.pow_inj (Finset.mem_range.1 ht) (Finset.mem_range.1 hs)
        have := sub_eq_zero.1 hx
        field_simp at this
        exact this.symm
      have := mul_neg_geom_sum (ω ^ t * (ω ^ s)⁻¹) n
      rw [mul_pow, inv_pow, ← pow_mul, ← pow_mul, mul_comm t, mul_comm s, pow_mul, pow_mul, h1, one_pow, one_pow, inv_one, mul_one, sub_self] at this
      exact (mul_eq_zero.1 this).resolve_left hx
  apply Complex.ofReal_injective
  push_cast
  have e : ∀ f ∈ Finset.range n, ((‖∑ t ∈ Finset.range n, (a t : ℂ) * ω ^ (t * f)‖ : ℂ)) ^ 2 =
      ∑ s ∈ Finset.range n, ∑ t ∈ Finset.range n, (a t : ℂ) * a s * (ω ^ t * (ω ^ s)⁻¹) ^ f := by
    intro f _
    rw [← Complex.conj_mul', map_sum, Finset.sum_mul]
    refine Finset.sum_congr rfl fun s _ => ?_
    rw [Finset.mul_sum]
    refine Finset.sum_congr rfl fun t _ => ?_
    rw [map_mul, Complex.conj_ofReal, map_pow, hconj, mul_pow, inv_pow, inv_pow, ← pow_mul, ← pow_mul]
    ring
  rw [Finset.sum_congr rfl e, Finset.sum_comm]
  rw [Finset.mul_sum]
  refine Finset.sum_congr rfl fun s hs => ?_
  rw [Finset.sum_comm]
  have e2 : ∀ t ∈ Finset.range n, ∑ f ∈ Finset.range n, (a t : ℂ) * a s * (ω ^ t * (ω ^ s)⁻¹) ^ f = if t = s then (n : ℂ) * (a s : ℂ) ^ 2 else 0 := by
    intro t ht
    rw [← Finset.mul_sum, horth t ht s hs]
    split
    · rename_i h; subst h; ring
    · simp
  rw [Finset.sum_congr rfl e2, Finset.sum_ite_eq' (Finset.range n) s, if_pos hs]

/-- average over blocks, weighted sum over the grid, of the energy of the windowed fluctuations, divided by the square of the sum of the window: the energy a
    fit should report for all frequencies together, times `n` -/
noncomputable def windowedEnergy (c : Cfg) (m : MeanType) (frames : List (Arr ℝ)) (w : Arr ℝ) (nb : Nat) : ℝ :=
  (∑ b ∈ Finset.range nb, ∑ x : Fin (size w.shape), specW w x * ∑ t ∈ Finset.range c.nDft,
    (c.win.getD t 0 * specNorm c.normalize c.eps4 c.nDft
      (specFluct m (frames.map fun a => a.at' (unravel w.shape x)) (b * ((c.nDft : Int) - c.nOvlp).toNat) c.nDft) t) ^ 2) / nb

/-- what the doubling adds -/
theorem doubled_sum (nf : Nat) (g : Nat → ℝ) (hnf : 2 ≤ nf) :
    ∑ f ∈ Finset.range nf, (oneSidedFactor true nf f : ℝ) * g f = ∑ f ∈ Finset.range nf, g f + ∑ i ∈ Finset.range (nf - 2), g (i + 1) := by
  obtain ⟨k, rfl⟩ := Nat.exists_eq_add_of_le hnf
  rw [show 2 + k = k + 1 + 1 by omega, Finset.sum_range_succ, Finset.sum_range_succ' _ k, Finset.sum_range_succ g (k + 1),
    Finset.sum_range_succ' g k]
  have e1 : (oneSidedFactor true (k + 1 + 1) (k + 1) : ℝ) = 1 := by simp [oneSidedFactor]
  have e2 : (oneSidedFactor true (k + 1 + 1) 0 : ℝ) = 1 := by simp [oneSidedFactor]
  have e3 : ∀ i ∈ Finset.range k, (oneSidedFactor true (k + 1 + 1) (i + 1) : ℝ) * g (i + 1) = g (i + 1) + g (i + 1) := by
    intro i hi
    have : i < k := Finset.mem_range.1 hi
    have : oneSidedFactor true (k + 1 + 1) (i + 1) = 2 := by simp [oneSidedFactor]; omega
    rw [this]; push_cast; ring
  rw [e1, e2]
  have h0 : k + 1 + 1 - 2 = k := by omega
  simp only [h0]
  rw [Finset.sum_congr rfl e3, Finset.sum_add_distrib]
  ring

/-- a symmetric sum over all bins, from the first half: an even number of bins -/
theorem mirror_even (h : Nat) (hh : 1 ≤ h) (g : Nat → ℝ) (hg : ∀ f, 1 ≤ f → f < 2 * h → g (2 * h - f) = g f) :
    ∑ f ∈ Finset.range (2 * h), g f = ∑ f ∈ Finset.range (h + 1), g f + ∑ i ∈ Finset.range (h - 1), g (i + 1) := by
  rw [show 2 * h = (h + 1) + (h - 1) by omega, Finset.sum_range_add]
  congr 1
  rw [← Finset.sum_range_reflect]
  refine Finset.sum_congr rfl fun i hi => ?_
  have : i < h - 1 := Finset.mem_range.1 hi
  rw [← hg (i + 1) (by omega) (by omega)]
  congr 1; omega

/-- the same for an odd number of bins -/
theorem mirror_odd (h : Nat) (g : Nat → ℝ) (hg : ∀ f, 1 ≤ f → f < 2 * h + 1 → g (2 * h + 1 - f) = g f) :
    ∑ f ∈ Finset.range (2 * h + 1), g f = ∑ f ∈ Finset.range (h + 1), g f + ∑ i ∈ Finset.range h, g (i + 1) := by
  rw [show 2 * h + 1 = (h + 1) + h by omega, Finset.sum_range_add]
  congr 1
  rw [← Finset.sum_range_reflect]
  refine Finset.sum_congr rfl fun i hi => ?_
  have : i < h := Finset.mem_range.1 hi
  rw [← hg (i + 1) (by omega) (by omega)]
  congr 1; omega

/-- block-averaged weighted energy of bin `f` -/
noncomputable def binEnergy (c : Cfg) (m : MeanType) (ω : ℂ) (frames : List (Arr ℝ)) (w : Arr ℝ) (nb f : Nat) : ℝ :=
  (∑ b ∈ Finset.range nb, ∑ x : Fin (size w.shape), specW w x * ‖specHat c m ω (frames.map fun a => a.at' (unravel w.shape x)) f b‖ ^ 2) / nb

theorem bins_total (c : Cfg) (m : MeanType) (ω : ℂ) (hω : IsPrimitiveRoot ω c.nDft) (hn : 0 < c.nDft) (frames : List (Arr ℝ)) (w : Arr ℝ) (nb : Nat) :
    ∑ f ∈ Finset.range c.nDft, binEnergy c m ω frames w nb f = c.nDft / c.win.sum ^ 2 * windowedEnergy c m frames w nb := by
  simp only [binEnergy, windowedEnergy]
  rw [← Finset.sum_div, mul_div_assoc']
  congr 1
  rw [Finset.sum_comm, Finset.mul_sum]
  refine Finset.sum_congr rfl fun b _ => ?_
  rw [Finset.sum_comm, Finset.mul_sum]
  refine Finset.sum_congr rfl fun x _ => ?_
  rw [← Finset.mul_sum, mul_left_comm]
  congr 1
  simp only [specHat, norm_div, div_pow, Complex.norm_real, Real.norm_eq_abs, sq_abs]
  rw [← Finset.sum_div, parseval c.nDft ω hω hn]
  ring

theorem binEnergy_mirror (c : Cfg) (m : MeanType) (ω : ℂ) (hn : 0 < c.nDft) (hω : ω ^ c.nDft = 1) (frames : List (Arr ℝ)) (w : Arr ℝ) (nb f : Nat)
    (hf : f ≤ c.nDft) : binEnergy c m ω frames w nb (c.nDft - f) = binEnergy c m ω frames w nb f := by
  simp only [binEnergy]
  congr 1
  refine Finset.sum_congr rfl fun b _ => Finset.sum_congr rfl fun x _ => ?_
  rw [specHat_conj c m ω hn hω _ f b hf, RCLike.norm_conj]

/-- sum of the eigenvalues of one frequency -/
theorem eigs_total (c : Cfg) (ω : ℂ) (files : List (List (Arr ℝ))) (w : Arr ℝ) (m : MeanType) (A : Accepted c files w m)
    (solver : Solver (fitNb c files.flatten.length)) (hs : SolverFull solver) :
    ∃ out, (∀ r, FitRun c ω files w solver r → r = some out) ∧
      ∀ f < nFreq c.nDft c.isreal c.full, ∑ k, out.eigs f k = oneSidedFactor c.isreal (nFreq c.nDft c.isreal c.full) f *
        binEnergy c m ω files.flatten w (fitNb c files.flatten.length) f := by
  obtain ⟨out, h1, h2⟩ := fit_runs c ω files w m A solver
  refine ⟨out, h1, fun f hf => ?_⟩
  obtain ⟨e1, -⟩ := h2 f hf
  have hW : ∀ x, 0 ≤ specW w x := fun x => A.weights _ (inRange_unravel x.2)
  obtain ⟨a1, a2, -⟩ := hs _ (crossSpectral_posSemidef (specQ c m ω files.flatten w.shape (fitNb c files.flatten.length) f) (specW w) hW).1
  rw [e1, total_energy_reported _ (specW w) hW _ _ a1 a2]
  congr 1
  rw [binEnergy, inv_mul_eq_div]
  congr 1
  rw [← Fin.sum_univ_eq_sum_range fun b => ∑ x : Fin (size w.shape), specW w x *
    ‖specHat c m ω (files.flatten.map fun a => a.at' (unravel w.shape x)) f b‖ ^ 2]
  refine Finset.sum_congr rfl fun b _ => Finset.sum_congr rfl fun x _ => ?_
  rw [Complex.normSq_eq_norm_sq]
  rfl

/-- **C153 (partial).** Real data, one-sided spectrum, an even number of snapshots per block: the eigenvalues of all frequencies and modes sum to the energy
    of the windowed fluctuations (Parseval). -/
theorem total_variance_partial (c : Cfg) (ω : ℂ) (hω : IsPrimitiveRoot ω c.nDft) (files : List (List (Arr ℝ))) (w : Arr ℝ) (m : MeanType)
    (A : Accepted c files w m) (hreal : c.isreal = true) (hfull : c.full = false) (heven : c.nDft % 2 = 0)
    (solver : Solver (fitNb c files.flatten.length)) (hs : SolverFull solver) :
    ∃ out, (∀ r, FitRun c ω files w solver r → r = some out) ∧
      ∑ f ∈ Finset.range (nFreq c.nDft c.isreal c.full), ∑ k, out.eigs f k =
        c.nDft / c.win.sum ^ 2 * windowedEnergy c m files.flatten w (fitNb c files.flatten.length) := by
  have hn : 0 < c.nDft := (feasible_nb c _ A.blocks).2
  obtain ⟨out, h1, h2⟩ := eigs_total c ω files w m A solver hs
  refine ⟨out, h1, ?_⟩
  rw [Finset.sum_congr rfl fun f hf => h2 f (Finset.mem_range.1 hf), ← bins_total c m ω hω hn]
  obtain ⟨h, hh⟩ : ∃ h, c.nDft = 2 * h := ⟨c.nDft / 2, by omega⟩
  have hnf : nFreq c.nDft c.isreal c.full = h + 1 := by simp [nFreq, hreal, hfull]; omega
  rw [hnf, hreal, doubled_sum _ _ (by omega)]
  have hm := fun f (_ : 1 ≤ f) (hf : f < c.nDft) => binEnergy_mirror c m ω hn hω.pow_eq_one files.flatten w (fitNb c files.flatten.length) f hf.le
  rw [hh] at hm ⊢
  rw [mirror_even h (by omega) _ hm]
  rfl

/-- **C153 (exact, odd).** With an odd number of snapshots per block the last frequency of the axis is not doubled although it has a negative counterpart:
    its eigenvalues are missing from the sum. -/
theorem total_variance_odd_exact (c : Cfg) (ω : ℂ) (hω : IsPrimitiveRoot ω c.nDft) (files : List (List (Arr ℝ))) (w : Arr ℝ) (m : MeanType)
    (A : Accepted c files w m) (hreal : c.isreal = true) (hfull : c.full = false) (hodd : c.nDft % 2 = 1) (h3 : 3 ≤ c.nDft)
    (solver : Solver (fitNb c files.flatten.length)) (hs : SolverFull solver) :
    ∃ out, (∀ r, FitRun c ω files w solver r → r = some out) ∧
      ∑ f ∈ Finset.range (nFreq c.nDft c.isreal c.full), ∑ k, out.eigs f k + ∑ k, out.eigs (c.nDft / 2) k =
        c.nDft / c.win.sum ^ 2 * windowedEnergy c m files.flatten w (fitNb c files.flatten.length) := by
  have hn : 0 < c.nDft := (feasible_nb c _ A.blocks).2
  obtain ⟨out, h1, h2⟩ := eigs_total c ω files w m A solver hs
  refine ⟨out, h1, ?_⟩
  obtain ⟨h, hh⟩ : ∃ h, c.nDft = 2 * h + 1 := ⟨c.nDft / 2, by omega⟩
  have hnf : nFreq c.nDft c.isreal c.full = h + 1 := by simp [nFreq, hreal, hfull]; omega
  have hlast : c.nDft / 2 = h := by omega
  rw [Finset.sum_congr rfl fun f hf => h2 f (Finset.mem_range.1 hf), ← bins_total c m ω hω hn, hlast, h2 h (by omega)]
  have hf1 : oneSidedFactor c.isreal (nFreq c.nDft c.isreal c.full) h = 1 := by rw [hnf]; simp [oneSidedFactor]
  rw [hf1, hnf, hreal, doubled_sum _ _ (by omega)]
  have hm := fun f (_ : 1 ≤ f) (hf : f < c.nDft) => binEnergy_mirror c m ω hn hω.pow_eq_one files.flatten w (fitNb c files.flatten.length) f hf.le
  rw [hh] at hm ⊢
  rw [mirror_odd h _ hm]
  obtain ⟨j, rfl⟩ : ∃ j, h = j + 1 := ⟨h - 1, by omega⟩
  rw [Finset.sum_range_succ (fun i => binEnergy c m ω files.flatten w (fitNb c files.flatten.length) (i + 1)) j]
  simp only [show j + 1 + 1 - 2 = j by omega]
  push_cast
  ring

/-- **C153 (fails, odd).** So the sum is too small whenever the last frequency carries energy. -/
theorem total_variance_odd_fails (c : Cfg) (ω : ℂ) (hω : IsPrimitiveRoot ω c.nDft) (files : List (List (Arr ℝ))) (w : Arr ℝ) (m : MeanType)
    (A : Accepted c files w m) (hreal : c.isreal = true) (hfull : c.full = false) (hodd : c.nDft % 2 = 1) (h3 : 3 ≤ c.nDft)
    (solver : Solver (fitNb c files.flatten.length)) (hs : SolverFull solver) :
    ∃ out, (∀ r, FitRun c ω files w solver r → r = some out) ∧ (0 < ∑ k, out.eigs (c.nDft / 2) k →
      ∑ f ∈ Finset.range (nFreq c.nDft c.isreal c.full), ∑ k, out.eigs f k <
        c.nDft / c.win.sum ^ 2 * windowedEnergy c m files.flatten w (fitNb c files.flatten.length)) := by
  obtain ⟨out, h1, h2⟩ := total_variance_odd_exact c ω hω files w m A hreal hfull hodd h3 solver hs
  exact ⟨out, h1, fun h => by linarith⟩

/-- **C153 (exact, full).** Full spectrum of real data: nearly every frequency is doubled although both signs are present, so the sum is twice the energy
    less the energy of the ends of the axis. -/
theorem total_variance_full_exact (c : Cfg) (ω : ℂ) (hω : IsPrimitiveRoot ω c.nDft) (files : List (List (Arr ℝ))) (w : Arr ℝ) (m : MeanType)
    (A : Accepted c files w m) (hreal : c.isreal = true) (hfull : c.full = true) (h3 : 3 ≤ c.nDft)
    (solver : Solver (fitNb c files.flatten.length)) (hs : SolverFull solver) :
    ∃ out, (∀ r, FitRun c ω files w solver r → r = some out) ∧
      ∑ f ∈ Finset.range (nFreq c.nDft c.isreal c.full), ∑ k, out.eigs f k + ∑ k, out.eigs 0 k + ∑ k, out.eigs (c.nDft - 1) k =
        2 * (c.nDft / c.win.sum ^ 2 * windowedEnergy c m files.flatten w (fitNb c files.flatten.length)) := by
  have hn : 0 < c.nDft := (feasible_nb c _ A.blocks).2
  obtain ⟨out, h1, h2⟩ := eigs_total c ω files w m A solver hs
  refine ⟨out, h1, ?_⟩
  have hnf : nFreq c.nDft c.isreal c.full = c.nDft := by simp [nFreq, hfull]
  rw [Finset.sum_congr rfl fun f hf => h2 f (Finset.mem_range.1 hf), ← bins_total c m ω hω hn, h2 0 (by omega), h2 (c.nDft - 1) (by omega)]
  have hf1 : oneSidedFactor c.isreal c.nDft 0 = 1 := by simp [oneSidedFactor]
  have hf2 : oneSidedFactor c.isreal c.nDft (c.nDft - 1) = 1 := by simp [oneSidedFactor]; omega
  rw [hnf, hf1, hf2, hreal, doubled_sum _ _ (by omega)]
  obtain ⟨j, hj⟩ : ∃ j, c.nDft = j + 2 := ⟨c.nDft - 2, by omega⟩
  generalize binEnergy c m ω files.flatten w (fitNb c files.flatten.length) = g
  rw [hj]
  simp only [show j + 2 - 2 = j by omega, show j + 2 - 1 = j + 1 by omega]
  have : ∑ f ∈ Finset.range (j + 2), g f = (∑ i ∈ Finset.range j, g (i + 1)) + g 0 + g (j + 1) := by
    rw [Finset.sum_range_succ, Finset.sum_range_succ']
  rw [this]
  push_cast
  ring

/-! #### The hypotheses are met -/

theorem ex_accepted : Accepted exCfg exFiles exWeights .longtime where
  shapes := ex_shapes
  axes := by simp [exWeights]
  mean := by decide
  blocks := by
    have hlen : exFiles.flatten.length = 9 := by simp [exFiles]
    rw [hlen]; decide
  overlap := by decide
  window := by simp [exCfg]
  weights := fun x _ => Nat.cast_nonneg _
  many := by simp [exWeights, size]

/-- 4 is even; `-i` is a primitive fourth root -/
example : ∃ (solver : Solver (fitNb exCfg exFiles.flatten.length)) (out : _), SolverFull solver ∧
    (∀ r, FitRun exCfg (-Complex.I) exFiles exWeights solver r → r = some out) ∧
    ∑ f ∈ Finset.range 3, ∑ k, out.eigs f k =
      4 / 6 ^ 2 * windowedEnergy exCfg .longtime exFiles.flatten exWeights (fitNb exCfg exFiles.flatten.length) := by
  obtain ⟨solver, hs⟩ := solver_full_exists (fitNb exCfg exFiles.flatten.length)
  have hI : IsPrimitiveRoot (-Complex.I) 4 := by
    refine IsPrimitiveRoot.mk_of_lt _ (by norm_num) ?_ fun l h0 h4 => ?_
    · rw [neg_pow, Complex.I_pow_four]; norm_num
    · interval_cases l
      · intro h; have := congrArg Complex.im h; simp at this
      · intro h; rw [neg_sq, Complex.I_sq] at h; norm_num at h
      · intro h; rw [show (-Complex.I) ^ 3 = Complex.I by rw [neg_pow, Complex.I_pow_three]; ring] at h
        have := congrArg Complex.im h; simp at this
  obtain ⟨out, h1, h2⟩ := total_variance_partial exCfg (-Complex.I) hI exFiles exWeights .longtime ex_accepted rfl rfl rfl solver hs
  refine ⟨solver, out, hs, h1, ?_⟩
  have : exCfg.win.sum = 6 := by norm_num [exCfg]
  rw [this] at h2
  exact h2

/-- twice the data plus a steady field -/
example (ω : ℂ) : ∃ (solver : Solver (fitNb exCfg exFiles.flatten.length))
    (solver' : Solver (fitNb exCfg [exFiles.flatten.map fun a => (⟨a.shape, fun x => 2 * a.at' x + x.getD 0 0⟩ : Arr ℝ)].flatten.length)) (out : _) (out' : _),
    (∀ r, FitRun exCfg ω exFiles exWeights solver r → r = some out) ∧
    (∀ r, FitRun exCfg ω [exFiles.flatten.map fun a => (⟨a.shape, fun x => 2 * a.at' x + x.getD 0 0⟩ : Arr ℝ)] exWeights solver' r → r = some out') ∧
    ∀ f < 3, ∀ k k', k.1 = k'.1 → out'.eigs f k' = 2 ^ 2 * out.eigs f k := by
  obtain ⟨solver, hs⟩ := solver_full_exists (fitNb exCfg exFiles.flatten.length)
  set files' : List (List (Arr ℝ)) := [exFiles.flatten.map fun a => (⟨a.shape, fun x => 2 * a.at' x + x.getD 0 0⟩ : Arr ℝ)] with hf'
  obtain ⟨solver', hs'⟩ := solver_full_exists (fitNb exCfg files'.flatten.length)
  have hlen : files'.flatten.length = exFiles.flatten.length := by
    rw [hf', List.flatten_cons, List.flatten_nil, List.append_nil, List.length_map]
  have A' : Accepted exCfg files' exWeights .longtime := by
    refine { ex_accepted with shapes := ?_, blocks := by rw [hlen]; exact ex_accepted.blocks }
    intro a ha
    rw [hf', List.flatten_cons, List.flatten_nil, List.append_nil, List.mem_map] at ha
    obtain ⟨a', ha', rfl⟩ := ha
    exact ex_shapes a' ha'
  obtain ⟨out, out', h1, h2, h3⟩ := fit_affine exCfg ω exFiles files' exWeights .longtime ex_accepted A' rfl 2 (fun x => x.getD 0 0)
    (by simp) hlen
    (by
      intro x _ t ht
      rw [hf', List.flatten_cons, List.flatten_nil, List.append_nil]
      rw [List.getD_eq_getElem?_getD, List.getElem?_map, List.getElem?_eq_getElem ht, List.getD_eq_getElem?_getD, List.getElem?_eq_getElem ht]
      rfl) solver solver' hs hs'
  exact ⟨solver, solver', out, out', h1, h2, fun f hf k k' hk => (h3 f hf k k' hk).1⟩

/-- weights multiplied by three -/
example (ω : ℂ) (solver solver' : Solver (fitNb exCfg exFiles.flatten.length)) (hs : SolverFull solver) (hs' : SolverFull solver') :
    ∃ out out', (∀ r, FitRun exCfg ω exFiles exWeights solver r → r = some out) ∧
      (∀ r, FitRun exCfg ω exFiles ⟨[4, 1], fun i => 3 * exWeights.at' i⟩ solver' r → r = some out') ∧ ∀ k, out'.eigs 2 k = 3 * out.eigs 2 k := by
  obtain ⟨out, out', h1, h2, h3⟩ := fit_weights_scaled exCfg ω exFiles exWeights ⟨[4, 1], fun i => 3 * exWeights.at' i⟩ .longtime ex_accepted 3
    (by norm_num) rfl (fun x _ => rfl) solver solver' hs hs'
  exact ⟨out, out', h1, h2, fun k => (h3 2 (by decide) k).1⟩

/-- the four points in reverse order -/
example (ω : ℂ) (solver : Solver (fitNb exCfg exFiles.flatten.length)) (hs : SolverFull solver)
    (w' : Arr ℝ) (hw' : w' = ⟨[4, 1], fun i => exWeights.at' [3 - i.getD 0 0, 0]⟩) (files' : List (List (Arr ℝ)))
    (hf' : files' = [exFiles.flatten.map fun a => ⟨[4, 1], fun i => a.at' [3 - i.getD 0 0, 0]⟩])
    (solver' : Solver (fitNb exCfg files'.flatten.length)) (hs' : SolverFull solver') :
    ∃ out out', (∀ r, FitRun exCfg ω exFiles exWeights solver r → r = some out) ∧
      (∀ r, FitRun exCfg ω files' w' solver' r → r = some out') ∧ ∀ k k', k.1 = k'.1 → out'.eigs 2 k' = out.eigs 2 k := by
  have hlen : files'.flatten.length = exFiles.flatten.length := by
    rw [hf', List.flatten_cons, List.flatten_nil, List.append_nil, List.length_map]
  subst hw'
  have A' : Accepted exCfg files' ⟨[4, 1], fun i => exWeights.at' [3 - i.getD 0 0, 0]⟩ .longtime := by
    refine { ex_accepted with shapes := ?_, blocks := by rw [hlen]; exact ex_accepted.blocks, axes := by simp, weights := ?_, many := by simp [size] }
    · intro a ha
      rw [hf', List.flatten_cons, List.flatten_nil, List.append_nil, List.mem_map] at ha
      obtain ⟨a', -, rfl⟩ := ha
      rfl
    · exact fun x _ => Nat.cast_nonneg _
  have hun : ∀ y : Fin 4, [3 - (unravel [4, 1] y).getD 0 0, 0] = unravel [4, 1] (Fin.rev y) := by decide
  obtain ⟨out, out', h1, h2, h3⟩ := fit_reordered exCfg ω exFiles files' exWeights ⟨[4, 1], fun i => exWeights.at' [3 - i.getD 0 0, 0]⟩ .longtime
    ex_accepted A' hlen (Fin.revPerm : Equiv.Perm (Fin 4))
    (by
      intro y
      exact congrArg exWeights.at' (hun y))
    (by
      intro y t ht
      rw [hf', List.flatten_cons, List.flatten_nil, List.append_nil]
      rw [List.getD_eq_getElem?_getD, List.getElem?_map, List.getElem?_eq_getElem ht, List.getD_eq_getElem?_getD, List.getElem?_eq_getElem ht]
      exact congrArg (exFiles.flatten[t]).at' (hun y)) solver solver' hs hs'
  exact ⟨out, out', h1, h2, fun k k' hk => (h3 2 (by decide) k k' hk).1⟩

/-- a full spectrum: the second and the last frequency -/
example (solver : Solver (fitNb { exCfg with full := true } exFiles.flatten.length)) (hs : SolverFull solver) :
    ∃ out, (∀ r, FitRun { exCfg with full := true } (-Complex.I) exFiles exWeights solver r → r = some out) ∧ ∀ k, out.eigs 1 k = 2 * out.eigs 3 k :=
  full_spectrum_fails { exCfg with full := true } (-Complex.I)
    (by show (-Complex.I) ^ 4 = 1; rw [neg_pow, Complex.I_pow_four]; norm_num) exFiles exWeights .longtime
    ⟨ex_accepted.shapes, ex_accepted.axes, ex_accepted.mean, ex_accepted.blocks, ex_accepted.overlap, ex_accepted.window, ex_accepted.weights,
      ex_accepted.many⟩ rfl rfl (by decide) solver hs

/-- optimality and independence of the library, on one rank and on two -/
theorem ex_noSingleton : NoSingleton exWeights 2 := by
  intro ax hax r hr
  have : ax = 0 := by
    have h := hax.1
    have h0 := hax.2.1 0 (by simp [exWeights])
    simp only [exWeights, List.length_cons, List.length_nil] at h
    interval_cases ax
    · rfl
    · revert h0; simp [exWeights]
  subst this
  interval_cases r <;> simp [exWeights, size, countOf, ext, blockdist]

example (ω : ℂ) (solver solver' : Solver (fitNb exCfg exFiles.flatten.length)) (hs : SolverFull solver) (hs' : SolverFull solver')
    (s : (β : Type) → List (Write β) → List (Write β)) (hsc : ∀ β l, (s β l).Perm l) :
    ∃ out out', fitParallel exCfg ω exFiles exWeights solver 2 s = some out ∧ fitSerial exCfg ω exFiles exWeights solver' = some out' ∧
      out'.eigs 1 = out.eigs 1 := by
  have A := ex_accepted
  obtain ⟨out, out', h1, -, -, h4, h5⟩ := fit_library_independent exCfg ω exFiles exWeights A.shapes A.axes .longtime A.mean A.blocks A.overlap A.window
    A.weights solver solver' hs hs' A.many 2 2 (by norm_num) (by norm_num) ex_noSingleton ex_noSingleton s s hsc hsc
  exact ⟨out, out', h1, h4, (h5 1 (by decide)).1⟩

example (ω : ℂ) (solver : Solver (fitNb exCfg exFiles.flatten.length)) (hs : SolverFull solver)
    (s : (β : Type) → List (Write β) → List (Write β)) (hsc : ∀ β l, (s β l).Perm l) :
    ∃ out, fitParallel exCfg ω exFiles exWeights solver 2 s = some out ∧
      ∀ ψ : Fin 2 → Fin (size exWeights.shape) → ℂ, OrthonormalW (specW exWeights) ψ →
        2 * captured (specW exWeights) (specQ exCfg .longtime ω exFiles.flatten [4, 1] (fitNb exCfg exFiles.flatten.length) 1) ψ ≤
          ∑ k, if k.1 < 2 then out.eigs 1 k else 0 := by
  have A := ex_accepted
  obtain ⟨out, h1, -, h3⟩ := spod_optimal exCfg ω exFiles exWeights A.shapes A.axes .longtime A.mean A.blocks A.overlap A.window
    A.weights solver hs A.many 2 (by norm_num) ex_noSingleton s hsc
  refine ⟨out, h1, fun ψ hψ => ?_⟩
  have := (h3 1 (by decide)).1 2 ψ hψ
  have e : oneSidedFactor exCfg.isreal (nFreq exCfg.nDft exCfg.isreal exCfg.full) 1 = 2 := by decide
  rw [e] at this
  exact_mod_cast this

end Verif.Props
