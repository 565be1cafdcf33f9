import Verif.Model.RealIfClose
import Verif.Props.Rounding
/-
  C235: the reported spectrum of a fit in floating-point arithmetic.
-/
namespace Verif.Props
open Verif Verif.Par Verif.Round Verif.Fit Verif.Spod Verif.Close Finset

/-- the reported values of numbers near a list of non-negative numbers -/
theorem reported_near {nb : Nat} (close : Prop) [Decidable close] (fac : Nat) (L : Fin nb → ℂ) (σ : Equiv.Perm (Fin nb)) (hσ : Sorted close L σ)
    (e : Fin nb → ℝ) (he : ∀ k, 0 ≤ e k) (B : ℝ) (h : ∀ k, ∃ k', ‖(fac : ℂ) * L k - e k'‖ ≤ B) :
    (∀ i, ∃ k, |reported close fac L σ i - e k| ≤ B) ∧ (∀ i j, i ≤ j → reported close fac L σ j ≤ reported close fac L σ i + 2 * B) ∧
    (∀ i, B < reported close fac L σ i → ∃ z, modeFactor close L σ i = some z ∧ ‖z‖ ^ 2 * nb * reported close fac L σ i = fac) ∧
    ∀ i, |(|(fac : ℝ) * (L i).re|) - ‖(fac : ℂ) * L i‖| ≤ B := by
  have hparts : ∀ k, |fac * (L k).im| ≤ B ∧ -B ≤ fac * (L k).re := by
    intro k
    obtain ⟨k', hk'⟩ := h k
    refine ⟨(near_parts fac (L k) (e k') B (he k') hk').2, ?_⟩
    have h1 := (Complex.abs_re_le_norm ((fac : ℂ) * L k - e k')).trans hk'
    simp only [Complex.sub_re, Complex.mul_re, Complex.natCast_re, Complex.natCast_im, zero_mul, sub_zero, Complex.ofReal_re] at h1
    have := (abs_le.1 h1).1
    have := he k'
    linarith
  have hfac : (0 : ℝ) ≤ fac := Nat.cast_nonneg _
  have hnorm : ∀ k, ‖(fac : ℂ) * L k‖ ≤ |fac * (L k).re| + |fac * (L k).im| := by
    intro k
    have := Complex.norm_le_abs_re_add_abs_im ((fac : ℂ) * L k)
    simpa [Complex.mul_re, Complex.mul_im] using this
  have hre : ∀ k, |(fac : ℝ) * (L k).re| ≤ ‖(fac : ℂ) * L k‖ := by
    intro k
    have := Complex.abs_re_le_norm ((fac : ℂ) * L k)
    simpa [Complex.mul_re] using this
  have habs : ∀ k, |fac * (L k).re| ≤ max (fac * (L k).re) B := by
    intro k
    rcases le_total 0 (fac * (L k).re) with h0 | h0
    · rw [abs_of_nonneg h0]; exact le_max_left _ _
    · rw [abs_of_nonpos h0]; exact le_max_of_le_right (by linarith [(hparts k).2])
  refine ⟨fun i => ?_, fun i j hij => ?_, fun i hi => ?_, fun i => ?_⟩
  · obtain ⟨k, hk⟩ := h (σ i)
    refine ⟨k, ?_⟩
    unfold reported
    split
    · exact (near_parts fac _ _ B (he k) hk).1
    · have h4 := abs_norm_sub_norm_le ((fac : ℂ) * L (σ i)) (e k : ℂ)
      rw [Complex.norm_real, Real.norm_of_nonneg (he k)] at h4
      exact h4.trans hk
  · have hB : 0 ≤ B := (abs_nonneg _).trans (hparts i).1
    have hmono : fac * (L (σ j)).re ≤ fac * (L (σ i)).re := by
      refine mul_le_mul_of_nonneg_left ?_ hfac
      by_cases hc : close
      · exact hσ.1 hc i j hij
      · rcases hσ.2 hc i j hij with h1 | h1
        · exact h1.le
        · exact h1.1.le
    have h1 := habs (σ j)
    have h2 : max (fac * (L (σ j)).re) B ≤ |fac * (L (σ i)).re| + B := by
      refine max_le ?_ (by linarith [abs_nonneg (fac * (L (σ i)).re)])
      have := le_abs_self (fac * (L (σ i)).re)
      linarith
    unfold reported
    split
    · linarith
    · have := hnorm (σ j)
      have := (hparts (σ j)).1
      have := hre (σ i)
      linarith
  · have hB : 0 ≤ B := (abs_nonneg _).trans (hparts i).1
    have hnb : (0 : ℝ) < nb := Nat.cast_pos.2 (Nat.lt_of_le_of_lt (Nat.zero_le _) i.2)
    unfold reported at hi ⊢
    unfold modeFactor
    split at hi
    · have h0 : 0 < (L (σ i)).re := by
        by_contra hn
        push Not at hn
        have h0 : fac * (L (σ i)).re ≤ 0 := mul_nonpos_of_nonneg_of_nonpos hfac hn
        rw [abs_of_nonpos h0] at hi
        linarith [(hparts (σ i)).2]
      rw [if_pos ‹_›, if_pos h0, if_pos ‹_›]
      refine ⟨_, rfl, ?_⟩
      rw [Complex.norm_real, Real.norm_eq_abs, sq_abs, div_pow, mul_pow, Real.sq_sqrt hnb.le, Real.sq_sqrt h0.le, abs_of_nonneg (mul_nonneg hfac h0.le)]
      field_simp
    · have h0 : L (σ i) ≠ 0 := by
        intro h0
        rw [h0, mul_zero, norm_zero] at hi
        linarith
      rw [if_neg ‹_›, if_neg h0, if_neg ‹_›]
      refine ⟨_, rfl, ?_⟩
      have h1 : ‖L (σ i) ^ (1 / 2 : ℂ)‖ ^ 2 = ‖L (σ i)‖ := by
        rw [← norm_pow, ← Complex.cpow_nat_mul]
        simp
      have h2 : 0 < ‖L (σ i)‖ := norm_pos_iff.2 h0
      rw [norm_div, norm_one, norm_mul, Complex.norm_real, Real.norm_eq_abs, div_pow, mul_pow, sq_abs, Real.sq_sqrt hnb.le, h1, norm_mul, Complex.norm_natCast]
      field_simp
  · have h1 := hnorm i
    have h2 := hre i
    have h3 := (hparts i).1
    rw [abs_le]
    constructor <;> linarith

/-- **C235.** The spectrum that a fit reports in floating-point arithmetic (as in C231: unit roundoff `u`, any ranks, any order; eigenvectors `v f k` with residual at
    most `δ`).  With `B` the rounding bound of C231 at a frequency: whether or not the values pass `np.real_if_close` with tolerance `τ`, every reported value is an
    exact eigenvalue up to `B`; they descend up to `2 B`; the factors of the modes of reported values above `B` are
    numbers (not nan or inf) of squared modulus `1 / (blocks × eigenvalue)`, before the doubling of the one-sided spectrum; and the two ways of
    reporting a value differ by at most `B`. -/
theorem reported_floating (c : Cfg) (ω : ℂ) (files : List (List (Arr ℝ))) (w : Arr ℝ) (m : MeanType) (A : Accepted c files w m)
    (solver : Solver (fitNb c files.flatten.length)) (hs : SolverFull solver) :
    ∃ out, (∀ r, FitRun c ω files w solver r → r = some out) ∧
      ∀ (u : ℝ), 0 ≤ u → ∀ (comms : List Comm), Procs comms → ∀ ax < w.shape.length, ∀ (n : Nat),
      (∀ comm ∈ comms, size (distributeDimension w ax comm).shape ≤ n) →
      ∀ Mh : Nat → Matrix (Fin (fitNb c files.flatten.length)) (Fin (fitNb c files.flatten.length)) ℂ,
      (∀ f < nFreq c.nDft c.isreal c.full, ∀ i j : Fin (fitNb c files.flatten.length),
        FlGram u comms ax (fourierBlocks c m ω files.flatten w.shape f) w (fitNb c files.flatten.length) i j (Mh f i j)) →
      ∀ (L : Nat → Fin (fitNb c files.flatten.length) → ℂ) (v : Nat → Fin (fitNb c files.flatten.length) → EuclideanSpace ℂ (Fin (fitNb c files.flatten.length)))
        (δ : ℝ), (∀ f < nFreq c.nDft c.isreal c.full, ∀ k, v f k ≠ 0 ∧
          ‖WithLp.toLp 2 ((Mh f).mulVec (v f k).ofLp) - L f k • v f k‖ ≤ δ * ‖v f k‖) →
      ∀ (τ : ℝ) [Decidable (AllClose τ (nFreq c.nDft c.isreal c.full) L)] (σ : Nat → Equiv.Perm (Fin (fitNb c files.flatten.length))),
      (∀ f < nFreq c.nDft c.isreal c.full, Sorted (AllClose τ (nFreq c.nDft c.isreal c.full) L) (L f) (σ f)) →
      ∀ f < nFreq c.nDft c.isreal c.full,
        let fac := oneSidedFactor c.isreal (nFreq c.nDft c.isreal c.full) f
        let B := roundBound u n comms.length * (∑ k, out.eigs f k) + fac * δ
        let rep := reported (AllClose τ (nFreq c.nDft c.isreal c.full) L) fac (L f) (σ f)
        (∀ i, ∃ k, |rep i - out.eigs f k| ≤ B) ∧ (∀ i j, i ≤ j → rep j ≤ rep i + 2 * B) ∧
        (∀ i, B < rep i → ∃ z, modeFactor (AllClose τ (nFreq c.nDft c.isreal c.full) L) (L f) (σ f) i = some z ∧
          ‖z‖ ^ 2 * fitNb c files.flatten.length * rep i = fac) ∧
        ∀ i, |(|(fac : ℝ) * (L f i).re|) - ‖(fac : ℂ) * L f i‖| ≤ B := by
  obtain ⟨out, h1, h2⟩ := fit_rounding c ω files w m A solver hs
  obtain ⟨out', h3, h4⟩ := fit_eigsAt c ω files w m A solver
  have ho : out' = out := Option.some.inj ((h3 _ (Or.inl rfl)).symm.trans (h1 _ (Or.inl rfl)))
  subst ho
  refine ⟨out', h1, fun u hu comms hc ax hax n hn Mh hMh L v δ hv τ _ σ hσ f hf => ?_⟩
  refine reported_near _ _ (L f) (σ f) (hσ f hf) (out'.eigs f) ?_ _ fun k => ?_
  · intro k
    rw [h4 f hf]
    exact (eigsAt_basis _ _ (specW_nonneg A) solver hs _).2.1 k
  · obtain ⟨k', hk'⟩ := (h2 f hf u hu comms hc ax hax n hn (Mh f) (hMh f hf)).2.2 (L f k) δ (v f k) (hv f hf k).1 (hv f hf k).2
    rw [Complex.ofReal_natCast] at hk'
    exact ⟨k', hk'⟩


/-! ### Cases -/

/-- the tolerance of `np.real_if_close` is absolute: whether values with imaginary parts are reported as moduli or as absolute real parts depends on the units of the data -/
theorem close_units {nb : Nat} (τ : ℝ) (hτ : 0 < τ) (L : Fin nb → ℂ) (k : Fin nb) (hk : (L k).im ≠ 0) :
    (∃ c : ℝ, 0 < c ∧ ¬ AllClose τ 1 fun _ k => (c : ℂ) * L k) ∧ ∃ c : ℝ, 0 < c ∧ AllClose τ 1 fun _ k => (c : ℂ) * L k := by
  have hpos := abs_pos.2 hk
  constructor
  · refine ⟨τ / |(L k).im|, div_pos hτ hpos, fun h => ?_⟩
    have := h 0 (by omega) k
    rw [Complex.mul_im, Complex.ofReal_re, Complex.ofReal_im, zero_mul, add_zero, abs_mul, abs_of_pos (div_pos hτ hpos), div_mul_cancel₀ _ hpos.ne'] at this
    exact lt_irrefl _ this
  · have hs : 0 ≤ ∑ k, |(L k).im| := sum_nonneg fun _ _ => abs_nonneg _
    have hp : 0 < (∑ k, |(L k).im|) + 1 := by linarith
    refine ⟨τ / ((∑ k, |(L k).im|) + 1), div_pos hτ hp, fun f _ j => ?_⟩
    rw [Complex.mul_im, Complex.ofReal_re, Complex.ofReal_im, zero_mul, add_zero, abs_mul, abs_of_pos (div_pos hτ hp), div_mul_eq_mul_div, div_lt_iff₀ hp]
    have : |(L j).im| ≤ ∑ k, |(L k).im| := single_le_sum (f := fun k => |(L k).im|) (fun _ _ => abs_nonneg _) (mem_univ j)
    nlinarith

/-- one point, two equal blocks: the floating-point matrix `[[1, 1 + u], [1 + u, 1]] / 2` is possible … -/
theorem rank_one_possible (u : ℝ) (hu : 0 ≤ u) (i j : Fin 2) :
    FlGram u [none] 0 (fun _ => ⟨[1], fun _ => 1⟩) ⟨[1], fun _ => 1⟩ 2 i j ((if i = j then 1 / 2 else (1 + u) / 2 : ℝ) : ℂ) := by
  refine ⟨[((if i = j then 1 / 2 else (1 + u) / 2 : ℝ) : ℂ)], .cons ?_ .nil, Or.inr ⟨.rank _, List.Perm.refl _, rfl⟩, Or.inr ⟨.rank _, List.Perm.refl _, rfl⟩⟩
  refine ⟨fun _ => 1, 1, fun k _ => ⟨?_, ?_⟩, ?_, ?_, ?_, ?_⟩
  · simp [distributeDimension, Rounds]; exact hu
  · simp [distributeDimension, Rounds]
  · have := dot_exact hu (dotRe (fun k => (1 : ℂ)) (fun _ => 1) 1)
    simpa [dotRe, distributeDimension, size] using this
  · have := dot_exact hu (dotIm (fun k => (1 : ℂ)) (fun _ => 1) 1)
    simpa [dotIm, distributeDimension, size] using this
  · simp only [Rounds, Complex.one_re, Complex.ofReal_re]
    split
    · simp; positivity
    · rw [show (1 + u) / 2 - 1 / 2 = u * (1 / 2) by ring, abs_mul, abs_of_nonneg hu]
  · simp [Rounds]

/-- … its eigenvalue `-u/2` is reported as `u/2`, where the exact one is 0, and its mode is nan -/
theorem rank_one_nan (u τ : ℝ) (hu : 0 < u) (hτ : 0 < τ) [Decidable (AllClose τ 1 fun _ (k : Fin 2) => ((![1 + u / 2, -u / 2] k : ℝ) : ℂ))] :
    let Mh : Matrix (Fin 2) (Fin 2) ℂ := Matrix.of fun i j => ((if i = j then 1 / 2 else (1 + u) / 2 : ℝ) : ℂ)
    let L : Nat → Fin 2 → ℂ := fun _ k => ((![1 + u / 2, -u / 2] k : ℝ) : ℂ)
    (Mh.mulVec ![1, 1] = L 0 0 • ![1, 1] ∧ Mh.mulVec ![1, -1] = L 0 1 • ![1, -1]) ∧ AllClose τ 1 L ∧ Sorted (AllClose τ 1 L) (L 0) 1 ∧
    reported (AllClose τ 1 L) 1 (L 0) 1 1 = u / 2 ∧ modeFactor (AllClose τ 1 L) (L 0) 1 1 = none := by
  intro Mh L
  have hc : AllClose τ 1 L := fun f _ k => by simpa [L] using hτ
  refine ⟨⟨?_, ?_⟩, hc, ⟨fun _ i j hij => ?_, fun h => absurd hc h⟩, ?_, ?_⟩
  · ext i
    fin_cases i <;> simp [Mh, L, Matrix.mulVec, dotProduct, Fin.sum_univ_two] <;> ring
  · ext i
    fin_cases i <;> simp [Mh, L, Matrix.mulVec, dotProduct, Fin.sum_univ_two] <;> ring
  · fin_cases i <;> fin_cases j <;> simp [L] at hij ⊢
    linarith
  · unfold reported
    rw [if_pos hc]
    simp only [L, Equiv.Perm.coe_one, id, Complex.ofReal_re, Matrix.cons_val_one, Nat.cast_one, one_mul, Matrix.cons_val_fin_one]
    rw [show -u / 2 = -(u / 2) by ring, abs_neg, abs_of_pos (by linarith)]
  · unfold modeFactor
    rw [if_pos hc, if_neg]
    simp only [L, Equiv.Perm.coe_one, id, Complex.ofReal_re, Matrix.cons_val_one, Matrix.cons_val_fin_one]
    linarith

end Verif.Props
