import Verif.Props.Patterns
import Verif.Props.Perturb
/-
  C237: records that repeat themselves from block to block.
-/
set_option linter.unusedSimpArgs false
namespace Verif.Props
open Verif Verif.Par Verif.Rd Verif.Spod Verif.Fit Matrix
open scoped ComplexConjugate

/-- eigenvalues and first mode of realizations `a x * G b` -/
theorem spod_pattern_complex {X : Type} [Fintype X] [DecidableEq X] {n : Nat} (hn : 0 < n) (w : X → ℝ) (hw : ∀ x, 0 ≤ w x) (a : X → ℂ) (G : Fin n → ℂ)
    (Q : Matrix X (Fin n) ℂ) (hQ : ∀ x b, Q x b = a x * G b) (r : (Fin n → ℂ) × Matrix (Fin n) (Fin n) ℂ × Equiv.Perm (Fin n))
    (a1 : EigPairs (crossSpectral Q w) r.1 r.2.1) (a2 : IsUnit r.2.1.det) (a3 : ArgsortDesc (realIfClose r.1) r.2.2) (fac : Nat) (k : Fin n) :
    (spodFreq Q r.1 r.2.1 r.2.2 fac).1 k = (if k.1 = 0 then (fac : ℝ) * ((∑ x, w x * ‖a x‖ ^ 2) * (∑ b, ‖G b‖ ^ 2) / n) else 0) ∧
    (k.1 = 0 → 0 < (∑ x, w x * ‖a x‖ ^ 2) * (∑ b, ‖G b‖ ^ 2) → ∃ z : ℂ, ‖z‖ = 1 ∧ ∀ x, (spodFreq Q r.1 r.2.1 r.2.2 fac).2 x k =
      z * (a x / (Real.sqrt (∑ x, w x * ‖a x‖ ^ 2) : ℂ))) := by
  set N : ℝ := ∑ x, w x * ‖a x‖ ^ 2 with hN
  set S : ℝ := ∑ b, ‖G b‖ ^ 2 with hS
  have hN0 : 0 ≤ N := Finset.sum_nonneg fun x _ => mul_nonneg (hw x) (sq_nonneg _)
  have hS0 : 0 ≤ S := Finset.sum_nonneg fun b _ => sq_nonneg _
  have hnR : (0 : ℝ) < n := by exact_mod_cast hn
  have hnC : (n : ℂ) ≠ 0 := by exact_mod_cast hn.ne'
  set T : ℝ := N * S / n with hT
  have hT0 : 0 ≤ T := div_nonneg (mul_nonneg hN0 hS0) hnR.le
  have hM : ∀ i j, crossSpectral Q w i j = ((N / n : ℝ) : ℂ) * (conj (G i) * G j) := by
    intro i j
    rw [crossSpectral_apply]
    unfold inner_W
    simp only [hQ, map_mul, Complex.conj_ofReal]
    rw [hN]
    push_cast
    rw [Finset.sum_div, Finset.sum_mul, Finset.mul_sum]
    refine Finset.sum_congr rfl fun x _ => ?_
    rw [← Complex.mul_conj' (a x)]
    field_simp
  have hGG : ∑ b, G b * conj (G b) = (S : ℂ) := by
    rw [hS]; push_cast
    exact Finset.sum_congr rfl fun b _ => by rw [Complex.mul_conj']
  -- eigenvectors
  have hv : ∀ j i, ((N / n : ℝ) : ℂ) * conj (G i) * (∑ b, G b * r.2.1 b j) = r.1 j * r.2.1 i j := by
    intro j i
    have := congrFun (a1 j).1 i
    simp only [mulVec, dotProduct, Pi.smul_apply, smul_eq_mul, hM] at this
    rw [← this, Finset.mul_sum]
    exact Finset.sum_congr rfl fun b _ => by ring
  have hL : ∀ j, r.1 j = 0 ∨ r.1 j = (T : ℂ) := by
    intro j
    by_cases h0 : r.1 j = 0
    · exact Or.inl h0
    right
    have e1 : (T : ℂ) * (∑ b, G b * r.2.1 b j) = r.1 j * ∑ b, G b * r.2.1 b j := by
      rw [Finset.mul_sum (s := Finset.univ) (a := r.1 j)]
      rw [Finset.sum_congr rfl fun i _ => show r.1 j * (G i * r.2.1 i j) = G i * conj (G i) * (((N / n : ℝ) : ℂ) * ∑ b, G b * r.2.1 b j) by
        have := hv j i
        linear_combination (-(G i)) * this]
      rw [← Finset.sum_mul, hGG, hT]
      push_cast; ring
    have e2 : (∑ b, G b * r.2.1 b j) ≠ 0 := by
      intro h
      have hz : ∀ i, r.2.1 i j = 0 := by
        intro i
        have := hv j i
        rw [h, mul_zero] at this
        exact (mul_eq_zero.1 this.symm).resolve_left h0
      have := (a1 j).2
      simp [hz] at this
    exact (mul_right_cancel₀ e2 e1).symm
  have hsum : ∑ j, r.1 j = (T : ℂ) := by
    rw [total_energy Q w r.1 r.2.1 a1 a2]
    have : ∀ b, inner_W w (fun x => Q x b) (fun x => Q x b) = (N : ℂ) * (G b * conj (G b)) := by
      intro b
      unfold inner_W
      simp only [hQ, map_mul, Complex.conj_ofReal]
      rw [hN]; push_cast
      rw [Finset.sum_mul]
      exact Finset.sum_congr rfl fun x _ => by rw [← Complex.mul_conj' (a x)]; ring
    rw [Finset.sum_congr rfl fun b _ => this b, ← Finset.mul_sum, hGG, hT]
    push_cast; ring
  -- sorted: the first is T, the others vanish
  have hre : ∀ j, reorderL (realIfClose r.1) r.2.2 j = if j.1 = 0 then T else 0 := by
    have hval : ∀ j, reorderL (realIfClose r.1) r.2.2 j = 0 ∨ reorderL (realIfClose r.1) r.2.2 j = T := by
      intro j
      rcases hL (r.2.2 j) with h | h
      · left; simp [reorderL, realIfClose, h]
      · right; simp [reorderL, realIfClose, h]
    have hs : ∑ j, reorderL (realIfClose r.1) r.2.2 j = T := by
      have h1 : ∑ j, realIfClose r.1 j = T := by
        have := congrArg Complex.re hsum
        rw [Complex.re_sum] at this
        simpa [realIfClose] using this
      rw [← h1]
      exact Equiv.sum_comp r.2.2 fun j => realIfClose r.1 j
    have hanti : ∀ i j : Fin n, i ≤ j → reorderL (realIfClose r.1) r.2.2 j ≤ reorderL (realIfClose r.1) r.2.2 i := fun i j hij => a3 i j hij
    generalize reorderL (realIfClose r.1) r.2.2 = R at hval hs hanti
    rcases hT0.eq_or_lt with h0 | hpos
    · intro j
      have : R j = 0 := by rcases hval j with h | h; exact h; rw [h, ← h0]
      rw [this]; split <;> simp [← h0]
    · have hz : R ⟨0, hn⟩ = T := by
        rcases hval ⟨0, hn⟩ with h | h
        · exfalso
          have : ∀ j, R j = 0 := by
            intro j
            rcases hval j with h' | h'
            · exact h'
            · have := hanti ⟨0, hn⟩ j (Nat.zero_le _)
              rw [h, h'] at this; linarith
          rw [Finset.sum_eq_zero fun j _ => this j] at hs
          linarith
        · exact h
      intro j
      split
      · rename_i hj
        obtain rfl : j = ⟨0, hn⟩ := Fin.ext hj
        exact hz
      · rename_i hj
        rw [← Finset.add_sum_erase _ _ (Finset.mem_univ (⟨0, hn⟩ : Fin n)), hz] at hs
        have h0 : ∑ i ∈ Finset.univ.erase (⟨0, hn⟩ : Fin n), R i = 0 := by linarith
        have := (Finset.sum_eq_zero_iff_of_nonneg (fun i _ => by rcases hval i with h | h <;> rw [h]; exact hT0)).1 h0
        exact this j (Finset.mem_erase.2 ⟨fun h => hj (by rw [h]), Finset.mem_univ _⟩)
  refine ⟨?_, fun hk hpos => ?_⟩
  · simp only [spodFreq, eigsOut, hre]
    split
    · rw [abs_of_nonneg (by positivity)]
    · simp
  · have hNp : 0 < N := by
      rcases hN0.eq_or_lt with h | h
      · rw [← h, zero_mul] at hpos; exact absurd hpos (lt_irrefl _)
      · exact h
    have hTp : 0 < T := div_pos hpos hnR
    set j := r.2.2 k with hj
    have hLj : r.1 j = (T : ℂ) := by
      rcases hL j with h | h
      · have := hre k
        rw [if_pos hk] at this
        simp only [reorderL, realIfClose, ← hj, h, Complex.zero_re] at this
        linarith
      · exact h
    set g := ∑ b, G b * r.2.1 b j with hg
    have hg2 : ‖g‖ ^ 2 * N = T * n := by
      have h1 := (a1 j).2
      have h2 : ∀ i, r.2.1 i j = ((N / n : ℝ) : ℂ) / (T : ℂ) * conj (G i) * g := by
        intro i
        have := hv j i
        rw [hLj] at this
        have hTC : (T : ℂ) ≠ 0 := by exact_mod_cast hTp.ne'
        field_simp
        linear_combination -this
      have h3 : ∑ i, conj (r.2.1 i j) * r.2.1 i j = ((N / n / T * (N / n / T) * S * ‖g‖ ^ 2 : ℝ) : ℂ) := by
        rw [Finset.sum_congr rfl fun i _ => show conj (r.2.1 i j) * r.2.1 i j =
          ((N / n : ℝ) : ℂ) / (T : ℂ) * (((N / n : ℝ) : ℂ) / (T : ℂ)) * (g * conj g) * (G i * conj (G i)) by
            rw [h2 i]; simp only [map_mul, map_div₀, Complex.conj_ofReal, Complex.conj_conj]; ring]
        rw [← Finset.mul_sum, hGG, Complex.mul_conj']
        push_cast; ring
      rw [h3] at h1
      have h4 : N / n / T * (N / n / T) * S * ‖g‖ ^ 2 = 1 := by exact_mod_cast h1
      have h5 : N * S = T * n := by rw [hT]; field_simp
      field_simp at h4
      have : N * (‖g‖ ^ 2 * N * S) = N * (T * n * S) := by
        nlinarith [h4, h5]
      have hSp : 0 < S := by
        rcases hS0.eq_or_lt with h | h
        · rw [← h, mul_zero] at hpos; exact absurd hpos (lt_irrefl _)
        · exact h
      have h6 := mul_left_cancel₀ hNp.ne' this
      exact mul_right_cancel₀ hSp.ne' h6
    refine ⟨g * ((Real.sqrt N / (Real.sqrt n * Real.sqrt T) : ℝ) : ℂ), ?_, fun x => ?_⟩
    · rw [norm_mul, Complex.norm_real, Real.norm_of_nonneg (by positivity)]
      rw [← abs_of_nonneg (show 0 ≤ ‖g‖ * (Real.sqrt N / (Real.sqrt n * Real.sqrt T)) by positivity), ← _root_.abs_one, ← sq_eq_sq_iff_abs_eq_abs, mul_pow,
        div_pow, mul_pow, Real.sq_sqrt hN0, Real.sq_sqrt hnR.le, Real.sq_sqrt hT0, one_pow]
      rw [← mul_div_assoc, hg2, mul_comm, div_self (by positivity)]
    · simp only [spodFreq, phiAll, Matrix.mul_apply, Matrix.of_apply, reorderV, hre, if_pos hk, hQ]
      rw [← hj, Finset.sum_congr rfl fun b _ => show a x * G b * (r.2.1 b j * ((1 / (Real.sqrt n * Real.sqrt T) : ℝ) : ℂ)) =
        a x * ((1 / (Real.sqrt n * Real.sqrt T) : ℝ) : ℂ) * (G b * r.2.1 b j) by ring, ← Finset.mul_sum, ← hg]
      have hsN : Real.sqrt N ≠ 0 := (Real.sqrt_pos.2 hNp).ne'
      have hsNC : ((Real.sqrt N : ℝ) : ℂ) ≠ 0 := by exact_mod_cast hsN
      push_cast
      field_simp


/-- **C237.** Data with a period `T` that divides the distance between blocks, any mean type, with or without normalisation, any number of ranks, any correct
    library.  Then all blocks have the same Fourier coefficients `h f x`; at every frequency the first eigenvalue is their weighted energy, all others vanish, and where it is not zero
    the first mode is `h f` divided by its norm, up to a factor of modulus one. -/
theorem fit_periodic (c : Cfg) (ω : ℂ) (files : List (List (Arr ℝ))) (w : Arr ℝ) (m : MeanType) (A : Accepted c files w m)
    (T : Nat) (hT : T ∣ ((c.nDft : Int) - c.nOvlp).toNat) (h : ∀ x, InRange w.shape x → ∀ t, t + T < files.flatten.length →
      (files.flatten.getD (t + T) ⟨[], fun _ => 0⟩).at' x = (files.flatten.getD t ⟨[], fun _ => 0⟩).at' x)
    (solver : Solver (fitNb c files.flatten.length)) (hs : SolverFull solver) :
    let hat := fun f x => specHat c m ω (files.flatten.map fun a => a.at' x) f 0
    let energy := fun f => ∑ x : Fin (size w.shape), w.at' (unravel w.shape x) * ‖hat f (unravel w.shape x)‖ ^ 2
    ∃ out, (∀ r, FitRun c ω files w solver r → r = some out) ∧
      ∀ f < nFreq c.nDft c.isreal c.full,
        (∀ k, out.eigs f k = if k.1 = 0 then (oneSidedFactor c.isreal (nFreq c.nDft c.isreal c.full) f : ℝ) * energy f else 0) ∧
        (0 < c.nSave → 0 < energy f → ∃ z : ℂ, ‖z‖ = 1 ∧ ∀ x, InRange w.shape x →
          fileEntry (out.modes f) (x ++ [0]) = some (z * (hat f x / (Real.sqrt (energy f) : ℂ)))) := by
  intro hat energy
  obtain ⟨out, h1, h2⟩ := fit_runs c ω files w m A solver
  refine ⟨out, h1, fun f hf => ?_⟩
  obtain ⟨e1, e2⟩ := h2 f hf
  have hnb : 0 < fitNb c files.flatten.length := by
    have := (feasible_nb c _ A.blocks).1
    omega
  set d := ((c.nDft : Int) - c.nOvlp).toNat with hd
  obtain ⟨q, hq⟩ := hT
  have hper : ∀ x, InRange w.shape x → ∀ k t, t + k * T < files.flatten.length →
      (files.flatten.map fun a => a.at' x).getD (t + k * T) 0 = (files.flatten.map fun a => a.at' x).getD t 0 := by
    intro x hx k
    induction k with
    | zero => intro t ht; rw [Nat.zero_mul, Nat.add_zero]
    | succ k ih =>
      intro t ht
      have e : t + (k + 1) * T = t + k * T + T := by ring
      rw [e] at ht ⊢
      rw [← ih t (by omega), getD_map_arr _ _ _ ht, getD_map_arr _ _ _ (by omega)]
      exact h x hx (t + k * T) ht
  have hrep : ∀ x, InRange w.shape x → ∀ k t, k * d + t < files.flatten.length →
      (files.flatten.map fun a => a.at' x).getD (k * d + t) 0 = (files.flatten.map fun a => a.at' x).getD t 0 := by
    intro x hx k t ht
    have e : k * d + t = t + k * q * T := by rw [hq]; ring
    rw [e] at ht ⊢
    exact hper x hx (k * q) t ht
  have hQ : ∀ (x : Fin (size w.shape)) (k : Fin (fitNb c files.flatten.length)),
      specQ c m ω files.flatten w.shape (fitNb c files.flatten.length) f x k = hat f (unravel w.shape x.1) * 1 := by
    intro x k
    have hx := inRange_unravel x.2
    rw [mul_one]
    show specHat c m ω (files.flatten.map fun s => s.at' (unravel w.shape x.1)) f k.1 = specHat c m ω _ f 0
    have g1 := (offsets_getD c A.overlap _ k.1 k.2).2
    rw [← hd] at g1
    have hv : ∀ t < c.nDft, (files.flatten.map fun s => s.at' (unravel w.shape x.1)).getD (k.1 * d + t) 0 =
        (files.flatten.map fun s => s.at' (unravel w.shape x.1)).getD (0 * d + t) 0 := by
      intro t ht
      rw [hrep _ hx k.1 t (by omega), hrep _ hx 0 t (by omega)]
    have hy : ∀ t < c.nDft, specFluct m (files.flatten.map fun s => s.at' (unravel w.shape x.1)) (k.1 * d) c.nDft t =
        specFluct m (files.flatten.map fun s => s.at' (unravel w.shape x.1)) (0 * d) c.nDft t := by
      intro t ht
      cases m with
      | longtime => simp only [specFluct]; rw [hv t ht]
      | blockwise => simp only [specFluct]; rw [hv t ht, Finset.sum_congr rfl fun τ hτ => hv τ (Finset.mem_range.1 hτ)]
      | zero => simp only [specFluct]; rw [hv t ht]
    simp only [specHat, ← hd]
    congr 1
    refine Finset.sum_congr rfl fun t ht => ?_
    congr 3
    simp only [specNorm]
    rw [hy t (Finset.mem_range.1 ht), Finset.sum_congr rfl fun τ hτ => hy τ (Finset.mem_range.1 hτ)]
    congr 2
    rw [Finset.sum_congr rfl fun τ hτ => by rw [hy τ (Finset.mem_range.1 hτ)]]
  have hW : ∀ x, 0 ≤ specW w x := fun x => A.weights _ (inRange_unravel x.2)
  obtain ⟨a1, a2, a3⟩ := hs _ (crossSpectral_posSemidef (specQ c m ω files.flatten w.shape (fitNb c files.flatten.length) f) (specW w) hW).1
  have key := spod_pattern_complex hnb (specW w) hW (fun x => hat f (unravel w.shape x.1)) (fun _ => 1) _ hQ _ a1 a2 a3
    (oneSidedFactor c.isreal (nFreq c.nDft c.isreal c.full) f)
  have hn0 : (fitNb c files.flatten.length : ℝ) ≠ 0 := by exact_mod_cast hnb.ne'
  have hone : ∑ _b : Fin (fitNb c files.flatten.length), ‖(1 : ℂ)‖ ^ 2 = (fitNb c files.flatten.length : ℝ) := by simp
  rw [hone] at key
  refine ⟨fun k => ?_, fun hsave hpos => ?_⟩
  · rw [e1]
    refine (key k).1.trans ?_
    rw [mul_div_assoc, div_self hn0, mul_one]
    rfl
  · obtain ⟨z, hz, hv⟩ := (key ⟨0, hnb⟩).2 rfl (mul_pos hpos (by exact_mod_cast hnb))
    refine ⟨z, hz, fun x hx => ?_⟩
    have hr : unravel w.shape (ravel w.shape x) = x := unravel_ravel hx
    have q := e2 ⟨0, hnb⟩ hsave ⟨ravel w.shape x, ravel_lt hx⟩
    simp only [hr] at q
    refine q.trans (congrArg some ?_)
    refine (hv ⟨ravel w.shape x, ravel_lt hx⟩).trans ?_
    simp only [hr]
    rfl

/-! #### The hypotheses are met -/

/-- two points, the snapshots `1, 0, 0, 0` twice, blocks of four: the energy at frequency 1 is `2 * 65/288`, and there is one mode -/
example (solver : Solver (fitNb calmCfg (series [1, 0, 0, 0, 1, 0, 0, 0]).flatten.length)) (hs : SolverFull solver) :
    ∃ out, (∀ r, FitRun calmCfg (-Complex.I) (series [1, 0, 0, 0, 1, 0, 0, 0]) ⟨[2], fun _ => 1⟩ solver r → r = some out) ∧
      ∀ k, out.eigs 1 k = if k.1 = 0 then 2 * (65 / 288) else 0 := by
  obtain ⟨out, h1, h2⟩ := fit_periodic calmCfg (-Complex.I) (series [1, 0, 0, 0, 1, 0, 0, 0]) ⟨[2], fun _ => 1⟩ .blockwise (calm_any _ (by simp) 1 zero_le_one) 4
    (by decide) (by
      intro x _ t ht
      have ht : t < 4 := by simp [series] at ht; omega
      interval_cases t <;> rfl) solver hs
  refine ⟨out, h1, fun k => ?_⟩
  rw [(h2 1 (by decide)).1 k]
  have e : ∀ v : ℝ, specHat calmCfg .blockwise (-Complex.I) [v, 0, 0, 0, v, 0, 0, 0] 1 0 = (v : ℂ) * (5 / 24 + 1 / 24 * Complex.I) := by
    intro v
    simp [specHat, calmCfg, shortCfg, specNorm, specFluct, Finset.sum_range_succ, pow_succ]
    ring_nf
  have e2 : ‖(5 / 24 + 1 / 24 * Complex.I : ℂ)‖ ^ 2 = 26 / 576 := by
    rw [Complex.sq_norm, Complex.normSq_apply]
    norm_num
  split
  · congr 1
    refine (Fin.sum_univ_two (fun x : Fin 2 => (1 : ℝ) *
      ‖specHat calmCfg .blockwise (-Complex.I) ((series [1, 0, 0, 0, 1, 0, 0, 0]).flatten.map fun a => a.at' (unravel [2] x)) 1 0‖ ^ 2)).trans ?_
    have e0 : (series [1, 0, 0, 0, 1, 0, 0, 0]).flatten.map (fun a => a.at' (unravel [2] ((0 : Fin 2) : Nat))) = [(1 : ℝ), 0, 0, 0, 1, 0, 0, 0] := by
      simp [series, unravel, size]
    have e1 : (series [1, 0, 0, 0, 1, 0, 0, 0]).flatten.map (fun a => a.at' (unravel [2] ((1 : Fin 2) : Nat))) = [(2 : ℝ), 0, 0, 0, 2, 0, 0, 0] := by
      simp [series, unravel, size]; norm_num
    rw [e0, e1, e, e, norm_mul, norm_mul, mul_pow, mul_pow, e2]
    norm_num
  · rfl

end Verif.Props
