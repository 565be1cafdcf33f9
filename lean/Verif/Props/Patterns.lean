import Verif.Props.Influence
/-
  C175: linear isometries of the grid functions; C176: a pattern with a varying amplitude; C177: snapshots outside the blocks.
-/
namespace Verif.Props
open Verif Verif.Par Verif.Rd Verif.Fit Verif.Spod Matrix ComplexConjugate

/-! ### The Fourier realizations are linear in the data -/

theorem specFluct_linear {Y : Type} [Fintype Y] (m : MeanType) (u' : List ℝ) (u : Y → List ℝ) (g : Y → ℝ) (N : Nat) (hl' : u'.length = N)
    (hl : ∀ y, (u y).length = N) (h : ∀ t < N, u'.getD t 0 = ∑ y, g y * (u y).getD t 0) (s n t : Nat) (ht : t < n) (hsn : s + n ≤ N) :
    specFluct m u' s n t = ∑ y, g y * specFluct m (u y) s n t := by
  cases m with
  | longtime =>
    simp only [specFluct, hl, hl']
    rw [h _ (by omega), list_sum_range u', hl', Finset.sum_congr rfl fun t ht => h t (Finset.mem_range.1 ht), Finset.sum_comm, Finset.sum_div,
      ← Finset.sum_sub_distrib]
    refine Finset.sum_congr rfl fun y _ => ?_
    rw [list_sum_range (u y), hl, ← Finset.mul_sum]
    ring
  | blockwise =>
    simp only [specFluct]
    rw [h _ (by omega), Finset.sum_congr rfl fun τ hτ => h (s + τ) (by have := Finset.mem_range.1 hτ; omega), Finset.sum_comm, Finset.sum_div,
      ← Finset.sum_sub_distrib]
    refine Finset.sum_congr rfl fun y _ => ?_
    rw [← Finset.mul_sum]
    ring
  | zero =>
    simp only [specFluct]
    rw [h _ (by omega)]

theorem specHat_linear {Y : Type} [Fintype Y] (c : Cfg) (m : MeanType) (ω : ℂ) (u' : List ℝ) (u : Y → List ℝ) (g : Y → ℝ) (N : Nat)
    (hl' : u'.length = N) (hl : ∀ y, (u y).length = N) (h : ∀ t < N, u'.getD t 0 = ∑ y, g y * (u y).getD t 0) (hnorm : c.normalize = false)
    (hov : c.nOvlp ≤ (c.nDft : Int) - 1) (f k : Nat) (hk : k < fitNb c N) :
    specHat c m ω u' f k = ∑ y, (g y : ℂ) * specHat c m ω (u y) f k := by
  have hin := (offsets_getD c hov N k hk).2
  have e : ∀ t ∈ Finset.range c.nDft, (((c.win.getD t 0 * specFluct m u' (k * ((c.nDft : Int) - c.nOvlp).toNat) c.nDft t : ℝ)) : ℂ) * ω ^ (t * f) =
      ∑ y, (g y : ℂ) * ((((c.win.getD t 0 * specFluct m (u y) (k * ((c.nDft : Int) - c.nOvlp).toNat) c.nDft t : ℝ)) : ℂ) * ω ^ (t * f)) := by
    intro t ht
    rw [specFluct_linear m u' u g N hl' hl h _ c.nDft t (Finset.mem_range.1 ht) hin, Finset.mul_sum, Complex.ofReal_sum, Finset.sum_mul]
    refine Finset.sum_congr rfl fun y _ => ?_
    push_cast; ring
  simp only [specHat, specNorm, hnorm, Bool.false_eq_true, if_false]
  rw [Finset.sum_congr rfl e, Finset.sum_comm, Finset.sum_div]
  refine Finset.sum_congr rfl fun y _ => ?_
  rw [← Finset.mul_sum, mul_div_assoc]

/-! ### C175: isometries -/

theorem spod_isometry {X Y : Type} [Fintype X] [DecidableEq X] [Fintype Y] [DecidableEq Y] {n n' : Nat} (hn : n' = n) (w : Y → ℝ) (w' : X → ℝ)
    (U : X → Y → ℝ) (hU : ∀ y z, ∑ x, w' x * U x y * U x z = if y = z then w y else 0) (Q : Matrix Y (Fin n) ℂ) (Q' : Matrix X (Fin n') ℂ)
    (h : ∀ x (k : Fin n) (k' : Fin n'), k.1 = k'.1 → Q' x k' = ∑ y, (U x y : ℂ) * Q y k) (lib : (nb : Nat) → Solver nb) (fac : Nat)
    (k : Fin n) (k' : Fin n') (hk : k.1 = k'.1) :
    let r := lib n (crossSpectral Q w)
    let r' := lib n' (crossSpectral Q' w')
    (spodFreq Q' r'.1 r'.2.1 r'.2.2 fac).1 k' = (spodFreq Q r.1 r.2.1 r.2.2 fac).1 k ∧
    ∀ x, (spodFreq Q' r'.1 r'.2.1 r'.2.2 fac).2 x k' = ∑ y, (U x y : ℂ) * (spodFreq Q r.1 r.2.1 r.2.2 fac).2 y k := by
  subst hn
  obtain rfl : k = k' := Fin.ext hk
  have hM : crossSpectral Q' w' = crossSpectral Q w := by
    ext a b
    rw [crossSpectral_apply, crossSpectral_apply]
    congr 1
    unfold inner_W
    have hU' : ∀ y z, ∑ x, (w' x : ℂ) * (U x y : ℂ) * (U x z : ℂ) = if y = z then (w y : ℂ) else 0 := by
      intro y z
      have := congrArg (fun r : ℝ => (r : ℂ)) (hU y z)
      simp only [Complex.ofReal_sum, Complex.ofReal_mul] at this
      rw [this]
      split <;> simp
    calc ∑ x, (starRingEnd ℂ) (Q' x a) * (w' x : ℂ) * Q' x b
        = ∑ x, ∑ y, ∑ z, (starRingEnd ℂ) (Q y a) * Q z b * ((w' x : ℂ) * (U x y : ℂ) * (U x z : ℂ)) := by
          refine Finset.sum_congr rfl fun x _ => ?_
          rw [h x a a rfl, h x b b rfl, map_sum, Finset.sum_mul, Finset.sum_mul]
          refine Finset.sum_congr rfl fun y _ => ?_
          rw [Finset.mul_sum]
          refine Finset.sum_congr rfl fun z _ => ?_
          rw [map_mul, Complex.conj_ofReal]; ring
      _ = ∑ y, ∑ z, (starRingEnd ℂ) (Q y a) * Q z b * ∑ x, (w' x : ℂ) * (U x y : ℂ) * (U x z : ℂ) := by
          rw [Finset.sum_comm]
          refine Finset.sum_congr rfl fun y _ => ?_
          rw [Finset.sum_comm]
          refine Finset.sum_congr rfl fun z _ => ?_
          rw [Finset.mul_sum]
      _ = ∑ y, (starRingEnd ℂ) (Q y a) * (w y : ℂ) * Q y b := by
          refine Finset.sum_congr rfl fun y _ => ?_
          simp only [hU', mul_ite, mul_zero, Finset.sum_ite_eq, Finset.mem_univ, if_true]
          ring
  rw [hM]
  refine ⟨rfl, fun x => ?_⟩
  simp only [spodFreq, phiAll, Matrix.mul_apply]
  rw [Finset.sum_congr rfl fun b _ => by rw [h x b b rfl, Finset.sum_mul], Finset.sum_comm]
  refine Finset.sum_congr rfl fun y _ => ?_
  rw [Finset.mul_sum]
  exact Finset.sum_congr rfl fun b _ => by ring

/-- **C175.** Data obtained at every time by a linear map `U` of the fields, possibly to another grid, which preserves weighted inner products
    (rotations of vector components, changes of sign, orthogonal transforms, extension by grid points where the data vanish, …); not normalised; the
    same libraries, each fit on any number of ranks: the same eigenvalues, and the modes are the images of the modes under `U`. -/
theorem fit_isometry (c : Cfg) (ω : ℂ) (files files' : List (List (Arr ℝ))) (w w' : Arr ℝ) (m : MeanType) (A : Accepted c files w m)
    (A' : Accepted c files' w' m) (hnorm : c.normalize = false) (hlen : files'.flatten.length = files.flatten.length)
    (U : Fin (size w'.shape) → Fin (size w.shape) → ℝ)
    (hU : ∀ y z, ∑ x : Fin (size w'.shape), w'.at' (unravel w'.shape x) * U x y * U x z = if y = z then w.at' (unravel w.shape y) else 0)
    (h : ∀ t < files.flatten.length, ∀ x : Fin (size w'.shape), (files'.flatten.getD t ⟨[], fun _ => 0⟩).at' (unravel w'.shape x) =
      ∑ y : Fin (size w.shape), U x y * (files.flatten.getD t ⟨[], fun _ => 0⟩).at' (unravel w.shape y)) (lib : (nb : Nat) → Solver nb) :
    ∃ out out', (∀ r, FitRun c ω files w (lib _) r → r = some out) ∧ (∀ r, FitRun c ω files' w' (lib _) r → r = some out') ∧
      ∀ f < nFreq c.nDft c.isreal c.full, ∀ k k', k.1 = k'.1 → out'.eigs f k' = out.eigs f k ∧
        (k.1 < c.nSave → ∃ φ : Fin (size w.shape) → ℂ, (∀ y : Fin (size w.shape), fileEntry (out.modes f) (unravel w.shape y ++ [k.1]) = some (φ y)) ∧
          ∀ x : Fin (size w'.shape), fileEntry (out'.modes f) (unravel w'.shape x ++ [k.1]) = some (∑ y, (U x y : ℂ) * φ y)) := by
  obtain ⟨out, h1, h2⟩ := fit_runs c ω files w m A (lib _)
  obtain ⟨out', h1', h2'⟩ := fit_runs c ω files' w' m A' (lib _)
  refine ⟨out, out', h1, h1', fun f hf k k' hk => ?_⟩
  obtain ⟨e1, e2⟩ := h2 f hf
  obtain ⟨e1', e2'⟩ := h2' f hf
  have hQ : ∀ x (k : Fin (fitNb c files.flatten.length)) (k' : Fin (fitNb c files'.flatten.length)), k.1 = k'.1 →
      specQ c m ω files'.flatten w'.shape (fitNb c files'.flatten.length) f x k' =
        ∑ y, (U x y : ℂ) * specQ c m ω files.flatten w.shape (fitNb c files.flatten.length) f y k := by
    intro x k k' hk
    have hlin := specHat_linear (Y := Fin (size w.shape)) c m ω (files'.flatten.map fun a => a.at' (unravel w'.shape x.1))
      (fun y => files.flatten.map fun a => a.at' (unravel w.shape y.1)) (U x) files.flatten.length (by rw [List.length_map, hlen])
      (fun y => List.length_map _) (fun t ht => by
        rw [getD_map_arr _ _ t (by rw [hlen]; exact ht), h t ht x]
        exact Finset.sum_congr rfl fun y _ => by rw [getD_map_arr _ _ t ht]) hnorm A.overlap f k.1 k.2
    show specHat c m ω (files'.flatten.map fun a => a.at' (unravel w'.shape x.1)) f k'.1 = _
    rw [← hk]
    exact hlin
  obtain ⟨g1, g2⟩ := spod_isometry (by rw [hlen]) (specW w) (specW w') U hU _ _ hQ lib
    (oneSidedFactor c.isreal (nFreq c.nDft c.isreal c.full) f) k k' hk
  refine ⟨by rw [e1', e1]; exact g1, fun hks => ⟨_, fun y => e2 k hks y, fun x => ?_⟩⟩
  have q2 := e2' k' (by rw [← hk]; exact hks) x
  rw [hk, q2]
  exact congrArg some (g2 x)

/-! ### C176: one pattern -/

/-- eigenvalues and first mode of realizations `a x * G b` -/
theorem spod_pattern {X : Type} [Fintype X] [DecidableEq X] {n : Nat} (hn : 0 < n) (w : X → ℝ) (hw : ∀ x, 0 ≤ w x) (a : X → ℝ) (G : Fin n → ℂ)
    (Q : Matrix X (Fin n) ℂ) (hQ : ∀ x b, Q x b = (a x : ℂ) * G b) (r : (Fin n → ℂ) × Matrix (Fin n) (Fin n) ℂ × Equiv.Perm (Fin n))
    (a1 : EigPairs (crossSpectral Q w) r.1 r.2.1) (a2 : IsUnit r.2.1.det) (a3 : ArgsortDesc (realIfClose r.1) r.2.2) (fac : Nat) (k : Fin n) :
    (spodFreq Q r.1 r.2.1 r.2.2 fac).1 k = (if k.1 = 0 then (fac : ℝ) * ((∑ x, w x * a x ^ 2) * (∑ b, ‖G b‖ ^ 2) / n) else 0) ∧
    (k.1 = 0 → 0 < (∑ x, w x * a x ^ 2) * (∑ b, ‖G b‖ ^ 2) → ∃ z : ℂ, ‖z‖ = 1 ∧ ∀ x, (spodFreq Q r.1 r.2.1 r.2.2 fac).2 x k =
      z * ((a x / Real.sqrt (∑ x, w x * a x ^ 2) : ℝ) : ℂ)) := by
  set N : ℝ := ∑ x, w x * a x ^ 2 with hN
  set S : ℝ := ∑ b, ‖G b‖ ^ 2 with hS
  have hN0 : 0 ≤ N := Finset.sum_nonneg fun x _ => mul_nonneg (hw x) (sq_nonneg _)
  have hS0 : 0 ≤ S := Finset.sum_nonneg fun b _ => sq_nonneg _
  have hnR : (0 : ℝ) < n := by exact_mod_cast hn
  have hnC : (n : ℂ) ≠ 0 := by exact_mod_cast hn.ne'
  set T : ℝ := N * S / n with hT
  have hT0 : 0 ≤ T := div_nonneg (mul_nonneg hN0 hS0) hnR.le
  have hM : ∀ i j, crossSpectral Q w i j = ((N / n : ℝ) : ℂ) * (conj (G i) * G j) := by
    intro i j
    rw [crossSpectral_apply]
    unfold inner_W
    simp only [hQ, map_mul, Complex.conj_ofReal]
    rw [hN]
    push_cast
    rw [Finset.sum_div, Finset.sum_mul, Finset.mul_sum]
    refine Finset.sum_congr rfl fun x _ => ?_
    field_simp
  have hGG : ∑ b, G b * conj (G b) = (S : ℂ) := by
    rw [hS]; push_cast
    exact Finset.sum_congr rfl fun b _ => by rw [Complex.mul_conj']
  -- eigenvectors
  have hv : ∀ j i, ((N / n : ℝ) : ℂ) * conj (G i) * (∑ b, G b * r.2.1 b j) = r.1 j * r.2.1 i j := by
    intro j i
    have := congrFun (a1 j).1 i
    simp only [mulVec, dotProduct, Pi.smul_apply, smul_eq_mul, hM] at this
    rw [← this, Finset.mul_sum]
    exact Finset.sum_congr rfl fun b _ => by ring
  have hL : ∀ j, r.1 j = 0 ∨ r.1 j = (T : ℂ) := by
    intro j
    by_cases h0 : r.1 j = 0
    · exact Or.inl h0
    right
    have e1 : (T : ℂ) * (∑ b, G b * r.2.1 b j) = r.1 j * ∑ b, G b * r.2.1 b j := by
      rw [Finset.mul_sum (s := Finset.univ) (a := r.1 j)]
      rw [Finset.sum_congr rfl fun i _ => show r.1 j * (G i * r.2.1 i j) = G i * conj (G i) * (((N / n : ℝ) : ℂ) * ∑ b, G b * r.2.1 b j) by
        have := hv j i
        linear_combination (-(G i)) * this]
      rw [← Finset.sum_mul, hGG, hT]
      push_cast; ring
    have e2 : (∑ b, G b * r.2.1 b j) ≠ 0 := by
      intro h
      have hz : ∀ i, r.2.1 i j = 0 := by
        intro i
        have := hv j i
        rw [h, mul_zero] at this
        exact (mul_eq_zero.1 this.symm).resolve_left h0
      have := (a1 j).2
      simp [hz] at this
    exact (mul_right_cancel₀ e2 e1).symm
  have hsum : ∑ j, r.1 j = (T : ℂ) := by
    rw [total_energy Q w r.1 r.2.1 a1 a2]
    have : ∀ b, inner_W w (fun x => Q x b) (fun x => Q x b) = (N : ℂ) * (G b * conj (G b)) := by
      intro b
      unfold inner_W
      simp only [hQ, map_mul, Complex.conj_ofReal]
      rw [hN]; push_cast
      rw [Finset.sum_mul]
      exact Finset.sum_congr rfl fun x _ => by ring
    rw [Finset.sum_congr rfl fun b _ => this b, ← Finset.mul_sum, hGG, hT]
    push_cast; ring
  -- sorted: the first is T, the others vanish
  have hre : ∀ j, reorderL (realIfClose r.1) r.2.2 j = if j.1 = 0 then T else 0 := by
    have hval : ∀ j, reorderL (realIfClose r.1) r.2.2 j = 0 ∨ reorderL (realIfClose r.1) r.2.2 j = T := by
      intro j
      rcases hL (r.2.2 j) with h | h
      · left; simp [reorderL, realIfClose, h]
      · right; simp [reorderL, realIfClose, h]
    have hs : ∑ j, reorderL (realIfClose r.1) r.2.2 j = T := by
      have h1 : ∑ j, realIfClose r.1 j = T := by
        have := congrArg Complex.re hsum
        rw [Complex.re_sum] at this
        simpa [realIfClose] using this
      rw [← h1]
      exact Equiv.sum_comp r.2.2 fun j => realIfClose r.1 j
    have hanti : ∀ i j : Fin n, i ≤ j → reorderL (realIfClose r.1) r.2.2 j ≤ reorderL (realIfClose r.1) r.2.2 i := fun i j hij => a3 i j hij
    generalize reorderL (realIfClose r.1) r.2.2 = R at hval hs hanti
    rcases hT0.eq_or_lt with h0 | hpos
    · intro j
      have : R j = 0 := by rcases hval j with h | h; exact h; rw [h, ← h0]
      rw [this]; split <;> simp [← h0]
    · have hz : R ⟨0, hn⟩ = T := by
        rcases hval ⟨0, hn⟩ with h | h
        · exfalso
          have : ∀ j, R j = 0 := by
            intro j
            rcases hval j with h' | h'
            · exact h'
            · have := hanti ⟨0, hn⟩ j (Nat.zero_le _)
              rw [h, h'] at this; linarith
          rw [Finset.sum_eq_zero fun j _ => this j] at hs
          linarith
        · exact h
      intro j
      split
      · rename_i hj
        obtain rfl : j = ⟨0, hn⟩ := Fin.ext hj
        exact hz
      · rename_i hj
        rw [← Finset.add_sum_erase _ _ (Finset.mem_univ (⟨0, hn⟩ : Fin n)), hz] at hs
        have h0 : ∑ i ∈ Finset.univ.erase (⟨0, hn⟩ : Fin n), R i = 0 := by linarith
        have := (Finset.sum_eq_zero_iff_of_nonneg (fun i _ => by rcases hval i with h | h <;> rw [h]; exact hT0)).1 h0
        exact this j (Finset.mem_erase.2 ⟨fun h => hj (by rw [h]), Finset.mem_univ _⟩)
  refine ⟨?_, fun hk hpos => ?_⟩
  · simp only [spodFreq, eigsOut, hre]
    split
    · rw [abs_of_nonneg (by positivity)]
    · simp
  · have hNp : 0 < N := by
      rcases hN0.eq_or_lt with h | h
      · rw [← h, zero_mul] at hpos; exact absurd hpos (lt_irrefl _)
      · exact h
    have hTp : 0 < T := div_pos hpos hnR
    set j := r.2.2 k with hj
    have hLj : r.1 j = (T : ℂ) := by
      rcases hL j with h | h
      · have := hre k
        rw [if_pos hk] at this
        simp only [reorderL, realIfClose, ← hj, h, Complex.zero_re] at this
        linarith
      · exact h
    set g := ∑ b, G b * r.2.1 b j with hg
    have hg2 : ‖g‖ ^ 2 * N = T * n := by
      have h1 := (a1 j).2
      have h2 : ∀ i, r.2.1 i j = ((N / n : ℝ) : ℂ) / (T : ℂ) * conj (G i) * g := by
        intro i
        have := hv j i
        rw [hLj] at this
        have hTC : (T : ℂ) ≠ 0 := by exact_mod_cast hTp.ne'
        field_simp
        linear_combination -this
      have h3 : ∑ i, conj (r.2.1 i j) * r.2.1 i j = ((N / n / T * (N / n / T) * S * ‖g‖ ^ 2 : ℝ) : ℂ) := by
        rw [Finset.sum_congr rfl fun i _ => show conj (r.2.1 i j) * r.2.1 i j =
          ((N / n : ℝ) : ℂ) / (T : ℂ) * (((N / n : ℝ) : ℂ) / (T : ℂ)) * (g * conj g) * (G i * conj (G i)) by
            rw [h2 i]; simp only [map_mul, map_div₀, Complex.conj_ofReal, Complex.conj_conj]; ring]
        rw [← Finset.mul_sum, hGG, Complex.mul_conj']
        push_cast; ring
      rw [h3] at h1
      have h4 : N / n / T * (N / n / T) * S * ‖g‖ ^ 2 = 1 := by exact_mod_cast h1
      have h5 : N * S = T * n := by rw [hT]; field_simp
      field_simp at h4
      have : N * (‖g‖ ^ 2 * N * S) = N * (T * n * S) := by
        nlinarith [h4, h5]
      have hSp : 0 < S := by
        rcases hS0.eq_or_lt with h | h
        · rw [← h, mul_zero] at hpos; exact absurd hpos (lt_irrefl _)
        · exact h
      have h6 := mul_left_cancel₀ hNp.ne' this
      exact mul_right_cancel₀ hSp.ne' h6
    refine ⟨g * ((Real.sqrt N / (Real.sqrt n * Real.sqrt T) : ℝ) : ℂ), ?_, fun x => ?_⟩
    · rw [norm_mul, Complex.norm_real, Real.norm_of_nonneg (by positivity)]
      rw [← abs_of_nonneg (show 0 ≤ ‖g‖ * (Real.sqrt N / (Real.sqrt n * Real.sqrt T)) by positivity), ← _root_.abs_one, ← sq_eq_sq_iff_abs_eq_abs, mul_pow,
        div_pow, mul_pow, Real.sq_sqrt hN0, Real.sq_sqrt hnR.le, Real.sq_sqrt hT0, one_pow]
      rw [← mul_div_assoc, hg2, mul_comm, div_self (by positivity)]
    · simp only [spodFreq, phiAll, Matrix.mul_apply, Matrix.of_apply, reorderV, hre, if_pos hk, hQ]
      rw [← hj, Finset.sum_congr rfl fun b _ => show (a x : ℂ) * G b * (r.2.1 b j * ((1 / (Real.sqrt n * Real.sqrt T) : ℝ) : ℂ)) =
        (a x : ℂ) * ((1 / (Real.sqrt n * Real.sqrt T) : ℝ) : ℂ) * (G b * r.2.1 b j) by ring, ← Finset.mul_sum, ← hg]
      have hsN : Real.sqrt N ≠ 0 := (Real.sqrt_pos.2 hNp).ne'
      have hsNC : ((Real.sqrt N : ℝ) : ℂ) ≠ 0 := by exact_mod_cast hsN
      push_cast
      field_simp

/-- **C176.** Data `b x + a x * g t`: a steady field (absent for mean type `zero`) and one pattern whose amplitude varies in time; not normalised, any
    number of ranks, any correct library.  At every frequency the first eigenvalue is the squared norm of the pattern times the spectrum of the
    amplitude (averaged over the blocks), all others vanish, and where it is not zero the first mode is the pattern divided by its norm, up to a
    factor of modulus one. -/
theorem fit_pattern (c : Cfg) (ω : ℂ) (files : List (List (Arr ℝ))) (w : Arr ℝ) (m : MeanType) (A : Accepted c files w m)
    (hnorm : c.normalize = false) (a b : List Nat → ℝ) (hb : m = .zero → ∀ x, b x = 0) (g : List ℝ) (hg : g.length = files.flatten.length)
    (h : ∀ x, InRange w.shape x → ∀ t < files.flatten.length, (files.flatten.getD t ⟨[], fun _ => 0⟩).at' x = a x * g.getD t 0 + b x)
    (solver : Solver (fitNb c files.flatten.length)) (hs : SolverFull solver) :
    let norm2 := ∑ x : Fin (size w.shape), w.at' (unravel w.shape x) * a (unravel w.shape x) ^ 2
    let power := fun f => (∑ k : Fin (fitNb c files.flatten.length), ‖specHat c m ω g f k.1‖ ^ 2) / fitNb c files.flatten.length
    ∃ out, (∀ r, FitRun c ω files w solver r → r = some out) ∧
      ∀ f < nFreq c.nDft c.isreal c.full,
        (∀ k, out.eigs f k = if k.1 = 0 then (oneSidedFactor c.isreal (nFreq c.nDft c.isreal c.full) f : ℝ) * (norm2 * power f) else 0) ∧
        (0 < c.nSave → 0 < norm2 * power f → ∃ z : ℂ, ‖z‖ = 1 ∧ ∀ x, InRange w.shape x →
          fileEntry (out.modes f) (x ++ [0]) = some (z * ((a x / Real.sqrt norm2 : ℝ) : ℂ))) := by
  intro norm2 power
  obtain ⟨out, h1, h2⟩ := fit_runs c ω files w m A solver
  refine ⟨out, h1, fun f hf => ?_⟩
  obtain ⟨e1, e2⟩ := h2 f hf
  have hnb : 0 < fitNb c files.flatten.length := by
    have := A.blocks
    unfold feasible at this
    unfold fitNb
    by_contra h0
    have h0' : nBlocks files.flatten.length c.nDft c.nOvlp ≤ 0 := by omega
    rw [if_pos (by omega)] at this
    simp at this
  have hQ : ∀ (x : Fin (size w.shape)) (k : Fin (fitNb c files.flatten.length)),
      specQ c m ω files.flatten w.shape (fitNb c files.flatten.length) f x k =
        ((a (unravel w.shape x.1) : ℝ) : ℂ) * specHat c m ω g f k.1 := by
    intro x k
    show specHat c m ω (files.flatten.map fun s => s.at' (unravel w.shape x.1)) f k.1 = _
    refine specHat_affine c m ω g _ (a (unravel w.shape x.1)) (b (unravel w.shape x.1)) (fun hm => hb hm _)
      (by rw [List.length_map, hg]) (fun t ht => ?_) hnorm A.overlap f k.1 (by rw [hg]; exact k.2)
    rw [hg] at ht
    rw [getD_map_arr _ _ t ht]
    exact h _ (inRange_unravel x.2) t ht
  have hW : ∀ x, 0 ≤ specW w x := fun x => A.weights _ (inRange_unravel x.2)
  obtain ⟨a1, a2, a3⟩ := hs _ (crossSpectral_posSemidef (specQ c m ω files.flatten w.shape (fitNb c files.flatten.length) f) (specW w) hW).1
  have key := spod_pattern hnb (specW w) hW (fun x => a (unravel w.shape x.1)) (fun k => specHat c m ω g f k.1) _ hQ _ a1 a2 a3
    (oneSidedFactor c.isreal (nFreq c.nDft c.isreal c.full) f)
  refine ⟨fun k => ?_, fun hsave hpos => ?_⟩
  · rw [e1]
    refine (key k).1.trans ?_
    congr 2
    exact mul_div_assoc _ _ _
  · obtain ⟨z, hz, hv⟩ := (key ⟨0, hnb⟩).2 rfl (by
      have : 0 < norm2 * power f * fitNb c files.flatten.length := mul_pos hpos (by exact_mod_cast hnb)
      have e : norm2 * power f * fitNb c files.flatten.length =
          norm2 * ∑ k : Fin (fitNb c files.flatten.length), ‖specHat c m ω g f k.1‖ ^ 2 := by
        have hne : ((fitNb c files.flatten.length : ℕ) : ℝ) ≠ 0 := by exact_mod_cast hnb.ne'
        simp only [power]
        field_simp
      rw [e] at this
      exact this)
    refine ⟨z, hz, fun x hx => ?_⟩
    have hr : unravel w.shape (ravel w.shape x) = x := unravel_ravel hx
    have q := e2 ⟨0, hnb⟩ hsave ⟨ravel w.shape x, ravel_lt hx⟩
    simp only [hr] at q
    refine q.trans (congrArg some ?_)
    refine (hv ⟨ravel w.shape x, ravel_lt hx⟩).trans ?_
    simp only [hr]
    rfl

/-! ### C177: snapshots outside the blocks -/

/-- **C177.** Two data sets with the same number of blocks that agree in the snapshots of the blocks, and for mean type `longtime` have the same mean
    over time at every grid point; the same libraries, each fit on any number of ranks: the same eigenvalues and modes. -/
theorem fit_outside_blocks (c : Cfg) (ω : ℂ) (files files' : List (List (Arr ℝ))) (w : Arr ℝ) (m : MeanType) (A : Accepted c files w m)
    (A' : Accepted c files' w m) (hnb : fitNb c files'.flatten.length = fitNb c files.flatten.length)
    (h : ∀ k < fitNb c files.flatten.length, ∀ t < c.nDft, ∀ x, InRange w.shape x →
      (files'.flatten.getD (k * ((c.nDft : Int) - c.nOvlp).toNat + t) ⟨[], fun _ => 0⟩).at' x =
        (files.flatten.getD (k * ((c.nDft : Int) - c.nOvlp).toNat + t) ⟨[], fun _ => 0⟩).at' x)
    (hmean : m = .longtime → ∀ x, InRange w.shape x → (files'.flatten.map fun s => s.at' x).sum / files'.flatten.length =
      (files.flatten.map fun s => s.at' x).sum / files.flatten.length) (lib : (nb : Nat) → Solver nb) :
    ∃ out out', (∀ r, FitRun c ω files w (lib _) r → r = some out) ∧ (∀ r, FitRun c ω files' w (lib _) r → r = some out') ∧
      ∀ f < nFreq c.nDft c.isreal c.full, ∀ k k', k.1 = k'.1 → out'.eigs f k' = out.eigs f k ∧
        (k.1 < c.nSave → ∀ x, InRange w.shape x →
          ∃ v, fileEntry (out.modes f) (x ++ [k.1]) = some v ∧ fileEntry (out'.modes f) (x ++ [k.1]) = some v) := by
  obtain ⟨out, h1, h2⟩ := fit_runs c ω files w m A (lib _)
  obtain ⟨out', h1', h2'⟩ := fit_runs c ω files' w m A' (lib _)
  refine ⟨out, out', h1, h1', fun f hf k k' hk => ?_⟩
  obtain ⟨e1, e2⟩ := h2 f hf
  obtain ⟨e1', e2'⟩ := h2' f hf
  have hfl : ∀ x, InRange w.shape x → ∀ k < fitNb c files.flatten.length, ∀ t < c.nDft,
      specFluct m (files'.flatten.map fun s => s.at' x) (k * ((c.nDft : Int) - c.nOvlp).toNat) c.nDft t =
        specFluct m (files.flatten.map fun s => s.at' x) (k * ((c.nDft : Int) - c.nOvlp).toNat) c.nDft t := by
    intro x hx k hk t ht
    have g1 := (offsets_getD c A.overlap _ k hk).2
    have g2 := (offsets_getD c A'.overlap _ k (by rw [hnb]; exact hk)).2
    have hv : ∀ t < c.nDft, (files'.flatten.map fun s => s.at' x).getD (k * ((c.nDft : Int) - c.nOvlp).toNat + t) 0 =
        (files.flatten.map fun s => s.at' x).getD (k * ((c.nDft : Int) - c.nOvlp).toNat + t) 0 := by
      intro t ht
      rw [getD_map_arr _ _ _ (by omega), getD_map_arr _ _ _ (by omega)]
      exact h k hk t ht x hx
    cases m with
    | longtime =>
      have hm := hmean rfl x hx
      simp only [specFluct]
      rw [hv t ht, List.length_map, List.length_map, hm]
    | blockwise =>
      simp only [specFluct]
      rw [hv t ht, Finset.sum_congr rfl fun τ hτ => hv τ (Finset.mem_range.1 hτ)]
    | zero =>
      simp only [specFluct]
      rw [hv t ht]
  have hQ : ∀ x, specW w x = specW w x → ∀ (k : Fin (fitNb c files.flatten.length)) (k' : Fin (fitNb c files'.flatten.length)), k.1 = k'.1 →
      specQ c m ω files'.flatten w.shape (fitNb c files'.flatten.length) f x k' =
        specQ c m ω files.flatten w.shape (fitNb c files.flatten.length) f x k := by
    intro x _ k k' hk
    show specHat c m ω (files'.flatten.map fun a => a.at' (unravel w.shape x.1)) f k'.1 =
      specHat c m ω (files.flatten.map fun a => a.at' (unravel w.shape x.1)) f k.1
    rw [← hk]
    have hy := hfl _ (inRange_unravel x.2) k.1 k.2
    simp only [specHat]
    congr 1
    refine Finset.sum_congr rfl fun t ht => ?_
    congr 3
    simp only [specNorm]
    rw [hy t (Finset.mem_range.1 ht), Finset.sum_congr rfl fun τ hτ => hy τ (Finset.mem_range.1 hτ)]
    congr 2
    rw [Finset.sum_congr rfl fun τ hτ => by rw [hy τ (Finset.mem_range.1 hτ)]]
  generalize specQ c m ω files'.flatten w.shape (fitNb c files'.flatten.length) f = Q' at *
  generalize specQ c m ω files.flatten w.shape (fitNb c files.flatten.length) f = Q at *
  generalize oneSidedFactor c.isreal (nFreq c.nDft c.isreal c.full) f = fac at *
  have key : ∀ (n n' : Nat) (hn : n' = n) (Q : Matrix (Fin (size w.shape)) (Fin n) ℂ) (Q' : Matrix (Fin (size w.shape)) (Fin n') ℂ)
      (_ : ∀ x (k : Fin n) (k' : Fin n'), k.1 = k'.1 → Q' x k' = Q x k) (k : Fin n) (k' : Fin n') (_ : k.1 = k'.1),
      let r := lib n (crossSpectral Q (specW w))
      let r' := lib n' (crossSpectral Q' (specW w))
      (spodFreq Q' r'.1 r'.2.1 r'.2.2 fac).1 k' = (spodFreq Q r.1 r.2.1 r.2.2 fac).1 k ∧
      ∀ x, (spodFreq Q' r'.1 r'.2.1 r'.2.2 fac).2 x k' = (spodFreq Q r.1 r.2.1 r.2.2 fac).2 x k := by
    intro n n' hn Q Q' hq k k' hk
    subst hn
    obtain rfl : k = k' := Fin.ext hk
    obtain rfl : Q' = Q := by ext x k; exact hq x k k rfl
    exact ⟨rfl, fun x => rfl⟩
  obtain ⟨g1, g2⟩ := key _ _ hnb Q Q' (fun x k k' hk => hQ x rfl k k' hk) k k' hk
  refine ⟨by rw [e1', e1]; exact g1, fun hks x hx => ?_⟩
  have hr : unravel w.shape (ravel w.shape x) = x := unravel_ravel hx
  have q1 := e2 k hks ⟨ravel w.shape x, ravel_lt hx⟩
  have q2 := e2' k' (by rw [← hk]; exact hks) ⟨ravel w.shape x, ravel_lt hx⟩
  simp only [hr] at q1 q2
  refine ⟨_, q1, ?_⟩
  rw [hk, q2]
  exact congrArg some (g2 ⟨ravel w.shape x, ravel_lt hx⟩)

/-! #### The hypotheses are met -/

/-- blocks of four without overlap, mean of each block removed -/
def calmCfg : Cfg := { shortCfg with normalize := false, meanType := "blockwise" }

theorem calm_accepted (l : List ℝ) (hl : l.length = 8 ∨ l.length = 9) : Accepted calmCfg (series l) ⟨[2], fun _ => 1⟩ .blockwise where
  shapes := by
    intro a ha
    simp only [series, List.flatten_cons, List.flatten_nil, List.append_nil, List.mem_map] at ha
    obtain ⟨v, -, rfl⟩ := ha
    rfl
  axes := by simp
  mean := by decide
  blocks := by rw [series_length]; rcases hl with hl | hl <;> rw [hl] <;> decide
  overlap := by decide
  window := rfl
  weights := fun x _ => zero_le_one
  many := by simp [size]

theorem series_at (l : List ℝ) (t : Nat) (ht : t < l.length) (x : List Nat) :
    ((series l).flatten.getD t ⟨[], fun _ => 0⟩).at' x = l.getD t 0 * (x.getD 0 0 + 1 : ℕ) := by
  simp [series, List.getD_eq_getElem?_getD, List.getElem?_eq_getElem ht]

/-- snapshots `v, 2v` are one pattern: only one eigenvalue -/
example (ω : ℂ) (l : List ℝ) (hl : l.length = 8) (solver : Solver (fitNb calmCfg (series l).flatten.length)) (hs : SolverFull solver) :
    ∃ out, (∀ r, FitRun calmCfg ω (series l) ⟨[2], fun _ => 1⟩ solver r → r = some out) ∧ ∀ k, k.1 = 1 → out.eigs 1 k = 0 := by
  obtain ⟨out, h1, h2⟩ := fit_pattern calmCfg ω (series l) ⟨[2], fun _ => 1⟩ .blockwise (calm_accepted l (Or.inl hl)) rfl
    (fun x => (x.getD 0 0 + 1 : ℕ)) (fun _ => 0) (by simp) l (series_length l).symm (fun x _ t ht => by
      rw [series_length] at ht
      rw [series_at l t ht, mul_comm, add_zero]) solver hs
  refine ⟨out, h1, fun k hk => ?_⟩
  rw [(h2 1 (by decide)).1 k, if_neg (by omega)]

/-- a ninth snapshot is outside the two blocks -/
example (ω : ℂ) (l : List ℝ) (hl : l.length = 8) (z : ℝ) (lib : (nb : Nat) → Solver nb) :
    ∃ out out', (∀ r, FitRun calmCfg ω (series l) ⟨[2], fun _ => 1⟩ (lib _) r → r = some out) ∧
      (∀ r, FitRun calmCfg ω (series (l ++ [z])) ⟨[2], fun _ => 1⟩ (lib _) r → r = some out') ∧ ∀ k k', k.1 = k'.1 → out'.eigs 1 k' = out.eigs 1 k := by
  have hl9 : (l ++ [z]).length = 9 := by simp [hl]
  have e8 : fitNb calmCfg (series l).flatten.length = 2 := by rw [series_length, hl]; decide
  have e9 : fitNb calmCfg (series (l ++ [z])).flatten.length = 2 := by rw [series_length, hl9]; decide
  obtain ⟨out, out', h1, h2, h3⟩ := fit_outside_blocks calmCfg ω (series l) (series (l ++ [z])) ⟨[2], fun _ => 1⟩ .blockwise
    (calm_accepted l (Or.inl hl)) (calm_accepted _ (Or.inr hl9)) (by rw [e8, e9]) (by
      intro k hk t ht x _
      rw [e8] at hk
      have ht : t < 4 := ht
      have e : ((calmCfg.nDft : Int) - calmCfg.nOvlp).toNat = 4 := by decide
      rw [e, series_at _ _ (by omega), series_at _ _ (by omega)]
      congr 1
      rw [List.getD_eq_getElem?_getD, List.getD_eq_getElem?_getD, List.getElem?_append_left (by omega)]) (by simp) lib
  exact ⟨out, out', h1, h2, fun k k' hk => (h3 1 (by decide) k k' hk).1⟩

/-- the two components turned by a right angle -/
example (ω : ℂ) (l : List ℝ) (hl : l.length = 8) (lib : (nb : Nat) → Solver nb) (files' : List (List (Arr ℝ)))
    (hf : files' = [l.map fun v => ⟨[2], fun i => if i = [0] then -(2 * v) else v⟩]) :
    ∃ out out', (∀ r, FitRun calmCfg ω (series l) ⟨[2], fun _ => 1⟩ (lib _) r → r = some out) ∧
      (∀ r, FitRun calmCfg ω files' ⟨[2], fun _ => 1⟩ (lib _) r → r = some out') ∧ ∀ k k', k.1 = k'.1 → out'.eigs 1 k' = out.eigs 1 k := by
  have A := calm_accepted l (Or.inl hl)
  have hlen : files'.flatten.length = (series l).flatten.length := by rw [series_length, hf]; simp
  have A' : Accepted calmCfg files' ⟨[2], fun _ => 1⟩ .blockwise := by
    refine { A with shapes := ?_, blocks := by rw [hlen]; exact A.blocks }
    intro a ha
    rw [hf, List.flatten_cons, List.flatten_nil, List.append_nil, List.mem_map] at ha
    obtain ⟨v, -, rfl⟩ := ha
    rfl
  let U : Fin 2 → Fin 2 → ℝ := fun x y => if x = 0 ∧ y = 1 then -1 else if x = 1 ∧ y = 0 then 1 else 0
  have hu0 : unravel [2] 0 = [0] := by decide
  have hu1 : unravel [2] 1 = [1] := by decide
  obtain ⟨out, out', h1, h2, h3⟩ := fit_isometry calmCfg ω (series l) files' ⟨[2], fun _ => 1⟩ ⟨[2], fun _ => 1⟩ .blockwise A A' rfl hlen U
    (by
      have : ∀ y z : Fin 2, ∑ x : Fin 2, (1 : ℝ) * U x y * U x z = if y = z then 1 else 0 := by
        intro y z
        rw [Fin.sum_univ_two]
        fin_cases y <;> fin_cases z <;> simp [U]
      exact this)
    (by
      intro t ht
      rw [series_length] at ht
      have ht' : t < l.length := ht
      have e : ∀ x, (files'.flatten.getD t ⟨[], fun _ => 0⟩).at' x = if x = [0] then -(2 * l.getD t 0) else l.getD t 0 := by
        intro x
        rw [hf]
        simp [List.getD_eq_getElem?_getD, List.getElem?_eq_getElem ht']
      have : ∀ x : Fin 2, (files'.flatten.getD t ⟨[], fun _ => 0⟩).at' (unravel [2] x.1) =
          ∑ y : Fin 2, U x y * ((series l).flatten.getD t ⟨[], fun _ => 0⟩).at' (unravel [2] y.1) := by
        intro x
        rw [Fin.sum_univ_two, e, series_at l t ht', series_at l t ht']
        have h01 : x = 0 ∨ x = 1 := by omega
        rcases h01 with rfl | rfl
        · simp [U, hu0, hu1]; ring
        · simp [U, hu0, hu1]
      exact this) lib
  exact ⟨out, out', h1, h2, fun k k' hk => (h3 1 (by decide) k k' hk).1⟩

end Verif.Props
