import Verif.Model.FitRounding
import Verif.Props.PodRounding
import Verif.Props.RealIfClose
/-
  C236: a whole SPOD fit in floating-point arithmetic.
-/
namespace Verif.Props
open Verif Verif.Par Verif.Round Verif.Fit Verif.Spod Verif.Close Finset

theorem mean_approx_any {u : ℝ} (hu : 0 ≤ u) (k : Nat) (l : List (ℝ × ℝ)) (hl : l ≠ []) (X : ℝ) (h : ∀ a ∈ l, Approx u k a.1 a.2 X) (m : ℝ)
    (hm : FlMean u (l.map (·.1)) m) : Approx u (k + l.length) m ((l.map (·.2)).sum / l.length) X := by
  have hn' : 0 < l.length := List.length_pos_iff.2 hl
  have hn : (0 : ℝ) < l.length := by exact_mod_cast hn'
  obtain ⟨s, hs, hm⟩ := hm
  have h1 := sum_approx hu k l.length (l.map fun a => (a.1, a.2, X)) (by simp) (by
    intro a ha
    obtain ⟨x, hx, rfl⟩ := List.mem_map.1 ha
    exact h x hx) s (by simpa [List.map_map, Function.comp_def] using hs)
  simp only [List.map_map, Function.comp_def, List.map_const', List.sum_replicate, nsmul_eq_mul] at h1
  have h2 := h1.mul hu (l.length : ℝ)⁻¹ (z := m) (by rw [← div_eq_mul_inv]; rw [List.length_map] at hm; exact hm)
  have e : (l.length : ℝ) * X * |(l.length : ℝ)⁻¹| = X := by
    rw [abs_of_pos (inv_pos.2 hn)]
    field_simp
  rw [e, ← div_eq_mul_inv] at h2
  exact h2.mono hu (by omega) (le_refl _)

/-- the fluctuations of a block -/
theorem block_approx {u : ℝ} (hu : 0 ≤ u) (m : MeanType) (vals : List ℝ) (X : ℝ) (hX : ∀ x ∈ vals, |x| ≤ X) (s n : Nat) (hn : 0 < n) (hs : s + n ≤ vals.length)
    (y : Nat → ℝ) (h : FlBlock u m vals s n y) (t : Nat) (ht : t < n) : Approx u (vals.length + 2) (y t) (specFluct m vals s n t) (2 * X) := by
  have hval : ∀ t < n, |vals.getD (s + t) 0| ≤ X := fun t ht => by
    refine hX _ ?_
    rw [List.getD_eq_getElem _ _ (by omega)]; exact List.getElem_mem _
  have hX0 : 0 ≤ X := (abs_nonneg _).trans (hval t ht)
  cases m with
  | longtime =>
    obtain ⟨m0, μ, h1, h2, h3⟩ := h
    have g := (mean_approx hu vals (by rintro rfl; simp at hs; omega) X hX m0 h1).round hu h2
    exact sub_approx hu _ X (hval t ht) _ μ _ (y t) g (h3 t ht)
  | blockwise =>
    obtain ⟨x, μ, h1, h2, h3⟩ := h
    have hx : ∀ t < n, Approx u 1 (x t) (vals.getD (s + t) 0) X := fun t ht => by
      have := ((Approx.exact (u := u) (vals.getD (s + t) 0)).mono hu (le_refl 0) (hval t ht)).round hu (by simpa using h1 t ht)
      exact this
    have g := mean_approx_any hu 1 ((List.range n).map fun t => (x t, vals.getD (s + t) 0)) (by simp; omega) X (by
      intro a ha
      obtain ⟨t, ht, rfl⟩ := List.mem_map.1 ha
      exact hx t (List.mem_range.1 ht)) μ (by rw [List.map_map]; exact h2)
    rw [List.map_map, List.length_map, List.length_range] at g
    simp only [Function.comp_def] at g
    rw [list_range_sum] at g
    have g2 := ((hx t ht).mono hu (show 1 ≤ 1 + n by omega) (le_refl _)).add hu g.neg (z := y t) (by rw [← sub_eq_add_neg]; exact h3 t ht)
    rw [← sub_eq_add_neg, ← two_mul] at g2
    exact g2.mono hu (by omega) (le_refl _)
  | zero =>
    have := ((Approx.exact (u := u) (vals.getD (s + t) 0)).mono hu (le_refl 0) (hval t ht)).round hu (by simpa using h t ht)
    exact this.mono hu (by omega) (by linarith)

/-- the scale: the reciprocal of the sum of a window of non-negative numbers -/
theorem scale_near {u : ℝ} (hu : 0 ≤ u) (hu1 : u ≤ 1) (win : List ℝ) (hw : ∀ x ∈ win, 0 ≤ x) (hpos : 0 < win.sum) (hlt : (1 + u) ^ win.length < 2) (s : ℝ)
    (h : FlScale u win win.length s) : |s * win.sum - 1| ≤ (1 + u) ^ 2 / (2 - (1 + u) ^ win.length) - 1 := by
  obtain ⟨mn, ww, ⟨s0, hs0, hmn⟩, h1, h2⟩ := h
  have hne : win ≠ [] := by rintro rfl; simp at hpos
  have hn' : 0 < win.length := List.length_pos_iff.2 hne
  have hn : (0 : ℝ) < win.length := by exact_mod_cast hn'
  have g1 := sum_approx hu 0 win.length (win.map fun x => (x, x, x)) (by simp) (by
    intro a ha
    obtain ⟨x, hx, rfl⟩ := List.mem_map.1 ha
    exact (Approx.exact x).mono hu (le_refl _) (by rw [abs_of_nonneg (hw x hx)])) s0 (by simpa [List.map_map, Function.comp_def] using hs0)
  simp only [List.map_map, Function.comp_def, List.map_id'] at g1
  have g2 := g1.mul hu (win.length : ℝ)⁻¹ (z := mn) (by rw [← div_eq_mul_inv]; exact hmn)
  rw [abs_of_pos (inv_pos.2 hn), ← div_eq_mul_inv, show 0 + win.length - 1 + 1 = win.length by omega] at g2
  set m := win.sum / win.length with hm
  have hm0 : 0 < m := div_pos hpos hn
  set g := (1 + u) ^ win.length - 1 with hg
  have hg0 : 0 ≤ g := sub_nonneg.2 (one_le_pow₀ (by linarith))
  have hg1 : g < 1 := by linarith
  have h3 := abs_le.1 g2.1
  have hM : (1 - g) * m ≤ mn := by linarith [h3.1]
  have hM2 : mn ≤ (1 + g) * m := by linarith [h3.2]
  have hM0 : 0 < mn := lt_of_lt_of_le (mul_pos (by linarith) hm0) hM
  -- ww and s
  have a1 := abs_le.1 h1
  rw [abs_of_pos (one_div_pos.2 hM0)] at a1
  have w1 : ww ≤ (1 + u) * (1 / mn) := by linarith [a1.2]
  have w2 : (1 - u) * (1 / mn) ≤ ww := by linarith [a1.1]
  have w0 : 0 ≤ ww := (mul_nonneg (by linarith) (one_div_pos.2 hM0).le).trans w2
  have a2 := abs_le.1 h2
  rw [abs_of_nonneg (div_nonneg w0 hn.le)] at a2
  have s1 : s ≤ (1 + u) * (ww / win.length) := by linarith [a2.2]
  have s2 : (1 - u) * (ww / win.length) ≤ s := by linarith [a2.1]
  have hS : win.sum = win.length * m := by rw [hm]; field_simp
  have e1 : s * win.sum ≤ (1 + u) ^ 2 * (m / mn) := by
    calc s * win.sum ≤ (1 + u) * (ww / win.length) * win.sum := mul_le_mul_of_nonneg_right s1 hpos.le
      _ = (1 + u) * ww * m := by rw [hS]; field_simp
      _ ≤ (1 + u) * ((1 + u) * (1 / mn)) * m := by gcongr
      _ = (1 + u) ^ 2 * (m / mn) := by ring
  have e2 : (1 - u) ^ 2 * (m / mn) ≤ s * win.sum := by
    have h1u : 0 ≤ 1 - u := by linarith
    calc (1 - u) ^ 2 * (m / mn) = (1 - u) * ((1 - u) * (1 / mn)) * m := by ring
      _ ≤ (1 - u) * ww * m := by gcongr
      _ = (1 - u) * (ww / win.length) * win.sum := by rw [hS]; field_simp
      _ ≤ s * win.sum := mul_le_mul_of_nonneg_right s2 hpos.le
  have r1 : m / mn ≤ 1 / (1 - g) := by
    rw [div_le_div_iff₀ hM0 (by linarith)]; linarith
  have r2 : 1 / (1 + g) ≤ m / mn := by
    rw [div_le_div_iff₀ (by linarith) hM0]; linarith
  have e3 : (2 : ℝ) - (1 + u) ^ win.length = 1 - g := by rw [hg]; ring
  rw [e3, abs_le]
  have hinv : 1 + g ≤ 1 / (1 - g) := by rw [le_div_iff₀ (by linarith)]; nlinarith
  have hinv2 : 1 - g ≤ 1 / (1 + g) := by rw [le_div_iff₀ (by linarith)]; nlinarith
  constructor
  · have f1 : (1 - u) ^ 2 * (1 - g) ≤ s * win.sum :=
      (mul_le_mul_of_nonneg_left (hinv2.trans r2) (sq_nonneg _)).trans e2
    have f2 : (1 + u) ^ 2 * (1 + g) ≤ (1 + u) ^ 2 / (1 - g) := by
      rw [div_eq_mul_one_div]; exact mul_le_mul_of_nonneg_left hinv (sq_nonneg _)
    nlinarith [mul_nonneg hu hg0, sq_nonneg u]
  · have : (1 + u) ^ 2 * (m / mn) ≤ (1 + u) ^ 2 / (1 - g) := by
      rw [div_eq_mul_one_div ((1 + u) ^ 2)]; exact mul_le_mul_of_nonneg_left r1 (sq_nonneg _)
    linarith

/-- the relative error of a Fourier coefficient, for `nt` snapshots, blocks of `n`, unit roundoff `u`, transforms of relative error `γ` and a window whose values are at
    most `κ` times their mean -/
noncomputable def hatBound (u γ κ : ℝ) (nt n : Nat) : ℝ := (1 + u) ^ (nt + 7) * (1 + γ * κ) / (2 - (1 + u) ^ n) - 1

theorem hat_near {u : ℝ} (hu : 0 ≤ u) (hu1 : u ≤ 1) (γ : ℝ) (c : Cfg) (m : MeanType) (ω : ℂ) (hω : ‖ω‖ = 1) (hnorm : c.normalize = false) (vals : List ℝ)
    (X : ℝ) (hX : ∀ x ∈ vals, |x| ≤ X) (hn : 0 < c.nDft) (hov : c.nOvlp ≤ (c.nDft : Int) - 1) (hwin : c.win.length = c.nDft) (hw : ∀ x ∈ c.win, 0 ≤ x)
    (hpos : 0 < c.win.sum) (hlt : (1 + u) ^ c.nDft < 2) (κ : ℝ) (hκ : ∀ x ∈ c.win, c.nDft * x ≤ κ * c.win.sum) (f b : Nat) (hb : b < fitNb c vals.length) (q : ℂ)
    (h : FlHat u γ c m ω vals f b q) : ‖q - specHat c m ω vals f b‖ ≤ 2 * X * hatBound u γ κ vals.length c.nDft := by
  obtain ⟨y, z, d, s, h1, h2, h3, h4, h5, h6⟩ := h
  obtain ⟨o1, o2⟩ := offsets_getD c hov vals.length b hb
  rw [List.getD_eq_getElem?_getD, o1, Option.getD_some] at h1
  set S := c.win.sum with hS
  set K := vals.length + 4 with hK
  set P := (1 + u) ^ K with hP
  have hP1 : 1 ≤ P := one_le_pow₀ (by linarith)
  set e : Nat → ℝ := fun t => c.win.getD t 0 * specFluct m vals (b * ((c.nDft : Int) - c.nOvlp).toNat) c.nDft t with he
  have hX0 : 0 ≤ X := by
    have h0 : 0 < vals.length := by omega
    exact (abs_nonneg _).trans (hX _ (List.getElem_mem h0))
  have hwt : ∀ t < c.nDft, 0 ≤ c.win.getD t 0 ∧ c.nDft * c.win.getD t 0 ≤ κ * S := fun t ht => by
    have : c.win.getD t 0 ∈ c.win := by
      rw [List.getD_eq_getElem _ _ (by omega)]; exact List.getElem_mem _
    exact ⟨hw _ this, hκ _ this⟩
  have ha : ∀ t < c.nDft, Approx u K (z t) (e t) (2 * X * c.win.getD t 0) := fun t ht => by
    obtain ⟨p, p1, p2⟩ := h2 t ht
    have := ((block_approx hu m vals X hX _ c.nDft hn o2 y h1 t ht).mul hu _ p1).round hu p2
    rw [abs_of_nonneg (hwt t ht).1, mul_comm (specFluct _ _ _ _ _)] at this
    exact this
  have hsum : ∑ t ∈ range c.nDft, c.win.getD t 0 = S := by
    rw [hS, ← hwin, ← list_range_sum]
    congr 1
    refine List.ext_getElem (by simp) fun i h1 h2 => ?_
    simp [List.getElem?_eq_getElem h2]
  set H : ℂ := ∑ t ∈ range c.nDft, (e t : ℂ) * ω ^ (t * f) with hH
  have hspec : specHat c m ω vals f b = H / (S : ℂ) := by
    unfold specHat
    rw [hH]
    congr 1
    refine Finset.sum_congr rfl fun t _ => ?_
    simp only [specNorm, hnorm, he]
    simp
  have hωt : ∀ t, ‖ω ^ t‖ = 1 := fun t => by rw [norm_pow, hω, one_pow]
  have hHn : ‖H‖ ≤ 2 * X * S := by
    rw [← hsum, Finset.mul_sum]
    refine (norm_sum_le _ _).trans (Finset.sum_le_sum fun t ht => ?_)
    rw [norm_mul, hωt, mul_one, Complex.norm_real]
    exact (ha t (mem_range.1 ht)).2
  have hd1 : ‖∑ t ∈ range c.nDft, (z t : ℂ) * ω ^ (t * f) - H‖ ≤ (P - 1) * (2 * X * S) := by
    rw [← hsum, Finset.mul_sum, Finset.mul_sum, hH, ← Finset.sum_sub_distrib]
    refine (norm_sum_le _ _).trans (Finset.sum_le_sum fun t ht => ?_)
    rw [← sub_mul, norm_mul, hωt, mul_one, ← Complex.ofReal_sub, Complex.norm_real]
    exact (ha t (mem_range.1 ht)).1
  have hn0 : (0 : ℝ) < c.nDft := by exact_mod_cast hn
  have hd2 := h3 (P * (2 * X * (κ * S / c.nDft))) fun t ht => (ha t ht).size.trans (by
    have : c.win.getD t 0 ≤ κ * S / c.nDft := by rw [le_div_iff₀ hn0]; linarith [(hwt t ht).2]
    have hP0 : 0 ≤ P := by linarith
    gcongr)
  have e1 : γ * (c.nDft * (P * (2 * X * (κ * S / c.nDft)))) = 2 * X * S * (P * (γ * κ)) := by field_simp
  rw [e1] at hd2
  have hd : ‖d - H‖ ≤ 2 * X * S * (P * (1 + γ * κ) - 1) := by
    have := norm_sub_le_norm_sub_add_norm_sub d (∑ t ∈ range c.nDft, (z t : ℂ) * ω ^ (t * f)) H
    nlinarith
  have hs := scale_near hu hu1 c.win hw hpos (by rw [hwin]; exact hlt) s (by rw [hwin]; exact h4)
  rw [hwin] at hs
  set η := (1 + u) ^ 2 / (2 - (1 + u) ^ c.nDft) - 1 with hη
  have hη0 : 0 ≤ η := (abs_nonneg _).trans hs
  have hS0 : (S : ℂ) ≠ 0 := by exact_mod_cast hpos.ne'
  set T := P * (1 + γ * κ) - 1 with hT
  have hXS : 0 ≤ 2 * X * S := by positivity
  have hsd : ‖(s : ℂ) * d - H / S‖ ≤ 2 * X * ((1 + η) * (1 + T) - 1) := by
    have e2 : (s : ℂ) * d - H / S = (((s * S : ℝ) : ℂ) * (d - H) + ((s * S - 1 : ℝ) : ℂ) * H) / S := by
      push_cast
      field_simp
      ring
    rw [e2, norm_div, Complex.norm_real, Real.norm_of_nonneg hpos.le, div_le_iff₀ hpos]
    refine (norm_add_le _ _).trans ?_
    rw [norm_mul, norm_mul, Complex.norm_real, Complex.norm_real, Real.norm_eq_abs, Real.norm_eq_abs]
    have hsS : |s * S| ≤ 1 + η := by
      have := abs_le.1 hs
      rw [abs_le]
      constructor <;> linarith [this.1, this.2]
    have k1 : |s * S| * ‖d - H‖ ≤ (1 + η) * (2 * X * S * T) := mul_le_mul hsS hd (norm_nonneg _) (by linarith)
    have k2 : |s * S - 1| * ‖H‖ ≤ η * (2 * X * S) := mul_le_mul hs hHn (norm_nonneg _) hη0
    linarith
  have hHS : ‖H / (S : ℂ)‖ ≤ 2 * X := by
    rw [norm_div, Complex.norm_real, Real.norm_of_nonneg hpos.le, div_le_iff₀ hpos]
    exact hHn
  have hq : ‖q - (s : ℂ) * d‖ ≤ u * ‖(s : ℂ) * d‖ := by
    rw [Rounds] at h5 h6
    have r1 : (q - (s : ℂ) * d).re = q.re - s * d.re := by simp
    have r2 : (q - (s : ℂ) * d).im = q.im - s * d.im := by simp
    have r3 : ((s : ℂ) * d).re = s * d.re := by simp
    have r4 : ((s : ℂ) * d).im = s * d.im := by simp
    rw [complex_norm_sqrt, complex_norm_sqrt, r1, r2, r3, r4]
    have : u = Real.sqrt (u ^ 2) := (Real.sqrt_sq hu).symm
    rw [this, ← Real.sqrt_mul (sq_nonneg u)]
    refine Real.sqrt_le_sqrt ?_
    have q1 := pow_le_pow_left₀ (abs_nonneg _) h5 2
    have q2 := pow_le_pow_left₀ (abs_nonneg _) h6 2
    rw [sq_abs, mul_pow, sq_abs] at q1 q2
    linarith
  have hsn : ‖(s : ℂ) * d‖ ≤ 2 * X * ((1 + η) * (1 + T)) := by
    have := norm_sub_norm_le ((s : ℂ) * d) (H / S)
    linarith
  rw [hspec]
  have hfin := norm_sub_le_norm_sub_add_norm_sub q ((s : ℂ) * d) (H / S)
  have hb : hatBound u γ κ vals.length c.nDft = (1 + u) * ((1 + η) * (1 + T)) - 1 := by
    have : (2 : ℝ) - (1 + u) ^ c.nDft ≠ 0 := by linarith
    rw [hatBound, hη, hT, hP, hK]
    field_simp
    ring
  rw [hb]
  nlinarith [mul_le_mul_of_nonneg_left hsn hu]

/-- **C236.** A whole SPOD fit (without `normalize_data`) in floating-point arithmetic with unit roundoff `u`, of data of magnitude at most `X`: means, fluctuations, window,
    Fourier transforms (relative error `γ`) and scaling give the coefficients `Qh f b`; the matrices `Mh f` are computed from them on one process or on `p` ranks with at most `n` values each,
    in any order of the additions; the eigen-solver returns `L f k` with residual at most `δ`; they are tested for real values with any tolerance `τ`, sorted and reported.
    At every frequency there are numbers `lam`, in descending order, whose roots differ from those of the exact eigenvalues by at most `2 X hatBound √(fac Σ w)`, such that with
    `B` the rounding bound times their sum plus `fac δ`: every reported value is one of them up to `B`, the reported values descend up to `2 B`, and the factors of
    the modes of values above `B` are numbers. -/
theorem spod_floating (c : Cfg) (ω : ℂ) (hω : ‖ω‖ = 1) (hnorm : c.normalize = false) (files : List (List (Arr ℝ))) (w : Arr ℝ) (m : MeanType) (A : Accepted c files w m) (hgrid : 0 < size w.shape)
    (hwn : ∀ x ∈ c.win, 0 ≤ x) (hwp : 0 < c.win.sum) (κ : ℝ) (hκ : ∀ x ∈ c.win, c.nDft * x ≤ κ * c.win.sum)
    (solver : Solver (fitNb c files.flatten.length)) (hs : SolverFull solver) :
    ∃ out, (∀ r, FitRun c ω files w solver r → r = some out) ∧
      ∀ u : ℝ, 0 ≤ u → (1 + u) ^ c.nDft < 2 → ∀ X : ℝ, (∀ a ∈ files.flatten, ∀ idx, InRange w.shape idx → |a.at' idx| ≤ X) →
      ∀ (γ : ℝ) (Qh : Nat → Nat → Arr ℂ), (∀ f b, (Qh f b).shape = w.shape) →
      (∀ f < nFreq c.nDft c.isreal c.full, ∀ b < fitNb c files.flatten.length, ∀ idx, InRange w.shape idx →
        FlHat u γ c m ω (files.flatten.map fun a => a.at' idx) f b ((Qh f b).at' idx)) →
      ∀ comms : List Comm, Procs comms → ∀ ax < w.shape.length, ∀ n : Nat, (∀ comm ∈ comms, size (distributeDimension w ax comm).shape ≤ n) →
      ∀ Mh : Nat → Matrix (Fin (fitNb c files.flatten.length)) (Fin (fitNb c files.flatten.length)) ℂ,
      (∀ f < nFreq c.nDft c.isreal c.full, ∀ i j : Fin (fitNb c files.flatten.length),
        FlGram u comms ax (Qh f) w (fitNb c files.flatten.length) i j (Mh f i j)) →
      ∀ (L : Nat → Fin (fitNb c files.flatten.length) → ℂ) (v : Nat → Fin (fitNb c files.flatten.length) → EuclideanSpace ℂ (Fin (fitNb c files.flatten.length)))
        (δ : ℝ), (∀ f < nFreq c.nDft c.isreal c.full, ∀ k, v f k ≠ 0 ∧
          ‖WithLp.toLp 2 ((Mh f).mulVec (v f k).ofLp) - L f k • v f k‖ ≤ δ * ‖v f k‖) →
      ∀ (τ : ℝ) [Decidable (AllClose τ (nFreq c.nDft c.isreal c.full) L)] (σ : Nat → Equiv.Perm (Fin (fitNb c files.flatten.length))),
      (∀ f < nFreq c.nDft c.isreal c.full, Sorted (AllClose τ (nFreq c.nDft c.isreal c.full) L) (L f) (σ f)) →
      ∀ f < nFreq c.nDft c.isreal c.full,
        let fac := oneSidedFactor c.isreal (nFreq c.nDft c.isreal c.full) f
        ∃ lam : Fin (fitNb c files.flatten.length) → ℝ, Antitone lam ∧ (∀ k, 0 ≤ lam k) ∧
          (∀ k, |Real.sqrt (lam k) - Real.sqrt (out.eigs f k)| ≤
            2 * X * hatBound u γ κ files.flatten.length c.nDft * Real.sqrt (fac * ∑ x : Fin (size w.shape), w.at' (unravel w.shape x))) ∧
          let B := roundBound u n comms.length * (∑ k, lam k) + fac * δ
          let rep := reported (AllClose τ (nFreq c.nDft c.isreal c.full) L) fac (L f) (σ f)
          (∀ i, ∃ k, |rep i - lam k| ≤ B) ∧ (∀ i j, i ≤ j → rep j ≤ rep i + 2 * B) ∧
          ∀ i, B < rep i → ∃ z, modeFactor (AllClose τ (nFreq c.nDft c.isreal c.full) L) (L f) (σ f) i = some z ∧
            ‖z‖ ^ 2 * fitNb c files.flatten.length * rep i = fac := by
  obtain ⟨out, h1, h2⟩ := fit_floating c ω files w m A solver hs
  refine ⟨out, h1, ?_⟩
  intro u hu hlt X hX γ Qh hsh hQh comms hc ax hax n hn Mh hMh L v δ hv τ _ σ hσ f hf
  have hnd : 0 < c.nDft := by have := (feasible_nb c _ A.blocks).2; omega
  have hu1 : u ≤ 1 := by
    have : 1 + u ≤ (1 + u) ^ c.nDft := le_self_pow₀ (by linarith) hnd.ne'
    linarith
  have hhat : ∀ b < fitNb c files.flatten.length, ∀ idx, InRange w.shape idx →
      ‖(Qh f b).at' idx - specHat c m ω (files.flatten.map fun a => a.at' idx) f b‖ ≤ 2 * X * hatBound u γ κ files.flatten.length c.nDft := by
    intro b hb idx hi
    have := hat_near hu hu1 γ c m ω hω hnorm (files.flatten.map fun a => a.at' idx) X (by
      intro x hx
      obtain ⟨a, ha, rfl⟩ := List.mem_map.1 hx
      exact hX a ha idx hi) hnd A.overlap A.window hwn hwp hlt κ hκ f b (by rw [List.length_map]; exact hb) _ (hQh f hf b hb idx hi)
    rwa [List.length_map] at this
  have hε : 0 ≤ 2 * X * hatBound u γ κ files.flatten.length c.nDft :=
    (norm_nonneg _).trans (hhat 0 (by have := (feasible_nb c _ A.blocks).1; omega) _ (inRange_unravel hgrid))
  obtain ⟨lam, l1, l2, l3, l4⟩ := h2 f hf _ hε (Qh f) (hsh f) hhat u hu comms hc ax hax n hn (Mh f) (hMh f hf)
  refine ⟨lam, l1, l2, l3, ?_⟩
  obtain ⟨r1, r2, r3, -⟩ := reported_near (AllClose τ (nFreq c.nDft c.isreal c.full) L) _ (L f) (σ f) (hσ f hf) lam l2 _ fun k => l4 (L f k) δ (v f k) (hv f hf k).1 (hv f hf k).2
  exact ⟨r1, r2, r3⟩

/-! ### Cases -/

theorem pow_near {u : ℝ} (hu : 0 ≤ u) (n : Nat) (h : (n : ℝ) * u ≤ 1 / 100) : (1 + u) ^ n - 1 ≤ 1.02 * (n * u) := by
  set x : ℝ := (n : ℝ) * u with hx
  have hx0 : 0 ≤ x := mul_nonneg (Nat.cast_nonneg _) hu
  have h1 : (1 + u) ^ n ≤ Real.exp x := by
    have := Real.add_one_le_exp u
    calc (1 + u) ^ n ≤ Real.exp u ^ n := pow_le_pow_left₀ (by linarith) (by linarith) _
      _ = Real.exp x := by rw [← Real.exp_nat_mul]
  have h2 : Real.exp x * (1 - x) ≤ 1 := by
    have := Real.add_one_le_exp (-x)
    have h3 : Real.exp x * Real.exp (-x) = 1 := by rw [← Real.exp_add]; simp
    have h4 : Real.exp x * (-x + 1) ≤ Real.exp x * Real.exp (-x) := mul_le_mul_of_nonneg_left this (Real.exp_pos x).le
    linarith
  have h5 : 1 ≤ Real.exp x := Real.one_le_exp hx0
  nlinarith

/-- how large the bound is: twice `(nt + 7 + n) u + γ κ`, as long as these are small -/
theorem hatBound_le {u : ℝ} (hu : 0 ≤ u) (γ κ : ℝ) (nt n : Nat) (h1 : ((nt + 7 : ℕ) : ℝ) * u ≤ 1 / 100) (h2 : (n : ℝ) * u ≤ 1 / 100) (h0 : 0 ≤ γ * κ) :
    hatBound u γ κ nt n ≤ 2 * (((nt + 7 : ℕ) : ℝ) * u + n * u + γ * κ) := by
  have g1 := pow_near hu _ h1
  have g2 := pow_near hu n h2
  set a := (1 + u) ^ (nt + 7) - 1 with ha
  set g := (1 + u) ^ n - 1 with hg
  set p := ((nt + 7 : ℕ) : ℝ) * u
  set q := (n : ℝ) * u
  set x := γ * κ
  have hp : 0 ≤ p := mul_nonneg (Nat.cast_nonneg _) hu
  have hq : 0 ≤ q := mul_nonneg (Nat.cast_nonneg _) hu
  have ha0 : 0 ≤ a := sub_nonneg.2 (one_le_pow₀ (by linarith))
  have hg0 : 0 ≤ g := sub_nonneg.2 (one_le_pow₀ (by linarith))
  have e : hatBound u γ κ nt n = (1 + a) * (1 + x) / (1 - g) - 1 := by
    rw [hatBound, ha, hg]; congr 2 <;> ring
  rw [e, sub_le_iff_le_add, div_le_iff₀ (by linarith)]
  nlinarith [mul_nonneg ha0 h0, mul_nonneg hp hg0, mul_nonneg hq hg0, mul_nonneg h0 hg0]

/-- the exact coefficients are possible, whatever the roundoff -/
theorem hat_exact_possible {u : ℝ} (hu : 0 ≤ u) (γ : ℝ) (hγ : 0 ≤ γ) (c : Cfg) (m : MeanType) (ω : ℂ) (hnorm : c.normalize = false) (vals : List ℝ) (hn : 0 < c.nDft)
    (hov : c.nOvlp ≤ (c.nDft : Int) - 1) (hwin : c.win.length = c.nDft) (f b : Nat) (hb : b < fitNb c vals.length) :
    FlHat u γ c m ω vals f b (specHat c m ω vals f b) := by
  obtain ⟨o1, o2⟩ := offsets_getD c hov vals.length b hb
  have hn0 : (c.nDft : ℝ) ≠ 0 := by exact_mod_cast hn.ne'
  set st := b * ((c.nDft : Int) - c.nOvlp).toNat with hst
  set e : Nat → ℝ := fun t => c.win.getD t 0 * specFluct m vals st c.nDft t with he
  refine ⟨specFluct m vals st c.nDft, e, ∑ t ∈ Finset.range c.nDft, (e t : ℂ) * ω ^ (t * f), 1 / c.win.sum, ?_, fun t _ => ⟨e t, ?_, rounds_exact hu _⟩, ?_, ?_, ?_⟩
  · rw [List.getD_eq_getElem?_getD, o1, Option.getD_some]
    cases m with
    | longtime => exact ⟨_, _, ⟨_, sum_exact hu _, rounds_exact hu _⟩, rounds_exact hu _, fun t _ => rounds_exact hu _⟩
    | blockwise =>
      refine ⟨fun t => vals.getD (st + t) 0, (∑ τ ∈ Finset.range c.nDft, vals.getD (st + τ) 0) / c.nDft, fun t _ => ?_, ⟨_, sum_exact hu _, ?_⟩,
        fun t _ => rounds_exact hu _⟩
      · rw [sub_zero]; exact rounds_exact hu _
      · rw [List.length_map, List.length_range, list_range_sum]; exact rounds_exact hu _
    | zero => intro t _; rw [sub_zero]; exact rounds_exact hu _
  · rw [mul_comm]; exact rounds_exact hu _
  · intro Y hY
    rw [sub_self, norm_zero]
    have : 0 ≤ Y := (abs_nonneg _).trans (hY 0 hn)
    positivity
  · refine ⟨c.win.sum / c.nDft, 1 / (c.win.sum / c.nDft), ⟨_, sum_exact hu _, ?_⟩, rounds_exact hu _, ?_⟩
    · rw [hwin]; exact rounds_exact hu _
    · have e1 : 1 / (c.win.sum / c.nDft) / c.nDft = 1 / c.win.sum := by
        rcases eq_or_ne c.win.sum 0 with h | h
        · simp [h]
        · field_simp
      rw [e1]; exact rounds_exact hu _
  · have e2 : specHat c m ω vals f b = ((1 / c.win.sum : ℝ) : ℂ) * ∑ t ∈ Finset.range c.nDft, (e t : ℂ) * ω ^ (t * f) := by
      unfold specHat
      rw [div_eq_mul_inv, mul_comm]
      congr 1
      · push_cast; rw [one_div]
      · refine Finset.sum_congr rfl fun t _ => ?_
        simp only [specNorm, hnorm, he]
        simp [hst]
    rw [e2]
    constructor
    · rw [Complex.re_ofReal_mul]; exact rounds_exact hu _
    · rw [Complex.im_ofReal_mul]; exact rounds_exact hu _

/-- double precision, ten thousand snapshots, blocks of 256, a Hamming window (its values are at most twice their mean), transforms of relative error `10^-14`: the error of a Fourier
    coefficient is at most `10^-11` times the largest value -/
example (X : ℝ) (hX : 0 ≤ X) : 2 * X * hatBound (1 / 2 ^ 53) (1 / 10 ^ 14) 2 10000 256 ≤ X / 10 ^ 11 := by
  have := hatBound_le (u := 1 / 2 ^ 53) (by norm_num) (1 / 10 ^ 14) 2 10000 256 (by norm_num) (by norm_num) (by norm_num)
  have h2 : hatBound (1 / 2 ^ 53) (1 / 10 ^ 14) 2 10000 256 ≤ 1 / (2 * 10 ^ 11) := this.trans (by norm_num)
  have := mul_le_mul_of_nonneg_left h2 (by linarith : 0 ≤ 2 * X)
  linarith

/-- the theorem applies: two points, eight snapshots, two blocks of four, single precision, on two ranks -/
example (l : List ℝ) (hl : l.length = 8) (solver : Solver (fitNb calmCfg (series l).flatten.length)) (hs : SolverFull solver) :=
  spod_floating calmCfg (-Complex.I) (by simp) rfl (series l) ⟨[2], fun _ => 1⟩ .blockwise (calm_any l hl.ge 1 zero_le_one) (by decide)
    (by simp [calmCfg, shortCfg]) (by norm_num [calmCfg, shortCfg]) (4 / 3) (by norm_num [calmCfg, shortCfg]) solver hs

/-- its hypotheses can be met, for every roundoff -/
example (l : List ℝ) (u γ : ℝ) (hu : 0 ≤ u) (hγ : 0 ≤ γ) (f b : Nat) (hb : b < fitNb calmCfg (series l).flatten.length) (idx : List Nat) (i j : Nat) :
    (∃ q, FlHat u γ calmCfg .blockwise (-Complex.I) ((series l).flatten.map fun a => a.at' idx) f b q) ∧
    ∃ z, FlGram u (Proj.ranksOf 2) 0 (fourierBlocks calmCfg .blockwise (-Complex.I) (series l).flatten [2] 1) ⟨[2], fun _ => 1⟩ 2 i j z :=
  ⟨⟨_, hat_exact_possible hu γ hγ calmCfg .blockwise _ rfl _ (by decide) (by decide) rfl f b (by rw [List.length_map]; exact hb)⟩,
    _, gram_exact_possible hu (Proj.ranksOf 2) (Or.inr ⟨2, by norm_num, rfl⟩) 0 _ ⟨[2], fun _ => 1⟩ 2 (by decide) (fun _ => rfl) i j⟩

end Verif.Props
