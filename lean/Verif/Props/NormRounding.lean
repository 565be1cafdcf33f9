import Verif.Model.NormRounding
import Verif.Props.FitRounding
import Verif.Props.VarRounding
/-
  C248: a fit with `normalize_data` in floating-point arithmetic.
-/
namespace Verif.Props
open Verif Verif.Par Verif.Round Verif.Fit Verif.Spod Verif.Close Finset

/-! ### Specification -/

/-- unbiased variance of the exact fluctuations of a block of `n` snapshots from snapshot `s`, for the values `vals` of all snapshots at a point -/
noncomputable def blockVar (m : MeanType) (vals : List ℝ) (s n : Nat) : ℝ :=
  (∑ τ ∈ range n, (specFluct m vals s n τ - (∑ σ ∈ range n, specFluct m vals s n σ) / n) ^ 2) / (n - 1)

/-- bound on the rounding error of the variance, for values of magnitude at most `X` -/
noncomputable def varError (u X : ℝ) (nt n : Nat) : ℝ := ((1 + u) ^ (2 * nt + 3 * n + 7) - 1) * (16 * X ^ 2 * n / (n - 1))

/-! ### Lemmas -/

theorem blockVar_near {u : ℝ} (hu : 0 ≤ u) (n : Nat) (hn : 2 ≤ n) (k : Nat) (y e : Nat → ℝ) (Y : ℝ) (h : ∀ t < n, Approx u k (y t) (e t) Y) (v : ℝ) (hv : FlBlockVar u n y v) :
    |v - (∑ τ ∈ range n, (e τ - (∑ σ ∈ range n, e σ) / n) ^ 2) / (n - 1)| ≤ ((1 + u) ^ (2 * k + 3 * n + 3) - 1) * (4 * Y ^ 2 * n / (n - 1)) := by
  obtain ⟨m, s, d, q, hm, hd, hq, hs, hv⟩ := hv
  have hnr : (0 : ℝ) < (n : ℝ) - 1 := by
    have : (2 : ℝ) ≤ n := by exact_mod_cast hn
    linarith
  obtain ⟨mu, hmu⟩ : ∃ mu, mu = (∑ σ ∈ range n, e σ) / n := ⟨_, rfl⟩
  have am : Approx u (k + n) m mu Y := by
    have := mean_approx_any hu k ((List.range n).map fun t => (y t, e t)) (by
      intro h0
      have := congrArg List.length h0
      simp at this
      omega) Y (by
      intro a ha
      obtain ⟨t, ht, rfl⟩ := List.mem_map.1 ha
      exact h t (List.mem_range.1 ht)) m (by rw [List.map_map]; exact hm)
    simp only [List.length_map, List.length_range, List.map_map, Function.comp_def] at this
    rw [list_range_sum, ← hmu] at this
    exact this
  have aq : ∀ t < n, Approx u (2 * k + 2 * n + 3) (q t) ((e t - mu) ^ 2) (4 * Y ^ 2) := by
    intro t ht
    have a1 : Approx u (k + n + 1) (d t) (e t - mu) (Y + Y) := ((h t ht).mono hu (by omega) le_rfl).sub hu am (hd t ht)
    have a2 := a1.times hu a1 (hq t ht)
    have e1 : (e t - mu) * (e t - mu) = (e t - mu) ^ 2 := by ring
    have e2 : (Y + Y) * (Y + Y) = 4 * Y ^ 2 := by ring
    rw [e1, e2] at a2
    exact a2.mono hu (by omega) le_rfl
  have as := sum_approx hu (2 * k + 2 * n + 3) n ((List.range n).map fun t => (q t, (e t - mu) ^ 2, 4 * Y ^ 2)) (by simp) (by
    intro a ha
    obtain ⟨t, ht, rfl⟩ := List.mem_map.1 ha
    exact aq t (List.mem_range.1 ht)) s (by rw [List.map_map]; exact hs)
  simp only [List.map_map, Function.comp_def] at as
  rw [list_range_sum, list_range_sum, Finset.sum_const, card_range, nsmul_eq_mul] at as
  have := as.quot hu _ hnr hv
  have r := (this.mono hu (by omega : _ ≤ 2 * k + 3 * n + 3) le_rfl).1
  rw [hmu] at r
  refine r.trans (le_of_eq ?_)
  congr 2
  ring

/-- window, transform and scaling of a block whose values are within a relative error `P - 1` -/
theorem hat_near_core {u : ℝ} (hu : 0 ≤ u) (hu1 : u ≤ 1) (γ : ℝ) (win : List ℝ) (n : Nat) (ω : ℂ) (hω : ‖ω‖ = 1) (hn : 0 < n) (hwin : win.length = n) (hw : ∀ x ∈ win, 0 ≤ x)
    (hpos : 0 < win.sum) (hlt : (1 + u) ^ n < 2) (κ : ℝ) (hκ : ∀ x ∈ win, n * x ≤ κ * win.sum) (P B : ℝ) (hP1 : 1 ≤ P) (hB : 0 ≤ B) (y y0 : Nat → ℝ)
    (hy : ∀ t < n, |y t - y0 t| ≤ (P - 1) * B) (hy0 : ∀ t < n, |y0 t| ≤ B) (f : Nat) (z : Nat → ℝ) (d : ℂ) (s : ℝ) (q : ℂ)
    (h2 : FlWindowed u win n y z) (h3 : FlDft γ ω n f z d) (h4 : FlScale u win n s) (h5 : Rounds u (s * d.re) q.re) (h6 : Rounds u (s * d.im) q.im) :
    ‖q - (∑ t ∈ range n, ((win.getD t 0 * y0 t : ℝ) : ℂ) * ω ^ (t * f)) / ((win.sum : ℝ) : ℂ)‖ ≤
      B * (P * (1 + u) ^ 5 * (1 + γ * κ) / (2 - (1 + u) ^ n) - 1) := by
  obtain ⟨S, hS⟩ : ∃ S, S = win.sum := ⟨_, rfl⟩
  rw [← hS] at hpos hκ ⊢
  obtain ⟨R, hR⟩ : ∃ R, R = P * (1 + u) ^ 2 := ⟨_, rfl⟩
  have hu2 : 1 ≤ (1 + u) ^ 2 := one_le_pow₀ (by linarith)
  have hR1 : 1 ≤ R := by rw [hR]; exact one_le_mul_of_one_le_of_one_le hP1 hu2
  obtain ⟨e, he⟩ : ∃ e : Nat → ℝ, e = fun t => win.getD t 0 * y0 t := ⟨_, rfl⟩
  have hwt : ∀ t < n, 0 ≤ win.getD t 0 ∧ n * win.getD t 0 ≤ κ * S := fun t ht => by
    have : win.getD t 0 ∈ win := by
      rw [List.getD_eq_getElem _ _ (by omega)]; exact List.getElem_mem _
    exact ⟨hw _ this, hκ _ this⟩
  have ha : ∀ t < n, |z t - e t| ≤ (R - 1) * (B * win.getD t 0) ∧ |e t| ≤ B * win.getD t 0 := fun t ht => by
    obtain ⟨p, p1, p2⟩ := h2 t ht
    have w0 := (hwt t ht).1
    obtain ⟨g, hg⟩ : ∃ g, g = win.getD t 0 := ⟨_, rfl⟩
    rw [← hg] at w0 p1
    have b0 := hy0 t ht
    have b1 := hy t ht
    have hyn : |y t| ≤ P * B := by
      have := abs_sub_abs_le_abs_sub (y t) (y0 t)
      linarith
    unfold Rounds at p1 p2
    rw [abs_mul, abs_of_nonneg w0] at p1
    have c1 : |y t * g - g * y0 t| ≤ (P - 1) * (B * g) := by
      have : y t * g - g * y0 t = (y t - y0 t) * g := by ring
      rw [this, abs_mul, abs_of_nonneg w0]
      calc _ ≤ (P - 1) * B * g := mul_le_mul_of_nonneg_right b1 w0
        _ = _ := by ring
    have c2 : |e t| ≤ B * g := by
      rw [he]
      simp only
      rw [← hg, abs_mul, abs_of_nonneg w0, mul_comm]
      exact mul_le_mul_of_nonneg_right b0 w0
    have c3 : u * (|y t| * g) ≤ u * (P * B * g) := mul_le_mul_of_nonneg_left (mul_le_mul_of_nonneg_right hyn w0) hu
    have he' : e t = g * y0 t := by rw [he, hg]
    have c4 : |p - e t| ≤ (P * (1 + u) - 1) * (B * g) := by
      have := abs_sub_le p (y t * g) (e t)
      rw [← he'] at c1
      calc _ ≤ u * (P * B * g) + (P - 1) * (B * g) := by linarith
        _ = _ := by ring
    have c5 : |p| ≤ P * (1 + u) * (B * g) := by
      have := abs_sub_abs_le_abs_sub p (e t)
      linarith
    have c6 : u * |p| ≤ u * (P * (1 + u) * (B * g)) := mul_le_mul_of_nonneg_left c5 hu
    have c7 := abs_sub_le (z t) p (e t)
    rw [← hg]
    refine ⟨?_, c2⟩
    rw [hR]
    calc _ ≤ u * (P * (1 + u) * (B * g)) + (P * (1 + u) - 1) * (B * g) := by linarith
      _ = _ := by ring
  have hsum : ∑ t ∈ range n, win.getD t 0 = S := by
    rw [hS, ← hwin, ← list_range_sum]
    congr 1
    refine List.ext_getElem (by simp) fun i h1 h2 => ?_
    simp [List.getElem?_eq_getElem h2]
  obtain ⟨H, hH⟩ : ∃ H : ℂ, H = ∑ t ∈ range n, (e t : ℂ) * ω ^ (t * f) := ⟨_, rfl⟩
  have hspec : ∑ t ∈ range n, ((win.getD t 0 * y0 t : ℝ) : ℂ) * ω ^ (t * f) = H := by rw [hH, he]
  rw [hspec]
  have hωt : ∀ t, ‖ω ^ t‖ = 1 := fun t => by rw [norm_pow, hω, one_pow]
  have hHn : ‖H‖ ≤ B * S := by
    rw [← hsum, Finset.mul_sum, hH]
    refine (norm_sum_le _ _).trans (Finset.sum_le_sum fun t ht => ?_)
    rw [norm_mul, hωt, mul_one, Complex.norm_real]
    exact (ha t (mem_range.1 ht)).2
  have hd1 : ‖∑ t ∈ range n, (z t : ℂ) * ω ^ (t * f) - H‖ ≤ (R - 1) * (B * S) := by
    rw [← hsum, Finset.mul_sum, Finset.mul_sum, hH, ← Finset.sum_sub_distrib]
    refine (norm_sum_le _ _).trans (Finset.sum_le_sum fun t ht => ?_)
    rw [← sub_mul, norm_mul, hωt, mul_one, ← Complex.ofReal_sub, Complex.norm_real]
    exact (ha t (mem_range.1 ht)).1
  have hn0 : (0 : ℝ) < n := by exact_mod_cast hn
  have hd2 := h3 (R * (B * (κ * S / n))) fun t ht => by
    have h1 : |z t| ≤ R * (B * win.getD t 0) := by
      have := abs_sub_abs_le_abs_sub (z t) (e t)
      have h2 := (ha t ht).1
      have h3 := (ha t ht).2
      linarith
    refine h1.trans ?_
    have : win.getD t 0 ≤ κ * S / n := by rw [le_div_iff₀ hn0]; linarith [(hwt t ht).2]
    have hR0 : 0 ≤ R := by linarith
    gcongr
  have e1 : γ * (n * (R * (B * (κ * S / n)))) = B * S * (R * (γ * κ)) := by field_simp
  rw [e1] at hd2
  have hd : ‖d - H‖ ≤ B * S * (R * (1 + γ * κ) - 1) := by
    have := norm_sub_le_norm_sub_add_norm_sub d (∑ t ∈ range n, (z t : ℂ) * ω ^ (t * f)) H
    calc _ ≤ B * S * (R * (γ * κ)) + (R - 1) * (B * S) := by linarith
      _ = _ := by ring
  have hs := scale_near hu hu1 win hw (by rw [← hS]; exact hpos) (by rw [hwin]; exact hlt) s (by rw [hwin]; exact h4)
  rw [hwin, ← hS] at hs
  obtain ⟨η, hη⟩ : ∃ η, η = (1 + u) ^ 2 / (2 - (1 + u) ^ n) - 1 := ⟨_, rfl⟩
  rw [← hη] at hs
  have hη0 : 0 ≤ η := (abs_nonneg _).trans hs
  have hS0 : (S : ℂ) ≠ 0 := by exact_mod_cast hpos.ne'
  obtain ⟨T, hT⟩ : ∃ T, T = R * (1 + γ * κ) - 1 := ⟨_, rfl⟩
  rw [← hT] at hd
  have hBS : 0 ≤ B * S := mul_nonneg hB hpos.le
  have hsS : |s * S| ≤ 1 + η := by
    have := abs_le.1 hs
    rw [abs_le]
    constructor <;> linarith [this.1, this.2]
  have hsd : ‖(s : ℂ) * d - H / S‖ ≤ B * ((1 + η) * (1 + T) - 1) := by
    have e2 : (s : ℂ) * d - H / S = (((s * S : ℝ) : ℂ) * (d - H) + ((s * S - 1 : ℝ) : ℂ) * H) / S := by
      push_cast
      field_simp
      ring
    rw [e2, norm_div, Complex.norm_real, Real.norm_of_nonneg hpos.le, div_le_iff₀ hpos]
    refine (norm_add_le _ _).trans ?_
    rw [norm_mul, norm_mul, Complex.norm_real, Complex.norm_real, Real.norm_eq_abs, Real.norm_eq_abs]
    have k1 : |s * S| * ‖d - H‖ ≤ (1 + η) * (B * S * T) := mul_le_mul hsS hd (norm_nonneg _) (by linarith)
    have k2 : |s * S - 1| * ‖H‖ ≤ η * (B * S) := mul_le_mul hs hHn (norm_nonneg _) hη0
    calc _ ≤ (1 + η) * (B * S * T) + η * (B * S) := by linarith
      _ = _ := by ring
  have hHS : ‖H / (S : ℂ)‖ ≤ B := by
    rw [norm_div, Complex.norm_real, Real.norm_of_nonneg hpos.le, div_le_iff₀ hpos]
    exact hHn
  have hq : ‖q - (s : ℂ) * d‖ ≤ u * ‖(s : ℂ) * d‖ := by
    rw [Rounds] at h5 h6
    have r1 : (q - (s : ℂ) * d).re = q.re - s * d.re := by simp
    have r2 : (q - (s : ℂ) * d).im = q.im - s * d.im := by simp
    have r3 : ((s : ℂ) * d).re = s * d.re := by simp
    have r4 : ((s : ℂ) * d).im = s * d.im := by simp
    rw [complex_norm_sqrt, complex_norm_sqrt, r1, r2, r3, r4]
    have : u = Real.sqrt (u ^ 2) := (Real.sqrt_sq hu).symm
    rw [this, ← Real.sqrt_mul (sq_nonneg u)]
    refine Real.sqrt_le_sqrt ?_
    have q1 := pow_le_pow_left₀ (abs_nonneg _) h5 2
    have q2 := pow_le_pow_left₀ (abs_nonneg _) h6 2
    rw [sq_abs, mul_pow, sq_abs] at q1 q2
    linarith
  have hsn : ‖(s : ℂ) * d‖ ≤ B * ((1 + η) * (1 + T)) := by
    have := norm_sub_norm_le ((s : ℂ) * d) (H / S)
    linarith
  have hfin := norm_sub_le_norm_sub_add_norm_sub q ((s : ℂ) * d) (H / S)
  have hb : P * (1 + u) ^ 5 * (1 + γ * κ) / (2 - (1 + u) ^ n) - 1 = (1 + u) * ((1 + η) * (1 + T)) - 1 := by
    have : (2 : ℝ) - (1 + u) ^ n ≠ 0 := by linarith
    rw [hη, hT, hR]
    field_simp
    ring
  rw [hb]
  have k3 := mul_le_mul_of_nonneg_left hsn hu
  calc _ ≤ u * (B * ((1 + η) * (1 + T))) + B * ((1 + η) * (1 + T) - 1) := by linarith
    _ = _ := by ring

/-- the relative error of a coefficient with `normalize_data`, when the variance has a relative error of at most `e` -/
noncomputable def normBound (u γ κ e : ℝ) (nt n : Nat) : ℝ := (1 + u) ^ (nt + 8) * (1 + γ * κ) / ((2 - (1 + u) ^ n) * (1 - e)) - 1

/-- **C248.** One Fourier coefficient with `normalize_data`, where the exact variance is away from the threshold by more than its rounding error -/
theorem hat_normalized {u : ℝ} (hu : 0 ≤ u) (hu1 : u ≤ 1) (γ : ℝ) (c : Cfg) (m : MeanType) (ω : ℂ) (hω : ‖ω‖ = 1) (hnorm : c.normalize = true) (vals : List ℝ)
    (X : ℝ) (hX : ∀ x ∈ vals, |x| ≤ X) (hn : 2 ≤ c.nDft) (hov : c.nOvlp ≤ (c.nDft : Int) - 1) (hwin : c.win.length = c.nDft) (hw : ∀ x ∈ c.win, 0 ≤ x)
    (hpos : 0 < c.win.sum) (hlt : (1 + u) ^ c.nDft < 2) (κ : ℝ) (hκ : ∀ x ∈ c.win, c.nDft * x ≤ κ * c.win.sum) (f b : Nat) (hb : b < fitNb c vals.length)
    (V : ℝ) (hV : V = blockVar m vals (b * ((c.nDft : Int) - c.nOvlp).toNat) c.nDft)
    (hclear : varError u X vals.length c.nDft < |V - c.eps4|) (D : ℝ) (hD : D = if V < c.eps4 then 1 else V) (hD0 : 0 < D) (e : ℝ) (he1 : e < 1)
    (he : varError u X vals.length c.nDft ≤ e * D) (q : ℂ)
    (h : FlHatNorm u γ c m ω vals f b q) : ‖q - specHat c m ω vals f b‖ ≤ 2 * X / D * normBound u γ κ e vals.length c.nDft := by
  obtain ⟨y, x, z, d, s, h1, ⟨v, hv, hx⟩, h2, h3, h4, h5, h6⟩ := h
  obtain ⟨o1, o2⟩ := offsets_getD c hov vals.length b hb
  rw [List.getD_eq_getElem?_getD, o1, Option.getD_some] at h1
  obtain ⟨st, hst⟩ : ∃ st, st = b * ((c.nDft : Int) - c.nOvlp).toNat := ⟨_, rfl⟩
  rw [← hst] at h1 o2 hV
  have hX0 : 0 ≤ X := by
    have h0 : 0 < vals.length := by omega
    exact (abs_nonneg _).trans (hX _ (List.getElem_mem h0))
  have hy := fun t (ht : t < c.nDft) => block_approx hu m vals X hX st c.nDft (by omega) o2 y h1 t ht
  have hnr : (0 : ℝ) < (c.nDft : ℝ) - 1 := by
    have : (2 : ℝ) ≤ c.nDft := by exact_mod_cast hn
    linarith
  have hE0 : 0 ≤ varError u X vals.length c.nDft :=
    mul_nonneg (sub_nonneg.2 (one_le_pow₀ (by linarith))) (div_nonneg (by positivity) hnr.le)
  have hvn : |v - V| ≤ varError u X vals.length c.nDft := by
    have := blockVar_near hu c.nDft hn (vals.length + 2) y _ (2 * X) hy v hv
    rw [hV, blockVar, varError]
    refine this.trans (le_of_eq ?_)
    have e1 : 2 * (vals.length + 2) + 3 * c.nDft + 3 = 2 * vals.length + 3 * c.nDft + 7 := by omega
    have e2 : 4 * (2 * X) ^ 2 = 16 * X ^ 2 := by ring
    rw [e1, e2]
  obtain ⟨D', hD'⟩ : ∃ D' : ℝ, D' = if v < c.eps4 then 1 else v := ⟨_, rfl⟩
  rw [← hD'] at hx
  have hDD : |D' - D| ≤ e * D := by
    have g := abs_le.1 hvn
    rw [hD', hD]
    by_cases hc : V < c.eps4
    · rw [abs_of_neg (by linarith)] at hclear
      rw [if_pos hc, if_pos (by linarith [g.2]), sub_self, abs_zero]
      rw [hD, if_pos hc] at he
      linarith
    · push Not at hc
      rw [abs_of_nonneg (by linarith)] at hclear
      rw [if_neg (by linarith), if_neg (by linarith [g.1])]
      rw [hD, if_neg (by linarith)] at he
      exact hvn.trans he
  have g := abs_le.1 hDD
  have he0 : 0 ≤ e := by
    by_contra hneg
    push Not at hneg
    nlinarith
  have hD'0 : (1 - e) * D ≤ D' := by linarith [g.1]
  have h1e : 0 < 1 - e := by linarith
  have hD'p : 0 < D' := lt_of_lt_of_le (mul_pos h1e hD0) hD'0
  obtain ⟨P, hP⟩ : ∃ P, P = (1 + u) ^ (vals.length + 3) := ⟨_, rfl⟩
  have hP1 : 1 ≤ P := by rw [hP]; exact one_le_pow₀ (by linarith)
  have hB : 0 ≤ 2 * X / D := by positivity
  have hy0 : ∀ t < c.nDft, |specFluct m vals st c.nDft t / D| ≤ 2 * X / D := by
    intro t ht
    rw [abs_div, abs_of_pos hD0]
    exact div_le_div_of_nonneg_right (hy t ht).2 hD0.le
  have hxn : ∀ t < c.nDft, |x t - specFluct m vals st c.nDft t / D| ≤ (P / (1 - e) - 1) * (2 * X / D) := by
    intro t ht
    have a1 := ((hy t ht).quot hu D' hD'p (hx t ht)).1
    rw [show vals.length + 2 + 1 = vals.length + 3 by omega, ← hP] at a1
    have a2 := (hy t ht).2
    obtain ⟨y0, hy0⟩ : ∃ y0, y0 = specFluct m vals st c.nDft t := ⟨_, rfl⟩
    rw [← hy0] at a1 a2 ⊢
    have a3 := abs_sub_le (x t) (y0 / D') (y0 / D)
    have a4 : |y0 / D' - y0 / D| ≤ 2 * X * (e * D) / (D' * D) := by
      have : y0 / D' - y0 / D = y0 * (D - D') / (D' * D) := by field_simp
      rw [this, abs_div, abs_of_pos (mul_pos hD'p hD0), abs_mul, abs_sub_comm D D']
      exact div_le_div_of_nonneg_right (mul_le_mul a2 hDD (abs_nonneg _) (by linarith)) (mul_pos hD'p hD0).le
    have a5 : 2 * X * (e * D) / (D' * D) = 2 * X * e / D' := by field_simp
    rw [a5] at a4
    have a6 : (P - 1) * (2 * X / D') + 2 * X * e / D' = 2 * X * (P - 1 + e) / D' := by ring
    have a7 : 2 * X * (P - 1 + e) / D' ≤ 2 * X * (P - 1 + e) / ((1 - e) * D) :=
      div_le_div_of_nonneg_left (mul_nonneg (by linarith) (by linarith)) (mul_pos h1e hD0) hD'0
    have a8 : 2 * X * (P - 1 + e) / ((1 - e) * D) = (P / (1 - e) - 1) * (2 * X / D) := by
      field_simp
      ring
    linarith
  have hP2 : 1 ≤ P / (1 - e) := by rw [le_div_iff₀ h1e]; linarith
  have fin := hat_near_core hu hu1 γ c.win c.nDft ω hω (by omega) hwin hw hpos hlt κ hκ (P / (1 - e)) (2 * X / D) hP2 hB x
    (fun t => specFluct m vals st c.nDft t / D) hxn hy0 f z d s q h2 h3 h4 h5 h6
  have hspec : specHat c m ω vals f b = (∑ t ∈ range c.nDft, ((c.win.getD t 0 * (specFluct m vals st c.nDft t / D) : ℝ) : ℂ) * ω ^ (t * f)) / ((c.win.sum : ℝ) : ℂ) := by
    unfold specHat
    congr 1
    refine Finset.sum_congr rfl fun t _ => ?_
    rw [← hst]
    simp only [specNorm, hnorm, if_true]
    rw [hD, hV]
    rfl
  rw [hspec]
  refine fin.trans (le_of_eq ?_)
  congr 1
  have : (2 : ℝ) - (1 + u) ^ c.nDft ≠ 0 := by linarith
  rw [normBound, hP]
  field_simp
  ring

/-- the exact variance of block `b` is away from the threshold by more than its rounding error, and the divisor is at least `D0` -/
def ClearVar (c : Cfg) (m : MeanType) (u X D0 : ℝ) (vals : List ℝ) (b : Nat) : Prop :=
  let V := blockVar m vals (b * ((c.nDft : Int) - c.nOvlp).toNat) c.nDft
  varError u X vals.length c.nDft < |V - c.eps4| ∧ D0 ≤ if V < c.eps4 then 1 else V

theorem hat_clear {u : ℝ} (hu : 0 ≤ u) (hu1 : u ≤ 1) (γ : ℝ) (c : Cfg) (m : MeanType) (ω : ℂ) (hω : ‖ω‖ = 1) (hnorm : c.normalize = true) (vals : List ℝ) (nt : Nat) (hnt : vals.length = nt)
    (X : ℝ) (hX0 : 0 ≤ X) (hX : ∀ x ∈ vals, |x| ≤ X) (hn : 2 ≤ c.nDft) (hov : c.nOvlp ≤ (c.nDft : Int) - 1) (hwin : c.win.length = c.nDft) (hw : ∀ x ∈ c.win, 0 ≤ x)
    (hpos : 0 < c.win.sum) (hlt : (1 + u) ^ c.nDft < 2) (κ : ℝ) (hκ : ∀ x ∈ c.win, c.nDft * x ≤ κ * c.win.sum) (f b : Nat) (hb : b < fitNb c nt)
    (D0 : ℝ) (hD0 : 0 < D0) (e : ℝ) (he0 : 0 ≤ e) (he1 : e < 1) (he : varError u X nt c.nDft ≤ e * D0) (hclear : ClearVar c m u X D0 vals b) (q : ℂ)
    (h : FlHatNorm u γ c m ω vals f b q) : ‖q - specHat c m ω vals f b‖ ≤ 2 * X / D0 * normBound u γ κ e nt c.nDft := by
  subst hnt
  obtain ⟨g1, g2⟩ := hclear
  obtain ⟨V, hV⟩ : ∃ V, V = blockVar m vals (b * ((c.nDft : Int) - c.nOvlp).toNat) c.nDft := ⟨_, rfl⟩
  rw [← hV] at g1 g2
  obtain ⟨D, hD⟩ : ∃ D, D = if V < c.eps4 then 1 else V := ⟨_, rfl⟩
  rw [← hD] at g2
  have := hat_normalized hu hu1 γ c m ω hω hnorm vals X hX hn hov hwin hw hpos hlt κ hκ f b hb V hV g1 D hD (by linarith) e he1
    (he.trans (mul_le_mul_of_nonneg_left g2 he0)) q h
  refine this.trans ?_
  rcases hX0.eq_or_lt with h0 | h0
  · rw [← h0]; simp
  · have hDp : 0 < D := by linarith
    have : 0 ≤ normBound u γ κ e vals.length c.nDft := by
      by_contra hneg
      push Not at hneg
      have k1 : 0 < 2 * X / D := by positivity
      have k2 := (norm_nonneg _).trans this
      nlinarith
    exact mul_le_mul_of_nonneg_right (div_le_div_of_nonneg_left (by linarith) hD0 g2) this

/-- **C248.** A whole SPOD fit with `normalize_data` in floating-point arithmetic, of data of magnitude at most `X`, when at every point and in every block the exact variance is away from the
    threshold by more than its rounding error `varError`, the divisors are at least `D0` and `varError` is at most `e D0`.  As in C236 with the error `2 X / D0 normBound` of a
    Fourier coefficient. -/
theorem normalized_floating_partial (c : Cfg) (ω : ℂ) (hω : ‖ω‖ = 1) (hnorm : c.normalize = true) (files : List (List (Arr ℝ))) (w : Arr ℝ) (m : MeanType) (A : Accepted c files w m) (hgrid : 0 < size w.shape)
    (hwn : ∀ x ∈ c.win, 0 ≤ x) (hwp : 0 < c.win.sum) (κ : ℝ) (hκ : ∀ x ∈ c.win, c.nDft * x ≤ κ * c.win.sum)
    (solver : Solver (fitNb c files.flatten.length)) (hs : SolverFull solver) :
    ∃ out, (∀ r, FitRun c ω files w solver r → r = some out) ∧
      ∀ u : ℝ, 0 ≤ u → (1 + u) ^ c.nDft < 2 → ∀ X : ℝ, (∀ a ∈ files.flatten, ∀ idx, InRange w.shape idx → |a.at' idx| ≤ X) →
      ∀ D0 : ℝ, 0 < D0 → ∀ e < 1, varError u X files.flatten.length c.nDft ≤ e * D0 →
      (∀ idx, InRange w.shape idx → ∀ b < fitNb c files.flatten.length, ClearVar c m u X D0 (files.flatten.map fun a => a.at' idx) b) →
      ∀ (γ : ℝ) (Qh : Nat → Nat → Arr ℂ), (∀ f b, (Qh f b).shape = w.shape) →
      (∀ f < nFreq c.nDft c.isreal c.full, ∀ b < fitNb c files.flatten.length, ∀ idx, InRange w.shape idx →
        FlHatNorm u γ c m ω (files.flatten.map fun a => a.at' idx) f b ((Qh f b).at' idx)) →
      ∀ comms : List Comm, Procs comms → ∀ ax < w.shape.length, ∀ n : Nat, (∀ comm ∈ comms, size (distributeDimension w ax comm).shape ≤ n) →
      ∀ Mh : Nat → Matrix (Fin (fitNb c files.flatten.length)) (Fin (fitNb c files.flatten.length)) ℂ,
      (∀ f < nFreq c.nDft c.isreal c.full, ∀ i j : Fin (fitNb c files.flatten.length),
        FlGram u comms ax (Qh f) w (fitNb c files.flatten.length) i j (Mh f i j)) →
      ∀ (L : Nat → Fin (fitNb c files.flatten.length) → ℂ) (v : Nat → Fin (fitNb c files.flatten.length) → EuclideanSpace ℂ (Fin (fitNb c files.flatten.length)))
        (δ : ℝ), (∀ f < nFreq c.nDft c.isreal c.full, ∀ k, v f k ≠ 0 ∧
          ‖WithLp.toLp 2 ((Mh f).mulVec (v f k).ofLp) - L f k • v f k‖ ≤ δ * ‖v f k‖) →
      ∀ (τ : ℝ) [Decidable (AllClose τ (nFreq c.nDft c.isreal c.full) L)] (σ : Nat → Equiv.Perm (Fin (fitNb c files.flatten.length))),
      (∀ f < nFreq c.nDft c.isreal c.full, Sorted (AllClose τ (nFreq c.nDft c.isreal c.full) L) (L f) (σ f)) →
      ∀ f < nFreq c.nDft c.isreal c.full,
        let fac := oneSidedFactor c.isreal (nFreq c.nDft c.isreal c.full) f
        ∃ lam : Fin (fitNb c files.flatten.length) → ℝ, Antitone lam ∧ (∀ k, 0 ≤ lam k) ∧
          (∀ k, |Real.sqrt (lam k) - Real.sqrt (out.eigs f k)| ≤
            2 * X / D0 * normBound u γ κ e files.flatten.length c.nDft * Real.sqrt (fac * ∑ x : Fin (size w.shape), w.at' (unravel w.shape x))) ∧
          let B := roundBound u n comms.length * (∑ k, lam k) + fac * δ
          let rep := reported (AllClose τ (nFreq c.nDft c.isreal c.full) L) fac (L f) (σ f)
          (∀ i, ∃ k, |rep i - lam k| ≤ B) ∧ (∀ i j, i ≤ j → rep j ≤ rep i + 2 * B) ∧
          ∀ i, B < rep i → ∃ z, modeFactor (AllClose τ (nFreq c.nDft c.isreal c.full) L) (L f) (σ f) i = some z ∧
            ‖z‖ ^ 2 * fitNb c files.flatten.length * rep i = fac := by
  obtain ⟨out, h1, h2⟩ := fit_floating c ω files w m A solver hs
  refine ⟨out, h1, ?_⟩
  intro u hu hlt X hX D0 hD0 e he1 he hclear γ Qh hsh hQh comms hc ax hax n hn Mh hMh L v δ hv τ _ σ hσ f hf
  have hnd : 2 ≤ c.nDft := by
    have h := A.blocks
    unfold feasible at h
    split at h
    · simp at h
    · omega
  have hu1 : u ≤ 1 := by
    have : 1 + u ≤ (1 + u) ^ c.nDft := le_self_pow₀ (by linarith) (by omega)
    linarith
  have hnr : (0 : ℝ) < (c.nDft : ℝ) - 1 := by
    have : (2 : ℝ) ≤ c.nDft := by exact_mod_cast hnd
    linarith
  have hE0 : 0 ≤ varError u X files.flatten.length c.nDft :=
    mul_nonneg (sub_nonneg.2 (one_le_pow₀ (by linarith))) (div_nonneg (by positivity) hnr.le)
  have he0 : 0 ≤ e := by
    by_contra hneg
    push Not at hneg
    nlinarith
  have hX0 : 0 ≤ X := by
    have h0 : files.flatten ≠ [] := by
      intro h0
      have h2 := offsets_getD c A.overlap files.flatten.length 0 (by have := (feasible_nb c _ A.blocks).1; omega)
      rw [h0] at h2
      have := h2.2
      simp at this
      omega
    obtain ⟨a, ha⟩ := List.exists_mem_of_ne_nil _ h0
    exact (abs_nonneg _).trans (hX a ha _ (inRange_unravel hgrid))
  have hhat : ∀ b < fitNb c files.flatten.length, ∀ idx, InRange w.shape idx →
      ‖(Qh f b).at' idx - specHat c m ω (files.flatten.map fun a => a.at' idx) f b‖ ≤ 2 * X / D0 * normBound u γ κ e files.flatten.length c.nDft := by
    intro b hb idx hi
    have hcl := hclear idx hi b hb
    have hq := hQh f hf b hb idx hi
    have hl : (files.flatten.map fun a => a.at' idx).length = files.flatten.length := List.length_map _
    have hx : ∀ x ∈ files.flatten.map fun a => a.at' idx, |x| ≤ X := fun x hx => by
      obtain ⟨a, ha, rfl⟩ := List.mem_map.1 hx
      exact hX a ha idx hi
    generalize (files.flatten.map fun a => a.at' idx) = vals at hcl hq hl hx ⊢
    exact hat_clear hu hu1 γ c m ω hω hnorm vals _ hl X hX0 hx hnd A.overlap A.window hwn hwp hlt κ hκ f b hb D0 hD0 e he0 he1 he hcl _ hq
  have hε : 0 ≤ 2 * X / D0 * normBound u γ κ e files.flatten.length c.nDft :=
    (norm_nonneg _).trans (hhat 0 (by have := (feasible_nb c _ A.blocks).1; omega) _ (inRange_unravel hgrid))
  obtain ⟨lam, l1, l2, l3, l4⟩ := h2 f hf _ hε (Qh f) (hsh f) hhat u hu comms hc ax hax n hn (Mh f) (hMh f hf)
  refine ⟨lam, l1, l2, l3, ?_⟩
  obtain ⟨r1, r2, r3, -⟩ := reported_near (AllClose τ (nFreq c.nDft c.isreal c.full) L) _ (L f) (σ f) (hσ f hf) lam l2 _ fun k => l4 (L f k) δ (v f k) (hv f hf k).1 (hv f hf k).2
  exact ⟨r1, r2, r3⟩

/-- **C248.** The relative error in units of the roundoff: at most three times `(nt + n + 8) u + γ κ` plus the relative error of the variance -/
theorem normBound_le {u : ℝ} (hu : 0 ≤ u) (γ κ e : ℝ) (nt n : Nat) (h1 : ((nt + 8 : ℕ) : ℝ) * u ≤ 1 / 100) (h2 : (n : ℝ) * u ≤ 1 / 100) (h0 : 0 ≤ γ * κ) (h3 : γ * κ ≤ 1 / 100)
    (he0 : 0 ≤ e) (he : e ≤ 1 / 2) : normBound u γ κ e nt n ≤ 3 * (((nt + n + 8 : ℕ) : ℝ) * u + γ * κ + e) := by
  have g1 := pow_near hu _ h1
  have g2 := pow_near hu n h2
  obtain ⟨a, ha⟩ : ∃ a, a = (1 + u) ^ (nt + 8) - 1 := ⟨_, rfl⟩
  obtain ⟨r, hr⟩ : ∃ r, r = (1 + u) ^ n - 1 := ⟨_, rfl⟩
  obtain ⟨p, hp⟩ : ∃ p, p = ((nt + 8 : ℕ) : ℝ) * u := ⟨_, rfl⟩
  obtain ⟨q, hq⟩ : ∃ q, q = (n : ℝ) * u := ⟨_, rfl⟩
  obtain ⟨g, hg⟩ : ∃ g, g = γ * κ := ⟨_, rfl⟩
  rw [← hp] at h1
  rw [← hq] at h2
  rw [← ha, ← hp] at g1
  rw [← hr, ← hq] at g2
  rw [← hg] at h0 h3 ⊢
  have ha0 : 0 ≤ a := by rw [ha]; exact sub_nonneg.2 (one_le_pow₀ (by linarith))
  have hr0 : 0 ≤ r := by rw [hr]; exact sub_nonneg.2 (one_le_pow₀ (by linarith))
  have hp0 : 0 ≤ p := by rw [hp]; positivity
  have hq0 : 0 ≤ q := by rw [hq]; positivity
  have e1 : ((nt + n + 8 : ℕ) : ℝ) * u = p + q := by rw [hp, hq]; push_cast; ring
  have e2 : (2 : ℝ) - (1 + u) ^ n = 1 - r := by rw [hr]; ring
  have e3 : (1 + u) ^ (nt + 8) = 1 + a := by rw [ha]; ring
  have d0 : 0 < (1 - r) * (1 - e) := mul_pos (by linarith) (by linarith)
  rw [normBound, ← hg, e1, e2, e3, sub_le_iff_le_add, div_le_iff₀ d0]
  have s1 : (1 + a) * (1 + g) ≤ 1 + (1.04 * p + 1.02 * g) := by nlinarith
  have s2 : 1 - 1.02 * q ≤ 1 - r := by linarith
  have s3 : (1 - 1.02 * q) * (1 - e) ≤ (1 - r) * (1 - e) := mul_le_mul_of_nonneg_right s2 (by linarith)
  have s4 : 1 + (1.04 * p + 1.02 * g) ≤ (3 * (p + q + g + e) + 1) * ((1 - 1.02 * q) * (1 - e)) := by
    obtain ⟨s, hs⟩ : ∃ s, s = p + q + g := ⟨_, rfl⟩
    have hs0 : 0 ≤ s := by rw [hs]; linarith
    have hs3 : s ≤ 3 / 100 := by rw [hs]; linarith
    have k1 : 1 - 1.02 * q - e ≤ (1 - 1.02 * q) * (1 - e) := by nlinarith
    have k2 : 0 ≤ (1 - 1.02 * q) * (1 - e) := mul_nonneg (by linarith) (by linarith)
    have k3 : (3 * (p + q + g + e) + 1) * ((1 - 1.02 * q) * (1 - e)) = (1 - 1.02 * q) * ((3 * (s + e) + 1) * (1 - e)) := by rw [hs]; ring
    have k4 : 1 + 1.4 * s + e * (1 / 2) ≤ (3 * (s + e) + 1) * (1 - e) := by nlinarith
    rw [k3]
    have k5 : (1 - 1.02 * q) * (1 + 1.4 * s + e * (1 / 2)) ≤ (1 - 1.02 * q) * ((3 * (s + e) + 1) * (1 - e)) := mul_le_mul_of_nonneg_left k4 (by linarith)
    refine le_trans ?_ k5
    nlinarith
  calc (1 + a) * (1 + g) ≤ _ := s1
    _ ≤ _ := s4
    _ ≤ _ := mul_le_mul_of_nonneg_left s3 (by positivity)
    _ = _ := by ring

/-- the exact coefficients are possible, whatever the roundoff -/
theorem hat_normalized_possible {u : ℝ} (hu : 0 ≤ u) (γ : ℝ) (hγ : 0 ≤ γ) (c : Cfg) (m : MeanType) (ω : ℂ) (hnorm : c.normalize = true) (vals : List ℝ) (hn : 0 < c.nDft)
    (hov : c.nOvlp ≤ (c.nDft : Int) - 1) (hwin : c.win.length = c.nDft) (f b : Nat) (hb : b < fitNb c vals.length) :
    FlHatNorm u γ c m ω vals f b (specHat c m ω vals f b) := by
  obtain ⟨o1, o2⟩ := offsets_getD c hov vals.length b hb
  have hn0 : (c.nDft : ℝ) ≠ 0 := by exact_mod_cast hn.ne'
  obtain ⟨st, hst⟩ : ∃ st, st = b * ((c.nDft : Int) - c.nOvlp).toNat := ⟨_, rfl⟩
  rw [← hst] at o1 o2
  obtain ⟨y, hy⟩ : ∃ y : Nat → ℝ, y = specFluct m vals st c.nDft := ⟨_, rfl⟩
  obtain ⟨mu, hmu⟩ : ∃ mu, mu = (∑ τ ∈ Finset.range c.nDft, y τ) / c.nDft := ⟨_, rfl⟩
  obtain ⟨v, hv⟩ : ∃ v, v = (∑ τ ∈ Finset.range c.nDft, (y τ - mu) ^ 2) / ((c.nDft : ℝ) - 1) := ⟨_, rfl⟩
  obtain ⟨x, hx⟩ : ∃ x : Nat → ℝ, x = fun t => y t / (if v < c.eps4 then 1 else v) := ⟨_, rfl⟩
  obtain ⟨e, he⟩ : ∃ e : Nat → ℝ, e = fun t => c.win.getD t 0 * x t := ⟨_, rfl⟩
  refine ⟨y, x, e, ∑ t ∈ Finset.range c.nDft, (e t : ℂ) * ω ^ (t * f), 1 / c.win.sum, ?_, ⟨v, ⟨mu, ∑ τ ∈ Finset.range c.nDft, (y τ - mu) ^ 2, fun t => y t - mu,
    fun t => (y t - mu) ^ 2, ⟨_, sum_exact hu _, ?_⟩, fun t _ => rounds_exact hu _, fun t _ => ?_, ?_, ?_⟩, fun t _ => ?_⟩, fun t _ => ⟨e t, ?_, rounds_exact hu _⟩, ?_, ?_, ?_⟩
  · rw [List.getD_eq_getElem?_getD, o1, Option.getD_some, hy]
    cases m with
    | longtime => exact ⟨_, _, ⟨_, sum_exact hu _, rounds_exact hu _⟩, rounds_exact hu _, fun t _ => rounds_exact hu _⟩
    | blockwise =>
      refine ⟨fun t => vals.getD (st + t) 0, (∑ τ ∈ Finset.range c.nDft, vals.getD (st + τ) 0) / c.nDft, fun t _ => ?_, ⟨_, sum_exact hu _, ?_⟩,
        fun t _ => rounds_exact hu _⟩
      · rw [sub_zero]; exact rounds_exact hu _
      · rw [List.length_map, List.length_range, list_range_sum]; exact rounds_exact hu _
    | zero => intro t _; rw [sub_zero]; exact rounds_exact hu _
  · rw [List.length_map, List.length_range, list_range_sum, ← hmu]; exact rounds_exact hu _
  · rw [← pow_two]; exact rounds_exact hu _
  · rw [← list_range_sum]; exact sum_exact hu _
  · rw [hv]; exact rounds_exact hu _
  · rw [hx]; exact rounds_exact hu _
  · rw [he, mul_comm]; exact rounds_exact hu _
  · intro Y hY
    rw [sub_self, norm_zero]
    have : 0 ≤ Y := (abs_nonneg _).trans (hY 0 hn)
    positivity
  · refine ⟨c.win.sum / c.nDft, 1 / (c.win.sum / c.nDft), ⟨_, sum_exact hu _, ?_⟩, rounds_exact hu _, ?_⟩
    · rw [hwin]; exact rounds_exact hu _
    · have e1 : 1 / (c.win.sum / c.nDft) / c.nDft = 1 / c.win.sum := by
        rcases eq_or_ne c.win.sum 0 with h | h
        · simp [h]
        · field_simp
      rw [e1]; exact rounds_exact hu _
  · have e2 : specHat c m ω vals f b = ((1 / c.win.sum : ℝ) : ℂ) * ∑ t ∈ Finset.range c.nDft, (e t : ℂ) * ω ^ (t * f) := by
      unfold specHat
      rw [div_eq_mul_inv, mul_comm]
      congr 1
      · push_cast; rw [one_div]
      · refine Finset.sum_congr rfl fun t _ => ?_
        simp only [specNorm, hnorm, he, hx, if_true]
        rw [← hst, ← hy, ← hmu, ← hv]
    rw [e2]
    constructor
    · rw [Complex.re_ofReal_mul]; exact rounds_exact hu _
    · rw [Complex.im_ofReal_mul]; exact rounds_exact hu _

/-! ### Close to the threshold -/

def flipCfg (eps4 : ℝ) : Cfg := ⟨4, 0, "zero", true, eps4, false, true, [1, 1, 1, 1], 2⟩
/-- eight snapshots `a, -a, a, -a, …` -/
def flipData (a : ℝ) : List ℝ := [a, -a, a, -a, a, -a, a, -a]

theorem flip_accepted (eps4 a : ℝ) : Accepted (flipCfg eps4) (series (flipData a)) ⟨[2], fun _ => 1⟩ .zero where
  shapes := by
    intro a ha
    simp only [series, List.flatten_cons, List.flatten_nil, List.append_nil, List.mem_map] at ha
    obtain ⟨v, -, rfl⟩ := ha
    rfl
  axes := by simp
  mean := (by decide : parseMean "zero" = Except.ok MeanType.zero)
  blocks := by
    rw [series_length]
    exact (by decide : feasible ((4 : Nat) : Int) (nBlocks ((8 : Nat) : Int) ((4 : Nat) : Int) 0) = .ok ())
  overlap := (by decide : (0 : Int) ≤ ((4 : Nat) : Int) - 1)
  window := rfl
  weights := fun x _ => zero_le_one
  many := by simp [size]

/-- **C248.** Without the distance from the threshold it fails: for every roundoff `u > 0` and every threshold there is accepted data of the form above for which the exact coefficient
    of the first block at the highest frequency is `a / threshold`, while `a` is a possible result -/
theorem normalized_floating_fails (u : ℝ) (hu : 0 < u) (eps4 : ℝ) (he : 0 < eps4) :
    ∃ a : ℝ, 0 < a ∧ Accepted (flipCfg eps4) (series (flipData a)) ⟨[2], fun _ => 1⟩ .zero ∧ 2 < nFreq 4 true false ∧
      ((series (flipData a)).flatten.map fun x => x.at' [0]) = flipData a ∧
      blockVar .zero (flipData a) 0 4 = eps4 ∧ specHat (flipCfg eps4) .zero (-Complex.I) (flipData a) 2 0 = ((a / eps4 : ℝ) : ℂ) ∧
      ∀ γ : ℝ, 0 ≤ γ → FlHatNorm u γ (flipCfg eps4) .zero (-Complex.I) (flipData a) 2 0 (a : ℂ) := by
  obtain ⟨a, ha⟩ : ∃ a, a = Real.sqrt (3 * eps4 / 4) := ⟨_, rfl⟩
  have ha0 : 0 < a := by rw [ha]; exact Real.sqrt_pos.2 (by positivity)
  have ha2 : a ^ 2 = 3 * eps4 / 4 := by rw [ha]; exact Real.sq_sqrt (by positivity)
  have hV : blockVar .zero (flipData a) 0 4 = eps4 := by
    simp only [blockVar, specFluct, flipData, Finset.sum_range_succ, Finset.sum_range_zero]
    norm_num
    linarith
  have hu' := hu.le
  have hpow : ∀ t, (-Complex.I) ^ (t * 2) = (-1) ^ t := by
    intro t
    rw [mul_comm, pow_mul]
    simp
  refine ⟨a, ha0, flip_accepted eps4 a, by decide, by simp [series, flipData], hV, ?_, ?_⟩
  · have hs : ∀ t, specNorm true eps4 4 (specFluct .zero (flipData a) 0 4) t = specFluct .zero (flipData a) 0 4 t / eps4 := by
      intro t
      have : (∑ τ ∈ Finset.range 4, (specFluct .zero (flipData a) 0 4 τ - (∑ σ ∈ range 4, specFluct .zero (flipData a) 0 4 σ) / (4 : ℕ)) ^ 2) / ((4 : ℕ) - 1) = eps4 := hV
      simp only [specNorm, this, if_true, lt_irrefl, if_false]
    simp only [specHat, flipCfg, Nat.zero_mul, hpow]
    simp only [hs]
    simp only [specFluct, flipData, Finset.sum_range_succ, Finset.sum_range_zero]
    push_cast
    norm_num
    ring
  · intro γ hγ
    obtain ⟨y, hy⟩ : ∃ y : Nat → ℝ, y = fun t => (flipData a).getD t 0 := ⟨_, rfl⟩
    obtain ⟨e, hedef⟩ : ∃ e : Nat → ℝ, e = y := ⟨_, rfl⟩
    have h4 : (List.range 4).map y = [a, -a, a, -a] := by rw [hy]; rfl
    refine ⟨y, y, y, (4 * a : ℝ), 1 / 4, ?_, ⟨eps4 * (1 - u), ⟨0, 4 * a ^ 2, y, fun _ => a ^ 2, ⟨0, ?_, ?_⟩, fun t _ => ?_, fun t ht => ?_, ?_, ?_⟩, fun t ht => ?_⟩, fun t ht => ⟨y t, ?_, rounds_exact hu' _⟩,
      ?_, ?_, ?_, ?_⟩
    · intro t _
      have : (offsets (flipCfg eps4) (flipData a).length).getD 0 0 = 0 := by
        have := (offsets_getD (flipCfg eps4) (by change (0 : Int) ≤ ((4 : Nat) : Int) - 1; decide) 8 0 (by change 0 < (nBlocks ((8 : Nat) : Int) ((4 : Nat) : Int) 0).toNat; decide)).1
        rw [List.getD_eq_getElem?_getD, show (flipData a).length = 8 from rfl, this, Option.getD_some, Nat.zero_mul]
      rw [this, Nat.zero_add, sub_zero, hy]
      exact rounds_exact hu' _
    · have := sum_exact hu' ((List.range 4).map y)
      have e0 : ((List.range 4).map y).sum = 0 := by rw [h4]; simp
      rw [e0] at this
      exact this
    · rw [zero_div]; exact rounds_exact hu' _
    · rw [sub_zero]; exact rounds_exact hu' _
    · have : y t * y t = a ^ 2 := by
        change t < 4 at ht
        rw [hy]
        interval_cases t <;> simp [flipData] <;> ring
      rw [this]
      exact rounds_exact hu' _
    · have := sum_exact hu' ((List.range 4).map fun _ => a ^ 2)
      have e0 : ((List.range 4).map fun _ => a ^ 2).sum = 4 * a ^ 2 := by simp [List.range, List.range.loop]; ring
      rw [e0] at this
      exact this
    · change |_ - 4 * a ^ 2 / (((4 : ℕ) : ℝ) - 1)| ≤ u * |4 * a ^ 2 / (((4 : ℕ) : ℝ) - 1)|
      have : 4 * a ^ 2 / (((4 : ℕ) : ℝ) - 1) = eps4 := by rw [ha2]; push_cast; ring
      rw [this, abs_of_pos he, show eps4 * (1 - u) - eps4 = -(u * eps4) by ring, abs_neg, abs_of_pos (mul_pos hu he)]
    · have : eps4 * (1 - u) < (flipCfg eps4).eps4 := by
        change eps4 * (1 - u) < eps4
        nlinarith
      rw [if_pos this, div_one]
      exact rounds_exact hu' _
    · change t < 4 at ht
      have : (flipCfg eps4).win.getD t 0 = 1 := by interval_cases t <;> rfl
      rw [this, mul_one]
      exact rounds_exact hu' _
    · intro Y hY
      have : ∑ t ∈ Finset.range 4, (y t : ℂ) * (-Complex.I) ^ (t * 2) = ((4 * a : ℝ) : ℂ) := by
        simp only [hpow, hy, flipData, Finset.sum_range_succ, Finset.sum_range_zero]
        push_cast
        norm_num
        ring
      have hd : (flipCfg eps4).nDft = 4 := rfl
      rw [hd] at hY ⊢
      rw [this, sub_self, norm_zero]
      have : 0 ≤ Y := (abs_nonneg _).trans (hY 0 (by omega))
      positivity
    · refine ⟨1, 1, ⟨4, ?_, ?_⟩, ?_, ?_⟩
      · have := sum_exact hu' (flipCfg eps4).win
        have e0 : (flipCfg eps4).win.sum = 4 := by norm_num [flipCfg]
        rw [e0] at this
        exact this
      · have : (4 : ℝ) / ((flipCfg eps4).win.length : ℕ) = 1 := by norm_num [flipCfg]
        rw [this]
        exact rounds_exact hu' _
      · rw [div_one]; exact rounds_exact hu' _
      · have : (1 : ℝ) / ((flipCfg eps4).nDft : ℕ) = 1 / 4 := by norm_num [flipCfg]
        rw [this]
        exact rounds_exact hu' _
    · have : 1 / 4 * ((4 * a : ℝ) : ℂ).re = a := by rw [Complex.ofReal_re]; ring
      rw [this, Complex.ofReal_re]
      exact rounds_exact hu' _
    · rw [Complex.ofReal_im, Complex.ofReal_im, mul_zero]
      exact rounds_exact hu' _

/-! ### Examples -/

/-- double precision, ten thousand snapshots, blocks of 256, values of magnitude at most 20, variances of at least 1: the relative error of the variance is below `10^-7` -/
example : varError (1 / 2 ^ 53) 20 10000 256 ≤ 1 / 10 ^ 7 * 1 := by
  have := pow_near (u := 1 / 2 ^ 53) (by norm_num) (2 * 10000 + 3 * 256 + 7) (by norm_num)
  rw [varError]
  have h2 : (1 + 1 / 2 ^ 53 : ℝ) ^ (2 * 10000 + 3 * 256 + 7) - 1 ≤ 1 / 10 ^ 12 * 3 := this.trans (by norm_num)
  refine (mul_le_mul_of_nonneg_right h2 (by norm_num)).trans (by norm_num)

/-- the hypotheses can be met: data with fluctuations `-5, 5, -5, …` at the first point and twice that at the second, threshold 1, double precision -/
theorem lively_clear (idx : List Nat) (hi : InRange [2] idx) (b : Nat) (hb : b < fitNb shortCfg 8) :
    ClearVar shortCfg .longtime (1 / 2 ^ 53) 20 1 ((series [0, 10, 0, 10, 0, 10, 0, 10]).flatten.map fun a => a.at' idx) b := by
  have h2 : fitNb shortCfg 8 = 2 := rfl
  rw [h2] at hb
  have hvar : varError (1 / 2 ^ 53) 20 8 4 ≤ 1 := by
    have := pow_near (u := 1 / 2 ^ 53) (by norm_num) (2 * 8 + 3 * 4 + 7) (by norm_num)
    rw [varError]
    have h2 : (1 + 1 / 2 ^ 53 : ℝ) ^ (2 * 8 + 3 * 4 + 7) - 1 ≤ 1 / 10 ^ 12 * 3 := this.trans (by norm_num)
    refine (mul_le_mul_of_nonneg_right h2 (by norm_num)).trans (by norm_num)
  obtain ⟨k, rfl, hk⟩ : ∃ k, idx = [k] ∧ k < 2 := by
    match idx, hi with
    | [k], hi => exact ⟨k, rfl, hi.1⟩
  have hV : blockVar .longtime ((series [0, 10, 0, 10, 0, 10, 0, 10]).flatten.map fun a => a.at' [k]) (b * ((shortCfg.nDft : Int) - shortCfg.nOvlp).toNat) shortCfg.nDft = 100 / 3 * ((k : ℝ) + 1) ^ 2 := by
    have hd : shortCfg.nDft = 4 := rfl
    have ho : ((shortCfg.nDft : Int) - shortCfg.nOvlp).toNat = 4 := rfl
    rw [ho, hd]
    interval_cases b <;> interval_cases k <;>
      simp [blockVar, specFluct, series, Finset.sum_range_succ] <;> norm_num
  have hk1 : (1 : ℝ) ≤ ((k : ℝ) + 1) ^ 2 := one_le_pow₀ (by linarith [Nat.cast_nonneg (α := ℝ) k])
  have he : shortCfg.eps4 = 1 := rfl
  have hlen : ((series [0, 10, 0, 10, 0, 10, 0, 10]).flatten.map fun a => a.at' [k]).length = 8 := by rw [List.length_map, series_length]; rfl
  unfold ClearVar
  simp only
  rw [hV, he, hlen, if_neg (by linarith), abs_of_pos (by linarith)]
  exact ⟨lt_of_le_of_lt hvar (by linarith), by linarith⟩

/-- the theorem applies to it -/
example (solver : Solver (fitNb shortCfg (series [0, 10, 0, 10, 0, 10, 0, 10]).flatten.length)) (hs : SolverFull solver) :=
  normalized_floating_partial shortCfg (-Complex.I) (by simp) rfl (series [0, 10, 0, 10, 0, 10, 0, 10]) ⟨[2], fun _ => 1⟩ .longtime (short_accepted _ rfl (fun _ => 1) fun _ => zero_le_one)
    (by decide) (by simp [shortCfg]) (by norm_num [shortCfg]) (4 / 3) (by norm_num [shortCfg]) solver hs

/-- and coefficients exist -/
example (f b : Nat) (hb : b < fitNb shortCfg (series [0, 10, 0, 10, 0, 10, 0, 10]).flatten.length) (idx : List Nat) (u γ : ℝ) (hu : 0 ≤ u) (hγ : 0 ≤ γ) :
    ∃ q, FlHatNorm u γ shortCfg .longtime (-Complex.I) ((series [0, 10, 0, 10, 0, 10, 0, 10]).flatten.map fun a => a.at' idx) f b q :=
  ⟨_, hat_normalized_possible hu γ hγ shortCfg .longtime _ rfl _ (by decide) (by decide) rfl f b (by rw [List.length_map]; exact hb)⟩

end Verif.Props
