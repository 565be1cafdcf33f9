import Verif.Model.Energy
import Mathlib.Tactic.Linarith
import Mathlib.Tactic.FieldSimp
import Mathlib.Tactic.NormNum
import Mathlib.Data.List.GetD
import Mathlib.Tactic.IntervalCases
import Mathlib.Algebra.BigOperators.Intervals
/-
  C62: `compute_energy_spectrum`.
-/
set_option linter.unusedVariables false
namespace Verif.Props
open Verif Verif.Energy Real

/-- the cosine coefficient of the signal at wavenumber `k` (specification) -/
noncomputable def cosCoef (n : Nat) (u : Nat → ℝ) (k : Nat) : ℝ :=
  ∑ j ∈ Finset.range n, u j * cos (2 * π * j * k / n)

/-- the sine coefficient -/
noncomputable def sinCoef (n : Nat) (u : Nat → ℝ) (k : Nat) : ℝ :=
  ∑ j ∈ Finset.range n, u j * sin (2 * π * j * k / n)

theorem fft_re (n : Nat) (u : Nat → ℝ) (k : Nat) : (fft n u k).re = cosCoef n u k := by
  unfold fft cosCoef
  rw [Complex.re_sum]
  apply Finset.sum_congr rfl
  intro j _
  have e : (-2 * π * Complex.I * j * k / n : ℂ) = ((-(2 * π * j * k / n) : ℝ) : ℂ) * Complex.I := by
    push_cast; ring
  rw [e, Complex.re_ofReal_mul, Complex.exp_ofReal_mul_I_re, cos_neg]

theorem fft_im (n : Nat) (u : Nat → ℝ) (k : Nat) : (fft n u k).im = -sinCoef n u k := by
  unfold fft sinCoef
  rw [Complex.im_sum, ← Finset.sum_neg_distrib]
  apply Finset.sum_congr rfl
  intro j _
  have e : (-2 * π * Complex.I * j * k / n : ℂ) = ((-(2 * π * j * k / n) : ℝ) : ℂ) * Complex.I := by
    push_cast; ring
  rw [e, Complex.im_ofReal_mul, Complex.exp_ofReal_mul_I_im, sin_neg]; ring

theorem cosCoef_mirror (n : Nat) (u : Nat → ℝ) (k : Nat) (hk : k ≤ n) (hn : 0 < n) :
    cosCoef n u (n - k) = cosCoef n u k := by
  unfold cosCoef
  apply Finset.sum_congr rfl
  intro j _
  have hn' : (n : ℝ) ≠ 0 := by exact_mod_cast hn.ne'
  have e : 2 * π * j * ((n - k : Nat) : ℝ) / n = (j : ℕ) * (2 * π) - 2 * π * j * k / n := by
    push_cast [Nat.cast_sub hk]; field_simp
  rw [e, cos_nat_mul_two_pi_sub]

/-- Exact value: entry `i` of the returned array is `(cosine coefficient / n)²/2`, entry 0 is 0, and the
    array has `n/2` entries (the last frequency `n/2` of an even record is not reported). -/
theorem energy_exact (n : Nat) (u : Nat → ℝ) :
    (energySpectrum n u).length = n / 2 ∧ ∀ i, i < n / 2 →
      (energySpectrum n u)[i]? = some (if i = 0 then 0 else (cosCoef n u i / n) ^ 2 / 2) := by
  refine ⟨by simp [energySpectrum], ?_⟩
  intro i hi
  unfold energySpectrum
  rw [List.getElem?_map, List.getElem?_range hi, Option.map_some]
  congr 1
  split
  · rfl
  · unfold espec
    rw [fft_re, fft_re, cosCoef_mirror n u i (by omega) (by omega), sq_abs]
    norm_num; ring

/-- C62, negation: a signal made of sines (`u_0 = 0`, `u_{n-j} = -u_j`) has a spectrum that is zero
    everywhere, whatever its content. -/
theorem energy_odd_fails (n : Nat) (u : Nat → ℝ) (h0 : u 0 = 0)
    (hodd : ∀ j, 0 < j → j < n → u (n - j) = -u j) : ∀ x ∈ energySpectrum n u, x = 0 := by
  intro x hx
  obtain ⟨i, hi, rfl⟩ := List.getElem_of_mem hx
  obtain ⟨hlen, hspec⟩ := energy_exact n u
  rw [hlen] at hi
  have := hspec i hi
  rw [List.getElem?_eq_getElem (by omega)] at this
  rw [Option.some.inj this]
  split
  · rfl
  · have hc : cosCoef n u i = 0 := by
      have hn : 0 < n := by omega
      have hn' : (n : ℝ) ≠ 0 := by exact_mod_cast hn.ne'
      unfold cosCoef
      obtain ⟨m, rfl⟩ : ∃ m, n = m + 1 := ⟨n - 1, by omega⟩
      rw [Finset.sum_range_succ', h0, zero_mul, add_zero]
      have hr := Finset.sum_range_reflect (fun j => u (j + 1) * cos (2 * π * ((j + 1 : Nat) : ℝ) * i / ((m + 1 : Nat) : ℝ))) m
      have hneg : ∑ j ∈ Finset.range m, u (m - 1 - j + 1) * cos (2 * π * ((m - 1 - j + 1 : Nat) : ℝ) * i / ((m + 1 : Nat) : ℝ))
          = - ∑ j ∈ Finset.range m, u (j + 1) * cos (2 * π * ((j + 1 : Nat) : ℝ) * i / ((m + 1 : Nat) : ℝ)) := by
        rw [← Finset.sum_neg_distrib]
        apply Finset.sum_congr rfl
        intro j hj
        rw [Finset.mem_range] at hj
        have e1 : m - 1 - j + 1 = m + 1 - (j + 1) := by omega
        rw [e1, hodd (j + 1) (by omega) (by omega)]
        have e2 : 2 * π * ((m + 1 - (j + 1) : Nat) : ℝ) * i / ((m + 1 : Nat) : ℝ)
            = (i : ℕ) * (2 * π) - 2 * π * ((j + 1 : Nat) : ℝ) * i / ((m + 1 : Nat) : ℝ) := by
          rw [Nat.cast_sub (by omega)]
          field_simp
        rw [e2, cos_nat_mul_two_pi_sub]; ring
      rw [hneg] at hr
      linarith
    rw [hc]; simp

/-- the hypotheses of `energy_odd_fails` hold of the pure sine of wavenumber 1, which is not zero -/
example : ∃ u : Nat → ℝ, u 0 = 0 ∧ (∀ j, 0 < j → j < 8 → u (8 - j) = -u j) ∧ u 2 = 1 ∧ sinCoef 8 u 1 ≠ 0 := by
  refine ⟨fun j => if j = 2 then 1 else if j = 6 then -1 else 0, by simp, ?_, by simp, ?_⟩
  · intro j h1 h2
    interval_cases j <;> simp
  · unfold sinCoef
    simp only [Finset.sum_range_succ, Finset.sum_range_zero]
    norm_num
    have a1 : 2 * π * 2 / 8 = π / 2 := by ring
    have a2 : 2 * π * 6 / 8 = π / 2 + π := by ring
    rw [a1, a2, sin_add_pi, sin_pi_div_two]; norm_num

/-- C62 (partial): for signals symmetric in time (`u_{n-j} = u_j`) a reported zero at wavenumber
    `1 ≤ i < n/2` means there is no content at that wavenumber.  Missing: other signals (`energy_odd_fails`),
    the mean and the highest wavenumber (`energy_missing_fails`). -/
theorem energy_even_partial (n : Nat) (u : Nat → ℝ)
    (heven : ∀ j, 0 < j → j < n → u (n - j) = u j) (i : Nat) (h1 : 1 ≤ i) (hi : i < n / 2) :
    (energySpectrum n u)[i]? = some 0 ↔ fft n u i = 0 := by
  have hn : 0 < n := by omega
  have hn' : (n : ℝ) ≠ 0 := by exact_mod_cast hn.ne'
  rw [(energy_exact n u).2 i hi, if_neg (by omega)]
  have hs : sinCoef n u i = 0 := by
    unfold sinCoef
    obtain ⟨m, rfl⟩ : ∃ m, n = m + 1 := ⟨n - 1, by omega⟩
    rw [Finset.sum_range_succ']
    simp only [Nat.cast_zero, mul_zero, zero_mul, zero_div, sin_zero, add_zero]
    have hr := Finset.sum_range_reflect (fun j => u (j + 1) * sin (2 * π * ((j + 1 : Nat) : ℝ) * i / ((m + 1 : Nat) : ℝ))) m
    have hneg : ∑ j ∈ Finset.range m, u (m - 1 - j + 1) * sin (2 * π * ((m - 1 - j + 1 : Nat) : ℝ) * i / ((m + 1 : Nat) : ℝ))
        = - ∑ j ∈ Finset.range m, u (j + 1) * sin (2 * π * ((j + 1 : Nat) : ℝ) * i / ((m + 1 : Nat) : ℝ)) := by
      rw [← Finset.sum_neg_distrib]
      apply Finset.sum_congr rfl
      intro j hj
      rw [Finset.mem_range] at hj
      have e1 : m - 1 - j + 1 = m + 1 - (j + 1) := by omega
      rw [e1, heven (j + 1) (by omega) (by omega)]
      have e2 : 2 * π * ((m + 1 - (j + 1) : Nat) : ℝ) * i / ((m + 1 : Nat) : ℝ)
          = (i : ℕ) * (2 * π) - 2 * π * ((j + 1 : Nat) : ℝ) * i / ((m + 1 : Nat) : ℝ) := by
        rw [Nat.cast_sub (by omega)]
        field_simp
      rw [e2, sin_nat_mul_two_pi_sub]; ring
    rw [hneg] at hr
    linarith
  rw [Complex.ext_iff, fft_re, fft_im, hs]
  simp [hn']

/-- C62, second negation: the mean is never reported, and for an even record the highest wavenumber `n/2`
    has no entry. -/
theorem energy_missing_fails (m : Nat) (hm : 0 < m) (u : Nat → ℝ) :
    (energySpectrum (2 * m) u)[0]? = some 0 ∧ (energySpectrum (2 * m) u)[m]? = none := by
  obtain ⟨h1, h2⟩ := energy_exact (2 * m) u
  refine ⟨by rw [h2 0 (by omega)]; simp, ?_⟩
  apply List.getElem?_eq_none
  omega

end Verif.Props
