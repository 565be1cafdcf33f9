import Verif.Model.SpodBase
import Mathlib.Algebra.Order.Field.Basic
import Mathlib.Algebra.BigOperators.Intervals
import Mathlib.Algebra.BigOperators.Ring.Finset
import Mathlib.Data.Finset.Card
import Mathlib.Algebra.Star.BigOperators
import Mathlib.Algebra.Star.Rat
import Mathlib.Tactic.Linarith
import Mathlib.Tactic.Positivity
import Mathlib.Tactic.FieldSimp
import Mathlib.Tactic.Ring
import Mathlib.Tactic.NormNum
import Mathlib.Tactic.IntervalCases
/-
  C22, C23, C24: frequency axis and one-sided spectra.
-/
set_option linter.unusedSectionVars false
namespace Verif.Props
open Verif Verif.Spod

section
variable {K : Type} [Field K] [LinearOrder K] [IsStrictOrderedRing K]

/-- **C22.** Real data: the axis has `⌊n/2⌋+1` entries, the `k`-th is `k/(n·dt)`, entries increase
    strictly and stay within `[0, 1/(2 dt)]`. -/
theorem freq_axis_real (n : Nat) (hn : 0 < n) (dt : K) (hdt : 0 < dt) :
    (freqAxis n dt true false).length = n / 2 + 1 ∧
    (freqAxis n dt true false).length = nFreq n true false ∧
    (∀ k : Nat, k ≤ n / 2 → (freqAxis n dt true false)[k]? = some ((k : K) / (n * dt))) ∧
    (∀ (k : Nat) (x : K), (freqAxis n dt true false)[k]? = some x → 0 ≤ x ∧ x ≤ 1 / (2 * dt)) ∧
    (freqAxis n dt true false).Pairwise (· < ·) := by
  have hn' : (0 : K) < n := by exact_mod_cast hn
  have hent : ∀ k : Nat, k ≤ n / 2 → (freqAxis n dt true false)[k]? = some ((k : K) / (n * dt)) := by
    intro k hk
    simp only [freqAxis, Bool.false_eq_true, ↓reduceIte, List.getElem?_map,
      List.getElem?_range (show k < n / 2 + 1 by omega), Option.map_some, Option.some.injEq]
    rw [div_div]
  refine ⟨by simp [freqAxis], by simp [freqAxis, nFreq], hent, ?_, ?_⟩
  · intro k x hx
    have hk : k < n / 2 + 1 := by
      have := (List.getElem?_eq_some_iff.1 hx).1
      simpa [freqAxis] using this
    rw [hent k (by omega), Option.some.injEq] at hx
    subst hx
    refine ⟨by positivity, ?_⟩
    rw [div_le_div_iff₀ (by positivity) (by positivity)]
    have : (2 * k : K) ≤ n := by
      have : 2 * k ≤ n := by omega
      exact_mod_cast this
    nlinarith
  · simp only [freqAxis, Bool.false_eq_true, ↓reduceIte]
    rw [List.pairwise_map]
    refine List.Pairwise.imp ?_ List.pairwise_lt_range
    intro a b hab
    have : (a : K) < b := by exact_mod_cast hab
    gcongr

/-- Specification for a two-sided axis: `x` is an alias of the frequency of DFT bin `k`, that is, differs
    from `k/(n·dt)` by an integer multiple of the sampling frequency `1/dt`. -/
def Alias (n : Nat) (dt : K) (k : Nat) (x : K) : Prop := ∃ m : Int, x = (k : K) / (n * dt) + m / dt

/-- inside the Nyquist band -/
def InBand (dt x : K) : Prop := -(1 / (2 * dt)) ≤ x ∧ x ≤ 1 / (2 * dt)

theorem axis_entry (n cut : Nat) (dt : K) (k : Nat) (hk : k < n) :
    (((List.range n).map fun (k : Nat) => ((k : K) / dt) / n).take cut ++
      (((List.range n).map fun (k : Nat) => ((k : K) / dt) / n).drop cut).map (· - 1 / dt))[k]? =
    some (if k < cut then (k : K) / (n * dt) else (k : K) / (n * dt) - 1 / dt) := by
  have e : (k : K) / dt / n = (k : K) / (n * dt) := by rw [div_div, mul_comm]
  split
  · rename_i h
    rw [List.getElem?_append_left (by simp; omega), List.getElem?_take_of_lt h]
    simp [hk, e]
  · rename_i h
    rw [List.getElem?_append_right (by simp; omega)]
    have hl : min cut n = cut := by omega
    simp only [List.length_take, List.length_map, List.length_range, hl, List.getElem?_map,
      List.getElem?_drop]
    rw [show cut + (k - cut) = k by omega, List.getElem?_range hk]
    simp [e]

/-- All entries of a complex-data axis, in both parities. -/
theorem freq_axis_complex_entry (n : Nat) (dt : K) (k : Nat) (hk : k < n) :
    (freqAxis n dt false false)[k]? = some (if k < (n + 1) / 2 + 1 then (k : K) / (n * dt)
      else (k : K) / (n * dt) - 1 / dt) := by
  unfold freqAxis
  simp only [Bool.false_eq_true, ↓reduceIte]
  split
  · rw [axis_entry n _ dt k hk]
    have : n / 2 = (n + 1) / 2 := by omega
    rw [this]
  · rw [axis_entry n _ dt k hk]

theorem freq_alias (n : Nat) (dt : K) (k : Nat) (hk : k < n) (x : K)
    (hx : (freqAxis n dt false false)[k]? = some x) : Alias n dt k x := by
  rw [freq_axis_complex_entry n dt k hk, Option.some.injEq] at hx
  subst hx
  split
  · exact ⟨0, by simp⟩
  · exact ⟨-1, by push_cast; ring⟩

/-- **C23**, proved part: complex data.  The axis has `n` entries, entry `k` is an alias of `k/(n·dt)`, and it
    lies inside the Nyquist band except for one entry of odd transforms, `k = (n+1)/2`. -/
theorem freq_axis_complex_partial (n : Nat) (hn : 0 < n) (dt : K) (hdt : 0 < dt) :
    (freqAxis n dt false false).length = n ∧
    ∀ (k : Nat) (x : K), k < n → (freqAxis n dt false false)[k]? = some x →
      Alias n dt k x ∧ (¬ (n % 2 = 1 ∧ k = (n + 1) / 2) → InBand dt x) := by
  have hn' : (0 : K) < n := by exact_mod_cast hn
  refine ⟨?_, ?_⟩
  · unfold freqAxis
    simp only [Bool.false_eq_true, ↓reduceIte]
    split <;> simp <;> omega
  · intro k x hk hx
    refine ⟨freq_alias n dt k hk x hx, fun hodd => ?_⟩
    rw [freq_axis_complex_entry n dt k hk, Option.some.injEq] at hx
    subst hx
    have hkn : (k : K) < n := by exact_mod_cast hk
    split
    · rename_i h
      have h2 : (2 * k : K) ≤ n := by
        have : 2 * k ≤ n := by omega
        exact_mod_cast this
      constructor
      · have : (0 : K) ≤ (k : K) / (n * dt) := by positivity
        have : (0 : K) ≤ 1 / (2 * dt) := by positivity
        linarith
      · rw [div_le_div_iff₀ (by positivity) (by positivity)]; nlinarith
    · rename_i h
      have h2 : (n : K) ≤ 2 * k := by
        have : n ≤ 2 * k := by omega
        exact_mod_cast this
      have e : (k : K) / (n * dt) - 1 / dt = (k - n) / (n * dt) := by field_simp
      constructor
      · rw [e, ← neg_div, div_le_div_iff₀ (by positivity) (by positivity)]; nlinarith
      · rw [e]
        have : (k - n : K) / (n * dt) ≤ 0 := div_nonpos_of_nonpos_of_nonneg (by linarith) (by positivity)
        have : (0 : K) ≤ 1 / (2 * dt) := by positivity
        linarith

/-- C23 holds for even transforms: the full statement. -/
theorem freq_axis_complex_even (n : Nat) (hn : 0 < n) (he : n % 2 = 0) (dt : K) (hdt : 0 < dt) (k : Nat)
    (hk : k < n) : ∃ x, (freqAxis n dt false false)[k]? = some x ∧ Alias n dt k x ∧ InBand dt x := by
  have h := freq_axis_complex_entry n dt k hk
  have := (freq_axis_complex_partial n hn dt hdt).2 k _ hk h
  exact ⟨_, h, this.1, this.2 (by omega)⟩

/-- **C23 is false** for every odd transform of length at least three: the entry of bin `(n+1)/2` is larger
    than the Nyquist frequency (base.py:630 shifts from `(n+1)//2+1`, one too late). -/
theorem freq_axis_complex_odd_fails (n : Nat) (hn : 3 ≤ n) (ho : n % 2 = 1) (dt : K) (hdt : 0 < dt) :
    ∃ x, (freqAxis n dt false false)[(n + 1) / 2]? = some x ∧ 1 / (2 * dt) < x ∧ ¬ InBand dt x := by
  have hn' : (0 : K) < n := by exact_mod_cast (show 0 < n by omega)
  have hk : (n + 1) / 2 < n := by omega
  have key : 1 / (2 * dt) < (((n + 1) / 2 : Nat) : K) / (n * dt) := by
    rw [div_lt_div_iff₀ (by positivity) (by positivity)]
    have : ((n : K)) < 2 * (((n + 1) / 2 : Nat) : K) := by
      have : n < 2 * ((n + 1) / 2) := by omega
      exact_mod_cast this
    nlinarith
  refine ⟨_, freq_axis_complex_entry n dt _ hk, ?_, ?_⟩
  · simpa using key
  · simp only [Nat.lt_succ_self, ↓reduceIte, InBand, not_and, not_le]
    intro _
    exact key

/-- With `fullspectrum` the axis is `k/(n·dt)` for all `n` bins and never shifted, for real and complex
    data alike: the upper half lies above the Nyquist frequency. -/
theorem freq_axis_full (n : Nat) (dt : K) (isreal : Bool) :
    (freqAxis n dt isreal true).length = n ∧
    ∀ k : Nat, k < n → (freqAxis n dt isreal true)[k]? = some ((k : K) / (n * dt)) := by
  refine ⟨by simp [freqAxis], fun k hk => ?_⟩
  simp [freqAxis, hk, div_div, mul_comm]

end

example : freqAxis 4 (1 / 2 : ℚ) true false = [0, 1 / 2, 1] := by
  norm_num [freqAxis, List.range_succ]
example : freqAxis 4 (1 : ℚ) false false = [0, 1 / 4, 1 / 2, -1 / 4] := by
  norm_num [freqAxis, List.range_succ]
example : freqAxis 5 (1 : ℚ) false false = [0, 1 / 5, 2 / 5, 3 / 5, -1 / 5] := by
  norm_num [freqAxis, List.range_succ]

/-! ### C24 -/

/-- Specification: the two-sided DFT bins represented by the stored one-sided bin `f`: `f` itself and its
    mirror image `n - f` (mod `n`). -/
def represented (n f : Nat) : Finset Nat := (Finset.range n).filter fun k => k = f ∨ (k + f) % n = 0

theorem represented_card (n f : Nat) (hn : 0 < n) (hf : f ≤ n / 2) :
    (represented n f).card = if f = 0 ∨ 2 * f = n then 1 else 2 := by
  have h : represented n f = {f % n, (n - f) % n} := by
    ext k
    simp only [represented, Finset.mem_filter, Finset.mem_range, Finset.mem_insert, Finset.mem_singleton]
    have hf1 : f < n ∨ f = n := by omega
    by_cases hf0 : f = 0
    · subst hf0
      simp only [Nat.add_zero, Nat.zero_mod, Nat.sub_zero, Nat.mod_self, or_self]
      constructor
      · rintro ⟨h1, h2 | h2⟩
        · exact h2
        · rwa [Nat.mod_eq_of_lt h1] at h2
      · rintro rfl; exact ⟨hn, Or.inl rfl⟩
    · have hfn : f < n := by omega
      rw [Nat.mod_eq_of_lt hfn, Nat.mod_eq_of_lt (show n - f < n by omega)]
      constructor
      · rintro ⟨h1, h2 | h2⟩
        · exact Or.inl h2
        · right
          have hlt : k + f < 2 * n := by omega
          have : k + f = n := by
            rcases Nat.lt_or_ge (k + f) n with h3 | h3
            · rw [Nat.mod_eq_of_lt h3] at h2; omega
            · rw [Nat.mod_eq_sub_mod h3, Nat.mod_eq_of_lt (by omega)] at h2; omega
          omega
      · rintro (rfl | rfl)
        · exact ⟨hfn, Or.inl rfl⟩
        · refine ⟨by omega, Or.inr ?_⟩
          rw [show n - f + f = n by omega, Nat.mod_self]
  rw [h]
  by_cases h0 : f = 0
  · subst h0; simp
  · have hfn : f < n := by omega
    rw [Nat.mod_eq_of_lt hfn, Nat.mod_eq_of_lt (show n - f < n by omega)]
    by_cases h2 : 2 * f = n
    · rw [show n - f = f by omega]; simp [h2]
    · rw [Finset.card_pair (by omega)]; simp [h0, h2]

/-- **C24**, proved part: real data, one-sided spectrum of an *even* transform.  The factor applied to
    frequency `f` is the number of two-sided bins it represents. -/
theorem one_sided_factor_even_partial (n : Nat) (hn : 0 < n) (he : n % 2 = 0) (f : Nat)
    (hf : f < nFreq n true false) :
    oneSidedFactor true (nFreq n true false) f = (represented n f).card := by
  simp only [nFreq, Bool.false_eq_true, ↓reduceIte] at hf ⊢
  rw [represented_card n f hn (by omega)]
  unfold oneSidedFactor
  by_cases h : f = 0 ∨ 2 * f = n
  · rw [if_pos h, if_neg]; simp only [true_and, not_and]; omega
  · rw [if_neg h, if_pos]; simp only [true_and]; omega

/-- **C24 is false** for odd transforms: the last stored frequency represents two bins but is not doubled
    (standard.py:356 always excludes the last row). -/
theorem one_sided_factor_odd_fails (n : Nat) (hn : 3 ≤ n) (ho : n % 2 = 1) :
    let f := n / 2
    f < nFreq n true false ∧ (represented n f).card = 2 ∧ oneSidedFactor true (nFreq n true false) f = 1 := by
  refine ⟨by simp [nFreq], ?_, ?_⟩
  · rw [represented_card n _ (by omega) (by omega), if_neg (by omega)]
  · unfold oneSidedFactor; rw [if_neg]; simp [nFreq]

/-- **C24 is false** for real data with `fullspectrum`: all `n` bins are stored (each represents itself only),
    yet every interior one is doubled. -/
theorem one_sided_factor_fullspectrum_fails (n : Nat) :
    nFreq n true true = n ∧ ∀ f, 1 ≤ f → f + 1 < n → oneSidedFactor true (nFreq n true true) f = 2 := by
  refine ⟨by simp [nFreq], fun f h1 h2 => ?_⟩
  unfold oneSidedFactor; rw [if_pos]; simp [nFreq, h1, h2]

/-- Complex data: no doubling at all. -/
theorem two_sided_factor_complex (nf f : Nat) : oneSidedFactor false nf f = 1 := by
  simp [oneSidedFactor]

section
variable {R : Type} [Field R] [StarRing R]

/-- Conjugate symmetry of the transform of real samples. -/
theorem dft_conj_symm (ω : R) (x : List R) (hω : ω ^ x.length = 1) (hs : star ω * ω = 1)
    (hx : ∀ t : Nat, star (x.getD t 0) = x.getD t 0) (k : Nat) (hk : k ≤ x.length) :
    dftBin ω x (x.length - k) = star (dftBin ω x k) := by
  unfold dftBin
  rw [star_sum]
  apply Finset.sum_congr rfl
  intro t _
  rw [star_mul', hx t, star_pow]
  congr 1
  have h1 : ω ^ (t * (x.length - k)) * ω ^ (t * k) = 1 := by
    rw [← pow_add, ← Nat.mul_add, Nat.sub_add_cancel hk, Nat.mul_comm, pow_mul, hω, one_pow]
  have h2 : star ω ^ (t * k) * ω ^ (t * k) = 1 := by rw [← mul_pow, hs, one_pow]
  have h3 : ω ^ (t * k) ≠ 0 := by
    intro h; rw [h, mul_zero] at h2; exact zero_ne_one h2
  exact mul_right_cancel₀ h3 (h1.trans h2.symm)

/-- Splitting a symmetric two-sided sum of even length. -/
theorem sum_even_symm {A : Type} [AddCommGroup A] (m : Nat) (hm : 0 < m) (E : Nat → A)
    (hsym : ∀ k, k ≤ 2 * m → E (2 * m - k) = E k) :
    ∑ f ∈ Finset.range (m + 1), oneSidedFactor true (m + 1) f • E f = ∑ k ∈ Finset.range (2 * m), E k := by
  have hfac : ∀ f ∈ Finset.Ico 1 m, oneSidedFactor true (m + 1) f • E f = E f + E (2 * m - f) := by
    intro f hf
    rw [Finset.mem_Ico] at hf
    have h2 : f ≤ 2 * m := by omega
    unfold oneSidedFactor
    rw [if_pos (by simp; omega), hsym f h2, two_nsmul]
  have h1 : ∑ f ∈ Finset.range (m + 1), oneSidedFactor true (m + 1) f • E f =
      E 0 + (∑ f ∈ Finset.Ico 1 m, (E f + E (2 * m - f))) + E m := by
    rw [Finset.sum_range_succ, Finset.range_eq_Ico, Finset.sum_eq_sum_Ico_succ_bot hm,
      Finset.sum_congr rfl hfac]
    have h0 : oneSidedFactor true (m + 1) 0 = 1 := by unfold oneSidedFactor; simp
    have hmm : oneSidedFactor true (m + 1) m = 1 := by unfold oneSidedFactor; simp
    rw [h0, hmm, one_nsmul, one_nsmul]
  have h2 : ∑ k ∈ Finset.range (2 * m), E k =
      E 0 + ∑ k ∈ Finset.Ico 1 m, E k + (E m + ∑ k ∈ Finset.Ico (m + 1) (2 * m), E k) := by
    rw [Finset.range_eq_Ico, ← Finset.sum_Ico_consecutive E (Nat.zero_le m) (show m ≤ 2 * m by omega),
      Finset.sum_eq_sum_Ico_succ_bot hm, Finset.sum_eq_sum_Ico_succ_bot (show m < 2 * m by omega)]
  have h3 : ∑ k ∈ Finset.Ico (m + 1) (2 * m), E k = ∑ f ∈ Finset.Ico 1 m, E (2 * m - f) := by
    have := Finset.sum_Ico_reflect E 1 (m := m) (n := 2 * m) (by omega)
    rw [this]
    congr 1
    congr 1; omega
  rw [h1, h2, h3, Finset.sum_add_distrib]
  abel

/-- **C24**, meaning of the factor for an even transform of real samples: the energies of the stored
    frequencies, weighted by the factors applied by the code, add up to the energy of the two-sided
    spectrum. `ω` is numpy's `exp(-2πi/n)`; used facts: `ω^n = 1`, `conj ω · ω = 1`. -/
theorem one_sided_energy_even_partial (ω : R) (x : List R) (hn : 0 < x.length) (he : x.length % 2 = 0)
    (hω : ω ^ x.length = 1) (hs : star ω * ω = 1) (hx : ∀ t : Nat, star (x.getD t 0) = x.getD t 0) :
    ∑ f ∈ Finset.range (nFreq x.length true false),
      oneSidedFactor true (nFreq x.length true false) f • (dftBin ω x f * star (dftBin ω x f)) =
    ∑ k ∈ Finset.range x.length, dftBin ω x k * star (dftBin ω x k) := by
  have h2 : x.length = 2 * (x.length / 2) := by omega
  have hsym : ∀ k, k ≤ 2 * (x.length / 2) →
      dftBin ω x (2 * (x.length / 2) - k) * star (dftBin ω x (2 * (x.length / 2) - k)) =
        dftBin ω x k * star (dftBin ω x k) := by
    intro k hk
    rw [← h2] at hk ⊢
    rw [dft_conj_symm ω x hω hs hx k hk, star_star, mul_comm]
  have := sum_even_symm (x.length / 2) (by omega) (fun k => dftBin ω x k * star (dftBin ω x k)) hsym
  rw [← h2] at this
  simpa [nFreq] using this

end

example : (represented 8 3) = {3, 5} ∧ (represented 8 0) = {0} ∧ (represented 8 4) = {4} ∧
    (represented 7 3) = {3, 4} := by decide
/-- the hypotheses of `one_sided_energy_even_partial` are met by `ω = -1` (transform of length two) -/
example : let x := [(3 : ℚ), 5]
    ∑ f ∈ Finset.range (nFreq x.length true false),
      oneSidedFactor true (nFreq x.length true false) f • (dftBin (-1) x f * star (dftBin (-1) x f)) =
    ∑ k ∈ Finset.range x.length, dftBin (-1) x k * star (dftBin (-1) x k) :=
  one_sided_energy_even_partial (-1) [(3 : ℚ), 5] (by simp) (by simp) (by norm_num) (by simp) (by simp)

end Verif.Props
