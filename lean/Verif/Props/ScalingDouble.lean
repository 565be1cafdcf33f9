import Verif.Model.ScalingDouble
import Verif.Props.Emulation
import Verif.Props.Double
/-
  C242: the scaling of the emulation in double precision.
-/
namespace Verif.Props
open Verif Verif.Emu Verif.Dbl

/-- bound on the scaled data in double precision: `1/10` up to rounding for localmax, exactly 1 for globalmax -/
noncomputable def scaleBoundDouble (normalization : String) : Option ℝ :=
  if Spod.lower normalization = "localmax" then some (1 / 10 * (1 + 1 / 2 ^ 51))
  else if Spod.lower normalization = "globalmax" then some 1 else none

/-- what is known of the factor of a row -/
def FactorOk (normalization : String) (data : List (List ℝ)) (row : List ℝ) (v : ℝ) : Prop :=
  if Spod.lower normalization = "localmax" then ∃ m, MaxAbs row m ∧ 10 * m * (1 - 1 / 2 ^ 53) ≤ v
  else if Spod.lower normalization = "globalmax" then MaxAbs data.flatten v
  else v = 1

theorem flRange_spec {fl : ℝ → ℝ} (hfl : IsDouble fl) (l : List ℝ) (h : l ≠ []) : ∃ v, flRange fl l = some v ∧ ∃ m, MaxAbs l m ∧ 10 * m * (1 - 1 / 2 ^ 53) ≤ v := by
  obtain ⟨a, ea, ha, ha'⟩ := amax_spec l h
  obtain ⟨b, eb, hb, hb'⟩ := amin_spec l h
  refine ⟨max |fl (a * 10)| |fl (b * 10)|, by simp only [flRange, ea, eb], max |a| |b|, maxAbs_of_bounds l a b ha hb ha' hb', ?_⟩
  have key : ∀ x : ℝ, 10 * |x| * (1 - 1 / 2 ^ 53) ≤ |fl (x * 10)| := by
    intro x
    have h1 := hfl.near (x * 10)
    have h2 : |x * 10| ≤ |fl (x * 10)| + |fl (x * 10) - x * 10| := by
      have := abs_sub_abs_le_abs_sub (x * 10) (fl (x * 10))
      rw [abs_sub_comm] at this; linarith
    have h3 : |x * 10| = 10 * |x| := by rw [abs_mul, mul_comm]; norm_num
    rw [h3] at h1 h2
    linarith
  rcases max_choice |a| |b| with h | h <;> rw [h]
  · exact (key a).trans (le_max_left _ _)
  · exact (key b).trans (le_max_right _ _)

theorem flRowScales_spec {fl : ℝ → ℝ} (hfl : IsDouble fl) (normalization : String) (data : List (List ℝ)) (h : data ≠ []) (hr : ∀ r ∈ data, r ≠ []) :
    ∃ vec, flRowScales fl normalization data = some vec ∧ List.Forall₂ (FactorOk normalization data) data vec := by
  unfold flRowScales FactorOk
  by_cases h1 : Spod.lower normalization = "localmax"
  · simp only [h1, if_true]
    exact mapM_some_emu _ data _ fun r hr' => flRange_spec hfl r (hr r hr')
  · simp only [h1, if_false]
    by_cases h2 : Spod.lower normalization = "globalmax"
    · simp only [h2, if_true]
      obtain ⟨v, e, hv⟩ := globalRange_spec data h hr
      exact ⟨_, by rw [e]; rfl, forall₂_replicate _ _ fun _ _ => hv⟩
    · simp only [h2, if_false]
      exact ⟨_, rfl, forall₂_replicate _ _ fun _ _ => rfl⟩

theorem factorOk_pos {normalization : String} {data : List (List ℝ)} {row : List ℝ} {v : ℝ} (h : FactorOk normalization data row v) (hrow : row ∈ data)
    (hnz : ∃ x ∈ row, x ≠ 0) : 0 < v := by
  obtain ⟨x, hx, hx0⟩ := hnz
  have hp : 0 < |x| := abs_pos.2 hx0
  unfold FactorOk at h
  split_ifs at h with h1 h2
  · obtain ⟨m, hm, hv⟩ := h
    have := hm.1 x hx
    refine lt_of_lt_of_le ?_ hv
    have : 0 < m := by linarith
    have h3 : (0 : ℝ) < 1 - 1 / 2 ^ 53 := by norm_num
    positivity
  · have := h.1 x (List.mem_flatten.2 ⟨row, hrow, hx⟩)
    linarith
  · rw [h]; exact one_pos

theorem fl_abs_le {fl : ℝ → ℝ} (hfl : IsDouble fl) (x : ℝ) : |fl x| ≤ |x| * (1 + 1 / 2 ^ 53) := by
  have h1 := hfl.near x
  have h2 := abs_sub_abs_le_abs_sub (fl x) x
  linarith

/-- the size of a scaled value -/
theorem scaled_bound {fl : ℝ → ℝ} (hfl : IsDouble fl) {normalization : String} {data : List (List ℝ)} {row : List ℝ} {v : ℝ} (h : FactorOk normalization data row v)
    (hrow : row ∈ data) (hv : 0 < v) (x : ℝ) (hx : x ∈ row) (B : ℝ) (hB : scaleBoundDouble normalization = some B) : |fl (x / v)| ≤ B := by
  unfold scaleBoundDouble at hB
  unfold FactorOk at h
  split_ifs at h hB with h1 h2
  · obtain ⟨m, hm, hmv⟩ := h
    simp only [Option.some.injEq] at hB
    subst hB
    have hxm := hm.1 x hx
    have h3 : |x / v| * (10 * (1 - 1 / 2 ^ 53)) ≤ 1 := by
      rw [abs_div, abs_of_pos hv, div_mul_eq_mul_div, div_le_one hv]
      have : |x| * (10 * (1 - 1 / 2 ^ 53)) ≤ m * (10 * (1 - 1 / 2 ^ 53)) := mul_le_mul_of_nonneg_right hxm (by norm_num)
      linarith
    have h4 := fl_abs_le hfl (x / v)
    have h5 : |x / v| ≤ 1 / (10 * (1 - 1 / 2 ^ 53)) := by rw [le_div_iff₀ (by norm_num)]; exact h3
    calc |fl (x / v)| ≤ |x / v| * (1 + 1 / 2 ^ 53) := h4
      _ ≤ 1 / (10 * (1 - 1 / 2 ^ 53)) * (1 + 1 / 2 ^ 53) := mul_le_mul_of_nonneg_right h5 (by norm_num)
      _ ≤ _ := by norm_num
  · simp only [Option.some.injEq] at hB
    subst hB
    have hxm := h.1 x (List.mem_flatten.2 ⟨row, hrow, hx⟩)
    have h3 : |x / v| ≤ 1 := by rw [abs_div, abs_of_pos hv, div_le_one hv]; exact hxm
    obtain ⟨g1, g2⟩ := abs_le.1 h3
    have e1 : fl 1 = 1 := by have := fl_nat hfl 1 (by norm_num); simpa using this
    have e2 : fl (-1) = -1 := by have := fl_nat hfl (-1) (by norm_num); simpa using this
    have k1 := hfl.mono g1
    have k2 := hfl.mono g2
    rw [e2] at k1
    rw [e1] at k2
    exact abs_le.2 ⟨k1, k2⟩

/-- there and back: two roundings -/
theorem back_bound {fl : ℝ → ℝ} (hfl : IsDouble fl) (x v : ℝ) (hv : 0 < v) : |fl (fl (x / v) * v) - x| ≤ |x| / 2 ^ 51 := by
  have h1 := hfl.near (x / v)
  have h2 := hfl.near (fl (x / v) * v)
  have h3 := fl_abs_le hfl (x / v)
  rw [abs_mul, abs_of_pos hv] at h2
  have e1 : |x / v| * v = |x| := by rw [abs_div, abs_of_pos hv, div_mul_cancel₀ _ hv.ne']
  have h4 : |fl (x / v) * v - x| ≤ |x| / 2 ^ 53 := by
    have : fl (x / v) * v - x = (fl (x / v) - x / v) * v := by field_simp
    rw [this, abs_mul, abs_of_pos hv]
    calc |fl (x / v) - x / v| * v ≤ |x / v| / 2 ^ 53 * v := mul_le_mul_of_nonneg_right h1 hv.le
      _ = |x| / 2 ^ 53 := by rw [div_mul_eq_mul_div, e1]
  have h5 : |fl (x / v)| * v ≤ |x| * (1 + 1 / 2 ^ 53) := by
    calc |fl (x / v)| * v ≤ |x / v| * (1 + 1 / 2 ^ 53) * v := mul_le_mul_of_nonneg_right h3 hv.le
      _ = |x| * (1 + 1 / 2 ^ 53) := by rw [mul_right_comm, e1]
  have h6 : |fl (fl (x / v) * v) - x| ≤ |fl (fl (x / v) * v) - fl (x / v) * v| + |fl (x / v) * v - x| := by
    have := abs_add_le (fl (fl (x / v) * v) - fl (x / v) * v) (fl (x / v) * v - x); simpa using this
  have h7 : |fl (x / v)| * v / 2 ^ 53 ≤ |x| * (1 + 1 / 2 ^ 53) / 2 ^ 53 := div_le_div_of_nonneg_right h5 (by positivity)
  have := abs_nonneg x
  nlinarith

/-- **C242.** Data of doubles in which every row has a non-zero entry: in double precision every scaled value is a number within the bound of its normalization, and de-scaling
    returns every value up to a relative error of `2^-51`, exactly so when there is no normalization and at the entries that are the largest of all for globalmax. -/
theorem scaling_double {fl : ℝ → ℝ} (hfl : IsDouble fl) (normalization : String) (data : List (List ℝ)) (h : data ≠ []) (hd : ∀ r ∈ data, ∀ x ∈ r, fl x = x)
    (hnz : ∀ r ∈ data, ∃ x ∈ r, x ≠ 0) :
    ∃ vec, flRowScales fl normalization data = some vec ∧
      List.Forall₂ (List.Forall₂ fun _ z => ∃ y, z = some y ∧ ∀ B, scaleBoundDouble normalization = some B → |y| ≤ B) data (flScale fl data vec) ∧
      List.Forall₂ (List.Forall₂ fun x z => ∃ y, z = some y ∧ |y - x| ≤ |x| / 2 ^ 51 ∧
        (Spod.lower normalization ≠ "localmax" → Spod.lower normalization ≠ "globalmax" → y = x) ∧
        (Spod.lower normalization = "globalmax" → (∀ x' ∈ data.flatten, |x'| ≤ |x|) → y = x)) data (flDescale fl (flScale fl data vec) vec) := by
  obtain ⟨vec, e, hv⟩ := flRowScales_spec hfl normalization data h (fun r hr => by
    obtain ⟨x, hx, _⟩ := hnz r hr
    exact List.ne_nil_of_mem hx)
  refine ⟨vec, e, ?_⟩
  have aux : ∀ (d : List (List ℝ)) (vs : List ℝ), (∀ r ∈ d, r ∈ data) → List.Forall₂ (FactorOk normalization data) d vs →
      List.Forall₂ (List.Forall₂ fun _ z => ∃ y, z = some y ∧ ∀ B, scaleBoundDouble normalization = some B → |y| ≤ B) d (flScale fl d vs) ∧
      List.Forall₂ (List.Forall₂ fun x z => ∃ y, z = some y ∧ |y - x| ≤ |x| / 2 ^ 51 ∧
        (Spod.lower normalization ≠ "localmax" → Spod.lower normalization ≠ "globalmax" → y = x) ∧
        (Spod.lower normalization = "globalmax" → (∀ x' ∈ data.flatten, |x'| ≤ |x|) → y = x)) d (flDescale fl (flScale fl d vs) vs) := by
    intro d vs hd' hf
    induction hf with
    | nil => exact ⟨.nil, .nil⟩
    | @cons r v rs ws hp _ ih =>
      obtain ⟨i1, i2⟩ := ih (fun r hr => hd' r (by simp [hr]))
      have hr := hd' r (by simp)
      have hv0 := factorOk_pos hp hr (hnz r hr)
      simp only [flScale, flDescale, List.zipWith_cons_cons, List.map_map] at i1 i2 ⊢
      refine ⟨.cons ?_ i1, .cons ?_ i2⟩
      · rw [List.forall₂_map_right_iff]
        exact List.forall₂_same.2 fun x hx => ⟨fl (x / v), by simp [hv0.ne'], fun B hB => scaled_bound hfl hp hr hv0 x hx B hB⟩
      · rw [List.forall₂_map_right_iff]
        refine List.forall₂_same.2 fun x hx => ⟨fl (fl (x / v) * v), by simp [hv0.ne'], back_bound hfl x v hv0, ?_, ?_⟩
        · intro n1 n2
          unfold FactorOk at hp
          rw [if_neg n1, if_neg n2] at hp
          rw [hp, div_one, mul_one, hd r hr x hx, hd r hr x hx]
        · intro n2 hmax
          have n1 : Spod.lower normalization ≠ "localmax" := by rw [n2]; decide
          unfold FactorOk at hp
          rw [if_neg n1, if_pos n2] at hp
          obtain ⟨x', hx', e'⟩ := hp.2
          have hvx : |x| = v := le_antisymm (hp.1 x (List.mem_flatten.2 ⟨r, hr, hx⟩)) (by rw [← e']; exact hmax x' hx')
          have e1 : fl 1 = 1 := by have := fl_nat hfl 1 (by norm_num); simpa using this
          have e2 : fl (-1) = -1 := by have := fl_nat hfl (-1) (by norm_num); simpa using this
          rcases le_or_gt 0 x with hx0 | hx0
          · rw [abs_of_nonneg hx0] at hvx
            rw [hvx, div_self hv0.ne', e1, one_mul, ← hvx, hd r hr x hx]
          · rw [abs_of_neg hx0] at hvx
            have : x = -v := by linarith
            rw [this, neg_div, div_self hv0.ne', e2, neg_one_mul, ← this, hd r hr x hx]
  exact aux data vec (fun _ hr => hr) hv

/-- **C242.** The other values are not always returned exactly: `1` in the row `[1, 49]` comes back as `1 - 2^-53` -/
theorem scaling_double_inexact : ∃ vec, flRowScales rn "globalmax" [[1, 49]] = some vec ∧
    flDescale rn (flScale rn [[1, 49]] vec) vec = [[some (1 - 1 / 2 ^ 53), some 49]] := by
  have e1 : rn (1 / 49) = (5882252574524729 : ℤ) * (2 : ℝ) ^ ((-6 : ℤ) - 52) := rn_value _ (-6) _ (by norm_num) (by norm_num) (by rw [abs_lt]; norm_num)
  have e2 : rn ((5882252574524729 : ℤ) * (2 : ℝ) ^ ((-6 : ℤ) - 52) * 49) = (9007199254740991 : ℤ) * (2 : ℝ) ^ ((-1 : ℤ) - 52) :=
    rn_value _ (-1) _ (by norm_num) (by norm_num) (by rw [abs_lt]; norm_num)
  have e3 : rn 1 = 1 := by have := fl_nat rn_double 1 (by norm_num); simpa using this
  have e4 : rn 49 = 49 := by have := fl_nat rn_double 49 (by norm_num); simpa using this
  refine ⟨[49], ?_, ?_⟩
  · have n1 : Spod.lower "globalmax" ≠ "localmax" := by decide
    have n2 : Spod.lower "globalmax" = "globalmax" := by decide
    unfold flRowScales
    rw [if_neg n1, if_pos n2]
    simp [globalRange, amax, amin]
  · simp only [flScale, flDescale, List.zipWith_cons_cons, List.map_cons, List.map_nil, List.zipWith_nil_left, if_neg (by norm_num : ¬(49 : ℝ) = 0), Option.map_some]
    rw [e1, e2, div_self (by norm_num), e3, one_mul, e4]
    norm_num

/-- **C242.** A row of zeros: with localmax every value of that row is scaled to nan in double precision as well -/
theorem scaling_double_zero_row {fl : ℝ → ℝ} (hfl : IsDouble fl) (normalization : String) (hn : Spod.lower normalization = "localmax") (data : List (List ℝ))
    (hr : ∀ r ∈ data, r ≠ []) :
    ∃ vec, flRowScales fl normalization data = some vec ∧
      List.Forall₂ (fun row out => out.length = row.length ∧ ((∀ x ∈ row, x = 0) → ∀ y ∈ out, y = none)) data (flScale fl data vec) := by
  have h0 : fl 0 = 0 := by have := hfl.near 0; simpa using this
  have key : ∀ r ∈ data, ∃ v, flRange fl r = some v ∧ ((∀ x ∈ r, x = 0) → v = 0) := by
    intro r hr'
    obtain ⟨a, ea, ha, ha'⟩ := amax_spec r (hr r hr')
    obtain ⟨b, eb, hb, hb'⟩ := amin_spec r (hr r hr')
    refine ⟨max |fl (a * 10)| |fl (b * 10)|, by simp only [flRange, ea, eb], fun hz => ?_⟩
    rw [hz a (by assumption), hz b (by assumption), zero_mul, h0]
    simp
  obtain ⟨vec, e, hv⟩ := mapM_some_emu (flRange fl) data (fun r v => (∀ x ∈ r, x = 0) → v = 0) key
  refine ⟨vec, by rw [flRowScales, if_pos hn, e], ?_⟩
  clear e key hr
  induction hv with
  | nil => exact .nil
  | @cons r v rs vs h1 _ ih =>
    refine .cons ⟨by simp, fun hz y hy => ?_⟩ ih
    obtain ⟨x, _, rfl⟩ := List.mem_map.1 hy
    simp [h1 hz]

/-- non-vacuity: two rows of doubles -/
example : ∃ vec, flRowScales rn "LocalMax" [[1, -2], [3, 0]] = some vec := by
  have k : ∀ n : ℤ, |n| ≤ 2 ^ 53 → rn n = n := fl_nat rn_double
  obtain ⟨vec, h, _⟩ := scaling_double rn_double "LocalMax" [[1, -2], [3, 0]] (by simp) (by
    have k1 := k 1 (by norm_num); have k2 := k (-2) (by norm_num); have k3 := k 3 (by norm_num); have k0 := k 0 (by norm_num)
    push_cast at k1 k2 k3 k0
    simp [k1, k2, k3, k0]) (by
    intro r hr
    simp only [List.mem_cons, List.not_mem_nil, or_false] at hr
    rcases hr with rfl | rfl
    · exact ⟨1, by simp, by norm_num⟩
    · exact ⟨3, by simp, by norm_num⟩)
  exact ⟨vec, h⟩

end Verif.Props
