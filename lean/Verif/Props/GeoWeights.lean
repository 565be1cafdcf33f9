import Verif.Model.GeoWeights
import Mathlib.Tactic.Linarith
import Mathlib.Tactic.FieldSimp
import Mathlib.Tactic.NormNum
import Mathlib.Tactic.LinearCombination
import Mathlib.Analysis.SpecialFunctions.Trigonometric.Bounds
import Mathlib.Data.List.GetD
/-
  C57: geographic weights.
-/
set_option linter.unusedVariables false
namespace Verif.Props
open Verif Verif.Geo Real

theorem diff_length (l : List ℝ) : (diff l).length = l.length - 1 := by
  simp [diff]

theorem diff_getElem? (l : List ℝ) (i : Nat) (h : i + 1 < l.length) :
    (diff l)[i]? = some (l.getD (i + 1) 0 - l.getD i 0) := by
  unfold diff
  rw [List.getElem?_zipWith]
  rw [List.getElem?_eq_getElem (show i < l.length by omega),
    List.getElem?_eq_getElem (show i < l.tail.length by simp; omega)]
  simp only [List.getElem_tail, List.getD_eq_getElem?_getD]
  rw [List.getElem?_eq_getElem h, List.getElem?_eq_getElem (show i < l.length by omega)]
  rfl

theorem latRad_getD (n1 i : Nat) (hn : 2 ≤ n1) (hi : i < n1) :
    (toRad (lat n1)).getD i 0 = -(π / 2) + i * (π / ((n1 : ℝ) - 1)) := by
  have hd : ((n1 : ℝ) - 1) ≠ 0 := by
    have : (2 : ℝ) ≤ n1 := by exact_mod_cast hn
    intro h; linarith
  simp only [toRad, lat, List.map_map, List.getD_eq_getElem?_getD]
  rw [List.getElem?_map, List.getElem?_range hi]
  simp only [Option.map_some, Option.getD_some, Function.comp]
  field_simp
  ring

theorem lonRad_getD (n2 j : Nat) (hj : j < n2) :
    (toRad (lon n2)).getD j 0 = j * (2 * π / (n2 : ℝ)) := by
  have hd : (n2 : ℝ) ≠ 0 := by
    have : (0 : ℝ) < n2 := by exact_mod_cast (show 0 < n2 by omega)
    exact this.ne'
  simp only [toRad, lon, List.map_map, List.getD_eq_getElem?_getD]
  rw [List.getElem?_map, List.getElem?_range hj]
  simp only [Option.map_some, Option.getD_some, Function.comp]
  field_simp

/-- the latitude step -/
noncomputable def hLat (n1 : Nat) : ℝ := π / ((n1 : ℝ) - 1)

/-- Trapezoidal weights of the latitudes (specification): half a step at the poles, a full step elsewhere. -/
noncomputable def trapz (n1 i : Nat) : ℝ := if i = 0 ∨ i = n1 - 1 then hLat n1 / 2 else hLat n1

theorem dl_spec (n1 : Nat) (hn : 2 ≤ n1) :
    (diff (toRad (lat n1))).dropLast = List.replicate (n1 - 2) (hLat n1) := by
  have hlen : (toRad (lat n1)).length = n1 := by simp [toRad, lat]
  apply List.ext_getElem?
  intro i
  rw [List.getElem?_dropLast, List.getElem?_replicate, diff_length, hlen]
  by_cases hi : i < n1 - 2
  · rw [if_pos (by omega), if_pos hi, diff_getElem? _ _ (by omega), latRad_getD n1 _ hn (by omega), latRad_getD n1 _ hn (by omega)]
    congr 1
    push_cast
    unfold hLat; ring
  · rw [if_neg (by omega), if_neg hi]

/-- **C57 (latitudes).**  Defined exactly for at least four latitudes; then they are the trapezoidal weights. -/
theorem dLat_spec (n1 : Nat) :
    (n1 < 4 → dLat n1 = none) ∧
    (4 ≤ n1 → ∃ l, dLat n1 = some l ∧ l.length = n1 ∧ ∀ i, i < n1 → l.getD i 0 = trapz n1 i) := by
  constructor
  · intro h
    have hl : (diff (toRad (lat n1))).dropLast.length ≤ 1 := by
      rw [List.length_dropLast, diff_length]; simp [toRad, lat]; omega
    unfold dLat
    simp only
    rw [List.getElem?_eq_none hl]
  · intro h
    refine ⟨[hLat n1 / 2] ++ List.replicate (n1 - 2) (hLat n1) ++ [hLat n1 / 2], ?_, by simp; omega, ?_⟩
    · unfold dLat
      simp only [dl_spec n1 (by omega)]
      have e1 : (List.replicate (n1 - 2) (hLat n1))[1]? = some (hLat n1) := by
        rw [List.getElem?_replicate, if_pos (by omega)]
      have e2 : (List.replicate (n1 - 2) (hLat n1)).getLast? = some (hLat n1) := by
        rw [List.getLast?_replicate, if_neg (by omega)]
      rw [e1, e2]
    · intro i hi
      unfold trapz
      by_cases h0 : i = 0
      · subst h0; simp
      · by_cases h1 : i = n1 - 1
        · rw [if_pos (Or.inr h1), List.getD_append_right _ _ _ _ (by simp; omega)]
          simp only [List.length_append, List.length_replicate, List.length_singleton]
          rw [show i - (1 + (n1 - 2)) = 0 by omega]; rfl
        · rw [if_neg (by omega), List.getD_append _ _ _ _ (by simp; omega), List.getD_append_right _ _ _ _ (by simp; omega)]
          simp only [List.length_singleton]
          rw [List.getD_replicate _ (by omega)]

/-- **C57 (longitudes).**  Every meridian but the first gets a full step; the first gets nothing. -/
theorem dLon_spec (n2 : Nat) (hn : 1 ≤ n2) :
    ∃ l, dLon n2 = some l ∧ l.length = n2 ∧ ∀ j, j < n2 → l.getD j 0 = if j = 0 then 0 else 2 * π / n2 := by
  have hlen : (toRad (lon n2)).length = n2 := by simp [toRad, lon]
  have h0 : (toRad (lon n2))[0]? = some 0 := by
    have := lonRad_getD n2 0 (by omega)
    rw [List.getD_eq_getElem?_getD, List.getElem?_eq_getElem (by omega)] at this
    rw [List.getElem?_eq_getElem (by omega)]
    simpa using this
  refine ⟨[0 / 2] ++ diff (toRad (lon n2)), by unfold dLon; simp only [h0], by simp [diff_length, hlen]; omega, ?_⟩
  intro j hj
  by_cases hj0 : j = 0
  · subst hj0; simp
  · rw [if_neg hj0, List.getD_append_right _ _ _ _ (by simp; omega)]
    simp only [List.length_singleton]
    rw [List.getD_eq_getElem?_getD, diff_getElem? _ _ (by omega), Option.getD_some, lonRad_getD n2 _ (by omega),
      lonRad_getD n2 _ (by omega), show j - 1 + 1 = j by omega]
    have : ((j - 1 : Nat) : ℝ) = (j : ℝ) - 1 := by
      rw [Nat.cast_sub (by omega)]; simp
    rw [this]; ring

theorem cos_lat_nonneg (n1 i : Nat) (hn : 2 ≤ n1) (hi : i < n1) : 0 ≤ cos (-(π / 2) + i * hLat n1) := by
  have hd : (0 : ℝ) < (n1 : ℝ) - 1 := by
    have : (2 : ℝ) ≤ n1 := by exact_mod_cast hn
    linarith
  have hi' : (i : ℝ) ≤ (n1 : ℝ) - 1 := by
    have : ((i + 1 : Nat) : ℝ) ≤ n1 := by exact_mod_cast hi
    push_cast at this; linarith
  have hh : (i : ℝ) * hLat n1 ≤ π := by
    unfold hLat
    rw [mul_div_assoc', div_le_iff₀ hd]
    have := pi_pos
    nlinarith
  have hh0 : 0 ≤ (i : ℝ) * hLat n1 := by
    unfold hLat
    have := pi_pos
    positivity
  exact cos_nonneg_of_neg_pi_div_two_le_of_le (by linarith) (by linarith)

/-- The weights that the trapezoidal rule (with the code's longitudes) prescribes. -/
noncomputable def geoSpec (R : ℝ) (n1 n2 i j : Nat) : ℝ :=
  R ^ 2 * cos (-(π / 2) + i * hLat n1) * trapz n1 i * (if j = 0 then 0 else 2 * π / n2)

theorem hLat_pos (n1 : Nat) (hn : 2 ≤ n1) : 0 < hLat n1 := by
  have : (2 : ℝ) ≤ n1 := by exact_mod_cast hn
  unfold hLat
  have := pi_pos
  apply div_pos this; linarith

theorem trapz_pos (n1 i : Nat) (hn : 2 ≤ n1) : 0 < trapz n1 i := by
  have := hLat_pos n1 hn
  unfold trapz; split <;> linarith

theorem dA_spec (R : ℝ) (n1 n2 : Nat) (h1 : 4 ≤ n1) (h2 : 1 ≤ n2) :
    ∃ f, dA R n1 n2 = some f ∧ ∀ i j, i < n1 → j < n2 → f i j = geoSpec R n1 n2 i j ∧ 0 ≤ f i j := by
  obtain ⟨a, ea, _, ha⟩ := (dLat_spec n1).2 h1
  obtain ⟨b, eb, _, hb⟩ := dLon_spec n2 h2
  refine ⟨_, by unfold dA; rw [ea, eb], ?_⟩
  intro i j hi hj
  refine ⟨?_, abs_nonneg _⟩
  have hR : 0 ≤ R ^ 2 := sq_nonneg R
  have hc := cos_lat_nonneg n1 i (by omega) hi
  have ht := (trapz_pos n1 i (by omega)).le
  have hl : 0 ≤ (if j = 0 then 0 else 2 * π / n2 : ℝ) := by
    split
    · exact le_rfl
    · have := pi_pos; positivity
  rw [latRad_getD n1 i (by omega) hi, ha i hi, hb j hj, show π / ((n1 : ℝ) - 1) = hLat n1 from rfl]
  unfold geoSpec
  rw [abs_of_nonneg (mul_nonneg (mul_nonneg (mul_nonneg hR hc) hl) ht)]
  ring

/-- **C57 (partial).**  With at least four latitudes the 2-D weights exist, have the shape of one snapshot, are
    non-negative, the same for every variable, and equal the trapezoidal rule except on the first meridian. -/
theorem geo_2d_partial (R : ℝ) (n1 n2 nv : Nat) (h1 : 4 ≤ n1) (h2 : 1 ≤ n2) :
    ∃ w, geo2D R n1 n2 nv = some w ∧ w.shape = [n1, n2, nv] ∧
      ∀ i j v, i < n1 → j < n2 → w.at' [i, j, v] = geoSpec R n1 n2 i j ∧ 0 ≤ w.at' [i, j, v] := by
  obtain ⟨f, e, hf⟩ := dA_spec R n1 n2 h1 h2
  refine ⟨_, by unfold geo2D; rw [e]; rfl, rfl, ?_⟩
  intro i j v hi hj
  exact hf i j hi hj

/-- **C57 fails** for fewer than four latitudes (IndexError). -/
theorem geo_small_fails (R : ℝ) (n1 n2 nv : Nat) (h : n1 < 4) : geo2D R n1 n2 nv = none := by
  unfold geo2D dA
  rw [(dLat_spec n1).1 h]
  rfl

/-- **C57 fails**: every point of the first meridian has weight zero. -/
theorem geo_first_meridian_fails (R : ℝ) (n1 n2 nv : Nat) (h1 : 4 ≤ n1) (h2 : 1 ≤ n2) :
    ∃ w, geo2D R n1 n2 nv = some w ∧ ∀ i v, i < n1 → w.at' [i, 0, v] = 0 := by
  obtain ⟨w, e, _, hw⟩ := geo_2d_partial R n1 n2 nv h1 h2
  refine ⟨w, e, fun i v hi => ?_⟩
  rw [(hw i 0 v hi (by omega)).1]
  simp [geoSpec]

/-! ### Total weight -/

theorem trapz_sum (n1 : Nat) (hn : 2 ≤ n1) :
    ∑ i ∈ Finset.range n1, cos (-(π / 2) + i * hLat n1) * trapz n1 i =
      hLat n1 * cos (hLat n1 / 2) / sin (hLat n1 / 2) := by
  obtain ⟨m, rfl⟩ := Nat.exists_eq_add_of_le hn
  set h := hLat (2 + m) with hh
  have hd : ((2 + m : Nat) : ℝ) - 1 = (m : ℝ) + 1 := by push_cast; ring
  have hm : (m : ℝ) + 1 ≠ 0 := by positivity
  have hhm : h * ((m : ℝ) + 1) = π := by
    rw [hh]; unfold hLat; rw [hd]; field_simp
  have hpos : 0 < h := hLat_pos _ (by omega)
  have hle : h ≤ π := by
    have : (0 : ℝ) ≤ m := Nat.cast_nonneg m
    nlinarith
  have hsin : sin (h / 2) ≠ 0 := by
    apply ne_of_gt
    apply sin_pos_of_pos_of_lt_pi <;> linarith [pi_pos]
  -- partial sums: with half weight at both ends
  have key : ∀ k : Nat, 2 * sin (h / 2) * (∑ i ∈ Finset.range (k + 1), cos (-(π / 2) + i * h) * h - h / 2 * cos (-(π / 2)) -
      h / 2 * cos (-(π / 2) + k * h)) = h * cos (h / 2) * (sin (-(π / 2) + k * h) - sin (-(π / 2))) := by
    intro k
    induction k with
    | zero => simp
    | succ k ih =>
      rw [Finset.sum_range_succ]
      have e1 : cos (-(π / 2) + ((k + 1 : Nat) : ℝ) * h) =
          cos (-(π / 2) + k * h + h / 2) * cos (h / 2) - sin (-(π / 2) + k * h + h / 2) * sin (h / 2) := by
        rw [← cos_add]; congr 1; push_cast; ring
      have e2 : sin (-(π / 2) + ((k + 1 : Nat) : ℝ) * h) =
          sin (-(π / 2) + k * h + h / 2) * cos (h / 2) + cos (-(π / 2) + k * h + h / 2) * sin (h / 2) := by
        rw [← sin_add]; congr 1; push_cast; ring
      have e3 : cos (-(π / 2) + (k : ℝ) * h) =
          cos (-(π / 2) + k * h + h / 2) * cos (h / 2) + sin (-(π / 2) + k * h + h / 2) * sin (h / 2) := by
        rw [← cos_sub]; congr 1; ring
      have e4 : sin (-(π / 2) + (k : ℝ) * h) =
          sin (-(π / 2) + k * h + h / 2) * cos (h / 2) - cos (-(π / 2) + k * h + h / 2) * sin (h / 2) := by
        rw [← sin_sub]; congr 1; ring
      rw [e1, e2]
      rw [e3, e4] at ih
      linear_combination ih
  have hend : -(π / 2) + ((m + 1 : Nat) : ℝ) * h = π / 2 := by
    push_cast; linear_combination hhm
  have k1 := key (m + 1)
  rw [hend, cos_pi_div_two, cos_neg, cos_pi_div_two, sin_neg, sin_pi_div_two] at k1
  have hsum : ∑ i ∈ Finset.range (2 + m), cos (-(π / 2) + i * h) * trapz (2 + m) i =
      ∑ i ∈ Finset.range (m + 1 + 1), cos (-(π / 2) + i * h) * h := by
    rw [show 2 + m = m + 1 + 1 by omega]
    refine Finset.sum_congr rfl fun i hi => ?_
    unfold trapz
    split
    · rename_i h0
      have : cos (-(π / 2) + (i : ℝ) * h) = 0 := by
        rcases h0 with rfl | h0
        · simp
        · rw [h0, show m + 1 + 1 - 1 = m + 1 by omega, hend, cos_pi_div_two]
      rw [this]; simp
    · rw [hh, show 2 + m = m + 1 + 1 by omega]
  rw [hsum]
  rw [eq_div_iff hsin]
  linear_combination k1 / 2

/-- total of the weights of one variable -/
noncomputable def geoTotal (w : Arr ℝ) (n1 n2 v : Nat) : ℝ :=
  ∑ i ∈ Finset.range n1, ∑ j ∈ Finset.range n2, w.at' [i, j, v]

/-- **C57 (exact total).**  `R² · (2π (n2-1)/n2) · h cot(h/2)`, `h` the latitude step. -/
theorem geo_total_exact (R : ℝ) (n1 n2 nv v : Nat) (h1 : 4 ≤ n1) (h2 : 1 ≤ n2) :
    ∃ w, geo2D R n1 n2 nv = some w ∧
      geoTotal w n1 n2 v = R ^ 2 * (2 * π * ((n2 : ℝ) - 1) / n2) * (hLat n1 * cos (hLat n1 / 2) / sin (hLat n1 / 2)) := by
  obtain ⟨w, e, _, hw⟩ := geo_2d_partial R n1 n2 nv h1 h2
  refine ⟨w, e, ?_⟩
  unfold geoTotal
  have hrow : ∀ i ∈ Finset.range n1, ∑ j ∈ Finset.range n2, w.at' [i, j, v] =
      (cos (-(π / 2) + i * hLat n1) * trapz n1 i) * (R ^ 2 * (2 * π * ((n2 : ℝ) - 1) / n2)) := by
    intro i hi
    rw [Finset.sum_congr rfl fun j hj => (hw i j v (Finset.mem_range.1 hi) (Finset.mem_range.1 hj)).1]
    unfold geoSpec
    rw [← Finset.mul_sum]
    obtain ⟨m, rfl⟩ := Nat.exists_eq_add_of_le' h2
    rw [Finset.sum_range_succ']
    simp only [Nat.add_eq_zero_iff, one_ne_zero, and_false, if_false, if_true, add_zero, Finset.sum_const, Finset.card_range,
      nsmul_eq_mul]
    push_cast
    ring
  rw [Finset.sum_congr rfl hrow, ← Finset.sum_mul, trapz_sum n1 (by omega)]
  ring

/-- **C57 fails** on every grid: the total is strictly less than the area `4πR²` of the sphere. -/
theorem geo_total_fails (R : ℝ) (hR : R ≠ 0) (n1 n2 nv v : Nat) (h1 : 4 ≤ n1) (h2 : 1 ≤ n2) :
    ∃ w, geo2D R n1 n2 nv = some w ∧ geoTotal w n1 n2 v < 4 * π * R ^ 2 := by
  obtain ⟨w, e, hw⟩ := geo_total_exact R n1 n2 nv v h1 h2
  refine ⟨w, e, ?_⟩
  rw [hw]
  have hp := pi_pos
  have hR2 : 0 < R ^ 2 := by positivity
  have hn : (0 : ℝ) < n2 := by exact_mod_cast h2
  have hn1 : (1 : ℝ) ≤ n2 := by exact_mod_cast h2
  have hA0 : 0 ≤ 2 * π * ((n2 : ℝ) - 1) / n2 := by
    apply div_nonneg _ hn.le
    apply mul_nonneg <;> linarith
  have hA : 2 * π * ((n2 : ℝ) - 1) / n2 < 2 * π := by
    rw [div_lt_iff₀ hn]; nlinarith
  have hpos := hLat_pos n1 (by omega)
  have hhalf : hLat n1 ≤ π / 3 := by
    unfold hLat
    have : (4 : ℝ) ≤ n1 := by exact_mod_cast h1
    rw [div_le_div_iff₀ (by linarith) (by norm_num)]
    nlinarith
  set x := hLat n1 / 2 with hx
  have hx0 : 0 < x := by rw [hx]; linarith
  have hx1 : x < π / 2 := by rw [hx]; linarith
  have hs : 0 < sin x := sin_pos_of_pos_of_lt_pi hx0 (by linarith)
  have hc : 0 < cos x := cos_pos_of_mem_Ioo ⟨by linarith, hx1⟩
  have hT : hLat n1 * cos x / sin x < 2 := by
    rw [div_lt_iff₀ hs]
    have ht := lt_tan hx0 hx1
    rw [tan_eq_sin_div_cos, lt_div_iff₀ hc] at ht
    have : hLat n1 = 2 * x := by rw [hx]; ring
    rw [this]; linarith
  have hT0 : 0 ≤ hLat n1 * cos x / sin x := by positivity
  have : (2 * π * ((n2 : ℝ) - 1) / n2) * (hLat n1 * cos x / sin x) < 4 * π := by
    calc (2 * π * ((n2 : ℝ) - 1) / n2) * (hLat n1 * cos x / sin x)
        ≤ (2 * π * ((n2 : ℝ) - 1) / n2) * 2 := mul_le_mul_of_nonneg_left hT.le hA0
      _ < 2 * π * 2 := by linarith
      _ = 4 * π := by ring
  rw [mul_assoc]
  nlinarith

/-! ### 3-D layout -/

/-- **C57 (3-D, exact).**  The weight applied to component `v` of grid point `(i,j,k)`. -/
theorem geo_3d_flat (R : ℝ) (n1 n2 n3 nv : Nat) (h1 : 4 ≤ n1) (h2 : 1 ≤ n2) (h3 : 1 ≤ n3) (hv : 1 ≤ nv) :
    ∃ w, geo3D R n1 n2 n3 nv = some w ∧ w.shape = [nv * n1, n2, n3] ∧
      ∀ p, p < n1 * n2 * n3 * nv → flatWeight w p = geoSpec R n1 n2 (p / (n2 * n3) % n1) (p / n3 % n2) := by
  obtain ⟨f, e, hf⟩ := dA_spec R n1 n2 h1 h2
  refine ⟨_, by unfold geo3D; rw [e]; rfl, rfl, ?_⟩
  intro p hp
  simp only [flatWeight, unravel, Verif.size, Nat.mul_one, Nat.div_one, List.getD_cons_zero, List.getD_cons_succ]
  rw [Nat.mod_mul_left_div_self]
  exact (hf _ _ (Nat.mod_lt _ (by omega)) (Nat.mod_lt _ (by omega))).1

/-- position of component `v` of grid point `(i,j,k)` in a flattened snapshot of shape `(x1,x2,x3,nv)` -/
def flat3 (n2 n3 nv i j k v : Nat) : Nat := ((i * n2 + j) * n3 + k) * nv + v

/-- **C57 (3-D, partial).**  With one variable every point gets the weight of its latitude and longitude. -/
theorem geo_3d_partial (R : ℝ) (n1 n2 n3 : Nat) (h1 : 4 ≤ n1) (i j k : Nat) (hi : i < n1) (hj : j < n2) (hk : k < n3) :
    ∃ w, geo3D R n1 n2 n3 1 = some w ∧ flatWeight w (flat3 n2 n3 1 i j k 0) = geoSpec R n1 n2 i j := by
  obtain ⟨w, e, _, hw⟩ := geo_3d_flat R n1 n2 n3 1 h1 (by omega) (by omega) le_rfl
  refine ⟨w, e, ?_⟩
  have hq : flat3 n2 n3 1 i j k 0 / n3 = i * n2 + j := by
    unfold flat3
    rw [Nat.mul_one, Nat.add_zero, Nat.mul_comm _ n3, Nat.mul_add_div (by omega), Nat.div_eq_of_lt hk, Nat.add_zero]
  have hq2 : flat3 n2 n3 1 i j k 0 / (n2 * n3) = i := by
    rw [Nat.mul_comm n2, ← Nat.div_div_eq_div_mul, hq, Nat.mul_comm i, Nat.mul_add_div (by omega), Nat.div_eq_of_lt hj, Nat.add_zero]
  rw [hw _ ?_, hq, hq2, Nat.mod_eq_of_lt hi, Nat.mul_comm i, Nat.mul_add_mod, Nat.mod_eq_of_lt hj]
  unfold flat3
  have a1 : i * n2 + j < n1 * n2 := by
    have : (i + 1) * n2 ≤ n1 * n2 := Nat.mul_le_mul_right _ hi
    rw [Nat.add_mul] at this; omega
  have a2 : (i * n2 + j) * n3 + k < n1 * n2 * n3 := by
    have : (i * n2 + j + 1) * n3 ≤ n1 * n2 * n3 := Nat.mul_le_mul_right _ a1
    rw [Nat.add_mul] at this; omega
  omega

/-- **C57 (3-D) fails** for two variables: the two components of the point at latitude index 2, longitude 1 (of a 4 x 2 x 1 grid) get the
    weight of a pole (zero) or the first meridian instead of their own (positive) one. -/
theorem geo_3d_fails : ∃ w, geo3D 1 4 2 1 2 = some w ∧ flatWeight w (flat3 2 1 2 2 1 0 0) ≠ geoSpec 1 4 2 2 1 := by
  obtain ⟨w, e, _, hw⟩ := geo_3d_flat 1 4 2 1 2 (by omega) (by omega) (by omega) (by omega)
  refine ⟨w, e, ?_⟩
  rw [hw _ (by decide)]
  have e1 : flat3 2 1 2 2 1 0 0 / (2 * 1) % 4 = 1 := by decide
  have e2 : flat3 2 1 2 2 1 0 0 / 1 % 2 = 0 := by decide
  rw [e1, e2]
  have hz : geoSpec 1 4 2 1 0 = 0 := by simp [geoSpec]
  rw [hz]
  apply ne_of_lt
  unfold geoSpec
  have hp := pi_pos
  have hh : hLat 4 = π / 3 := by unfold hLat; norm_num
  have hc : 0 < cos (-(π / 2) + ((2 : Nat) : ℝ) * hLat 4) := by
    rw [hh]
    apply cos_pos_of_mem_Ioo
    constructor <;> push_cast <;> linarith
  have ht := trapz_pos 4 2 (by omega)
  simp only [one_ne_zero, if_false]
  positivity

end Verif.Props
