import Verif.Props.IntData
/-
  C254: multiplying the data by a power of two changes no digit of the results of a POD fit; and what underflow does to it.
-/
namespace Verif.Props
open Verif Verif.Par Verif.Dbl Verif.Round Verif.Proj Finset

/-- rounding that commutes with powers of two: floating-point arithmetic without overflow and underflow -/
def ScalesTwo (fl : ℝ → ℝ) : Prop := ∀ (k : ℤ) (x : ℝ), fl (2 ^ k * x) = 2 ^ k * fl x

theorem log_two_mul (k : ℤ) (x : ℝ) (hx : 0 < x) : Int.log 2 ((2 : ℝ) ^ k * x) = k + Int.log 2 x := by
  have hp : (0 : ℝ) < 2 ^ k := two_zpow_pos k
  have key : ∀ z : ℤ, z ≤ Int.log 2 ((2 : ℝ) ^ k * x) ↔ z ≤ k + Int.log 2 x := fun z => by
    have h1 := Int.zpow_le_iff_le_log (b := 2) (by norm_num) (x := z) (r := (2 : ℝ) ^ k * x) (mul_pos hp hx)
    have h2 := Int.zpow_le_iff_le_log (b := 2) (by norm_num) (x := z - k) (r := x) hx
    rw [← h1]
    have h3 : z ≤ k + Int.log 2 x ↔ z - k ≤ Int.log 2 x := by omega
    rw [h3, ← h2]
    push_cast
    rw [zpow_sub₀ two_ne_zero, div_le_iff₀ hp, mul_comm]
  exact le_antisymm ((key _).1 le_rfl) ((key _).2 le_rfl)

theorem rnPos_scale (k : ℤ) (x : ℝ) (hx : 0 < x) : rnPos (2 ^ k * x) = 2 ^ k * rnPos x := by
  unfold rnPos
  rw [log_two_mul k x hx]
  have e : (2 : ℝ) ^ k * x * 2 ^ (52 - (k + Int.log 2 x)) = x * 2 ^ (52 - Int.log 2 x) := by
    rw [show 52 - (k + Int.log 2 x) = (52 - Int.log 2 x) + -k by ring, zpow_add₀ two_ne_zero, zpow_neg]
    field_simp
  rw [e, show k + Int.log 2 x - 52 = k + (Int.log 2 x - 52) by ring, zpow_add₀ two_ne_zero]
  ring

/-- rounding to nearest commutes with powers of two -/
theorem rn_scales : ScalesTwo rn := by
  intro k x
  have hp : (0 : ℝ) < 2 ^ k := two_zpow_pos k
  unfold rn
  rcases lt_trichotomy x 0 with h | h | h
  · have h1 : (2 : ℝ) ^ k * x < 0 := mul_neg_of_pos_of_neg hp h
    rw [if_neg h1.not_gt, if_pos h1, if_neg h.not_gt, if_pos h, ← mul_neg, rnPos_scale k (-x) (by linarith)]
    ring
  · subst h
    simp
  · have h1 : 0 < (2 : ℝ) ^ k * x := mul_pos hp h
    rw [if_pos h1, if_pos h, rnPos_scale k x h]

/-- multiply the leaves of a tree -/
def scaleTree (c : ℝ) : RTree ℝ → RTree ℝ
  | .rank d => .rank (c * d)
  | .node l r => .node (scaleTree c l) (scaleTree c r)

theorem scaleTree_leaves (c : ℝ) (t : RTree ℝ) : (scaleTree c t).leaves = t.leaves.map fun x => c * x := by
  induction t with
  | rank d => rfl
  | node l r h1 h2 => simp [scaleTree, RTree.leaves, h1, h2]

theorem scaleTree_value {fl : ℝ → ℝ} (h : ScalesTwo fl) (k : ℤ) (t : RTree ℝ) : dblTree fl (scaleTree (2 ^ k) t) = 2 ^ k * dblTree fl t := by
  induction t with
  | rank d => rfl
  | node l r h1 h2 => rw [scaleTree, dblTree, h1, h2, dblTree, ← mul_add, h]

theorem dblSum_scale {fl : ℝ → ℝ} (h : ScalesTwo fl) (k : ℤ) (l : List ℝ) (z : ℝ) (hz : DblSum fl l z) : DblSum fl (l.map fun x => 2 ^ k * x) (2 ^ k * z) := by
  rcases hz with ⟨rfl, rfl⟩ | ⟨t, ht, rfl⟩
  · exact Or.inl ⟨rfl, by simp⟩
  · exact Or.inr ⟨scaleTree (2 ^ k) t, by rw [scaleTree_leaves]; exact ht.map _, (scaleTree_value h k t).symm⟩

theorem dblMean_scale {fl : ℝ → ℝ} (h : ScalesTwo fl) (k : ℤ) (vals : List ℝ) (z : ℝ) (hz : DblMean fl vals z) : DblMean fl (vals.map fun x => 2 ^ k * x) (2 ^ k * z) := by
  obtain ⟨s, hs, rfl⟩ := hz
  refine ⟨_, dblSum_scale h k vals s hs, ?_⟩
  rw [List.length_map, mul_div_assoc, h]

theorem dblFluct_scale {fl : ℝ → ℝ} (h : ScalesTwo fl) (k : ℤ) (mk : Pod.MeanKind) (vals : List ℝ) (t : Nat) (z : ℝ) (hz : DblFluct fl mk vals t z) :
    DblFluct fl mk (vals.map fun x => 2 ^ k * x) t (2 ^ k * z) := by
  have hget : (vals.map fun x => (2 : ℝ) ^ k * x).getD t 0 = 2 ^ k * vals.getD t 0 := by
    by_cases ht : t < vals.length
    · rw [List.getD_eq_getElem _ _ (by simpa using ht), List.getD_eq_getElem _ _ ht, List.getElem_map]
    · rw [List.getD_eq_default _ _ (by simpa using ht), List.getD_eq_default _ _ (by omega), mul_zero]
  cases mk with
  | longtime =>
    obtain ⟨m, h1, rfl⟩ := hz
    refine ⟨_, dblMean_scale h k vals m h1, ?_⟩
    rw [hget, ← mul_sub, h]
  | zero =>
    simp only [DblFluct] at hz ⊢
    rw [hget, hz, sub_zero, sub_zero, h]

/-- the array multiplied by `c` -/
def scaleArr (c : ℝ) (a : Arr ℝ) : Arr ℝ := ⟨a.shape, fun idx => c * a.at' idx⟩

theorem scaleArr_slab (c : ℝ) (a : Arr ℝ) (ax : Nat) (comm : Comm) : distributeDimension (scaleArr c a) ax comm = scaleArr c (distributeDimension a ax comm) := by
  cases comm <;> rfl

theorem corrLocal_scale {fl : ℝ → ℝ} (h : ScalesTwo fl) (k : ℤ) (d : Nat → Arr ℝ) (w : Arr ℝ) (i j : Nat) (z : ℝ) (hz : DblCorrLocal fl d w i j z) :
    DblCorrLocal fl (fun b => scaleArr (2 ^ k) (d b)) w i j (2 ^ (k + k) * z) := by
  have := dblSum_scale h (k + k) _ z hz
  rw [List.map_map] at this
  unfold DblCorrLocal
  convert this using 1
  refine List.map_congr_left fun x _ => ?_
  simp only [scaleArr, Function.comp_def]
  rw [mul_assoc (2 ^ k : ℝ) _ (w.at' _), h, mul_mul_mul_comm, ← zpow_add₀ two_ne_zero, h]

theorem corr_scale {fl : ℝ → ℝ} (h : ScalesTwo fl) (k : ℤ) (comms : List Comm) (ax : Nat) (d : Nat → Arr ℝ) (w : Arr ℝ) (i j : Nat) (z : ℝ) (hz : DblCorr fl comms ax d w i j z) :
    DblCorr fl comms ax (fun b => scaleArr (2 ^ k) (d b)) w i j (2 ^ (k + k) * z) := by
  obtain ⟨ls, h1, h2⟩ := hz
  refine ⟨ls.map fun x => 2 ^ (k + k) * x, ?_, dblSum_scale h (k + k) ls z h2⟩
  rw [List.forall₂_map_right_iff]
  refine h1.imp fun comm l hl => ?_
  have := corrLocal_scale h k _ _ i j l hl
  simpa only [scaleArr_slab] using this

theorem two_back (k : ℤ) (x : ℝ) : (2 : ℝ) ^ (-k) * (2 ^ k * x) = x := by
  rw [← mul_assoc, ← zpow_add₀ two_ne_zero, neg_add_cancel, zpow_zero, one_mul]

theorem two_forth (k : ℤ) (x : ℝ) : (2 : ℝ) ^ k * (2 ^ (-k) * x) = x := by
  rw [← mul_assoc, ← zpow_add₀ two_ne_zero, add_neg_cancel, zpow_zero, one_mul]

/-- **C254.** Changing the unit of the data by a power of two, in floating-point arithmetic without overflow and underflow: the possible means and fluctuations of the data `2^k x` are `2^k`
    times those of `x`, and the possible correlation matrices of the fluctuations `2^k d` are `4^k` times those of `d`, so that no digit changes, on one process and on `p` ranks and in any
    order of the additions. -/
theorem unit_power_two {fl : ℝ → ℝ} (h : ScalesTwo fl) (k : ℤ) :
    (∀ vals z, DblMean fl (vals.map fun x => 2 ^ k * x) z ↔ ∃ y, DblMean fl vals y ∧ z = 2 ^ k * y) ∧
    (∀ mk vals t z, DblFluct fl mk (vals.map fun x => 2 ^ k * x) t z ↔ ∃ y, DblFluct fl mk vals t y ∧ z = 2 ^ k * y) ∧
    ∀ (comms : List Comm) (ax : Nat) (d : Nat → Arr ℝ) (w : Arr ℝ) (i j : Nat) (z : ℝ),
      DblCorr fl comms ax (fun b => ⟨(d b).shape, fun idx => 2 ^ k * (d b).at' idx⟩) w i j z ↔ ∃ y, DblCorr fl comms ax d w i j y ∧ z = 4 ^ k * y := by
  have hmap : ∀ vals : List ℝ, ((vals.map fun x => (2 : ℝ) ^ k * x).map fun x => (2 : ℝ) ^ (-k) * x) = vals := fun vals => by
    rw [List.map_map]
    simp only [Function.comp_def, two_back, List.map_id']
  refine ⟨fun vals z => ⟨fun hz => ?_, ?_⟩, fun mk vals t z => ⟨fun hz => ?_, ?_⟩, fun comms ax d w i j z => ⟨fun hz => ?_, ?_⟩⟩
  · have := dblMean_scale h (-k) _ z hz
    rw [hmap] at this
    exact ⟨_, this, (two_forth k z).symm⟩
  · rintro ⟨y, hy, rfl⟩
    exact dblMean_scale h k vals y hy
  · have := dblFluct_scale h (-k) mk _ t z hz
    rw [hmap] at this
    exact ⟨_, this, (two_forth k z).symm⟩
  · rintro ⟨y, hy, rfl⟩
    exact dblFluct_scale h k mk vals t y hy
  · have := corr_scale h (-k) comms ax _ w i j z hz
    have e : (fun b => scaleArr (2 ^ (-k)) (⟨(d b).shape, fun idx => 2 ^ k * (d b).at' idx⟩ : Arr ℝ)) = d := by
      funext b
      simp only [scaleArr, two_back]
    rw [e] at this
    refine ⟨_, this, ?_⟩
    rw [show (4 : ℝ) ^ k = 2 ^ (k + k) by rw [zpow_add₀ two_ne_zero, ← mul_zpow]; norm_num, show -k + -k = -(k + k) by ring, two_forth]
  · rintro ⟨y, hy, rfl⟩
    rw [show (4 : ℝ) ^ k = 2 ^ (k + k) by rw [zpow_add₀ two_ne_zero, ← mul_zpow]; norm_num]
    exact corr_scale h k comms ax d w i j y hy

/-- **C254.** With underflow this fails: if numbers below `η` become zero, then for fluctuations of magnitude at most `X` and weights of at most `Wt` with `2 X² Wt < η` the matrix is zero
    whatever the data are, and the exact one need not be. -/
theorem tiny_data_lost {fl : ℝ → ℝ} (η : ℝ) (hflush : ∀ x, |x| < η → fl x = 0) (hnear : ∀ x, |fl x| ≤ 2 * |x|) (comms : List Comm) (ax : Nat) (d : Nat → Arr ℝ) (w : Arr ℝ)
    (hax : ax < w.shape.length) (hs : ∀ b, (d b).shape = w.shape) (i j : Nat) (X Wt : ℝ) (hX0 : 0 ≤ X) (hWt0 : 0 ≤ Wt)
    (hd : ∀ b idx, InRange w.shape idx → |(d b).at' idx| ≤ X) (hw : ∀ idx, InRange w.shape idx → |w.at' idx| ≤ Wt) (hη : 2 * (X * (X * Wt)) < η) (z : ℝ) :
    DblCorr fl comms ax d w i j z → z = 0 := by
  have hη0 : 0 < η := lt_of_le_of_lt (by positivity) hη
  have f0 : fl 0 = 0 := hflush 0 (by rw [abs_zero]; exact hη0)
  have htree : ∀ t : RTree ℝ, (∀ x ∈ t.leaves, x = 0) → dblTree fl t = 0 := fun t => by
    induction t with
    | rank d => intro h; exact h d (by simp [RTree.leaves])
    | node l r h1 h2 =>
      intro h
      rw [dblTree, h1 fun x hx => h x (by simp [RTree.leaves, hx]), h2 fun x hx => h x (by simp [RTree.leaves, hx]), add_zero, f0]
  have hsum : ∀ l : List ℝ, (∀ x ∈ l, x = 0) → ∀ z, DblSum fl l z → z = 0 := fun l hl z hz => by
    rcases hz with ⟨-, rfl⟩ | ⟨t, ht, rfl⟩
    · rfl
    · exact htree t fun x hx => hl x (ht.mem_iff.1 hx)
  rintro ⟨ls, h1, h2⟩
  refine hsum ls (fun x hx => ?_) z h2
  obtain ⟨k, hk, rfl⟩ := List.getElem_of_mem hx
  have hlen := h1.length_eq
  have g := List.Forall₂.get h1 (by omega : k < comms.length) hk
  refine hsum _ (fun y hy => ?_) _ g
  obtain ⟨n, hn, rfl⟩ := List.mem_map.1 hy
  have hn := List.mem_range.1 hn
  generalize comms.get ⟨k, by omega⟩ = comm at hn ⊢
  have hdv : ∀ b, |(distributeDimension (d b) ax comm).at' (unravel (distributeDimension w ax comm).shape n)| ≤ X := fun b => by
    refine inRange_slab (d b) ax (by rw [hs b]; exact hax) comm (fun x => |x| ≤ X) (fun idx hi => hd b idx (by rw [← hs b]; exact hi)) _ ?_
    have e : (distributeDimension (d b) ax comm).shape = (distributeDimension w ax comm).shape := by
      cases comm <;> simp only [distributeDimension, Arr.slice, hs b]
    rw [e]; exact inRange_unravel hn
  have hwv : |(distributeDimension w ax comm).at' (unravel (distributeDimension w ax comm).shape n)| ≤ Wt :=
    inRange_slab w ax hax comm (fun x => |x| ≤ Wt) hw _ (inRange_unravel hn)
  refine hflush _ ?_
  have m1 := mul_le_mul (hdv j) hwv (abs_nonneg _) hX0
  rw [← abs_mul] at m1
  rw [abs_mul]
  have m2 := (hnear _).trans (mul_le_mul_of_nonneg_left m1 (by norm_num : (0 : ℝ) ≤ 2))
  have m3 := mul_le_mul (hdv i) m2 (abs_nonneg _) hX0
  linarith

/-- non-vacuity: rounding to nearest with every number below the smallest positive one of the format flushed to zero; for data of magnitude `10^-170` the matrix is zero -/
example (d : Nat → Arr ℝ) (hs : ∀ b, (d b).shape = [2, 1]) (hd : ∀ b idx, InRange [2, 1] idx → |(d b).at' idx| ≤ 1 / 10 ^ 170) (i j : Nat) (z : ℝ) :
    DblCorr (fun x => if |x| < 1 / 10 ^ 170 / 10 ^ 160 then 0 else rn x) (ranksOf 2) 0 d ⟨[2, 1], fun _ => 1⟩ i j z → z = 0 := by
  refine tiny_data_lost (1 / 10 ^ 170 / 10 ^ 160) (fun x hx => if_pos hx) (fun x => ?_) _ 0 d ⟨[2, 1], fun _ => 1⟩ (by simp) hs i j (1 / 10 ^ 170) 1 (by positivity) zero_le_one hd
    (fun _ _ => by simp) (by norm_num) z
  split_ifs with h
  · rw [abs_zero]; positivity
  · have := rn_double.near x
    have h2 := abs_sub_abs_le_abs_sub (rn x) x
    have : |x| / 2 ^ 53 ≤ |x| := div_le_self (abs_nonneg _) (by norm_num)
    linarith

/-- rounding to nearest meets the contract: the data in millimetres times 1024 -/
example (comms : List Comm) (ax : Nat) (d : Nat → Arr ℝ) (w : Arr ℝ) (i j : Nat) (z : ℝ) :
    DblCorr rn comms ax (fun b => ⟨(d b).shape, fun idx => 2 ^ (10 : ℤ) * (d b).at' idx⟩) w i j z ↔ ∃ y, DblCorr rn comms ax d w i j y ∧ z = 4 ^ (10 : ℤ) * y :=
  (unit_power_two rn_scales 10).2.2 comms ax d w i j z

end Verif.Props
