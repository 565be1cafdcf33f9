import Verif.Model.Overflow
import Verif.Props.FitRounding
/-
  C250: a fit does not overflow.
-/
namespace Verif.Props
open Verif Verif.Par Verif.Round Verif.Fit Verif.Spod Verif.Close Finset

/-! ### Sums -/

theorem rounds_size {u x y : ℝ} (h : Rounds u x y) : |y| ≤ (1 + u) * |x| := by
  unfold Rounds at h
  have := abs_sub_abs_le_abs_sub y x
  linarith

theorem tree_size {u : ℝ} (hu : 0 ≤ u) (t : RTree ℝ) : ∀ v, FlTree u t v → |v| ≤ (1 + u) ^ t.leaves.length * (t.leaves.map fun x => |x|).sum := by
  induction t with
  | rank d =>
    intro v hv
    have : v = d := hv
    rw [this]
    simp only [RTree.leaves, List.length_cons, List.length_nil, List.map_cons, List.map_nil, List.sum_cons, List.sum_nil, add_zero, zero_add, pow_one]
    nlinarith [abs_nonneg d]
  | node l r ih1 ih2 =>
    rintro v ⟨a, b, ha, hb, hv⟩
    have h1 := ih1 a ha
    have h2 := ih2 b hb
    have p1 := leaves_pos l
    have p2 := leaves_pos r
    have h3 := rounds_size hv
    have h4 := abs_add_le a b
    simp only [RTree.leaves, List.length_append, List.map_append, List.sum_append]
    obtain ⟨A, hA⟩ : ∃ A, A = (l.leaves.map fun x => |x|).sum := ⟨_, rfl⟩
    obtain ⟨B, hB⟩ : ∃ B, B = (r.leaves.map fun x => |x|).sum := ⟨_, rfl⟩
    have hA0 : 0 ≤ A := by
      rw [hA]
      refine List.sum_nonneg fun x hx => ?_
      obtain ⟨y, -, rfl⟩ := List.mem_map.1 hx
      exact abs_nonneg _
    have hB0 : 0 ≤ B := by
      rw [hB]
      refine List.sum_nonneg fun x hx => ?_
      obtain ⟨y, -, rfl⟩ := List.mem_map.1 hx
      exact abs_nonneg _
    rw [← hA] at h1 ⊢
    rw [← hB] at h2 ⊢
    have q1 : (1 + u) * (1 + u) ^ l.leaves.length ≤ (1 + u) ^ (l.leaves.length + r.leaves.length) := by
      rw [← pow_succ']; exact pow_le_pow_right₀ (by linarith) (by omega)
    have q2 : (1 + u) * (1 + u) ^ r.leaves.length ≤ (1 + u) ^ (l.leaves.length + r.leaves.length) := by
      rw [← pow_succ']; exact pow_le_pow_right₀ (by linarith) (by omega)
    calc |v| ≤ (1 + u) * ((1 + u) ^ l.leaves.length * A + (1 + u) ^ r.leaves.length * B) := h3.trans (mul_le_mul_of_nonneg_left (by linarith) (by linarith))
      _ = (1 + u) * (1 + u) ^ l.leaves.length * A + (1 + u) * (1 + u) ^ r.leaves.length * B := by ring
      _ ≤ (1 + u) ^ (l.leaves.length + r.leaves.length) * A + (1 + u) ^ (l.leaves.length + r.leaves.length) * B :=
        add_le_add (mul_le_mul_of_nonneg_right q1 hA0) (mul_le_mul_of_nonneg_right q2 hB0)
      _ = _ := by ring

theorem part_leaves {s t : RTree ℝ} (h : Part s t) : s.leaves.length ≤ t.leaves.length ∧ (s.leaves.map fun x => |x|).sum ≤ (t.leaves.map fun x => |x|).sum := by
  have h0 : ∀ r : RTree ℝ, 0 ≤ (r.leaves.map fun x => |x|).sum := fun r => by
    refine List.sum_nonneg fun x hx => ?_
    obtain ⟨y, -, rfl⟩ := List.mem_map.1 hx
    exact abs_nonneg _
  induction h with
  | refl => exact ⟨le_rfl, le_rfl⟩
  | @left l r h ih =>
    simp only [RTree.leaves, List.length_append, List.map_append, List.sum_append]
    exact ⟨by omega, by linarith [h0 r, ih.2]⟩
  | @right l r h ih =>
    simp only [RTree.leaves, List.length_append, List.map_append, List.sum_append]
    exact ⟨by omega, by linarith [h0 l, ih.2]⟩

theorem abs_sum_le (l : List ℝ) (Y : ℝ) (h : ∀ a ∈ l, |a| ≤ Y) : (l.map fun x => |x|).sum ≤ l.length * Y := by
  have := List.sum_le_card_nsmul (l.map fun x => |x|) Y (by
    intro x hx
    obtain ⟨y, hy, rfl⟩ := List.mem_map.1 hx
    exact h y hy)
  rwa [List.length_map, nsmul_eq_mul] at this

theorem sumValue_le {u : ℝ} (hu : 0 ≤ u) (l : List ℝ) (Y : ℝ) (hY : ∀ a ∈ l, |a| ≤ Y) (n : Nat) (hn : l.length ≤ n) (hY0 : 0 ≤ Y) (v : ℝ) (hv : SumValue u l v) : |v| ≤ (1 + u) ^ n * (n * Y) := by
  obtain ⟨t, s, ht, hs, hv⟩ := hv
  have h1 := tree_size hu s v hv
  obtain ⟨h2, h3⟩ := part_leaves hs
  have h4 := (ht.map fun x => |x|).sum_eq
  have h5 := ht.length_eq
  have h6 := abs_sum_le l Y hY
  have h7 : (l.length : ℝ) * Y ≤ n * Y := mul_le_mul_of_nonneg_right (by exact_mod_cast hn) hY0
  have h0 : 0 ≤ (s.leaves.map fun x => |x|).sum := by
    refine List.sum_nonneg fun x hx => ?_
    obtain ⟨y, -, rfl⟩ := List.mem_map.1 hx
    exact abs_nonneg _
  exact h1.trans (mul_le_mul (pow_le_pow_right₀ (by linarith) (by omega)) (by linarith) h0 (by positivity))

theorem flSum_value {u : ℝ} (l : List ℝ) (z : ℝ) (h : FlSum u l z) : z = 0 ∨ SumValue u l z := by
  rcases h with ⟨-, h⟩ | ⟨t, h1, h2⟩
  · exact Or.inl h
  · exact Or.inr ⟨t, t, h1, .refl t, h2⟩

theorem flSum_le {u : ℝ} (hu : 0 ≤ u) (l : List ℝ) (Y : ℝ) (hY : ∀ a ∈ l, |a| ≤ Y) (n : Nat) (hn : l.length ≤ n) (hY0 : 0 ≤ Y) (v : ℝ) (hv : FlSum u l v) : |v| ≤ (1 + u) ^ n * (n * Y) := by
  rcases flSum_value l v hv with rfl | h
  · rw [abs_zero]; positivity
  · exact sumValue_le hu l Y hY n hn hY0 v h

theorem meanValue_le {u : ℝ} (hu : 0 ≤ u) (l : List ℝ) (Y : ℝ) (hY : ∀ a ∈ l, |a| ≤ Y) (n : Nat) (hn : l.length ≤ n) (hY0 : 0 ≤ Y) (v : ℝ) (hv : MeanValue u l v) :
    |v| ≤ (1 + u) ^ (n + 1) * (n * Y) := by
  have hp : (1 + u) ^ n ≤ (1 + u) ^ (n + 1) := pow_le_pow_right₀ (by linarith) (by omega)
  rcases hv with h | ⟨s, hs, hm⟩
  · exact (sumValue_le hu l Y hY n hn hY0 v h).trans (mul_le_mul_of_nonneg_right hp (by positivity))
  · have h1 := flSum_le hu l Y hY n hn hY0 s hs
    have h2 := rounds_size hm
    have h3 : |s / l.length| ≤ |s| := by
      rw [abs_div, Nat.abs_cast]
      rcases Nat.eq_zero_or_pos l.length with h0 | h0
      · rw [h0, Nat.cast_zero, div_zero]; exact abs_nonneg _
      · exact div_le_self (abs_nonneg _) (by exact_mod_cast h0)
    calc |v| ≤ (1 + u) * |s| := h2.trans (mul_le_mul_of_nonneg_left h3 (by linarith))
      _ ≤ (1 + u) * ((1 + u) ^ n * (n * Y)) := mul_le_mul_of_nonneg_left h1 (by linarith)
      _ = _ := by rw [pow_succ]; ring

/-! ### One block -/

theorem mulpow {u : ℝ} (hu : 0 ≤ u) {k K : Nat} (hk : k ≤ K) {x y : ℝ} (hx : 0 ≤ x) (hxy : x ≤ y) : (1 + u) ^ k * x ≤ (1 + u) ^ K * y :=
  mul_le_mul (pow_le_pow_right₀ (by linarith) hk) hxy hx (pow_nonneg (by linarith) _)

theorem blockValue_le {u : ℝ} (hu : 0 ≤ u) (m : MeanType) (vals : List ℝ) (X : ℝ) (hX : ∀ x ∈ vals, |x| ≤ X) (st n : Nat) (hn : 0 < n) (hs : st + n ≤ vals.length) (v : ℝ)
    (h : BlockValue u m vals st n v) : |v| ≤ (1 + u) ^ (vals.length + 2) * (2 * X * vals.length) := by
  obtain ⟨nt, hnt⟩ : ∃ nt, nt = vals.length := ⟨_, rfl⟩
  rw [← hnt]
  have hX0 : 0 ≤ X := (abs_nonneg _).trans (hX _ (List.getElem_mem (by omega : 0 < vals.length)))
  have hnt1 : (1 : ℝ) ≤ nt := by exact_mod_cast (by omega : 1 ≤ nt)
  have hnn : (n : ℝ) ≤ nt := by exact_mod_cast (by omega : n ≤ nt)
  have hval : ∀ t < n, |vals.getD (st + t) 0| ≤ X := fun t ht => by
    refine hX _ ?_
    rw [List.getD_eq_getElem _ _ (by omega)]; exact List.getElem_mem _
  have k0 : 0 ≤ (nt : ℝ) * X := mul_nonneg (by linarith) hX0
  have k1 : (nt : ℝ) * X ≤ 2 * X * nt := by linarith [mul_comm (nt : ℝ) X]
  have k2 : (n : ℝ) * X ≤ 2 * X * nt := (mul_le_mul_of_nonneg_right hnn hX0).trans k1
  have k3 : X ≤ 2 * X * nt := by linarith [mul_le_mul_of_nonneg_right hnt1 hX0]
  have k4 : 2 * X ≤ 2 * X * nt := by linarith [mul_le_mul_of_nonneg_left hnt1 (by linarith : 0 ≤ 2 * X)]
  have hm := fun v hv => meanValue_le hu vals X hX nt hnt.ge hX0 v hv
  have hx : ∀ t < n, ∀ x, Rounds u (vals.getD (st + t) 0 - 0) x → |x| ≤ (1 + u) * X := fun t ht x hx => by
    have := rounds_size hx
    rw [sub_zero] at this
    exact this.trans (mul_le_mul_of_nonneg_left (hval t ht) (by linarith))
  rcases h with h | ⟨m0, h1, h2⟩ | ⟨-, ⟨t, ht, h⟩ | ⟨x, h1, h2⟩⟩ | ⟨y, hy', t, ht, rfl⟩
  · exact (hm v h).trans (mulpow hu (by omega) k0 k1)
  · have g := hm m0 (Or.inr ⟨_, h1.choose_spec.1, h1.choose_spec.2⟩)
    have : |v| ≤ (1 + u) ^ (nt + 2) * (nt * X) := by
      calc |v| ≤ (1 + u) * ((1 + u) ^ (nt + 1) * (nt * X)) := (rounds_size h2).trans (mul_le_mul_of_nonneg_left g (by linarith))
        _ = _ := by rw [pow_succ _ (nt + 1)]; ring
    exact this.trans (mulpow hu le_rfl k0 k1)
  · have := hx t ht v h
    rw [← pow_one (1 + u)] at this
    exact this.trans (mulpow hu (by omega) hX0 k3)
  · have g := meanValue_le hu ((List.range n).map x) ((1 + u) * X) (by
      intro a ha
      obtain ⟨t, ht, rfl⟩ := List.mem_map.1 ha
      exact hx t (List.mem_range.1 ht) _ (h1 t (List.mem_range.1 ht))) n (by simp) (mul_nonneg (by linarith) hX0) v h2
    have : |v| ≤ (1 + u) ^ (n + 2) * (n * X) := by
      refine g.trans (le_of_eq ?_)
      rw [pow_succ _ (n + 1)]; ring
    exact this.trans (mulpow hu (by omega) (mul_nonneg (Nat.cast_nonneg _) hX0) k2)
  · have := (block_approx hu m vals X hX st n hn hs y hy' t ht).size
    rw [← hnt] at this
    exact this.trans (mulpow hu le_rfl (by linarith) k4)

/-! ### One Fourier coefficient -/

/-- the largest number that can occur in the computation of a Fourier coefficient: `nt` snapshots of magnitude at most `X`, blocks of `n`, a window of non-negative numbers of at most `W`
    with sum `S` -/
noncomputable def hatSize (u γ X W S : ℝ) (nt n : Nat) : ℝ :=
  (1 + u) ^ (nt + 8) * (2 * X * nt + 2 * X * W + (1 + γ) * (n * (2 * X * W)) * (1 + 1 / (S * (2 - (1 + u) ^ n))) + n * W + n / (S * (2 - (1 + u) ^ n)))

set_option maxHeartbeats 1000000 in
theorem hatValue_le {u : ℝ} (hu : 0 ≤ u) (hu1 : u ≤ 1) (γ : ℝ) (hγ : 0 ≤ γ) (c : Cfg) (m : MeanType) (ω : ℂ) (hω : ‖ω‖ = 1) (vals : List ℝ)
    (X : ℝ) (hX : ∀ x ∈ vals, |x| ≤ X) (hn : 0 < c.nDft) (hov : c.nOvlp ≤ (c.nDft : Int) - 1) (hwin : c.win.length = c.nDft) (W : ℝ) (hw : ∀ x ∈ c.win, 0 ≤ x ∧ x ≤ W)
    (hpos : 0 < c.win.sum) (hlt : (1 + u) ^ c.nDft < 2) (f b : Nat) (hb : b < fitNb c vals.length) (v : ℝ) (h : HatValue u γ c m ω vals f b v) :
    |v| ≤ hatSize u γ X W c.win.sum vals.length c.nDft := by
  obtain ⟨o1, o2⟩ := offsets_getD c hov vals.length b hb
  unfold HatValue at h
  obtain ⟨st, hst⟩ : ∃ st, st = b * ((c.nDft : Int) - c.nOvlp).toNat := ⟨_, rfl⟩
  have ho : (offsets c vals.length).getD b 0 = st := by rw [List.getD_eq_getElem?_getD, o1, Option.getD_some, hst]
  simp only [ho] at h
  rw [← hst] at o2
  obtain ⟨nt, hnt⟩ : ∃ nt, nt = vals.length := ⟨_, rfl⟩
  obtain ⟨n, hnd⟩ : ∃ n, n = c.nDft := ⟨_, rfl⟩
  have hX0 : 0 ≤ X := (abs_nonneg _).trans (hX _ (List.getElem_mem (by omega : 0 < vals.length)))
  have hW0 : 0 ≤ W := by
    have := hw _ (List.getElem_mem (by omega : 0 < c.win.length))
    linarith [this.1, this.2]
  have hnt1 : (1 : ℝ) ≤ nt := by exact_mod_cast (by omega : 1 ≤ nt)
  have hn1 : (1 : ℝ) ≤ n := by exact_mod_cast (by omega : 1 ≤ n)
  have hnn : (n : ℝ) ≤ nt := by exact_mod_cast (by omega : n ≤ nt)
  obtain ⟨S, hS⟩ : ∃ S, S = c.win.sum := ⟨_, rfl⟩
  obtain ⟨T, hT⟩ : ∃ T, T = S * (2 - (1 + u) ^ n) := ⟨_, rfl⟩
  have hT0 : 0 < T := by
    rw [hT, hS, hnd]; exact mul_pos hpos (by linarith)
  -- the five stages
  obtain ⟨e1, he1⟩ : ∃ e1, e1 = 2 * X * nt := ⟨_, rfl⟩
  obtain ⟨e2, he2⟩ : ∃ e2, e2 = 2 * X * W := ⟨_, rfl⟩
  obtain ⟨e3, he3⟩ : ∃ e3, e3 = (1 + γ) * (n * (2 * X * W)) := ⟨_, rfl⟩
  have p1 : 0 ≤ e1 := by rw [he1]; positivity
  have p2 : 0 ≤ e2 := by rw [he2]; positivity
  have p3 : 0 ≤ e3 := by rw [he3]; positivity
  have p4 : 0 ≤ n * W := by positivity
  have p5 : 0 ≤ n / T := by positivity
  have p6 : 0 ≤ e3 * (1 / T) := by positivity
  have hsize : hatSize u γ X W c.win.sum vals.length c.nDft = (1 + u) ^ (nt + 8) * (e1 + e2 + e3 * (1 + 1 / T) + n * W + n / T) := by
    rw [hatSize, ← hnt, ← hnd, ← hS, ← hT, ← he1, ← he3, ← he2]
  rw [hsize]
  have hU : ∀ k ≤ nt + 8, ∀ x y : ℝ, 0 ≤ x → x ≤ y → (1 + u) ^ k * x ≤ (1 + u) ^ (nt + 8) * y := fun k hk x y hx hxy =>
    mul_le_mul (pow_le_pow_right₀ (by linarith) hk) hxy hx (by positivity)
  have tot1 : e1 ≤ e1 + e2 + e3 * (1 + 1 / T) + n * W + n / T := by linarith
  have tot2 : e2 ≤ e1 + e2 + e3 * (1 + 1 / T) + n * W + n / T := by linarith
  have tot3 : e3 ≤ e1 + e2 + e3 * (1 + 1 / T) + n * W + n / T := by linarith
  have tot4 : n * W ≤ e1 + e2 + e3 * (1 + 1 / T) + n * W + n / T := by linarith
  have tot5 : n / T ≤ e1 + e2 + e3 * (1 + 1 / T) + n * W + n / T := by linarith
  have tot6 : e3 * (1 / T) ≤ e1 + e2 + e3 * (1 + 1 / T) + n * W + n / T := by linarith
  have hval : ∀ t < c.nDft, |vals.getD (st + t) 0| ≤ X := fun t ht => by
    refine hX _ ?_
    rw [List.getD_eq_getElem _ _ (by omega)]; exact List.getElem_mem _
  have hy : ∀ y, FlBlock u m vals st c.nDft y → ∀ t < c.nDft, |y t| ≤ (1 + u) ^ (nt + 2) * (2 * X) := fun y hy t ht => by
    rw [hnt]; exact (block_approx hu m vals X hX st c.nDft hn o2 y hy t ht).size
  have hwt : ∀ t < c.nDft, 0 ≤ c.win.getD t 0 ∧ c.win.getD t 0 ≤ W := fun t ht => by
    refine hw _ ?_
    rw [List.getD_eq_getElem _ _ (by omega)]; exact List.getElem_mem _
  have hp : ∀ y, FlBlock u m vals st c.nDft y → ∀ t < c.nDft, ∀ p, Rounds u (y t * c.win.getD t 0) p → |p| ≤ (1 + u) ^ (nt + 3) * e2 := fun y hy' t ht p hp => by
    have h1 := rounds_size hp
    rw [abs_mul, abs_of_nonneg (hwt t ht).1] at h1
    have h2 : |y t| * c.win.getD t 0 ≤ (1 + u) ^ (nt + 2) * (2 * X) * W := mul_le_mul (hy y hy' t ht) (hwt t ht).2 (hwt t ht).1 (by positivity)
    calc |p| ≤ (1 + u) * ((1 + u) ^ (nt + 2) * (2 * X) * W) := h1.trans (mul_le_mul_of_nonneg_left h2 (by linarith))
      _ = _ := by rw [he2, pow_succ _ (nt + 2)]; ring
  have hz : ∀ y z, FlBlock u m vals st c.nDft y → FlWindowed u c.win c.nDft y z → ∀ t < c.nDft, |z t| ≤ (1 + u) ^ (nt + 4) * e2 := fun y z hy' hz t ht => by
    obtain ⟨p, p1, p2⟩ := hz t ht
    calc |z t| ≤ (1 + u) * ((1 + u) ^ (nt + 3) * e2) := (rounds_size p2).trans (mul_le_mul_of_nonneg_left (hp y hy' t ht p p1) (by linarith))
      _ = _ := by rw [pow_succ _ (nt + 3)]; ring
  have hh : ∀ y z d, FlBlock u m vals st c.nDft y → FlWindowed u c.win c.nDft y z → FlDft γ ω c.nDft f z d → ‖d‖ ≤ (1 + u) ^ (nt + 4) * e3 := fun y z d h1 h2 h3 => by
    have g := h3 _ (hz y z h1 h2)
    have g2 : ‖∑ t ∈ range c.nDft, (z t : ℂ) * ω ^ (t * f)‖ ≤ n * ((1 + u) ^ (nt + 4) * e2) := by
      refine (norm_sum_le _ _).trans ?_
      have : ∑ t ∈ range c.nDft, ‖(z t : ℂ) * ω ^ (t * f)‖ ≤ ∑ _t ∈ range c.nDft, (1 + u) ^ (nt + 4) * e2 := Finset.sum_le_sum fun t ht => by
        rw [norm_mul, norm_pow, hω, one_pow, mul_one, Complex.norm_real]
        exact hz y z h1 h2 t (mem_range.1 ht)
      rw [Finset.sum_const, card_range, nsmul_eq_mul] at this
      rw [hnd]
      exact this
    rw [← hnd] at g
    have g3 := norm_sub_norm_le d (∑ t ∈ range c.nDft, (z t : ℂ) * ω ^ (t * f))
    rw [hnd] at g g2
    rw [he3, ← he2, hnd]
    calc ‖d‖ ≤ γ * (c.nDft * ((1 + u) ^ (nt + 4) * e2)) + c.nDft * ((1 + u) ^ (nt + 4) * e2) := by linarith
      _ = _ := by ring
  have hsc : ∀ s, FlScale u c.win c.nDft s → |s| ≤ (1 + u) ^ 2 * (1 / T) := fun s hs => by
    have g := scale_near hu hu1 c.win (fun x hx => (hw x hx).1) hpos (by rw [hwin]; exact hlt) s (by rw [hwin]; exact hs)
    rw [hwin, ← hS, ← hnd] at g
    rw [← hS] at hpos
    have g1 : |s * S| ≤ (1 + u) ^ 2 / (2 - (1 + u) ^ n) := by
      have := abs_sub_abs_le_abs_sub (s * S) 1
      rw [_root_.abs_one] at this
      linarith
    rw [abs_mul, abs_of_pos hpos] at g1
    have : (1 + u) ^ 2 * (1 / T) = (1 + u) ^ 2 / (2 - (1 + u) ^ n) / S := by
      rw [hT]; field_simp
    rw [this, le_div_iff₀ hpos]
    exact g1
  have hmn : ∀ mn, FlMean u c.win mn → ∀ v, Rounds u (1 / mn) v → |v| ≤ (1 + u) ^ 2 * (n / T) := fun mn hmn v hv => by
    have g := hsc (v / n) ⟨mn, v, hmn, hv, by rw [hnd]; exact rounds_exact hu _⟩
    have hn0 : (0 : ℝ) < n := by linarith
    rw [abs_div, abs_of_pos hn0, div_le_iff₀ hn0] at g
    calc |v| ≤ (1 + u) ^ 2 * (1 / T) * n := g
      _ = _ := by ring
  rcases h with h | ⟨y, hy', h⟩ | h | ⟨mn, h1, h2⟩ | h | ⟨q, hq, h⟩
  · have g := blockValue_le hu m vals X hX st c.nDft hn o2 v h
    rw [← hnt, ← he1] at g
    exact g.trans (hU (nt + 2) (by omega) _ _ p1 tot1)
  · rcases h with ⟨t, ht, p, h1, h2⟩ | ⟨z, d, h1, h2, h3⟩
    · have g := hp y hy' t ht p h1
      rcases h2 with rfl | h2
      · exact g.trans (hU (nt + 3) (by omega) _ _ p2 tot2)
      · have : |v| ≤ (1 + u) ^ (nt + 4) * e2 := by
          calc |v| ≤ (1 + u) * ((1 + u) ^ (nt + 3) * e2) := (rounds_size h2).trans (mul_le_mul_of_nonneg_left g (by linarith))
            _ = _ := by rw [pow_succ _ (nt + 3)]; ring
        exact this.trans (hU (nt + 4) (by omega) _ _ p2 tot2)
    · have g := hh y z d hy' h1 h2
      have : |v| ≤ ‖d‖ := by
        rcases h3 with rfl | rfl
        · exact Complex.abs_re_le_norm d
        · exact Complex.abs_im_le_norm d
      exact this.trans (g.trans (hU (nt + 4) (by omega) _ _ p3 tot3))
  · have g := meanValue_le hu c.win W (fun x hx => by rw [abs_of_nonneg (hw x hx).1]; exact (hw x hx).2) n (by omega) hW0 v h
    exact g.trans (hU (n + 1) (by omega) _ _ p4 tot4)
  · exact (hmn mn h1 v h2).trans (hU 2 (by omega) _ _ p5 tot5)
  · refine (hsc v h).trans (hU 2 (by omega) _ _ (by positivity) (le_trans ?_ tot5))
    exact div_le_div_of_nonneg_right hn1 hT0.le
  · obtain ⟨y, z, d, s, h1, h2, h3, h4, h5, h6⟩ := hq
    rw [ho] at h1
    have g := hh y z d h1 h2 h3
    have gs := hsc s h4
    have key : ∀ x, |x| ≤ ‖d‖ → ∀ y, Rounds u (s * x) y → |y| ≤ (1 + u) ^ (nt + 7) * (e3 * (1 / T)) := fun x hx y hy => by
      have k := rounds_size hy
      rw [abs_mul] at k
      have k2 : |s| * |x| ≤ (1 + u) ^ 2 * (1 / T) * ((1 + u) ^ (nt + 4) * e3) := mul_le_mul gs (hx.trans g) (abs_nonneg _) (by positivity)
      calc |y| ≤ (1 + u) * ((1 + u) ^ 2 * (1 / T) * ((1 + u) ^ (nt + 4) * e3)) := k.trans (mul_le_mul_of_nonneg_left k2 (by linarith))
        _ = _ := by rw [show nt + 7 = nt + 4 + 3 by omega, pow_add _ (nt + 4) 3]; ring
    refine le_trans ?_ (hU (nt + 7) (by omega) _ _ p6 tot6)
    rcases h with rfl | rfl
    · exact key _ (Complex.abs_re_le_norm d) _ h5
    · exact key _ (Complex.abs_im_le_norm d) _ h6

/-! ### The matrix -/

theorem dotValue_le {u : ℝ} (hu : 0 ≤ u) (ps : List (ℝ × ℝ)) (A C : ℝ) (hA : 0 ≤ A) (hC : 0 ≤ C) (hp : ∀ p ∈ ps, |p.1| ≤ A ∧ |p.2| ≤ C) (N : Nat) (hN : ps.length ≤ N) (v : ℝ)
    (h : DotValue u ps v) : |v| ≤ (1 + u) ^ (N + 1) * (N * (A * C)) := by
  have hpr : ∀ p ∈ ps, ∀ y, Rounds u (p.1 * p.2) y → |y| ≤ (1 + u) * (A * C) := fun p hp' y hy => by
    have := rounds_size hy
    rw [abs_mul] at this
    exact this.trans (mul_le_mul_of_nonneg_left (mul_le_mul (hp p hp').1 (hp p hp').2 (abs_nonneg _) hA) (by linarith))
  have hAC : 0 ≤ A * C := mul_nonneg hA hC
  rcases h with ⟨p, hp', h⟩ | ⟨ys, h1, h2⟩
  · have g := hpr p hp' v h
    have h1 : 1 ≤ N := (List.length_pos_of_mem hp').trans_le hN
    have h2 : (1 : ℝ) ≤ N := by exact_mod_cast h1
    rw [← pow_one (1 + u)] at g
    exact g.trans (mulpow hu (by omega) hAC (by linarith [mul_le_mul_of_nonneg_right h2 hAC]))
  · have g := sumValue_le hu ys ((1 + u) * (A * C)) (by
      intro a ha
      obtain ⟨i, hi, rfl⟩ := List.getElem_of_mem ha
      have hl := h1.length_eq
      exact hpr _ (List.getElem_mem (by omega)) _ (List.Forall₂.get h1 (by omega) hi)) N (by rw [← h1.length_eq]; exact hN) (mul_nonneg (by linarith) hAC) v h2
    refine g.trans (le_of_eq ?_)
    rw [pow_succ]; ring

theorem dotRe_size (a v : Nat → ℂ) (n : Nat) (A C : ℝ) (ha : ∀ k < n, |(a k).re| ≤ A ∧ |(a k).im| ≤ A) (hv : ∀ k < n, |(v k).re| ≤ C ∧ |(v k).im| ≤ C) :
    (dotRe a v n).length = 2 * n ∧ (dotIm a v n).length = 2 * n ∧ (∀ p ∈ dotRe a v n, |p.1| ≤ A ∧ |p.2| ≤ C) ∧ ∀ p ∈ dotIm a v n, |p.1| ≤ A ∧ |p.2| ≤ C := by
  refine ⟨?_, ?_, ?_, ?_⟩
  · simp [dotRe, List.length_flatMap, mul_comm]
  · simp [dotIm, List.length_flatMap, mul_comm]
  · intro p hp
    obtain ⟨k, hk, hp⟩ := List.mem_flatMap.1 hp
    have hk := List.mem_range.1 hk
    simp only [List.mem_cons, List.not_mem_nil, or_false] at hp
    rcases hp with rfl | rfl
    · exact ⟨(ha k hk).1, (hv k hk).1⟩
    · exact ⟨(ha k hk).2, (hv k hk).2⟩
  · intro p hp
    obtain ⟨k, hk, hp⟩ := List.mem_flatMap.1 hp
    have hk := List.mem_range.1 hk
    simp only [List.mem_cons, List.not_mem_nil, or_false] at hp
    rcases hp with rfl | rfl
    · exact ⟨(ha k hk).1, (hv k hk).2⟩
    · exact ⟨by rw [abs_neg]; exact (ha k hk).2, (hv k hk).1⟩

theorem flDot_value {u : ℝ} (ps : List (ℝ × ℝ)) (z : ℝ) (h : FlDot u ps z) : z = 0 ∨ DotValue u ps z := by
  obtain ⟨ys, h1, h2⟩ := h
  rcases flSum_value ys z h2 with h | h
  · exact Or.inl h
  · exact Or.inr (Or.inr ⟨ys, h1, h⟩)

theorem localValue_le {u : ℝ} (hu : 0 ≤ u) (Q : Nat → Arr ℂ) (w : Arr ℝ) (nb : ℝ) (hnb : 1 ≤ nb) (B W : ℝ) (hB : 0 ≤ B) (hW : 0 ≤ W)
    (hw : ∀ idx, InRange w.shape idx → 0 ≤ w.at' idx ∧ w.at' idx ≤ W) (i j : Nat) (hQ : ∀ b, b = i ∨ b = j → ∀ idx, InRange w.shape idx → |((Q b).at' idx).re| ≤ B ∧ |((Q b).at' idx).im| ≤ B)
    (n : Nat) (hn : size w.shape ≤ n) (v : ℝ) (h : LocalValue u Q w nb i j v) : |v| ≤ (1 + u) ^ (2 * n + 3) * (B * W + 2 * n * (B * (B * W))) := by
  have hBW : 0 ≤ B * W := mul_nonneg hB hW
  have hBBW : 0 ≤ 2 * (n : ℝ) * (B * (B * W)) := mul_nonneg (by positivity) (mul_nonneg hB hBW)
  have hq : ∀ k < size w.shape, ∀ q y : ℝ, |q| ≤ B → Rounds u (q * w.at' (unravel w.shape k)) y → |y| ≤ (1 + u) * (B * W) := fun k hk q y hq hy => by
    obtain ⟨w1, w2⟩ := hw _ (inRange_unravel hk)
    have := rounds_size hy
    rw [abs_mul, abs_of_nonneg w1] at this
    exact this.trans (mul_le_mul_of_nonneg_left (mul_le_mul hq w2 w1 hB) (by linarith))
  have hx : ∀ x : Nat → ℂ, (∀ k < size w.shape, Rounds u (((Q j).at' (unravel w.shape k)).re * w.at' (unravel w.shape k)) (x k).re ∧
      Rounds u (((Q j).at' (unravel w.shape k)).im * w.at' (unravel w.shape k)) (x k).im) → ∀ v,
      (DotValue u (dotRe (fun k => (Q i).at' (unravel w.shape k)) x (size w.shape)) v ∨ DotValue u (dotIm (fun k => (Q i).at' (unravel w.shape k)) x (size w.shape)) v) →
      |v| ≤ (1 + u) ^ (2 * n + 2) * (2 * n * (B * (B * W))) := fun x hx v h => by
    obtain ⟨l1, l2, s1, s2⟩ := dotRe_size (fun k => (Q i).at' (unravel w.shape k)) x (size w.shape) B ((1 + u) * (B * W))
      (fun k hk => hQ i (Or.inl rfl) _ (inRange_unravel hk))
      (fun k hk => ⟨hq k hk _ _ (hQ j (Or.inr rfl) _ (inRange_unravel hk)).1 (hx k hk).1, hq k hk _ _ (hQ j (Or.inr rfl) _ (inRange_unravel hk)).2 (hx k hk).2⟩)
    have hC : 0 ≤ (1 + u) * (B * W) := mul_nonneg (by linarith) hBW
    have e : (1 + u) ^ (2 * n + 1) * (((2 * n : Nat) : ℝ) * (B * ((1 + u) * (B * W)))) = (1 + u) ^ (2 * n + 2) * (2 * n * (B * (B * W))) := by
      push_cast; rw [pow_succ _ (2 * n + 1)]; ring
    rcases h with h | h
    · exact (dotValue_le hu _ B _ hB hC s1 (2 * n) (by omega) v h).trans e.le
    · exact (dotValue_le hu _ B _ hB hC s2 (2 * n) (by omega) v h).trans e.le
  rcases h with ⟨k, hk, h | h⟩ | ⟨x, h1, h2⟩ | ⟨z, ⟨x, s, h1, h2, h3, h4, h5⟩, h⟩
  · have g := hq k hk _ v (hQ j (Or.inr rfl) _ (inRange_unravel hk)).1 h
    rw [← pow_one (1 + u)] at g
    exact g.trans (mulpow hu (by omega) hBW (by linarith))
  · have g := hq k hk _ v (hQ j (Or.inr rfl) _ (inRange_unravel hk)).2 h
    rw [← pow_one (1 + u)] at g
    exact g.trans (mulpow hu (by omega) hBW (by linarith))
  · exact (hx x h1 v h2).trans (mulpow hu (by omega) hBBW (by linarith))
  · have hs : |s.re| ≤ (1 + u) ^ (2 * n + 2) * (2 * n * (B * (B * W))) ∧ |s.im| ≤ (1 + u) ^ (2 * n + 2) * (2 * n * (B * (B * W))) := by
      have hp : 0 ≤ (1 + u) ^ (2 * n + 2) * (2 * n * (B * (B * W))) := mul_nonneg (pow_nonneg (by linarith) _) hBBW
      constructor
      · rcases flDot_value _ _ h2 with h | h
        · rw [h, abs_zero]; exact hp
        · exact hx x h1 _ (Or.inl h)
      · rcases flDot_value _ _ h3 with h | h
        · rw [h, abs_zero]; exact hp
        · exact hx x h1 _ (Or.inr h)
    have hdiv : ∀ a y : ℝ, |a| ≤ (1 + u) ^ (2 * n + 2) * (2 * n * (B * (B * W))) → Rounds u (a / nb) y → |y| ≤ (1 + u) ^ (2 * n + 3) * (2 * n * (B * (B * W))) := fun a y ha hy => by
      have h1 := rounds_size hy
      have h2 : |a / nb| ≤ |a| := by
        rw [abs_div, abs_of_pos (by linarith : 0 < nb)]
        exact div_le_self (abs_nonneg _) hnb
      calc |y| ≤ (1 + u) * ((1 + u) ^ (2 * n + 2) * (2 * n * (B * (B * W)))) := h1.trans (mul_le_mul_of_nonneg_left (h2.trans ha) (by linarith))
        _ = _ := by rw [pow_succ _ (2 * n + 2)]; ring
    have fin : (1 + u) ^ (2 * n + 3) * (2 * n * (B * (B * W))) ≤ (1 + u) ^ (2 * n + 3) * (B * W + 2 * n * (B * (B * W))) := mulpow hu le_rfl hBBW (by linarith)
    rcases h with rfl | rfl
    · exact (hdiv _ _ hs.1 h4).trans fin
    · exact (hdiv _ _ hs.2 h5).trans fin

theorem slab_le (a : Arr ℝ) (B : ℝ) (ha : ∀ idx, InRange a.shape idx → a.at' idx ≤ B) (ax : Nat) (hax : ax < a.shape.length) (comm : Comm) (idx : List Nat)
    (h : InRange (distributeDimension a ax comm).shape idx) : (distributeDimension a ax comm).at' idx ≤ B := by
  have := slab_nonneg ⟨a.shape, fun idx => B - a.at' idx⟩ (fun idx h => sub_nonneg.2 (ha idx h)) ax hax comm idx (by cases comm <;> exact h)
  have e : (distributeDimension (⟨a.shape, fun idx => B - a.at' idx⟩ : Arr ℝ) ax comm).at' idx = B - (distributeDimension a ax comm).at' idx := by
    cases comm <;> rfl
  rw [e] at this
  linarith

/-- the largest number that can occur in the computation of the matrix: coefficients whose parts are at most `B`, weights at most `W`, at most `n` points on each of `R` ranks -/
noncomputable def gramSize (u B W : ℝ) (n R : Nat) : ℝ := (1 + u) ^ (2 * n + 3 + R) * (R * (B * W + 2 * n * (B * (B * W))))

theorem gramValue_le {u : ℝ} (hu : 0 ≤ u) (comms : List Comm) (ax : Nat) (Q : Nat → Arr ℂ) (w : Arr ℝ) (hax : ax < w.shape.length) (nb : ℝ) (hnb : 1 ≤ nb) (B W : ℝ) (hB : 0 ≤ B) (hW : 0 ≤ W)
    (hw : ∀ idx, InRange w.shape idx → 0 ≤ w.at' idx ∧ w.at' idx ≤ W) (i j : Nat) (hs : ∀ b, (Q b).shape = w.shape)
    (hQ : ∀ b, b = i ∨ b = j → ∀ idx, InRange w.shape idx → |((Q b).at' idx).re| ≤ B ∧ |((Q b).at' idx).im| ≤ B)
    (n : Nat) (hn : ∀ comm ∈ comms, size (distributeDimension w ax comm).shape ≤ n) (v : ℝ) (h : GramValue u comms ax Q w nb i j v) : |v| ≤ gramSize u B W n comms.length := by
  obtain ⟨Y, hY⟩ : ∃ Y, Y = B * W + 2 * n * (B * (B * W)) := ⟨_, rfl⟩
  have hY0 : 0 ≤ Y := by rw [hY]; positivity
  have hl : ∀ comm ∈ comms, ∀ v, LocalValue u (fun b => distributeDimension (Q b) ax comm) (distributeDimension w ax comm) nb i j v → |v| ≤ (1 + u) ^ (2 * n + 3) * Y := by
    intro comm hc v hv
    rw [hY]
    refine localValue_le hu _ _ nb hnb B W hB hW (fun idx hi => ⟨slab_nonneg w (fun idx h => (hw idx h).1) ax hax comm idx hi, slab_le w W (fun idx h => (hw idx h).2) ax hax comm idx hi⟩)
      i j (fun b hb idx hi => ?_) n (hn comm hc) v hv
    have hshape : (distributeDimension w ax comm).shape = (distributeDimension (⟨w.shape, fun idx => |((Q b).at' idx).re|⟩ : Arr ℝ) ax comm).shape := by cases comm <;> rfl
    have hshape2 : (distributeDimension w ax comm).shape = (distributeDimension (⟨w.shape, fun idx => |((Q b).at' idx).im|⟩ : Arr ℝ) ax comm).shape := by cases comm <;> rfl
    have k1 := slab_le (⟨w.shape, fun idx => |((Q b).at' idx).re|⟩ : Arr ℝ) B (fun idx h => (hQ b hb idx h).1) ax hax comm idx (by rw [← hshape]; exact hi)
    have k2 := slab_le (⟨w.shape, fun idx => |((Q b).at' idx).im|⟩ : Arr ℝ) B (fun idx h => (hQ b hb idx h).2) ax hax comm idx (by rw [← hshape2]; exact hi)
    have e1 : (distributeDimension (⟨w.shape, fun idx => |((Q b).at' idx).re|⟩ : Arr ℝ) ax comm).at' idx = |((distributeDimension (Q b) ax comm).at' idx).re| := by
      rw [← hs b]; cases comm <;> rfl
    have e2 : (distributeDimension (⟨w.shape, fun idx => |((Q b).at' idx).im|⟩ : Arr ℝ) ax comm).at' idx = |((distributeDimension (Q b) ax comm).at' idx).im| := by
      rw [← hs b]; cases comm <;> rfl
    rw [e1] at k1
    rw [e2] at k2
    exact ⟨k1, k2⟩
  rw [gramSize, ← hY]
  rcases h with ⟨comm, hc, h⟩ | ⟨ls, h1, h2⟩
  · have h0 : 1 ≤ comms.length := List.length_pos_of_mem hc
    have h1 : (1 : ℝ) ≤ comms.length := by exact_mod_cast h0
    exact (hl comm hc v h).trans (mulpow hu (by omega) hY0 (by linarith [mul_le_mul_of_nonneg_right h1 hY0]))
  · have hmem : ∀ l ∈ ls, |l.re| ≤ (1 + u) ^ (2 * n + 3) * Y ∧ |l.im| ≤ (1 + u) ^ (2 * n + 3) * Y := fun l hl' => by
      obtain ⟨k, hk, rfl⟩ := List.getElem_of_mem hl'
      have hlen := h1.length_eq
      have g := List.Forall₂.get h1 (by omega : k < comms.length) hk
      exact ⟨hl _ (List.getElem_mem _) _ (Or.inr (Or.inr ⟨_, g, Or.inl rfl⟩)), hl _ (List.getElem_mem _) _ (Or.inr (Or.inr ⟨_, g, Or.inr rfl⟩))⟩
    have e : (1 + u) ^ comms.length * (comms.length * ((1 + u) ^ (2 * n + 3) * Y)) = (1 + u) ^ (2 * n + 3 + comms.length) * (comms.length * Y) := by
      rw [pow_add]; ring
    rw [← e]
    have hp : 0 ≤ (1 + u) ^ (2 * n + 3) * Y := mul_nonneg (pow_nonneg (by linarith) _) hY0
    rcases h2 with h2 | h2
    · refine sumValue_le hu _ _ (fun a ha => ?_) _ (by rw [List.length_map, h1.length_eq]) hp v h2
      obtain ⟨l, hl', rfl⟩ := List.mem_map.1 ha
      exact (hmem l hl').1
    · refine sumValue_le hu _ _ (fun a ha => ?_) _ (by rw [List.length_map, h1.length_eq]) hp v h2
      obtain ⟨l, hl', rfl⟩ := List.mem_map.1 ha
      exact (hmem l hl').2

/-! ### The fit -/

/-- **C250.** A fit (without `normalize_data`) of data of magnitude at most `X` with non-negative window values of at most `W` and weights of at most `Wt`: if the two sizes are not above
    the largest number `Ω`, then no value that occurs in the computation of the Fourier coefficients and of the matrices, on one process or on `p` ranks, in any order of the additions,
    is above `Ω` in magnitude. -/
theorem fit_no_overflow (c : Cfg) (ω : ℂ) (hω : ‖ω‖ = 1) (files : List (List (Arr ℝ))) (w : Arr ℝ) (m : MeanType) (A : Accepted c files w m)
    (W : ℝ) (hW : ∀ x ∈ c.win, 0 ≤ x ∧ x ≤ W) (hwp : 0 < c.win.sum) (Wt : ℝ) (hWt : ∀ idx, InRange w.shape idx → 0 ≤ w.at' idx ∧ w.at' idx ≤ Wt) (hWt0 : 0 ≤ Wt)
    (u : ℝ) (hu : 0 ≤ u) (hlt : (1 + u) ^ c.nDft < 2) (γ : ℝ) (hγ : 0 ≤ γ) (X : ℝ) (hX : ∀ a ∈ files.flatten, ∀ idx, InRange w.shape idx → |a.at' idx| ≤ X) (hX0 : 0 ≤ X)
    (comms : List Comm) (ax : Nat) (hax : ax < w.shape.length) (n : Nat) (hn : ∀ comm ∈ comms, size (distributeDimension w ax comm).shape ≤ n)
    (Ω : ℝ) (h1 : hatSize u γ X W c.win.sum files.flatten.length c.nDft ≤ Ω)
    (h2 : gramSize u (hatSize u γ X W c.win.sum files.flatten.length c.nDft) Wt n comms.length ≤ Ω) :
    ∀ f, (∀ b < fitNb c files.flatten.length, ∀ idx, InRange w.shape idx → ∀ v, HatValue u γ c m ω (files.flatten.map fun a => a.at' idx) f b v → |v| ≤ Ω) ∧
      ∀ Qh : Nat → Arr ℂ, (∀ b, (Qh b).shape = w.shape) →
        (∀ b < fitNb c files.flatten.length, ∀ idx, InRange w.shape idx → FlHat u γ c m ω (files.flatten.map fun a => a.at' idx) f b ((Qh b).at' idx)) →
        ∀ i < fitNb c files.flatten.length, ∀ j < fitNb c files.flatten.length, ∀ v, GramValue u comms ax Qh w (fitNb c files.flatten.length) i j v → |v| ≤ Ω := by
  have hnd : 0 < c.nDft := by have := (feasible_nb c _ A.blocks).2; omega
  have hnb := (feasible_nb c _ A.blocks).1
  have hu1 : u ≤ 1 := by
    have : 1 + u ≤ (1 + u) ^ c.nDft := le_self_pow₀ (by linarith) hnd.ne'
    linarith
  intro f
  have key : ∀ b < fitNb c files.flatten.length, ∀ idx, InRange w.shape idx → ∀ v, HatValue u γ c m ω (files.flatten.map fun a => a.at' idx) f b v →
      |v| ≤ hatSize u γ X W c.win.sum files.flatten.length c.nDft := by
    intro b hb idx hi v hv
    have := hatValue_le hu hu1 γ hγ c m ω hω (files.flatten.map fun a => a.at' idx) X (by
      intro x hx
      obtain ⟨a, ha, rfl⟩ := List.mem_map.1 hx
      exact hX a ha idx hi) hnd A.overlap A.window W hW hwp hlt f b (by rw [List.length_map]; exact hb) v hv
    rwa [List.length_map] at this
  refine ⟨fun b hb idx hi v hv => (key b hb idx hi v hv).trans h1, fun Qh hs hQ i hi j hj v hv => ?_⟩
  have hW0 : 0 ≤ W := by
    have := hW _ (List.getElem_mem (by rw [A.window]; exact hnd : 0 < c.win.length))
    linarith [this.1, this.2]
  have hB : 0 ≤ hatSize u γ X W c.win.sum files.flatten.length c.nDft := by
    have : 0 < c.win.sum * (2 - (1 + u) ^ c.nDft) := mul_pos hwp (by linarith)
    unfold hatSize
    positivity
  refine (gramValue_le hu comms ax Qh w hax _ ?_ _ Wt hB hWt0 hWt i j hs (fun b hb idx hidx => ?_) n hn v hv).trans h2
  · exact_mod_cast (by omega : 1 ≤ fitNb c files.flatten.length)
  · have hb' : b < fitNb c files.flatten.length := by rcases hb with rfl | rfl <;> assumption
    have g := hQ b hb' idx hidx
    exact ⟨key b hb' idx hidx _ (Or.inr (Or.inr (Or.inr (Or.inr (Or.inr ⟨_, g, Or.inl rfl⟩))))),
      key b hb' idx hidx _ (Or.inr (Or.inr (Or.inr (Or.inr (Or.inr ⟨_, g, Or.inr rfl⟩)))))⟩

/-! ### Cases -/

/-- the first size when `(nt + 8) u` is at most one hundredth -/
theorem hatSize_le {u : ℝ} (hu : 0 ≤ u) (γ X W S : ℝ) (hγ : 0 ≤ γ) (hX : 0 ≤ X) (hW : 0 ≤ W) (hS : 0 < S) (nt n : Nat) (hn : n ≤ nt) (h : ((nt + 8 : Nat) : ℝ) * u ≤ 1 / 100) :
    hatSize u γ X W S nt n ≤ 1.02 * (2 * X * nt + 2 * X * W + (1 + γ) * (n * (2 * X * W)) * (1 + 1.02 / S) + n * W + 1.02 * n / S) := by
  have h1 := pow_near hu (nt + 8) h
  have h2 : (n : ℝ) * u ≤ 1 / 100 := by
    refine le_trans (mul_le_mul_of_nonneg_right ?_ hu) h
    exact_mod_cast (by omega : n ≤ nt + 8)
  have h3 := pow_near hu n h2
  have hT : 0 < S * (2 - (1 + u) ^ n) := mul_pos hS (by linarith)
  have h4 : 1 / (S * (2 - (1 + u) ^ n)) ≤ 1.02 / S := by
    rw [div_le_div_iff₀ hT hS]
    nlinarith [mul_le_mul_of_nonneg_left (by linarith : (0.98 : ℝ) ≤ 2 - (1 + u) ^ n) hS.le, mul_le_mul_of_nonneg_left (by linarith : (0.985 : ℝ) ≤ 2 - (1 + u) ^ n) hS.le]
  have h5 : n / (S * (2 - (1 + u) ^ n)) ≤ 1.02 * n / S := by
    have := mul_le_mul_of_nonneg_left h4 (Nat.cast_nonneg n : (0 : ℝ) ≤ n)
    calc (n : ℝ) / (S * (2 - (1 + u) ^ n)) = n * (1 / (S * (2 - (1 + u) ^ n))) := by ring
      _ ≤ n * (1.02 / S) := this
      _ = _ := by ring
  have h0 : 0 ≤ (1 + γ) * (n * (2 * X * W)) := by positivity
  have h6 := mul_le_mul_of_nonneg_left (add_le_add_right h4 1) h0
  unfold hatSize
  refine mul_le_mul (by linarith) (by linarith) ?_ (by norm_num)
  have := div_nonneg (Nat.cast_nonneg n : (0 : ℝ) ≤ n) hT.le
  have := div_nonneg (zero_le_one (α := ℝ)) hT.le
  positivity

/-- double precision, ten thousand snapshots of magnitude at most `10^60`, blocks of 256, a Hamming window, a million points with weights at most ten on each of a hundred ranks:
    both sizes are below `10^200`, and the largest number is above `10^308` -/
example : hatSize (1 / 2 ^ 53) (1 / 10 ^ 14) (10 ^ 60) 1 138 10000 256 ≤ 10 ^ 65 := by
  refine (hatSize_le (by norm_num) _ _ _ _ (by norm_num) (by norm_num) (by norm_num) (by norm_num) 10000 256 (by norm_num) (by norm_num)).trans ?_
  norm_num

example (B : ℝ) (hB0 : 0 ≤ B) (hB : B ≤ 10 ^ 65) : gramSize (1 / 2 ^ 53) B 10 1000000 100 ≤ 10 ^ 200 := by
  have h1 := pow_near (u := 1 / 2 ^ 53) (by norm_num) (2 * 1000000 + 3 + 100) (by norm_num)
  have h2 : (1 + 1 / 2 ^ 53 : ℝ) ^ (2 * 1000000 + 3 + 100) ≤ 2 := by
    refine le_trans (by linarith : _ ≤ 1 + 1.02 * (((2 * 1000000 + 3 + 100 : Nat) : ℝ) * (1 / 2 ^ 53))) (by norm_num)
  unfold gramSize
  have h3 : B * (B * 10) ≤ 10 ^ 65 * (10 ^ 65 * 10) := mul_le_mul hB (mul_le_mul_of_nonneg_right hB (by norm_num)) (by positivity) (by norm_num)
  have h4 : ((100 : Nat) : ℝ) * (B * 10 + 2 * ((1000000 : Nat) : ℝ) * (B * (B * 10))) ≤ 10 ^ 140 := by
    norm_num at h3 hB ⊢
    linarith
  calc _ ≤ 2 * (10 : ℝ) ^ 140 := mul_le_mul h2 h4 (by positivity) (by norm_num)
    _ ≤ _ := by norm_num

/-- single precision, a thousand snapshots of magnitude at most a million, blocks of 64, ten thousand points on each of four ranks: below `10^30` -/
example : hatSize (1 / 2 ^ 24) (1 / 10 ^ 5) (10 ^ 6) 1 30 1000 64 ≤ 10 ^ 10 := by
  refine (hatSize_le (by norm_num) _ _ _ _ (by norm_num) (by norm_num) (by norm_num) (by norm_num) 1000 64 (by norm_num) (by norm_num)).trans ?_
  norm_num

example (B : ℝ) (hB0 : 0 ≤ B) (hB : B ≤ 10 ^ 10) : gramSize (1 / 2 ^ 24) B 1 10000 4 ≤ 10 ^ 30 := by
  have h1 := pow_near (u := 1 / 2 ^ 24) (by norm_num) (2 * 10000 + 3 + 4) (by norm_num)
  have h2 : (1 + 1 / 2 ^ 24 : ℝ) ^ (2 * 10000 + 3 + 4) ≤ 2 := by
    refine le_trans (by linarith : _ ≤ 1 + 1.02 * (((2 * 10000 + 3 + 4 : Nat) : ℝ) * (1 / 2 ^ 24))) (by norm_num)
  unfold gramSize
  have h3 : B * (B * 1) ≤ 10 ^ 10 * (10 ^ 10 * 1) := mul_le_mul hB (mul_le_mul_of_nonneg_right hB (by norm_num)) (by positivity) (by norm_num)
  have h4 : ((4 : Nat) : ℝ) * (B * 1 + 2 * ((10000 : Nat) : ℝ) * (B * (B * 1))) ≤ 10 ^ 26 := by
    norm_num at h3 hB ⊢
    linarith
  calc _ ≤ 2 * (10 : ℝ) ^ 26 := mul_le_mul h2 h4 (by positivity) (by norm_num)
    _ ≤ _ := by norm_num

/-- **C250.** Data below the largest number do not suffice: whatever it is, the additions of the long-time mean of eight equal snapshots of that magnitude
    go above it, for every mean type. -/
theorem data_below_max_overflow (u γ Ω : ℝ) (hu : 0 ≤ u) (hΩ : 0 < Ω) (m : MeanType) (f b : Nat) :
    (∀ x ∈ List.replicate 8 Ω, |x| ≤ Ω) ∧ ∃ v, HatValue u γ calmCfg m (-Complex.I) (List.replicate 8 Ω) f b v ∧ Ω < |v| := by
  refine ⟨fun x hx => by rw [List.eq_of_mem_replicate hx, abs_of_pos hΩ], 8 * Ω, ?_, by rw [abs_of_pos (by linarith)]; linarith⟩
  have h := sum_exact hu (List.replicate 8 Ω)
  rw [List.sum_replicate, nsmul_eq_mul] at h
  rcases flSum_value _ _ h with h | h
  · push_cast at h; linarith
  · push_cast at h
    exact Or.inl (Or.inl (Or.inl h))

/-- the theorem applies: two points, eight snapshots of magnitude at most one, two blocks of four, single precision, on two ranks -/
example (l : List ℝ) (hl : l.length = 8) (hX : ∀ a ∈ (series l).flatten, ∀ idx, InRange [2] idx → |a.at' idx| ≤ 1) (Ω : ℝ)
    (h1 : hatSize (1 / 2 ^ 24) (1 / 10 ^ 5) 1 2 calmCfg.win.sum (series l).flatten.length calmCfg.nDft ≤ Ω)
    (h2 : gramSize (1 / 2 ^ 24) (hatSize (1 / 2 ^ 24) (1 / 10 ^ 5) 1 2 calmCfg.win.sum (series l).flatten.length calmCfg.nDft) 1 2 2 ≤ Ω) :=
  fit_no_overflow calmCfg (-Complex.I) (by simp) (series l) ⟨[2], fun _ => 1⟩ .blockwise (calm_any l hl.ge 1 zero_le_one) 2
    (by norm_num [calmCfg, shortCfg]) (by norm_num [calmCfg, shortCfg]) 1 (fun _ _ => ⟨zero_le_one, le_rfl⟩) zero_le_one (1 / 2 ^ 24) (by norm_num) (by norm_num [calmCfg, shortCfg])
    (1 / 10 ^ 5) (by norm_num) 1 hX zero_le_one (Proj.ranksOf 2) 0 (by decide) 2 (by decide) Ω h1 h2

end Verif.Props
