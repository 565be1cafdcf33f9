import Verif.Model.VarRounding
import Verif.Props.PodRounding
import Verif.Props.FitRounding
import Verif.Props.Double
/-
  C241: the variance that normalizes the weights, in floating-point arithmetic.
-/
namespace Verif.Props
open Verif Verif.Par Verif.Round Verif.Dbl

/-- product of two approximations -/
theorem Approx.times {u : ℝ} (hu : 0 ≤ u) {k y e B k' y' e' B'} {z} (h : Approx u k y e B) (h' : Approx u k' y' e' B') (hz : Rounds u (y * y') z) :
    Approx u (k + k' + 1) z (e * e') (B * B') := by
  have h1 := h.size
  have h1' := h'.size
  have h2 := h.1
  have h2' := h'.1
  have hB := h.nonneg
  have hB' := h'.nonneg
  have p1 : 1 ≤ (1 + u) ^ k := one_le_pow₀ (by linarith)
  have p2 : 1 ≤ (1 + u) ^ k' := one_le_pow₀ (by linarith)
  unfold Rounds at hz
  rw [abs_mul] at hz
  refine ⟨?_, by rw [abs_mul]; exact mul_le_mul h.2 h'.2 (abs_nonneg _) hB⟩
  have e1 : z - e * e' = (z - y * y') + (y - e) * y' + e * (y' - e') := by ring
  have h3 : |z - e * e'| ≤ |z - y * y'| + |y - e| * |y'| + |e| * |y' - e'| := by
    rw [e1]; refine (abs_add_three _ _ _).trans ?_; rw [abs_mul, abs_mul]
  have g1 : |y| * |y'| ≤ ((1 + u) ^ k * B) * ((1 + u) ^ k' * B') := mul_le_mul h1 h1' (abs_nonneg _) (by positivity)
  have g2 : |y - e| * |y'| ≤ (((1 + u) ^ k - 1) * B) * ((1 + u) ^ k' * B') := mul_le_mul h2 h1' (abs_nonneg _) (mul_nonneg (by linarith) hB)
  have g3 : |e| * |y' - e'| ≤ B * (((1 + u) ^ k' - 1) * B') := mul_le_mul h.2 h2' (abs_nonneg _) hB
  have g4 := mul_le_mul_of_nonneg_left g1 hu
  calc |z - e * e'| ≤ u * (((1 + u) ^ k * B) * ((1 + u) ^ k' * B')) + (((1 + u) ^ k - 1) * B) * ((1 + u) ^ k' * B') + B * (((1 + u) ^ k' - 1) * B') := by linarith
    _ = ((1 + u) ^ (k + k' + 1) - 1) * (B * B') := by ring

/-- a rounded division by a positive number -/
theorem Approx.quot {u : ℝ} (hu : 0 ≤ u) {k y e B} (c : ℝ) (hc : 0 < c) {z} (h : Approx u k y e B) (hz : Rounds u (y / c) z) : Approx u (k + 1) z (e / c) (B / c) := by
  have := h.mul hu c⁻¹ (z := z) (by rwa [← div_eq_mul_inv])
  rwa [← div_eq_mul_inv, abs_of_pos (inv_pos.2 hc), ← div_eq_mul_inv] at this

theorem Approx.sub {u : ℝ} (hu : 0 ≤ u) {k y e B y' e' B'} {z} (h : Approx u k y e B) (h' : Approx u k y' e' B') (hz : Rounds u (y - y') z) :
    Approx u (k + 1) z (e - e') (B + B') := by
  have := h.add hu h'.neg (z := z) (by rwa [← sub_eq_add_neg])
  rwa [← sub_eq_add_neg] at this

/-- mean and variance of one rank -/
theorem localStat_approx {u : ℝ} (hu : 0 ≤ u) (data : List ℝ) (hne : data ≠ []) (X : ℝ) (hX : ∀ x ∈ data, |x| ≤ X) (L : Nat) (hL : data.length ≤ L) (m v : ℝ)
    (h : FlLocalStat u data m v) : Approx u L m (stats data).2.1 X ∧ Approx u (3 * L + 3) v (stats data).2.2 (4 * X ^ 2) := by
  obtain ⟨hm, d, q, s, hd, hq, hs, hv⟩ := h
  have hn' : 0 < data.length := List.length_pos_iff.2 hne
  have hn : (0 : ℝ) < data.length := by exact_mod_cast hn'
  have am : Approx u L m (stats data).2.1 X := (mean_approx hu data hne X hX m hm).mono hu hL (le_refl _)
  refine ⟨am, ?_⟩
  set e := (stats data).2.1 with he
  have key : ∀ (xs ds qs : List ℝ), (∀ x ∈ xs, |x| ≤ X) → List.Forall₂ (fun x y => Rounds u (x - m) y) xs ds → List.Forall₂ (fun y z => Rounds u (y * y) z) ds qs →
      ∃ l : List (ℝ × ℝ × ℝ), l.map (·.1) = qs ∧ l.map (·.2.1) = (xs.map fun x => (x - e) ^ 2) ∧ l.map (·.2.2) = xs.map (fun _ => 4 * X ^ 2) ∧
        ∀ a ∈ l, Approx u (2 * L + 3) a.1 a.2.1 a.2.2 := by
    intro xs
    induction xs with
    | nil =>
      intro ds qs _ h1 h2
      rw [List.forall₂_nil_left_iff] at h1
      subst h1
      rw [List.forall₂_nil_left_iff] at h2
      subst h2
      exact ⟨[], rfl, rfl, rfl, by simp⟩
    | cons x xs ih =>
      intro ds qs hx h1 h2
      rw [List.forall₂_cons_left_iff] at h1
      obtain ⟨y, ds', hy, h1, rfl⟩ := h1
      rw [List.forall₂_cons_left_iff] at h2
      obtain ⟨z, qs', hz, h2, rfl⟩ := h2
      obtain ⟨l, l1, l2, l3, l4⟩ := ih ds' qs' (fun x hx' => hx x (by simp [hx'])) h1 h2
      have a1 := sub_approx hu x X (hx x (by simp)) L m e y am hy
      have a2 := (a1.times hu a1 hz).mono hu (k' := 2 * L + 3) (B' := 4 * X ^ 2) (by omega) (by nlinarith)
      rw [← pow_two] at a2
      refine ⟨(z, (x - e) ^ 2, 4 * X ^ 2) :: l, by simp [l1], by simp [l2], by simp [l3], ?_⟩
      intro a ha
      rcases List.mem_cons.1 ha with rfl | ha
      · exact a2
      · exact l4 a ha
  obtain ⟨l, l1, l2, l3, l4⟩ := key data d q hX hd hq
  subst l1
  have hl : l.length = data.length := by have := congrArg List.length l2; simpa using this
  have a1 := sum_approx hu (2 * L + 3) L l (by omega) l4 s hs
  rw [l2, l3] at a1
  have a2 := a1.quot hu data.length hn hv
  refine a2.mono hu (by omega) (le_of_eq ?_)
  rw [List.map_const', List.sum_replicate, nsmul_eq_mul, mul_div_assoc, mul_comm, div_mul_cancel₀ _ hn.ne']

/-- mean and variance of two sets together -/
theorem stats_join (a b : List ℝ) (ha : a ≠ []) (hb : b ≠ []) :
    (stats (a ++ b)).2.1 = ((stats a).2.1 * a.length + (stats b).2.1 * b.length) / (a.length + b.length : Nat) ∧
    (stats (a ++ b)).2.2 = (((stats a).2.2 * a.length + (stats b).2.2 * b.length)
      + (((a.length * b.length : Nat) : ℝ) * (((stats a).2.1 - (stats b).2.1) * ((stats a).2.1 - (stats b).2.1))) / (a.length + b.length : Nat)) / (a.length + b.length : Nat) := by
  have na : (0 : ℝ) < a.length := by exact_mod_cast List.length_pos_iff.2 ha
  have nb : (0 : ℝ) < b.length := by exact_mod_cast List.length_pos_iff.2 hb
  have hab : (a.length : ℝ) + b.length ≠ 0 := by positivity
  have na' := na.ne'
  have nb' := nb.ne'
  simp only [stats, List.length_append, List.sum_append, List.map_append, sum_sq_dev]
  push_cast
  constructor
  · field_simp
  · field_simp
    ring

theorem opStat_approx {u : ℝ} (hu : 0 ≤ u) (a b : List ℝ) (ha : a ≠ []) (hb : b ≠ []) (X : ℝ) (K J : Nat) (C D : ℝ) (hCD : C ≤ D) (ma va mb vb : ℝ)
    (hma : Approx u K ma (stats a).2.1 X) (hva : Approx u J va (stats a).2.2 (C * X ^ 2)) (hmb : Approx u K mb (stats b).2.1 X)
    (hvb : Approx u J vb (stats b).2.2 (D * X ^ 2)) (m v : ℝ) (h : FlOpStat u a.length ma va b.length mb vb m v) (M : Nat) (hJ : J + 2 ≤ M) (hK : 2 * K + 6 ≤ M) :
    Approx u (K + 3) m (stats (a ++ b)).2.1 X ∧ Approx u (M + 2) v (stats (a ++ b)).2.2 ((D + 1) * X ^ 2) := by
  have na : (0 : ℝ) < a.length := by exact_mod_cast List.length_pos_iff.2 ha
  have nb : (0 : ℝ) < b.length := by exact_mod_cast List.length_pos_iff.2 hb
  have hn : (0 : ℝ) < (a.length + b.length : Nat) := by push_cast; positivity
  obtain ⟨e1, e2⟩ := stats_join a b ha hb
  obtain ⟨⟨x, y, s, hx, hy, hs, hm⟩, x', y', s', d, q, p, t, g, h', hx', hy', hs', hd, hq, hp, ht, hg, hh, hv⟩ := h
  have c1 := hma.mul hu a.length (z := x) (by rwa [mul_comm])
  have c2 := hmb.mul hu b.length (z := y) (by rwa [mul_comm])
  have c3 := (c1.add hu c2 hs).quot hu _ hn hm
  have X0 := hma.nonneg
  constructor
  · rw [e1]
    refine c3.mono hu (by omega) (le_of_eq ?_)
    rw [abs_of_pos na, abs_of_pos nb, ← mul_add, ← Nat.cast_add, mul_div_assoc, div_self hn.ne', mul_one]
  · have v1 := hva.mul hu a.length (z := x') (by rwa [mul_comm])
    have v2 := hvb.mul hu b.length (z := y') (by rwa [mul_comm])
    have v3 := (v1.add hu v2 hs').mono hu (k' := M) (by omega) (le_refl _)
    have w1 := hma.sub hu hmb hd
    have w2 := w1.times hu w1 hq
    have w3 : Approx u 1 p ((a.length * b.length : Nat) : ℝ) |((a.length * b.length : Nat) : ℝ)| := (Approx.exact (u := u) _).round hu hp
    have w4 := ((w3.times hu w2 ht).quot hu _ hn hg).mono hu (k' := M) (by omega) (le_refl _)
    have v4 := (v3.add hu w4 hh).quot hu _ hn hv
    rw [e2]
    refine v4.mono hu (by omega) ?_
    have hN : (((a.length + b.length : Nat)) : ℝ) = (a.length : ℝ) + b.length := by push_cast; rfl
    rw [abs_of_pos na, abs_of_pos nb, abs_of_nonneg (by positivity), hN]
    rw [hN] at hn
    have X2 : 0 ≤ X ^ 2 := by positivity
    rw [div_le_iff₀ hn, add_comm, ← le_sub_iff_add_le, div_le_iff₀ hn]
    push_cast
    generalize (a.length : ℝ) = A at *
    generalize (b.length : ℝ) = B at *
    have f1 : C * X ^ 2 * A ≤ D * X ^ 2 * A := mul_le_mul_of_nonneg_right (mul_le_mul_of_nonneg_right hCD X2) na.le
    have f2 : X ^ 2 * (A + B) ≤ (D + 1) * X ^ 2 * (A + B) - (C * X ^ 2 * A + D * X ^ 2 * B) := by nlinarith
    have f3 := mul_le_mul_of_nonneg_right f2 hn.le
    have f4 : A * B * ((X + X) * (X + X)) ≤ X ^ 2 * (A + B) * (A + B) := by nlinarith [mul_nonneg X2 (sq_nonneg (A - B))]
    linarith

/-- the sets of values of the ranks -/
theorem flVar_approx {u : ℝ} (hu : 0 ≤ u) (t : RTree (List ℝ)) (hne : ∀ d ∈ t.leaves, d ≠ []) (X : ℝ) (hX : ∀ d ∈ t.leaves, ∀ x ∈ d, |x| ≤ X) (L : Nat)
    (hL : ∀ d ∈ t.leaves, d.length ≤ L) (n : Nat) (m v : ℝ) (h : FlVar u t n m v) :
    t.leaves.flatten ≠ [] ∧ n = t.leaves.flatten.length ∧ Approx u (L + 3 * (t.leaves.length - 1)) m (stats t.leaves.flatten).2.1 X ∧
    Approx u (3 * L + 6 * t.leaves.length - 3) v (stats t.leaves.flatten).2.2 ((t.leaves.length + 3) * X ^ 2) := by
  induction t generalizing n m v with
  | rank d =>
    obtain ⟨rfl, h⟩ := h
    simp only [RTree.leaves, List.mem_singleton, forall_eq] at hne hX hL
    simp only [RTree.leaves, List.flatten_cons, List.flatten_nil, List.append_nil, List.length_singleton]
    obtain ⟨a1, a2⟩ := localStat_approx hu d hne X hX L hL m v h
    refine ⟨hne, trivial, by simpa using a1, a2.mono hu (by omega) (le_of_eq (by norm_num))⟩
  | node l r ihl ihr =>
    obtain ⟨na, ma, va, nb, mb, vb, hl, hr, rfl, h⟩ := h
    simp only [RTree.leaves, List.mem_append] at hne hX hL
    obtain ⟨l0, rfl, l1, l2⟩ := ihl (fun d hd => hne d (Or.inl hd)) (fun d hd => hX d (Or.inl hd)) (fun d hd => hL d (Or.inl hd)) _ _ _ hl
    obtain ⟨r0, rfl, r1, r2⟩ := ihr (fun d hd => hne d (Or.inr hd)) (fun d hd => hX d (Or.inr hd)) (fun d hd => hL d (Or.inr hd)) _ _ _ hr
    have p1 := leaves_pos l
    have p2 := leaves_pos r
    simp only [RTree.leaves, List.flatten_append, List.length_append]
    generalize l.leaves.length = pl at *
    generalize r.leaves.length = pr at *
    have X2 : 0 ≤ X ^ 2 := by positivity
    have b1 := l1.mono hu (k' := L + 3 * (pl + pr - 2)) (by omega) (le_refl _)
    have b2 := r1.mono hu (k' := L + 3 * (pl + pr - 2)) (by omega) (le_refl _)
    have hb : ∀ q : Nat, q + 1 ≤ pl + pr → ((q : ℝ) + 3) * X ^ 2 ≤ (((pl + pr - 1 : Nat) : ℝ) + 3) * X ^ 2 := by
      intro q hq
      refine mul_le_mul_of_nonneg_right ?_ X2
      have : (q : ℝ) ≤ ((pl + pr - 1 : Nat) : ℝ) := by exact_mod_cast (by omega : q ≤ pl + pr - 1)
      linarith
    have b3 := l2.mono hu (k' := 3 * L + 6 * (pl + pr - 1) - 3) (by omega) (hb pl (by omega))
    have b4 := r2.mono hu (k' := 3 * L + 6 * (pl + pr - 1) - 3) (by omega) (hb pr (by omega))
    obtain ⟨f1, f2⟩ := opStat_approx hu _ _ l0 r0 X _ _ _ _ (le_refl _) ma va mb vb b1 b3 b2 b4 m v h (3 * L + 6 * (pl + pr) - 5) (by omega) (by omega)
    refine ⟨by simp [l0], trivial, f1.mono hu (by omega) (le_refl _), f2.mono hu (by omega) (le_of_eq ?_)⟩
    congr 1
    have : ((pl + pr - 1 : Nat) : ℝ) = (pl : ℝ) + pr - 1 := by rw [Nat.cast_sub (by omega)]; push_cast; ring
    rw [this]; push_cast; ring

/-- the variance of a list does not depend on the order -/
theorem stats_perm {a b : List ℝ} (h : a.Perm b) : stats a = stats b := by
  have hs : a.sum = b.sum := h.sum_eq
  simp only [stats, h.length_eq, hs]
  rw [(h.map _).sum_eq]

/-- **C241.** The count, the mean and the variance that `pvar` returns, for every reduction tree over ranks that each hold at most `L` of the values `all` -/
theorem pvar_rounding {u : ℝ} (hu : 0 ≤ u) (t : RTree (List ℝ)) (hne : ∀ d ∈ t.leaves, d ≠ []) (all : List ℝ) (hall : all.Perm t.leaves.flatten) (X : ℝ)
    (hX : ∀ x ∈ all, |x| ≤ X) (L : Nat) (hL : ∀ d ∈ t.leaves, d.length ≤ L) (n : Nat) (m v : ℝ) (h : FlVar u t n m v) :
    n = all.length ∧ |m - (stats all).2.1| ≤ ((1 + u) ^ (L + 3 * t.leaves.length) - 1) * X ∧
    |v - (stats all).2.2| ≤ ((1 + u) ^ (3 * L + 6 * t.leaves.length) - 1) * ((t.leaves.length + 3) * X ^ 2) := by
  obtain ⟨_, h1, h2, h3⟩ := flVar_approx hu t hne X (fun d hd x hx => hX x (hall.mem_iff.2 (List.mem_flatten.2 ⟨d, hd, hx⟩))) L hL n m v h
  rw [stats_perm hall, hall.length_eq]
  exact ⟨h1, (h2.mono hu (by omega) (le_refl _)).1, (h3.mono hu (by omega) (le_refl _)).1⟩

/-- **C241.** On one process (`np.nanvar`) -/
theorem nanvar_rounding {u : ℝ} (hu : 0 ≤ u) (all : List ℝ) (hne : all ≠ []) (X : ℝ) (hX : ∀ x ∈ all, |x| ≤ X) (m v : ℝ) (h : FlLocalStat u all m v) :
    |v - (stats all).2.2| ≤ ((1 + u) ^ (3 * all.length + 3) - 1) * (4 * X ^ 2) :=
  (localStat_approx hu all hne X hX all.length (le_refl _) m v h).2.1

/-! ### The sign -/

theorem rounds_nonneg {u : ℝ} (hu : u ≤ 1) {x y : ℝ} (hx : 0 ≤ x) (h : Rounds u x y) : 0 ≤ y := by
  unfold Rounds at h
  rw [abs_of_nonneg hx] at h
  have := (abs_le.1 h).1
  nlinarith

theorem flTree_nonneg {u : ℝ} (hu : u ≤ 1) (t : RTree ℝ) (h : ∀ x ∈ t.leaves, 0 ≤ x) (z : ℝ) (hz : FlTree u t z) : 0 ≤ z := by
  induction t generalizing z with
  | rank d => simp only [FlTree] at hz; subst hz; exact h z (by simp [RTree.leaves])
  | node l r ihl ihr =>
    obtain ⟨a, b, ha, hb, hz⟩ := hz
    simp only [RTree.leaves, List.mem_append] at h
    exact rounds_nonneg hu (add_nonneg (ihl (fun x hx => h x (Or.inl hx)) a ha) (ihr (fun x hx => h x (Or.inr hx)) b hb)) hz

theorem flSum_nonneg {u : ℝ} (hu : u ≤ 1) (l : List ℝ) (h : ∀ x ∈ l, 0 ≤ x) (z : ℝ) (hz : FlSum u l z) : 0 ≤ z := by
  rcases hz with ⟨_, rfl⟩ | ⟨t, ht, hz⟩
  · exact le_refl _
  · exact flTree_nonneg hu t (fun x hx => h x (ht.mem_iff.1 hx)) z hz

theorem localStat_nonneg {u : ℝ} (hu : u ≤ 1) (data : List ℝ) (m v : ℝ) (h : FlLocalStat u data m v) : 0 ≤ v := by
  obtain ⟨_, d, q, s, _, hq, hs, hv⟩ := h
  refine rounds_nonneg hu (div_nonneg (flSum_nonneg hu q ?_ s hs) (by positivity)) hv
  intro x hx
  obtain ⟨i, hi, rfl⟩ := List.getElem_of_mem hx
  have hl := hq.length_eq
  exact rounds_nonneg hu (mul_self_nonneg _) (List.Forall₂.get hq (by omega) hi)

/-- **C241.** The variance is never negative, whatever the distribution of the values -/
theorem pvar_nonneg {u : ℝ} (hu : u ≤ 1) (t : RTree (List ℝ)) (n : Nat) (m v : ℝ) (h : FlVar u t n m v) : 0 ≤ v := by
  induction t generalizing n m v with
  | rank d => exact localStat_nonneg hu d m v h.2
  | node l r ihl ihr =>
    obtain ⟨na, ma, va, nb, mb, vb, hl, hr, rfl, _, x, y, s, d, q, p, t, g, h', hx, hy, hs, hd, hq, hp, ht, hg, hh, hv⟩ := h
    have va0 := ihl _ _ _ hl
    have vb0 := ihr _ _ _ hr
    have s0 := rounds_nonneg hu (add_nonneg (rounds_nonneg hu (by positivity) hx) (rounds_nonneg hu (by positivity) hy)) hs
    have q0 := rounds_nonneg hu (mul_self_nonneg d) hq
    have p0 := rounds_nonneg hu (by positivity) hp
    have g0 := rounds_nonneg hu (div_nonneg (rounds_nonneg hu (mul_nonneg p0 q0) ht) (by positivity)) hg
    exact rounds_nonneg hu (div_nonneg (rounds_nonneg hu (add_nonneg s0 g0) hh) (by positivity)) hv

/-! ### The weights -/

/-- **C241.** A weight divided by a variance that is accurate to half its size -/
theorem weight_rounding {u : ℝ} (hu : 0 ≤ u) (w var v E z : ℝ) (hw : 0 ≤ w) (hv0 : 0 < var) (hv : |v - var| ≤ E) (hE : 2 * E ≤ var) (hz : FlNormWeight u w v z) :
    |z - w / var| ≤ (u + 2 * (1 + u) * (E / var)) * (w / var) := by
  obtain ⟨g1, g2⟩ := abs_le.1 hv
  have hvp : var / 2 ≤ v := by linarith
  have hv1 : 0 < v := by linarith
  have hE0 : 0 ≤ E := (abs_nonneg _).trans hv
  unfold FlNormWeight Rounds at hz
  rw [abs_of_nonneg (div_nonneg hw hv1.le)] at hz
  have d : |w / v - w / var| ≤ 2 * (E / var) * (w / var) := by
    have e : w / v - w / var = w / var * ((var - v) / v) := by field_simp
    rw [e, abs_mul, abs_of_nonneg (div_nonneg hw hv0.le), mul_comm]
    refine mul_le_mul_of_nonneg_right ?_ (div_nonneg hw hv0.le)
    rw [abs_div, abs_of_pos hv1, abs_sub_comm, div_le_iff₀ hv1]
    have : 2 * (E / var) * (var / 2) = E := by field_simp
    have h2 : 2 * (E / var) * (var / 2) ≤ 2 * (E / var) * v := mul_le_mul_of_nonneg_left hvp (by positivity)
    linarith
  have tri : |z - w / var| ≤ |z - w / v| + |w / v - w / var| := by have := abs_add_le (z - w / v) (w / v - w / var); simpa using this
  have up : w / v ≤ w / var + 2 * (E / var) * (w / var) := by have := (abs_le.1 d).2; linarith
  have := mul_le_mul_of_nonneg_left up hu
  calc |z - w / var| ≤ u * (w / var + 2 * (E / var) * (w / var)) + 2 * (E / var) * (w / var) := by linarith
    _ = (u + 2 * (1 + u) * (E / var)) * (w / var) := by ring

/-- **C241.** The weights of a variable after the normalization: on one process (`np.nanvar`) and on several ranks (`pvar`) they differ by the rounding errors only -/
theorem weights_serial_parallel {u : ℝ} (hu : 0 ≤ u) (t : RTree (List ℝ)) (hne : ∀ d ∈ t.leaves, d ≠ []) (all : List ℝ) (hall : all.Perm t.leaves.flatten) (X : ℝ)
    (hX : ∀ x ∈ all, |x| ≤ X) (n : Nat) (m v m' v' : ℝ) (hp : FlVar u t n m v) (hs : FlLocalStat u all m' v') (E : ℝ)
    (hE : E = ((1 + u) ^ (9 * all.length) - 1) * ((all.length + 3) * X ^ 2)) (hpos : 0 < (stats all).2.2) (hbig : 2 * E ≤ (stats all).2.2) (w z z' : ℝ) (hw : 0 ≤ w)
    (hz : FlNormWeight u w v z) (hz' : FlNormWeight u w v' z') :
    |z - w / (stats all).2.2| ≤ (u + 2 * (1 + u) * (E / (stats all).2.2)) * (w / (stats all).2.2) ∧
    |z - z'| ≤ 2 * (u + 2 * (1 + u) * (E / (stats all).2.2)) * (w / (stats all).2.2) := by
  have hlen : t.leaves.length ≤ all.length := by
    rw [hall.length_eq, List.length_flatten]
    have : ∀ l : List (List ℝ), (∀ d ∈ l, d ≠ []) → l.length ≤ (l.map List.length).sum := by
      intro l
      induction l with
      | nil => simp
      | cons a l ih =>
        intro h
        have h1 := List.length_pos_iff.2 (h a (by simp))
        have h2 := ih (fun d hd => h d (by simp [hd]))
        simp only [List.length_cons, List.map_cons, List.sum_cons]; omega
    exact this _ hne
  have hpp := leaves_pos t
  have hall0 : all ≠ [] := by intro h0; rw [h0, List.length_nil] at hlen; omega
  have hL : ∀ d ∈ t.leaves, d.length ≤ all.length := by
    intro d hd
    rw [hall.length_eq]
    exact (List.sublist_flatten_of_mem hd).length_le
  obtain ⟨_, _, h1⟩ := pvar_rounding hu t hne all hall X hX all.length hL n m v hp
  have h2 := nanvar_rounding hu all hall0 X hX m' v' hs
  have X2 : 0 ≤ X ^ 2 := sq_nonneg X
  have mono : ∀ (k : Nat) (B : ℝ), k ≤ 9 * all.length → 0 ≤ B → B ≤ all.length + 3 → ((1 + u) ^ k - 1) * (B * X ^ 2) ≤ E := by
    intro k B hk hB hB'
    rw [hE]
    have p0 : 1 ≤ (1 + u) ^ k := one_le_pow₀ (by linarith)
    have p1 : (1 + u) ^ k ≤ (1 + u) ^ (9 * all.length) := pow_le_pow_right₀ (by linarith) hk
    exact mul_le_mul (by linarith) (mul_le_mul_of_nonneg_right hB' X2) (mul_nonneg hB X2) (by linarith)
  have hc : (t.leaves.length : ℝ) ≤ all.length := by exact_mod_cast hlen
  have hc1 : (1 : ℝ) ≤ all.length := by exact_mod_cast List.length_pos_iff.2 hall0
  have g1 := h1.trans (mono _ _ (by omega) (by positivity) (by linarith))
  have g2 := h2.trans (mono _ _ (by have := List.length_pos_iff.2 hall0; omega) (by norm_num) (by linarith))
  have r1 := weight_rounding hu w _ v E z hw hpos g1 hbig hz
  have r2 := weight_rounding hu w _ v' E z' hw hpos g2 hbig hz'
  refine ⟨r1, ?_⟩
  have tri : |z - z'| ≤ |z - w / (stats all).2.2| + |z' - w / (stats all).2.2| := by
    have := abs_sub_le z (w / (stats all).2.2) z'
    rwa [abs_sub_comm (w / (stats all).2.2) z'] at this
  linarith

/-! ### In double precision -/

theorem double_rounds {fl : ℝ → ℝ} (h : IsDouble fl) (x : ℝ) : Rounds (1 / 2 ^ 53) x (fl x) := by
  have := h.near x
  unfold Rounds
  calc |fl x - x| ≤ |x| / 2 ^ 53 := this
    _ = _ := by ring

theorem seqSum_flSum {fl : ℝ → ℝ} (h : IsDouble fl) (l : List ℝ) : FlSum (1 / 2 ^ 53) l (seqSum fl l) := by
  cases l with
  | nil => exact Or.inl ⟨rfl, rfl⟩
  | cons x xs =>
    right
    have key : ∀ (xs : List ℝ) (t : RTree ℝ) (a : ℝ), FlTree (1 / 2 ^ 53) t a → ∃ t' : RTree ℝ, t'.leaves = t.leaves ++ xs ∧ FlTree (1 / 2 ^ 53) t' (xs.foldl (fun a y => fl (a + y)) a) := by
      intro xs
      induction xs with
      | nil => intro t a ha; exact ⟨t, by simp, ha⟩
      | cons y ys ih =>
        intro t a ha
        obtain ⟨t', h1, h2⟩ := ih (.node t (.rank y)) (fl (a + y)) ⟨a, y, ha, rfl, double_rounds h _⟩
        exact ⟨t', by rw [h1]; simp [RTree.leaves], h2⟩
    obtain ⟨t', h1, h2⟩ := key xs (.rank x) x rfl
    exact ⟨t', by rw [h1]; exact List.Perm.refl _, h2⟩

/-- **C241.** The doubles computed one after the other are among the possible results of the relation -/
theorem seqStat_possible {fl : ℝ → ℝ} (h : IsDouble fl) (data : List ℝ) : FlLocalStat (1 / 2 ^ 53) data (seqStat fl data).1 (seqStat fl data).2 := by
  refine ⟨⟨_, seqSum_flSum h data, double_rounds h _⟩, data.map fun x => fl (x - (seqStat fl data).1),
    (data.map fun x => fl (x - (seqStat fl data).1)).map fun y => fl (y * y), _, ?_, ?_, seqSum_flSum h _, ?_⟩
  · rw [List.forall₂_map_right_iff]; exact List.forall₂_same.2 fun x _ => double_rounds h _
  · rw [List.forall₂_map_right_iff]; exact List.forall₂_same.2 fun x _ => double_rounds h _
  · exact double_rounds h _

/-- a value of the rounding to nearest, halfway cases included -/
theorem rn_value_tie (x : ℝ) (e m : ℤ) (h1 : (2 : ℝ) ^ e ≤ x) (h2 : x < 2 ^ (e + 1)) (h3 : -(1 / 2) ≤ x * 2 ^ (52 - e) - m) (h4 : x * 2 ^ (52 - e) - m < 1 / 2) :
    rn x = m * 2 ^ (e - 52) := by
  have hx : 0 < x := (two_zpow_pos e).trans_le h1
  have hlog : Int.log 2 x = e := by
    apply le_antisymm
    · have h4 := log_le hx
      by_contra hc
      have : (2 : ℝ) ^ (e + 1) ≤ 2 ^ Int.log 2 x := zpow_le_zpow_right₀ (by norm_num) (by omega)
      linarith
    · have h4 := lt_log (x := x)
      by_contra hc
      have : (2 : ℝ) ^ (Int.log 2 x + 1) ≤ 2 ^ e := zpow_le_zpow_right₀ (by norm_num) (by omega)
      linarith
  have hr : round (x * (2 : ℝ) ^ (52 - e)) = m := by
    rw [round_eq, Int.floor_eq_iff]
    constructor <;> linarith
  unfold rn rnPos
  rw [if_pos hx, hlog, hr]

/-- **C241.** A variable that is 0.1 everywhere: its variance is zero, the computed variance of three values is not, and the normalized weights exceed 10^33 -/
theorem constant_variance_positive : ∃ x : ℝ, x = rn (1 / 10) ∧ (stats [x, x, x]).2.2 = 0 ∧ 0 < (seqStat rn [x, x, x]).2 ∧ (seqStat rn [x, x, x]).2 < 1 / 10 ^ 33 := by
  have e1 : rn (1 / 10) = (7205759403792794 : ℤ) * (2 : ℝ) ^ ((-4 : ℤ) - 52) := rn_value _ (-4) _ (by norm_num) (by norm_num) (by rw [abs_lt]; norm_num)
  refine ⟨_, rfl, ?_, ?_⟩
  · simp only [stats, List.sum_cons, List.sum_nil, List.length_cons, List.length_nil, List.map_cons, List.map_nil]; push_cast; ring
  · have e2 : rn ((7205759403792794 : ℤ) * (2 : ℝ) ^ ((-4 : ℤ) - 52) + (7205759403792794 : ℤ) * (2 : ℝ) ^ ((-4 : ℤ) - 52)) = (7205759403792794 : ℤ) * (2 : ℝ) ^ ((-3 : ℤ) - 52) :=
      rn_value _ (-3) _ (by norm_num) (by norm_num) (by rw [abs_lt]; norm_num)
    have e3 : rn ((7205759403792794 : ℤ) * (2 : ℝ) ^ ((-3 : ℤ) - 52) + (7205759403792794 : ℤ) * (2 : ℝ) ^ ((-4 : ℤ) - 52)) = (5404319552844596 : ℤ) * (2 : ℝ) ^ ((-2 : ℤ) - 52) :=
      rn_value_tie _ (-2) _ (by norm_num) (by norm_num) (by norm_num) (by norm_num)
    have e4 : rn ((5404319552844596 : ℤ) * (2 : ℝ) ^ ((-2 : ℤ) - 52) / (3 : ℕ)) = (7205759403792795 : ℤ) * (2 : ℝ) ^ ((-4 : ℤ) - 52) :=
      rn_value _ (-4) _ (by norm_num) (by norm_num) (by rw [abs_lt]; norm_num)
    have e5 : rn ((7205759403792794 : ℤ) * (2 : ℝ) ^ ((-4 : ℤ) - 52) - (7205759403792795 : ℤ) * (2 : ℝ) ^ ((-4 : ℤ) - 52)) = (-1 : ℤ) * (2 : ℝ) ^ (-56 : ℤ) := by
      rw [← rn_double.fixed (-1) (-56) (by norm_num)]; congr 1; norm_num
    have e6 : rn ((-1 : ℤ) * (2 : ℝ) ^ (-56 : ℤ) * ((-1 : ℤ) * (2 : ℝ) ^ (-56 : ℤ))) = (1 : ℤ) * (2 : ℝ) ^ (-112 : ℤ) := by
      rw [← rn_double.fixed 1 (-112) (by norm_num)]; congr 1; norm_num
    have e7 : rn ((1 : ℤ) * (2 : ℝ) ^ (-112 : ℤ) + (1 : ℤ) * (2 : ℝ) ^ (-112 : ℤ)) = (2 : ℤ) * (2 : ℝ) ^ (-112 : ℤ) := by
      rw [← rn_double.fixed 2 (-112) (by norm_num)]; congr 1; norm_num
    have e8 : rn ((2 : ℤ) * (2 : ℝ) ^ (-112 : ℤ) + (1 : ℤ) * (2 : ℝ) ^ (-112 : ℤ)) = (3 : ℤ) * (2 : ℝ) ^ (-112 : ℤ) := by
      rw [← rn_double.fixed 3 (-112) (by norm_num)]; congr 1; norm_num
    have e9 : rn ((3 : ℤ) * (2 : ℝ) ^ (-112 : ℤ) / (3 : ℕ)) = (1 : ℤ) * (2 : ℝ) ^ (-112 : ℤ) := by
      rw [← rn_double.fixed 1 (-112) (by norm_num)]; congr 1; norm_num
    have em : (seqStat rn [rn (1 / 10), rn (1 / 10), rn (1 / 10)]).2 = (1 : ℤ) * (2 : ℝ) ^ (-112 : ℤ) := by
      unfold seqStat
      simp only [seqSum, List.foldl_cons, List.foldl_nil, List.map_cons, List.map_nil, List.length_cons, List.length_nil, Nat.reduceAdd, zero_add]
      rw [e1, e2, e3, e4, e5, e6, e7, e8, e9]
    rw [em]
    constructor <;> norm_num

/-- non-vacuity: two ranks with small whole numbers -/
example : FlVar (1 / 2 ^ 53) (.node (.rank [1, 3]) (.rank [4])) 3 (8 / 3) (14 / 9) := by
  have hr : ∀ x : ℝ, Rounds (1 / 2 ^ 53) x x := fun x => by unfold Rounds; rw [sub_self, abs_zero]; positivity
  refine ⟨2, 2, 1, 1, 4, 0, ⟨rfl, ?_, ?_⟩, ⟨rfl, ?_, ?_⟩, rfl, ⟨4, 4, 8, ?_, ?_, ?_, ?_⟩, 2, 0, 2, -2, 4, 2, 8, 8 / 3, 14 / 3, ?_⟩
  · exact ⟨4, Or.inr ⟨.node (.rank 1) (.rank 3), List.Perm.refl _, 1, 3, rfl, rfl, by convert hr 4 using 1; norm_num⟩, by convert hr 2 using 1; norm_num⟩
  · refine ⟨[-1, 1], [1, 1], 2, ?_, ?_, Or.inr ⟨.node (.rank 1) (.rank 1), List.Perm.refl _, 1, 1, rfl, rfl, by convert hr 2 using 1; norm_num⟩, by convert hr 1 using 1; norm_num⟩
    · refine .cons ?_ (.cons ?_ .nil)
      · convert hr (-1) using 1; norm_num
      · convert hr 1 using 1; norm_num
    · refine .cons ?_ (.cons ?_ .nil) <;> (convert hr 1 using 1; norm_num)
  · exact ⟨4, Or.inr ⟨.rank 4, List.Perm.refl _, rfl⟩, by convert hr 4 using 1; norm_num⟩
  · refine ⟨[0], [0], 0, .cons ?_ .nil, .cons ?_ .nil, Or.inr ⟨.rank 0, List.Perm.refl _, rfl⟩, ?_⟩ <;> (convert hr 0 using 1; norm_num)
  · convert hr 4 using 1; norm_num
  · convert hr 4 using 1; norm_num
  · convert hr 8 using 1; norm_num
  · convert hr (8 / 3) using 1; norm_num
  · refine ⟨?_, ?_, ?_, ?_, ?_, ?_, ?_, ?_, ?_, ?_⟩
    · convert hr 2 using 1; norm_num
    · convert hr 0 using 1; norm_num
    · convert hr 2 using 1; norm_num
    · convert hr (-2) using 1; norm_num
    · convert hr 4 using 1; norm_num
    · convert hr 2 using 1; norm_num
    · convert hr 8 using 1; norm_num
    · convert hr (8 / 3) using 1; norm_num
    · convert hr (14 / 3) using 1; norm_num
    · convert hr (14 / 9) using 1; norm_num

/-- the variance in that example -/
example : (stats ([1, 3, 4] : List ℝ)).2.2 = 14 / 9 := by simp [stats]; norm_num

end Verif.Props
