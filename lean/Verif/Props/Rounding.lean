import Verif.Model.Rounding
import Verif.Props.Reduce
import Verif.Props.Perturb
import Verif.Model.Project
/-
  C231: floating-point arithmetic in the matrix of a fit.
-/
namespace Verif.Props
open Verif Verif.Par Verif.Round Verif.Fit Verif.Spod Finset
open scoped Matrix
open scoped ComplexConjugate

/-! ### Sums in any order -/

/-- `y` approximates `e`, a number of size at most `B`, after at most `k` roundings one after the other -/
def Approx (u : ℝ) (k : Nat) (y e B : ℝ) : Prop := |y - e| ≤ ((1 + u) ^ k - 1) * B ∧ |e| ≤ B

theorem Approx.nonneg {u k y e B} (h : Approx u k y e B) : 0 ≤ B := (abs_nonneg _).trans h.2

theorem Approx.size {u : ℝ} {k y e B} (h : Approx u k y e B) : |y| ≤ (1 + u) ^ k * B := by
  have h1 : |y| ≤ |y - e| + |e| := by have := abs_add_le (y - e) e; simpa using this
  have := h.1; have := h.2
  nlinarith

theorem Approx.exact {u : ℝ} (e : ℝ) : Approx u 0 e e |e| := ⟨by simp, le_refl _⟩

theorem Approx.mono {u : ℝ} (hu : 0 ≤ u) {k k' y e B B'} (hk : k ≤ k') (hB : B ≤ B') (h : Approx u k y e B) : Approx u k' y e B' := by
  have h1 : (1 + u) ^ k ≤ (1 + u) ^ k' := pow_le_pow_right₀ (by linarith) hk
  have h0 : 1 ≤ (1 + u) ^ k := one_le_pow₀ (by linarith)
  refine ⟨h.1.trans ?_, h.2.trans hB⟩
  have := h.nonneg
  nlinarith

/-- one rounded operation more: a product with an exact number -/
theorem Approx.mul {u : ℝ} (hu : 0 ≤ u) {k y e B} (c : ℝ) {z} (h : Approx u k y e B) (hz : Rounds u (y * c) z) : Approx u (k + 1) z (e * c) (B * |c|) := by
  have h1 := h.size
  have h2 := h.1
  unfold Rounds at hz
  rw [abs_mul] at hz
  have h3 : |y * c - e * c| = |y - e| * |c| := by rw [← sub_mul, abs_mul]
  have h4 : |z - e * c| ≤ |z - y * c| + |y * c - e * c| := by have := abs_add_le (z - y * c) (y * c - e * c); simpa using this
  have hc := abs_nonneg c
  refine ⟨?_, by rw [abs_mul]; exact mul_le_mul_of_nonneg_right h.2 hc⟩
  calc |z - e * c| ≤ u * (|y| * |c|) + |y - e| * |c| := by rw [h3] at h4; linarith
    _ ≤ u * ((1 + u) ^ k * B * |c|) + ((1 + u) ^ k - 1) * B * |c| := by
      refine add_le_add (mul_le_mul_of_nonneg_left (mul_le_mul_of_nonneg_right h1 hc) hu) (mul_le_mul_of_nonneg_right h2 hc)
    _ = ((1 + u) ^ (k + 1) - 1) * (B * |c|) := by ring

/-- one rounded addition more -/
theorem Approx.add {u : ℝ} (hu : 0 ≤ u) {k y e B y' e' B'} {z} (h : Approx u k y e B) (h' : Approx u k y' e' B') (hz : Rounds u (y + y') z) :
    Approx u (k + 1) z (e + e') (B + B') := by
  have h1 := h.size
  have h1' := h'.size
  have h2 := h.1
  have h2' := h'.1
  unfold Rounds at hz
  have ha := abs_add_le y y'
  have h4 : |z - (e + e')| ≤ |z - (y + y')| + |y - e| + |y' - e'| := by
    have e1 : z - (e + e') = (z - (y + y')) + (y - e) + (y' - e') := by ring
    rw [e1]; exact abs_add_three _ _ _
  refine ⟨?_, (abs_add_le _ _).trans (add_le_add h.2 h'.2)⟩
  have h5 : u * |y + y'| ≤ u * ((1 + u) ^ k * B + (1 + u) ^ k * B') := mul_le_mul_of_nonneg_left (by linarith) hu
  calc |z - (e + e')| ≤ u * ((1 + u) ^ k * B + (1 + u) ^ k * B') + ((1 + u) ^ k - 1) * B + ((1 + u) ^ k - 1) * B' := by linarith
    _ = ((1 + u) ^ (k + 1) - 1) * (B + B') := by ring

theorem leaves_pos {D} (t : RTree D) : 0 < t.leaves.length := by
  induction t with
  | rank d => simp [RTree.leaves]
  | node l r ihl ihr => simp only [RTree.leaves, List.length_append]; omega

/-- a sum along a tree: the leaves `(y, e, B)` with computed values `y`, exact values `e` and bounds `B` -/
theorem tree_approx {u : ℝ} (hu : 0 ≤ u) (k : Nat) (t : RTree ℝ) (l : List (ℝ × ℝ × ℝ)) (hl : t.leaves = l.map (·.1))
    (h : ∀ a ∈ l, Approx u k a.1 a.2.1 a.2.2) (z : ℝ) (hz : FlTree u t z) :
    Approx u (k + l.length - 1) z (l.map (·.2.1)).sum (l.map (·.2.2)).sum := by
  induction t generalizing l z with
  | rank d =>
    match l, hl with
    | [a], hl =>
      simp only [RTree.leaves, List.map_cons, List.map_nil, List.cons.injEq, and_true] at hl
      subst hl
      simp only [FlTree] at hz
      subst hz
      simpa using h a (by simp)
  | node tl tr ihl ihr =>
    obtain ⟨x, y, hx, hy, hxy⟩ := hz
    simp only [RTree.leaves] at hl
    obtain ⟨l1, l2, rfl, h1, h2⟩ := List.append_eq_map_iff.1 hl
    have a1 := ihl l1 h1.symm (fun a ha => h a (by simp [ha])) x hx
    have a2 := ihr l2 h2.symm (fun a ha => h a (by simp [ha])) y hy
    have p1 : 0 < l1.length := by have := leaves_pos tl; rw [← h1, List.length_map] at this; exact this
    have p2 : 0 < l2.length := by have := leaves_pos tr; rw [← h2, List.length_map] at this; exact this
    have b1 := a1.mono hu (k' := k + (l1 ++ l2).length - 2) (by simp only [List.length_append]; omega) (le_refl _)
    have b2 := a2.mono hu (k' := k + (l1 ++ l2).length - 2) (by simp only [List.length_append]; omega) (le_refl _)
    have := b1.add hu b2 hxy
    rw [List.map_append, List.map_append, List.sum_append, List.sum_append]
    refine this.mono hu ?_ (le_refl _)
    simp only [List.length_append]; omega

theorem perm_map_lift {α β} (f : α → β) {m n : List β} (h : m.Perm n) : ∀ l : List α, l.map f = n → ∃ l' : List α, l'.Perm l ∧ l'.map f = m := by
  induction h with
  | nil => intro l hl; exact ⟨l, List.Perm.refl _, hl⟩
  | cons x _ ih =>
    intro l hl
    match l, hl with
    | a :: l, hl =>
      simp only [List.map_cons, List.cons.injEq] at hl
      obtain ⟨l', h1, h2⟩ := ih l hl.2
      exact ⟨a :: l', h1.cons a, by simp [hl.1, h2]⟩
  | swap x y l0 =>
    intro l hl
    match l, hl with
    | a :: b :: l, hl =>
      simp only [List.map_cons, List.cons.injEq] at hl
      exact ⟨b :: a :: l, List.Perm.swap a b l, by simp [hl.1, hl.2.1, hl.2.2]⟩
  | trans _ _ ih1 ih2 =>
    intro l hl
    obtain ⟨l2, h1, h2⟩ := ih2 l hl
    obtain ⟨l3, h3, h4⟩ := ih1 l2 h2
    exact ⟨l3, h3.trans h1, h4⟩

/-- a sum in any order of at most `m` numbers -/
theorem sum_approx {u : ℝ} (hu : 0 ≤ u) (k m : Nat) (l : List (ℝ × ℝ × ℝ)) (hm : l.length ≤ m)
    (h : ∀ a ∈ l, Approx u k a.1 a.2.1 a.2.2) (z : ℝ) (hz : FlSum u (l.map (·.1)) z) :
    Approx u (k + m - 1) z (l.map (·.2.1)).sum (l.map (·.2.2)).sum := by
  rcases hz with ⟨h0, rfl⟩ | ⟨t, ht, hz⟩
  · rw [List.map_eq_nil_iff] at h0
    subst h0
    exact ⟨by simp, by simp⟩
  · obtain ⟨l', h1, h2⟩ := perm_map_lift (·.1) ht l rfl
    have := tree_approx hu k t l' h2.symm (fun a ha => h a (h1.mem_iff.1 ha)) z hz
    rw [(h1.map _).sum_eq, (h1.map _).sum_eq] at this
    refine this.mono hu ?_ (le_refl _)
    rw [h1.length_eq]; omega


/-- a sum in any order of products of exact numbers `a` with numbers `v` that approximate `e` -/
theorem dot_approx {u : ℝ} (hu : 0 ≤ u) (m : Nat) (qs : List (ℝ × ℝ × ℝ)) (hm : qs.length ≤ m) (h : ∀ q ∈ qs, Approx u 1 q.2.1 q.2.2 |q.2.2|)
    (z : ℝ) (hz : FlDot u (qs.map fun q => (q.1, q.2.1)) z) :
    Approx u (m + 1) z (qs.map fun q => q.1 * q.2.2).sum (qs.map fun q => |q.1| * |q.2.2|).sum := by
  obtain ⟨ys, hys, hz⟩ := hz
  have key : ∃ l : List (ℝ × ℝ × ℝ), l.map (·.1) = ys ∧ l.map (·.2.1) = (qs.map fun q => q.1 * q.2.2) ∧
      l.map (·.2.2) = (qs.map fun q => |q.1| * |q.2.2|) ∧ ∀ a ∈ l, Approx u 2 a.1 a.2.1 a.2.2 := by
    clear hz hm
    induction qs generalizing ys with
    | nil =>
      simp only [List.map_nil, List.forall₂_nil_left_iff] at hys
      subst hys
      exact ⟨[], rfl, rfl, rfl, by simp⟩
    | cons q qs ih =>
      rw [List.map_cons, List.forall₂_cons_left_iff] at hys
      obtain ⟨y, ys', hy, hys', rfl⟩ := hys
      obtain ⟨l, h1, h2, h3, h4⟩ := ih (fun q hq => h q (by simp [hq])) ys' hys'
      have hq := (h q (by simp)).mul hu q.1 (z := y) (by rw [mul_comm]; exact hy)
      rw [mul_comm _ q.1, mul_comm _ |q.1|] at hq
      refine ⟨(y, q.1 * q.2.2, |q.1| * |q.2.2|) :: l, by simp [h1], by simp [h2], by simp [h3], ?_⟩
      intro a ha
      rcases List.mem_cons.1 ha with rfl | ha
      · exact hq
      · exact h4 a ha
  obtain ⟨l, h1, h2, h3, h4⟩ := key
  subst h1
  have hl : l.length = qs.length := by have := congrArg List.length h2; simpa using this
  have := sum_approx hu 2 m l (by omega) h4 z hz
  rw [h2, h3] at this
  exact this.mono hu (by omega) (le_refl _)

theorem flatMap_two_sum {α} (l : List α) (f g : α → ℝ) : (l.flatMap fun k => [f k, g k]).sum = (l.map fun k => f k + g k).sum := by
  induction l with
  | nil => rfl
  | cons a l ih => simp only [List.flatMap_cons, List.cons_append, List.nil_append, List.sum_cons, List.map_cons, ih]; ring

theorem list_range_sum (n : Nat) (f : Nat → ℝ) : ((List.range n).map f).sum = ∑ k ∈ range n, f k := by
  induction n with
  | zero => rfl
  | succ n ih => rw [List.range_succ, List.map_append, List.sum_append, ih, Finset.sum_range_succ]; simp

/-! ### The matrix of a fit -/

/-- the weights as the complex array that enters the product -/
def complexArr (w : Arr ℝ) : Arr ℂ := ⟨w.shape, fun idx => ((w.at' idx : ℝ) : ℂ)⟩

/-- the moduli of a complex array -/
noncomputable def normArr (q : Arr ℂ) : Arr ℝ := ⟨q.shape, fun idx => ‖q.at' idx‖⟩

theorem cs_two (a b c d : ℝ) : |a| * |b| + |c| * |d| ≤ Real.sqrt (a ^ 2 + c ^ 2) * Real.sqrt (b ^ 2 + d ^ 2) := by
  rw [← Real.sqrt_mul (by positivity)]
  refine Real.le_sqrt_of_sq_le ?_
  have h : (|a| * |d| - |c| * |b|) ^ 2 ≥ 0 := sq_nonneg _
  have ha := sq_abs a
  have hb := sq_abs b
  have hc := sq_abs c
  have hd := sq_abs d
  rw [← ha, ← hb, ← hc, ← hd]
  nlinarith

theorem complex_norm_sqrt (z : ℂ) : ‖z‖ = Real.sqrt (z.re ^ 2 + z.im ^ 2) := by
  rw [Complex.norm_def, Complex.normSq_apply]; congr 1; ring

theorem local_approx {u : ℝ} (hu : 0 ≤ u) (Q : Nat → Arr ℂ) (w : Arr ℝ) (hw : ∀ idx, InRange w.shape idx → 0 ≤ w.at' idx) (nb : ℝ) (hnb : 0 < nb) (m : Nat)
    (hm : size w.shape ≤ m) (i j : Nat) (z : ℂ) (hz : FlLocal u Q w nb i j z) :
    Approx u (2 * m + 2) z.re (localGram Q (complexArr w) nb i j).re (localGram (fun b => normArr (Q b)) w nb i j) ∧
    Approx u (2 * m + 2) z.im (localGram Q (complexArr w) nb i j).im (localGram (fun b => normArr (Q b)) w nb i j) := by
  obtain ⟨v, s, hv, hre, him, zre, zim⟩ := hz
  set n := size w.shape with hn
  set a : Nat → ℂ := fun k => (Q i).at' (unravel w.shape k) with ha
  set b : Nat → ℂ := fun k => (Q j).at' (unravel w.shape k) with hb
  set ww : Nat → ℝ := fun k => w.at' (unravel w.shape k) with hww
  have hwk : ∀ k < n, 0 ≤ ww k := fun k hk => hw _ (inRange_unravel hk)
  have hround : ∀ x y, Rounds u x y → Approx u 1 y x |x| := by
    intro x y h
    refine ⟨?_, le_refl _⟩
    unfold Rounds at h
    calc |y - x| ≤ u * |x| := h
      _ = ((1 + u) ^ 1 - 1) * |x| := by ring
  -- exact values
  have eS : localGram Q (complexArr w) nb i j = (∑ k ∈ range n, conj (a k) * (b k * (ww k : ℂ))) / (nb : ℂ) := rfl
  have eB : localGram (fun b => normArr (Q b)) w nb i j = (∑ k ∈ range n, ‖a k‖ * (‖b k‖ * ww k)) / nb := rfl
  have ere : (localGram Q (complexArr w) nb i j).re = (∑ k ∈ range n, ((a k).re * ((b k).re * ww k) + (a k).im * ((b k).im * ww k))) * nb⁻¹ := by
    rw [eS, Complex.div_ofReal_re, Complex.re_sum, div_eq_mul_inv]
    congr 1
    refine Finset.sum_congr rfl fun k _ => ?_
    simp [Complex.mul_re, Complex.mul_im]
  have eim : (localGram Q (complexArr w) nb i j).im = (∑ k ∈ range n, ((a k).re * ((b k).im * ww k) + -(a k).im * ((b k).re * ww k))) * nb⁻¹ := by
    rw [eS, Complex.div_ofReal_im, Complex.im_sum, div_eq_mul_inv]
    congr 1
    refine Finset.sum_congr rfl fun k _ => ?_
    simp [Complex.mul_re, Complex.mul_im]
  have hinv : 0 ≤ nb⁻¹ := inv_nonneg.2 hnb.le
  constructor
  · set qs : List (ℝ × ℝ × ℝ) := (List.range n).flatMap fun k => [((a k).re, (v k).re, (b k).re * ww k), ((a k).im, (v k).im, (b k).im * ww k)] with hqs
    have e1 : dotRe a v n = qs.map fun q => (q.1, q.2.1) := by
      rw [hqs, List.map_flatMap]; rfl
    have hlen : qs.length ≤ 2 * m := by
      have : qs.length = n * 2 := by rw [hqs, List.length_flatMap]; simp
      omega
    have hq : ∀ q ∈ qs, Approx u 1 q.2.1 q.2.2 |q.2.2| := by
      intro q hq
      rw [hqs, List.mem_flatMap] at hq
      obtain ⟨k, hk, hq⟩ := hq
      have hk := List.mem_range.1 hk
      simp only [List.mem_cons, List.not_mem_nil, or_false] at hq
      rcases hq with rfl | rfl
      · exact hround _ _ (hv k hk).1
      · exact hround _ _ (hv k hk).2
    rw [e1] at hre
    have h1 := dot_approx hu (2 * m) qs hlen hq s.re hre
    rw [div_eq_mul_inv] at zre
    have h2 := h1.mul hu nb⁻¹ zre
    rw [ere]
    have s1 : (qs.map fun q => q.1 * q.2.2).sum = ∑ k ∈ range n, ((a k).re * ((b k).re * ww k) + (a k).im * ((b k).im * ww k)) := by
      rw [hqs, List.map_flatMap, ← list_range_sum, ← flatMap_two_sum]; rfl
    have s2 : (qs.map fun q => |q.1| * |q.2.2|).sum = ∑ k ∈ range n, (|(a k).re| * |(b k).re * ww k| + |(a k).im| * |(b k).im * ww k|) := by
      rw [hqs, List.map_flatMap, ← list_range_sum, ← flatMap_two_sum]; rfl
    rw [s1, s2] at h2
    refine h2.mono hu (by omega) ?_
    rw [eB, div_eq_mul_inv, abs_of_nonneg hinv]
    refine mul_le_mul_of_nonneg_right (Finset.sum_le_sum fun k hk => ?_) hinv
    have hk := hwk k (Finset.mem_range.1 hk)
    rw [abs_mul, abs_mul, abs_of_nonneg hk, complex_norm_sqrt (a k), complex_norm_sqrt (b k)]
    have := cs_two (a k).re (b k).re (a k).im (b k).im
    nlinarith
  · set qs : List (ℝ × ℝ × ℝ) := (List.range n).flatMap fun k => [((a k).re, (v k).im, (b k).im * ww k), (-(a k).im, (v k).re, (b k).re * ww k)] with hqs
    have e1 : dotIm a v n = qs.map fun q => (q.1, q.2.1) := by
      rw [hqs, List.map_flatMap]; rfl
    have hlen : qs.length ≤ 2 * m := by
      have : qs.length = n * 2 := by rw [hqs, List.length_flatMap]; simp
      omega
    have hq : ∀ q ∈ qs, Approx u 1 q.2.1 q.2.2 |q.2.2| := by
      intro q hq
      rw [hqs, List.mem_flatMap] at hq
      obtain ⟨k, hk, hq⟩ := hq
      have hk := List.mem_range.1 hk
      simp only [List.mem_cons, List.not_mem_nil, or_false] at hq
      rcases hq with rfl | rfl
      · exact hround _ _ (hv k hk).2
      · exact hround _ _ (hv k hk).1
    rw [e1] at him
    have h1 := dot_approx hu (2 * m) qs hlen hq s.im him
    rw [div_eq_mul_inv] at zim
    have h2 := h1.mul hu nb⁻¹ zim
    rw [eim]
    have s1 : (qs.map fun q => q.1 * q.2.2).sum = ∑ k ∈ range n, ((a k).re * ((b k).im * ww k) + -(a k).im * ((b k).re * ww k)) := by
      rw [hqs, List.map_flatMap, ← list_range_sum, ← flatMap_two_sum]; rfl
    have s2 : (qs.map fun q => |q.1| * |q.2.2|).sum = ∑ k ∈ range n, (|(a k).re| * |(b k).im * ww k| + |-(a k).im| * |(b k).re * ww k|) := by
      rw [hqs, List.map_flatMap, ← list_range_sum, ← flatMap_two_sum]; rfl
    rw [s1, s2] at h2
    refine h2.mono hu (by omega) ?_
    rw [eB, div_eq_mul_inv, abs_of_nonneg hinv]
    refine mul_le_mul_of_nonneg_right (Finset.sum_le_sum fun k hk => ?_) hinv
    have hk := hwk k (Finset.mem_range.1 hk)
    rw [abs_mul, abs_mul, abs_of_nonneg hk, abs_neg, complex_norm_sqrt (a k), complex_norm_sqrt (b k)]
    have := cs_two (a k).re (b k).im (a k).im (b k).re
    rw [add_comm ((b k).re ^ 2)]
    nlinarith

/-- the processes of a run: one, or `p` ranks -/
def Procs (comms : List Comm) : Prop := comms = [none] ∨ ∃ p, 0 < p ∧ comms = Proj.ranksOf p

theorem slab_nonneg (w : Arr ℝ) (hw : ∀ idx, InRange w.shape idx → 0 ≤ w.at' idx) (ax : Nat) (hax : ax < w.shape.length) (comm : Comm) (idx : List Nat)
    (h : InRange (distributeDimension w ax comm).shape idx) : 0 ≤ (distributeDimension w ax comm).at' idx := by
  match comm with
  | none => exact hw idx h
  | some (p, r) =>
    simp only [distributeDimension, Arr.slice] at h ⊢
    refine hw _ ?_
    set n := (blockdist (ext w.shape ax) p r).1
    set s := (blockdist (ext w.shape ax) p r).2
    obtain ⟨h1, h2⟩ := inRange_iff.1 h
    rw [List.length_set] at h1 h2
    refine inRange_iff.2 ⟨by rw [List.length_set]; exact h1, fun a ha => ?_⟩
    have h3 := h2 a ha
    by_cases e : a = ax
    · subst e
      have e1 : (idx.set a (idx.getD a 0 + s)).getD a 0 = idx.getD a 0 + s := by
        simp [List.getD_eq_getElem?_getD, h1 ▸ ha]
      have e2 : ext (w.shape.set a (min (s + n) (ext w.shape a) - s)) a = min (s + n) (ext w.shape a) - s := by
        simp [ext, List.getD_eq_getElem?_getD, ha]
      rw [e1]; rw [e2] at h3
      omega
    · have e1 : (idx.set ax (idx.getD ax 0 + s)).getD a 0 = idx.getD a 0 := by
        simp [List.getD_eq_getElem?_getD, List.getElem?_set_ne (Ne.symm e)]
      have e2 : ext (w.shape.set ax (min (s + n) (ext w.shape ax) - s)) a = ext w.shape a := by
        simp [ext, List.getD_eq_getElem?_getD, List.getElem?_set_ne (Ne.symm e)]
      rw [e1]; rw [e2] at h3
      exact h3

/-- sums over the slabs of the ranks are sums over the grid -/
theorem gram_procs {K} [Field K] [Star K] (comms : List Comm) (hc : Procs comms) (ax : Nat) (Q : Nat → Arr K) (w : Arr K) (nb : K)
    (hax : ax < w.shape.length) (hQ : ∀ b, (Q b).shape = w.shape) (i j : Nat) :
    (comms.map fun comm => localGram (fun b => distributeDimension (Q b) ax comm) (distributeDimension w ax comm) nb i j).sum = gramSpec Q w nb i j := by
  rcases hc with rfl | ⟨p, hp, rfl⟩
  · simp only [List.map_cons, List.map_nil, List.sum_cons, List.sum_nil, add_zero, distributeDimension, localGram, gramSpec]
    rw [sum_unravel w.shape (fun idx => star ((Q i).at' idx) * ((Q j).at' idx * w.at' idx))]
  · rw [← gram_rank_independent p ax Q w nb hp hax hQ i j]
    unfold gram
    rw [foldr_add_eq_sum, Proj.ranksOf, List.map_map]
    rfl

theorem complexArr_slab (w : Arr ℝ) (ax : Nat) (comm : Comm) : complexArr (distributeDimension w ax comm) = distributeDimension (complexArr w) ax comm := by
  match comm with
  | none => rfl
  | some (p, r) => rfl

theorem normArr_slab (w : Arr ℂ) (ax : Nat) (comm : Comm) : normArr (distributeDimension w ax comm) = distributeDimension (normArr w) ax comm := by
  match comm with
  | none => rfl
  | some (p, r) => rfl

theorem gram_approx {u : ℝ} (hu : 0 ≤ u) (comms : List Comm) (hc : Procs comms) (ax : Nat) (Q : Nat → Arr ℂ) (w : Arr ℝ) (nb : ℝ) (hnb : 0 < nb)
    (hw : ∀ idx, InRange w.shape idx → 0 ≤ w.at' idx) (hax : ax < w.shape.length) (hQ : ∀ b, (Q b).shape = w.shape) (m : Nat)
    (hm : ∀ comm ∈ comms, size (distributeDimension w ax comm).shape ≤ m) (i j : Nat) (z : ℂ) (hz : FlGram u comms ax Q w nb i j z) :
    ‖z - gramSpec Q (complexArr w) nb i j‖ ≤
      Real.sqrt 2 * (((1 + u) ^ (2 * m + comms.length + 1) - 1) * gramSpec (fun b => normArr (Q b)) w nb i j) := by
  obtain ⟨ls, hls, hre, him⟩ := hz
  have key : ∃ l : List (ℂ × ℂ × ℝ), l.map (·.1) = ls ∧
      l.map (·.2.1) = (comms.map fun comm => localGram (fun b => distributeDimension (Q b) ax comm) (distributeDimension (complexArr w) ax comm) nb i j) ∧
      l.map (·.2.2) = (comms.map fun comm => localGram (fun b => distributeDimension (normArr (Q b)) ax comm) (distributeDimension w ax comm) nb i j) ∧
      ∀ a ∈ l, Approx u (2 * m + 2) a.1.re a.2.1.re a.2.2 ∧ Approx u (2 * m + 2) a.1.im a.2.1.im a.2.2 := by
    clear hre him hc
    induction comms generalizing ls with
    | nil =>
      rw [List.forall₂_nil_left_iff] at hls
      subst hls
      exact ⟨[], rfl, rfl, rfl, by simp⟩
    | cons comm comms ih =>
      rw [List.forall₂_cons_left_iff] at hls
      obtain ⟨y, ys, hy, hys, rfl⟩ := hls
      obtain ⟨l, h1, h2, h3, h4⟩ := ih (fun c hc => hm c (by simp [hc])) ys hys
      have h5 := local_approx hu _ _ (slab_nonneg w hw ax hax comm) nb hnb m (hm comm (by simp)) i j y hy
      simp only [complexArr_slab, normArr_slab] at h5
      refine ⟨(y, localGram (fun b => distributeDimension (Q b) ax comm) (distributeDimension (complexArr w) ax comm) nb i j,
        localGram (fun b => distributeDimension (normArr (Q b)) ax comm) (distributeDimension w ax comm) nb i j) :: l, by simp [h1], by simp only [List.map_cons, h2], by simp only [List.map_cons, h3], ?_⟩
      intro a ha
      rcases List.mem_cons.1 ha with rfl | ha
      · exact h5
      · exact h4 a ha
  obtain ⟨l, h1, h2, h3, h4⟩ := key
  rw [← h1, List.map_map] at hre him
  have hlen : l.length = comms.length := by have := congrArg List.length h2; simpa using this
  have g1 := gram_procs comms hc ax Q (complexArr w) (nb : ℂ) hax hQ i j
  have g2 := gram_procs comms hc ax (fun b => normArr (Q b)) w nb hax (fun b => hQ b) i j
  have hp : 0 < comms.length := by
    rcases hc with rfl | ⟨p, hp, rfl⟩
    · simp
    · simpa [Proj.ranksOf] using hp
  have are := sum_approx hu (2 * m + 2) comms.length (l.map fun a => (a.1.re, a.2.1.re, a.2.2)) (by rw [List.length_map]; omega)
    (fun a ha => by
      obtain ⟨b, hb, rfl⟩ := List.mem_map.1 ha
      exact (h4 b hb).1) z.re (by rw [List.map_map]; exact hre)
  have aim := sum_approx hu (2 * m + 2) comms.length (l.map fun a => (a.1.im, a.2.1.im, a.2.2)) (by rw [List.length_map]; omega)
    (fun a ha => by
      obtain ⟨b, hb, rfl⟩ := List.mem_map.1 ha
      exact (h4 b hb).2) z.im (by rw [List.map_map]; exact him)
  have hs : ∀ L : List (ℂ × ℂ × ℝ), (L.map fun a => a.2.1.re).sum = Complex.re (L.map fun a => a.2.1).sum ∧ (L.map fun a => a.2.1.im).sum = Complex.im (L.map fun a => a.2.1).sum := by
    intro L
    induction L with
    | nil => simp
    | cons a L ih => simp [ih.1, ih.2]
  simp only [List.map_map, Function.comp_def] at are aim
  rw [(hs l).1, h2, g1, h3, g2] at are
  rw [(hs l).2, h2, g1, h3, g2] at aim
  have e : 2 * m + 2 + comms.length - 1 = 2 * m + comms.length + 1 := by omega
  rw [e] at are aim
  have hmax := Complex.norm_le_sqrt_two_mul_max (z - gramSpec Q (complexArr w) nb i j)
  refine hmax.trans (mul_le_mul_of_nonneg_left (max_le ?_ ?_) (Real.sqrt_nonneg _))
  · rw [Complex.sub_re]; exact are.1
  · rw [Complex.sub_im]; exact aim.1

/-! ### Exact results are possible results -/

theorem rounds_exact {u : ℝ} (hu : 0 ≤ u) (x : ℝ) : Rounds u x x := by simp [Rounds, mul_nonneg hu (abs_nonneg x)]

theorem sum_exact {u : ℝ} (hu : 0 ≤ u) (l : List ℝ) : FlSum u l l.sum := by
  have key : ∀ (l : List ℝ) (x : ℝ), ∃ t : RTree ℝ, t.leaves = x :: l ∧ FlTree u t (x :: l).sum := by
    intro l
    induction l with
    | nil => intro x; exact ⟨.rank x, rfl, by simp [FlTree]⟩
    | cons y l ih =>
      intro x
      obtain ⟨t, h1, h2⟩ := ih y
      refine ⟨.node (.rank x) t, by simp [RTree.leaves, h1], x, _, rfl, h2, ?_⟩
      rw [List.sum_cons]
      exact rounds_exact hu _
  match l with
  | [] => exact Or.inl ⟨rfl, rfl⟩
  | x :: l =>
    obtain ⟨t, h1, h2⟩ := key l x
    exact Or.inr ⟨t, h1 ▸ List.Perm.refl _, h2⟩

theorem dot_exact {u : ℝ} (hu : 0 ≤ u) (ps : List (ℝ × ℝ)) : FlDot u ps (ps.map fun p => p.1 * p.2).sum := by
  refine ⟨ps.map fun p => p.1 * p.2, ?_, sum_exact hu _⟩
  rw [List.forall₂_map_right_iff, List.forall₂_same]
  exact fun p _ => rounds_exact hu _

/-- in the model of rounding the exact results are possible, so that `FlGram` is never empty -/
theorem gram_exact_possible {u : ℝ} (hu : 0 ≤ u) (comms : List Comm) (hc : Procs comms) (ax : Nat) (Q : Nat → Arr ℂ) (w : Arr ℝ) (nb : ℝ)
    (hax : ax < w.shape.length) (hQ : ∀ b, (Q b).shape = w.shape) (i j : Nat) : FlGram u comms ax Q w nb i j (gramSpec Q (complexArr w) nb i j) := by
  have hloc : ∀ (Q : Nat → Arr ℂ) (w : Arr ℝ), FlLocal u Q w nb i j (localGram Q (complexArr w) nb i j) := by
    intro Q w
    set a : Nat → ℂ := fun k => (Q i).at' (unravel w.shape k) with ha
    set b : Nat → ℂ := fun k => (Q j).at' (unravel w.shape k) * ((w.at' (unravel w.shape k) : ℝ) : ℂ) with hb
    have e : localGram Q (complexArr w) nb i j = (∑ k ∈ range (size w.shape), conj (a k) * b k) / (nb : ℂ) := rfl
    refine ⟨b, ∑ k ∈ range (size w.shape), conj (a k) * b k, fun k _ => ⟨?_, ?_⟩, ?_, ?_, ?_, ?_⟩
    · have : (b k).re = ((Q j).at' (unravel w.shape k)).re * w.at' (unravel w.shape k) := by simp [hb]
      rw [this]; exact rounds_exact hu _
    · have : (b k).im = ((Q j).at' (unravel w.shape k)).im * w.at' (unravel w.shape k) := by simp [hb]
      rw [this]; exact rounds_exact hu _
    · have := dot_exact hu (dotRe a b (size w.shape))
      have e2 : ((dotRe a b (size w.shape)).map fun p => p.1 * p.2).sum = (∑ k ∈ range (size w.shape), conj (a k) * b k).re := by
        rw [dotRe, List.map_flatMap, Complex.re_sum]
        refine Eq.trans (flatMap_two_sum (List.range (size w.shape)) (fun k => (a k).re * (b k).re) fun k => (a k).im * (b k).im) ?_
        rw [list_range_sum]
        exact Finset.sum_congr rfl fun k _ => by simp [Complex.mul_re]
      rw [← e2]; exact this
    · have := dot_exact hu (dotIm a b (size w.shape))
      have e2 : ((dotIm a b (size w.shape)).map fun p => p.1 * p.2).sum = (∑ k ∈ range (size w.shape), conj (a k) * b k).im := by
        rw [dotIm, List.map_flatMap, Complex.im_sum]
        refine Eq.trans (flatMap_two_sum (List.range (size w.shape)) (fun k => (a k).re * (b k).im) fun k => -(a k).im * (b k).re) ?_
        rw [list_range_sum]
        exact Finset.sum_congr rfl fun k _ => by simp [Complex.mul_im]
      rw [← e2]; exact this
    · rw [e, Complex.div_ofReal_re]; exact rounds_exact hu _
    · rw [e, Complex.div_ofReal_im]; exact rounds_exact hu _
  refine ⟨comms.map fun comm => localGram (fun b => distributeDimension (Q b) ax comm) (distributeDimension (complexArr w) ax comm) nb i j, ?_, ?_, ?_⟩
  · rw [List.forall₂_map_right_iff, List.forall₂_same]
    intro comm _
    rw [← complexArr_slab]
    exact hloc _ _
  · have g := gram_procs comms hc ax Q (complexArr w) (nb : ℂ) hax hQ i j
    rw [← g]
    have hs : ∀ L : List ℂ, (L.map Complex.re).sum = L.sum.re := by
      intro L
      induction L with
      | nil => simp
      | cons a L ih => simp [ih]
    rw [← hs]
    exact sum_exact hu _
  · have g := gram_procs comms hc ax Q (complexArr w) (nb : ℂ) hax hQ i j
    rw [← g]
    have hs : ∀ L : List ℂ, (L.map Complex.im).sum = L.sum.im := by
      intro L
      induction L with
      | nil => simp
      | cons a L ih => simp [ih]
    rw [← hs]
    exact sum_exact hu _

/-! ### Eigenvalues of a matrix that is not quite Hermitian -/

section
variable {nb : Nat}

/-- every eigenvalue of a Hermitian matrix is among those that the eigen-solver returns -/
theorem eigenvalue_listed (M V : Matrix (Fin nb) (Fin nb) ℂ) (L : Fin nb → ℂ) (h : EigPairs M L V) (hV : IsUnit V.det) (lam : ℂ) (x : Fin nb → ℂ)
    (hx : x ≠ 0) (hlam : M.mulVec x = lam • x) : ∃ j, L j = lam := by
  have hMV : M * V = V * Matrix.diagonal L := by
    ext i j
    have := congrFun (h j).1 i
    simp only [Pi.smul_apply, smul_eq_mul] at this
    rw [Matrix.mul_diagonal, mul_comm]
    exact this
  set y := V⁻¹.mulVec x with hy
  have hVy : V.mulVec y = x := by rw [hy, Matrix.mulVec_mulVec, Matrix.mul_nonsing_inv V hV, Matrix.one_mulVec]
  have h1 : (Matrix.diagonal L).mulVec y = lam • y := by
    have : V.mulVec ((Matrix.diagonal L).mulVec y) = V.mulVec (lam • y) := by
      rw [Matrix.mulVec_mulVec, ← hMV, ← Matrix.mulVec_mulVec, hVy, hlam, Matrix.mulVec_smul, hVy]
    have h2 := congrArg (V⁻¹.mulVec ·) this
    simpa [Matrix.mulVec_mulVec, Matrix.nonsing_inv_mul V hV, ← Matrix.mul_assoc] using h2
  have hy0 : y ≠ 0 := by
    rintro h0
    apply hx
    rw [← hVy, h0, Matrix.mulVec_zero]
  obtain ⟨j, hj⟩ := Function.ne_iff.1 hy0
  refine ⟨j, ?_⟩
  have h3 := congrFun h1 j
  rw [Matrix.mulVec_diagonal, Pi.smul_apply, smul_eq_mul] at h3
  exact mul_right_cancel₀ hj h3

/-- a vector that `M` almost multiplies by `mu` shows an eigenvalue of the Hermitian matrix `M` near `mu` -/
theorem near_eigenvalue (M : Matrix (Fin nb) (Fin nb) ℂ) (hM : M.IsHermitian) (mu : ℂ) (ε : ℝ) (v : EuclideanSpace ℂ (Fin nb)) (hv : v ≠ 0)
    (h : ‖WithLp.toLp 2 (M.mulVec v.ofLp) - mu • v‖ ≤ ε * ‖v‖) : ∃ k, ‖mu - (hM.eigenvalues k : ℂ)‖ ≤ ε := by
  by_contra hcon
  push Not at hcon
  set b := hM.eigenvectorBasis with hb
  have hcoef : ∀ k, b.repr (WithLp.toLp 2 (M.mulVec v.ofLp) - mu • v) k = ((hM.eigenvalues k : ℂ) - mu) * b.repr v k := by
    intro k
    rw [map_sub, map_smul]
    have h1 : b.repr (WithLp.toLp 2 (M.mulVec v.ofLp)) k = (hM.eigenvalues k : ℂ) * b.repr v k := by
      rw [OrthonormalBasis.repr_apply_apply, OrthonormalBasis.repr_apply_apply]
      have e : M.mulVec (b k).ofLp = (hM.eigenvalues k : ℂ) • (b k).ofLp := by
        have := hM.mulVec_eigenvectorBasis k
        rw [this]; rfl
      rw [EuclideanSpace.inner_eq_star_dotProduct, EuclideanSpace.inner_eq_star_dotProduct]
      show (M.mulVec v.ofLp) ⬝ᵥ star (b k).ofLp = _
      have e2 : star (b k).ofLp ᵥ* M = (hM.eigenvalues k : ℂ) • star (b k).ofLp := by
        have h3 := congrArg star e
        rw [Matrix.star_mulVec, hM.eq, star_smul] at h3
        rw [h3]; simp
      rw [dotProduct_comm, Matrix.dotProduct_mulVec, e2, smul_dotProduct, dotProduct_comm, smul_eq_mul]
    simp only [PiLp.sub_apply, PiLp.smul_apply, smul_eq_mul, h1]
    ring
  have hε : 0 ≤ ε := by
    by_contra h0
    push Not at h0
    have : 0 < ‖v‖ := norm_pos_iff.2 hv
    have h1 := norm_nonneg (WithLp.toLp 2 (M.mulVec v.ofLp) - mu • v)
    nlinarith
  have hn1 : ‖WithLp.toLp 2 (M.mulVec v.ofLp) - mu • v‖ ^ 2 = ∑ k, ‖((hM.eigenvalues k : ℂ) - mu)‖ ^ 2 * ‖b.repr v k‖ ^ 2 := by
    rw [← b.repr.norm_map, EuclideanSpace.norm_sq_eq]
    exact Finset.sum_congr rfl fun k _ => by rw [hcoef, norm_mul, mul_pow]
  have hn2 : ‖v‖ ^ 2 = ∑ k, ‖b.repr v k‖ ^ 2 := by rw [← b.repr.norm_map, EuclideanSpace.norm_sq_eq]
  have hpos : 0 < ∑ k, ‖b.repr v k‖ ^ 2 := by rw [← hn2]; exact pow_pos (norm_pos_iff.2 hv) 2
  obtain ⟨k0, _, hk0⟩ : ∃ k ∈ Finset.univ, 0 < ‖b.repr v k‖ ^ 2 := by
    by_contra hno
    push Not at hno
    exact absurd hpos (not_lt.2 (Finset.sum_nonpos hno))
  have hlt : ε ^ 2 * ‖v‖ ^ 2 < ‖WithLp.toLp 2 (M.mulVec v.ofLp) - mu • v‖ ^ 2 := by
    rw [hn1, hn2, Finset.mul_sum]
    have hsq : ∀ k, ε ^ 2 < ‖((hM.eigenvalues k : ℂ) - mu)‖ ^ 2 := fun k => by
      rw [norm_sub_rev]; exact pow_lt_pow_left₀ (hcon k) hε (by norm_num)
    refine Finset.sum_lt_sum (fun k _ => mul_le_mul_of_nonneg_right (hsq k).le (sq_nonneg _)) ⟨k0, Finset.mem_univ _, mul_lt_mul_of_pos_right (hsq k0) hk0⟩
  have := pow_le_pow_left₀ (norm_nonneg _) h 2
  rw [mul_pow] at this
  linarith

/-- an error matrix whose entries are bounded by the diagonal of a matrix with non-negative diagonal `d` -/
theorem error_norm (E : Matrix (Fin nb) (Fin nb) ℂ) (d : Fin nb → ℝ) (hd : ∀ i, 0 ≤ d i) (g : ℝ) (hg : 0 ≤ g)
    (h : ∀ i j, ‖E i j‖ ≤ g * (Real.sqrt (d i) * Real.sqrt (d j))) (v : EuclideanSpace ℂ (Fin nb)) :
    ‖WithLp.toLp 2 (E.mulVec v.ofLp)‖ ≤ g * (∑ i, d i) * ‖v‖ := by
  have hD : 0 ≤ ∑ i, d i := Finset.sum_nonneg fun i _ => hd i
  have hrow : ∀ i, ‖(E.mulVec v.ofLp) i‖ ^ 2 ≤ g ^ 2 * d i * ((∑ j, d j) * ‖v‖ ^ 2) := by
    intro i
    have h1 : ‖(E.mulVec v.ofLp) i‖ ≤ g * Real.sqrt (d i) * ∑ j, Real.sqrt (d j) * ‖v.ofLp j‖ := by
      show ‖∑ j, E i j * v.ofLp j‖ ≤ _
      refine (norm_sum_le _ _).trans ?_
      rw [Finset.mul_sum]
      refine Finset.sum_le_sum fun j _ => ?_
      rw [norm_mul]
      calc ‖E i j‖ * ‖v.ofLp j‖ ≤ g * (Real.sqrt (d i) * Real.sqrt (d j)) * ‖v.ofLp j‖ := mul_le_mul_of_nonneg_right (h i j) (norm_nonneg _)
        _ = _ := by ring
    have h2 : (∑ j, Real.sqrt (d j) * ‖v.ofLp j‖) ^ 2 ≤ (∑ j, d j) * ‖v‖ ^ 2 := by
      refine (Finset.sum_mul_sq_le_sq_mul_sq _ _ _).trans (le_of_eq ?_)
      rw [EuclideanSpace.norm_sq_eq]
      congr 1
      exact Finset.sum_congr rfl fun j _ => Real.sq_sqrt (hd j)
    calc ‖(E.mulVec v.ofLp) i‖ ^ 2 ≤ (g * Real.sqrt (d i) * ∑ j, Real.sqrt (d j) * ‖v.ofLp j‖) ^ 2 := pow_le_pow_left₀ (norm_nonneg _) h1 2
      _ = g ^ 2 * d i * (∑ j, Real.sqrt (d j) * ‖v.ofLp j‖) ^ 2 := by rw [mul_pow, mul_pow, Real.sq_sqrt (hd i)]
      _ ≤ g ^ 2 * d i * ((∑ j, d j) * ‖v‖ ^ 2) := mul_le_mul_of_nonneg_left h2 (mul_nonneg (sq_nonneg _) (hd i))
  refine (sq_le_sq₀ (norm_nonneg _) (mul_nonneg (mul_nonneg hg hD) (norm_nonneg _))).1 ?_ -- (mul_nonneg (mul_nonneg hg hD) (norm_nonneg _))
  rw [EuclideanSpace.norm_sq_eq]
  calc ∑ i, ‖(E.mulVec v.ofLp) i‖ ^ 2 ≤ ∑ i, g ^ 2 * d i * ((∑ j, d j) * ‖v‖ ^ 2) := Finset.sum_le_sum fun i _ => hrow i
    _ = (g * (∑ i, d i) * ‖v‖) ^ 2 := by rw [← Finset.sum_mul, ← Finset.mul_sum]; ring

/-- the entries of the exact matrix, as sums over the grid -/
theorem gramSpec_cross (Q : Nat → Arr ℂ) (w : Arr ℝ) (i j : Fin nb) :
    gramSpec Q (complexArr w) (nb : ℝ) i j =
      crossSpectral (Matrix.of fun (x : Fin (size w.shape)) (b : Fin nb) => (Q b).at' (unravel w.shape x)) (specW w) i j := by
  unfold gramSpec crossSpectral
  rw [← sum_unravel, Matrix.smul_apply, Matrix.mul_apply, smul_eq_mul, div_eq_mul_inv, mul_comm]
  congr 1
  · exact Finset.sum_range fun k => star ((Q i).at' (unravel w.shape k)) * ((Q j).at' (unravel w.shape k) * ((w.at' (unravel w.shape k) : ℝ) : ℂ))

theorem cross_diag {X : Type} [Fintype X] (Q : Matrix X (Fin nb) ℂ) (w : X → ℝ) (i : Fin nb) :
    crossSpectral Q w i i = (((∑ x, w x * ‖Q x i‖ ^ 2) / nb : ℝ) : ℂ) := by
  unfold crossSpectral
  rw [Matrix.smul_apply, Matrix.mul_apply, smul_eq_mul, Complex.ofReal_div, div_eq_mul_inv, mul_comm, Complex.ofReal_sum]
  congr 1
  refine Finset.sum_congr rfl fun x _ => ?_
  rw [Matrix.conjTranspose_apply, Matrix.of_apply, ← mul_assoc, Complex.star_def, mul_comm (conj _), Complex.mul_conj, Complex.normSq_eq_norm_sq]
  push_cast; ring

/-- the sums of moduli are bounded by the diagonal (Cauchy-Schwarz) -/
theorem gramSpec_norm_le (Q : Nat → Arr ℂ) (w : Arr ℝ) (hw : ∀ idx, InRange w.shape idx → 0 ≤ w.at' idx) (i j : Fin nb) :
    gramSpec (fun b => normArr (Q b)) w (nb : ℝ) i j ≤
      Real.sqrt ((∑ x, specW w x * ‖(Q i).at' (unravel w.shape x)‖ ^ 2) / nb) *
        Real.sqrt ((∑ x, specW w x * ‖(Q j).at' (unravel w.shape x)‖ ^ 2) / nb) := by
  have hw' : ∀ x, 0 ≤ specW w x := fun x => hw _ (inRange_unravel x.2)
  have e : gramSpec (fun b => normArr (Q b)) w (nb : ℝ) i j =
      (∑ x, (Real.sqrt (specW w x) * ‖(Q i).at' (unravel w.shape x)‖) * (Real.sqrt (specW w x) * ‖(Q j).at' (unravel w.shape x)‖)) / nb := by
    unfold gramSpec
    rw [← sum_unravel]
    congr 1
    refine Eq.trans (Finset.sum_range fun k => ‖(Q i).at' (unravel w.shape k)‖ * (‖(Q j).at' (unravel w.shape k)‖ * w.at' (unravel w.shape k))) ?_
    refine Finset.sum_congr rfl fun x _ => ?_
    have := Real.mul_self_sqrt (hw' x)
    calc ‖(Q i).at' (unravel w.shape x)‖ * (‖(Q j).at' (unravel w.shape x)‖ * w.at' (unravel w.shape x))
        = ‖(Q i).at' (unravel w.shape x)‖ * ‖(Q j).at' (unravel w.shape x)‖ * specW w x := by rw [mul_assoc]; rfl
      _ = ‖(Q i).at' (unravel w.shape x)‖ * ‖(Q j).at' (unravel w.shape x)‖ * (Real.sqrt (specW w x) * Real.sqrt (specW w x)) := by rw [this]
      _ = _ := by ring
  have hn : (0 : ℝ) ≤ nb := Nat.cast_nonneg _
  rw [e, Real.sqrt_div' _ hn, Real.sqrt_div' _ hn, div_mul_div_comm, Real.mul_self_sqrt hn]
  refine div_le_div_of_nonneg_right ?_ hn
  refine (Real.sum_mul_le_sqrt_mul_sqrt _ _ _).trans (le_of_eq ?_)
  congr 2 <;> exact Finset.sum_congr rfl fun x _ => by rw [mul_pow, Real.sq_sqrt (hw' x)]

end

/-- the relative error after `2 m + p + 1` roundings one after the other -/
noncomputable def roundBound (u : ℝ) (m p : Nat) : ℝ := Real.sqrt 2 * ((1 + u) ^ (2 * m + p + 1) - 1)

theorem roundBound_nonneg {u : ℝ} (hu : 0 ≤ u) (m p : Nat) : 0 ≤ roundBound u m p :=
  mul_nonneg (Real.sqrt_nonneg _) (sub_nonneg.2 (one_le_pow₀ (by linarith)))

theorem matrix_rounding {nb : Nat} (hnb : 0 < nb) (Qs : Nat → Arr ℂ) (w : Arr ℝ) (hw : ∀ idx, InRange w.shape idx → 0 ≤ w.at' idx)
    (hsh : ∀ b, (Qs b).shape = w.shape) (solver : Solver nb) (hs : SolverFull solver) (fac : Nat)
    (u : ℝ) (hu : 0 ≤ u) (comms : List Comm) (hc : Procs comms) (ax : Nat) (hax : ax < w.shape.length) (n : Nat)
    (hn : ∀ comm ∈ comms, size (distributeDimension w ax comm).shape ≤ n) (Mh : Matrix (Fin nb) (Fin nb) ℂ)
    (hMh : ∀ i j : Fin nb, FlGram u comms ax Qs w nb i j (Mh i j)) (Q : Matrix (Fin (size w.shape)) (Fin nb) ℂ)
    (hQ : Q = Matrix.of fun (x : Fin (size w.shape)) (b : Fin nb) => (Qs b).at' (unravel w.shape x)) :
    (∀ i j, ‖Mh i j - crossSpectral Q (specW w) i j‖ ≤
      roundBound u n comms.length * (Real.sqrt (crossSpectral Q (specW w) i i).re * Real.sqrt (crossSpectral Q (specW w) j j).re)) ∧
    |fac * (∑ i, (Mh i i).re) - ∑ k, eigsAt Q (specW w) solver fac k| ≤ roundBound u n comms.length * ∑ k, eigsAt Q (specW w) solver fac k ∧
    ∀ (mu : ℂ) (δ : ℝ) (v : EuclideanSpace ℂ (Fin nb)), v ≠ 0 →
      ‖WithLp.toLp 2 (Mh.mulVec v.ofLp) - mu • v‖ ≤ δ * ‖v‖ →
      ∃ k, ‖(fac : ℂ) * mu - eigsAt Q (specW w) solver fac k‖ ≤ roundBound u n comms.length * (∑ k, eigsAt Q (specW w) solver fac k) + fac * δ := by
  have hw' : ∀ x, 0 ≤ specW w x := fun x => hw _ (inRange_unravel x.2)
  set M := crossSpectral Q (specW w) with hMd
  have hM : M.IsHermitian := (crossSpectral_posSemidef Q (specW w) hw').1
  obtain ⟨a1, a2, a3⟩ := hs M hM
  have hnn : ∀ k, 0 ≤ reorderL (realIfClose (solver M).1) (solver M).2.2 k := fun k => (eigenvalues_real_nonneg Q (specW w) hw' _ _ a1 _).2.1
  have hfac : (0 : ℝ) ≤ fac := Nat.cast_nonneg _
  have he : ∀ k, eigsAt Q (specW w) solver fac k = fac * reorderL (realIfClose (solver M).1) (solver M).2.2 k := by
    intro k
    simp only [eigsAt, spodFreq, eigsOut]
    exact abs_of_nonneg (mul_nonneg (Nat.cast_nonneg _) (hnn k))
  have hdiag : ∀ i, M i i = (((∑ x, specW w x * ‖Q x i‖ ^ 2) / nb : ℝ) : ℂ) := cross_diag Q (specW w)
  have hd : ∀ i, 0 ≤ (M i i).re := fun i => by
    rw [hdiag, Complex.ofReal_re]
    exact div_nonneg (Finset.sum_nonneg fun x _ => mul_nonneg (hw' x) (sq_nonneg _)) (Nat.cast_nonneg _)
  have hg := roundBound_nonneg hu n comms.length
  have hE : ∀ i j, ‖Mh i j - M i j‖ ≤ roundBound u n comms.length * (Real.sqrt (M i i).re * Real.sqrt (M j j).re) := by
    intro i j
    have h3 := gram_approx hu comms hc ax Qs w nb (by exact_mod_cast hnb) hw hax hsh n hn i j _ (hMh i j)
    have h4 := gramSpec_norm_le (nb := nb) Qs w hw i j
    rw [gramSpec_cross, ← hQ, ← hMd] at h3
    refine h3.trans ?_
    rw [roundBound, mul_assoc]
    refine mul_le_mul_of_nonneg_left ?_ (Real.sqrt_nonneg _)
    refine mul_le_mul_of_nonneg_left ?_ (sub_nonneg.2 (one_le_pow₀ (by linarith)))
    rw [hdiag, hdiag, Complex.ofReal_re, Complex.ofReal_re, hQ]
    exact h4
  have htr : ∑ k, eigsAt Q (specW w) solver fac k = fac * ∑ i, (M i i).re := by
    have hMV : M * (solver M).2.1 = (solver M).2.1 * Matrix.diagonal (solver M).1 := by
      ext i j
      have := congrFun (a1 j).1 i
      simp only [Pi.smul_apply, smul_eq_mul] at this
      rw [Matrix.mul_diagonal, mul_comm]
      exact this
    have ht : M.trace = ∑ j, (solver M).1 j := by
      have e : M = (solver M).2.1 * Matrix.diagonal (solver M).1 * (solver M).2.1⁻¹ := by
        rw [← hMV, Matrix.mul_assoc, Matrix.mul_nonsing_inv _ a2, Matrix.mul_one]
      conv_lhs => rw [e]
      rw [Matrix.trace_mul_comm, ← Matrix.mul_assoc, Matrix.nonsing_inv_mul _ a2, Matrix.one_mul, Matrix.trace_diagonal]
    have ht2 := congrArg Complex.re ht
    rw [Matrix.trace, Complex.re_sum, Complex.re_sum] at ht2
    simp only [he, ← Finset.mul_sum]
    congr 1
    refine Eq.trans ?_ ht2.symm
    exact Equiv.sum_comp (solver M).2.2 fun j => ((solver M).1 j).re
  refine ⟨hE, ?_, ?_⟩
  · rw [htr, ← mul_sub, abs_mul, abs_of_nonneg hfac, mul_left_comm]
    refine mul_le_mul_of_nonneg_left ?_ hfac
    rw [← Finset.sum_sub_distrib, Finset.mul_sum]
    refine (Finset.abs_sum_le_sum_abs _ _).trans (Finset.sum_le_sum fun i _ => ?_)
    have := hE i i
    rw [Real.mul_self_sqrt (hd i)] at this
    refine le_trans ?_ this
    rw [← Complex.sub_re]
    exact Complex.abs_re_le_norm _
  · intro mu δ v hv hres
    have hnear := near_eigenvalue M hM mu (roundBound u n comms.length * (∑ i, (M i i).re) + δ) v hv (by
      have h3 := error_norm (Mh - M) (fun i => (M i i).re) hd _ hg hE v
      have e : WithLp.toLp 2 (M.mulVec v.ofLp) - mu • v = (WithLp.toLp 2 (Mh.mulVec v.ofLp) - mu • v) - WithLp.toLp 2 ((Mh - M).mulVec v.ofLp) := by
        rw [Matrix.sub_mulVec]
        ext i
        simp
      rw [e, add_mul, add_comm]
      exact (norm_sub_le _ _).trans (add_le_add hres h3))
    obtain ⟨k, hk⟩ := hnear
    obtain ⟨j, hj⟩ := eigenvalue_listed M _ _ a1 a2 (hM.eigenvalues k : ℂ) (hM.eigenvectorBasis k).ofLp
      (by
        intro h0
        have := hM.eigenvectorBasis.orthonormal.1 k
        have e0 : hM.eigenvectorBasis k = 0 := by ext i; exact congrFun h0 i
        rw [e0] at this; simp at this)
      (by rw [hM.mulVec_eigenvectorBasis k]; rfl)
    refine ⟨(solver M).2.2.symm j, ?_⟩
    have hL : reorderL (realIfClose (solver M).1) (solver M).2.2 ((solver M).2.2.symm j) = hM.eigenvalues k := by
      simp [reorderL, realIfClose, hj]
    rw [htr, he, hL]
    have e5 : (fac : ℂ) * mu - ((fac * hM.eigenvalues k : ℝ) : ℂ) = (fac : ℂ) * (mu - (hM.eigenvalues k : ℂ)) := by push_cast; ring
    rw [e5, norm_mul, Complex.norm_natCast]
    refine (mul_le_mul_of_nonneg_left hk hfac).trans (le_of_eq ?_)
    ring

/-- what is stored of a computed eigenvalue `mu` that is near the number `e` -/
theorem near_parts (fac : Nat) (mu : ℂ) (e B : ℝ) (he : 0 ≤ e) (h : ‖(fac : ℂ) * mu - e‖ ≤ B) :
    |(|fac * mu.re|) - e| ≤ B ∧ |fac * mu.im| ≤ B := by
  have h1 := (Complex.abs_re_le_norm ((fac : ℂ) * mu - e)).trans h
  have h2 := (Complex.abs_im_le_norm ((fac : ℂ) * mu - e)).trans h
  simp only [Complex.sub_re, Complex.mul_re, Complex.natCast_re, Complex.natCast_im, zero_mul, sub_zero, Complex.ofReal_re] at h1
  simp only [Complex.sub_im, Complex.mul_im, Complex.natCast_re, Complex.natCast_im, zero_mul, add_zero, sub_zero, Complex.ofReal_im] at h2
  refine ⟨?_, h2⟩
  have h4 := abs_abs_sub_abs_le (fac * mu.re) e
  rw [abs_of_nonneg he] at h4
  exact h4.trans h1

/-- the Fourier transforms of the blocks of the data at frequency number `f` -/
noncomputable def fourierBlocks (c : Cfg) (m : MeanType) (ω : ℂ) (frames : List (Arr ℝ)) (sh : List Nat) (f : Nat) : Nat → Arr ℂ :=
  fun b => ⟨sh, fun idx => specHat c m ω (frames.map fun a => a.at' idx) f b⟩

/-- **C231.** A fit in floating-point arithmetic with unit roundoff `u`, on one process or on `p` ranks with at most `n` values each, in any order of the
    additions.  Its matrix `Mh` at a frequency differs from the exact one in entry `(i, j)` by at most `roundBound u n p` times the geometric mean of the
    energies of blocks `i` and `j`; the sum of its diagonal is the sum of the exact eigenvalues up to that relative error; and every value that an eigen-solver
    with residual `δ` finds for `Mh` is an exact eigenvalue up to `roundBound u n p` times the sum of the eigenvalues plus `δ` (with the factor for
    one-sided spectra) (and so its real part, and its imaginary part is as small). -/
theorem fit_rounding (c : Cfg) (ω : ℂ) (files : List (List (Arr ℝ))) (w : Arr ℝ) (m : MeanType) (A : Accepted c files w m)
    (solver : Solver (fitNb c files.flatten.length)) (hs : SolverFull solver) :
    ∃ out, (∀ r, FitRun c ω files w solver r → r = some out) ∧ ∀ f < nFreq c.nDft c.isreal c.full,
      ∀ (u : ℝ), 0 ≤ u → ∀ (comms : List Comm), Procs comms → ∀ ax < w.shape.length, ∀ (n : Nat),
      (∀ comm ∈ comms, size (distributeDimension w ax comm).shape ≤ n) → ∀ Mh : Matrix (Fin (fitNb c files.flatten.length)) (Fin (fitNb c files.flatten.length)) ℂ,
      (∀ i j : Fin (fitNb c files.flatten.length),
        FlGram u comms ax (fourierBlocks c m ω files.flatten w.shape f) w (fitNb c files.flatten.length) i j (Mh i j)) →
        let M := crossSpectral (specQ c m ω files.flatten w.shape (fitNb c files.flatten.length) f) (specW w)
        let fac : ℝ := oneSidedFactor c.isreal (nFreq c.nDft c.isreal c.full) f
        (∀ i j, ‖Mh i j - M i j‖ ≤ roundBound u n comms.length * (Real.sqrt (M i i).re * Real.sqrt (M j j).re)) ∧
        |fac * (∑ i, (Mh i i).re) - ∑ k, out.eigs f k| ≤ roundBound u n comms.length * ∑ k, out.eigs f k ∧
        ∀ (mu : ℂ) (δ : ℝ) (v : EuclideanSpace ℂ (Fin (fitNb c files.flatten.length))), v ≠ 0 →
          ‖WithLp.toLp 2 (Mh.mulVec v.ofLp) - mu • v‖ ≤ δ * ‖v‖ →
          ∃ k, ‖(fac : ℂ) * mu - out.eigs f k‖ ≤ roundBound u n comms.length * (∑ k, out.eigs f k) + fac * δ := by
  obtain ⟨out, h1, h2⟩ := fit_eigsAt c ω files w m A solver
  refine ⟨out, h1, fun f hf u hu comms hc ax hax n hn Mh hMh => ?_⟩
  have hnb : 0 < fitNb c files.flatten.length := by
    have := (feasible_nb c _ A.blocks).1
    omega
  have := matrix_rounding hnb (fourierBlocks c m ω files.flatten w.shape f) w A.weights (fun _ => rfl) solver hs
    (oneSidedFactor c.isreal (nFreq c.nDft c.isreal c.full) f) u hu comms hc ax hax n hn Mh hMh _ rfl
  rw [h2 f hf]
  refine ⟨this.1, this.2.1, fun mu δ v hv hr => (this.2.2 mu δ v hv hr).imp fun k hk => ?_⟩
  rw [Complex.ofReal_natCast]
  exact hk

/-- **C231**, two runs: the matrices of two fits of the same data, on any two numbers of ranks and in any orders of the additions, agree up to rounding. -/
theorem rounding_ranks (c : Cfg) (ω : ℂ) (files : List (List (Arr ℝ))) (w : Arr ℝ) (m : MeanType) (A : Accepted c files w m) (f : Nat)
    (hf : f < nFreq c.nDft c.isreal c.full) (u : ℝ) (hu : 0 ≤ u) (comms comms' : List Comm) (hc : Procs comms) (hc' : Procs comms') (ax : Nat)
    (hax : ax < w.shape.length) (n n' : Nat) (hn : ∀ comm ∈ comms, size (distributeDimension w ax comm).shape ≤ n)
    (hn' : ∀ comm ∈ comms', size (distributeDimension w ax comm).shape ≤ n')
    (Mh Mh' : Matrix (Fin (fitNb c files.flatten.length)) (Fin (fitNb c files.flatten.length)) ℂ)
    (h : ∀ i j : Fin (fitNb c files.flatten.length),
      FlGram u comms ax (fourierBlocks c m ω files.flatten w.shape f) w (fitNb c files.flatten.length) i j (Mh i j))
    (h' : ∀ i j : Fin (fitNb c files.flatten.length),
      FlGram u comms' ax (fourierBlocks c m ω files.flatten w.shape f) w (fitNb c files.flatten.length) i j (Mh' i j))
    (i j : Fin (fitNb c files.flatten.length)) :
    let M := crossSpectral (specQ c m ω files.flatten w.shape (fitNb c files.flatten.length) f) (specW w)
    ‖Mh i j - Mh' i j‖ ≤ (roundBound u n comms.length + roundBound u n' comms'.length) * (Real.sqrt (M i i).re * Real.sqrt (M j j).re) := by
  intro M
  obtain ⟨solver, hs⟩ := solver_full_exists (fitNb c files.flatten.length)
  obtain ⟨out, -, h2⟩ := fit_rounding c ω files w m A solver hs
  have a := (h2 f hf u hu comms hc ax hax n hn Mh h).1 i j
  have a' := (h2 f hf u hu comms' hc' ax hax n' hn' Mh' h').1 i j
  have e : Mh i j - Mh' i j = (Mh i j - M i j) - (Mh' i j - M i j) := by ring
  rw [e, add_mul]
  exact (norm_sub_le _ _).trans (add_le_add a a')

/-- how large the bound is: `1.5 (2 m + p + 1) u` as long as this is small -/
theorem roundBound_le {u : ℝ} (hu : 0 ≤ u) (m p : Nat) (h : ((2 * m + p + 1 : ℕ) : ℝ) * u ≤ 1 / 100) :
    roundBound u m p ≤ 3 / 2 * (((2 * m + p + 1 : ℕ) : ℝ) * u) := by
  set x : ℝ := ((2 * m + p + 1 : ℕ) : ℝ) * u with hx
  have hx0 : 0 ≤ x := mul_nonneg (Nat.cast_nonneg _) hu
  have h1 : (1 + u) ^ (2 * m + p + 1) ≤ Real.exp x := by
    have := Real.add_one_le_exp u
    calc (1 + u) ^ (2 * m + p + 1) ≤ Real.exp u ^ (2 * m + p + 1) := pow_le_pow_left₀ (by linarith) (by linarith) _
      _ = Real.exp x := by rw [← Real.exp_nat_mul]
  have h2 : Real.exp x * (1 - x) ≤ 1 := by
    have := Real.add_one_le_exp (-x)
    have h3 : Real.exp x * Real.exp (-x) = 1 := by rw [← Real.exp_add]; simp
    have h4 : Real.exp x * (-x + 1) ≤ Real.exp x * Real.exp (-x) := mul_le_mul_of_nonneg_left this (Real.exp_pos x).le
    linarith
  have h3 : Real.exp x - 1 ≤ x / 0.99 := by
    rw [le_div_iff₀ (by norm_num)]
    have := Real.exp_pos x
    have h5 : 1 ≤ Real.exp x := Real.one_le_exp hx0
    nlinarith
  have h4 : Real.sqrt 2 ≤ 1.415 := by
    rw [Real.sqrt_le_left (by norm_num)]; norm_num
  have h5 : (1 + u) ^ (2 * m + p + 1) - 1 ≤ x / 0.99 := by linarith
  have h6 : 0 ≤ (1 + u) ^ (2 * m + p + 1) - 1 := sub_nonneg.2 (one_le_pow₀ (by linarith))
  unfold roundBound
  calc Real.sqrt 2 * ((1 + u) ^ (2 * m + p + 1) - 1) ≤ 1.415 * (x / 0.99) := mul_le_mul h4 h5 h6 (by norm_num)
    _ ≤ 3 / 2 * x := by rw [mul_div_assoc', div_le_iff₀ (by norm_num)]; nlinarith

theorem eigs_near {X : Type} [Fintype X] [DecidableEq X] {nb : Nat} (hnb : 0 < nb) (Q Q' : Matrix X (Fin nb) ℂ) (w : X → ℝ) (hw : ∀ x, 0 ≤ w x)
    (solver solver' : Solver nb) (hs : SolverFull solver) (hs' : SolverFull solver') (fac : Nat) (ε : ℝ) (hε : 0 ≤ ε) (h : ∀ x b, ‖Q x b - Q' x b‖ ≤ ε) (k : Fin nb) :
    Real.sqrt (eigsAt Q w solver fac k) ≤ Real.sqrt (eigsAt Q' w solver' fac k) + ε * Real.sqrt (fac * ∑ x, w x) := by
  have h1 := eigs_triangle rfl rfl Q Q' (Q - Q') w w w hw hw hw (fun v => rescale_triangle rfl rfl w Q Q' (Q - Q') 1 (by simp) (fun x b b1 b2 e1 e2 => by
      have e1 : b1 = b := Fin.ext e1.symm
      have e2 : b2 = b := Fin.ext e2.symm
      subst e1; subst e2
      simp) v) solver solver' solver hs hs' hs fac k k ⟨0, hnb⟩ (by simp)
  have h2 := eigsAt_le hnb (Q - Q') w hw solver hs fac ε (fun x b => by rw [Matrix.sub_apply]; exact h x b) ⟨0, hnb⟩
  have h3 : Real.sqrt (eigsAt (Q - Q') w solver fac ⟨0, hnb⟩) ≤ ε * Real.sqrt (fac * ∑ x, w x) := by
    refine (Real.sqrt_le_sqrt h2).trans (le_of_eq ?_)
    rw [mul_comm, Real.sqrt_mul (sq_nonneg _), Real.sqrt_sq hε]
  linarith

/-- **C232.** The eigenvalues of a fit in floating-point arithmetic, all sources of error together: the transforms of the blocks have errors of at most `ε` in every
    value, the matrix is computed with unit roundoff `u` on any number of ranks and in any order, and the eigen-solver leaves a residual of at most `δ`.  There are
    numbers `lam`, in descending order, whose roots differ from those of the exact eigenvalues by at most `ε √(fac Σ w)`, and every value that the fit reports is
    one of them up to `roundBound u n p` times their sum plus `fac δ`. -/
theorem fit_floating (c : Cfg) (ω : ℂ) (files : List (List (Arr ℝ))) (w : Arr ℝ) (m : MeanType) (A : Accepted c files w m)
    (solver : Solver (fitNb c files.flatten.length)) (hs : SolverFull solver) :
    ∃ out, (∀ r, FitRun c ω files w solver r → r = some out) ∧ ∀ f < nFreq c.nDft c.isreal c.full,
      ∀ (ε : ℝ), 0 ≤ ε → ∀ (Qs : Nat → Arr ℂ), (∀ b, (Qs b).shape = w.shape) →
      (∀ b < fitNb c files.flatten.length, ∀ idx, InRange w.shape idx →
        ‖(Qs b).at' idx - specHat c m ω (files.flatten.map fun a => a.at' idx) f b‖ ≤ ε) →
      ∀ (u : ℝ), 0 ≤ u → ∀ (comms : List Comm), Procs comms → ∀ ax < w.shape.length, ∀ (n : Nat),
      (∀ comm ∈ comms, size (distributeDimension w ax comm).shape ≤ n) → ∀ Mh : Matrix (Fin (fitNb c files.flatten.length)) (Fin (fitNb c files.flatten.length)) ℂ,
      (∀ i j : Fin (fitNb c files.flatten.length), FlGram u comms ax Qs w (fitNb c files.flatten.length) i j (Mh i j)) →
        let fac : ℝ := oneSidedFactor c.isreal (nFreq c.nDft c.isreal c.full) f
        ∃ lam : Fin (fitNb c files.flatten.length) → ℝ, Antitone lam ∧ (∀ k, 0 ≤ lam k) ∧
          (∀ k, |Real.sqrt (lam k) - Real.sqrt (out.eigs f k)| ≤ ε * Real.sqrt (fac * ∑ x : Fin (size w.shape), w.at' (unravel w.shape x))) ∧
          ∀ (mu : ℂ) (δ : ℝ) (v : EuclideanSpace ℂ (Fin (fitNb c files.flatten.length))), v ≠ 0 →
            ‖WithLp.toLp 2 (Mh.mulVec v.ofLp) - mu • v‖ ≤ δ * ‖v‖ →
            ∃ k, ‖(fac : ℂ) * mu - lam k‖ ≤ roundBound u n comms.length * (∑ k, lam k) + fac * δ := by
  obtain ⟨out, h1, h2⟩ := fit_eigsAt c ω files w m A solver
  refine ⟨out, h1, fun f hf ε hε Qs hsh hQs u hu comms hc ax hax n hn Mh hMh => ?_⟩
  have hnb : 0 < fitNb c files.flatten.length := by
    have := (feasible_nb c _ A.blocks).1
    omega
  have hw' := specW_nonneg A
  have h3 := matrix_rounding hnb Qs w A.weights hsh solver hs
    (oneSidedFactor c.isreal (nFreq c.nDft c.isreal c.full) f) u hu comms hc ax hax n hn Mh hMh _ rfl
  obtain ⟨b1, b2, -⟩ := eigsAt_basis (Matrix.of fun (x : Fin (size w.shape)) (b : Fin (fitNb c files.flatten.length)) => (Qs b).at' (unravel w.shape x)) (specW w) hw'
    solver hs (oneSidedFactor c.isreal (nFreq c.nDft c.isreal c.full) f)
  refine ⟨_, b1, b2, fun k => ?_, fun mu δ v hv hr => (h3.2.2 mu δ v hv hr).imp fun k hk => by rw [Complex.ofReal_natCast]; exact hk⟩
  rw [h2 f hf, abs_le]
  have hd : ∀ (x : Fin (size w.shape)) (b : Fin (fitNb c files.flatten.length)), ‖(Matrix.of fun (x : Fin (size w.shape)) (b : Fin (fitNb c files.flatten.length)) =>
      (Qs b).at' (unravel w.shape x)) x b - specQ c m ω files.flatten w.shape (fitNb c files.flatten.length) f x b‖ ≤ ε :=
    fun x b => hQs b b.2 _ (inRange_unravel x.2)
  have g1 := eigs_near hnb _ _ (specW w) hw' solver solver hs hs (oneSidedFactor c.isreal (nFreq c.nDft c.isreal c.full) f) ε hε hd k
  have g2 := eigs_near hnb _ _ (specW w) hw' solver solver hs hs (oneSidedFactor c.isreal (nFreq c.nDft c.isreal c.full) f) ε hε
    (fun x b => by rw [norm_sub_rev]; exact hd x b) k
  constructor
  · have : (∑ x, specW w x) = ∑ x : Fin (size w.shape), w.at' (unravel w.shape x) := rfl
    rw [this] at g2
    linarith
  · have : (∑ x, specW w x) = ∑ x : Fin (size w.shape), w.at' (unravel w.shape x) := rfl
    rw [this] at g1
    linarith

/-! ### Cases -/

/-- one process or two ranks, double precision: the matrices of the two runs agree to 13 digits of the energies -/
example (ω : ℂ) (l : List ℝ) (h1 : l.length = 8) (Mh Mh' : Matrix (Fin (fitNb calmCfg (series l).flatten.length)) (Fin (fitNb calmCfg (series l).flatten.length)) ℂ)
    (h : ∀ i j : Fin (fitNb calmCfg (series l).flatten.length),
      FlGram (1 / 2 ^ 53) [none] 0 (fourierBlocks calmCfg .blockwise ω (series l).flatten [2] 1) ⟨[2], fun _ => 1⟩ (fitNb calmCfg (series l).flatten.length) i j (Mh i j))
    (h' : ∀ i j : Fin (fitNb calmCfg (series l).flatten.length),
      FlGram (1 / 2 ^ 53) (Proj.ranksOf 2) 0 (fourierBlocks calmCfg .blockwise ω (series l).flatten [2] 1) ⟨[2], fun _ => 1⟩ (fitNb calmCfg (series l).flatten.length)
        i j (Mh' i j)) (i j : Fin (fitNb calmCfg (series l).flatten.length)) :
    ‖Mh i j - Mh' i j‖ ≤ 1 / 10 ^ 13 * (Real.sqrt (crossSpectral (specQ calmCfg .blockwise ω (series l).flatten [2] _ 1) (specW ⟨[2], fun _ => 1⟩) i i).re *
      Real.sqrt (crossSpectral (specQ calmCfg .blockwise ω (series l).flatten [2] _ 1) (specW ⟨[2], fun _ => 1⟩) j j).re) := by
  refine (rounding_ranks calmCfg ω (series l) ⟨[2], fun _ => 1⟩ .blockwise (calm_any l h1.ge 1 zero_le_one) 1 (by decide) (1 / 2 ^ 53) (by norm_num) [none]
    (Proj.ranksOf 2) (Or.inl rfl) (Or.inr ⟨2, by norm_num, rfl⟩) 0 (by decide) 2 1 (by decide) (by decide) Mh Mh' h h' i j).trans ?_
  refine mul_le_mul_of_nonneg_right ?_ (mul_nonneg (Real.sqrt_nonneg _) (Real.sqrt_nonneg _))
  have a := roundBound_le (u := 1 / 2 ^ 53) (by norm_num) 2 1 (by norm_num)
  have b := roundBound_le (u := 1 / 2 ^ 53) (by norm_num) 1 2 (by norm_num)
  have e1 : ([none] : List Comm).length = 1 := rfl
  have e2 : (Proj.ranksOf 2).length = 2 := rfl
  rw [e1, e2]
  norm_num at a b ⊢
  linarith

/-- such matrices exist, for every unit roundoff -/
example (ω : ℂ) (l : List ℝ) (u : ℝ) (hu : 0 ≤ u) (i j : Nat) :
    ∃ z, FlGram u (Proj.ranksOf 2) 0 (fourierBlocks calmCfg .blockwise ω (series l).flatten [2] 1) ⟨[2], fun _ => 1⟩ 2 i j z :=
  ⟨_, gram_exact_possible hu (Proj.ranksOf 2) (Or.inr ⟨2, by norm_num, rfl⟩) 0 _ ⟨[2], fun _ => 1⟩ 2 (by decide) (fun _ => rfl) i j⟩

/-- rounding to five binary digits: `1 + 1/16` may become `1` -/
example : FlSum (1 / 16) [1, 1 / 16] 1 :=
  Or.inr ⟨.node (.rank 1) (.rank (1 / 16)), List.Perm.refl _, 1, 1 / 16, rfl, rfl, by norm_num [Rounds]⟩

end Verif.Props
