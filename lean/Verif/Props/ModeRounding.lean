import Verif.Model.ModeRounding
import Verif.Props.FitRounding
/-
  C238: the modes of a fit in floating-point arithmetic.
-/
namespace Verif.Props
open Verif Verif.Par Verif.Round Verif.Fit Verif.Spod Verif.Close Finset
open scoped ComplexConjugate

/-- the factor of a mode, relative to the exact one -/
theorem factor_near {u : ℝ} (hu : 0 ≤ u) (hu1 : u < 1) (nb : Nat) (hnb : 0 < nb) (lam : ℝ) (hl : 0 < lam) (l : ℝ) (h : FlFactor u nb lam l) :
    (1 - u) / (1 + u) ^ 3 ≤ l * (Real.sqrt nb * Real.sqrt lam) ∧ l * (Real.sqrt nb * Real.sqrt lam) ≤ (1 + u) / (1 - u) ^ 3 := by
  obtain ⟨a, b, c, ha, hb, hc, hl'⟩ := h
  have hn : 0 < Real.sqrt nb := Real.sqrt_pos.2 (by exact_mod_cast hnb)
  have hs : 0 < Real.sqrt lam := Real.sqrt_pos.2 hl
  have pos : ∀ x y : ℝ, 0 < x → Rounds u x y → (1 - u) * x ≤ y ∧ y ≤ (1 + u) * x := by
    intro x y hx h
    unfold Rounds at h
    rw [abs_of_pos hx, abs_le] at h
    constructor <;> linarith
  have h1u : 0 < 1 - u := by linarith
  obtain ⟨a1, a2⟩ := pos _ _ hn ha
  obtain ⟨b1, b2⟩ := pos _ _ hs hb
  have pa : 0 < a := lt_of_lt_of_le (mul_pos h1u hn) a1
  have pb : 0 < b := lt_of_lt_of_le (mul_pos h1u hs) b1
  obtain ⟨c1, c2⟩ := pos _ _ (mul_pos pa pb) hc
  have pc : 0 < c := lt_of_lt_of_le (mul_pos h1u (mul_pos pa pb)) c1
  obtain ⟨l1, l2⟩ := pos _ _ (one_div_pos.2 pc) hl'
  set N := Real.sqrt nb * Real.sqrt lam with hN
  have pN : 0 < N := mul_pos hn hs
  have ab1 : (1 - u) ^ 2 * N ≤ a * b := by
    have := mul_le_mul a1 b1 (mul_pos h1u hs).le pa.le
    rw [hN]; linarith
  have ab2 : a * b ≤ (1 + u) ^ 2 * N := by
    have := mul_le_mul a2 b2 pb.le (by positivity)
    rw [hN]; linarith
  have C1 : (1 - u) ^ 3 * N ≤ c := by nlinarith
  have C2 : c ≤ (1 + u) ^ 3 * N := by nlinarith
  have p3 : 0 < (1 - u) ^ 3 := pow_pos h1u 3
  constructor
  · rw [div_le_iff₀ (by positivity)]
    have : (1 - u) * c ≤ l * c * ((1 + u) ^ 3 * N) := by
      have e : (1 - u) ≤ l * c := by
        rw [mul_one_div, div_le_iff₀ pc] at l1; exact l1
      have e0 : 0 ≤ l * c := h1u.le.trans e
      nlinarith
    nlinarith
  · rw [le_div_iff₀ p3]
    have : l * c * ((1 - u) ^ 3 * N) ≤ (1 + u) * c := by
      have e : l * c ≤ 1 + u := by
        rw [mul_one_div, le_div_iff₀ pc] at l2; exact l2
      nlinarith [mul_pos p3 pN]
    nlinarith

theorem finRange_two_sum {nb : Nat} (f g : Fin nb → ℝ) : ((List.finRange nb).flatMap fun b => [f b, g b]).sum = ∑ b, (f b + g b) := by
  rw [flatMap_two_sum, ← List.sum_ofFn, List.ofFn_eq_map]

/-- a value of a mode -/
theorem mode_point {u : ℝ} (hu : 0 ≤ u) {nb : Nat} (q v : Fin nb → ℂ) (l : ℝ) (z : ℂ) (h : FlMode u q v l z) :
    ‖z - l * ∑ b, q b * v b‖ ≤ roundBound u nb 0 * (|l| * ∑ b, ‖q b‖ * ‖v b‖) := by
  obtain ⟨a, ha, hre, him⟩ := h
  have hround : ∀ x y, Rounds u x y → Approx u 1 y x |x| := by
    intro x y h
    refine ⟨?_, le_refl _⟩
    unfold Rounds at h
    calc |y - x| ≤ u * |x| := h
      _ = ((1 + u) ^ 1 - 1) * |x| := by ring
  have hlen : ∀ (f g : Fin nb → ℝ × ℝ × ℝ), ((List.finRange nb).flatMap fun b => [f b, g b]).length ≤ 2 * nb := by
    intro f g; rw [List.length_flatMap]; simp [mul_comm]
  have h1 := dot_approx hu (2 * nb) ((List.finRange nb).flatMap fun b => [((q b).re, (a b).re, (v b).re * l), (-(q b).im, (a b).im, (v b).im * l)]) (hlen _ _) (by
    intro x hx
    obtain ⟨b, -, hx⟩ := List.mem_flatMap.1 hx
    simp only [List.mem_cons, List.not_mem_nil, or_false] at hx
    rcases hx with rfl | rfl
    · exact hround _ _ (ha b).1
    · exact hround _ _ (ha b).2) z.re (by rw [List.map_flatMap]; exact hre)
  have h2 := dot_approx hu (2 * nb) ((List.finRange nb).flatMap fun b => [((q b).re, (a b).im, (v b).im * l), ((q b).im, (a b).re, (v b).re * l)]) (hlen _ _) (by
    intro x hx
    obtain ⟨b, -, hx⟩ := List.mem_flatMap.1 hx
    simp only [List.mem_cons, List.not_mem_nil, or_false] at hx
    rcases hx with rfl | rfl
    · exact hround _ _ (ha b).2
    · exact hround _ _ (ha b).1) z.im (by rw [List.map_flatMap]; exact him)
  simp only [List.map_flatMap, List.map_cons, List.map_nil, finRange_two_sum] at h1 h2
  set S := ∑ b, ‖q b‖ * ‖v b‖ with hS
  set G := (1 + u) ^ (2 * nb + 1) - 1 with hG
  have hG0 : 0 ≤ G := sub_nonneg.2 (one_le_pow₀ (by linarith))
  have B1 : ∑ b, (|(q b).re| * |(v b).re * l| + |-(q b).im| * |(v b).im * l|) ≤ |l| * S := by
    rw [hS, Finset.mul_sum]
    refine Finset.sum_le_sum fun b _ => ?_
    rw [abs_mul, abs_mul, abs_neg, complex_norm_sqrt (q b), complex_norm_sqrt (v b)]
    have := mul_le_mul_of_nonneg_left (cs_two (q b).re (v b).re (q b).im (v b).im) (abs_nonneg l)
    linarith
  have B2 : ∑ b, (|(q b).re| * |(v b).im * l| + |(q b).im| * |(v b).re * l|) ≤ |l| * S := by
    rw [hS, Finset.mul_sum]
    refine Finset.sum_le_sum fun b _ => ?_
    rw [abs_mul, abs_mul, complex_norm_sqrt (q b), complex_norm_sqrt (v b), add_comm ((v b).re ^ 2)]
    have := mul_le_mul_of_nonneg_left (cs_two (q b).re (v b).im (q b).im (v b).re) (abs_nonneg l)
    linarith
  have e1 : ((l : ℂ) * ∑ b, q b * v b).re = ∑ b, ((q b).re * ((v b).re * l) + -(q b).im * ((v b).im * l)) := by
    rw [Complex.re_ofReal_mul, Complex.re_sum, Finset.mul_sum]
    exact Finset.sum_congr rfl fun b _ => by rw [Complex.mul_re]; ring
  have e2 : ((l : ℂ) * ∑ b, q b * v b).im = ∑ b, ((q b).re * ((v b).im * l) + (q b).im * ((v b).re * l)) := by
    rw [Complex.im_ofReal_mul, Complex.im_sum, Finset.mul_sum]
    exact Finset.sum_congr rfl fun b _ => by rw [Complex.mul_im]; ring
  have r1 : |(z - l * ∑ b, q b * v b).re| ≤ G * (|l| * S) := by
    rw [Complex.sub_re, e1]
    exact h1.1.trans (mul_le_mul_of_nonneg_left B1 hG0)
  have r2 : |(z - l * ∑ b, q b * v b).im| ≤ G * (|l| * S) := by
    rw [Complex.sub_im, e2]
    exact h2.1.trans (mul_le_mul_of_nonneg_left B2 hG0)
  refine (Complex.norm_le_sqrt_two_mul_max _).trans ?_
  rw [roundBound, show 2 * nb + 0 + 1 = 2 * nb + 1 from rfl, mul_assoc]
  exact mul_le_mul_of_nonneg_left (max_le r1 r2) (Real.sqrt_nonneg _)

/-- the weighted norm of a mode -/
noncomputable def norm_W {X : Type} [Fintype X] (w : X → ℝ) (φ : X → ℂ) : ℝ := Real.sqrt (∑ x, w x * ‖φ x‖ ^ 2)

section
variable {X : Type} [Fintype X] {nb : Nat}

/-- a mode as a vector whose norm is the weighted one -/
noncomputable def wvec (w : X → ℝ) (φ : X → ℂ) : EuclideanSpace ℂ X := WithLp.toLp 2 fun x => (Real.sqrt (w x) : ℂ) * φ x

theorem wvec_norm (w : X → ℝ) (hw : ∀ x, 0 ≤ w x) (φ : X → ℂ) : ‖wvec w φ‖ = norm_W w φ := by
  rw [norm_W, EuclideanSpace.norm_eq]
  congr 1
  refine Finset.sum_congr rfl fun x _ => ?_
  show ‖(Real.sqrt (w x) : ℂ) * φ x‖ ^ 2 = _
  rw [norm_mul, mul_pow, Complex.norm_real, Real.norm_eq_abs, sq_abs, Real.sq_sqrt (hw x)]

theorem wvec_inner (w : X → ℝ) (hw : ∀ x, 0 ≤ w x) (φ ψ : X → ℂ) : inner ℂ (wvec w φ) (wvec w ψ) = inner_W w φ ψ := by
  rw [EuclideanSpace.inner_eq_star_dotProduct, inner_W, dotProduct]
  refine Finset.sum_congr rfl fun x _ => ?_
  show (Real.sqrt (w x) : ℂ) * ψ x * conj ((Real.sqrt (w x) : ℂ) * φ x) = _
  rw [map_mul, Complex.conj_ofReal]
  have : ((Real.sqrt (w x) : ℝ) : ℂ) * (Real.sqrt (w x) : ℝ) = (w x : ℂ) := by rw [← Complex.ofReal_mul, Real.mul_self_sqrt (hw x)]
  rw [← this]; ring

omit [Fintype X] in
theorem wvec_sub (w : X → ℝ) (φ ψ : X → ℂ) : wvec w (fun x => φ x - ψ x) = wvec w φ - wvec w ψ := by
  ext x; simp [wvec, mul_sub]

/-- the products of two combinations of the blocks -/
theorem combo_inner (Q : Matrix X (Fin nb) ℂ) (hnb : 0 < nb) (w : X → ℝ) (v v' : EuclideanSpace ℂ (Fin nb)) :
    inner_W w (fun x => ∑ b, Q x b * v.ofLp b) (fun x => ∑ b, Q x b * v'.ofLp b) =
      nb * inner ℂ v (WithLp.toLp 2 ((crossSpectral Q w).mulVec v'.ofLp)) := by
  have hn : (nb : ℂ) ≠ 0 := by exact_mod_cast hnb.ne'
  rw [EuclideanSpace.inner_eq_star_dotProduct, inner_W, dotProduct]
  simp only [Matrix.mulVec, dotProduct, crossSpectral, Matrix.smul_apply, Matrix.mul_apply, Matrix.conjTranspose_apply, Matrix.of_apply, smul_eq_mul, Pi.star_apply]
  simp only [map_sum, map_mul, Finset.sum_mul, Finset.mul_sum, Complex.star_def]
  rw [Finset.sum_comm]
  conv_rhs => rw [Finset.sum_comm]
  refine Finset.sum_congr rfl fun i _ => ?_
  rw [Finset.sum_comm]
  refine Finset.sum_congr rfl fun j _ => ?_
  refine Finset.sum_congr rfl fun x _ => ?_
  field_simp

/-- the rounding errors of a mode, in the weighted norm -/
theorem combo_error (Q : Matrix X (Fin nb) ℂ) (w : X → ℝ) (hw : ∀ x, 0 ≤ w x) (φ : X → ℂ) (v : EuclideanSpace ℂ (Fin nb)) (l g : ℝ) (hg : 0 ≤ g)
    (hφ : ∀ x, ‖φ x - l * ∑ b, Q x b * v.ofLp b‖ ≤ g * (|l| * ∑ b, ‖Q x b‖ * ‖v.ofLp b‖)) :
    ‖wvec w φ - wvec w (fun x => l * ∑ b, Q x b * v.ofLp b)‖ ≤ g * |l| * Real.sqrt (∑ x, ∑ b, w x * ‖Q x b‖ ^ 2) * ‖v‖ := by
  have hT : 0 ≤ ∑ x, ∑ b, w x * ‖Q x b‖ ^ 2 := Finset.sum_nonneg fun x _ => Finset.sum_nonneg fun b _ => mul_nonneg (hw x) (sq_nonneg _)
  rw [← wvec_sub, wvec_norm w hw, norm_W]
  refine Real.sqrt_le_iff.2 ⟨by positivity, ?_⟩
  rw [mul_pow, mul_pow, Real.sq_sqrt hT, Finset.mul_sum, Finset.sum_mul]
  refine Finset.sum_le_sum fun x _ => ?_
  have h1 : (∑ b, ‖Q x b‖ * ‖v.ofLp b‖) ^ 2 ≤ (∑ b, ‖Q x b‖ ^ 2) * ‖v‖ ^ 2 := by
    rw [EuclideanSpace.norm_sq_eq]
    exact Finset.sum_mul_sq_le_sq_mul_sq _ _ _
  have h2 := pow_le_pow_left₀ (norm_nonneg _) (hφ x) 2
  calc w x * ‖φ x - l * ∑ b, Q x b * v.ofLp b‖ ^ 2 ≤ w x * (g * (|l| * ∑ b, ‖Q x b‖ * ‖v.ofLp b‖)) ^ 2 := mul_le_mul_of_nonneg_left h2 (hw x)
    _ = w x * (g * |l|) ^ 2 * (∑ b, ‖Q x b‖ * ‖v.ofLp b‖) ^ 2 := by ring
    _ ≤ w x * (g * |l|) ^ 2 * ((∑ b, ‖Q x b‖ ^ 2) * ‖v‖ ^ 2) := mul_le_mul_of_nonneg_left h1 (mul_nonneg (hw x) (sq_nonneg _))
    _ = _ := by rw [← Finset.mul_sum]; ring

/-- the exact combination of a computed eigenvector with a residual -/
theorem combo_norm (Q : Matrix X (Fin nb) ℂ) (hnb : 0 < nb) (w : X → ℝ) (hw : ∀ x, 0 ≤ w x) (v : EuclideanSpace ℂ (Fin nb)) (l : ℝ) (hl : 0 ≤ l) (mu : ℂ) (hmu : 0 < mu.re) (B : ℝ)
    (hB : 0 ≤ B) (hr : ‖WithLp.toLp 2 ((crossSpectral Q w).mulVec v.ofLp) - mu • v‖ ≤ B * ‖v‖) :
    l * (Real.sqrt nb * Real.sqrt mu.re) * ‖v‖ * (1 - B / mu.re) ≤ ‖wvec w (fun x => l * ∑ b, Q x b * v.ofLp b)‖ ∧
    ‖wvec w (fun x => l * ∑ b, Q x b * v.ofLp b)‖ ≤ l * (Real.sqrt nb * Real.sqrt mu.re) * ‖v‖ * (1 + B / mu.re / 2) := by
  set N := ‖wvec w (fun x => l * ∑ b, Q x b * v.ofLp b)‖ with hN
  have hN0 : 0 ≤ N := norm_nonneg _
  set s := l * (Real.sqrt nb * Real.sqrt mu.re) * ‖v‖ with hs
  have hs0 : 0 ≤ s := by positivity
  have hn : (0 : ℝ) ≤ nb := Nat.cast_nonneg _
  set y := (inner ℂ v (WithLp.toLp 2 ((crossSpectral Q w).mulVec v.ofLp)) : ℂ).re with hy
  have e1 : N ^ 2 = l ^ 2 * nb * y := by
    have h1 : ((N ^ 2 : ℝ) : ℂ) = inner_W w (fun x => l * ∑ b, Q x b * v.ofLp b) (fun x => l * ∑ b, Q x b * v.ofLp b) := by
      rw [← wvec_inner w hw, hN, inner_self_eq_norm_sq_to_K]; push_cast; rfl
    have h2 : inner_W w (fun x => (l : ℂ) * ∑ b, Q x b * v.ofLp b) (fun x => l * ∑ b, Q x b * v.ofLp b) =
        ((l ^ 2 : ℝ) : ℂ) * inner_W w (fun x => ∑ b, Q x b * v.ofLp b) (fun x => ∑ b, Q x b * v.ofLp b) := by
      unfold inner_W
      rw [Finset.mul_sum]
      refine Finset.sum_congr rfl fun x _ => ?_
      rw [map_mul, Complex.conj_ofReal]; push_cast; ring
    rw [h2, combo_inner Q hnb w] at h1
    have := congrArg Complex.re h1
    rw [Complex.ofReal_re, Complex.re_ofReal_mul, ← Complex.ofReal_natCast, Complex.re_ofReal_mul] at this
    rw [this, hy]; ring
  have e2 : |y - mu.re * ‖v‖ ^ 2| ≤ B * ‖v‖ ^ 2 := by
    have h3 : y - mu.re * ‖v‖ ^ 2 = (inner ℂ v (WithLp.toLp 2 ((crossSpectral Q w).mulVec v.ofLp) - mu • v) : ℂ).re := by
      rw [inner_sub_right, inner_smul_right, inner_self_eq_norm_sq_to_K, Complex.sub_re, hy]
      congr 1
      show mu.re * ‖v‖ ^ 2 = (mu * (((‖v‖ : ℝ) : ℂ)) ^ 2).re
      rw [← Complex.ofReal_pow, Complex.re_mul_ofReal]
    rw [h3]
    refine (Complex.abs_re_le_norm _).trans ((norm_inner_le_norm _ _).trans ?_)
    have := mul_le_mul_of_nonneg_left hr (norm_nonneg v)
    linarith
  have e3 : s ^ 2 = l ^ 2 * nb * (mu.re * ‖v‖ ^ 2) := by
    rw [hs, mul_pow, mul_pow, mul_pow, Real.sq_sqrt hn, Real.sq_sqrt hmu.le]; ring
  have hln : 0 ≤ l ^ 2 * nb := by positivity
  have e4 : l ^ 2 * nb * (B * ‖v‖ ^ 2) = s ^ 2 * (B / mu.re) := by rw [e3]; field_simp
  obtain ⟨e5, e6⟩ := abs_le.1 e2
  have hε : 0 ≤ B / mu.re := div_nonneg hB hmu.le
  set ε := B / mu.re with hεd
  have lo : s ^ 2 * (1 - ε) ≤ N ^ 2 := by
    have := mul_le_mul_of_nonneg_left e5 hln
    rw [e1]; nlinarith
  have hi : N ^ 2 ≤ s ^ 2 * (1 + ε) := by
    have := mul_le_mul_of_nonneg_left e6 hln
    rw [e1]; nlinarith
  constructor
  · rcases le_total 1 ε with h | h
    · exact (mul_nonpos_of_nonneg_of_nonpos hs0 (by linarith)).trans hN0
    · refine (sq_le_sq₀ (mul_nonneg hs0 (by linarith)) hN0).1 ?_
      rw [mul_pow]
      refine le_trans (mul_le_mul_of_nonneg_left ?_ (sq_nonneg s)) lo
      nlinarith
  · refine (sq_le_sq₀ hN0 (mul_nonneg hs0 (by linarith))).1 (hi.trans ?_)
    rw [mul_pow s (1 + ε / 2)]
    refine mul_le_mul_of_nonneg_left ?_ (sq_nonneg s)
    nlinarith [sq_nonneg (ε / 2)]

/-- computed eigenvectors of eigenvalues apart from each other -/
theorem combo_apart (M : Matrix (Fin nb) (Fin nb) ℂ) (hM : M.IsHermitian) (v v' : EuclideanSpace ℂ (Fin nb)) (mu mu' : ℂ) (B B' : ℝ) (hne : mu.re ≠ mu'.re)
    (hr : ‖WithLp.toLp 2 (M.mulVec v.ofLp) - mu • v‖ ≤ B * ‖v‖) (hr' : ‖WithLp.toLp 2 (M.mulVec v'.ofLp) - mu' • v'‖ ≤ B' * ‖v'‖) :
    ‖(inner ℂ v (WithLp.toLp 2 (M.mulVec v'.ofLp)) : ℂ)‖ ≤ (B' + ‖mu'‖ * ((B + B') / |mu.re - mu'.re|)) * (‖v‖ * ‖v'‖) := by
  set r := WithLp.toLp 2 (M.mulVec v.ofLp) - mu • v with hrd
  set r' := WithLp.toLp 2 (M.mulVec v'.ofLp) - mu' • v' with hrd'
  have e1 : (WithLp.toLp 2 (M.mulVec v'.ofLp) : EuclideanSpace ℂ (Fin nb)) = mu' • v' + r' := by rw [hrd']; abel
  have e2 : (WithLp.toLp 2 (M.mulVec v.ofLp) : EuclideanSpace ℂ (Fin nb)) = mu • v + r := by rw [hrd]; abel
  have hsym : (inner ℂ v (WithLp.toLp 2 (M.mulVec v'.ofLp)) : ℂ) = inner ℂ (WithLp.toLp 2 (M.mulVec v.ofLp) : EuclideanSpace ℂ (Fin nb)) v' := by
    rw [EuclideanSpace.inner_eq_star_dotProduct, EuclideanSpace.inner_eq_star_dotProduct]
    show M.mulVec v'.ofLp ⬝ᵥ star v.ofLp = v'.ofLp ⬝ᵥ star (M.mulVec v.ofLp)
    rw [Matrix.star_mulVec, hM.eq, dotProduct_comm, Matrix.dotProduct_mulVec, dotProduct_comm]
  have n1 : ‖(inner ℂ v r' : ℂ)‖ ≤ B' * (‖v‖ * ‖v'‖) := by
    have := mul_le_mul_of_nonneg_left hr' (norm_nonneg v)
    refine (norm_inner_le_norm _ _).trans ?_
    linarith
  have n2 : ‖(inner ℂ r v' : ℂ)‖ ≤ B * (‖v‖ * ‖v'‖) := by
    have := mul_le_mul_of_nonneg_right hr (norm_nonneg v')
    refine (norm_inner_le_norm _ _).trans ?_
    linarith
  have hgap : 0 < |mu.re - mu'.re| := abs_pos.2 (sub_ne_zero.2 hne)
  have h1 : (conj mu - mu') * (inner ℂ v v' : ℂ) = inner ℂ v r' - inner ℂ r v' := by
    have h2 := hsym
    rw [e1, e2, inner_add_right, inner_smul_right, inner_add_left, inner_smul_left] at h2
    rw [sub_mul]
    linear_combination -h2
  have h3 : |mu.re - mu'.re| ≤ ‖conj mu - mu'‖ := by
    have := Complex.abs_re_le_norm (conj mu - mu')
    rwa [Complex.sub_re, Complex.conj_re] at this
  have h4 : |mu.re - mu'.re| * ‖(inner ℂ v v' : ℂ)‖ ≤ (B + B') * (‖v‖ * ‖v'‖) := by
    refine (mul_le_mul_of_nonneg_right h3 (norm_nonneg _)).trans ?_
    rw [← norm_mul, h1]
    refine (norm_sub_le _ _).trans ?_
    linarith
  have h5 : ‖(inner ℂ v v' : ℂ)‖ ≤ (B + B') / |mu.re - mu'.re| * (‖v‖ * ‖v'‖) := by
    rw [div_mul_eq_mul_div, le_div_iff₀ hgap, mul_comm]; exact h4
  rw [e1, inner_add_right, inner_smul_right]
  refine (norm_add_le _ _).trans ?_
  rw [norm_mul]
  have := mul_le_mul_of_nonneg_left h5 (norm_nonneg mu')
  linarith

end

/-- the matrix of the computed blocks and the computed matrix: what a residual means -/
theorem residual_exact {nb : Nat} (hnb : 0 < nb) (Qs : Nat → Arr ℂ) (w : Arr ℝ) (hw : ∀ idx, InRange w.shape idx → 0 ≤ w.at' idx)
    (hsh : ∀ b, (Qs b).shape = w.shape) (u : ℝ) (hu : 0 ≤ u) (comms : List Comm) (hc : Procs comms) (ax : Nat) (hax : ax < w.shape.length) (n : Nat)
    (hn : ∀ comm ∈ comms, size (distributeDimension w ax comm).shape ≤ n) (Mh : Matrix (Fin nb) (Fin nb) ℂ)
    (hMh : ∀ i j : Fin nb, FlGram u comms ax Qs w nb i j (Mh i j)) (Q : Matrix (Fin (size w.shape)) (Fin nb) ℂ)
    (hQ : Q = Matrix.of fun (x : Fin (size w.shape)) (b : Fin nb) => (Qs b).at' (unravel w.shape x)) (tr : ℝ)
    (htr : tr = (∑ x : Fin (size w.shape), ∑ b, specW w x * ‖Q x b‖ ^ 2) / nb) (mu : ℂ) (δ : ℝ) (v : EuclideanSpace ℂ (Fin nb))
    (hres : ‖WithLp.toLp 2 (Mh.mulVec v.ofLp) - mu • v‖ ≤ δ * ‖v‖) :
    ‖WithLp.toLp 2 ((crossSpectral Q (specW w)).mulVec v.ofLp) - mu • v‖ ≤ (roundBound u n comms.length * tr + δ) * ‖v‖ := by
  obtain ⟨hE, -, -⟩ := matrix_rounding hnb Qs w hw hsh (solver_full_exists nb).choose (solver_full_exists nb).choose_spec 1 u hu comms hc ax hax n hn Mh hMh Q hQ
  have hw' : ∀ x, 0 ≤ specW w x := fun x => hw _ (inRange_unravel x.2)
  set M := crossSpectral Q (specW w) with hMd
  have hdiag : ∀ i, M i i = (((∑ x, specW w x * ‖Q x i‖ ^ 2) / nb : ℝ) : ℂ) := cross_diag Q (specW w)
  have hd : ∀ i, 0 ≤ (M i i).re := fun i => by
    rw [hdiag, Complex.ofReal_re]
    exact div_nonneg (Finset.sum_nonneg fun x _ => mul_nonneg (hw' x) (sq_nonneg _)) (Nat.cast_nonneg _)
  have h3 := error_norm (Mh - M) (fun i => (M i i).re) hd _ (roundBound_nonneg hu n comms.length) hE v
  have e : WithLp.toLp 2 (M.mulVec v.ofLp) - mu • v = (WithLp.toLp 2 (Mh.mulVec v.ofLp) - mu • v) - WithLp.toLp 2 ((Mh - M).mulVec v.ofLp) := by
    rw [Matrix.sub_mulVec]
    ext i
    simp
  have ht : ∑ i, (M i i).re = tr := by
    rw [htr, Finset.sum_comm, Finset.sum_div]
    exact Finset.sum_congr rfl fun i _ => by rw [hdiag, Complex.ofReal_re]
  rw [ht] at h3
  rw [e, add_mul, add_comm]
  exact (norm_sub_le _ _).trans (add_le_add hres h3)

/-- **C238.** The modes of a fit in floating-point arithmetic, for any blocks `Qs` of Fourier coefficients: the matrix is computed with unit roundoff `u` on any number of
    ranks and in any order, the eigen-solver returns `mu` and `v` with a residual of at most `δ`, the factor and the products are rounded.  With `lam` the real part
    of `mu` and `tr` the energy of the blocks, the weighted norm of the stored mode is that of `v` up to the relative errors `roundBound u n p tr / lam + δ / lam` and
    `roundBound u nb 0 √(tr / lam)`, and four roundings. -/
theorem mode_unit_norm {nb : Nat} (hnb : 0 < nb) (Qs : Nat → Arr ℂ) (w : Arr ℝ) (hw : ∀ idx, InRange w.shape idx → 0 ≤ w.at' idx)
    (hsh : ∀ b, (Qs b).shape = w.shape) (u : ℝ) (hu : 0 ≤ u) (hu1 : u < 1) (comms : List Comm) (hc : Procs comms) (ax : Nat) (hax : ax < w.shape.length) (n : Nat)
    (hn : ∀ comm ∈ comms, size (distributeDimension w ax comm).shape ≤ n) (Mh : Matrix (Fin nb) (Fin nb) ℂ)
    (hMh : ∀ i j : Fin nb, FlGram u comms ax Qs w nb i j (Mh i j)) (mu : ℂ) (δ : ℝ) (hδ : 0 ≤ δ) (v : EuclideanSpace ℂ (Fin nb))
    (hres : ‖WithLp.toLp 2 (Mh.mulVec v.ofLp) - mu • v‖ ≤ δ * ‖v‖) (hmu : 0 < mu.re) (l : ℝ) (hl : FlFactor u nb mu.re l) (φ : Fin (size w.shape) → ℂ)
    (hφ : ∀ x : Fin (size w.shape), FlMode u (fun b : Fin nb => (Qs b).at' (unravel w.shape x)) v.ofLp l (φ x)) :
    let tr := (∑ x : Fin (size w.shape), ∑ b : Fin nb, specW w x * ‖(Qs b).at' (unravel w.shape x)‖ ^ 2) / nb
    let ε := (roundBound u n comms.length * tr + δ) / mu.re
    let η := roundBound u nb 0 * Real.sqrt (tr / mu.re)
    (1 - u) / (1 + u) ^ 3 * ‖v‖ * (1 - ε - η) ≤ norm_W (specW w) φ ∧ norm_W (specW w) φ ≤ (1 + u) / (1 - u) ^ 3 * ‖v‖ * (1 + ε / 2 + η) := by
  intro tr ε η
  have hw' : ∀ x, 0 ≤ specW w x := fun x => hw _ (inRange_unravel x.2)
  set Q := Matrix.of fun (x : Fin (size w.shape)) (b : Fin nb) => (Qs b).at' (unravel w.shape x) with hQ
  have htr0 : 0 ≤ tr := div_nonneg (Finset.sum_nonneg fun x _ => Finset.sum_nonneg fun b _ => mul_nonneg (hw' x) (sq_nonneg _)) (Nat.cast_nonneg _)
  have hr := residual_exact hnb Qs w hw hsh u hu comms hc ax hax n hn Mh hMh Q hQ tr rfl mu δ v hres
  obtain ⟨s1, s2⟩ := factor_near hu hu1 nb hnb mu.re hmu l hl
  set s := l * (Real.sqrt nb * Real.sqrt mu.re) with hs
  have hs0 : 0 < s := lt_of_lt_of_le (div_pos (by linarith) (by positivity)) s1
  have hN : 0 < Real.sqrt nb * Real.sqrt mu.re := mul_pos (Real.sqrt_pos.2 (by exact_mod_cast hnb)) (Real.sqrt_pos.2 hmu)
  have hl0 : 0 < l := (mul_pos_iff_of_pos_right hN).1 hs0
  have hB0 : 0 ≤ roundBound u n comms.length * tr + δ := add_nonneg (mul_nonneg (roundBound_nonneg hu _ _) htr0) hδ
  obtain ⟨c1, c2⟩ := combo_norm Q hnb (specW w) hw' v l hl0.le mu hmu _ hB0 hr
  have hg := roundBound_nonneg hu nb 0
  have c3 := combo_error Q (specW w) hw' φ v l (roundBound u nb 0) hg fun x => mode_point hu _ _ l _ (hφ x)
  have e1 : roundBound u nb 0 * |l| * Real.sqrt (∑ x, ∑ b, specW w x * ‖Q x b‖ ^ 2) * ‖v‖ = s * ‖v‖ * η := by
    have hn0 : (0 : ℝ) < nb := by exact_mod_cast hnb
    have e2 : (∑ x, ∑ b, specW w x * ‖Q x b‖ ^ 2) = nb * tr := by
      show _ = (nb : ℝ) * (_ / (nb : ℝ))
      rw [mul_div_cancel₀ _ hn0.ne']; rfl
    have e3 : Real.sqrt mu.re * Real.sqrt (tr / mu.re) = Real.sqrt tr := by
      rw [← Real.sqrt_mul hmu.le, mul_div_cancel₀ _ hmu.ne']
    rw [e2, Real.sqrt_mul hn0.le, abs_of_pos hl0, ← e3]
    show _ = l * (Real.sqrt nb * Real.sqrt mu.re) * ‖v‖ * (roundBound u nb 0 * Real.sqrt (tr / mu.re))
    ring
  rw [e1] at c3
  have hη : 0 ≤ η := mul_nonneg hg (Real.sqrt_nonneg _)
  have hε : 0 ≤ ε := div_nonneg hB0 hmu.le
  rw [← wvec_norm _ hw']
  have t1 := norm_sub_norm_le (wvec (specW w) fun x => l * ∑ b, Q x b * v.ofLp b) (wvec (specW w) φ)
  have t2 := norm_sub_norm_le (wvec (specW w) φ) (wvec (specW w) fun x => l * ∑ b, Q x b * v.ofLp b)
  rw [norm_sub_rev] at t1
  constructor
  · have : s * ‖v‖ * (1 - ε - η) ≤ ‖wvec (specW w) φ‖ := by
      have e4 : s * ‖v‖ * (1 - ε - η) = s * ‖v‖ * (1 - ε) - s * ‖v‖ * η := by ring
      rw [e4]; linarith
    rcases le_total (1 - ε - η) 0 with h | h
    · exact (mul_nonpos_of_nonneg_of_nonpos (mul_nonneg (div_nonneg (by linarith) (by positivity)) (norm_nonneg _)) h).trans (norm_nonneg _)
    · refine le_trans ?_ this
      exact mul_le_mul_of_nonneg_right (mul_le_mul_of_nonneg_right s1 (norm_nonneg _)) h
  · have : ‖wvec (specW w) φ‖ ≤ s * ‖v‖ * (1 + ε / 2 + η) := by
      have e4 : s * ‖v‖ * (1 + ε / 2 + η) = s * ‖v‖ * (1 + ε / 2) + s * ‖v‖ * η := by ring
      rw [e4]; linarith
    refine this.trans ?_
    exact mul_le_mul_of_nonneg_right (mul_le_mul_of_nonneg_right s2 (norm_nonneg _)) (by linarith)

/-- **C238.** Two modes of the same frequency: their weighted product, relative to their norms, is at most the residuals relative to the eigenvalues and to the distance of the
    eigenvalues, and the rounding errors of the products. -/
theorem modes_orthogonal {nb : Nat} (hnb : 0 < nb) (Qs : Nat → Arr ℂ) (w : Arr ℝ) (hw : ∀ idx, InRange w.shape idx → 0 ≤ w.at' idx)
    (hsh : ∀ b, (Qs b).shape = w.shape) (u : ℝ) (hu : 0 ≤ u) (hu1 : u < 1) (comms : List Comm) (hc : Procs comms) (ax : Nat) (hax : ax < w.shape.length) (n : Nat)
    (hn : ∀ comm ∈ comms, size (distributeDimension w ax comm).shape ≤ n) (Mh : Matrix (Fin nb) (Fin nb) ℂ)
    (hMh : ∀ i j : Fin nb, FlGram u comms ax Qs w nb i j (Mh i j)) (mu mu' : ℂ) (δ : ℝ) (hδ : 0 ≤ δ) (v v' : EuclideanSpace ℂ (Fin nb))
    (hres : ‖WithLp.toLp 2 (Mh.mulVec v.ofLp) - mu • v‖ ≤ δ * ‖v‖) (hres' : ‖WithLp.toLp 2 (Mh.mulVec v'.ofLp) - mu' • v'‖ ≤ δ * ‖v'‖)
    (hmu : 0 < mu.re) (hmu' : 0 < mu'.re) (hne : mu.re ≠ mu'.re) (l l' : ℝ) (hl : FlFactor u nb mu.re l) (hl' : FlFactor u nb mu'.re l')
    (φ φ' : Fin (size w.shape) → ℂ) (hφ : ∀ x : Fin (size w.shape), FlMode u (fun b : Fin nb => (Qs b).at' (unravel w.shape x)) v.ofLp l (φ x))
    (hφ' : ∀ x : Fin (size w.shape), FlMode u (fun b : Fin nb => (Qs b).at' (unravel w.shape x)) v'.ofLp l' (φ' x)) :
    let tr := (∑ x : Fin (size w.shape), ∑ b : Fin nb, specW w x * ‖(Qs b).at' (unravel w.shape x)‖ ^ 2) / nb
    let B := roundBound u n comms.length * tr + δ
    let η := roundBound u nb 0 * Real.sqrt (tr / mu.re)
    let η' := roundBound u nb 0 * Real.sqrt (tr / mu'.re)
    ‖inner_W (specW w) φ φ'‖ ≤ ((1 + u) / (1 - u) ^ 3) ^ 2 * (‖v‖ * ‖v'‖) *
      (B * (1 + 2 * ‖mu'‖ / |mu.re - mu'.re|) / Real.sqrt (mu.re * mu'.re) +
        (η * (1 + B / mu'.re / 2) + η' * (1 + B / mu.re / 2) + η * η')) := by
  intro tr B η η'
  have hw' : ∀ x, 0 ≤ specW w x := fun x => hw _ (inRange_unravel x.2)
  set Q := Matrix.of fun (x : Fin (size w.shape)) (b : Fin nb) => (Qs b).at' (unravel w.shape x) with hQ
  have htr0 : 0 ≤ tr := div_nonneg (Finset.sum_nonneg fun x _ => Finset.sum_nonneg fun b _ => mul_nonneg (hw' x) (sq_nonneg _)) (Nat.cast_nonneg _)
  have hB0 : 0 ≤ B := add_nonneg (mul_nonneg (roundBound_nonneg hu _ _) htr0) hδ
  have hg := roundBound_nonneg hu nb 0
  have hn0 : (0 : ℝ) < nb := by exact_mod_cast hnb
  have one : ∀ (mu : ℂ) (v : EuclideanSpace ℂ (Fin nb)) (l : ℝ) (φ : Fin (size w.shape) → ℂ), ‖WithLp.toLp 2 (Mh.mulVec v.ofLp) - mu • v‖ ≤ δ * ‖v‖ → 0 < mu.re →
      FlFactor u nb mu.re l → (∀ x : Fin (size w.shape), FlMode u (fun b : Fin nb => (Qs b).at' (unravel w.shape x)) v.ofLp l (φ x)) →
      0 < l ∧ l * (Real.sqrt nb * Real.sqrt mu.re) ≤ (1 + u) / (1 - u) ^ 3 ∧
      ‖wvec (specW w) (fun x => l * ∑ b, Q x b * v.ofLp b)‖ ≤ l * (Real.sqrt nb * Real.sqrt mu.re) * ‖v‖ * (1 + B / mu.re / 2) ∧
      ‖wvec (specW w) φ - wvec (specW w) (fun x => l * ∑ b, Q x b * v.ofLp b)‖ ≤
        l * (Real.sqrt nb * Real.sqrt mu.re) * ‖v‖ * (roundBound u nb 0 * Real.sqrt (tr / mu.re)) := by
    intro mu v l φ hres hmu hl hφ
    have hr := residual_exact hnb Qs w hw hsh u hu comms hc ax hax n hn Mh hMh Q hQ tr rfl mu δ v hres
    obtain ⟨s1, s2⟩ := factor_near hu hu1 nb hnb mu.re hmu l hl
    have hs0 : 0 < l * (Real.sqrt nb * Real.sqrt mu.re) := lt_of_lt_of_le (div_pos (by linarith) (by positivity)) s1
    have hN : 0 < Real.sqrt nb * Real.sqrt mu.re := mul_pos (Real.sqrt_pos.2 hn0) (Real.sqrt_pos.2 hmu)
    have hl0 : 0 < l := (mul_pos_iff_of_pos_right hN).1 hs0
    refine ⟨hl0, s2, (combo_norm Q hnb (specW w) hw' v l hl0.le mu hmu _ hB0 hr).2, ?_⟩
    refine (combo_error Q (specW w) hw' φ v l (roundBound u nb 0) hg fun x => mode_point hu _ _ l _ (hφ x)).trans (le_of_eq ?_)
    have e2 : (∑ x, ∑ b, specW w x * ‖Q x b‖ ^ 2) = nb * tr := by
      show _ = (nb : ℝ) * (_ / (nb : ℝ))
      rw [mul_div_cancel₀ _ hn0.ne']; rfl
    have e3 : Real.sqrt mu.re * Real.sqrt (tr / mu.re) = Real.sqrt tr := by
      rw [← Real.sqrt_mul hmu.le, mul_div_cancel₀ _ hmu.ne']
    rw [e2, Real.sqrt_mul hn0.le, abs_of_pos hl0, ← e3]
    ring
  obtain ⟨p1, p2, p3, p4⟩ := one mu v l φ hres hmu hl hφ
  obtain ⟨q1, q2, q3, q4⟩ := one mu' v' l' φ' hres' hmu' hl' hφ'
  set a := wvec (specW w) (fun x => l * ∑ b, Q x b * v.ofLp b) with ha
  set a' := wvec (specW w) (fun x => l' * ∑ b, Q x b * v'.ofLp b) with ha'
  have hap := combo_apart (crossSpectral Q (specW w)) (crossSpectral_posSemidef Q (specW w) hw').1 v v' mu mu' B B hne
    (residual_exact hnb Qs w hw hsh u hu comms hc ax hax n hn Mh hMh Q hQ tr rfl mu δ v hres)
    (residual_exact hnb Qs w hw hsh u hu comms hc ax hax n hn Mh hMh Q hQ tr rfl mu' δ v' hres')
  set S := l * (Real.sqrt nb * Real.sqrt mu.re) with hS
  set S' := l' * (Real.sqrt nb * Real.sqrt mu'.re) with hS'
  have hS0 : 0 ≤ S := by positivity
  have hS0' : 0 ≤ S' := by positivity
  have hm : 0 < Real.sqrt (mu.re * mu'.re) := Real.sqrt_pos.2 (mul_pos hmu hmu')
  have main : ‖(inner ℂ a a' : ℂ)‖ ≤ S * S' * (‖v‖ * ‖v'‖) * (B * (1 + 2 * ‖mu'‖ / |mu.re - mu'.re|) / Real.sqrt (mu.re * mu'.re)) := by
    have h1 : (inner ℂ a a' : ℂ) = ((l * l' * nb : ℝ) : ℂ) * inner ℂ v (WithLp.toLp 2 ((crossSpectral Q (specW w)).mulVec v'.ofLp)) := by
      rw [ha, ha', wvec_inner _ hw']
      have h2 := combo_inner Q hnb (specW w) v v'
      have h3 : inner_W (specW w) (fun x => (l : ℂ) * ∑ b, Q x b * v.ofLp b) (fun x => l' * ∑ b, Q x b * v'.ofLp b) =
          ((l * l' : ℝ) : ℂ) * inner_W (specW w) (fun x => ∑ b, Q x b * v.ofLp b) (fun x => ∑ b, Q x b * v'.ofLp b) := by
        unfold inner_W
        rw [Finset.mul_sum]
        refine Finset.sum_congr rfl fun x _ => ?_
        rw [map_mul, Complex.conj_ofReal]; push_cast; ring
      rw [h3, h2]; push_cast; ring
    have h4 : l * l' * nb * Real.sqrt (mu.re * mu'.re) = S * S' := by
      rw [hS, hS', Real.sqrt_mul hmu.le]
      have := Real.mul_self_sqrt hn0.le
      calc l * l' * nb * (Real.sqrt mu.re * Real.sqrt mu'.re) = l * l' * (Real.sqrt nb * Real.sqrt nb) * (Real.sqrt mu.re * Real.sqrt mu'.re) := by rw [this]
        _ = _ := by ring
    have h5 : l * l' * nb = S * S' / Real.sqrt (mu.re * mu'.re) := by rw [← h4]; field_simp
    rw [h1, norm_mul, Complex.norm_real, Real.norm_eq_abs, abs_of_nonneg (by positivity)]
    refine (mul_le_mul_of_nonneg_left hap (by positivity)).trans (le_of_eq ?_)
    rw [h5]
    ring
  set e := wvec (specW w) φ - a with he
  set e' := wvec (specW w) φ' - a' with he'
  have hsum : inner_W (specW w) φ φ' = inner ℂ a a' + (inner ℂ e a' + inner ℂ a e' + inner ℂ e e') := by
    rw [← wvec_inner _ hw', show wvec (specW w) φ = a + e by rw [he]; abel, show wvec (specW w) φ' = a' + e' by rw [he']; abel,
      inner_add_left, inner_add_right, inner_add_right]
    ring
  have hη : 0 ≤ η := mul_nonneg hg (Real.sqrt_nonneg _)
  have hη' : 0 ≤ η' := mul_nonneg hg (Real.sqrt_nonneg _)
  have b1 : ‖(inner ℂ e a' : ℂ)‖ ≤ S * S' * (‖v‖ * ‖v'‖) * (η * (1 + B / mu'.re / 2)) := by
    refine (norm_inner_le_norm _ _).trans ((mul_le_mul p4 q3 (norm_nonneg _) ?_).trans (le_of_eq ?_))
    · exact mul_nonneg (mul_nonneg hS0 (norm_nonneg _)) hη
    · ring
  have b2 : ‖(inner ℂ a e' : ℂ)‖ ≤ S * S' * (‖v‖ * ‖v'‖) * (η' * (1 + B / mu.re / 2)) := by
    refine (norm_inner_le_norm _ _).trans ((mul_le_mul p3 q4 (norm_nonneg _) ?_).trans (le_of_eq ?_))
    · exact (norm_nonneg _).trans p3
    · ring
  have b3 : ‖(inner ℂ e e' : ℂ)‖ ≤ S * S' * (‖v‖ * ‖v'‖) * (η * η') := by
    refine (norm_inner_le_norm _ _).trans ((mul_le_mul p4 q4 (norm_nonneg _) ?_).trans (le_of_eq ?_))
    · exact mul_nonneg (mul_nonneg hS0 (norm_nonneg _)) hη
    · ring
  have hfin : ‖inner_W (specW w) φ φ'‖ ≤ S * S' * (‖v‖ * ‖v'‖) * (B * (1 + 2 * ‖mu'‖ / |mu.re - mu'.re|) / Real.sqrt (mu.re * mu'.re) +
        (η * (1 + B / mu'.re / 2) + η' * (1 + B / mu.re / 2) + η * η')) := by
    rw [hsum]
    have t1 := norm_add_le (inner ℂ e a' + inner ℂ a e' : ℂ) (inner ℂ e e')
    have t2 := norm_add_le (inner ℂ e a' : ℂ) (inner ℂ a e')
    refine (norm_add_le _ _).trans ((add_le_add main (t1.trans (add_le_add (t2.trans (add_le_add b1 b2)) b3))).trans (le_of_eq ?_))
    ring
  refine hfin.trans (mul_le_mul_of_nonneg_right (mul_le_mul_of_nonneg_right ?_ (by positivity)) ?_)
  · rw [sq]
    exact mul_le_mul p2 q2 hS0' ((hS0).trans p2)
  · have z1 : 0 ≤ B / mu.re / 2 := by positivity
    have z2 : 0 ≤ B / mu'.re / 2 := by positivity
    positivity

/-! ### Cases -/

theorem factor_exact_possible {u : ℝ} (hu : 0 ≤ u) (nb : Nat) (lam : ℝ) : FlFactor u nb lam (1 / (Real.sqrt nb * Real.sqrt lam)) :=
  ⟨_, _, _, rounds_exact hu _, rounds_exact hu _, rounds_exact hu _, rounds_exact hu _⟩

/-- the exact values of a mode are possible, whatever the roundoff -/
theorem mode_exact_possible {u : ℝ} (hu : 0 ≤ u) {nb : Nat} (q v : Fin nb → ℂ) (l : ℝ) : FlMode u q v l (l * ∑ b, q b * v b) := by
  refine ⟨fun b => v b * l, fun b => ⟨?_, ?_⟩, ?_, ?_⟩
  · rw [Complex.re_mul_ofReal]; exact rounds_exact hu _
  · rw [Complex.im_mul_ofReal]; exact rounds_exact hu _
  · have := dot_exact hu ((List.finRange nb).flatMap fun b => [((q b).re, (v b * l).re), (-(q b).im, (v b * l).im)])
    simp only [List.map_flatMap, List.map_cons, List.map_nil, finRange_two_sum] at this
    convert this using 1
    rw [Complex.re_ofReal_mul, Complex.re_sum, Finset.mul_sum]
    exact Finset.sum_congr rfl fun b _ => by rw [Complex.mul_re, Complex.re_mul_ofReal, Complex.im_mul_ofReal]; ring
  · have := dot_exact hu ((List.finRange nb).flatMap fun b => [((q b).re, (v b * l).im), ((q b).im, (v b * l).re)])
    simp only [List.map_flatMap, List.map_cons, List.map_nil, finRange_two_sum] at this
    convert this using 1
    rw [Complex.im_ofReal_mul, Complex.im_sum, Finset.mul_sum]
    exact Finset.sum_congr rfl fun b _ => by rw [Complex.mul_im, Complex.re_mul_ofReal, Complex.im_mul_ofReal]; ring

/-- **C238**, why the eigenvalue must be large: one point, two equal blocks.  The matrix `[[1, 1 - u], [1 - u, 1]] / 2` is possible, has the eigenvalue `u / 2` with the vector
    `(1, -1)`, and the stored mode of that eigenvalue is exactly zero. -/
theorem small_mode_lost (u : ℝ) (hu : 0 < u) :
    let Mh : Matrix (Fin 2) (Fin 2) ℂ := Matrix.of fun i j => ((if i = j then 1 / 2 else (1 - u) / 2 : ℝ) : ℂ)
    (∀ i j : Fin 2, FlGram u [none] 0 (fun _ => ⟨[1], fun _ => 1⟩) ⟨[1], fun _ => 1⟩ 2 i j (Mh i j)) ∧
    Mh.mulVec ![1, -1] = ((u / 2 : ℝ) : ℂ) • ![1, -1] ∧
    ∃ l, FlFactor u 2 (u / 2) l ∧ 0 < l ∧ FlMode u (fun _ : Fin 2 => (1 : ℂ)) ![1, -1] l 0 := by
  intro Mh
  refine ⟨fun i j => ?_, ?_, 1 / (Real.sqrt (2 : Nat) * Real.sqrt (u / 2)), factor_exact_possible hu.le 2 (u / 2), ?_, ?_⟩
  · refine ⟨[Mh i j], .cons ?_ .nil, Or.inr ⟨.rank _, List.Perm.refl _, rfl⟩, Or.inr ⟨.rank _, List.Perm.refl _, rfl⟩⟩
    refine ⟨fun _ => 1, 1, fun k _ => ⟨?_, ?_⟩, ?_, ?_, ?_, ?_⟩
    · simp [distributeDimension, Rounds]; exact hu.le
    · simp [distributeDimension, Rounds]
    · have := dot_exact hu.le (dotRe (fun k => (1 : ℂ)) (fun _ => 1) 1)
      simpa [dotRe, distributeDimension, size] using this
    · have := dot_exact hu.le (dotIm (fun k => (1 : ℂ)) (fun _ => 1) 1)
      simpa [dotIm, distributeDimension, size] using this
    · simp only [Rounds, Complex.one_re, Mh, Matrix.of_apply, Complex.ofReal_re]
      split
      · simp; positivity
      · rw [show (1 - u) / 2 - 1 / 2 = -(u * (1 / 2)) by ring, abs_neg, abs_mul, abs_of_nonneg hu.le]
    · simp [Rounds, Mh]
  · ext i
    fin_cases i <;> simp [Mh, Matrix.mulVec, dotProduct, Fin.sum_univ_two] <;> ring
  · have : 0 < Real.sqrt (u / 2) := Real.sqrt_pos.2 (by linarith)
    positivity
  · have := mode_exact_possible hu.le (fun _ : Fin 2 => (1 : ℂ)) ![1, -1] (1 / (Real.sqrt (2 : Nat) * Real.sqrt (u / 2)))
    simpa [Fin.sum_univ_two] using this

/-- double precision, a hundred blocks, a million values per rank, 64 ranks, an eigenvalue of at least a thousandth of the energy, a residual of at most `10^-10` of the eigenvalue:
    the mode of a unit vector has norm 1 up to `10^-6` -/
example (Qs : Nat → Arr ℂ) (w : Arr ℝ) (hw : ∀ idx, InRange w.shape idx → 0 ≤ w.at' idx) (hsh : ∀ b, (Qs b).shape = w.shape) (ax : Nat) (hax : ax < w.shape.length)
    (hn : ∀ comm ∈ Proj.ranksOf 64, size (distributeDimension w ax comm).shape ≤ 1000000) (Mh : Matrix (Fin 100) (Fin 100) ℂ)
    (hMh : ∀ i j : Fin 100, FlGram (1 / 2 ^ 53) (Proj.ranksOf 64) ax Qs w (100 : Nat) i j (Mh i j)) (mu : ℂ) (hmu : 0 < mu.re) (v : EuclideanSpace ℂ (Fin 100)) (hv : ‖v‖ = 1)
    (hres : ‖WithLp.toLp 2 (Mh.mulVec v.ofLp) - mu • v‖ ≤ (mu.re / 10 ^ 10) * ‖v‖) (l : ℝ) (hl : FlFactor (1 / 2 ^ 53) 100 mu.re l) (φ : Fin (size w.shape) → ℂ)
    (hφ : ∀ x : Fin (size w.shape), FlMode (1 / 2 ^ 53) (fun b : Fin 100 => (Qs b).at' (unravel w.shape x)) v.ofLp l (φ x))
    (htr : (∑ x : Fin (size w.shape), ∑ b : Fin 100, specW w x * ‖(Qs b).at' (unravel w.shape x)‖ ^ 2) / (100 : Nat) ≤ 1000 * mu.re) :
    |norm_W (specW w) φ - 1| ≤ 1 / 10 ^ 6 := by
  have h := mode_unit_norm (nb := 100) (by norm_num) Qs w hw hsh (1 / 2 ^ 53) (by norm_num) (by norm_num) (Proj.ranksOf 64) (Or.inr ⟨64, by norm_num, rfl⟩) ax hax 1000000 hn Mh hMh mu
    (mu.re / 10 ^ 10) (by positivity) v hres hmu l hl φ hφ
  have hp : (Proj.ranksOf 64).length = 64 := by simp [Proj.ranksOf]
  simp only [hv, hp] at h
  have hw' : ∀ x, 0 ≤ specW w x := fun x => hw _ (inRange_unravel x.2)
  set tr := (∑ x : Fin (size w.shape), ∑ b : Fin 100, specW w x * ‖(Qs b).at' (unravel w.shape x)‖ ^ 2) / (100 : Nat) with htrd
  have htr0 : 0 ≤ tr := div_nonneg (Finset.sum_nonneg fun x _ => Finset.sum_nonneg fun b _ => mul_nonneg (hw' x) (sq_nonneg _)) (Nat.cast_nonneg _)
  have r1 := roundBound_le (u := 1 / 2 ^ 53) (by norm_num) 1000000 64 (by norm_num)
  have r2 := roundBound_le (u := 1 / 2 ^ 53) (by norm_num) 100 0 (by norm_num)
  have g1 := roundBound_nonneg (u := 1 / 2 ^ 53) (by norm_num) 1000000 64
  have g2 := roundBound_nonneg (u := 1 / 2 ^ 53) (by norm_num) 100 0
  have hq : tr / mu.re ≤ 1000 := by rw [div_le_iff₀ hmu]; exact htr
  have hq0 : 0 ≤ tr / mu.re := div_nonneg htr0 hmu.le
  have hε : (roundBound (1 / 2 ^ 53) 1000000 64 * tr + mu.re / 10 ^ 10) / mu.re ≤ 4 / 10 ^ 7 := by
    have e : (roundBound (1 / 2 ^ 53) 1000000 64 * tr + mu.re / 10 ^ 10) / mu.re = roundBound (1 / 2 ^ 53) 1000000 64 * (tr / mu.re) + 1 / 10 ^ 10 := by field_simp
    rw [e]
    have r3 : roundBound (1 / 2 ^ 53) 1000000 64 ≤ 35 / 10 ^ 11 := r1.trans (by norm_num)
    have := mul_le_mul r3 hq hq0 (by norm_num)
    linarith
  have hε0 : 0 ≤ (roundBound (1 / 2 ^ 53) 1000000 64 * tr + mu.re / 10 ^ 10) / mu.re :=
    div_nonneg (add_nonneg (mul_nonneg g1 htr0) (div_nonneg hmu.le (by norm_num))) hmu.le
  have hη : roundBound (1 / 2 ^ 53) 100 0 * Real.sqrt (tr / mu.re) ≤ 1 / 10 ^ 7 := by
    have hs : Real.sqrt (tr / mu.re) ≤ 32 := Real.sqrt_le_iff.2 ⟨by norm_num, hq.trans (by norm_num)⟩
    have r3 : roundBound (1 / 2 ^ 53) 100 0 ≤ 1 / 10 ^ 10 := r2.trans (by norm_num)
    have := mul_le_mul r3 hs (Real.sqrt_nonneg _) (by norm_num)
    linarith
  have hη0 : 0 ≤ roundBound (1 / 2 ^ 53) 100 0 * Real.sqrt (tr / mu.re) := mul_nonneg g2 (Real.sqrt_nonneg _)
  set ε := (roundBound (1 / 2 ^ 53) 1000000 64 * tr + mu.re / 10 ^ 10) / mu.re
  set η := roundBound (1 / 2 ^ 53) 100 0 * Real.sqrt (tr / mu.re)
  obtain ⟨h1, h2⟩ := h
  rw [mul_one] at h1 h2
  have k1 : (1 : ℝ) - 1 / 10 ^ 10 ≤ (1 - 1 / 2 ^ 53) / (1 + 1 / 2 ^ 53) ^ 3 := by norm_num
  have k2 : (1 + 1 / 2 ^ 53) / (1 - 1 / 2 ^ 53) ^ 3 ≤ (1 : ℝ) + 1 / 10 ^ 10 := by norm_num
  have m1 := mul_le_mul_of_nonneg_right k1 (by linarith : 0 ≤ 1 - ε - η)
  have m2 := mul_le_mul_of_nonneg_right k2 (by linarith : 0 ≤ 1 + ε / 2 + η)
  rw [abs_le]
  constructor <;> linarith

end Verif.Props
