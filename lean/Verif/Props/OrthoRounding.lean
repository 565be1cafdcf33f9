import Verif.Model.OrthoRounding
import Verif.Props.ModeRounding
/-
  C243: `check_orthogonality` on modes computed in floating-point arithmetic.
-/
namespace Verif.Props
open Verif Verif.Par Verif.Round Verif.Fit Verif.Spod Verif.Ortho
open scoped ComplexConjugate

theorem flInner_gram {u : ℝ} (hu : 0 ≤ u) (comms : List Comm) (ax : Nat) (a b : Arr ℂ) (w : Arr ℝ) (z : ℂ) (h : FlInner u comms ax a b w z) :
    FlGram u comms ax (fun k => if k = 0 then a else b) w 1 0 1 z := by
  obtain ⟨ls, h1, h2, h3⟩ := h
  refine ⟨ls, h1.imp ?_, h2, h3⟩
  rintro comm l ⟨v, hv, hre, him⟩
  have hr : ∀ x : ℝ, Rounds u (x / 1) x := fun x => by unfold Rounds; rw [div_one, sub_self, abs_zero]; positivity
  exact ⟨v, l, hv, hre, him, hr _, hr _⟩

theorem inner_gram (a b : Arr ℂ) (w : Arr ℝ) :
    gramSpec (fun k => if k = 0 then a else b) (complexArr w) 1 0 1 = inner_W (specW w) (fun x => a.at' (unravel w.shape x)) (fun x => b.at' (unravel w.shape x)) := by
  unfold gramSpec inner_W
  rw [div_one, ← sum_unravel]
  refine (Finset.sum_range fun k => star (a.at' (unravel w.shape k)) * (b.at' (unravel w.shape k) * ((w.at' (unravel w.shape k) : ℝ) : ℂ))).trans ?_
  refine Finset.sum_congr rfl fun x _ => ?_
  rw [mul_comm (b.at' _), ← mul_assoc]
  rfl

/-- the weighted product that `check_orthogonality` computes -/
theorem inner_rounding {u : ℝ} (hu : 0 ≤ u) (comms : List Comm) (hc : Procs comms) (ax : Nat) (a b : Arr ℂ) (w : Arr ℝ)
    (hw : ∀ idx, InRange w.shape idx → 0 ≤ w.at' idx) (hax : ax < w.shape.length) (ha : a.shape = w.shape) (hb : b.shape = w.shape) (n : Nat)
    (hn : ∀ comm ∈ comms, size (distributeDimension w ax comm).shape ≤ n) (O : ℂ) (hO : FlInner u comms ax a b w O) :
    ‖O - inner_W (specW w) (fun x => a.at' (unravel w.shape x)) (fun x => b.at' (unravel w.shape x))‖ ≤
      roundBound u n comms.length * (norm_W (specW w) (fun x => a.at' (unravel w.shape x)) * norm_W (specW w) (fun x => b.at' (unravel w.shape x))) := by
  have h := gram_approx hu comms hc ax (fun k => if k = 0 then a else b) w 1 one_pos hw hax (fun k => by split <;> assumption) n hn 0 1 O (flInner_gram hu comms ax a b w O hO)
  rw [Complex.ofReal_one, inner_gram] at h
  refine h.trans ?_
  unfold roundBound
  rw [mul_assoc]
  refine mul_le_mul_of_nonneg_left (mul_le_mul_of_nonneg_left ?_ (sub_nonneg.2 (one_le_pow₀ (by linarith)))) (Real.sqrt_nonneg _)
  have h2 := gramSpec_norm_le (nb := 2) (fun k => if k = 0 then a else b) w hw 0 1
  have e : gramSpec (fun k => normArr (if k = 0 then a else b)) w 1 0 1 = 2 * gramSpec (fun k => normArr (if k = 0 then a else b)) w ((2 : ℕ) : ℝ) (0 : Fin 2) (1 : Fin 2) := by
    unfold gramSpec
    rw [div_one, Nat.cast_ofNat, mul_div_cancel₀ _ (two_ne_zero)]
    rfl
  rw [e]
  have e2 : norm_W (specW w) (fun x => a.at' (unravel w.shape x)) * norm_W (specW w) (fun x => b.at' (unravel w.shape x)) =
      2 * (Real.sqrt ((∑ x, specW w x * ‖a.at' (unravel w.shape x)‖ ^ 2) / (2 : ℕ)) * Real.sqrt ((∑ x, specW w x * ‖b.at' (unravel w.shape x)‖ ^ 2) / (2 : ℕ))) := by
    unfold norm_W
    have hn : (0 : ℝ) ≤ (2 : ℕ) := by norm_num
    rw [Real.sqrt_div' _ hn, Real.sqrt_div' _ hn, div_mul_div_comm, Real.mul_self_sqrt hn, Nat.cast_ofNat, mul_div_cancel₀ _ (two_ne_zero)]
  rw [e2]
  exact mul_le_mul_of_nonneg_left h2 (by norm_num)

/-- the verdict on a value near the expected one -/
theorem verdict_near (same : Bool) (O : ℂ) (h : |O.re - (if same then 1 else 0)| < 2 / 1000000) : verdict same [O] = .ok (true, O) := by
  obtain ⟨h1, h2⟩ := abs_lt.1 h
  unfold verdict
  simp only [Except.ok.injEq, Prod.mk.injEq, and_true, decide_eq_true_eq]
  exact ⟨Or.inl (by unfold tol; linarith), Or.inl (by unfold tol; linarith)⟩

theorem norm_W_sq {X : Type} [Fintype X] [DecidableEq X] (w : X → ℝ) (hw : ∀ x, 0 ≤ w x) (φ : X → ℂ) : (inner_W w φ φ).re = norm_W w φ ^ 2 := by
  rw [inner_W_self, Complex.ofReal_re, norm_W, Real.sq_sqrt (Finset.sum_nonneg fun x _ => mul_nonneg (hw x) (sq_nonneg _))]
  exact Finset.sum_congr rfl fun x _ => by rw [Complex.normSq_eq_norm_sq]

/-- the norm of a mode whose rounding errors are small -/
theorem mode_norm_near {nb : Nat} (hnb : 0 < nb) (Qs : Nat → Arr ℂ) (w : Arr ℝ) (hw : ∀ idx, InRange w.shape idx → 0 ≤ w.at' idx)
    (hsh : ∀ b, (Qs b).shape = w.shape) (u : ℝ) (hu : 0 ≤ u) (hu1 : u ≤ 1 / 10 ^ 8) (comms : List Comm) (hc : Procs comms) (ax : Nat)
    (hax : ax < w.shape.length) (n : Nat) (hn : ∀ comm ∈ comms, size (distributeDimension w ax comm).shape ≤ n) (Mh : Matrix (Fin nb) (Fin nb) ℂ)
    (hMh : ∀ i j : Fin nb, FlGram u comms ax Qs w nb i j (Mh i j)) (mu : ℂ) (δ : ℝ) (hδ : 0 ≤ δ) (v : EuclideanSpace ℂ (Fin nb)) (hv : |‖v‖ - 1| ≤ 1 / 10 ^ 8)
    (hres : ‖WithLp.toLp 2 (Mh.mulVec v.ofLp) - mu • v‖ ≤ δ * ‖v‖) (hmu : 0 < mu.re) (l : ℝ) (hl : FlFactor u nb mu.re l) (φ : Arr ℂ)
    (hφ : ∀ x : Fin (size w.shape), FlMode u (fun b : Fin nb => (Qs b).at' (unravel w.shape x)) v.ofLp l (φ.at' (unravel w.shape x))) (tr : ℝ)
    (htr : tr = (∑ x : Fin (size w.shape), ∑ b : Fin nb, specW w x * ‖(Qs b).at' (unravel w.shape x)‖ ^ 2) / nb)
    (hsmall : (roundBound u n comms.length * tr + δ) / mu.re + roundBound u nb 0 * Real.sqrt (tr / mu.re) ≤ 5 / 10 ^ 7) :
    1 - 6 / 10 ^ 7 ≤ norm_W (specW w) (fun x => φ.at' (unravel w.shape x)) ∧ norm_W (specW w) (fun x => φ.at' (unravel w.shape x)) ≤ 1 + 6 / 10 ^ 7 := by
  have hw' : ∀ x, 0 ≤ specW w x := fun x => hw _ (inRange_unravel x.2)
  have h := mode_unit_norm hnb Qs w hw hsh u hu (by linarith) comms hc ax hax n hn Mh hMh mu δ hδ v hres hmu l hl (fun x => φ.at' (unravel w.shape x)) hφ
  simp only at h
  rw [← htr] at h
  have tr0 : 0 ≤ tr := by rw [htr]; exact div_nonneg (Finset.sum_nonneg fun x _ => Finset.sum_nonneg fun b _ => mul_nonneg (hw' x) (sq_nonneg _)) (Nat.cast_nonneg _)
  set N := norm_W (specW w) (fun x => φ.at' (unravel w.shape x)) with hN
  set ε := (roundBound u n comms.length * tr + δ) / mu.re with hε
  set η := roundBound u nb 0 * Real.sqrt (tr / mu.re) with hη
  have ε0 : 0 ≤ ε := div_nonneg (add_nonneg (mul_nonneg (roundBound_nonneg hu _ _) tr0) hδ) hmu.le
  have η0 : 0 ≤ η := mul_nonneg (roundBound_nonneg hu _ _) (Real.sqrt_nonneg _)
  obtain ⟨h1, h2⟩ := h
  obtain ⟨v1, v2⟩ := abs_le.1 hv
  have lo : 1 - 6 / 10 ^ 7 ≤ N := by
    refine le_trans ?_ h1
    have a1 : 1 - 4 / 10 ^ 8 ≤ (1 - u) / (1 + u) ^ 3 := by
      rw [le_div_iff₀ (by positivity)]
      have : (1 + u) ^ 3 ≤ 1 + 3 * u + 4 * u ^ 2 := by nlinarith [mul_nonneg (sq_nonneg u) (by linarith : 0 ≤ 1 - u)]
      nlinarith
    have a2 : (1 - 4 / 10 ^ 8) * (1 - 1 / 10 ^ 8) ≤ (1 - u) / (1 + u) ^ 3 * ‖v‖ := mul_le_mul a1 (by linarith) (by norm_num) (by linarith)
    have a3 := mul_le_mul a2 (by linarith : 1 - 5 / 10 ^ 7 ≤ 1 - ε - η) (by norm_num) (le_trans (by norm_num) a2)
    refine le_trans (by norm_num) a3
  have hi : N ≤ 1 + 6 / 10 ^ 7 := by
    refine h2.trans ?_
    have a1 : (1 + u) / (1 - u) ^ 3 ≤ 1 + 5 / 10 ^ 8 := by
      have hp : 0 < 1 - u := by linarith
      rw [div_le_iff₀ (by positivity)]
      have : 1 - 3 * u ≤ (1 - u) ^ 3 := by nlinarith [mul_nonneg (sq_nonneg u) (by linarith : 0 ≤ 1 - u)]
      nlinarith
    have a0 : 0 ≤ (1 + u) / (1 - u) ^ 3 := div_nonneg (by linarith) (pow_nonneg (by linarith) _)
    have a2 : (1 + u) / (1 - u) ^ 3 * ‖v‖ ≤ (1 + 5 / 10 ^ 8) * (1 + 1 / 10 ^ 8) := mul_le_mul a1 (by linarith) (norm_nonneg _) (by norm_num)
    have a3 := mul_le_mul a2 (by linarith : 1 + ε / 2 + η ≤ 1 + 5 / 10 ^ 7) (by linarith) (by norm_num)
    refine a3.trans (by norm_num)
  exact ⟨lo, hi⟩

/-- **C243.** A mode that a fit computed and stored in floating-point arithmetic (as in C238), with a computed eigenvector of unit norm (up to `10^-8`): if the rounding errors of the
    matrix, relative to the eigenvalue, and of the mode stay below `5 10^-7`, and those of a product of this length do too, `check_orthogonality` of the mode with itself, on any
    number of ranks, returns `True`. -/
theorem check_unit_norm {nb : Nat} (hnb : 0 < nb) (Qs : Nat → Arr ℂ) (w : Arr ℝ) (hw : ∀ idx, InRange w.shape idx → 0 ≤ w.at' idx)
    (hsh : ∀ b, (Qs b).shape = w.shape) (u : ℝ) (hu : 0 ≤ u) (hu1 : u ≤ 1 / 10 ^ 8) (comms comms' : List Comm) (hc : Procs comms) (hc' : Procs comms') (ax ax' : Nat)
    (hax : ax < w.shape.length) (hax' : ax' < w.shape.length) (n n' : Nat)
    (hn : ∀ comm ∈ comms, size (distributeDimension w ax comm).shape ≤ n) (hn' : ∀ comm ∈ comms', size (distributeDimension w ax' comm).shape ≤ n')
    (Mh : Matrix (Fin nb) (Fin nb) ℂ)
    (hMh : ∀ i j : Fin nb, FlGram u comms ax Qs w nb i j (Mh i j)) (mu : ℂ) (δ : ℝ) (hδ : 0 ≤ δ) (v : EuclideanSpace ℂ (Fin nb)) (hv : |‖v‖ - 1| ≤ 1 / 10 ^ 8)
    (hres : ‖WithLp.toLp 2 (Mh.mulVec v.ofLp) - mu • v‖ ≤ δ * ‖v‖) (hmu : 0 < mu.re) (l : ℝ) (hl : FlFactor u nb mu.re l) (φ : Arr ℂ) (hφs : φ.shape = w.shape)
    (hφ : ∀ x : Fin (size w.shape), FlMode u (fun b : Fin nb => (Qs b).at' (unravel w.shape x)) v.ofLp l (φ.at' (unravel w.shape x))) (tr : ℝ)
    (htr : tr = (∑ x : Fin (size w.shape), ∑ b : Fin nb, specW w x * ‖(Qs b).at' (unravel w.shape x)‖ ^ 2) / nb)
    (hsmall : (roundBound u n comms.length * tr + δ) / mu.re + roundBound u nb 0 * Real.sqrt (tr / mu.re) ≤ 5 / 10 ^ 7)
    (hshort : roundBound u n' comms'.length ≤ 5 / 10 ^ 7)
    (O : ℂ) (hO : FlInner u comms' ax' φ φ w O) : verdict true [O] = .ok (true, O) := by
  have hw' : ∀ x, 0 ≤ specW w x := fun x => hw _ (inRange_unravel x.2)
  obtain ⟨lo, hi⟩ := mode_norm_near hnb Qs w hw hsh u hu hu1 comms hc ax hax n hn Mh hMh mu δ hδ v hv hres hmu l hl φ hφ tr htr hsmall
  have hO' := inner_rounding hu comms' hc' ax' φ φ w hw hax' hφs hφs n' hn' O hO
  have hre := (Complex.abs_re_le_norm _).trans hO'
  rw [Complex.sub_re, norm_W_sq _ hw', ← pow_two] at hre
  set N := norm_W (specW w) (fun x => φ.at' (unravel w.shape x)) with hN
  refine verdict_near true O ?_
  simp only [if_true]
  have b1 : roundBound u n' comms'.length * N ^ 2 ≤ 5 / 10 ^ 7 * (1 + 6 / 10 ^ 7) ^ 2 :=
    mul_le_mul hshort (pow_le_pow_left₀ (by linarith) hi 2) (sq_nonneg _) (by norm_num)
  obtain ⟨c1, c2⟩ := abs_le.1 (hre.trans b1)
  rw [abs_lt]
  constructor <;> nlinarith

/-- **C243.** Two modes of the same frequency, computed and stored like that, with different eigenvalues: if also the bound of C238 on their weighted product stays below `10^-6`,
    `check_orthogonality` of the two returns `True`. -/
theorem check_orthogonal {nb : Nat} (hnb : 0 < nb) (Qs : Nat → Arr ℂ) (w : Arr ℝ) (hw : ∀ idx, InRange w.shape idx → 0 ≤ w.at' idx)
    (hsh : ∀ b, (Qs b).shape = w.shape) (u : ℝ) (hu : 0 ≤ u) (hu1 : u ≤ 1 / 10 ^ 8) (comms comms' : List Comm) (hc : Procs comms) (hc' : Procs comms') (ax ax' : Nat)
    (hax : ax < w.shape.length) (hax' : ax' < w.shape.length) (n n' : Nat)
    (hn : ∀ comm ∈ comms, size (distributeDimension w ax comm).shape ≤ n) (hn' : ∀ comm ∈ comms', size (distributeDimension w ax' comm).shape ≤ n')
    (Mh : Matrix (Fin nb) (Fin nb) ℂ) (hMh : ∀ i j : Fin nb, FlGram u comms ax Qs w nb i j (Mh i j)) (mu mu' : ℂ) (δ : ℝ) (hδ : 0 ≤ δ)
    (v v' : EuclideanSpace ℂ (Fin nb)) (hv : |‖v‖ - 1| ≤ 1 / 10 ^ 8) (hv' : |‖v'‖ - 1| ≤ 1 / 10 ^ 8)
    (hres : ‖WithLp.toLp 2 (Mh.mulVec v.ofLp) - mu • v‖ ≤ δ * ‖v‖) (hres' : ‖WithLp.toLp 2 (Mh.mulVec v'.ofLp) - mu' • v'‖ ≤ δ * ‖v'‖)
    (hmu : 0 < mu.re) (hmu' : 0 < mu'.re) (hne : mu.re ≠ mu'.re) (l l' : ℝ) (hl : FlFactor u nb mu.re l) (hl' : FlFactor u nb mu'.re l')
    (φ φ' : Arr ℂ) (hφs : φ.shape = w.shape) (hφs' : φ'.shape = w.shape)
    (hφ : ∀ x : Fin (size w.shape), FlMode u (fun b : Fin nb => (Qs b).at' (unravel w.shape x)) v.ofLp l (φ.at' (unravel w.shape x)))
    (hφ' : ∀ x : Fin (size w.shape), FlMode u (fun b : Fin nb => (Qs b).at' (unravel w.shape x)) v'.ofLp l' (φ'.at' (unravel w.shape x))) (tr B η η' : ℝ)
    (htr : tr = (∑ x : Fin (size w.shape), ∑ b : Fin nb, specW w x * ‖(Qs b).at' (unravel w.shape x)‖ ^ 2) / nb)
    (hB : B = roundBound u n comms.length * tr + δ) (hη : η = roundBound u nb 0 * Real.sqrt (tr / mu.re)) (hη' : η' = roundBound u nb 0 * Real.sqrt (tr / mu'.re))
    (hsmall : B / mu.re + η ≤ 5 / 10 ^ 7) (hsmall' : B / mu'.re + η' ≤ 5 / 10 ^ 7)
    (hprod : ((1 + u) / (1 - u) ^ 3) ^ 2 * (‖v‖ * ‖v'‖) *
      (B * (1 + 2 * ‖mu'‖ / |mu.re - mu'.re|) / Real.sqrt (mu.re * mu'.re) + (η * (1 + B / mu'.re / 2) + η' * (1 + B / mu.re / 2) + η * η')) ≤ 1 / 10 ^ 6)
    (hshort : roundBound u n' comms'.length ≤ 5 / 10 ^ 7) (O : ℂ) (hO : FlInner u comms' ax' φ φ' w O) : verdict false [O] = .ok (true, O) := by
  subst hB hη hη'
  have hip := modes_orthogonal hnb Qs w hw hsh u hu (by linarith) comms hc ax hax n hn Mh hMh mu mu' δ hδ v v' hres hres' hmu hmu' hne l l' hl hl'
    (fun x => φ.at' (unravel w.shape x)) (fun x => φ'.at' (unravel w.shape x)) hφ hφ'
  simp only at hip
  rw [← htr] at hip
  replace hip := hip.trans hprod
  obtain ⟨lo, hi⟩ := mode_norm_near hnb Qs w hw hsh u hu hu1 comms hc ax hax n hn Mh hMh mu δ hδ v hv hres hmu l hl φ hφ tr htr hsmall
  obtain ⟨lo', hi'⟩ := mode_norm_near hnb Qs w hw hsh u hu hu1 comms hc ax hax n hn Mh hMh mu' δ hδ v' hv' hres' hmu' l' hl' φ' hφ' tr htr hsmall'
  have hO' := inner_rounding hu comms' hc' ax' φ φ' w hw hax' hφs hφs' n' hn' O hO
  have hN := mul_le_mul hi hi' (by linarith) (by norm_num)
  have b1 := mul_le_mul hshort hN (mul_nonneg (by linarith) (by linarith)) (by norm_num)
  refine verdict_near false O ?_
  simp only [Bool.false_eq_true, if_false, sub_zero]
  refine (Complex.abs_re_le_norm _).trans_lt ?_
  have := norm_add_le (O - inner_W (specW w) (fun x => φ.at' (unravel w.shape x)) (fun x => φ'.at' (unravel w.shape x)))
    (inner_W (specW w) (fun x => φ.at' (unravel w.shape x)) (fun x => φ'.at' (unravel w.shape x)))
  rw [sub_add_cancel] at this
  refine (this.trans (add_le_add (hO'.trans b1) hip)).trans_lt (by norm_num)

/-- **C243.** The mode of an eigenvalue of the size of the roundoff, which may be zero (C238, `small_mode_lost`), does not pass: with itself the product is zero -/
theorem check_lost_mode (u : ℝ) (hu : 0 ≤ u) (comms : List Comm) (hc : Procs comms) (ax : Nat) (w : Arr ℝ) (hw : ∀ idx, InRange w.shape idx → 0 ≤ w.at' idx)
    (hax : ax < w.shape.length) (φ : Arr ℂ) (hφs : φ.shape = w.shape) (h0 : ∀ x : Fin (size w.shape), φ.at' (unravel w.shape x) = 0) (O : ℂ)
    (hO : FlInner u comms ax φ φ w O) : verdict true [O] = .ok (false, 0) := by
  obtain ⟨n, hn⟩ : ∃ n, ∀ comm ∈ comms, size (distributeDimension w ax comm).shape ≤ n :=
    ⟨(comms.map fun comm => size (distributeDimension w ax comm).shape).sum, fun comm hcm => List.single_le_sum (by simp) _ (List.mem_map_of_mem hcm)⟩
  have h := inner_rounding hu comms hc ax φ φ w hw hax hφs hφs n hn O hO
  simp only [h0] at h
  have e1 : inner_W (specW w) (fun _ => (0 : ℂ)) (fun _ => 0) = 0 := by simp [inner_W]
  have e2 : norm_W (specW w) (fun _ => (0 : ℂ)) = 0 := by simp [norm_W]
  rw [e1, e2, mul_zero, mul_zero, sub_zero] at h
  have hO0 : O = 0 := norm_le_zero_iff.1 h
  subst hO0
  unfold verdict
  simp only [Except.ok.injEq, Prod.mk.injEq, and_true, decide_eq_false_iff_not, if_true]
  rintro ⟨_, h | h⟩ <;> norm_num [tol] at h

/-- **C243.** Double precision, at most a hundred blocks, at most a million values per rank on 64 ranks, an eigenvalue of at least a thousandth of the energy, a residual of at most
    `10^-10` of the eigenvalue: the check of the mode passes -/
theorem check_double (Qs : Nat → Arr ℂ) (w : Arr ℝ) (hw : ∀ idx, InRange w.shape idx → 0 ≤ w.at' idx) (hsh : ∀ b, (Qs b).shape = w.shape) (ax : Nat) (hax : ax < w.shape.length)
    (hn : ∀ comm ∈ Proj.ranksOf 64, size (distributeDimension w ax comm).shape ≤ 1000000) (Mh : Matrix (Fin 100) (Fin 100) ℂ)
    (hMh : ∀ i j : Fin 100, FlGram (1 / 2 ^ 53) (Proj.ranksOf 64) ax Qs w (100 : Nat) i j (Mh i j)) (mu : ℂ) (hmu : 0 < mu.re) (v : EuclideanSpace ℂ (Fin 100)) (hv : |‖v‖ - 1| ≤ 1 / 10 ^ 8)
    (hres : ‖WithLp.toLp 2 (Mh.mulVec v.ofLp) - mu • v‖ ≤ (mu.re / 10 ^ 10) * ‖v‖) (l : ℝ) (hl : FlFactor (1 / 2 ^ 53) 100 mu.re l) (φ : Arr ℂ) (hφs : φ.shape = w.shape)
    (hφ : ∀ x : Fin (size w.shape), FlMode (1 / 2 ^ 53) (fun b : Fin 100 => (Qs b).at' (unravel w.shape x)) v.ofLp l (φ.at' (unravel w.shape x)))
    (htr : (∑ x : Fin (size w.shape), ∑ b : Fin 100, specW w x * ‖(Qs b).at' (unravel w.shape x)‖ ^ 2) / (100 : Nat) ≤ 1000 * mu.re) (O : ℂ)
    (hO : FlInner (1 / 2 ^ 53) (Proj.ranksOf 64) ax φ φ w O) : verdict true [O] = .ok (true, O) := by
  have hw' : ∀ x, 0 ≤ specW w x := fun x => hw _ (inRange_unravel x.2)
  have hp : (Proj.ranksOf 64).length = 64 := by simp [Proj.ranksOf]
  have r1 := roundBound_le (u := 1 / 2 ^ 53) (by norm_num) 1000000 64 (by norm_num)
  have r2 := roundBound_le (u := 1 / 2 ^ 53) (by norm_num) 100 0 (by norm_num)
  have r3 : roundBound (1 / 2 ^ 53) 1000000 64 ≤ 35 / 10 ^ 11 := r1.trans (by norm_num)
  have r4 : roundBound (1 / 2 ^ 53) 100 0 ≤ 1 / 10 ^ 10 := r2.trans (by norm_num)
  refine check_unit_norm (nb := 100) (by norm_num) Qs w hw hsh (1 / 2 ^ 53) (by norm_num) (by norm_num) (Proj.ranksOf 64) (Proj.ranksOf 64) (Or.inr ⟨64, by norm_num, rfl⟩)
    (Or.inr ⟨64, by norm_num, rfl⟩) ax ax hax hax 1000000 1000000 hn hn Mh hMh mu (mu.re / 10 ^ 10) (by positivity) v hv hres hmu l hl φ hφs hφ _ rfl ?_ ?_ O hO
  · rw [hp]
    set tr := (∑ x : Fin (size w.shape), ∑ b : Fin 100, specW w x * ‖(Qs b).at' (unravel w.shape x)‖ ^ 2) / (100 : Nat) with htrd
    have htr0 : 0 ≤ tr := div_nonneg (Finset.sum_nonneg fun x _ => Finset.sum_nonneg fun b _ => mul_nonneg (hw' x) (sq_nonneg _)) (Nat.cast_nonneg _)
    have hq : tr / mu.re ≤ 1000 := by rw [div_le_iff₀ hmu]; exact htr
    have hq0 : 0 ≤ tr / mu.re := div_nonneg htr0 hmu.le
    have hε : (roundBound (1 / 2 ^ 53) 1000000 64 * tr + mu.re / 10 ^ 10) / mu.re ≤ 4 / 10 ^ 7 := by
      have e : (roundBound (1 / 2 ^ 53) 1000000 64 * tr + mu.re / 10 ^ 10) / mu.re = roundBound (1 / 2 ^ 53) 1000000 64 * (tr / mu.re) + 1 / 10 ^ 10 := by field_simp
      rw [e]
      have := mul_le_mul r3 hq hq0 (by norm_num)
      linarith
    have hη : roundBound (1 / 2 ^ 53) 100 0 * Real.sqrt (tr / mu.re) ≤ 1 / 10 ^ 7 := by
      have hs : Real.sqrt (tr / mu.re) ≤ 32 := Real.sqrt_le_iff.2 ⟨by norm_num, hq.trans (by norm_num)⟩
      have := mul_le_mul r4 hs (Real.sqrt_nonneg _) (by norm_num)
      linarith
    linarith
  · rw [hp]; exact r3.trans (by norm_num)

/-- the exact product on one process is possible -/
theorem inner_exact_possible {u : ℝ} (hu : 0 ≤ u) (ax : Nat) (w : Arr ℝ) : ∃ z, FlInner u [none] ax ⟨w.shape, fun _ => 1⟩ ⟨w.shape, fun _ => 1⟩ w z := by
  have h1 := dot_exact hu (dotRe (fun _ => (1 : ℂ)) (fun k => ((w.at' (unravel w.shape k) : ℝ) : ℂ)) (size w.shape))
  have h2 := dot_exact hu (dotIm (fun _ => (1 : ℂ)) (fun k => ((w.at' (unravel w.shape k) : ℝ) : ℂ)) (size w.shape))
  refine ⟨⟨_, _⟩, [⟨_, _⟩], .cons ⟨fun k => ((w.at' (unravel w.shape k) : ℝ) : ℂ), fun k _ => ⟨?_, ?_⟩, h1, h2⟩ .nil, Or.inr ⟨.rank _, List.Perm.refl _, rfl⟩,
    Or.inr ⟨.rank _, List.Perm.refl _, rfl⟩⟩
  · simp [distributeDimension]; exact rounds_exact hu _
  · simp [distributeDimension]; exact rounds_exact hu _

/-- non-vacuity: one realization, one at each of four points of weight 1/4, in double precision; the mode is that realization and the check passes -/
example : ∃ O, FlInner (1 / 2 ^ 53) [none] 0 ⟨[4], fun _ => 1⟩ ⟨[4], fun _ => 1⟩ ⟨[4], fun _ => 1 / 4⟩ O ∧ verdict true [O] = .ok (true, O) := by
  obtain ⟨O, hO⟩ := inner_exact_possible (u := 1 / 2 ^ 53) (by norm_num) 0 ⟨[4], fun _ => 1 / 4⟩
  refine ⟨O, hO, ?_⟩
  have b4 : roundBound (1 / 2 ^ 53) 4 1 ≤ 1 / 10 ^ 10 := (roundBound_le (by norm_num) 4 1 (by norm_num)).trans (by norm_num)
  have b1 : roundBound (1 / 2 ^ 53) 1 0 ≤ 1 / 10 ^ 10 := (roundBound_le (by norm_num) 1 0 (by norm_num)).trans (by norm_num)
  refine check_unit_norm (nb := 1) one_pos (fun _ => ⟨[4], fun _ => 1⟩) ⟨[4], fun _ => 1 / 4⟩ (fun _ _ => by norm_num) (fun _ => rfl) (1 / 2 ^ 53) (by norm_num) (by norm_num)
    [none] [none] (Or.inl rfl) (Or.inl rfl) 0 0 (by norm_num) (by norm_num) 4 4 (by simp [distributeDimension, size]) (by simp [distributeDimension, size])
    (Matrix.of fun _ _ => 1) ?_ 1 0 le_rfl (WithLp.toLp 2 fun _ => 1) ?_ ?_ (by norm_num) (1 / (Real.sqrt (1 : ℕ) * Real.sqrt 1)) (factor_exact_possible (by norm_num) 1 1)
    ⟨[4], fun _ => 1⟩ rfl ?_ 1 ?_ ?_ (b4.trans (by norm_num)) O hO
  · intro i j
    have := gram_exact_possible (u := 1 / 2 ^ 53) (by norm_num) [none] (Or.inl rfl) 0 (fun _ => (⟨[4], fun _ => 1⟩ : Arr ℂ)) ⟨[4], fun _ => 1 / 4⟩ ((1 : ℕ) : ℝ) (by norm_num) (fun _ => rfl) i j
    rw [Matrix.of_apply]
    have e : gramSpec (fun _ => (⟨[4], fun _ => 1⟩ : Arr ℂ)) (complexArr ⟨[4], fun _ => 1 / 4⟩) ((1 : ℕ) : ℝ) i j = 1 := by
      simp [gramSpec, idxSum, complexArr]
    rwa [e] at this
  · rw [EuclideanSpace.norm_eq]; simp
  · have : WithLp.toLp 2 ((Matrix.of fun _ _ => (1 : ℂ) : Matrix (Fin 1) (Fin 1) ℂ).mulVec (fun _ => 1)) - (1 : ℂ) • (WithLp.toLp 2 fun _ => 1 : EuclideanSpace ℂ (Fin 1)) = 0 := by
      ext i; simp [Matrix.mulVec, dotProduct]
    rw [this, norm_zero]; positivity
  · intro x
    have := mode_exact_possible (u := 1 / 2 ^ 53) (by norm_num) (fun _ : Fin 1 => (1 : ℂ)) (fun _ => 1) (1 / (Real.sqrt (1 : ℕ) * Real.sqrt 1))
    simpa using this
  · simp only [specW]
    rw [Finset.sum_const, Finset.card_univ, Fintype.card_fin]
    simp [size]
  · simp only [List.length_singleton, Complex.one_re, div_one, Real.sqrt_one, mul_one, add_zero]
    have := b4; have := b1
    linarith

end Verif.Props
