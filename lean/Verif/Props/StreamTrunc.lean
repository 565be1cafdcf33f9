import Verif.Props.StreamUnique
import Verif.Props.Perturb
set_option linter.unusedSectionVars false
set_option linter.unusedVariables false
/-
  C199: what truncation to n_modes_save modes loses in a streaming fit (pyspod/spod/streaming.py:157-212).
-/
namespace Verif.Props
open Verif Verif.Par Verif.Rd Verif.Stream Verif.Spod Verif.Fit Verif.SFit Matrix

section
variable {X : Type} [Fintype X] [DecidableEq X] {k : Nat}

/-- the energy of a matrix in the direction `v` -/
noncomputable def form (M : Matrix X X ℂ) (v : X → ℂ) : ℝ := (star v ⬝ᵥ (M *ᵥ v)).re

noncomputable def len2 (v : X → ℂ) : ℝ := ∑ i, Complex.normSq (v i)

theorem form_add (M N : Matrix X X ℂ) (v : X → ℂ) : form (M + N) v = form M v + form N v := by
  simp only [form, Matrix.add_mulVec, dotProduct_add, Complex.add_re]

theorem form_smul (a : ℝ) (M : Matrix X X ℂ) (v : X → ℂ) : form ((a : ℂ) • M) v = a * form M v := by
  simp only [form, Matrix.smul_mulVec, dotProduct_smul, smul_eq_mul, Complex.re_ofReal_mul]

theorem form_outer (x v : X → ℂ) : form (outerProd x) v = Complex.normSq (star x ⬝ᵥ v) := by
  have e : outerProd x *ᵥ v = (star x ⬝ᵥ v) • x := by
    funext i
    simp only [outerProd, Matrix.mulVec, dotProduct, Matrix.of_apply, Pi.smul_apply, smul_eq_mul, Finset.sum_mul, Pi.star_apply]
    exact Finset.sum_congr rfl fun j _ => by ring
  have e2 : star v ⬝ᵥ x = star (star x ⬝ᵥ v) := Matrix.star_dotProduct v x
  rw [form, e, dotProduct_smul, e2, smul_eq_mul, Complex.star_def, Complex.mul_conj, Complex.ofReal_re]

theorem len2_dot (v : X → ℂ) : star v ⬝ᵥ v = (len2 v : ℂ) := by
  simp only [dotProduct, Pi.star_apply, Complex.star_def, ← Complex.normSq_eq_conj_mul_self, len2, Complex.ofReal_sum]

theorem cauchy (x v : X → ℂ) : Complex.normSq (star x ⬝ᵥ v) ≤ len2 x * len2 v := by
  have h := norm_inner_le_norm (𝕜 := ℂ) (WithLp.toLp 2 x) (WithLp.toLp 2 v)
  have e : inner ℂ (WithLp.toLp 2 x) (WithLp.toLp 2 v) = star x ⬝ᵥ v := by
    rw [EuclideanSpace.inner_toLp_toLp, dotProduct_comm]
  have n : ∀ y : X → ℂ, ‖WithLp.toLp 2 y‖ ^ 2 = len2 y := fun y => by
    rw [EuclideanSpace.norm_sq_eq]; simp [len2, Complex.sq_norm]
  rw [e] at h
  calc Complex.normSq (star x ⬝ᵥ v) = ‖star x ⬝ᵥ v‖ ^ 2 := (Complex.sq_norm _).symm
    _ ≤ (‖WithLp.toLp 2 x‖ * ‖WithLp.toLp 2 v‖) ^ 2 := pow_le_pow_left₀ (norm_nonneg _) h 2
    _ = _ := by rw [mul_pow, n, n]

theorem trace_outer (x : X → ℂ) : (Matrix.trace (outerProd x)).re = len2 x := by
  simp only [Matrix.trace, Matrix.diag, outerProd, Matrix.of_apply, Complex.star_def, Complex.mul_conj, Complex.re_sum, Complex.ofReal_re, len2]

/-- nonnegative energy in every direction, and no more than the total -/
def Bounded (M : Matrix X X ℂ) : Prop := ∀ v, 0 ≤ form M v ∧ form M v ≤ (Matrix.trace M).re * len2 v

theorem len2_nonneg (v : X → ℂ) : 0 ≤ len2 v := Finset.sum_nonneg fun _ _ => Complex.normSq_nonneg _

theorem Bounded.add {M N : Matrix X X ℂ} (h : Bounded M) (h' : Bounded N) : Bounded (M + N) := fun v => by
  obtain ⟨a, b⟩ := h v
  obtain ⟨a', b'⟩ := h' v
  rw [form_add, Matrix.trace_add, Complex.add_re, add_mul]
  exact ⟨by linarith, by linarith⟩

theorem Bounded.smul {M : Matrix X X ℂ} (h : Bounded M) (a : ℝ) (ha : 0 ≤ a) : Bounded ((a : ℂ) • M) := fun v => by
  obtain ⟨b, b'⟩ := h v
  rw [form_smul, Matrix.trace_smul, smul_eq_mul, Complex.re_ofReal_mul, mul_assoc]
  exact ⟨mul_nonneg ha b, mul_le_mul_of_nonneg_left b' ha⟩

theorem bounded_outer (x : X → ℂ) : Bounded (outerProd x) := fun v => by
  rw [form_outer, trace_outer]
  exact ⟨Complex.normSq_nonneg _, cauchy x v⟩

theorem bounded_zero : Bounded (0 : Matrix X X ℂ) := fun v => by simp [form]

/-- what an exact computation holds after the blocks `xs` -/
noncomputable def exactDensity (xs : List (X → ℂ)) : Matrix X X ℂ :=
  (1 / ((xs.length : ℂ) + 2)) • ∑ b ∈ Finset.range xs.length, (((b : ℂ) + 2) / ((b : ℂ) + 3)) • outerProd (xs.getD b 0)

theorem exactDensity_snoc (xs : List (X → ℂ)) (x : X → ℂ) :
    exactDensity (xs ++ [x]) = ((((xs.length : ℝ) + 2) / ((xs.length : ℝ) + 3) : ℝ) : ℂ) • exactDensity xs +
      ((((xs.length : ℝ) + 2) / ((xs.length : ℝ) + 3) ^ 2 : ℝ) : ℂ) • outerProd x := by
  have c2 : ((xs.length : ℂ) + 2) ≠ 0 := by exact_mod_cast (by positivity : (xs.length + 2 : ℕ) ≠ 0)
  have c3 : ((xs.length : ℂ) + 3) ≠ 0 := by exact_mod_cast (by positivity : (xs.length + 3 : ℕ) ≠ 0)
  unfold exactDensity
  rw [show (xs ++ [x]).length = xs.length + 1 by simp, Finset.sum_range_succ]
  rw [Finset.sum_congr rfl fun b hb => by rw [List.getD_append _ _ _ _ (Finset.mem_range.1 hb)]]
  rw [List.getD_append_right _ _ _ _ le_rfl, Nat.sub_self, smul_add, smul_smul, smul_smul]
  have e1 : (1 : ℂ) / (((xs.length + 1 : ℕ) : ℂ) + 2) = ((((xs.length : ℝ) + 2) / ((xs.length : ℝ) + 3) : ℝ) : ℂ) * (1 / ((xs.length : ℂ) + 2)) := by
    push_cast
    rw [show (xs.length : ℂ) + 1 + 2 = (xs.length : ℂ) + 3 by ring]
    field_simp
  have e2 : (1 : ℂ) / (((xs.length + 1 : ℕ) : ℂ) + 2) * (((xs.length : ℂ) + 2) / ((xs.length : ℂ) + 3)) =
      ((((xs.length : ℝ) + 2) / ((xs.length : ℝ) + 3) ^ 2 : ℝ) : ℂ) := by
    push_cast
    rw [show (xs.length : ℂ) + 1 + 2 = (xs.length : ℂ) + 3 by ring]
    field_simp
  rw [e2, e1]
  rfl

/-- what truncation has removed so far -/
theorem run_deficit {xs : List (X → ℂ)} {U : Matrix X (Fin k) ℂ} {S : Fin k → ℝ} (h : StreamRun k xs U S) : Bounded (exactDensity xs - density U S) := by
  induction h with
  | nil =>
    have : exactDensity ([] : List (X → ℂ)) - density (0 : Matrix X (Fin k) ℂ) 0 = 0 := by simp [exactDensity, density]
    rw [this]
    exact bounded_zero
  | @snoc xs U S x Up Sp hr ha hsvd ih =>
    have t := stream_truncate U x Up Sp
    rw [stream_update U S x _ Up Sp ha hsvd] at t
    have e : exactDensity (xs ++ [x]) - density (update U x Up Sp).1 (update U x Up Sp).2 =
        ((((xs.length : ℝ) + 2) / ((xs.length : ℝ) + 3) : ℝ) : ℂ) • (exactDensity xs - density U S) +
          ((Sp (.inr ()) ^ 2 : ℝ) : ℂ) • outerProd (fun i => uRot U x Up i (.inr ())) := by
      rw [exactDensity_snoc, eq_sub_of_add_eq t.symm, smul_sub]
      have e3 : (((xs.length + 1 : ℕ) : ℂ) + 1) / (((xs.length + 1 : ℕ) : ℂ) + 2) = ((((xs.length : ℝ) + 2) / ((xs.length : ℝ) + 3) : ℝ) : ℂ) := by
        push_cast; ring_nf
      have e4 : (((xs.length + 1 : ℕ) : ℂ) + 1) / (((xs.length + 1 : ℕ) : ℂ) + 2) ^ 2 = ((((xs.length : ℝ) + 2) / ((xs.length : ℝ) + 3) ^ 2 : ℝ) : ℂ) := by
        push_cast; ring_nf
      rw [e3, e4]
      push_cast
      abel
    rw [e]
    exact (ih.smul _ (by positivity)).add ((bounded_outer _).smul _ (sq_nonneg _))

theorem form_density (U : Matrix X (Fin k) ℂ) (S : Fin k → ℝ) (v : X → ℂ) :
    form (density U S) v = ∑ l, S l ^ 2 * Complex.normSq ((Uᴴ *ᵥ v) l) := by
  have e : star v ⬝ᵥ (density U S *ᵥ v) = star (Uᴴ *ᵥ v) ⬝ᵥ (Matrix.diagonal (fun j => (S j : ℂ) ^ 2) *ᵥ (Uᴴ *ᵥ v)) := by
    rw [density, ← Matrix.mulVec_mulVec, ← Matrix.mulVec_mulVec, Matrix.dotProduct_mulVec, Matrix.star_mulVec, Matrix.conjTranspose_conjTranspose]
  rw [form, e, dotProduct, Complex.re_sum]
  refine Finset.sum_congr rfl fun l _ => ?_
  rw [Matrix.mulVec_diagonal, Pi.star_apply, Complex.star_def, mul_left_comm, ← Complex.normSq_eq_conj_mul_self]
  rw [show ((S l : ℂ) ^ 2) = ((S l ^ 2 : ℝ) : ℂ) by push_cast; rfl, ← Complex.ofReal_mul, Complex.ofReal_re]

/-- Bessel's inequality -/
theorem bessel (U : Matrix X (Fin k) ℂ) (S : Fin k → ℝ) (hU : Uᴴ * U = Matrix.diagonal (ind S)) (v : X → ℂ) :
    ∑ l, Complex.normSq ((Uᴴ *ᵥ v) l) ≤ len2 v := by
  have hz : ∀ l, S l = 0 → (Uᴴ *ᵥ v) l = 0 := by
    intro l hl
    have h1 := congrFun (congrFun hU l) l
    rw [Matrix.mul_apply, Matrix.diagonal_apply_eq, ind, if_pos hl] at h1
    have h2 : ∑ i, Complex.normSq (U i l) = 0 := by
      have : ((∑ i, Complex.normSq (U i l) : ℝ) : ℂ) = 0 := by
        rw [← h1, Complex.ofReal_sum]
        exact Finset.sum_congr rfl fun i _ => by rw [Matrix.conjTranspose_apply, Complex.star_def, Complex.normSq_eq_conj_mul_self]
      exact_mod_cast this
    have h3 : ∀ i, U i l = 0 := fun i => Complex.normSq_eq_zero.1 ((Finset.sum_eq_zero_iff_of_nonneg fun i _ => Complex.normSq_nonneg _).1 h2 i (Finset.mem_univ _))
    simp only [Matrix.mulVec, dotProduct, Matrix.conjTranspose_apply, h3, star_zero, zero_mul, Finset.sum_const_zero]
  set y := Uᴴ *ᵥ v with hy
  have hUy : Uᴴ *ᵥ (U *ᵥ y) = y := by
    rw [Matrix.mulVec_mulVec, hU]
    funext l
    rw [Matrix.mulVec_diagonal]
    by_cases hl : S l = 0
    · rw [hz l hl, mul_zero]
    · rw [ind, if_neg hl, one_mul]
  have h0 : 0 ≤ len2 (v - U *ᵥ y) := len2_nonneg _
  have e : ((len2 (v - U *ᵥ y) : ℝ) : ℂ) = len2 v - len2 y := by
    rw [← len2_dot, ← len2_dot, ← len2_dot, star_sub, sub_dotProduct, dotProduct_sub, dotProduct_sub, Matrix.star_mulVec]
    rw [show star y ᵥ* Uᴴ ⬝ᵥ v = star y ⬝ᵥ y by rw [← Matrix.dotProduct_mulVec]]
    rw [show star y ᵥ* Uᴴ ⬝ᵥ U *ᵥ y = star y ⬝ᵥ y by rw [← Matrix.dotProduct_mulVec, hUy]]
    rw [show star v ⬝ᵥ U *ᵥ y = star y ⬝ᵥ y by
      rw [Matrix.dotProduct_mulVec]
      congr 1
      rw [hy, Matrix.star_mulVec, Matrix.conjTranspose_conjTranspose]]
    ring
  have e' : len2 (v - U *ᵥ y) = len2 v - len2 y := by exact_mod_cast e
  have : len2 y ≤ len2 v := by linarith
  exact this

/-- a direction in which a density has at least the energy of its value `j`, orthogonal to at most `j` given vectors -/
theorem strong_direction (U : Matrix X (Fin k) ℂ) (S : Fin k → ℝ) (hU : Uᴴ * U = Matrix.diagonal (ind S)) (hS : Antitone S) (h0 : ∀ l, 0 ≤ S l)
    (j : Fin k) (hj : S j ≠ 0) {ι : Type} [Fintype ι] (hι : Fintype.card ι ≤ j) (g : ι → X → ℂ) :
    ∃ v : X → ℂ, len2 v = 1 ∧ (∀ i, star (g i) ⬝ᵥ v = 0) ∧ S j ^ 2 ≤ form (density U S) v := by
  classical
  obtain ⟨z, hz, hc⟩ := common_zero (n := k) (ι := ι ⊕ {a : Fin k // j < a}) (by
    have c1 : (Finset.univ.filter fun a : Fin k => j < a).card = k - 1 - j := by rw [Finset.filter_lt_eq_Ioi, Fin.card_Ioi]
    rw [Fintype.card_sum, Fintype.card_subtype, c1]
    have := j.2
    omega) (Sum.elim (fun i => WithLp.toLp 2 (Uᴴ *ᵥ g i)) fun a => EuclideanSpace.single a.1 1)
  have hza : ∀ a, j < a → z.ofLp a = 0 := by
    intro a ha
    have := hc (.inr ⟨a, ha⟩)
    simpa [EuclideanSpace.inner_single_left] using this
  have hzU : Uᴴ *ᵥ (U *ᵥ z.ofLp) = z.ofLp := by
    rw [Matrix.mulVec_mulVec, hU]
    funext l
    rw [Matrix.mulVec_diagonal]
    rcases le_or_gt l j with hl | hl
    · have : S l ≠ 0 := by
        have h1 := hS hl
        have h2 := lt_of_le_of_ne (h0 j) (Ne.symm hj)
        linarith
      rw [ind, if_neg this, one_mul]
    · rw [hza l hl, mul_zero]
  have hz1 : len2 z.ofLp = 1 := by
    have := EuclideanSpace.norm_sq_eq z
    rw [hz, one_pow] at this
    rw [this]
    simp [len2, Complex.sq_norm]
  refine ⟨U *ᵥ z.ofLp, ?_, fun i => ?_, ?_⟩
  · have : ((len2 (U *ᵥ z.ofLp) : ℝ) : ℂ) = len2 z.ofLp := by
      rw [← len2_dot, ← len2_dot, Matrix.star_mulVec, ← Matrix.dotProduct_mulVec, hzU]
    rw [← hz1]
    exact_mod_cast this
  · have := hc (.inl i)
    simp only [Sum.elim_inl] at this
    rw [show inner ℂ (WithLp.toLp 2 (Uᴴ *ᵥ g i)) z = star (Uᴴ *ᵥ g i) ⬝ᵥ z.ofLp by
      rw [show z = WithLp.toLp 2 z.ofLp from rfl, EuclideanSpace.inner_toLp_toLp, dotProduct_comm]] at this
    rw [Matrix.star_mulVec, Matrix.conjTranspose_conjTranspose] at this
    rw [Matrix.dotProduct_mulVec]
    exact this
  · rw [form_density, hzU]
    calc S j ^ 2 = ∑ l, S j ^ 2 * Complex.normSq (z.ofLp l) := by rw [← Finset.mul_sum]; exact (by rw [show ∑ l, Complex.normSq (z.ofLp l) = 1 from hz1, mul_one])
      _ ≤ _ := by
        refine Finset.sum_le_sum fun l _ => ?_
        rcases le_or_gt l j with hl | hl
        · exact mul_le_mul_of_nonneg_right (pow_le_pow_left₀ (h0 j) (hS hl) 2) (Complex.normSq_nonneg _)
        · rw [hza l hl]; simp

/-- in directions orthogonal to the first `j` modes a density has at most the energy of its value `j` -/
theorem weak_direction (U : Matrix X (Fin k) ℂ) (S : Fin k → ℝ) (hU : Uᴴ * U = Matrix.diagonal (ind S)) (hS : Antitone S) (h0 : ∀ l, 0 ≤ S l)
    (j : Nat) (v : X → ℂ) (hv : ∀ a : Fin k, a.1 < j → star (fun i => U i a) ⬝ᵥ v = 0) :
    form (density U S) v ≤ (if h : j < k then S ⟨j, h⟩ ^ 2 else 0) * len2 v := by
  rw [form_density]
  have hc : ∀ a : Fin k, (Uᴴ *ᵥ v) a = star (fun i => U i a) ⬝ᵥ v := fun a => by
    simp only [Matrix.mulVec, dotProduct, Matrix.conjTranspose_apply, Pi.star_apply]
  split
  · rename_i h
    calc ∑ l, S l ^ 2 * Complex.normSq ((Uᴴ *ᵥ v) l) ≤ ∑ l, S ⟨j, h⟩ ^ 2 * Complex.normSq ((Uᴴ *ᵥ v) l) := by
          refine Finset.sum_le_sum fun l _ => ?_
          rcases lt_or_ge l.1 j with hl | hl
          · rw [hc, hv l hl]; simp
          · exact mul_le_mul_of_nonneg_right (pow_le_pow_left₀ (h0 _) (hS (show (⟨j, h⟩ : Fin k) ≤ l from hl)) 2) (Complex.normSq_nonneg _)
      _ = S ⟨j, h⟩ ^ 2 * ∑ l, Complex.normSq ((Uᴴ *ᵥ v) l) := by rw [Finset.mul_sum]
      _ ≤ _ := mul_le_mul_of_nonneg_left (bessel U S hU v) (sq_nonneg _)
  · rename_i h
    rw [zero_mul]
    refine le_of_eq (Finset.sum_eq_zero fun l _ => ?_)
    rw [hc, hv l (by have := l.2; omega)]; simp

/-- values of two densities, one of which has nowhere more energy than the other plus `t` -/
theorem density_compare {k' : Nat} (U : Matrix X (Fin k) ℂ) (S : Fin k → ℝ) (hU : Uᴴ * U = Matrix.diagonal (ind S)) (hS : Antitone S) (h0 : ∀ l, 0 ≤ S l)
    (U' : Matrix X (Fin k') ℂ) (S' : Fin k' → ℝ) (hU' : U'ᴴ * U' = Matrix.diagonal (ind S')) (hS' : Antitone S') (h0' : ∀ l, 0 ≤ S' l) (t : ℝ) (ht : 0 ≤ t)
    (h : ∀ v, form (density U S) v ≤ form (density U' S') v + t * len2 v) (j : Fin k) :
    S j ^ 2 ≤ (if h : j.1 < k' then S' ⟨j.1, h⟩ ^ 2 else 0) + t := by
  have hpos : 0 ≤ (if h : j.1 < k' then S' ⟨j.1, h⟩ ^ 2 else 0) := by split <;> positivity
  rcases eq_or_ne (S j) 0 with hj | hj
  · rw [hj]
    linarith
  · obtain ⟨v, hv, ho, hs⟩ := strong_direction U S hU hS h0 j hj (ι := {a : Fin k' // a.1 < j.1}) (by
      rw [Fintype.card_subtype]
      calc (Finset.univ.filter fun a : Fin k' => a.1 < j.1).card = ((Finset.univ.filter fun a : Fin k' => a.1 < j.1).map Fin.valEmbedding).card := by
            rw [Finset.card_map]
        _ ≤ (Finset.range j.1).card := Finset.card_le_card fun a ha => by
            obtain ⟨b, hb, rfl⟩ := Finset.mem_map.1 ha
            exact Finset.mem_range.2 (Finset.mem_filter.1 hb).2
        _ = j.1 := Finset.card_range _) (fun a i => U' i a.1)
    have hw := weak_direction U' S' hU' hS' h0' j.1 v fun a ha => ho ⟨a, ha⟩
    have := h v
    rw [hv] at this hw
    linarith

theorem trace_density (U : Matrix X (Fin k) ℂ) (S : Fin k → ℝ) (hU : Uᴴ * U = Matrix.diagonal (ind S)) :
    (Matrix.trace (density U S)).re = ∑ j, S j ^ 2 := by
  rw [density, Matrix.trace_mul_comm, ← Matrix.mul_assoc, hU, Matrix.diagonal_mul_diagonal, Matrix.trace_diagonal, Complex.re_sum]
  refine Finset.sum_congr rfl fun j _ => ?_
  unfold ind
  by_cases hj : S j = 0
  · simp [hj]
  · rw [if_neg hj, one_mul, show ((S j : ℂ) ^ 2) = ((S j ^ 2 : ℝ) : ℂ) by push_cast; rfl, Complex.ofReal_re]

/-- A run with truncation and one that keeps everything. -/
theorem runs_compare {k' : Nat} {xs : List (X → ℂ)} {U : Matrix X (Fin k) ℂ} {S : Fin k → ℝ} {U' : Matrix X (Fin k') ℂ} {S' : Fin k' → ℝ}
    (h : StreamRun k xs U S) (h' : StreamRun k' xs U' S') (hk : xs.length ≤ k') :
    (∀ j : Fin k, S j ^ 2 ≤ if h : j.1 < k' then S' ⟨j.1, h⟩ ^ 2 else 0) ∧
    (∀ j : Fin k', S' j ^ 2 ≤ (if h : j.1 < k then S ⟨j.1, h⟩ ^ 2 else 0) + (∑ l, S' l ^ 2 - ∑ l, S l ^ 2)) ∧
    ∑ l, S l ^ 2 ≤ ∑ l, S' l ^ 2 := by
  have o := stream_orthonormal h
  have o' := stream_orthonormal h'
  have hd : density U' S' = exactDensity xs := stream_closed_form h' hk
  have hb := run_deficit h
  rw [← hd] at hb
  have e : ∀ v, form (density U' S' - density U S) v = form (density U' S') v - form (density U S) v := fun v => by
    have := form_add (density U' S' - density U S) (density U S) v
    rw [sub_add_cancel] at this
    linarith
  have et : (Matrix.trace (density U' S' - density U S)).re = ∑ l, S' l ^ 2 - ∑ l, S l ^ 2 := by
    rw [Matrix.trace_sub, Complex.sub_re, trace_density U S o, trace_density U' S' o']
  simp only [Bounded, e, et] at hb
  have ht : ∑ l, S l ^ 2 ≤ ∑ l, S' l ^ 2 := by
    have hz := run_deficit h
    rw [← hd] at hz
    have hsum : 0 ≤ (Matrix.trace (density U' S' - density U S)).re := by
      simp only [Matrix.trace, Matrix.diag, Complex.re_sum]
      refine Finset.sum_nonneg fun i _ => ?_
      have := (hz (Pi.single i 1)).1
      simpa [form] using this
    rw [et] at hsum
    linarith
  refine ⟨fun j => ?_, fun j => ?_, ht⟩
  · have := density_compare U S o (run_sorted h) (run_nonneg h) U' S' o' (run_sorted h') (run_nonneg h') 0 le_rfl
      (fun v => by have := (hb v).1; linarith) j
    rwa [add_zero] at this
  · exact density_compare U' S' o' (run_sorted h') (run_nonneg h') U S o (run_sorted h) (run_nonneg h) _ (by linarith)
      (fun v => by have := (hb v).2; linarith) j
end

/-- a streaming fit never makes more updates than the standard algorithm has blocks -/
theorem nUpdates_le (c : Cfg) (ω : ℂ) (frames : List (Arr ℝ)) (w : Arr ℝ) (h : StreamAccepted c frames w) :
    nUpdates c ω frames.length ≤ fitNb c frames.length := by
  by_contra hcon
  push Not at hcon
  have h1 := (nUpdates_spec c ω h.dft h.sep frames.length _).1 hcon
  have hs := h.sep
  have ho := h.overlap
  have h2 : fitNb c frames.length * sep c + c.nDft ≤ frames.length :=
    le_trans (Nat.add_le_add_right (Nat.le_add_right _ _) _) h1
  have hb := feasible_nb c _ h.blocks
  have e : (fitNb c frames.length : Int) = nBlocks frames.length c.nDft c.nOvlp := by
    unfold fitNb
    exact Int.toNat_of_nonneg (by have := hb.1; unfold fitNb at this; omega)
  have hsep : (sep c : Int) = (c.nDft : Int) - c.nOvlp := by unfold sep; omega
  unfold nBlocks at e
  rw [Int.fdiv_eq_ediv_of_nonneg _ (by omega), ← hsep] at e
  have h3 := Int.lt_ediv_add_one_mul_self ((frames.length : Int) - c.nOvlp) (b := sep c) (by omega)
  rw [← e] at h3
  have h4 : ((fitNb c frames.length : Int) + 1) * (sep c : Int) = (fitNb c frames.length * sep c : ℕ) + (sep c : Int) := by push_cast; ring
  rw [h4] at h3
  omega

/-- `c` with another number of modes to save -/
def saving (c : Cfg) (m : Nat) : Cfg := { c with nSave := m }

theorem StreamAccepted.saving {c frames w} (h : StreamAccepted c frames w) (m : Nat) (hm : 2 ≤ m) : StreamAccepted (Verif.Props.saving c m) frames w where
  shapes := h.shapes
  space := h.space
  mean := h.mean
  blocks := h.blocks
  overlap := h.overlap
  save := hm
  points := h.points

section
variable (c : Cfg) (ω : ℂ) (frames : List (Arr ℝ)) (w : Arr ℝ)

/-- **C199.** A streaming fit that saves few modes, and one that saves at least as many as there are blocks; serially and on every number of ranks.  At every
    frequency whose blocks are independent (stored eigenvalues are square roots, see C66): no eigenvalue is larger than without truncation; it is too small by
    at most the total energy that truncation has removed; and if no more blocks are read than modes are saved, all are the same. -/
theorem stream_truncation (h : StreamAccepted c frames w) (m : Nat) (hm : fitNb c frames.length ≤ m) (svd : Svd (kept c frames.length))
    (svd' : Svd (kept (saving c m) frames.length)) (hsvd : ∀ K, Stream.IsSVD K (svd K).1 (svd K).2) (hsvd' : ∀ K, Stream.IsSVD K (svd' K).1 (svd' K).2) :
    ∃ out out', streamSerial c ω frames w svd = some out ∧ streamSerial (saving c m) ω frames w svd' = some out' ∧
      (∀ p, 0 < p → NoSingleton w p → ∀ s : (β : Type) → List (Write β) → List (Write β), (∀ β l, (s β l).Perm l) →
        streamParallel c ω frames w svd p s = some out ∧ streamParallel (saving c m) ω frames w svd' p s = some out') ∧
      ∀ f, Independent c ω frames w f →
        (∀ j j', j.1 = j'.1 → out.eigs f j ≤ out'.eigs f j') ∧
        (∀ j j', j.1 = j'.1 → out'.eigs f j' ^ 2 - out.eigs f j ^ 2 ≤ ∑ l, out'.eigs f l ^ 2 - ∑ l, out.eigs f l ^ 2) ∧
        ((∀ b, streamStart (Stream.nPar c.nDft (sep c)) (sep c) b + c.nDft ≤ frames.length → b < c.nSave) →
          (∀ j j', j.1 = j'.1 → out.eigs f j = out'.eigs f j') ∧ ∀ j', kept c frames.length ≤ j'.1 → out'.eigs f j' = 0) := by
  have hb := (feasible_nb c _ h.blocks).1
  have h' := h.saving m (by omega)
  refine ⟨_, _, (h.runs ω svd).1, (h'.runs ω svd').1, fun p hp ho s hs => ⟨(h.runs ω svd).2 p hp ho s hs, (h'.runs ω svd').2 p hp ho s hs⟩, ?_⟩
  intro f hind
  have key := independent_cols c ω frames w h f hind
  have r := basis_run w.shape svd hsvd (fun m idx => newCol c ω f m (w.at' idx) (atIdx idx frames)) (nUpdates c ω frames.length) key
  have r' := basis_run w.shape svd' hsvd' (fun m idx => newCol c ω f m (w.at' idx) (atIdx idx frames)) (nUpdates c ω frames.length) key
  have hk : kept (saving c m) frames.length = fitNb c frames.length := by
    show min m (fitNb c frames.length) = _
    omega
  have hle : kept c frames.length ≤ kept (saving c m) frames.length := by rw [hk]; exact min_le_right _ _
  have hlen : (((List.range (nUpdates c ω frames.length)).map fun (m : Nat) => fun i : Fin (size w.shape) =>
      newCol c ω f m (w.at' (unravel w.shape i)) (atIdx (unravel w.shape i) frames))).length ≤ kept (saving c m) frames.length := by
    rw [List.length_map, List.length_range, hk]
    exact nUpdates_le c ω frames w h
  obtain ⟨g1, g2, g3⟩ := runs_compare r r' hlen
  have n := run_nonneg r
  have n' := run_nonneg r'
  have up : ∀ (j : Fin (kept c frames.length)) (j' : Fin (kept (saving c m) frames.length)), j.1 = j'.1 →
      (globalStream c ω frames w svd).eigs f j ≤ (globalStream (saving c m) ω frames w svd').eigs f j' := by
    intro j j' hj
    have := g1 j
    rw [dif_pos (by omega)] at this
    have e : (⟨j.1, by omega⟩ : Fin (kept (saving c m) frames.length)) = j' := Fin.ext hj
    rw [e] at this
    exact (pow_le_pow_iff_left₀ (n j) (n' j') two_ne_zero).1 this
  refine ⟨up, fun j j' hj => ?_, fun hall => ?_⟩
  · have := g2 j'
    rw [dif_pos (by omega)] at this
    have e : (⟨j'.1, by omega⟩ : Fin (kept c frames.length)) = j := Fin.ext hj.symm
    rw [e] at this
    have g : (lastBasis (saving c m) ω frames.length f frames w svd').S j' ^ 2 - (lastBasis c ω frames.length f frames w svd).S j ^ 2 ≤
      ∑ l, (lastBasis (saving c m) ω frames.length f frames w svd').S l ^ 2 - ∑ l, (lastBasis c ω frames.length f frames w svd).S l ^ 2 :=
      sub_le_iff_le_add'.2 this
    exact g
  · have hfew : nUpdates c ω frames.length ≤ kept c frames.length := by
      refine le_min ?_ (nUpdates_le c ω frames w h)
      by_contra hcon
      push Not at hcon
      have := hall c.nSave ((nUpdates_spec c ω h.dft h.sep frames.length _).1 hcon)
      omega
    obtain ⟨g1', g2', g3'⟩ := runs_compare r' r (by rw [List.length_map, List.length_range]; exact hfew)
    constructor
    · intro j j' hj
      refine le_antisymm (up j j' hj) ?_
      have := g1' j'
      rw [dif_pos (by omega)] at this
      have e : (⟨j'.1, by omega⟩ : Fin (kept c frames.length)) = j := Fin.ext hj.symm
      rw [e] at this
      exact (pow_le_pow_iff_left₀ (n' j') (n j) two_ne_zero).1 this
    · intro j' hj
      have := g1' j'
      rw [dif_neg (by omega)] at this
      have : (lastBasis (saving c m) ω frames.length f frames w svd').S j' ^ 2 = 0 := le_antisymm this (sq_nonneg _)
      exact pow_eq_zero_iff two_ne_zero |>.1 this

end

/-! #### The hypotheses are met: three blocks, two modes kept -/

/-- nine snapshots on three points, each with one pulse: at times 1, 4 and 6 -/
def pulseFrames : List (Arr ℝ) :=
  (List.range 9).map fun (t : Nat) => ⟨[3, 1], fun i => if i = [0, 0] ∧ t = 1 ∨ i = [1, 0] ∧ t = 4 ∨ i = [2, 0] ∧ t = 6 then 1 else 0⟩

def pulseWeights : Arr ℝ := ⟨[3, 1], fun _ => 1⟩

theorem pulse_accepted : StreamAccepted sexCfg pulseFrames pulseWeights where
  shapes := by
    intro a ha
    simp only [pulseFrames, List.mem_map] at ha
    obtain ⟨t, -, rfl⟩ := ha
    rfl
  space := by simp [pulseWeights]
  mean := by decide
  blocks := by
    have hlen : pulseFrames.length = 9 := by simp [pulseFrames]
    rw [hlen]; decide
  overlap := by decide
  save := by decide
  points := by decide

theorem triangular {Y : Type} (x : Nat → Y → ℂ) (m : Nat) (y : Y) (h : x m y ≠ 0) (h' : ∀ m' < m, x m' y = 0) :
    x m ∉ Submodule.span ℂ {v | ∃ m' < m, v = x m'} := by
  intro hmem
  have : Submodule.span ℂ {v | ∃ m' < m, v = x m'} ≤ LinearMap.ker (LinearMap.proj (R := ℂ) (φ := fun _ : Y => ℂ) y) := by
    rw [Submodule.span_le]
    rintro v ⟨m', hm, rfl⟩
    exact h' m' hm
  exact h (LinearMap.mem_ker.1 (this hmem))

theorem pulse_blocks : specVec sexCfg (-Complex.I) pulseFrames pulseWeights 1 0 ⟨0, by decide⟩ ≠ 0 ∧
    specVec sexCfg (-Complex.I) pulseFrames pulseWeights 1 1 ⟨1, by decide⟩ ≠ 0 ∧
    specVec sexCfg (-Complex.I) pulseFrames pulseWeights 1 2 ⟨2, by decide⟩ ≠ 0 ∧
    specVec sexCfg (-Complex.I) pulseFrames pulseWeights 1 0 ⟨1, by decide⟩ = 0 ∧
    specVec sexCfg (-Complex.I) pulseFrames pulseWeights 1 0 ⟨2, by decide⟩ = 0 ∧
    specVec sexCfg (-Complex.I) pulseFrames pulseWeights 1 1 ⟨2, by decide⟩ = 0 := by
  have h0 : streamStart (Stream.nPar sexCfg.nDft (sep sexCfg)) (sep sexCfg) 0 = 0 := by decide
  have h1 : streamStart (Stream.nPar sexCfg.nDft (sep sexCfg)) (sep sexCfg) 1 = 2 := by decide
  have h2 : streamStart (Stream.nPar sexCfg.nDft (sep sexCfg)) (sep sexCfg) 2 = 5 := by decide
  have ew : ((winWeight sexCfg.win : ℝ) : ℂ) = 2 / 3 := by
    simp [winWeight, sexCfg]
    norm_num
  have i3 : (-Complex.I) ^ 3 = Complex.I := by
    rw [pow_succ, neg_sq, Complex.I_sq]
    ring
  have hn : nFreq sexCfg.nDft sexCfg.isreal sexCfg.full = 3 := by decide
  refine ⟨?_, ?_, ?_, ?_, ?_, ?_⟩ <;> simp only [specVec, specBlock, h0, h1, h2, ew, hn]
  all_goals
    simp [sexCfg, pulseFrames, pulseWeights, Finset.sum_range_succ, unravel, size, Stream.dftMat, List.range_succ]
  all_goals
    rw [i3]
    intro h
    have hr := congrArg Complex.re h
    norm_num at hr

theorem pulse_independent : Independent sexCfg (-Complex.I) pulseFrames pulseWeights 1 := by
  obtain ⟨a0, a1, a2, b1, b2, b3⟩ := pulse_blocks
  have hlen : pulseFrames.length = 9 := by simp [pulseFrames]
  intro m hm
  rw [hlen] at hm
  have hm2 : m < 3 := by
    by_contra hcon
    have h2 : streamStart (Stream.nPar sexCfg.nDft (sep sexCfg)) (sep sexCfg) 3 + sexCfg.nDft = 11 := by decide
    have := streamStart_mono (P := Stream.nPar sexCfg.nDft (sep sexCfg)) (dn := sep sexCfg) (not_lt.1 hcon)
    omega
  have : m = 0 ∨ m = 1 ∨ m = 2 := by omega
  rcases this with rfl | rfl | rfl
  · exact triangular _ 0 _ a0 (by omega)
  · exact triangular _ 1 _ a1 fun m' h => (show m' = 0 by omega) ▸ b1
  · refine triangular _ 2 _ a2 fun m' h => ?_
    have : m' = 0 ∨ m' = 1 := by omega
    rcases this with rfl | rfl
    · exact b2
    · exact b3

example : ∃ (svd : Svd 2) (svd' : Svd 3) (out : SOut 2) (out' : SOut 3), streamSerial sexCfg (-Complex.I) pulseFrames pulseWeights svd = some out ∧
    streamSerial (saving sexCfg 5) (-Complex.I) pulseFrames pulseWeights svd' = some out' ∧ out.eigs 1 0 ≤ out'.eigs 1 0 ∧ out.eigs 1 1 ≤ out'.eigs 1 1 ∧
      out'.eigs 1 1 ^ 2 - out.eigs 1 1 ^ 2 ≤ ∑ l, out'.eigs 1 l ^ 2 - ∑ l, out.eigs 1 l ^ 2 := by
  have hlen : pulseFrames.length = 9 := by simp [pulseFrames]
  have e1 : kept sexCfg pulseFrames.length = 2 := by rw [hlen]; decide
  have e2 : kept (saving sexCfg 5) pulseFrames.length = 3 := by rw [hlen]; decide
  choose g1 g2 hg using fun K : Matrix (Fin 2 ⊕ Unit) (Fin 2 ⊕ Unit) ℂ => svd_exists K
  choose g1' g2' hg' using fun K : Matrix (Fin 3 ⊕ Unit) (Fin 3 ⊕ Unit) ℂ => svd_exists K
  have := stream_truncation sexCfg (-Complex.I) pulseFrames pulseWeights pulse_accepted 5 (by rw [hlen]; decide) (fun K => (g1 K, g2 K)) (fun K => (g1' K, g2' K)) hg hg'
  obtain ⟨out, out', h1, h2, -, h3⟩ := this
  obtain ⟨u1, u2, -⟩ := h3 1 pulse_independent
  exact ⟨_, _, out, out', h1, h2, u1 _ _ rfl, u1 _ _ rfl, u2 _ _ rfl⟩

end Verif.Props
