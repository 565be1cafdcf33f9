import Verif.Model.Pod
import Verif.Props.Coeffs
import Verif.Props.Mean
import Mathlib.Tactic.LinearCombination
import Mathlib.Algebra.Order.BigOperators.Group.Finset
/-
  C52, C53 and C77-C81: proper orthogonal decomposition.
-/
set_option linter.unusedSectionVars false
set_option linter.unusedVariables false
namespace Verif.Props
open Verif Verif.Pod Verif.Par Matrix

section
variable {X : Type} [Fintype X] [DecidableEq X] {nt : Nat}

/-- weighted inner product of two fields (specification) -/
def podIp (w : X → ℝ) (f g : X → ℝ) : ℝ := ∑ x, w x * (f x * g x)

theorem corr_apply (d : Matrix X (Fin nt) ℝ) (w : X → ℝ) (u v : Fin nt → ℝ) :
    u ⬝ᵥ (corrMat d w *ᵥ v) = podIp w (d *ᵥ u) (d *ᵥ v) := by
  unfold corrMat podIp
  rw [← Matrix.mulVec_mulVec, Matrix.dotProduct_mulVec, Matrix.vecMul_transpose]
  unfold dotProduct
  refine Finset.sum_congr rfl fun x _ => ?_
  have : ((Matrix.of fun x t => d x t * w x) *ᵥ v) x = w x * (d *ᵥ v) x := by
    simp only [Matrix.mulVec, dotProduct, Matrix.of_apply, Finset.mul_sum]
    exact Finset.sum_congr rfl fun t _ => by ring
  rw [this]; ring

theorem podIp_comm (w : X → ℝ) (f g : X → ℝ) : podIp w f g = podIp w g f :=
  Finset.sum_congr rfl fun x _ => by ring

theorem eig_ip {d : Matrix X (Fin nt) ℝ} {w : X → ℝ} {lam : Fin nt → ℝ} {V : Matrix (Fin nt) (Fin nt) ℝ}
    (h : EigBasis (corrMat d w) lam V) (i j : Fin nt) :
    podIp w (d *ᵥ fun k => V k i) (d *ᵥ fun k => V k j) = lam j * ∑ k, V k i * V k j := by
  rw [← corr_apply, h.eig j, dotProduct_smul]
  rfl

/-- The eigenvalues are non-negative and are the energies of the (unnormalised) modes. -/
theorem pod_eig_energy {d : Matrix X (Fin nt) ℝ} {w : X → ℝ} {lam : Fin nt → ℝ} {V : Matrix (Fin nt) (Fin nt) ℝ}
    (h : EigBasis (corrMat d w) lam V) (hw : ∀ x, 0 ≤ w x) (j : Fin nt) :
    0 ≤ lam j ∧ podIp w (d *ᵥ fun k => V k j) (d *ᵥ fun k => V k j) = lam j := by
  have e := eig_ip h j j
  rw [h.unit j, mul_one] at e
  refine ⟨?_, e⟩
  rw [← e]
  exact Finset.sum_nonneg fun x _ => mul_nonneg (hw x) (mul_self_nonneg _)

theorem eig_orth {d : Matrix X (Fin nt) ℝ} {w : X → ℝ} {lam : Fin nt → ℝ} {V : Matrix (Fin nt) (Fin nt) ℝ}
    (h : EigBasis (corrMat d w) lam V) (i j : Fin nt) (hne : lam i ≠ lam j) : ∑ k, V k i * V k j = 0 := by
  have h1 := eig_ip h i j
  have h2 := eig_ip h j i
  rw [podIp_comm] at h2
  have e : ∑ k, V k j * V k i = ∑ k, V k i * V k j := Finset.sum_congr rfl fun k _ => by ring
  rw [e] at h2
  have : (lam i - lam j) * ∑ k, V k i * V k j = 0 := by linear_combination h1 - h2
  rcases mul_eq_zero.1 this with h' | h'
  · exact absurd (sub_eq_zero.1 h') hne
  · exact h'

/-- **C52 (orthonormality, partial).**  Modes with positive, pairwise different eigenvalues are orthonormal in the
    weighted inner product. -/
theorem pod_orthonormal_partial (mk : MeanKind) (d : Matrix X (Fin nt) ℝ) (w : X → ℝ) (lam : Fin nt → ℝ)
    (V : Matrix (Fin nt) (Fin nt) ℝ) (h : EigBasis (corrMat (fitData mk d) w) lam V) (r : Nat) (hr : r ≤ nt)
    (hpos : ∀ j : Fin r, 0 < lam (Fin.castLE hr j))
    (hdist : ∀ i j : Fin r, lam (Fin.castLE hr i) = lam (Fin.castLE hr j) → i = j) (i j : Fin r) :
    podIp w (fun x => modes mk d lam V r hr x i) (fun x => modes mk d lam V r hr x j) = if i = j then 1 else 0 := by
  set I := Fin.castLE hr i with hI
  set J := Fin.castLE hr j with hJ
  have e : podIp w (fun x => modes mk d lam V r hr x i) (fun x => modes mk d lam V r hr x j) =
      podIp w (fitData mk d *ᵥ fun k => V k I) (fitData mk d *ᵥ fun k => V k J) / (Real.sqrt (lam I) * Real.sqrt (lam J)) := by
    unfold podIp
    rw [Finset.sum_div]
    refine Finset.sum_congr rfl fun x _ => ?_
    simp only [modes, keep, phiAll, Matrix.of_apply, ← hI, ← hJ]
    simp only [Matrix.mul_apply, Matrix.mulVec, dotProduct]
    ring
  rw [e, eig_ip h]
  by_cases hij : i = j
  · subst hij
    rw [if_pos rfl, h.unit, mul_one, Real.mul_self_sqrt (hpos i).le, div_self (hpos i).ne']
  · rw [if_neg hij, eig_orth h I J (fun hh => hij (hdist i j hh)), mul_zero, zero_div]

theorem eig_null {d : Matrix X (Fin nt) ℝ} {w : X → ℝ} {lam : Fin nt → ℝ} {V : Matrix (Fin nt) (Fin nt) ℝ}
    (h : EigBasis (corrMat d w) lam V) (hw : ∀ x, 0 < w x) (j : Fin nt) (h0 : lam j = 0) (x : X) : (d * V) x j = 0 := by
  have e := (pod_eig_energy h (fun x => (hw x).le) j).2
  rw [h0] at e
  unfold podIp at e
  have := (Finset.sum_eq_zero_iff_of_nonneg (fun x _ => mul_nonneg (hw x).le (mul_self_nonneg _))).1 e x (Finset.mem_univ x)
  rcases mul_eq_zero.1 this with h' | h'
  · exact absurd h' (hw x).ne'
  · have := mul_self_eq_zero.1 h'
    rw [← this]; rfl

/-- The data used by `fit` are combinations of the kept modes, if those are all modes of positive energy. -/
theorem pod_span (d : Matrix X (Fin nt) ℝ) (w : X → ℝ) (hw : ∀ x, 0 < w x) (lam : Fin nt → ℝ)
    (V : Matrix (Fin nt) (Fin nt) ℝ) (h : EigBasis (corrMat d w) lam V) (r : Nat) (hr : r ≤ nt)
    (hpos : ∀ j : Fin r, 0 < lam (Fin.castLE hr j)) (hrest : ∀ j : Fin nt, r ≤ j.val → lam j = 0) :
    ∃ C : Matrix (Fin r) (Fin nt) ℝ, d = keep (phiAll d lam V) r hr * C := by
  obtain ⟨s, rfl⟩ := Nat.exists_eq_add_of_le hr
  refine ⟨Matrix.of fun j t => Real.sqrt (lam (Fin.castAdd s j)) * V⁻¹ (Fin.castAdd s j) t, ?_⟩
  have hVV : V * V⁻¹ = 1 := Matrix.mul_nonsing_inv V h.basis
  ext x t
  have e1 : d x t = ∑ j, (d * V) x j * V⁻¹ j t := by
    rw [← Matrix.mul_apply, Matrix.mul_assoc, hVV, Matrix.mul_one]
  rw [e1, Fin.sum_univ_add, Matrix.mul_apply]
  have e2 : ∑ i : Fin s, (d * V) x (Fin.natAdd r i) * V⁻¹ (Fin.natAdd r i) t = 0 := by
    refine Finset.sum_eq_zero fun i _ => ?_
    rw [eig_null h hw _ (hrest _ (by simp)), zero_mul]
  rw [e2, add_zero]
  refine Finset.sum_congr rfl fun j _ => ?_
  have hp := hpos j
  simp only [keep, phiAll, Matrix.of_apply]
  have hc : Fin.castLE hr j = Fin.castAdd s j := rfl
  rw [hc] at hp ⊢
  have hs : Real.sqrt (lam (Fin.castAdd s j)) ≠ 0 := (Real.sqrt_pos.2 hp).ne'
  field_simp

theorem centred_of_fit (mk : MeanKind) (d : Matrix X (Fin nt) ℝ) (hnt : 0 < nt) :
    ∃ P : Matrix (Fin nt) (Fin nt) ℝ, (Matrix.of fun x t => d x t - tMean d x) = fitData mk d * P := by
  cases mk with
  | longtime => exact ⟨1, by rw [Matrix.mul_one]; rfl⟩
  | zero =>
    refine ⟨1 - Matrix.of fun _ _ => (nt : ℝ)⁻¹, ?_⟩
    ext x t
    rw [Matrix.mul_sub, Matrix.mul_one]
    simp only [Matrix.of_apply, Matrix.sub_apply, fitData, sub_zero, Matrix.mul_apply, tMean]
    rw [← Finset.sum_mul, div_eq_mul_inv]

/-- **C52/C80 (constant weights).**  If every kept mode has positive eigenvalue, the eigenvalues are different, all other
    eigenvalues are zero and the weights are a constant `c > 0`, the reconstruction is the mean plus `1/c` times
    the fluctuation. -/
theorem pod_reconstruct_exact (mk : MeanKind) (d : Matrix X (Fin nt) ℝ) (hnt : 0 < nt) (c : ℝ) (hc : 0 < c)
    (lam : Fin nt → ℝ) (V : Matrix (Fin nt) (Fin nt) ℝ)
    (h : EigBasis (corrMat (fitData mk d) fun _ => c) lam V) (r : Nat) (hr : r ≤ nt)
    (hpos : ∀ j : Fin r, 0 < lam (Fin.castLE hr j))
    (hdist : ∀ i j : Fin r, lam (Fin.castLE hr i) = lam (Fin.castLE hr j) → i = j)
    (hrest : ∀ j : Fin nt, r ≤ j.val → lam j = 0) (x : X) (t : Fin nt) :
    reconstruct (modes mk d lam V r hr) d x t = tMean d x + (d x t - tMean d x) / c := by
  obtain ⟨C, hC⟩ := pod_span (fitData mk d) (fun _ => c) (fun _ => hc) lam V h r hr hpos hrest
  obtain ⟨P, hP⟩ := centred_of_fit mk d hnt
  set Φ := modes mk d lam V r hr with hΦ
  have horth : Φᵀ * Φ = c⁻¹ • (1 : Matrix (Fin r) (Fin r) ℝ) := by
    ext i j
    have := pod_orthonormal_partial mk d (fun _ => c) lam V h r hr hpos hdist i j
    unfold podIp at this
    rw [← Finset.mul_sum] at this
    rw [Matrix.smul_apply, Matrix.one_apply, ← this, smul_eq_mul, ← mul_assoc, inv_mul_cancel₀ hc.ne', one_mul,
      Matrix.mul_apply]
    rfl
  have hfit : fitData mk d = Φ * C := hC
  have key : Φ * coeffsOp Φ d = c⁻¹ • (Matrix.of fun x t => d x t - tMean d x) := by
    unfold coeffsOp
    rw [hP, hfit, ← Matrix.mul_assoc, show Φ * Φᵀ * (Φ * C * P) = Φ * (Φᵀ * Φ) * C * P by simp only [Matrix.mul_assoc],
      horth]
    simp [Matrix.mul_assoc]
  unfold reconstruct
  rw [key]
  simp only [Matrix.of_apply, Matrix.smul_apply, smul_eq_mul]
  field_simp
  ring

/-- **C52 (reconstruction, partial).**  With unit weights the reconstruction returns the data. -/
theorem pod_reconstruct_partial (mk : MeanKind) (d : Matrix X (Fin nt) ℝ) (hnt : 0 < nt)
    (lam : Fin nt → ℝ) (V : Matrix (Fin nt) (Fin nt) ℝ)
    (h : EigBasis (corrMat (fitData mk d) fun _ => 1) lam V) (r : Nat) (hr : r ≤ nt)
    (hpos : ∀ j : Fin r, 0 < lam (Fin.castLE hr j))
    (hdist : ∀ i j : Fin r, lam (Fin.castLE hr i) = lam (Fin.castLE hr j) → i = j)
    (hrest : ∀ j : Fin nt, r ≤ j.val → lam j = 0) :
    reconstruct (modes mk d lam V r hr) d = d := by
  ext x t
  rw [pod_reconstruct_exact mk d hnt 1 one_pos lam V h r hr hpos hdist hrest, div_one]
  ring

/-- **C80 fails** for every constant weight other than 1 and every data that vary in time. -/
theorem pod_reconstruct_weights_fails (mk : MeanKind) (d : Matrix X (Fin nt) ℝ) (hnt : 0 < nt) (c : ℝ) (hc : 0 < c) (hc1 : c ≠ 1)
    (lam : Fin nt → ℝ) (V : Matrix (Fin nt) (Fin nt) ℝ)
    (h : EigBasis (corrMat (fitData mk d) fun _ => c) lam V) (r : Nat) (hr : r ≤ nt)
    (hpos : ∀ j : Fin r, 0 < lam (Fin.castLE hr j))
    (hdist : ∀ i j : Fin r, lam (Fin.castLE hr i) = lam (Fin.castLE hr j) → i = j)
    (hrest : ∀ j : Fin nt, r ≤ j.val → lam j = 0) (x : X) (t : Fin nt) (hvar : d x t ≠ tMean d x) :
    reconstruct (modes mk d lam V r hr) d x t ≠ d x t := by
  rw [pod_reconstruct_exact mk d hnt c hc lam V h r hr hpos hdist hrest]
  intro heq
  have h1 : (d x t - tMean d x) * (1 - c) = 0 := by
    field_simp at heq
    linear_combination heq
  rcases mul_eq_zero.1 h1 with h2 | h2
  · exact hvar (sub_eq_zero.1 h2)
  · exact hc1 (by linarith)

end

/-- non-vacuity: two snapshots `(3, -3)` at one point, weight `c`; eigenvalues `18c, 0`. -/
theorem pod_example (c : ℝ) (hc : 0 < c) :
    EigBasis (corrMat (fitData .longtime (!![3, -3] : Matrix (Fin 1) (Fin 2) ℝ)) fun _ => c) ![18 * c, 0]
      !![1 / Real.sqrt 2, 1 / Real.sqrt 2; -1 / Real.sqrt 2, 1 / Real.sqrt 2] := by
  have h2 : Real.sqrt 2 * Real.sqrt 2 = 2 := Real.mul_self_sqrt (by norm_num)
  have h0 : Real.sqrt 2 ≠ 0 := by positivity
  refine ⟨?_, ?_, ?_⟩
  · intro j
    funext i
    fin_cases i <;> fin_cases j <;>
      simp [corrMat, fitData, tMean, Matrix.mulVec, dotProduct, Matrix.mul_apply] <;> ring
  · intro j
    fin_cases j <;> simp [← mul_inv, h2] <;> field_simp <;> norm_num
  · rw [Matrix.det_fin_two, isUnit_iff_ne_zero]
    simp only [Matrix.of_apply, Matrix.cons_val', Matrix.cons_val_zero, Matrix.cons_val_one, Matrix.cons_val_fin_one]
    field_simp
    norm_num

/-- **C52 fails** for repeated eigenvalues (eig promises no orthogonality): the two modes of the identity data
    are not orthogonal. -/
theorem pod_repeated_fails :
    ∃ (d : Matrix (Fin 2) (Fin 2) ℝ) (V : Matrix (Fin 2) (Fin 2) ℝ),
      EigBasis (corrMat (fitData .zero d) fun _ => 1) (fun _ => 1) V ∧
      podIp (fun _ => 1) (fun x => modes .zero d (fun _ => 1) V 2 le_rfl x 0)
        (fun x => modes .zero d (fun _ => 1) V 2 le_rfl x 1) ≠ 0 := by
  refine ⟨1, !![1, 3 / 5; 0, 4 / 5], ⟨?_, ?_, ?_⟩, ?_⟩
  · intro j
    have : corrMat (fitData .zero (1 : Matrix (Fin 2) (Fin 2) ℝ)) (fun _ => 1) = 1 := by
      ext i j; fin_cases i <;> fin_cases j <;> simp [corrMat, fitData, Matrix.mul_apply]
    rw [this, Matrix.one_mulVec, one_smul]
  · intro j; fin_cases j <;> norm_num
  · rw [Matrix.det_fin_two, isUnit_iff_ne_zero]; norm_num
  · simp [podIp, modes, keep, phiAll, fitData, Matrix.mul_apply, Fin.castLE]

/-! ### C53: which modes are kept -/

/-- **C53 (partial).**  If the solver happens to return the eigenvalues in non-increasing order, no other choice
    of `r` modes has more energy. -/
theorem pod_keeps_partial {nt : Nat} (lam : Fin nt → ℝ) (hsort : ∀ i j, i ≤ j → lam j ≤ lam i) (r : Nat) (hr : r ≤ nt)
    (σ : Fin r → Fin nt) (hσ : Function.Injective σ) :
    ∑ j, lam (σ j) ≤ ∑ j : Fin r, lam (Fin.castLE hr j) := by
  classical
  -- compare the two index sets
  set A : Finset (Fin nt) := Finset.univ.map ⟨σ, hσ⟩ with hA
  set B : Finset (Fin nt) := Finset.univ.map ⟨Fin.castLE hr, Fin.castLE_injective hr⟩ with hB
  have hcard : A.card = B.card := by rw [hA, hB, Finset.card_map, Finset.card_map]
  have eA : ∑ j, lam (σ j) = ∑ j ∈ A, lam j := by rw [hA, Finset.sum_map]; rfl
  have eB : ∑ j : Fin r, lam (Fin.castLE hr j) = ∑ j ∈ B, lam j := by rw [hB, Finset.sum_map]; rfl
  rw [eA, eB]
  have memB : ∀ j, j ∈ B ↔ j.val < r := by
    intro j
    rw [hB, Finset.mem_map]
    constructor
    · rintro ⟨i, _, rfl⟩; exact i.isLt
    · intro hj; exact ⟨⟨j.val, hj⟩, Finset.mem_univ _, rfl⟩
  have sA := Finset.sum_inter_add_sum_sdiff A B lam
  have sB := Finset.sum_inter_add_sum_sdiff B A lam
  rw [Finset.inter_comm B A] at sB
  rw [← sA, ← sB]
  refine add_le_add_right ?_ _
  have hc : (A \ B).card = (B \ A).card := by
    have h1 := Finset.card_sdiff_add_card_inter A B
    have h2 := Finset.card_sdiff_add_card_inter B A
    rw [Finset.inter_comm B A] at h2
    omega
  rcases (B \ A).eq_empty_or_nonempty with he | ⟨b0, hb0⟩
  · have : A \ B = ∅ := by rw [← Finset.card_eq_zero, hc, he]; rfl
    rw [he, this]
  · -- every index of A \ B is ≥ r, every index of B \ A is < r; separate by lam at the largest kept index
    have hb : b0.val < r := (memB b0).1 (Finset.mem_sdiff.1 hb0).1
    have hr0 : r - 1 < nt := by omega
    set m := lam ⟨r - 1, hr0⟩ with hm
    calc ∑ j ∈ A \ B, lam j ≤ ∑ j ∈ A \ B, m := by
          refine Finset.sum_le_sum fun j hj => hsort _ _ ?_
          have := (memB j).not.1 (Finset.mem_sdiff.1 hj).2
          exact Fin.mk_le_of_le_val (by omega)
      _ = ∑ j ∈ B \ A, m := by rw [Finset.sum_const, Finset.sum_const, hc]
      _ ≤ ∑ j ∈ B \ A, lam j := by
          refine Finset.sum_le_sum fun j hj => hsort _ _ ?_
          have := (memB j).1 (Finset.mem_sdiff.1 hj).1
          exact Fin.le_def.2 (by simp; omega)

/-- Whatever the solver returns, every reordering of it is an equally valid answer, and the code keeps its first
    `r` columns. -/
theorem pod_order_free {nt : Nat} {Q : Matrix (Fin nt) (Fin nt) ℝ} {lam : Fin nt → ℝ} {V : Matrix (Fin nt) (Fin nt) ℝ}
    (h : EigBasis Q lam V) (σ : Equiv.Perm (Fin nt)) :
    EigBasis Q (lam ∘ σ) (V.submatrix id σ) := by
  refine ⟨fun j => h.eig (σ j), fun j => h.unit (σ j), ?_⟩
  have : V.submatrix id σ = V * (1 : Matrix (Fin nt) (Fin nt) ℝ).submatrix id σ := by
    ext i j; simp [Matrix.mul_apply, Matrix.one_apply]
  rw [Matrix.det_permute']
  exact (((Int.isUnit_iff.2 (Int.units_eq_one_or (Equiv.Perm.sign σ) |>.imp (by simp) (by simp))).map
    (Int.castRingHom ℝ))).mul h.basis

/-- **C53 fails**: there are data and a valid solver output for which the single kept mode has energy zero although
    a mode of energy 18 exists. -/
theorem pod_keeps_fails :
    ∃ (d : Matrix (Fin 1) (Fin 2) ℝ) (lam : Fin 2 → ℝ) (V : Matrix (Fin 2) (Fin 2) ℝ),
      EigBasis (corrMat (fitData .longtime d) fun _ => 1) lam V ∧ lam (Fin.castLE (by omega : 1 ≤ 2) 0) = 0 ∧ lam 1 = 18 := by
  have h := pod_order_free (pod_example 1 one_pos) (Equiv.swap 0 1)
  exact ⟨_, _, _, h, by simp [Function.comp], by simp [Function.comp]⟩

/-! ### C77: shapes -/

/-- **C77 (exactly when).**  A list of datasets is accepted exactly when there is one variable, the data carry no
    variable axis and all datasets have the same spatial shape. -/
theorem pod_shape_exact (nv xdim nt0 : Nat) (dims0 : List Nat) (rest : List (Nat × List Nat)) :
    (∃ nt, initShapes nv xdim ((nt0, dims0) :: rest) = some nt) ↔
      nv = 1 ∧ dims0.length ≠ xdim + 1 ∧ ∀ d ∈ rest, d.2 = dims0 := by
  unfold initShapes xshapeOf
  by_cases h : nv = 1 ∧ dims0.length + 1 ≠ xdim + 2
  · simp only [h, and_self, ne_eq, if_true, List.append_eq_nil_iff, List.cons_ne_self, and_false, if_false, not_false_eq_true,
      List.dropLast_concat]
    constructor
    · rintro ⟨nt, hnt⟩
      split at hnt
      · rename_i hall
        refine ⟨by simp, by omega, ?_⟩
        simpa using hall
      · cases hnt
    · rintro ⟨_, _, h2⟩
      refine ⟨_, if_pos ?_⟩
      simpa using h2
  · simp only [h, if_false]
    constructor
    · rintro ⟨nt, hnt⟩
      split at hnt
      · cases hnt
      · rename_i xs hxs
        split at hnt
        · rename_i hall
          split at hxs
          · cases hxs
          · rename_i hne
            simp only [Option.some.injEq] at hxs
            subst hxs
            simp only [List.all_cons, Bool.and_eq_true, decide_eq_true_eq] at hall
            have := congrArg List.length hall.1
            rw [List.length_dropLast] at this
            have : dims0.length ≠ 0 := by simpa using hne
            omega
        · cases hnt
    · rintro ⟨h1, h2, _⟩
      exact absurd ⟨h1, by omega⟩ h

/-- the total number of snapshots is the sum over the datasets -/
theorem pod_shape_nt (xdim nt0 : Nat) (dims0 : List Nat) (rest : List (Nat × List Nat)) (h : dims0.length ≠ xdim + 1)
    (hr : ∀ d ∈ rest, d.2 = dims0) :
    initShapes 1 xdim ((nt0, dims0) :: rest) = some (nt0 + (rest.map (·.1)).sum) := by
  obtain ⟨nt, hnt⟩ := (pod_shape_exact 1 xdim nt0 dims0 rest).2 ⟨rfl, h, hr⟩
  rw [hnt]
  unfold initShapes at hnt
  simp only [] at hnt
  split at hnt
  · cases hnt
  · split at hnt
    · simp only [Option.some.injEq] at hnt; rw [← hnt]; simp
    · cases hnt

/-- **C77 fails** for every multi-variable data set. -/
theorem pod_multivariable_fails (nv xdim nt0 : Nat) (hnv : 2 ≤ nv) (dims0 : List Nat) (rest : List (Nat × List Nat)) :
    initShapes nv xdim ((nt0, dims0) :: rest) = none := by
  rcases h : initShapes nv xdim ((nt0, dims0) :: rest) with _ | nt
  · rfl
  · have := (pod_shape_exact nv xdim nt0 dims0 rest).1 ⟨nt, h⟩
    omega

example : initShapes 1 2 [(10, [4, 5]), (3, [4, 5])] = some 13 := by decide
example : initShapes 2 2 [(10, [4, 5, 2])] = none := by decide

/-! ### C78: number of modes -/

/-- **C78 (exactly when).**  The fit gets past the truncation exactly when `n_modes_save` is given and at most the
    number of snapshots. -/
theorem pod_modes_exact (xsize nt : Nat) (hx : 0 < xsize) (n : NModes) :
    (∃ k, savedModes xsize nt n = .ok k) ↔ ∃ k, n = .int k ∧ k ≤ nt := by
  cases n with
  | default => simp [savedModes]
  | int k =>
    simp only [savedModes, NModes.int.injEq, exists_eq_left']
    constructor
    · rintro ⟨k', h⟩
      split at h
      · rename_i he
        have := Nat.eq_of_mul_eq_mul_left hx he
        omega
      · cases h
    · intro h
      exact ⟨k, by rw [if_pos (by rw [Nat.min_eq_left h])]⟩

theorem pod_default_modes_fails (xsize nt : Nat) : savedModes xsize nt .default = .error "TypeError" := rfl
theorem pod_many_modes_fails (xsize nt n : Nat) (hx : 0 < xsize) (h : nt < n) :
    savedModes xsize nt (.int n) = .error "ValueError" := by
  have : ¬ xsize * min n nt = xsize * n := by
    intro he
    have := Nat.eq_of_mul_eq_mul_left hx he
    omega
  simp only [savedModes, this, if_false]

/-! ### C79: loading -/

theorem load_eq {α β} (cast : α → β) (zero : β) (datasets : List (List α)) :
    load cast zero datasets = datasets.flatten.map cast := by
  have key : ∀ (ds : List (List α)) (done : List β), 
      (ds.foldl (fun (st : List β × Nat) d => (putAt st.1 st.2 (d.map cast), st.2 + d.length))
        (done ++ List.replicate ((ds.map List.length).sum) zero, done.length)).1 = done ++ ds.flatten.map cast := by
    intro ds
    induction ds with
    | nil => intro done; simp
    | cons d ds ih =>
      intro done
      simp only [List.foldl_cons, List.map_cons, List.sum_cons, List.flatten_cons, List.map_append]
      have e : putAt (done ++ List.replicate (d.length + (ds.map List.length).sum) zero) done.length (d.map cast) =
          (done ++ d.map cast) ++ List.replicate ((ds.map List.length).sum) zero := by
        unfold putAt
        rw [List.take_left, List.length_map, List.drop_append, List.drop_of_length_le (by omega)]
        simp
      rw [e, show done.length + d.length = (done ++ d.map cast).length by simp, ih]
      simp
  have := key datasets []
  simpa [load] using this

/-- **C79 (partial).**  Real datasets are concatenated in order, nothing lost. -/
theorem pod_load_partial {β} (zero : β) (datasets : List (List β)) : load id zero datasets = datasets.flatten := by
  rw [load_eq, List.map_id]

/-- **C79 fails** for complex data: only the real parts enter the decomposition, so data that differ only in
    their imaginary parts are indistinguishable. -/
theorem pod_complex_fails (d d' : List (List ℂ)) (h : d.flatten.map Complex.re = d'.flatten.map Complex.re) :
    load castReal 0 d = load castReal 0 d' := by
  rw [load_eq, load_eq]; exact h

example : load castReal 0 [[Complex.I]] = load castReal 0 [[0]] := pod_complex_fails _ _ (by simp)

/-! ### C81: parallel -/

/-- **C81 (correlation matrix).**  It does not depend on the number of ranks. -/
theorem pod_parallel_corr {K} [Field K] [Star K] (p ax : Nat) (data : Nat → Arr K) (w : Arr K) (hp : 0 < p)
    (hax : ax < w.shape.length) (hd : ∀ t, (data t).shape = w.shape) (t t' : Nat) :
    Par.gram p ax data w 1 t t' = idxSum w.shape fun x => star ((data t).at' x) * ((data t').at' x * w.at' x) := by
  rw [gram_rank_independent p ax data w 1 hp hax hd]
  simp [gramSpec]

/-- **C81 (coefficients).**  They do not depend on the number of ranks. -/
theorem pod_parallel_coeffs {K} [Field K] [LinearOrder K] (p ax : Nat) (sh : List Nat) (modes data : Nat → Arr K) (hp : 0 < p)
    (hax : ax < sh.length) (hm : ∀ b, (modes b).shape = sh) (hd : ∀ t, (data t).shape = sh) (i t : Nat) :
    coeffPar p ax modes data i t = idxSum sh fun x => (modes i).at' x * (data t).at' x := by
  let _ : Star K := ⟨id⟩
  have h := (projection_parallel p ax modes data ⟨sh, fun _ => (1 : K)⟩ hp hax hm hd).2 i t
  have hst : ∀ a : K, star a = a := fun _ => rfl
  have e : coeffPar p ax modes data i t = Coef.qPar p ax modes data ⟨sh, fun _ => (1 : K)⟩ i t := by
    unfold coeffPar Coef.qPar
    congr 1
    refine List.map_congr_left fun r _ => ?_
    have hs : (Par.distributeDimension (data t) ax (some (p, r))).shape =
        (Par.distributeDimension (⟨sh, fun _ => (1 : K)⟩ : Arr K) ax (some (p, r))).shape := by
      simp [Par.distributeDimension, Arr.slice, hd]
    simp only [hs]
    refine Finset.sum_congr rfl fun k _ => ?_
    rw [hst]
    have : (Par.distributeDimension (⟨sh, fun _ => (1 : K)⟩ : Arr K) ax (some (p, r))).at'
      (unravel (Par.distributeDimension (⟨sh, fun _ => (1 : K)⟩ : Arr K) ax (some (p, r))).shape k) = 1 := rfl
    rw [this, one_mul]
  rw [e, h]
  congr 1
  funext x
  rw [hst, one_mul]

end Verif.Props
