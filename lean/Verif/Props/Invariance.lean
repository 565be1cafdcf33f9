import Verif.Props.Optimal
import Verif.Props.Pipeline
/-
  C149-C152: how the results of a fit answer to changes of the data: scaling, steady fields, weights, order of the grid points.
-/
set_option linter.unusedSectionVars false
namespace Verif.Props
open Verif Verif.Par Verif.Rd Verif.Spod Verif.Fit Matrix ComplexConjugate ComplexOrder

/-- A fit that is accepted: the snapshots have the shape of the weights, the mean type is `m`, there are enough snapshots, the window has the length
    of a block, the weights are not negative and there is more than one value per snapshot. -/
structure Accepted (c : Cfg) (files : List (List (Arr ℝ))) (w : Arr ℝ) (m : MeanType) : Prop where
  shapes : ∀ a ∈ files.flatten, a.shape = w.shape
  axes : w.shape ≠ []
  mean : parseMean c.meanType = .ok m
  blocks : feasible c.nDft (nBlocks files.flatten.length c.nDft c.nOvlp) = .ok ()
  overlap : c.nOvlp ≤ (c.nDft : Int) - 1
  window : c.win.length = c.nDft
  weights : ∀ x, InRange w.shape x → 0 ≤ w.at' x
  many : size w.shape ≠ 1

theorem fit_runs (c : Cfg) (ω : ℂ) (files : List (List (Arr ℝ))) (w : Arr ℝ) (m : MeanType) (A : Accepted c files w m)
    (solver : Solver (fitNb c files.flatten.length)) :
    ∃ out, (∀ r, FitRun c ω files w solver r → r = some out) ∧
      ∀ f < nFreq c.nDft c.isreal c.full,
        let Q := specQ c m ω files.flatten w.shape (fitNb c files.flatten.length) f
        let r := solver (crossSpectral Q (specW w))
        let fac := oneSidedFactor c.isreal (nFreq c.nDft c.isreal c.full) f
        out.eigs f = (spodFreq Q r.1 r.2.1 r.2.2 fac).1 ∧
        ∀ k : Fin (fitNb c files.flatten.length), k.1 < c.nSave → ∀ row : Fin (size w.shape),
          fileEntry (out.modes f) (unravel w.shape row ++ [k.1]) = some ((spodFreq Q r.1 r.2.1 r.2.2 fac).2 row k) := by
  have h0 := serial_out c ω files w A.shapes A.axes m A.mean A.blocks A.overlap solver A.many
  have key : ∀ r, FitRun c ω files w solver r → r = some (globalOut c ω files.flatten w solver) := by
    rintro r (rfl | ⟨p, s, hp, hone, hs, rfl⟩)
    · exact h0
    · obtain ⟨out, h1, h2, -⟩ := fit_formula c ω files w A.shapes A.axes m A.mean A.blocks A.overlap A.window solver A.many p hp hone s hs
      rw [h2, ← h1, h0]
  refine ⟨_, key, fun f hf => ?_⟩
  have e := rows_globalHat c m A.mean ω files.flatten w.shape A.window (feasible_nb c _ A.blocks).2 A.overlap f hf
  refine ⟨by simp only [globalOut, e], fun k hk => ?_⟩
  refine file_column _ _ _ _ fun x hx => ⟨⟨ravel w.shape x, ravel_lt hx⟩, unravel_ravel hx, ?_⟩
  have hnb := feasible_nb c _ A.blocks
  simp only [globalOut, e]
  rw [fileEntry_npSave _ _ (by
    simp only [phiArr]
    exact inRange_snoc hx (by omega))]
  rw [phiArr_at _ _ _ x k.1 hx k.2]

/-! ### At one frequency -/

section
variable {X : Type} [Fintype X] [DecidableEq X] {nb : Nat}

theorem crossSpectral_scaled {Y : Type} [Fintype Y] [DecidableEq Y] (e : Y ≃ X) (Q : Matrix X (Fin nb) ℂ) (Q' : Matrix Y (Fin nb) ℂ) (w : X → ℝ)
    (w' : Y → ℝ) (α : ℂ) (γ : ℝ) (hQ : ∀ x b, Q' x b = α * Q (e x) b)
    (hw' : ∀ x, w' x = γ * w (e x)) : crossSpectral Q' w' = ((‖α‖ ^ 2 * γ : ℝ) : ℂ) • crossSpectral Q w := by
  ext a b
  rw [Matrix.smul_apply, crossSpectral_apply, crossSpectral_apply, smul_eq_mul, mul_left_comm]
  congr 1
  simp only [inner_W, hQ, hw', map_mul, Finset.mul_sum]
  rw [← Equiv.sum_comp e]
  refine Finset.sum_congr rfl fun x _ => ?_
  have : ((‖α‖ ^ 2 : ℝ) : ℂ) = conj α * α := by rw [Complex.conj_mul']; push_cast; rfl
  push_cast at this ⊢
  rw [this]; ring

theorem eigPairs_scaled {M : Matrix (Fin nb) (Fin nb) ℂ} {L : Fin nb → ℂ} {V : Matrix (Fin nb) (Fin nb) ℂ} (h : EigPairs M L V) (s : ℂ) :
    EigPairs (s • M) (fun j => s * L j) V := by
  intro j
  refine ⟨?_, (h j).2⟩
  rw [Matrix.smul_mulVec, (h j).1, smul_smul]

/-- realizations multiplied by `α`, weights by `γ`, grid points listed in another order -/
theorem spod_scaled {Y : Type} [Fintype Y] [DecidableEq Y] (e : Y ≃ X) (Q : Matrix X (Fin nb) ℂ) (Q' : Matrix Y (Fin nb) ℂ) (w : X → ℝ)
    (w' : Y → ℝ) (hw : ∀ x, 0 ≤ w x) (α : ℂ) (γ : ℝ) (hγ : 0 ≤ γ)
    (hQ : ∀ x b, Q' x b = α * Q (e x) b) (hw' : ∀ x, w' x = γ * w (e x)) (r r' : (Fin nb → ℂ) × Matrix (Fin nb) (Fin nb) ℂ × Equiv.Perm (Fin nb))
    (a1 : EigPairs (crossSpectral Q w) r.1 r.2.1) (a2 : IsUnit r.2.1.det) (a3 : ArgsortDesc (realIfClose r.1) r.2.2)
    (a1' : EigPairs (crossSpectral Q' w') r'.1 r'.2.1) (a2' : IsUnit r'.2.1.det) (a3' : ArgsortDesc (realIfClose r'.1) r'.2.2) (fac : Nat) :
    (∀ k, (spodFreq Q' r'.1 r'.2.1 r'.2.2 fac).1 k = ‖α‖ ^ 2 * γ * (spodFreq Q r.1 r.2.1 r.2.2 fac).1 k) ∧
    ∀ k, α ≠ 0 → 0 < γ → (∀ j, j ≠ k → reorderL (realIfClose r.1) r.2.2 j ≠ reorderL (realIfClose r.1) r.2.2 k) →
      ∃ z : ℂ, ‖z‖ = 1 ∧ ∀ x, ((Real.sqrt γ : ℝ) : ℂ) * (spodFreq Q' r'.1 r'.2.1 r'.2.2 fac).2 x k = z * (spodFreq Q r.1 r.2.1 r.2.2 fac).2 (e x) k := by
  set s : ℝ := ‖α‖ ^ 2 * γ with hs
  have hs0 : 0 ≤ s := mul_nonneg (sq_nonneg _) hγ
  have hM := crossSpectral_scaled e Q Q' w w' α γ hQ hw'
  rw [hM] at a1'
  have b1 : EigPairs (((s : ℝ) : ℂ) • crossSpectral Q w) (fun j => ((s : ℝ) : ℂ) * r.1 j) r.2.1 := eigPairs_scaled a1 _
  have hre : realIfClose (fun j => ((s : ℝ) : ℂ) * r.1 j) = fun j => s * realIfClose r.1 j := by
    funext j; simp [realIfClose]
  have b3 : ArgsortDesc (realIfClose fun j => ((s : ℝ) : ℂ) * r.1 j) r.2.2 := by
    intro i j hij
    rw [hre]
    exact mul_le_mul_of_nonneg_left (a3 i j hij) hs0
  have hL := sorted_eigs_unique _ _ rfl _ _ _ _ b1 a1' a2 a2' r.2.2 r'.2.2 b3 a3'
  have hLk : ∀ k, reorderL (realIfClose r'.1) r'.2.2 k = s * reorderL (realIfClose r.1) r.2.2 k := by
    intro k
    rw [← congrFun hL k]
    simp only [reorderL, hre]
  have hw2 : ∀ x, 0 ≤ w' x := fun x => by rw [hw']; exact mul_nonneg hγ (hw _)
  refine ⟨fun k => ?_, fun k hα hγ' hsimple => ?_⟩
  · simp only [spodFreq, eigsOut, hLk]
    rw [mul_left_comm, abs_mul, abs_of_nonneg hs0]
  · have hsp : 0 < s := mul_pos (by positivity) hγ'
    have hne : ((s : ℝ) : ℂ) ≠ 0 := by exact_mod_cast hsp.ne'
    have real := eigenvalues_real_nonneg Q w hw r.1 r.2.1 a1
    have real' := eigenvalues_real_nonneg Q' w' hw2 r'.1 r'.2.1 (by rw [hM]; exact a1')
    obtain ⟨z, hz, hzv⟩ := eig_phase _ _ r'.1 r.2.1 r'.2.1 b1 a1' a2 (r.2.2 k) (r'.2.2 k)
      (by
        have := hLk k
        simp only [reorderL] at this
        rw [(real' _).2.2, (real _).2.2, ← Complex.ofReal_mul]
        exact congrArg _ this)
      (by
        intro j hj hLj
        refine hsimple (r.2.2.symm j) (fun h => hj (by rw [← h, Equiv.apply_symm_apply])) ?_
        have := mul_left_cancel₀ hne hLj
        simp only [reorderL, realIfClose, Equiv.apply_symm_apply, this])
    refine ⟨z * (α / (‖α‖ : ℂ)), by
      rw [norm_mul, hz, norm_div, Complex.norm_real, norm_norm, div_self (norm_ne_zero_iff.2 hα), one_mul], fun x => ?_⟩
    simp only [spodFreq, phiAll, Matrix.mul_apply, Matrix.of_apply, reorderV, hzv, hQ, hLk, Finset.mul_sum]
    refine Finset.sum_congr rfl fun b _ => ?_
    have h1 : Real.sqrt s = ‖α‖ * Real.sqrt γ := by
      rw [hs, Real.sqrt_mul (sq_nonneg _), Real.sqrt_sq (norm_nonneg _)]
    rw [Real.sqrt_mul hs0, h1]
    have hn : (‖α‖ : ℂ) ≠ 0 := by exact_mod_cast norm_ne_zero_iff.2 hα
    have hg : ((Real.sqrt γ : ℝ) : ℂ) ≠ 0 := by exact_mod_cast (Real.sqrt_pos.2 hγ').ne'
    push_cast
    by_cases hz1 : ((Real.sqrt nb : ℝ) : ℂ) = 0
    · simp [hz1]
    by_cases hz2 : ((Real.sqrt (reorderL (realIfClose r.1) r.2.2 k) : ℝ) : ℂ) = 0
    · simp [hz2]
    field_simp
end

/-! ### C149: scaling the data and adding a steady field -/

/-- the fluctuations of scaled and shifted series are the scaled fluctuations -/
theorem specFluct_affine (m : MeanType) (u u' : List ℝ) (a b : ℝ) (hb : m = .zero → b = 0) (hl : u'.length = u.length)
    (h : ∀ t < u.length, u'.getD t 0 = a * u.getD t 0 + b) (s n t : Nat) (ht : t < n) (hsn : s + n ≤ u.length) :
    specFluct m u' s n t = a * specFluct m u s n t := by
  have hn : (n : ℝ) ≠ 0 := by exact_mod_cast (by omega : n ≠ 0)
  have hu : (u.length : ℝ) ≠ 0 := by exact_mod_cast (by omega : u.length ≠ 0)
  cases m with
  | longtime =>
    simp only [specFluct]
    rw [h _ (by omega), list_sum_range u', list_sum_range u, hl,
      Finset.sum_congr rfl fun t ht => h t (Finset.mem_range.1 ht), Finset.sum_add_distrib, ← Finset.mul_sum, Finset.sum_const,
      Finset.card_range, nsmul_eq_mul]
    field_simp
    ring
  | blockwise =>
    simp only [specFluct]
    rw [h _ (by omega), Finset.sum_congr rfl fun τ hτ => h (s + τ) (by have := Finset.mem_range.1 hτ; omega),
      Finset.sum_add_distrib, ← Finset.mul_sum, Finset.sum_const, Finset.card_range, nsmul_eq_mul]
    field_simp
    ring
  | zero =>
    simp only [specFluct]
    rw [h _ (by omega), hb rfl, add_zero]

theorem specHat_affine (c : Cfg) (m : MeanType) (ω : ℂ) (u u' : List ℝ) (a b : ℝ) (hb : m = .zero → b = 0) (hl : u'.length = u.length)
    (h : ∀ t < u.length, u'.getD t 0 = a * u.getD t 0 + b) (hnorm : c.normalize = false) (hov : c.nOvlp ≤ (c.nDft : Int) - 1) (f k : Nat)
    (hk : k < fitNb c u.length) : specHat c m ω u' f k = (a : ℂ) * specHat c m ω u f k := by
  have hin := (offsets_getD c hov u.length k hk).2
  simp only [specHat, specNorm, hnorm]
  rw [← mul_div_assoc, Finset.mul_sum]
  congr 1
  refine Finset.sum_congr rfl fun t ht => ?_
  have e := specFluct_affine m u u' a b hb hl h _ c.nDft t (Finset.mem_range.1 ht) hin
  simp only [Bool.false_eq_true, if_false, e]
  push_cast; ring

theorem getD_map_arr (frames : List (Arr ℝ)) (x : List Nat) (t : Nat) (ht : t < frames.length) :
    (frames.map fun a => a.at' x).getD t 0 = (frames.getD t ⟨[], fun _ => 0⟩).at' x := by
  simp [List.getD_eq_getElem?_getD, List.getElem?_map, List.getElem?_eq_getElem ht]

/-- the common part of C149-C151: data scaled by `a`, shifted by a steady field `b`, weights scaled by `γ`, grid points in another order `e` -/
theorem fit_changed (c : Cfg) (ω : ℂ) (files files' : List (List (Arr ℝ))) (w w' : Arr ℝ) (m : MeanType) (A : Accepted c files w m)
    (A' : Accepted c files' w' m) (a γ : ℝ) (hγ : 0 < γ)
    (hlen : files'.flatten.length = files.flatten.length) (e : Fin (size w'.shape) ≃ Fin (size w.shape))
    (hw : ∀ y, specW w' y = γ * specW w (e y))
    (h : ∀ k < fitNb c files.flatten.length, ∀ f (y : Fin (size w'.shape)), specHat c m ω (files'.flatten.map fun s => s.at' (unravel w'.shape y)) f k =
      (a : ℂ) * specHat c m ω (files.flatten.map fun s => s.at' (unravel w.shape (e y))) f k)
    (solver : Solver (fitNb c files.flatten.length)) (solver' : Solver (fitNb c files'.flatten.length)) (hs : SolverFull solver)
    (hs' : SolverFull solver') :
    ∃ out out', (∀ r, FitRun c ω files w solver r → r = some out) ∧ (∀ r, FitRun c ω files' w' solver' r → r = some out') ∧
      ∀ f < nFreq c.nDft c.isreal c.full, ∀ k k', k.1 = k'.1 → out'.eigs f k' = a ^ 2 * γ * out.eigs f k ∧
        (k.1 < c.nSave → a ≠ 0 → (∀ j, j ≠ k → out.eigs f j ≠ out.eigs f k) →
          ∃ z : ℂ, ‖z‖ = 1 ∧ ∀ y : Fin (size w'.shape), ∃ v v', fileEntry (out.modes f) (unravel w.shape (e y) ++ [k.1]) = some v ∧
            fileEntry (out'.modes f) (unravel w'.shape y ++ [k.1]) = some v' ∧ ((Real.sqrt γ : ℝ) : ℂ) * v' = z * v) := by
  obtain ⟨out, h1, h2⟩ := fit_runs c ω files w m A solver
  obtain ⟨out', h1', h2'⟩ := fit_runs c ω files' w' m A' solver'
  refine ⟨out, out', h1, h1', fun f hf => ?_⟩
  obtain ⟨e1, e2⟩ := h2 f hf
  obtain ⟨e1', e2'⟩ := h2' f hf
  have hQ : ∀ y (k : Fin (fitNb c files.flatten.length)) (k' : Fin (fitNb c files'.flatten.length)), k.1 = k'.1 →
      specQ c m ω files'.flatten w'.shape (fitNb c files'.flatten.length) f y k' =
        (a : ℂ) * specQ c m ω files.flatten w.shape (fitNb c files.flatten.length) f (e y) k := by
    intro y k k' hk
    simp only [specQ, Matrix.of_apply, ← hk]
    exact h k.1 k.2 f y
  have hW : ∀ x, 0 ≤ specW w x := fun x => A.weights _ (inRange_unravel x.2)
  have hW' : ∀ x, 0 ≤ specW w' x := fun x => A'.weights _ (inRange_unravel x.2)
  generalize specQ c m ω files.flatten w.shape (fitNb c files.flatten.length) f = Q at *
  generalize specQ c m ω files'.flatten w'.shape (fitNb c files'.flatten.length) f = Q' at *
  generalize oneSidedFactor c.isreal (nFreq c.nDft c.isreal c.full) f = fac at *
  obtain ⟨a1, a2, a3⟩ := hs _ (crossSpectral_posSemidef Q (specW w) hW).1
  obtain ⟨a1', a2', a3'⟩ := hs' _ (crossSpectral_posSemidef Q' (specW w') hW').1
  generalize solver (crossSpectral Q (specW w)) = r at *
  generalize solver' (crossSpectral Q' (specW w')) = r' at *
  generalize out.eigs f = E at *
  generalize out'.eigs f = E' at *
  generalize out.modes f = F at *
  generalize out'.modes f = F' at *
  clear h1 h1' h2 h2' hs hs' out out' solver solver' A A' h
  have hnb : fitNb c files'.flatten.length = fitNb c files.flatten.length := by rw [hlen]
  generalize fitNb c files'.flatten.length = nb' at *
  generalize fitNb c files.flatten.length = nb at *
  subst hnb
  intro k k' hk
  obtain rfl : k = k' := Fin.ext hk
  have hna : ‖(a : ℂ)‖ ^ 2 = a ^ 2 := by rw [Complex.norm_real, Real.norm_eq_abs, sq_abs]
  obtain ⟨g1, g2⟩ := spod_scaled e Q Q' (specW w) (specW w') hW a γ hγ.le (fun x b => hQ x b b rfl) hw r r' a1 a2 a3 a1' a2' a3' fac
  refine ⟨by rw [e1', e1, g1, hna], fun hks ha hsimple => ?_⟩
  obtain ⟨z, hz, hzv⟩ := g2 k (by exact_mod_cast ha) hγ (by
    intro j hj hE
    refine hsimple j hj ?_
    rw [e1]
    simp only [spodFreq, eigsOut, hE])
  exact ⟨z, hz, fun y => ⟨_, _, e2 k hks (e y), e2' k hks y, hzv y⟩⟩

/-- **C149.** Data scaled by `a` and shifted by any field `b` that is constant in time (with mean type `zero`: not shifted), not normalised, on any
    number of ranks and with any correct libraries: the eigenvalues are multiplied by `a²` and, if `a ≠ 0`, the modes of simple eigenvalues are the
    same up to a factor of modulus one. -/
theorem fit_affine (c : Cfg) (ω : ℂ) (files files' : List (List (Arr ℝ))) (w : Arr ℝ) (m : MeanType) (A : Accepted c files w m)
    (A' : Accepted c files' w m) (hnorm : c.normalize = false) (a : ℝ) (b : List Nat → ℝ) (hb : m = .zero → ∀ x, b x = 0)
    (hlen : files'.flatten.length = files.flatten.length)
    (h : ∀ x, InRange w.shape x → ∀ t < files.flatten.length, (files'.flatten.getD t ⟨[], fun _ => 0⟩).at' x =
      a * (files.flatten.getD t ⟨[], fun _ => 0⟩).at' x + b x)
    (solver : Solver (fitNb c files.flatten.length)) (solver' : Solver (fitNb c files'.flatten.length)) (hs : SolverFull solver)
    (hs' : SolverFull solver') :
    ∃ out out', (∀ r, FitRun c ω files w solver r → r = some out) ∧ (∀ r, FitRun c ω files' w solver' r → r = some out') ∧
      ∀ f < nFreq c.nDft c.isreal c.full, ∀ k k', k.1 = k'.1 → out'.eigs f k' = a ^ 2 * out.eigs f k ∧
        (k.1 < c.nSave → a ≠ 0 → (∀ j, j ≠ k → out.eigs f j ≠ out.eigs f k) →
          ∃ z : ℂ, ‖z‖ = 1 ∧ ∀ x, InRange w.shape x → ∃ v, fileEntry (out.modes f) (x ++ [k.1]) = some v ∧
            fileEntry (out'.modes f) (x ++ [k.1]) = some (z * v)) := by
  obtain ⟨out, out', h1, h2, h3⟩ := fit_changed c ω files files' w w m A A' a 1 one_pos hlen (Equiv.refl _) (fun y => (one_mul _).symm)
    (by
      intro k hk f y
      refine specHat_affine c m ω _ _ a (b (unravel w.shape y)) (fun hm => hb hm _) (by rw [List.length_map, List.length_map, hlen]) (fun t ht => ?_) hnorm A.overlap f k
        (by rw [List.length_map]; exact hk)
      rw [List.length_map] at ht
      rw [getD_map_arr _ _ t (by rw [hlen]; exact ht), getD_map_arr _ _ t ht]
      exact h _ (inRange_unravel y.2) t ht) solver solver' hs hs'
  refine ⟨out, out', h1, h2, fun f hf k k' hk => ?_⟩
  obtain ⟨g1, g2⟩ := h3 f hf k k' hk
  refine ⟨by rw [g1, mul_one], fun hks ha hsimple => ?_⟩
  obtain ⟨z, hz, hv⟩ := g2 hks ha hsimple
  refine ⟨z, hz, fun x hx => ?_⟩
  obtain ⟨v, v', e1, e2, e3⟩ := hv ⟨ravel w.shape x, ravel_lt hx⟩
  simp only [Equiv.refl_apply, unravel_ravel hx] at e1 e2
  rw [Real.sqrt_one, Complex.ofReal_one, one_mul] at e3
  exact ⟨v, e1, by rw [e2, e3]⟩

/-- **C150.** Weights multiplied by `γ > 0`: the eigenvalues are multiplied by `γ`, and the modes of simple eigenvalues divided by `√γ` (up to a factor of
    modulus one). -/
theorem fit_weights_scaled (c : Cfg) (ω : ℂ) (files : List (List (Arr ℝ))) (w w' : Arr ℝ) (m : MeanType) (A : Accepted c files w m)
    (γ : ℝ) (hγ : 0 < γ) (hsh : w'.shape = w.shape) (h : ∀ x, InRange w.shape x → w'.at' x = γ * w.at' x)
    (solver solver' : Solver (fitNb c files.flatten.length)) (hs : SolverFull solver) (hs' : SolverFull solver') :
    ∃ out out', (∀ r, FitRun c ω files w solver r → r = some out) ∧ (∀ r, FitRun c ω files w' solver' r → r = some out') ∧
      ∀ f < nFreq c.nDft c.isreal c.full, ∀ k, out'.eigs f k = γ * out.eigs f k ∧
        (k.1 < c.nSave → (∀ j, j ≠ k → out.eigs f j ≠ out.eigs f k) →
          ∃ z : ℂ, ‖z‖ = 1 ∧ ∀ x, InRange w.shape x → ∃ v v', fileEntry (out.modes f) (x ++ [k.1]) = some v ∧
            fileEntry (out'.modes f) (x ++ [k.1]) = some v' ∧ ((Real.sqrt γ : ℝ) : ℂ) * v' = z * v) := by
  have A' : Accepted c files w' m := ⟨by rw [hsh]; exact A.shapes, by rw [hsh]; exact A.axes, A.mean, A.blocks, A.overlap, A.window,
    fun x hx => by rw [hsh] at hx; rw [h x hx]; exact mul_nonneg hγ.le (A.weights x hx), by rw [hsh]; exact A.many⟩
  have hsz : size w'.shape = size w.shape := by rw [hsh]
  obtain ⟨out, out', h1, h2, h3⟩ := fit_changed c ω files files w w' m A A' 1 γ hγ rfl (finCongr hsz)
    (fun y => by
      simp only [specW, hsh, finCongr_apply, Fin.val_cast]
      exact h _ (inRange_unravel (by rw [← hsz]; exact y.2)))
    (by
      intro k hk f y
      simp only [hsh, finCongr_apply, Fin.val_cast, Complex.ofReal_one, one_mul]) solver solver' hs hs'
  refine ⟨out, out', h1, h2, fun f hf k => ?_⟩
  obtain ⟨g1, g2⟩ := h3 f hf k k rfl
  refine ⟨by rw [g1, one_pow, one_mul], fun hks hsimple => ?_⟩
  obtain ⟨z, hz, hv⟩ := g2 hks one_ne_zero hsimple
  refine ⟨z, hz, fun x hx => ?_⟩
  obtain ⟨v, v', e1, e2, e3⟩ := hv ⟨ravel w.shape x, by rw [hsz]; exact ravel_lt hx⟩
  simp only [finCongr_apply, Fin.val_cast, unravel_ravel hx, hsh] at e1 e2
  exact ⟨v, v', e1, e2, e3⟩

/-- **C151.** The same values on the same points, listed in another order or as an array of another shape (`e` maps the new positions, in C order, to the
    old ones): the same eigenvalues, and modes of simple eigenvalues with the same values at the same points, up to one common factor of modulus one. -/
theorem fit_reordered (c : Cfg) (ω : ℂ) (files files' : List (List (Arr ℝ))) (w w' : Arr ℝ) (m : MeanType) (A : Accepted c files w m)
    (A' : Accepted c files' w' m) (hlen : files'.flatten.length = files.flatten.length) (e : Fin (size w'.shape) ≃ Fin (size w.shape))
    (hw : ∀ y : Fin (size w'.shape), w'.at' (unravel w'.shape y) = w.at' (unravel w.shape (e y)))
    (h : ∀ y : Fin (size w'.shape), ∀ t < files.flatten.length, (files'.flatten.getD t ⟨[], fun _ => 0⟩).at' (unravel w'.shape y) =
      (files.flatten.getD t ⟨[], fun _ => 0⟩).at' (unravel w.shape (e y)))
    (solver : Solver (fitNb c files.flatten.length)) (solver' : Solver (fitNb c files'.flatten.length)) (hs : SolverFull solver)
    (hs' : SolverFull solver') :
    ∃ out out', (∀ r, FitRun c ω files w solver r → r = some out) ∧ (∀ r, FitRun c ω files' w' solver' r → r = some out') ∧
      ∀ f < nFreq c.nDft c.isreal c.full, ∀ k k', k.1 = k'.1 → out'.eigs f k' = out.eigs f k ∧
        (k.1 < c.nSave → (∀ j, j ≠ k → out.eigs f j ≠ out.eigs f k) →
          ∃ z : ℂ, ‖z‖ = 1 ∧ ∀ y : Fin (size w'.shape), ∃ v, fileEntry (out.modes f) (unravel w.shape (e y) ++ [k.1]) = some v ∧
            fileEntry (out'.modes f) (unravel w'.shape y ++ [k.1]) = some (z * v)) := by
  obtain ⟨out, out', h1, h2, h3⟩ := fit_changed c ω files files' w w' m A A' 1 1 one_pos hlen e
    (fun y => by rw [one_mul]; exact hw y)
    (by
      intro k hk f y
      rw [Complex.ofReal_one, one_mul]
      congr 1
      refine List.ext_getElem (by rw [List.length_map, List.length_map, hlen]) fun t h1 h2 => ?_
      rw [List.length_map] at h2
      have := h y t h2
      rw [← getD_map_arr _ _ t (by rw [hlen]; exact h2), ← getD_map_arr _ _ t h2] at this
      rw [List.getD_eq_getElem?_getD, List.getD_eq_getElem?_getD, List.getElem?_eq_getElem h1, List.getElem?_eq_getElem
        (by rw [List.length_map]; exact h2)] at this
      exact this) solver solver' hs hs'
  refine ⟨out, out', h1, h2, fun f hf k k' hk => ?_⟩
  obtain ⟨g1, g2⟩ := h3 f hf k k' hk
  refine ⟨by rw [g1, one_pow, one_mul, one_mul], fun hks hsimple => ?_⟩
  obtain ⟨z, hz, hv⟩ := g2 hks one_ne_zero hsimple
  refine ⟨z, hz, fun y => ?_⟩
  obtain ⟨v, v', e1, e2, e3⟩ := hv y
  rw [Real.sqrt_one, Complex.ofReal_one, one_mul] at e3
  exact ⟨v, e1, by rw [e2, e3]⟩

end Verif.Props
