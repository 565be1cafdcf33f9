import Verif.Props.Perturb
import Verif.Props.PodInvariance
set_option linter.unusedSectionVars false
set_option linter.unusedVariables false
/-
  C200–C202: how the spectrum of a POD changes with the data (pyspod/pod/standard.py:30-76).
-/
namespace Verif.Props
open Verif Verif.Par Verif.Fit Verif.Proj Verif.Pod Matrix ComplexConjugate

/-- the `k`-th largest of the stored eigenvalues (`k = 0`: the largest) -/
noncomputable def kthLargest (l : List ℂ) (k : Nat) : ℝ := ((l.map Complex.re).mergeSort (fun a b => decide (b ≤ a))).getD k 0

theorem kthLargest_eq {n : Nat} (lam g : Fin n → ℝ) (hg : Antitone g) (h : Multiset.map lam Finset.univ.val = Multiset.map g Finset.univ.val) (k : Fin n) :
    kthLargest (List.ofFn fun i => ((lam i : ℝ) : ℂ)) k = g k := by
  have e : (List.ofFn fun i => ((lam i : ℝ) : ℂ)).map Complex.re = List.ofFn lam := by
    rw [List.map_ofFn]; congr 1
  have hp : (List.ofFn lam).Perm (List.ofFn g) := by
    rw [Fin.univ_val_map, Fin.univ_val_map, Multiset.coe_eq_coe] at h
    exact h
  have hs : (List.ofFn lam).mergeSort (fun a b => decide (b ≤ a)) = List.ofFn g := by
    refine List.Perm.eq_of_sortedGE ?_ hg.sortedGE_ofFn ((List.mergeSort_perm _ _).trans hp)
    rw [List.sortedGE_iff_pairwise]
    have := List.pairwise_mergeSort (le := fun a b : ℝ => decide (b ≤ a)) (fun a b c h1 h2 => by
      simp only [decide_eq_true_eq] at *; exact h2.trans h1) (fun a b => by
      simp only [Bool.or_eq_true, decide_eq_true_eq]; exact le_total b a) (List.ofFn lam)
    exact this.imp fun h => by simpa using h
  rw [kthLargest, e, hs, List.getD_eq_getElem?_getD, List.getElem?_ofFn, dif_pos k.2]
  rfl

section
variable {X : Type} [Fintype X] [DecidableEq X] {nt : Nat}

/-- the eigenvalues of a POD are those of the snapshots taken as realizations, times their number -/
theorem pod_sorted (D : Matrix X (Fin nt) ℝ) (w : X → ℝ) (hw : ∀ x, 0 ≤ w x) (hnt : 0 < nt) (lam : Fin nt → ℝ) (V : Matrix (Fin nt) (Fin nt) ℝ)
    (h : EigBasis (corrMat D w) lam V) (solver : Fit.Solver nt) (hs : SolverFull solver) (k : Fin nt) :
    kthLargest (List.ofFn fun i => ((lam i : ℝ) : ℂ)) k = nt * eigsAt (Matrix.of fun x t => (D x t : ℂ)) w solver 1 k := by
  have hn : (0 : ℝ) < nt := by exact_mod_cast hnt
  have hP : Spod.EigPairs (Spod.crossSpectral (Matrix.of fun x t => (D x t : ℂ)) w) (fun j => ((lam j / nt : ℝ) : ℂ))
      (Matrix.of fun i j => (V i j : ℂ)) := by
    intro j
    refine ⟨pod_complex_corr D w hnt _ _ (h.eig j), ?_⟩
    have := congrArg (fun r : ℝ => (r : ℂ)) (h.unit j)
    push_cast at this
    simpa only [Matrix.of_apply, Complex.conj_ofReal] using this
  have hd : IsUnit (Matrix.of fun i j => (V i j : ℂ)).det := by
    have e : (Matrix.of fun i j => (V i j : ℂ)) = V.map Complex.ofRealHom := rfl
    rw [e, ← RingHom.mapMatrix_apply, ← RingHom.map_det]
    exact h.basis.map _
  have hM : (Spod.crossSpectral (Matrix.of fun x t => (D x t : ℂ)) w).IsHermitian := (crossSpectral_posSemidef _ w hw).1
  obtain ⟨a1, a2, a3⟩ := hs _ hM
  have e1 := eig_roots _ _ _ hP hd
  rw [eig_roots _ _ _ a1 a2] at e1
  obtain ⟨m, p, -⟩ := eigsAt_basis (Matrix.of fun x t => (D x t : ℂ)) w hw solver hs 1
  refine kthLargest_eq lam (fun k => nt * eigsAt (Matrix.of fun x t => (D x t : ℂ)) w solver 1 k) (fun i j hij => mul_le_mul_of_nonneg_left (m hij) hn.le) ?_ k
  have he : ∀ k, eigsAt (Matrix.of fun x t => (D x t : ℂ)) w solver 1 k =
      Spod.realIfClose (solver (Spod.crossSpectral (Matrix.of fun x t => (D x t : ℂ)) w)).1
        ((solver (Spod.crossSpectral (Matrix.of fun x t => (D x t : ℂ)) w)).2.2 k) := by
    intro k
    have hnn := (eigenvalues_real_nonneg _ w hw _ _ a1 ((solver (Spod.crossSpectral (Matrix.of fun x t => (D x t : ℂ)) w)).2.2 k)).2.1
    simp only [eigsAt, Spod.spodFreq, Spod.eigsOut, Spod.reorderL, Nat.cast_one, one_mul]
    exact abs_of_nonneg hnn
  simp only [he]
  have e2 := congrArg (Multiset.map fun z : ℂ => (nt : ℝ) * z.re) e1
  rw [Multiset.map_map, Multiset.map_map] at e2
  have e3 := map_perm (fun i => (nt : ℝ) * Spod.realIfClose (solver (Spod.crossSpectral (Matrix.of fun x t => (D x t : ℂ)) w)).1 i)
    (solver (Spod.crossSpectral (Matrix.of fun x t => (D x t : ℂ)) w)).2.2
  rw [e3]
  refine Eq.trans ?_ e2.symm
  refine Multiset.map_congr rfl fun i _ => ?_
  simp only [Function.comp, Complex.ofReal_re]
  rw [mul_div_cancel₀ _ hn.ne']

end

/-- what the stored eigenvalues of a run are -/
theorem pod_spectrum {c weights files dims mk n} (R : PodRun c weights files dims mk n) (solver : PodFit.Solver) (lamV) (hs : PodSolver solver lamV)
    (hw : ∀ w, weights = some w → ∀ k, 0 ≤ flat w k) {comms : List Comm} {sched : Sched} (hrun : IsRun comms sched)
    (s : Fit.Solver files.flatten.length) (hf : SolverFull s) :
    ∃ o, PodFit.podFit c weights solver files comms sched = some o ∧ ∀ k : Fin files.flatten.length, kthLargest o.eigs k =
      files.flatten.length * eigsAt (Matrix.of fun x t => (podFluct mk files.flatten (dims ++ [1]) x t : ℂ))
        (podW (weights.getD ⟨dims ++ [1], fun _ => 1⟩) (dims ++ [1])) s 1 k := by
  obtain ⟨o, lam, V, h1, h2, h3, -, -⟩ := pod_files_spec R solver lamV hs hrun
  have hw0 : ∀ x, 0 ≤ podW (weights.getD ⟨dims ++ [1], fun _ => 1⟩) (dims ++ [1]) x := by
    intro x
    cases weights with
    | none => simp [podW, flat]
    | some w => exact hw w rfl _
  have hpos : 0 < files.flatten.length := lt_of_lt_of_le R.n_pos R.n_le
  refine ⟨o, h1, fun k => ?_⟩
  rw [h2, pod_sorted _ _ hw0 hpos lam V h3 s hf k]
  simp only [podFluct_eq]

/-- the weight of grid point `x` in a POD: that given, one if none are -/
noncomputable def podWeight (weights : Option (Arr ℝ)) (dims : List Nat) (x : Fin (size (dims ++ [1]))) : ℝ := podW (weights.getD ⟨dims ++ [1], fun _ => 1⟩) (dims ++ [1]) x

theorem podWeight_nonneg {weights : Option (Arr ℝ)} {dims : List Nat} (hw : ∀ w, weights = some w → ∀ k, 0 ≤ flat w k) (x) : 0 ≤ podWeight weights dims x := by
  unfold podWeight
  cases weights with
  | none => simp [podW, flat]
  | some w => exact hw w rfl _

/-- snapshot `t` of a data set at the flat position `x` -/
def podAt (files : List (List (Arr ℝ))) (t x : Nat) : ℝ := flat (files.flatten.getD t ⟨[], fun _ => 0⟩) x

theorem podFluct_at (mk : MeanKind) (files : List (List (Arr ℝ))) (sh : List Nat) (x : Fin (size sh)) (t : Fin files.flatten.length) :
    podFluct mk files.flatten sh x t = podAt files t x - if mk = .longtime then (∑ t' ∈ Finset.range files.flatten.length, podAt files t' x) / files.flatten.length else 0 := by
  rw [podFluct, Finset.sum_range]
  rfl

theorem scaled_triangle (n : ℝ) (hn : 0 ≤ n) (a b c : ℝ) (h : Real.sqrt a ≤ Real.sqrt b + Real.sqrt c) :
    Real.sqrt (n * a) ≤ Real.sqrt (n * b) + Real.sqrt (n * c) := by
  rw [Real.sqrt_mul hn, Real.sqrt_mul hn, Real.sqrt_mul hn, ← mul_add]
  exact mul_le_mul_of_nonneg_left h (Real.sqrt_nonneg _)

/-- matrices of snapshots: `D = D₁ + s D₂` with `|s| = 1` -/
theorem pod_matrix_triangle {X : Type} [Fintype X] [DecidableEq X] {n n₁ n₂ : Nat} (h1 : n₁ = n) (h2 : n₂ = n) (D : Matrix X (Fin n) ℝ) (D₁ : Matrix X (Fin n₁) ℝ) (D₂ : Matrix X (Fin n₂) ℝ)
    (w : X → ℝ) (hw : ∀ x, 0 ≤ w x) (s : ℝ) (hs : |s| = 1)
    (h : ∀ x (k : Fin n) (k₁ : Fin n₁) (k₂ : Fin n₂), k.1 = k₁.1 → k.1 = k₂.1 → D x k = D₁ x k₁ + s * D₂ x k₂)
    (r : Fit.Solver n) (r₁ : Fit.Solver n₁) (r₂ : Fit.Solver n₂) (f : SolverFull r) (f₁ : SolverFull r₁) (f₂ : SolverFull r₂) (i : Fin n) (i₁ : Fin n₁) (i₂ : Fin n₂) (hi : i.1 = i₁.1 + i₂.1) :
    Real.sqrt (n * eigsAt (Matrix.of fun x t => (D x t : ℂ)) w r 1 i) ≤ Real.sqrt (n₁ * eigsAt (Matrix.of fun x t => (D₁ x t : ℂ)) w r₁ 1 i₁) +
      Real.sqrt (n₂ * eigsAt (Matrix.of fun x t => (D₂ x t : ℂ)) w r₂ 1 i₂) := by
  have key := eigs_triangle h1 h2 (Matrix.of fun x t => (D x t : ℂ)) (Matrix.of fun x t => (D₁ x t : ℂ)) (Matrix.of fun x t => (D₂ x t : ℂ)) w w w hw hw hw
    (rescale_triangle h1 h2 w _ _ _ (s : ℂ) (by rw [Complex.norm_real, Real.norm_eq_abs, hs]) fun x k k₁ k₂ e1 e2 => by
      simp only [Matrix.of_apply]
      rw [h x k k₁ k₂ e1 e2]
      push_cast; rfl) r r₁ r₂ f f₁ f₂ 1 i i₁ i₂ hi
  subst h1; subst h2
  exact scaled_triangle _ (Nat.cast_nonneg _) _ _ _ key

/-- **C200.** POD of data that are the sum of two data sets; any solvers and numbers of ranks: the square root of the `i₁ + i₂`-th largest stored eigenvalue is
    at most the sum of those of the `i₁`-th of the first and the `i₂`-th of the second data set. -/
theorem pod_triangle {c c₁ c₂ weights files files₁ files₂ dims mk n n₁ n₂} (R : PodRun c weights files dims mk n) (R₁ : PodRun c₁ weights files₁ dims mk n₁)
    (R₂ : PodRun c₂ weights files₂ dims mk n₂) (solver solver₁ solver₂ : PodFit.Solver) (lamV lamV₁ lamV₂) (hs : PodSolver solver lamV)
    (hs₁ : PodSolver solver₁ lamV₁) (hs₂ : PodSolver solver₂ lamV₂) (hw : ∀ w, weights = some w → ∀ k, 0 ≤ flat w k)
    (hl₁ : files₁.flatten.length = files.flatten.length) (hl₂ : files₂.flatten.length = files.flatten.length)
    (h : ∀ t < files.flatten.length, ∀ x < size dims, podAt files t x = podAt files₁ t x + podAt files₂ t x)
    {comms comms₁ comms₂ : List Comm} {sched sched₁ sched₂ : Sched} (hrun : IsRun comms sched) (hrun₁ : IsRun comms₁ sched₁) (hrun₂ : IsRun comms₂ sched₂) :
    ∃ o o₁ o₂, PodFit.podFit c weights solver files comms sched = some o ∧ PodFit.podFit c₁ weights solver₁ files₁ comms₁ sched₁ = some o₁ ∧
      PodFit.podFit c₂ weights solver₂ files₂ comms₂ sched₂ = some o₂ ∧
      (∀ i₁ i₂, i₁ + i₂ < files.flatten.length → Real.sqrt (kthLargest o.eigs (i₁ + i₂)) ≤ Real.sqrt (kthLargest o₁.eigs i₁) + Real.sqrt (kthLargest o₂.eigs i₂)) ∧
      ∀ i < files.flatten.length, |Real.sqrt (kthLargest o.eigs i) - Real.sqrt (kthLargest o₁.eigs i)| ≤ Real.sqrt (kthLargest o₂.eigs 0) := by
  obtain ⟨r, f⟩ := solver_full_exists files.flatten.length
  obtain ⟨r₁, f₁⟩ := solver_full_exists files₁.flatten.length
  obtain ⟨r₂, f₂⟩ := solver_full_exists files₂.flatten.length
  obtain ⟨o, a, e⟩ := pod_spectrum R solver lamV hs hw hrun r f
  obtain ⟨o₁, a₁, e₁⟩ := pod_spectrum R₁ solver₁ lamV₁ hs₁ hw hrun₁ r₁ f₁
  obtain ⟨o₂, a₂, e₂⟩ := pod_spectrum R₂ solver₂ lamV₂ hs₂ hw hrun₂ r₂ f₂
  have hsz : size (dims ++ [1]) = size dims := by rw [size_append]; simp
  have hpos : 0 < files.flatten.length := lt_of_lt_of_le R.n_pos R.n_le
  have hfl : ∀ x (k : Fin files.flatten.length) (k₁ : Fin files₁.flatten.length) (k₂ : Fin files₂.flatten.length), k.1 = k₁.1 → k.1 = k₂.1 →
      podFluct mk files.flatten (dims ++ [1]) x k = podFluct mk files₁.flatten (dims ++ [1]) x k₁ + podFluct mk files₂.flatten (dims ++ [1]) x k₂ := by
    intro x k k₁ k₂ hk₁ hk₂
    have hx : x.1 < size dims := hsz ▸ x.2
    rw [podFluct_at, podFluct_at, podFluct_at, h k k.2 x hx, ← hk₁, ← hk₂, hl₁, hl₂]
    split
    · rw [Finset.sum_congr rfl fun t' ht => h t' (Finset.mem_range.1 ht) x hx, Finset.sum_add_distrib]
      ring
    · ring
  have W := podWeight_nonneg (dims := dims) hw
  have t1 : ∀ i₁ i₂, i₁ + i₂ < files.flatten.length → Real.sqrt (kthLargest o.eigs (i₁ + i₂)) ≤ Real.sqrt (kthLargest o₁.eigs i₁) + Real.sqrt (kthLargest o₂.eigs i₂) := by
    intro i₁ i₂ hi
    have q := e ⟨i₁ + i₂, hi⟩
    have q₁ := e₁ ⟨i₁, by omega⟩
    have q₂ := e₂ ⟨i₂, by omega⟩
    simp only [] at q q₁ q₂
    rw [q, q₁, q₂]
    exact pod_matrix_triangle hl₁ hl₂ _ _ _ _ W 1 (_root_.abs_one) (fun x k k₁ k₂ e1 e2 => by rw [one_mul]; exact hfl x k k₁ k₂ e1 e2) r r₁ r₂ f f₁ f₂ _ _ _ rfl
  refine ⟨o, o₁, o₂, a, a₁, a₂, t1, fun i hi => ?_⟩
  have u1 := t1 i 0 (by omega)
  have u2 : Real.sqrt (kthLargest o₁.eigs i) ≤ Real.sqrt (kthLargest o.eigs i) + Real.sqrt (kthLargest o₂.eigs 0) := by
    have q := e ⟨i, hi⟩
    have q₁ := e₁ ⟨i, by omega⟩
    have q₂ := e₂ ⟨0, by omega⟩
    simp only [] at q q₁ q₂
    rw [q, q₁, q₂]
    exact pod_matrix_triangle hl₁.symm (hl₂.trans hl₁.symm) _ _ _ _ W (-1) (by simp) (fun x k k₁ k₂ e1 e2 => by
      rw [hfl x k₁ k k₂ e1.symm (e1.symm.trans e2)]; ring) r₁ r r₂ f₁ f f₂ _ _ _ rfl
  rw [add_zero] at u1
  exact abs_le.2 ⟨by linarith, by linarith⟩

/-- **C200.** Data that nowhere differ by more than `ε`; any solvers and numbers of ranks: the square roots of corresponding eigenvalues, sorted, differ by at most `2 ε` times the square
    root of the number of snapshots times the sum of the weights. -/
theorem pod_noise {c c' weights files files' dims mk n n'} (R : PodRun c weights files dims mk n) (R' : PodRun c' weights files' dims mk n')
    (solver solver' : PodFit.Solver) (lamV lamV') (hs : PodSolver solver lamV) (hs' : PodSolver solver' lamV') (hw : ∀ w, weights = some w → ∀ k, 0 ≤ flat w k)
    (hl : files'.flatten.length = files.flatten.length) (ε : ℝ) (hε : 0 ≤ ε)
    (h : ∀ t < files.flatten.length, ∀ x < size dims, |podAt files t x - podAt files' t x| ≤ ε)
    {comms comms' : List Comm} {sched sched' : Sched} (hrun : IsRun comms sched) (hrun' : IsRun comms' sched') :
    ∃ o o', PodFit.podFit c weights solver files comms sched = some o ∧ PodFit.podFit c' weights solver' files' comms' sched' = some o' ∧
      ∀ i < files.flatten.length, |Real.sqrt (kthLargest o.eigs i) - Real.sqrt (kthLargest o'.eigs i)| ≤
        2 * ε * Real.sqrt (files.flatten.length * ∑ x, podWeight weights dims x) := by
  obtain ⟨r, f⟩ := solver_full_exists files.flatten.length
  obtain ⟨r', f'⟩ := solver_full_exists files'.flatten.length
  obtain ⟨o, a, e⟩ := pod_spectrum R solver lamV hs hw hrun r f
  obtain ⟨o', a', e'⟩ := pod_spectrum R' solver' lamV' hs' hw hrun' r' f'
  have hsz : size (dims ++ [1]) = size dims := by rw [size_append]; simp
  have hpos : 0 < files.flatten.length := lt_of_lt_of_le R.n_pos R.n_le
  have hnR : (0 : ℝ) < files.flatten.length := by exact_mod_cast hpos
  have W := podWeight_nonneg (dims := dims) hw
  set d : Matrix (Fin (size (dims ++ [1]))) (Fin files.flatten.length) ℝ := Matrix.of fun x t =>
    podFluct mk files.flatten (dims ++ [1]) x t - podFluct mk files'.flatten (dims ++ [1]) x (Fin.cast hl.symm t) with hd
  have db : ∀ x t, |d x t| ≤ 2 * ε := by
    intro x t
    have hx : x.1 < size dims := hsz ▸ x.2
    have h1 := h t t.2 x hx
    simp only [hd, Matrix.of_apply]
    rw [podFluct_at, podFluct_at, Fin.val_cast, hl]
    split
    · have h2 : |(∑ t' ∈ Finset.range files.flatten.length, podAt files t' x) / (files.flatten.length : ℝ) -
          (∑ t' ∈ Finset.range files.flatten.length, podAt files' t' x) / (files.flatten.length : ℝ)| ≤ ε := by
        rw [← sub_div, ← Finset.sum_sub_distrib, abs_div, abs_of_pos hnR, div_le_iff₀ hnR]
        calc |∑ t' ∈ Finset.range files.flatten.length, (podAt files t' x - podAt files' t' x)| ≤ ∑ t' ∈ Finset.range files.flatten.length, |podAt files t' x - podAt files' t' x| := Finset.abs_sum_le_sum_abs _ _
          _ ≤ ∑ _t' ∈ Finset.range files.flatten.length, ε := Finset.sum_le_sum fun t' ht => h t' (Finset.mem_range.1 ht) x hx
          _ = _ := by rw [Finset.sum_const, Finset.card_range, nsmul_eq_mul, mul_comm]
      rw [abs_le] at h1 h2 ⊢
      constructor <;> linarith
    · rw [sub_zero, sub_zero]
      linarith
  have hb : ∀ i, files.flatten.length * eigsAt (Matrix.of fun x t => (d x t : ℂ)) (podWeight weights dims) r 1 i ≤
      (2 * ε) ^ 2 * (files.flatten.length * ∑ x, podWeight weights dims x) := by
    intro i
    have := eigsAt_le hpos (Matrix.of fun x t => (d x t : ℂ)) (podWeight weights dims) W r f 1 (2 * ε) (fun x t => by
      rw [Matrix.of_apply, Complex.norm_real, Real.norm_eq_abs]; exact db x t) i
    rw [Nat.cast_one, one_mul] at this
    calc _ ≤ files.flatten.length * ((∑ x, podWeight weights dims x) * (2 * ε) ^ 2) := mul_le_mul_of_nonneg_left this hnR.le
      _ = _ := by ring
  have hsq : Real.sqrt (files.flatten.length * eigsAt (Matrix.of fun x t => (d x t : ℂ)) (podWeight weights dims) r 1 ⟨0, hpos⟩) ≤
      2 * ε * Real.sqrt (files.flatten.length * ∑ x, podWeight weights dims x) := by
    refine (Real.sqrt_le_sqrt (hb _)).trans (le_of_eq ?_)
    rw [Real.sqrt_mul (sq_nonneg _), Real.sqrt_sq (by linarith)]
  refine ⟨o, o', a, a', fun i hi => ?_⟩
  have q := e ⟨i, hi⟩
  have q' := e' ⟨i, by omega⟩
  simp only [] at q q'
  have u1 : Real.sqrt (kthLargest o.eigs i) ≤ Real.sqrt (kthLargest o'.eigs i) + Real.sqrt (files.flatten.length *
      eigsAt (Matrix.of fun x t => (d x t : ℂ)) (podWeight weights dims) r 1 ⟨0, hpos⟩) := by
    rw [q, q']
    exact pod_matrix_triangle hl rfl (podFluct mk files.flatten (dims ++ [1])) (podFluct mk files'.flatten (dims ++ [1])) d _ W 1 (_root_.abs_one)
        (fun x k k₁ k₂ e1 e2 => by
          obtain rfl : k = k₂ := Fin.ext e2
          obtain rfl : Fin.cast hl.symm k = k₁ := Fin.ext e1
          simp only [hd, Matrix.of_apply]; ring) r r' r f f' f ⟨i, hi⟩ ⟨i, by omega⟩ ⟨0, hpos⟩ rfl
  have u2 : Real.sqrt (kthLargest o'.eigs i) ≤ Real.sqrt (kthLargest o.eigs i) + Real.sqrt (files.flatten.length *
      eigsAt (Matrix.of fun x t => (d x t : ℂ)) (podWeight weights dims) r 1 ⟨0, hpos⟩) := by
    rw [q, q']
    exact pod_matrix_triangle hl.symm hl.symm (podFluct mk files'.flatten (dims ++ [1])) (podFluct mk files.flatten (dims ++ [1])) d _ W (-1) (by simp)
        (fun x k k₁ k₂ e1 e2 => by
          obtain rfl : k₁ = k₂ := Fin.ext (e1.symm.trans e2)
          obtain rfl : Fin.cast hl.symm k₁ = k := Fin.ext e1.symm
          simp only [hd, Matrix.of_apply]; ring) r' r r f' f f ⟨i, by omega⟩ ⟨i, hi⟩ ⟨0, hpos⟩ rfl
  exact abs_le.2 ⟨by linarith, by linarith⟩

/-- **C201.** A grid that contains the points of another with the same data there and weights that are not smaller; any solvers and numbers of ranks: no eigenvalue
    is smaller. -/
theorem pod_domain_mono {c c' weights weights' files files' dims dims' mk n n'} (R : PodRun c weights files dims mk n) (R' : PodRun c' weights' files' dims' mk n')
    (solver solver' : PodFit.Solver) (lamV lamV') (hs : PodSolver solver lamV) (hs' : PodSolver solver' lamV') (hw : ∀ w, weights = some w → ∀ k, 0 ≤ flat w k)
    (hw' : ∀ w, weights' = some w → ∀ k, 0 ≤ flat w k) (hl : files'.flatten.length = files.flatten.length)
    (g : Fin (size (dims ++ [1])) → Fin (size (dims' ++ [1]))) (hg : Function.Injective g) (hle : ∀ x, podWeight weights dims x ≤ podWeight weights' dims' (g x))
    (h : ∀ t < files.flatten.length, ∀ x, podAt files' t (g x) = podAt files t x)
    {comms comms' : List Comm} {sched sched' : Sched} (hrun : IsRun comms sched) (hrun' : IsRun comms' sched') :
    ∃ o o', PodFit.podFit c weights solver files comms sched = some o ∧ PodFit.podFit c' weights' solver' files' comms' sched' = some o' ∧
      ∀ i < files.flatten.length, kthLargest o.eigs i ≤ kthLargest o'.eigs i := by
  obtain ⟨r, f⟩ := solver_full_exists files.flatten.length
  obtain ⟨r', f'⟩ := solver_full_exists files'.flatten.length
  obtain ⟨o, a, e⟩ := pod_spectrum R solver lamV hs hw hrun r f
  obtain ⟨o', a', e'⟩ := pod_spectrum R' solver' lamV' hs' hw' hrun' r' f'
  refine ⟨o, o', a, a', fun i hi => ?_⟩
  have W := podWeight_nonneg (dims := dims) hw
  have W' := podWeight_nonneg (dims := dims') hw'
  have q := e ⟨i, hi⟩
  have q' := e' ⟨i, by omega⟩
  simp only [] at q q'
  rw [q, q']
  have hc : (files.flatten.length : ℝ) = files'.flatten.length := by rw [hl]
  refine (mul_le_mul_of_nonneg_left ?_ (Nat.cast_nonneg _)).trans (le_of_eq (congrArg (fun z : ℝ => z * _) hc))
  refine eigs_mono hl _ _ (podWeight weights dims) (podWeight weights' dims') W W' (fun v => ?_) r r' f f' 1 _ _ rfl
  rw [rescale_norm_sq _ W, rescale_norm_sq _ W']
  have hfl : ∀ x (t : Fin files.flatten.length) (t' : Fin files'.flatten.length), t'.1 = t.1 →
      podFluct mk files'.flatten (dims' ++ [1]) (g x) t' = podFluct mk files.flatten (dims ++ [1]) x t := by
    intro x t t' ht
    rw [podFluct_at, podFluct_at, ht, hl, h t t.2 x, Finset.sum_congr rfl fun t' ht => h t' (Finset.mem_range.1 ht) x]
  have hq : ∀ x, ((Matrix.of fun x t => (podFluct mk files'.flatten (dims' ++ [1]) x t : ℂ)) *ᵥ fun b : Fin files'.flatten.length => v b) (g x) =
      ((Matrix.of fun x t => (podFluct mk files.flatten (dims ++ [1]) x t : ℂ)) *ᵥ fun b : Fin files.flatten.length => v b) x := by
    intro x
    simp only [mulVec, dotProduct, Matrix.of_apply]
    rw [← Equiv.sum_comp (finCongr hl.symm)]
    exact Finset.sum_congr rfl fun t _ => by rw [hfl x t _ rfl]; rfl
  calc _ ≤ ∑ x, podWeight weights' dims' (g x) * ‖((Matrix.of fun x t => (podFluct mk files'.flatten (dims' ++ [1]) x t : ℂ)) *ᵥ fun b : Fin files'.flatten.length => v b) (g x)‖ ^ 2 := by
        refine Finset.sum_le_sum fun x _ => ?_
        rw [hq x]
        exact mul_le_mul_of_nonneg_right (hle x) (sq_nonneg _)
    _ = ∑ y ∈ Finset.univ.map ⟨g, hg⟩, podWeight weights' dims' y * ‖((Matrix.of fun x t => (podFluct mk files'.flatten (dims' ++ [1]) x t : ℂ)) *ᵥ
          fun b : Fin files'.flatten.length => v b) y‖ ^ 2 := by rw [Finset.sum_map]; rfl
    _ ≤ _ := Finset.sum_le_sum_of_subset_of_nonneg (Finset.subset_univ _) fun y _ _ => mul_nonneg (W' y) (sq_nonneg _)

/-- **C202.** A record that begins with the snapshots of another (if the mean is subtracted: with the same mean); any solvers and numbers of ranks: no sorted eigenvalue is
    smaller, and those of the longer record shifted by the number of new snapshots are not larger. -/
theorem pod_longer {c c' weights files files' dims mk n n'} (R : PodRun c weights files dims mk n) (R' : PodRun c' weights files' dims mk n')
    (solver solver' : PodFit.Solver) (lamV lamV') (hs : PodSolver solver lamV) (hs' : PodSolver solver' lamV') (hw : ∀ w, weights = some w → ∀ k, 0 ≤ flat w k)
    (hl : files.flatten.length ≤ files'.flatten.length) (h : ∀ t < files.flatten.length, ∀ x < size dims, podAt files' t x = podAt files t x)
    (hmean : mk = .longtime → ∀ x < size dims, (∑ t ∈ Finset.range files'.flatten.length, podAt files' t x) / files'.flatten.length =
      (∑ t ∈ Finset.range files.flatten.length, podAt files t x) / files.flatten.length)
    {comms comms' : List Comm} {sched sched' : Sched} (hrun : IsRun comms sched) (hrun' : IsRun comms' sched') :
    ∃ o o', PodFit.podFit c weights solver files comms sched = some o ∧ PodFit.podFit c' weights solver' files' comms' sched' = some o' ∧
      ∀ i < files.flatten.length, kthLargest o.eigs i ≤ kthLargest o'.eigs i ∧
        kthLargest o'.eigs (i + (files'.flatten.length - files.flatten.length)) ≤ kthLargest o.eigs i := by
  obtain ⟨r, f⟩ := solver_full_exists files.flatten.length
  obtain ⟨r', f'⟩ := solver_full_exists files'.flatten.length
  obtain ⟨o, a, e⟩ := pod_spectrum R solver lamV hs hw hrun r f
  obtain ⟨o', a', e'⟩ := pod_spectrum R' solver' lamV' hs' hw hrun' r' f'
  have hsz : size (dims ++ [1]) = size dims := by rw [size_append]; simp
  have hpos : 0 < files.flatten.length := lt_of_lt_of_le R.n_pos R.n_le
  refine ⟨o, o', a, a', fun i hi => ?_⟩
  obtain ⟨k1, k2⟩ := eigs_interlace hl hpos (Matrix.of fun x t => (podFluct mk files.flatten (dims ++ [1]) x t : ℂ))
    (Matrix.of fun x t => (podFluct mk files'.flatten (dims ++ [1]) x t : ℂ)) (podWeight weights dims) (podWeight_nonneg hw) (fun x b => by
      have hx : x.1 < size dims := hsz ▸ x.2
      rw [Matrix.of_apply, Matrix.of_apply, Complex.ofReal_inj, podFluct_at, podFluct_at, Fin.val_castLE, h b b.2 x hx]
      split
      · rename_i hm
        rw [hmean hm x hx]
      · rfl) r r' f f' 1
  have q := e ⟨i, hi⟩
  have q' := e' ⟨i, by omega⟩
  have q2 := e' ⟨i + (files'.flatten.length - files.flatten.length), by omega⟩
  simp only [] at q q' q2
  rw [q, q', q2]
  exact ⟨k1 _ _ rfl, k2 _ _ rfl⟩

/-- **C202.** A record repeated `R` times; any solvers and numbers of ranks: every eigenvalue is multiplied by `R`, the others are zero. -/
theorem pod_repeated {c c' weights files files' dims mk n n'} (R : PodRun c weights files dims mk n) (R' : PodRun c' weights files' dims mk n')
    (solver solver' : PodFit.Solver) (lamV lamV') (hs : PodSolver solver lamV) (hs' : PodSolver solver' lamV') (hw : ∀ w, weights = some w → ∀ k, 0 ≤ flat w k)
    (times : Nat) (h0 : 0 < times) (hl : files'.flatten.length = times * files.flatten.length)
    (h : ∀ t < files'.flatten.length, ∀ x < size dims, podAt files' t x = podAt files (t % files.flatten.length) x)
    {comms comms' : List Comm} {sched sched' : Sched} (hrun : IsRun comms sched) (hrun' : IsRun comms' sched') :
    ∃ o o', PodFit.podFit c weights solver files comms sched = some o ∧ PodFit.podFit c' weights solver' files' comms' sched' = some o' ∧
      (∀ i < files.flatten.length, kthLargest o'.eigs i = times * kthLargest o.eigs i) ∧
      ∀ i < files'.flatten.length, files.flatten.length ≤ i → kthLargest o'.eigs i = 0 := by
  obtain ⟨r, f⟩ := solver_full_exists files.flatten.length
  obtain ⟨r', f'⟩ := solver_full_exists files'.flatten.length
  obtain ⟨o, a, e⟩ := pod_spectrum R solver lamV hs hw hrun r f
  obtain ⟨o', a', e'⟩ := pod_spectrum R' solver' lamV' hs' hw hrun' r' f'
  have hsz : size (dims ++ [1]) = size dims := by rw [size_append]; simp
  have hpos : 0 < files.flatten.length := lt_of_lt_of_le R.n_pos R.n_le
  have hnp : (0 : ℝ) < files.flatten.length := by exact_mod_cast hpos
  have htp : (0 : ℝ) < times := by exact_mod_cast h0
  have hll : files.flatten.length ≤ files'.flatten.length := by rw [hl]; exact Nat.le_mul_of_pos_left _ h0
  have key := eigs_copies h0 (fun b : Fin files'.flatten.length => (⟨b.1 % files.flatten.length, Nat.mod_lt _ hpos⟩ : Fin files.flatten.length))
    (fun a => card_copies hpos hl a) hpos (Matrix.of fun x t => (podFluct mk files.flatten (dims ++ [1]) x t : ℂ))
    (Matrix.of fun x t => (podFluct mk files'.flatten (dims ++ [1]) x t : ℂ)) (fun x b => by
      have hx : x.1 < size dims := hsz ▸ x.2
      rw [Matrix.of_apply, Matrix.of_apply, Complex.ofReal_inj, podFluct_at, podFluct_at, h b b.2 x hx]
      split
      · congr 1
        rw [Finset.sum_congr rfl fun t ht => h t (Finset.mem_range.1 ht) x hx, hl, sum_repeat (fun t => podAt files t x)]
        push_cast
        field_simp
      · rfl) (podWeight weights dims) (podWeight_nonneg hw) r r' f f' 1
  refine ⟨o, o', a, a', fun i hi => ?_, fun i hi hge => ?_⟩
  · have q := e ⟨i, hi⟩
    have q' := e' ⟨i, by omega⟩
    simp only [] at q q'
    rw [q, q']
    have := (key ⟨i, by omega⟩).1 ⟨i, hi⟩ rfl
    refine (congrArg (fun z : ℝ => (files'.flatten.length : ℝ) * z) this).trans ?_
    rw [hl]
    push_cast
    rw [mul_assoc]
    rfl
  · have q' := e' ⟨i, hi⟩
    simp only [] at q'
    rw [q']
    exact (congrArg (fun z : ℝ => (files'.flatten.length : ℝ) * z) ((key ⟨i, hi⟩).2 hge)).trans (mul_zero _)

/-! ### Cases that meet the hypotheses -/

/-- two data sets of one snapshot on two points: `(a, b)` and `(c, d)` -/
def podPair (a b c d : ℝ) : List (List (Arr ℝ)) := [[⟨[2], fun idx => if idx = [0] then a else b⟩], [⟨[2], fun idx => if idx = [0] then c else d⟩]]

theorem podPairRun (a b c d : ℝ) : PodRun podOneCfg none (podPair a b c d) [2] .zero 1 where
  files_ne := by simp [podPair]
  ne := by simp [podPair]
  snaps := by simp [podPair]
  nv := rfl
  xdim := by decide
  dims_ne := by simp
  pos := by decide
  weights := by simp
  mean := podMean_zero _ (by decide +kernel)
  save := rfl
  n_pos := by omega
  n_le := by simp [podPair]

theorem podPair_at (a b c d : ℝ) : podAt (podPair a b c d) 0 0 = a ∧ podAt (podPair a b c d) 0 1 = b ∧ podAt (podPair a b c d) 1 0 = c ∧ podAt (podPair a b c d) 1 1 = d := by
  refine ⟨?_, ?_, ?_, ?_⟩ <;> simp [podAt, podPair, flat, unravel, size]

theorem podPair_all {P : Nat → Nat → Prop} (h : P 0 0 ∧ P 0 1 ∧ P 1 0 ∧ P 1 1) (a b c d : ℝ) : ∀ t < (podPair a b c d).flatten.length, ∀ x < size [2], P t x := by
  intro t ht x hx
  have ht : t < 2 := ht
  have hx : x < 2 := hx
  obtain ⟨h1, h2, h3, h4⟩ := h
  interval_cases t <;> interval_cases x <;> assumption

/-- `pod_triangle`: `(1, 2), (3, 4)` is the sum of `(1, 0), (0, 4)` and `(0, 2), (3, 0)` -/
example (solver : PodFit.Solver) (lamV) (hs : PodSolver solver lamV) : ∃ o o₁ o₂, PodFit.podFit podOneCfg none solver (podPair 1 2 3 4) (ranksOf 3) (some fun _ l => l) = some o ∧
    PodFit.podFit podOneCfg none solver (podPair 1 0 0 4) [none] none = some o₁ ∧ PodFit.podFit podOneCfg none solver (podPair 0 2 3 0) [none] none = some o₂ ∧
    Real.sqrt (kthLargest o.eigs 1) ≤ Real.sqrt (kthLargest o₁.eigs 1) + Real.sqrt (kthLargest o₂.eigs 0) := by
  obtain ⟨o, o₁, o₂, a, b, c, h, -⟩ := pod_triangle (podPairRun 1 2 3 4) (podPairRun 1 0 0 4) (podPairRun 0 2 3 0) solver solver solver lamV lamV lamV hs hs hs (by simp) rfl rfl
    (podPair_all (by simp only [podPair_at]; norm_num) 1 2 3 4) (Or.inr ⟨3, _, by omega, fun _ _ => List.Perm.refl _, rfl, rfl⟩) (Or.inl ⟨rfl, rfl⟩) (Or.inl ⟨rfl, rfl⟩)
  exact ⟨o, o₁, o₂, a, b, c, h 1 0 (by decide)⟩

/-- `pod_noise`: `(1, 2), (3, 4)` and `(1, 3), (3, 4)` -/
example (solver : PodFit.Solver) (lamV) (hs : PodSolver solver lamV) : ∃ o o', PodFit.podFit podOneCfg none solver (podPair 1 2 3 4) [none] none = some o ∧
    PodFit.podFit podOneCfg none solver (podPair 1 3 3 4) [none] none = some o' ∧
    |Real.sqrt (kthLargest o.eigs 1) - Real.sqrt (kthLargest o'.eigs 1)| ≤ 2 * 1 * Real.sqrt ((podPair 1 2 3 4).flatten.length * ∑ x, podWeight none [2] x) := by
  obtain ⟨o, o', a, b, h⟩ := pod_noise (podPairRun 1 2 3 4) (podPairRun 1 3 3 4) solver solver lamV lamV hs hs (by simp) rfl 1 (by norm_num)
    (podPair_all (by simp only [podPair_at]; norm_num) 1 2 3 4) (Or.inl ⟨rfl, rfl⟩) (Or.inl ⟨rfl, rfl⟩)
  exact ⟨o, o', a, b, h 1 (by decide)⟩

/-- `pod_domain_mono`: the weights `1, 1` and `2, 1` -/
def podPairWeights : Arr ℝ := ⟨[2, 1], fun idx => if idx = [0, 0] then 2 else 1⟩

theorem podPairWeighted (a b c d : ℝ) : PodRun podOneCfg (some podPairWeights) (podPair a b c d) [2] .zero 1 where
  files_ne := by simp [podPair]
  ne := by simp [podPair]
  snaps := by simp [podPair]
  nv := rfl
  xdim := by decide
  dims_ne := by simp
  pos := by decide
  weights := by intro w hw; cases hw; exact Or.inr rfl
  mean := podMean_zero _ (by decide +kernel)
  save := rfl
  n_pos := by omega
  n_le := by simp [podPair]

example (solver : PodFit.Solver) (lamV) (hs : PodSolver solver lamV) : ∃ o o', PodFit.podFit podOneCfg none solver (podPair 1 2 3 4) [none] none = some o ∧
    PodFit.podFit podOneCfg (some podPairWeights) solver (podPair 1 2 3 4) [none] none = some o' ∧ kthLargest o.eigs 1 ≤ kthLargest o'.eigs 1 := by
  have hge : ∀ k, 1 ≤ flat podPairWeights k := fun k => by
    simp only [flat, podPairWeights]; split <;> norm_num
  obtain ⟨o, o', a, b, h⟩ := pod_domain_mono (podPairRun 1 2 3 4) (podPairWeighted 1 2 3 4) solver solver lamV lamV hs hs (by simp)
    (fun w hw k => by cases hw; exact le_trans zero_le_one (hge k)) rfl id Function.injective_id (fun x => by
      have : podWeight none [2] x = 1 := rfl
      rw [this]; exact hge x) (fun _ _ _ => rfl) (Or.inl ⟨rfl, rfl⟩) (Or.inl ⟨rfl, rfl⟩)
  exact ⟨o, o', a, b, h 1 (by decide)⟩

theorem podTwiceRun (a b c d : ℝ) : PodRun podOneCfg none (podPair a b c d ++ podPair a b c d) [2] .zero 1 where
  files_ne := by simp [podPair]
  ne := by simp [podPair]
  snaps := by simp [podPair]
  nv := rfl
  xdim := by decide
  dims_ne := by simp
  pos := by decide
  weights := by simp
  mean := podMean_zero _ (by decide +kernel)
  save := rfl
  n_pos := by omega
  n_le := by simp [podPair]

/-- `pod_longer`, `pod_repeated`: a record and the record twice -/
example (solver : PodFit.Solver) (lamV) (hs : PodSolver solver lamV) : ∃ o o', PodFit.podFit podOneCfg none solver (podPair 1 2 3 4) [none] none = some o ∧
    PodFit.podFit podOneCfg none solver (podPair 1 2 3 4 ++ podPair 1 2 3 4) [none] none = some o' ∧ kthLargest o'.eigs 1 = 2 * kthLargest o.eigs 1 ∧
    kthLargest o'.eigs 3 ≤ kthLargest o.eigs 1 := by
  obtain ⟨o, o', a, b, h, -⟩ := pod_repeated (podPairRun 1 2 3 4) (podTwiceRun 1 2 3 4) solver solver lamV lamV hs hs (by simp) 2 (by omega) rfl
    (fun t ht x hx => by
      have ht : t < 4 := ht
      interval_cases t <;> rfl) (Or.inl ⟨rfl, rfl⟩) (Or.inl ⟨rfl, rfl⟩)
  obtain ⟨p, p', a', b', h'⟩ := pod_longer (podPairRun 1 2 3 4) (podTwiceRun 1 2 3 4) solver solver lamV lamV hs hs (by simp) (by decide)
    (fun t ht x hx => by
      have ht : t < 2 := ht
      interval_cases t <;> rfl) (by intro h; cases h) (Or.inl ⟨rfl, rfl⟩) (Or.inl ⟨rfl, rfl⟩)
  cases a.symm.trans a'
  cases b.symm.trans b'
  exact ⟨o, o', a, b, by simpa using h 1 (by decide), (h' 1 (by decide)).2⟩

end Verif.Props
