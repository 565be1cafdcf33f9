import Verif.Props.Rank
import Verif.Props.Subdomains
/-
  C219: POD of a domain and of its parts.
-/
namespace Verif.Props
open Verif Verif.Par Verif.Rd Verif.Spod Verif.Fit Verif.Pod Verif.Proj Matrix

/-- the values of a list by size are a reordering of the list -/
theorem kth_perm (l : List ℂ) : (List.ofFn fun k : Fin l.length => kthLargest l k).Perm (l.map Complex.re) := by
  have hp := List.mergeSort_perm (l.map Complex.re) (fun a b => decide (b ≤ a))
  have hl : ((l.map Complex.re).mergeSort (fun a b => decide (b ≤ a))).length = l.length := by rw [hp.length_eq, List.length_map]
  have : (List.ofFn fun k : Fin l.length => kthLargest l k) = (l.map Complex.re).mergeSort (fun a b => decide (b ≤ a)) := by
    refine List.ext_getElem (by rw [List.length_ofFn, hl]) fun i h1 h2 => ?_
    rw [List.getElem_ofFn]
    simp only [kthLargest, List.getD_eq_getElem?_getD, List.getElem?_eq_getElem h2, Option.getD_some]
  rw [this]
  exact hp

/-- snapshot `t` at the flat position `x`, minus the mean over time if it is subtracted -/
noncomputable def podDev (mk : MeanKind) (files : List (List (Arr ℝ))) (t x : Nat) : ℝ :=
  podAt files t x - if mk = .longtime then (∑ t' ∈ Finset.range files.flatten.length, podAt files t' x) / files.flatten.length else 0

/-- a grid cut into two, with the same weights and the same data -/
structure PodCut (files files₁ files₂ : List (List (Arr ℝ))) (ws ws₁ ws₂ : Option (Arr ℝ)) (dims dims₁ dims₂ : List Nat)
    (e : Fin (size (dims₁ ++ [1])) ⊕ Fin (size (dims₂ ++ [1])) ≃ Fin (size (dims ++ [1]))) : Prop where
  length₁ : files₁.flatten.length = files.flatten.length
  length₂ : files₂.flatten.length = files.flatten.length
  weights₁ : ∀ x, podWeight ws₁ dims₁ x = podWeight ws dims (e (.inl x))
  weights₂ : ∀ x, podWeight ws₂ dims₂ x = podWeight ws dims (e (.inr x))
  data₁ : ∀ t < files.flatten.length, ∀ x : Fin (size (dims₁ ++ [1])), podAt files₁ t x = podAt files t (e (.inl x))
  data₂ : ∀ t < files.flatten.length, ∀ x : Fin (size (dims₂ ++ [1])), podAt files₂ t x = podAt files t (e (.inr x))

theorem podDev_congr (mk : MeanKind) (files files' : List (List (Arr ℝ))) (x x' : Nat) (hl : files'.flatten.length = files.flatten.length)
    (h : ∀ t < files.flatten.length, podAt files' t x' = podAt files t x) (t : Nat) (ht : t < files.flatten.length) :
    podDev mk files' t x' = podDev mk files t x := by
  unfold podDev
  rw [h t ht, hl, Finset.sum_congr rfl fun t' ht' => h t' (Finset.mem_range.1 ht')]

theorem eigs_real_sum {nt : Nat} (l : List ℂ) (hl : l.length = nt) (g : Fin nt → ℝ) (h : ∀ k : Fin nt, kthLargest l k = g k) :
    (l.map Complex.re).sum = ∑ k, g k := by
  subst hl
  rw [← (kth_perm l).sum_eq, List.sum_ofFn]
  exact Finset.sum_congr rfl fun k _ => h k

theorem eigs_real_multiset {nt : Nat} (l : List ℂ) (hl : l.length = nt) (g : Fin nt → ℝ) (h : ∀ k : Fin nt, kthLargest l k = g k) :
    ((l.map Complex.re : List ℝ) : Multiset ℝ) = Multiset.map g Finset.univ.val := by
  subst hl
  rw [← Multiset.coe_eq_coe.2 (kth_perm l), Fin.univ_val_map]
  congr 2
  funext k
  exact h k

/-- **C219.** A domain cut into two parts; three POD fits with any exact solvers and numbers of ranks: the stored eigenvalues of the parts add up to
    those of the whole; none of the whole exceeds the sum of two of the parts whose ranks (by size) add up to its own; and if the two parts are
    uncorrelated in time, the stored eigenvalues of the whole are those of both parts (up to zeros). -/
theorem pod_parts {c c₁ c₂ ws ws₁ ws₂ files files₁ files₂ dims dims₁ dims₂ mk n n₁ n₂} (R : PodRun c ws files dims mk n)
    (R₁ : PodRun c₁ ws₁ files₁ dims₁ mk n₁) (R₂ : PodRun c₂ ws₂ files₂ dims₂ mk n₂) (solver solver₁ solver₂ : PodFit.Solver) (lamV lamV₁ lamV₂)
    (hs : PodSolver solver lamV) (hs₁ : PodSolver solver₁ lamV₁) (hs₂ : PodSolver solver₂ lamV₂)
    (hw : ∀ w, ws = some w → ∀ k, 0 ≤ flat w k) (hw₁ : ∀ w, ws₁ = some w → ∀ k, 0 ≤ flat w k) (hw₂ : ∀ w, ws₂ = some w → ∀ k, 0 ≤ flat w k)
    (e : Fin (size (dims₁ ++ [1])) ⊕ Fin (size (dims₂ ++ [1])) ≃ Fin (size (dims ++ [1]))) (h : PodCut files files₁ files₂ ws ws₁ ws₂ dims dims₁ dims₂ e)
    {comms comms₁ comms₂ : List Comm} {sched sched₁ sched₂ : Sched} (hrun : IsRun comms sched) (hrun₁ : IsRun comms₁ sched₁) (hrun₂ : IsRun comms₂ sched₂) :
    ∃ o o₁ o₂, PodFit.podFit c ws solver files comms sched = some o ∧ PodFit.podFit c₁ ws₁ solver₁ files₁ comms₁ sched₁ = some o₁ ∧
      PodFit.podFit c₂ ws₂ solver₂ files₂ comms₂ sched₂ = some o₂ ∧
      (o.eigs.map Complex.re).sum = (o₁.eigs.map Complex.re).sum + (o₂.eigs.map Complex.re).sum ∧
      (∀ i j, i + j < files.flatten.length → kthLargest o.eigs (i + j) ≤ kthLargest o₁.eigs i + kthLargest o₂.eigs j) ∧
      ((∀ (x : Fin (size (dims₁ ++ [1]))) (y : Fin (size (dims₂ ++ [1]))), ∑ t ∈ Finset.range files.flatten.length, podDev mk files₁ t x * podDev mk files₂ t y = 0) →
        (o₁.eigs.map Complex.re ++ o₂.eigs.map Complex.re).Perm (List.replicate files.flatten.length 0 ++ o.eigs.map Complex.re)) := by
  obtain ⟨s, hf⟩ := solver_full_exists files.flatten.length
  obtain ⟨s₁, hf₁⟩ := solver_full_exists files₁.flatten.length
  obtain ⟨s₂, hf₂⟩ := solver_full_exists files₂.flatten.length
  obtain ⟨o, g, q⟩ := pod_spectrum R solver lamV hs hw hrun s hf
  obtain ⟨o₁, g₁, q₁⟩ := pod_spectrum R₁ solver₁ lamV₁ hs₁ hw₁ hrun₁ s₁ hf₁
  obtain ⟨o₂, g₂, q₂⟩ := pod_spectrum R₂ solver₂ lamV₂ hs₂ hw₂ hrun₂ s₂ hf₂
  have len : ∀ {c ws files dims mk n} (R : PodRun c ws files dims mk n) (solver : PodFit.Solver) (lamV) (hs : PodSolver solver lamV) {comms : List Comm}
      {sched : Sched} (hrun : IsRun comms sched) (o), PodFit.podFit c ws solver files comms sched = some o → o.eigs.length = files.flatten.length := by
    intro c ws files dims mk n R solver lamV hs comms sched hrun o ho
    obtain ⟨o', lam, V, k1, k2, -⟩ := pod_files_spec R solver lamV hs hrun
    rw [ho] at k1
    obtain rfl := Option.some.inj k1
    rw [k2, List.length_ofFn]
  have l := len R solver lamV hs hrun o g
  have l₁ := len R₁ solver₁ lamV₁ hs₁ hrun₁ o₁ g₁
  have l₂ := len R₂ solver₂ lamV₂ hs₂ hrun₂ o₂ g₂
  have dev : ∀ (files : List (List (Arr ℝ))) (sh : List Nat) (x : Fin (size sh)) (t : Fin files.flatten.length),
      podFluct mk files.flatten sh x t = podDev mk files t x := fun files sh x t => podFluct_at mk files sh x t
  have d₁ : ∀ x, ∀ t < files.flatten.length, podDev mk files₁ t x.1 = podDev mk files t (e (.inl x)).1 := fun x t ht =>
    podDev_congr mk files files₁ _ _ h.length₁ (fun t ht => h.data₁ t ht x) t ht
  have d₂ : ∀ x, ∀ t < files.flatten.length, podDev mk files₂ t x.1 = podDev mk files t (e (.inr x)).1 := fun x t ht =>
    podDev_congr mk files files₂ _ _ h.length₂ (fun t ht => h.data₂ t ht x) t ht
  have nn := podWeight_nonneg hw (dims := dims)
  have nn₁ := podWeight_nonneg hw₁ (dims := dims₁)
  have nn₂ := podWeight_nonneg hw₂ (dims := dims₂)
  have quad : ∀ (v : Nat → ℂ), ‖rescale (podWeight ws dims) ((Matrix.of fun x t => (podFluct mk files.flatten (dims ++ [1]) x t : ℂ)) *ᵥ fun b => v b)‖ ^ 2 =
      ‖rescale (podWeight ws₁ dims₁) ((Matrix.of fun x t => (podFluct mk files₁.flatten (dims₁ ++ [1]) x t : ℂ)) *ᵥ fun b => v b)‖ ^ 2 +
      ‖rescale (podWeight ws₂ dims₂) ((Matrix.of fun x t => (podFluct mk files₂.flatten (dims₂ ++ [1]) x t : ℂ)) *ᵥ fun b => v b)‖ ^ 2 := by
    intro v
    rw [rescale_norm_sq _ nn, rescale_norm_sq _ nn₁, rescale_norm_sq _ nn₂, ← Equiv.sum_comp e, Fintype.sum_sum_type]
    have lin : ∀ (files' : List (List (Arr ℝ))) (sh : List Nat) (x : Fin (size sh)),
        ((Matrix.of fun x t => (podFluct mk files'.flatten sh x t : ℂ)) *ᵥ fun b => v b) x = ∑ t ∈ Finset.range files'.flatten.length, (podDev mk files' t x : ℂ) * v t := by
      intro files' sh x
      rw [Finset.sum_range]
      simp only [mulVec, dotProduct, Matrix.of_apply, dev]
    simp only [lin, h.weights₁, h.weights₂, h.length₁, h.length₂]
    congr 1 <;> refine Finset.sum_congr rfl fun x _ => ?_
    · have : ∑ t ∈ Finset.range files.flatten.length, (podDev mk files t (e (.inl x)).1 : ℂ) * v t = ∑ t ∈ Finset.range files.flatten.length, (podDev mk files₁ t x.1 : ℂ) * v t :=
        Finset.sum_congr rfl fun t ht => by rw [d₁ x t (Finset.mem_range.1 ht)]
      rw [this]
    · have : ∑ t ∈ Finset.range files.flatten.length, (podDev mk files t (e (.inr x)).1 : ℂ) * v t = ∑ t ∈ Finset.range files.flatten.length, (podDev mk files₂ t x.1 : ℂ) * v t :=
        Finset.sum_congr rfl fun t ht => by rw [d₂ x t (Finset.mem_range.1 ht)]
      rw [this]
  have sub := eigs_subadd h.length₁ h.length₂ _ _ _ _ _ _ nn nn₁ nn₂ quad s s₁ s₂ hf hf₁ hf₂ 1
  have c1 : (files₁.flatten.length : ℝ) = files.flatten.length := by rw [h.length₁]
  have c2 : (files₂.flatten.length : ℝ) = files.flatten.length := by rw [h.length₂]
  refine ⟨o, o₁, o₂, g, g₁, g₂, ?_, fun i j hij => ?_, fun hun => ?_⟩
  · rw [eigs_real_sum o.eigs l _ q, eigs_real_sum o₁.eigs l₁ _ q₁, eigs_real_sum o₂.eigs l₂ _ q₂, ← Finset.mul_sum, ← Finset.mul_sum, ← Finset.mul_sum,
      c1, c2, ← mul_add]
    exact congrArg _ sub.1
  · have a := q ⟨i + j, hij⟩
    have b := q₁ ⟨i, by rw [h.length₁]; omega⟩
    have d := q₂ ⟨j, by rw [h.length₂]; omega⟩
    simp only [] at a b d
    rw [a, b, d, c1, c2, ← mul_add]
    exact mul_le_mul_of_nonneg_left (sub.2 _ _ _ rfl) (Nat.cast_nonneg _)
  · have un := eigs_union h.length₁ h.length₂ (Matrix.of fun x t => (podFluct mk files.flatten (dims ++ [1]) x t : ℂ))
      (Matrix.of fun x t => (podFluct mk files₁.flatten (dims₁ ++ [1]) x t : ℂ)) (Matrix.of fun x t => (podFluct mk files₂.flatten (dims₂ ++ [1]) x t : ℂ))
      (podWeight ws dims) (podWeight ws₁ dims₁) (podWeight ws₂ dims₂) nn nn₁ nn₂ (fun i j hi hj => by
        simp only [crossSpectral, Matrix.smul_apply, Matrix.mul_apply, Matrix.conjTranspose_apply, Matrix.of_apply, smul_eq_mul, dev]
        rw [h.length₁, h.length₂, ← mul_add, ← Equiv.sum_comp e, Fintype.sum_sum_type]
        congr 2 <;> refine Finset.sum_congr rfl fun x _ => ?_
        · rw [d₁ x i hi, d₁ x j hj, h.weights₁]
        · rw [d₂ x i hi, d₂ x j hj, h.weights₂]) (fun x y => by
        simp only [Matrix.of_apply, dev, Complex.conj_ofReal]
        have := congrArg (fun r : ℝ => (r : ℂ)) (hun x y)
        rw [Finset.sum_range] at this
        push_cast at this
        exact this) s s₁ s₂ hf hf₁ hf₂ 1
    rw [← Multiset.coe_eq_coe, ← Multiset.coe_add, ← Multiset.coe_add, eigs_real_multiset o.eigs l _ q, eigs_real_multiset o₁.eigs l₁ _ q₁,
      eigs_real_multiset o₂.eigs l₂ _ q₂]
    have := congrArg (Multiset.map fun z : ℝ => (files.flatten.length : ℝ) * z) un
    simp only [Multiset.map_add, Multiset.map_map, Function.comp_def, Multiset.map_replicate, mul_zero] at this
    rw [c1, c2]
    refine this.trans ?_
    rw [Multiset.coe_replicate]
    rfl

/-- one of the two points of `podFour` -/
def podOf (p : Nat) : List (List (Arr ℝ)) := podFour.map fun l => l.map fun a => ⟨[1], fun _ => a.at' [p]⟩

theorem podOfRun (p : Nat) : PodRun podFourCfg none (podOf p) [1] .longtime 1 where
  files_ne := by simp [podOf, podFour]
  ne := by simp [podOf, podFour]
  snaps := by simp [podOf, podFour]
  nv := rfl
  xdim := by decide
  dims_ne := by simp
  pos := by decide
  weights := by simp
  mean := podMean_longtime _ (by decide +kernel)
  save := rfl
  n_pos := by omega
  n_le := by simp [podOf, podFour]

/-- the two points of `podFour` apart -/
theorem podFour_cut : PodCut podFour (podOf 0) (podOf 1) none none none [2] [1] [1] (finSumFinEquiv : Fin 1 ⊕ Fin 1 ≃ Fin 2) where
  length₁ := by simp [podOf, podFour]
  length₂ := by simp [podOf, podFour]
  weights₁ := fun x => rfl
  weights₂ := fun x => rfl
  data₁ := by
    intro t ht x
    have hx : x = (0 : Fin 1) := (fun i : Fin 1 => (by omega : i = 0)) x
    have h4 : t < 4 := ht
    have he : ((finSumFinEquiv : Fin 1 ⊕ Fin 1 ≃ Fin 2) (.inl 0)).1 = 0 := rfl
    have : t = 0 ∨ t = 1 ∨ t = 2 ∨ t = 3 := by omega
    subst hx
    show podAt (podOf 0) t 0 = podAt podFour t ((finSumFinEquiv : Fin 1 ⊕ Fin 1 ≃ Fin 2) (.inl 0)).1
    rw [he]
    rcases this with rfl | rfl | rfl | rfl <;> simp [podAt, podOf, podFour, flat, unravel, size]
  data₂ := by
    intro t ht x
    have hx : x = (0 : Fin 1) := (fun i : Fin 1 => (by omega : i = 0)) x
    have h4 : t < 4 := ht
    have he : ((finSumFinEquiv : Fin 1 ⊕ Fin 1 ≃ Fin 2) (.inr 0)).1 = 1 := rfl
    have : t = 0 ∨ t = 1 ∨ t = 2 ∨ t = 3 := by omega
    subst hx
    show podAt (podOf 1) t 0 = podAt podFour t ((finSumFinEquiv : Fin 1 ⊕ Fin 1 ≃ Fin 2) (.inr 0)).1
    rw [he]
    rcases this with rfl | rfl | rfl | rfl <;> simp [podAt, podOf, podFour, flat, unravel, size]

/-- `podFour` and its two points, uncorrelated in time: 16 and 4 are the eigenvalues of the points -/
example : ∃ solver lamV, PodSolver solver lamV ∧ ∃ o o₁ o₂, PodFit.podFit podFourCfg none solver podFour [none] none = some o ∧
    PodFit.podFit podFourCfg none solver (podOf 0) [none] none = some o₁ ∧ PodFit.podFit podFourCfg none solver (podOf 1) [none] none = some o₂ ∧
    (o₁.eigs.map Complex.re ++ o₂.eigs.map Complex.re).Perm (List.replicate 4 0 ++ [16, 4, 0, 0]) := by
  obtain ⟨solver, lamV, hs, hl⟩ := solver_with _ _ _ podFour_eig
  obtain ⟨o, o₁, o₂, g, g₁, g₂, -, -, h⟩ := pod_parts podFourRun (podOfRun 0) (podOfRun 1) solver solver solver lamV lamV lamV hs hs hs (by simp) (by simp) (by simp)
    _ podFour_cut (comms := [none]) (comms₁ := [none]) (comms₂ := [none]) (sched := none) (sched₁ := none) (sched₂ := none) (Or.inl ⟨rfl, rfl⟩) (Or.inl ⟨rfl, rfl⟩) (Or.inl ⟨rfl, rfl⟩)
  refine ⟨solver, lamV, hs, o, o₁, o₂, g, g₁, g₂, ?_⟩
  have he : o.eigs = [16, 4, 0, 0] := by
    have hfit := podFourRun.fit solver (comms := [none]) (sched := none) (Or.inl ⟨rfl, rfl⟩)
    rw [g] at hfit
    have : o.eigs = List.ofFn (solver 4 (!![5, -3, 3, -5; -3, 5, -5, 3; 3, -5, 5, -3; -5, 3, -3, 5])).1 := by
      rw [Option.some.inj hfit, ← podFour_corr]; rfl
    rw [this, hs.real, hl]
    norm_num [List.ofFn_succ]
  rw [he] at h
  have := h (by
    intro x y
    have hx : x = (0 : Fin 1) := (fun i : Fin 1 => (by omega : i = 0)) x
    have hy : y = (0 : Fin 1) := (fun i : Fin 1 => (by omega : i = 0)) y
    subst hx hy
    have l0 : (podOf 0).flatten.length = 4 := rfl
    have l1 : (podOf 1).flatten.length = 4 := rfl
    have l : podFour.flatten.length = 4 := rfl
    simp only [podDev, l0, l1, l, Finset.sum_range_succ, Finset.sum_range_zero]
    norm_num [podAt, podOf, podFour, flat, unravel, size])
  exact this.trans (by rw [show podFour.flatten.length = 4 from rfl]; simp)

end Verif.Props
