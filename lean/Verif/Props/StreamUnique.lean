import Verif.Props.StreamOptions
import Mathlib.LinearAlgebra.Matrix.Charpoly.Basic
/-
  C188: the results of a streaming fit do not depend on the decomposition routine.
-/
set_option linter.unusedSectionVars false
set_option linter.unusedVariables false
namespace Verif.Props
open Verif Verif.Par Verif.Rd Verif.Stream Verif.Spod Verif.Fit Verif.SFit Matrix

section
variable {X : Type} [Fintype X] [DecidableEq X] {ι : Type} [Fintype ι] [DecidableEq ι]

theorem density_eig (U : Matrix X ι ℂ) (S : ι → ℝ) (hU : Uᴴ * U = Matrix.diagonal (ind S)) :
    density U S * U = U * Matrix.diagonal fun j => (S j : ℂ) ^ 2 := by
  rw [density, Matrix.mul_assoc, hU, Matrix.mul_assoc, Matrix.diagonal_mul_diagonal]
  congr 2
  funext j
  unfold ind
  by_cases h : S j = 0 <;> simp [h]

theorem density_charpoly (U : Matrix X ι ℂ) (S : ι → ℝ) (hU : Uᴴ * U = Matrix.diagonal (ind S)) :
    Polynomial.X ^ Fintype.card ι * (density U S).charpoly =
      Polynomial.X ^ Fintype.card X * ∏ j, (Polynomial.X - Polynomial.C ((S j : ℂ) ^ 2)) := by
  have h := Matrix.charpoly_mul_comm' U (Matrix.diagonal (fun j => (S j : ℂ) ^ 2) * Uᴴ)
  rw [← Matrix.mul_assoc, Matrix.mul_assoc _ Uᴴ U, hU, Matrix.diagonal_mul_diagonal] at h
  have e : (fun j => (S j : ℂ) ^ 2 * ind S j) = fun j => (S j : ℂ) ^ 2 := by
    funext j
    unfold ind
    by_cases h : S j = 0 <;> simp [h]
  rw [e, Matrix.charpoly_diagonal] at h
  exact h

/-- the numbers `S²` are determined by the density, up to their order -/
theorem density_roots (U U' : Matrix X ι ℂ) (S S' : ι → ℝ) (hU : Uᴴ * U = Matrix.diagonal (ind S)) (hU' : U'ᴴ * U' = Matrix.diagonal (ind S'))
    (h : density U S = density U' S') :
    Multiset.map (fun j => (S j) ^ 2) Finset.univ.val = Multiset.map (fun j => (S' j) ^ 2) Finset.univ.val := by
  have h1 := density_charpoly U S hU
  rw [h, density_charpoly U' S' hU'] at h1
  have h2 := mul_left_cancel₀ (pow_ne_zero _ Polynomial.X_ne_zero) h1
  have h3 := congrArg Polynomial.roots h2
  rw [Polynomial.roots_prod _ _ (Finset.prod_ne_zero_iff.2 fun j _ => Polynomial.X_sub_C_ne_zero _),
    Polynomial.roots_prod _ _ (Finset.prod_ne_zero_iff.2 fun j _ => Polynomial.X_sub_C_ne_zero _)] at h3
  simp only [Polynomial.roots_X_sub_C, Multiset.bind_singleton] at h3
  have h4 := congrArg (Multiset.map Complex.re) h3
  rw [Multiset.map_map, Multiset.map_map] at h4
  have e : ∀ T : ι → ℝ, (Complex.re ∘ fun j => (T j : ℂ) ^ 2) = fun j => (T j) ^ 2 := by
    intro T
    funext j
    simp only [Function.comp_apply]
    rw [← Complex.ofReal_pow, Complex.ofReal_re]
  rw [e, e] at h4
  exact h4.symm

theorem gram_norm (U : Matrix X ι ℂ) (S : ι → ℝ) (hU : Uᴴ * U = Matrix.diagonal (ind S)) (j : ι) (hj : S j ≠ 0) :
    ∑ i, Complex.normSq (U i j) = 1 := by
  have h := congrFun (congrFun hU j) j
  rw [Matrix.mul_apply, Matrix.diagonal_apply_eq] at h
  simp only [ind, if_neg hj, Matrix.conjTranspose_apply] at h
  have : ((∑ i, Complex.normSq (U i j) : ℝ) : ℂ) = 1 := by
    rw [← h]
    push_cast
    refine Finset.sum_congr rfl fun i _ => ?_
    rw [Complex.star_def, mul_comm, Complex.mul_conj]
  exact_mod_cast this

/-- the direction of a simple non-zero value is determined by the density, up to a factor of modulus one -/
theorem density_phase (U U' : Matrix X ι ℂ) (S : ι → ℝ) (hS : ∀ j, 0 ≤ S j) (hU : Uᴴ * U = Matrix.diagonal (ind S))
    (hU' : U'ᴴ * U' = Matrix.diagonal (ind S)) (h : density U S = density U' S) (j : ι) (hj : S j ≠ 0) (hs : ∀ l, l ≠ j → S l ≠ S j) :
    ∃ z : ℂ, ‖z‖ = 1 ∧ ∀ i, U' i j = z * U i j := by
  have hj2 : (S j : ℂ) ^ 2 ≠ 0 := pow_ne_zero _ (by exact_mod_cast hj)
  have e1 : ∀ i, (density U S *ᵥ fun i => U' i j) i = (S j : ℂ) ^ 2 * U' i j := by
    intro i
    have := congrFun (congrFun (density_eig U' S hU') i) j
    rw [← h, Matrix.mul_diagonal, mul_comm] at this
    rw [← this]
    rfl
  set c : ι → ℂ := fun l => (S l : ℂ) ^ 2 / (S j : ℂ) ^ 2 * (Uᴴ *ᵥ fun i => U' i j) l with hc
  have e2 : (fun i => U' i j) = U *ᵥ c := by
    funext i
    have h1 := e1 i
    rw [density, ← Matrix.mulVec_mulVec, ← Matrix.mulVec_mulVec] at h1
    have hc' : c = ((S j : ℂ) ^ 2)⁻¹ • (Matrix.diagonal (fun j => (S j : ℂ) ^ 2) *ᵥ Uᴴ *ᵥ fun i => U' i j) := by
      funext l
      simp only [hc, Pi.smul_apply, smul_eq_mul, Matrix.mulVec_diagonal]
      ring
    rw [hc', Matrix.mulVec_smul, Pi.smul_apply, h1, smul_eq_mul, inv_mul_cancel_left₀ hj2]
  have e3 : ∀ l, (ind S l * c l) * (S l : ℂ) ^ 2 = (S j : ℂ) ^ 2 * (ind S l * c l) := by
    intro l
    have a : Uᴴ *ᵥ (density U S *ᵥ (U *ᵥ c)) = (S j : ℂ) ^ 2 • (Uᴴ *ᵥ (U *ᵥ c)) := by
      rw [← e2, ← Matrix.mulVec_smul]
      congr 1
      funext i
      exact e1 i
    rw [Matrix.mulVec_mulVec, Matrix.mulVec_mulVec, Matrix.mulVec_mulVec, Matrix.mul_assoc, density_eig U S hU, ← Matrix.mul_assoc, hU,
      Matrix.diagonal_mul_diagonal] at a
    have := congrFun a l
    simp only [Matrix.mulVec_diagonal, Pi.smul_apply, smul_eq_mul] at this
    linear_combination this
  have e4 : ∀ l, l ≠ j → c l = 0 := by
    intro l hl
    by_cases h0 : S l = 0
    · simp [hc, h0]
    · have h1 := e3 l
      simp only [ind, if_neg h0, one_mul] at h1
      have h2 : c l * ((S l : ℂ) ^ 2 - (S j : ℂ) ^ 2) = 0 := by linear_combination h1
      rcases mul_eq_zero.1 h2 with h3 | h3
      · exact h3
      · exfalso
        apply hs l hl
        have : (S l) ^ 2 = (S j) ^ 2 := by exact_mod_cast sub_eq_zero.1 h3
        exact (pow_left_inj₀ (hS l) (hS j) two_ne_zero).1 this
  have e5 : ∀ i, U' i j = c j * U i j := by
    intro i
    have := congrFun e2 i
    rw [this]
    simp only [Matrix.mulVec, dotProduct]
    rw [Finset.sum_eq_single j (fun l _ hl => by rw [e4 l hl, mul_zero]) (by simp)]
    ring
  refine ⟨c j, ?_, e5⟩
  have n1 := gram_norm U S hU j hj
  have n2 := gram_norm U' S hU' j hj
  simp only [e5, Complex.normSq_mul] at n2
  rw [← Finset.mul_sum, n1, mul_one] at n2
  rw [← Complex.sq_norm] at n2
  have := norm_nonneg (c j)
  nlinarith
end

section
variable {X : Type} [Fintype X] [DecidableEq X] {k : Nat}

/-- The runs of `StreamRun` in which, at every update, the singular value that is discarded is zero or smaller than all that are kept. -/
inductive ClearRun (k : Nat) : List (X → ℂ) → Matrix X (Fin k) ℂ → (Fin k → ℝ) → Prop
  | nil : ClearRun k [] 0 0
  | snoc {xs U S x Up Sp} : ClearRun k xs U S → absUp U x ≠ 0 → IsSVD (kMat U S x (xs.length + 1)) Up Sp →
      (Sp (.inr ()) = 0 ∨ ∀ j, Sp (.inr ()) < Sp (.inl j)) → ClearRun k (xs ++ [x]) (update U x Up Sp).1 (update U x Up Sp).2

theorem ClearRun.run {xs : List (X → ℂ)} {U : Matrix X (Fin k) ℂ} {S : Fin k → ℝ} (h : ClearRun k xs U S) : StreamRun k xs U S := by
  induction h with
  | nil => exact .nil
  | snoc _ ha hs _ ih => exact .snoc ih ha hs

theorem run_sorted {xs : List (X → ℂ)} {U : Matrix X (Fin k) ℂ} {S : Fin k → ℝ} (h : StreamRun k xs U S) : Antitone S := by
  cases h with
  | nil => exact fun _ _ _ => le_rfl
  | snoc hr ha hsvd => exact fun i j hij => hsvd.sorted i j hij

/-- with no more blocks than directions kept, nothing is discarded -/
theorem clear_of_few {xs : List (X → ℂ)} {U : Matrix X (Fin k) ℂ} {S : Fin k → ℝ} (h : StreamRun k xs U S) (hk : xs.length ≤ k) :
    ClearRun k xs U S := by
  suffices H : (∀ j : Fin k, xs.length ≤ j.val → S j = 0) ∧ ClearRun k xs U S from H.2
  induction h with
  | nil => exact ⟨fun _ _ => rfl, .nil⟩
  | @snoc xs U S x Up Sp hr ha hsvd ih =>
    have hlen : (xs ++ [x]).length = xs.length + 1 := by simp
    rw [hlen] at hk ⊢
    obtain ⟨ih1, ih2⟩ := ih (by omega)
    obtain ⟨hz, hlast⟩ := svd_rank_zero hsvd (xs.length + 1) hk (kMat_rank U S x _ xs.length (by omega) ih1)
    exact ⟨fun j hj => hz j hj, .snoc ih2 ha hsvd (.inl hlast)⟩

theorem svd_antitone {K Up : Matrix (Fin k ⊕ Unit) (Fin k ⊕ Unit) ℂ} {Sp : Fin k ⊕ Unit → ℝ} (h : IsSVD K Up Sp) :
    Antitone fun i : Fin (k + 1) => Fin.lastCases (motive := fun _ => ℝ) (Sp (.inr ())) (fun j => Sp (.inl j)) i := by
  intro i j hij
  refine Fin.lastCases (fun hij => ?_) (fun i hij => ?_) i hij
  · rw [Fin.last_le_iff] at hij
    subst hij
    exact le_rfl
  · refine Fin.lastCases (fun hij => ?_) (fun j hij => ?_) j hij
    · simpa using h.last i
    · simpa using h.sorted i j (by simpa using hij)

theorem svd_values_unique {K K' Up Up' : Matrix (Fin k ⊕ Unit) (Fin k ⊕ Unit) ℂ} {Sp Sp' : Fin k ⊕ Unit → ℝ} (h : IsSVD K Up Sp)
    (h' : IsSVD K' Up' Sp')
    (hm : Multiset.map (fun j => (Sp j) ^ 2) Finset.univ.val = Multiset.map (fun j => (Sp' j) ^ 2) Finset.univ.val) : Sp = Sp' := by
  set e : Fin (k + 1) → Fin k ⊕ Unit := fun i => Fin.lastCases (motive := fun _ => Fin k ⊕ Unit) (.inr ()) .inl i with he
  have hbij : Function.Bijective e := by
    constructor
    · intro i j hij
      refine Fin.lastCases (fun hij => ?_) (fun i hij => ?_) i hij
      · refine Fin.lastCases (fun hij => rfl) (fun j hij => ?_) j hij
        simp [he] at hij
      · refine Fin.lastCases (fun hij => ?_) (fun j hij => ?_) j hij
        · simp [he] at hij
        · simp [he] at hij
          rw [hij]
    · rintro (j | ⟨⟩)
      · exact ⟨j.castSucc, by simp [he]⟩
      · exact ⟨Fin.last k, by simp [he]⟩
  have hmap : ∀ T : Fin k ⊕ Unit → ℝ, Multiset.map (fun j => (T j) ^ 2) Finset.univ.val = Multiset.map (fun i => (T (e i)) ^ 2) Finset.univ.val := by
    intro T
    rw [← Multiset.map_univ_val_equiv (Equiv.ofBijective e hbij), Multiset.map_map]
    rfl
  have hval : ∀ (T : Fin k ⊕ Unit → ℝ) i, T (e i) = Fin.lastCases (motive := fun _ => ℝ) (T (.inr ())) (fun j => T (.inl j)) i := by
    intro T i
    refine Fin.lastCases ?_ (fun i => ?_) i <;> simp [he]
  have hsq : ∀ {K Up : Matrix (Fin k ⊕ Unit) (Fin k ⊕ Unit) ℂ} {T : Fin k ⊕ Unit → ℝ}, IsSVD K Up T → Antitone fun i => (T (e i)) ^ 2 := by
    intro K Up T hT i j hij
    have := svd_antitone hT hij
    simp only [← hval] at this
    exact pow_le_pow_left₀ (hT.nonneg _) this 2
  rw [hmap, hmap] at hm
  have := antitone_unique _ _ (hsq h) (hsq h') hm
  funext j
  obtain ⟨i, rfl⟩ := hbij.2 j
  exact (pow_left_inj₀ (h.nonneg _) (h'.nonneg _) two_ne_zero).1 (congrFun this i)

/-- Two runs over the same blocks represent the same density with the same values, if in one of them the discarded values are clear of those kept. -/
theorem runs_agree {xs : List (X → ℂ)} {U U' : Matrix X (Fin k) ℂ} {S S' : Fin k → ℝ} (h : ClearRun k xs U S) (h' : StreamRun k xs U' S') :
    density U S = density U' S' ∧ S = S' := by
  induction h generalizing U' S' with
  | nil =>
    generalize hxs : ([] : List (X → ℂ)) = ys at h'
    cases h' with
    | nil => exact ⟨rfl, rfl⟩
    | snoc => simp at hxs
  | @snoc xs U S x Up Sp hr ha hsvd hgap ih =>
    generalize hxs : xs ++ [x] = ys at h'
    cases h' with
    | nil => simp at hxs
    | @snoc xs' U' S' x' Up' Sp' hr' ha' hsvd' =>
      obtain ⟨rfl, hx⟩ := List.append_inj' hxs rfl
      obtain rfl : x = x' := by simpa using hx
      obtain ⟨i1, i2⟩ := ih hr'
      have o := update_orthonormal U S x _ Up Sp ha hsvd (stream_orthonormal hr.run)
      have o' := update_orthonormal U' S' x _ Up' Sp' ha' hsvd' (stream_orthonormal hr')
      have d : density (uRot U x Up) Sp = density (uRot U' x Up') Sp' := by
        rw [stream_update U S x _ Up Sp ha hsvd, stream_update U' S' x _ Up' Sp' ha' hsvd', i1]
      obtain rfl : Sp = Sp' := svd_values_unique hsvd hsvd' (density_roots _ _ _ _ o o' d)
      refine ⟨?_, rfl⟩
      have t := stream_truncate U x Up Sp
      have t' := stream_truncate U' x Up' Sp
      have hl : ((Sp (.inr ()) : ℂ) ^ 2) • outerProd (fun i => uRot U x Up i (.inr ())) =
          ((Sp (.inr ()) : ℂ) ^ 2) • outerProd (fun i => uRot U' x Up' i (.inr ())) := by
        rcases eq_or_ne (Sp (.inr ())) 0 with h0 | h0
        · simp [h0]
        · have hgap' := hgap.resolve_left h0
          obtain ⟨z, hz, hzi⟩ := density_phase _ _ Sp hsvd.nonneg o o' d (.inr ()) h0 (by
            rintro (l | ⟨⟩) hl
            · exact (hgap' l).ne'
            · exact absurd rfl hl)
          congr 1
          ext i j
          have hzz : z * star z = 1 := by
            rw [Complex.star_def, Complex.mul_conj, ← Complex.sq_norm, hz]
            norm_num
          simp only [outerProd, Matrix.of_apply, hzi, star_mul']
          linear_combination (-(uRot U x Up i (.inr ()) * star (uRot U x Up j (.inr ())))) * hzz
      rw [d, t', hl] at t
      exact (add_right_cancel t).symm
end

/-- In the updates of a streaming fit at frequency `f` with the routine `svd`, the singular value that is discarded is always zero or smaller than all those
    that are kept. -/
def ClearCut (c : Cfg) (ω : ℂ) (frames : List (Arr ℝ)) (w : Arr ℝ) (f : Nat) (svd : Svd (kept c frames.length)) : Prop :=
  ∀ m, streamStart (Stream.nPar c.nDft (sep c)) (sep c) m + c.nDft ≤ frames.length →
    let B := basisAfter svd 1 (fun _ => w.shape) (fun m _ idx => newCol c ω f m (w.at' idx) (atIdx idx frames)) m
    let S := (svd (kMat (basisMat w.shape (B.U 0)) B.S (specVec c ω frames w f m) (m + 1))).2
    S (.inr ()) = 0 ∨ ∀ j, S (.inr ()) < S (.inl j)

theorem basis_clear {k : Nat} (sh : List Nat) (svd : Svd k) (hsvd : ∀ K, Stream.IsSVD K (svd K).1 (svd K).2) (x : Nat → List Nat → ℂ) (M : Nat)
    (hx : ∀ m < M, (fun i : Fin (size sh) => x m (unravel sh i)) ∉
      Submodule.span ℂ {v | ∃ m' < m, v = fun i : Fin (size sh) => x m' (unravel sh i)})
    (hc : ∀ m < M, (svd (kMat (basisMat sh ((basisAfter svd 1 (fun _ => sh) (fun m _ => x m) m).U 0))
        (basisAfter svd 1 (fun _ => sh) (fun m _ => x m) m).S (fun i => x m (unravel sh i)) (m + 1))).2 (.inr ()) = 0 ∨
      ∀ j, (svd (kMat (basisMat sh ((basisAfter svd 1 (fun _ => sh) (fun m _ => x m) m).U 0))
        (basisAfter svd 1 (fun _ => sh) (fun m _ => x m) m).S (fun i => x m (unravel sh i)) (m + 1))).2 (.inr ()) <
        (svd (kMat (basisMat sh ((basisAfter svd 1 (fun _ => sh) (fun m _ => x m) m).U 0))
        (basisAfter svd 1 (fun _ => sh) (fun m _ => x m) m).S (fun i => x m (unravel sh i)) (m + 1))).2 (.inl j)) :
    ClearRun k ((List.range M).map fun (m : Nat) => fun i : Fin (size sh) => x m (unravel sh i))
      (basisMat sh ((basisAfter svd 1 (fun _ => sh) (fun m _ => x m) M).U 0))
      (basisAfter svd 1 (fun _ => sh) (fun m _ => x m) M).S := by
  induction M with
  | zero => exact ClearRun.nil
  | succ M ih =>
    have ih := ih (fun m hm => hx m (by omega)) (fun m hm => hc m (by omega))
    obtain ⟨h1, h2⟩ := update_one sh svd (M + 1) (basisAfter svd 1 (fun _ => sh) (fun m _ => x m) M) (x M)
    have e : basisAfter svd 1 (fun _ => sh) (fun m _ => x m) (M + 1) =
        updateAll svd 1 (fun _ => sh) (M + 1) (basisAfter svd 1 (fun _ => sh) (fun m _ => x m) M) (fun _ => x M) := by
      simp [basisAfter, List.range_succ]
    rw [e, h1, h2, List.range_succ, List.map_append, List.map_cons, List.map_nil]
    apply ClearRun.snoc ih
    · apply absUp_ne_zero ih.run
      have := hx M (by omega)
      convert this using 3
      ext v
      simp [eq_comm]
    · have := hsvd (Stream.kMat (basisMat sh ((basisAfter svd 1 (fun _ => sh) (fun m _ => x m) M).U 0))
        (basisAfter svd 1 (fun _ => sh) (fun m _ => x m) M).S (fun i => x M (unravel sh i)) (M + 1))
      simpa using this
    · exact hc M (by omega)

/-- the number a streaming fit stores for mode `j` of frequency `f` at the grid index `idx` -/
noncomputable def streamMode {k : Nat} (out : SOut k) (f : Nat) (idx : List Nat) (j : Nat) : ℂ := (fileEntry (out.modes f) (idx ++ [j])).getD 0

/-- Two streaming results say the same at frequency `f`: the same eigenvalues, the same modes up to a factor of modulus one for every non-zero eigenvalue that is
    not repeated, and the same sums of `λ² φ φᴴ` (which covers repeated eigenvalues). -/
def SameUpToPhase {k : Nat} (sh : List Nat) (out out' : SOut k) (f : Nat) : Prop :=
  out'.eigs f = out.eigs f ∧
  (∀ j, out.eigs f j ≠ 0 → (∀ l, l ≠ j → out.eigs f l ≠ out.eigs f j) →
    ∃ z : ℂ, ‖z‖ = 1 ∧ ∀ idx, InRange sh idx → streamMode out' f idx j = z * streamMode out f idx j) ∧
  ∀ idx idx', InRange sh idx → InRange sh idx' →
    ∑ j : Fin k, ((out'.eigs f j : ℂ)) ^ 2 * (streamMode out' f idx j * star (streamMode out' f idx' j)) =
      ∑ j : Fin k, ((out.eigs f j : ℂ)) ^ 2 * (streamMode out f idx j * star (streamMode out f idx' j))

theorem streamMode_at (c : Cfg) (ω : ℂ) (frames : List (Arr ℝ)) (w : Arr ℝ) (svd : Svd (kept c frames.length)) (f : Nat) (idx : List Nat)
    (hidx : InRange w.shape idx) (j : Fin (kept c frames.length)) :
    streamMode (globalStream c ω frames w svd) f idx j =
      basisMat w.shape ((lastBasis c ω frames.length f frames w svd).U 0) ⟨ravel w.shape idx, ravel_lt hidx⟩ j *
        (1 / ((Real.sqrt (w.at' idx) : ℝ) : ℂ)) := by
  unfold streamMode
  have e : (globalStream c ω frames w svd).modes f = npSave (modesOf w ((lastBasis c ω frames.length f frames w svd).U 0)) := rfl
  rw [e, fileEntry_npSave _ _ (inRange_snoc hidx j.2)]
  simp [modesOf, basisMat, unravel_ravel hidx]

section
variable (c : Cfg) (ω : ℂ) (frames : List (Arr ℝ)) (w : Arr ℝ)

theorem same_of_runs (svd svd' : Svd (kept c frames.length)) (f : Nat) (xs : List (Fin (size w.shape) → ℂ))
    (h : ClearRun _ xs (basisMat w.shape ((lastBasis c ω frames.length f frames w svd).U 0)) (lastBasis c ω frames.length f frames w svd).S)
    (h' : StreamRun _ xs (basisMat w.shape ((lastBasis c ω frames.length f frames w svd').U 0)) (lastBasis c ω frames.length f frames w svd').S) :
    SameUpToPhase w.shape (globalStream c ω frames w svd) (globalStream c ω frames w svd') f := by
  obtain ⟨hd, hS⟩ := runs_agree h h'
  have e : (globalStream c ω frames w svd).eigs f = (lastBasis c ω frames.length f frames w svd).S := rfl
  have e' : (globalStream c ω frames w svd').eigs f = (lastBasis c ω frames.length f frames w svd').S := rfl
  refine ⟨by rw [e, e', hS], ?_, ?_⟩
  · intro j hj hs
    rw [e] at hj hs
    have o := stream_orthonormal h.run
    have o' := stream_orthonormal h'
    rw [← hS] at hd o'
    obtain ⟨z, hz, hzi⟩ := density_phase _ _ _ (run_nonneg h.run) o o' hd j hj hs
    refine ⟨z, hz, fun idx hidx => ?_⟩
    rw [streamMode_at c ω frames w svd f idx hidx j, streamMode_at c ω frames w svd' f idx hidx j, hzi, mul_assoc]
  · intro idx idx' hi hi'
    rw [e, e']
    have key : ∀ s : Svd (kept c frames.length), ∑ j, (((lastBasis c ω frames.length f frames w s).S j : ℂ)) ^ 2 *
        (streamMode (globalStream c ω frames w s) f idx j * star (streamMode (globalStream c ω frames w s) f idx' j)) =
        density (basisMat w.shape ((lastBasis c ω frames.length f frames w s).U 0)) (lastBasis c ω frames.length f frames w s).S
          ⟨ravel w.shape idx, ravel_lt hi⟩ ⟨ravel w.shape idx', ravel_lt hi'⟩ *
          ((1 / ((Real.sqrt (w.at' idx) : ℝ) : ℂ)) * star (1 / ((Real.sqrt (w.at' idx') : ℝ) : ℂ))) := by
      intro s
      rw [density, Matrix.mul_apply, Finset.sum_mul]
      refine Finset.sum_congr rfl fun j _ => ?_
      rw [streamMode_at c ω frames w s f idx hi j, streamMode_at c ω frames w s f idx' hi' j, Matrix.mul_diagonal, Matrix.conjTranspose_apply, star_mul']
      ring
    rw [key, key, hd]

/-- the blocks in the form the updates use them -/
theorem independent_cols (h : StreamAccepted c frames w) (f : Nat) (hind : Independent c ω frames w f) :
    ∀ m < nUpdates c ω frames.length, (fun i : Fin (size w.shape) => newCol c ω f m (w.at' (unravel w.shape i))
      (atIdx (unravel w.shape i) frames)) ∉ Submodule.span ℂ {v | ∃ m' < m, v = fun i : Fin (size w.shape) =>
        newCol c ω f m' (w.at' (unravel w.shape i)) (atIdx (unravel w.shape i) frames)} := by
  intro m hm
  rw [col_spec h f m hm]
  have := hind m ((nUpdates_spec c ω h.dft h.sep frames.length m).1 hm)
  convert this using 3
  ext v
  constructor
  · rintro ⟨m', h', rfl⟩; exact ⟨m', h', col_spec h f m' (by omega)⟩
  · rintro ⟨m', h', rfl⟩; exact ⟨m', h', (col_spec h f m' (by omega)).symm⟩

theorem clear_run (h : StreamAccepted c frames w) (svd : Svd (kept c frames.length)) (hsvd : ∀ K, Stream.IsSVD K (svd K).1 (svd K).2) (f : Nat)
    (hind : Independent c ω frames w f)
    (hcase : (∀ m, streamStart (Stream.nPar c.nDft (sep c)) (sep c) m + c.nDft ≤ frames.length → m < kept c frames.length) ∨ ClearCut c ω frames w f svd) :
    ClearRun _ ((List.range (nUpdates c ω frames.length)).map fun (m : Nat) => fun i : Fin (size w.shape) =>
      newCol c ω f m (w.at' (unravel w.shape i)) (atIdx (unravel w.shape i) frames))
      (basisMat w.shape ((lastBasis c ω frames.length f frames w svd).U 0)) (lastBasis c ω frames.length f frames w svd).S := by
  have hsp := fun m => nUpdates_spec c ω h.dft h.sep frames.length m
  have key := independent_cols c ω frames w h f hind
  rcases hcase with hM | hcl
  · refine clear_of_few (basis_run w.shape svd hsvd (fun m idx => newCol c ω f m (w.at' idx) (atIdx idx frames)) (nUpdates c ω frames.length) key) ?_
    rw [List.length_map, List.length_range]
    by_contra hcon
    push Not at hcon
    have := hM (kept c frames.length) ((hsp _).1 hcon)
    omega
  · refine basis_clear w.shape svd hsvd (fun m idx => newCol c ω f m (w.at' idx) (atIdx idx frames)) (nUpdates c ω frames.length) key fun m hm => ?_
    have := hcl m ((hsp m).1 hm)
    rw [← col_spec h f m hm] at this
    exact this


/-- **C188.** A streaming fit gives the same result with every routine that decomposes matrices into singular values: at every frequency whose blocks are
    independent, if no more blocks are read than modes are kept, or else if in every update the discarded singular value is smaller than the kept ones (for one
    of the two routines).  Serially and on every number of ranks, in every order of the element writes. -/
theorem stream_svd_free (h : StreamAccepted c frames w) (svd svd' : Svd (kept c frames.length))
    (hsvd : ∀ K, Stream.IsSVD K (svd K).1 (svd K).2) (hsvd' : ∀ K, Stream.IsSVD K (svd' K).1 (svd' K).2)  :
    ∃ out out', streamSerial c ω frames w svd = some out ∧ streamSerial c ω frames w svd' = some out' ∧
      (∀ p, 0 < p → NoSingleton w p → ∀ s : (β : Type) → List (Write β) → List (Write β), (∀ β l, (s β l).Perm l) →
        streamParallel c ω frames w svd p s = some out ∧ streamParallel c ω frames w svd' p s = some out') ∧
      ∀ f, Independent c ω frames w f →
        ((∀ m, streamStart (Stream.nPar c.nDft (sep c)) (sep c) m + c.nDft ≤ frames.length → m < kept c frames.length) ∨ ClearCut c ω frames w f svd) →
        SameUpToPhase w.shape out out' f := by
  refine ⟨_, _, (h.runs ω svd).1, (h.runs ω svd').1, fun p hp ho s hs => ⟨(h.runs ω svd).2 p hp ho s hs, (h.runs ω svd').2 p hp ho s hs⟩, ?_⟩
  intro f hind hcase
  have h' := basis_run w.shape svd' hsvd' (fun m idx => newCol c ω f m (w.at' idx) (atIdx idx frames)) (nUpdates c ω frames.length)
    (independent_cols c ω frames w h f hind)
  exact same_of_runs c ω frames w svd svd' f _ (clear_run c ω frames w h svd hsvd f hind hcase) h'

end

theorem sex_few (m : Nat) (hm : streamStart (Stream.nPar sexCfg.nDft (sep sexCfg)) (sep sexCfg) m + sexCfg.nDft ≤ sexFrames.length) :
    m < kept sexCfg sexFrames.length := by
  have hlen : sexFrames.length = 6 := by simp [sexFrames]
  have hk : kept sexCfg sexFrames.length = 2 := by rw [hlen]; decide
  rw [hk]
  rw [hlen] at hm
  by_contra hcon
  have h2 : streamStart (Stream.nPar sexCfg.nDft (sep sexCfg)) (sep sexCfg) 2 + sexCfg.nDft = 9 := by decide
  have := streamStart_mono (P := Stream.nPar sexCfg.nDft (sep sexCfg)) (dn := sep sexCfg) (not_lt.1 hcon)
  omega

/-- two routines that differ (the second turns the sign of all left vectors), and the two fits of the example -/
example : ∃ svd : Svd (kept sexCfg sexFrames.length), ∃ out out', streamSerial sexCfg (-Complex.I) sexFrames sexWeights svd = some out ∧
    streamSerial sexCfg (-Complex.I) sexFrames sexWeights (fun K => (-(svd K).1, (svd K).2)) = some out' ∧ SameUpToPhase sexWeights.shape out out' 1 := by
  choose g1 g2 hg using fun K : Matrix (Fin (kept sexCfg sexFrames.length) ⊕ Unit) (Fin (kept sexCfg sexFrames.length) ⊕ Unit) ℂ =>
    svd_exists K
  obtain ⟨out, out', h1, h2, -, h3⟩ := stream_svd_free sexCfg (-Complex.I) sexFrames sexWeights sex_accepted (fun K => (g1 K, g2 K))
    (fun K => (-g1 K, g2 K)) hg (fun K => by
      obtain ⟨a, ⟨V, b, b'⟩, c, d, e⟩ := hg K
      refine ⟨?_, ⟨-V, ?_, ?_⟩, c, d, e⟩
      · simpa using a
      · simpa using b
      · simpa using b')
  exact ⟨_, out, out', h1, h2, h3 1 (sex_independent 1 (by omega)) (Or.inl sex_few)⟩

end Verif.Props
