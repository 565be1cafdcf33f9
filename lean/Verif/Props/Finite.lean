import Verif.Model.Finite
import Verif.Props.Patterns
import Verif.Props.PodInvariance
import Mathlib.LinearAlgebra.Matrix.Rank
import Mathlib.LinearAlgebra.Matrix.DotProduct
import Mathlib.LinearAlgebra.Matrix.Diagonal
/-
  C178: which of the stored modes consist of finite numbers.
-/
namespace Verif.Props
open Verif Verif.Par Verif.Rd Verif.Spod Verif.Fit Matrix ComplexConjugate ComplexOrder
open Verif.Pod (corrMat fitData EigBasis)

/-! ### One frequency -/

theorem mapM_id_none {α} (n : Nat) (hn : 0 < n) : ((List.finRange n).map fun _ => (none : Option α)).mapM id = none := by
  obtain ⟨k, rfl⟩ : ∃ k, n = k + 1 := ⟨n - 1, by omega⟩
  simp [List.finRange_succ, List.mapM_cons]

theorem phiFloat_eq {X : Type} {nb : Nat} [Fintype X] [DecidableEq X] (hnb : 0 < nb) (Q : Matrix X (Fin nb) ℂ) (L : Fin nb → ℝ) (V : Matrix (Fin nb) (Fin nb) ℂ)
    (x : X) (k : Fin nb) : phiFloat Q L V x k = if L k ≤ 0 then none else some (phiAll Q L V x k) := by
  unfold phiFloat sumFinite linv
  by_cases h : L k ≤ 0
  · simp only [if_pos h, Option.map_none]
    rw [mapM_id_none nb hnb]
    rfl
  · simp only [if_neg h, Option.map_some]
    have : ((List.finRange nb).map fun b => some (Q x b * (V b k * (((1 / (Real.sqrt nb * Real.sqrt (L k)) : ℝ)) : ℂ)))).mapM id =
        some ((List.finRange nb).map fun b => Q x b * (V b k * (((1 / (Real.sqrt nb * Real.sqrt (L k)) : ℝ)) : ℂ))) := by
      rw [List.mapM_map]
      exact mapM_some _ _ _ fun b _ => rfl
    rw [this, Option.map_some]
    simp only [phiAll, Matrix.mul_apply, Matrix.of_apply, Fin.sum_univ_def]

/-- the array with the columns whose eigenvalue is not positive replaced -/
noncomputable def markCols {nb : Nat} (L : Fin nb → ℝ) (a : Arr ℂ) : Arr (Option ℂ) where
  shape := a.shape
  at' := fun idx => if h : idx.getLastD 0 < nb then (if L ⟨_, h⟩ ≤ 0 then none else some (a.at' idx)) else none

theorem phiFloatArr_eqv {nb : Nat} (hnb : 0 < nb) (sh : List Nat) (nS : Nat) (Q : Matrix (Fin (size sh)) (Fin nb) ℂ) (L : Fin nb → ℝ)
    (V : Matrix (Fin nb) (Fin nb) ℂ) : (phiFloatArr sh nS (phiFloat Q L V)).Eqv (markCols L (phiArr sh nS (phiAll Q L V))) := by
  refine ⟨rfl, fun idx hidx => ?_⟩
  obtain ⟨x, k, rfl, hx, hk⟩ := inRange_append hidx
  have hk' : k < nb := by omega
  simp only [phiFloatArr, markCols, phiArr, List.dropLast_concat, List.getLastD_concat]
  rw [dif_pos ⟨ravel_lt hx, hk'⟩, dif_pos hk', dif_pos ⟨ravel_lt hx, hk'⟩, phiFloat_eq hnb]

theorem markCols_slab {nb : Nat} (L : Fin nb → ℝ) (sh : List Nat) (n : Nat) (a b : Arr ℂ) (hb : b.shape = sh ++ [n]) (ax p r : Nat) (hax : ax < sh.length)
    (h : a.Eqv (distributeDimension b ax (some (p, r)))) :
    (markCols L a).Eqv (distributeDimension (markCols L b) ax (some (p, r))) := by
  refine ⟨h.1, fun idx hidx => ?_⟩
  have hidx' : InRange a.shape idx := hidx
  have hin := hidx'
  rw [h.1] at hin
  simp only [distributeDimension, Arr.slice, hb] at hin
  rw [List.set_append_left _ _ hax] at hin
  obtain ⟨x, k, rfl, hx, hk⟩ := inRange_append hin
  have hxl : ax < x.length := by
    have := hx.length
    simp only [List.length_set] at this
    omega
  have e := h.2 (x ++ [k]) hidx'
  simp only [markCols, distributeDimension, Arr.slice] at e ⊢
  rw [e]
  rw [List.set_append_left _ _ hxl]
  simp only [List.getLastD_concat]

/-! ### The whole fit -/

/-- the file of the whole data -/
noncomputable def globalFloat (c : Cfg) (ω : ℂ) {nt : Nat} (frames : List (Arr ℝ)) (w : Arr ℝ) (solver : Solver (fitNb c nt)) (f : Nat) :
    NpyFile (Option ℂ) :=
  let Q := rowsOf w.shape (globalHat c ω frames w.shape f)
  let s := solver (crossSpectral Q (specW w))
  npSave (markCols (reorderL (realIfClose s.1) s.2.2) (phiArr w.shape c.nSave (phiAll Q (reorderL (realIfClose s.1) s.2.2) (reorderV s.2.1 s.2.2))))

theorem float_par (c : Cfg) (m : MeanType) (hm : parseMean c.meanType = .ok m) (ω : ℂ)
    (frames : List (Arr ℝ)) (w : Arr ℝ) (loc : Nat → List (Arr ℝ))
    (hfeas : feasible c.nDft (nBlocks frames.length c.nDft c.nOvlp) = .ok ())
    (solver : Solver (fitNb c frames.length)) (ax : Nat) (hax : ax < w.shape.length) (p : Nat) (hp : 0 < p)
    (hloc : ∀ r < p, HasSlab (loc r) frames w ax p r)
    (hone : ∀ r < p, size (distributeDimension w ax (some (p, r))).shape ≠ 1)
    (s : (β : Type) → List (Write β) → List (Write β)) (hs : ∀ β l, (s β l).Perm l) :
    fitFloat c ω frames.length solver (some s) ax ((List.range p).map fun r =>
      (.arr (loc r), distributeDimension w ax (some (p, r)))) = some (globalFloat c ω frames w solver) := by
  have hnb := (feasible_nb c _ hfeas).1
  have hslab : ∀ r < p, ∀ f b idx, InRange (distributeDimension w ax (some (p, r))).shape idx →
      (globalHat c ω (loc r) (distributeDimension w ax (some (p, r))).shape f b).at' idx =
      (distributeDimension (globalHat c ω frames w.shape f b) ax (some (p, r))).at' idx := by
    intro r hr f b idx hidx
    simp only [globalHat, (hloc r hr).2 idx hidx]
    rfl
  let st : Nat → (Nat → Nat → Arr ℂ) × (Nat → Nat → Nat → ℂ) × Arr ℝ := fun r =>
    (fun f b => globalHat c ω (loc r) (distributeDimension w ax (some (p, r))).shape f b,
     fun f => localGram (globalHat c ω (loc r) (distributeDimension w ax (some (p, r))).shape f)
        (cW (distributeDimension w ax (some (p, r)))) (fitNb c frames.length : ℂ),
     ⟨(distributeDimension w ax (some (p, r))).shape,
       fun idx => longTMeanArr ℝ (fitNb c frames.length) (atIdx idx (loc r))⟩)
  have hst : ((List.range p).map fun r =>
      ((Src.arr (loc r), distributeDimension w ax (some (p, r))) : Src × Arr ℝ)).mapM
        (rankState c ω frames.length) = some ((List.range p).map st) := by
    rw [List.mapM_map]
    apply mapM_some
    intro r hr
    have hr := List.mem_range.1 hr
    have h := rankState_arr c ω (loc r) (distributeDimension w ax (some (p, r))) (hone r hr)
      (by rw [(hloc r hr).1]; exact hnb)
    rw [(hloc r hr).1] at h
    rw [Function.comp_apply, h]
  have hM : ∀ f, (Matrix.of fun (i j : Fin (fitNb c frames.length)) =>
      allreduce (((List.range p).map st).map fun x => x.2.1 f i j)) =
      crossSpectral (rowsOf w.shape (globalHat c ω frames w.shape f)) (specW w) := by
    intro f
    rw [← gramSpec_eq_crossSpectral]
    ext i j
    simp only [Matrix.of_apply]
    rw [← gram_rank_independent p ax (globalHat c ω frames w.shape f) (cW w) _ hp hax (fun _ => rfl)]
    simp only [gram, List.map_map]
    refine congrArg allreduce ?_
    apply List.map_congr_left
    intro r hr
    exact localGram_congr _ _ _ _ i j (fun idx hidx => hslab r (List.mem_range.1 hr) f i idx hidx)
      (fun idx hidx => hslab r (List.mem_range.1 hr) f j idx hidx)
  simp only [fitFloat, hfeas, hm, hst, hM]
  congr 1
  funext f
  rw [List.map_map]
  refine saveAll_slabs _ ax p hp (by simp only [markCols, phiArr, List.length_append]; omega) s hs _ fun r hr => ?_
  have h1 := phiFloatArr_eqv (by omega : 0 < fitNb c frames.length) (st r).2.2.shape c.nSave (rowsOf (st r).2.2.shape ((st r).1 f))
    (reorderL (realIfClose (solver (crossSpectral (rowsOf w.shape (globalHat c ω frames w.shape f)) (specW w))).1)
      (solver (crossSpectral (rowsOf w.shape (globalHat c ω frames w.shape f)) (specW w))).2.2)
    (reorderV (solver (crossSpectral (rowsOf w.shape (globalHat c ω frames w.shape f)) (specW w))).2.1
      (solver (crossSpectral (rowsOf w.shape (globalHat c ω frames w.shape f)) (specW w))).2.2)
  have h2 := phi_slab c ω frames w ax hax p r (loc r) (hloc r hr) f (oneSidedFactor c.isreal (nFreq c.nDft c.isreal c.full) f)
    (solver (crossSpectral (rowsOf w.shape (globalHat c ω frames w.shape f)) (specW w))).1
    (solver (crossSpectral (rowsOf w.shape (globalHat c ω frames w.shape f)) (specW w))).2.1
    (solver (crossSpectral (rowsOf w.shape (globalHat c ω frames w.shape f)) (specW w))).2.2
  exact Arr.Eqv.trans h1 (markCols_slab _ w.shape _ _ _ rfl ax p r hax h2)

theorem float_ser (c : Cfg) (m : MeanType) (hm : parseMean c.meanType = .ok m) (ω : ℂ)
    (frames : List (Arr ℝ)) (w : Arr ℝ)
    (hfeas : feasible c.nDft (nBlocks frames.length c.nDft c.nOvlp) = .ok ())
    (solver : Solver (fitNb c frames.length)) (ax : Nat) (hone : size w.shape ≠ 1) :
    fitFloat c ω frames.length solver none ax [(.arr frames, w)] = some (globalFloat c ω frames w solver) := by
  have hnb := (feasible_nb c _ hfeas).1
  have h := rankState_arr c ω frames w hone hnb
  have hM : ∀ f, (Matrix.of fun (i j : Fin (fitNb c frames.length)) =>
      localGram (globalHat c ω frames w.shape f) (cW w) (fitNb c frames.length : ℂ) i j + 0) =
      crossSpectral (rowsOf w.shape (globalHat c ω frames w.shape f)) (specW w) := by
    intro f
    rw [← gramSpec_eq_crossSpectral]
    ext i j
    simp only [Matrix.of_apply, add_zero, localGram, gramSpec]
    rw [sum_unravel (cW w).shape fun idx => star ((globalHat c ω frames w.shape f i).at' idx) *
      ((globalHat c ω frames w.shape f j).at' idx * (cW w).at' idx)]
  simp only [fitFloat, hfeas, hm, List.mapM_cons, List.mapM_nil, h, Option.pure_def, Option.bind_eq_bind, Option.bind_some,
    List.map_cons, List.map_nil, allreduce, List.foldr_cons, List.foldr_nil, hM, saveAll]
  congr 1
  funext f
  exact npSave_congr (phiFloatArr_eqv (by omega) _ _ _ _ _)

/-- one run of the fit: on one process, or on any number of ranks with any order of the element writes -/
def FloatRun (c : Cfg) (ω : ℂ) (files : List (List (Arr ℝ))) (w : Arr ℝ) (solver : Solver (fitNb c files.flatten.length))
    (r : Option (Nat → NpyFile (Option ℂ))) : Prop :=
  r = floatSerial c ω files w solver ∨
  ∃ (p : Nat) (s : (β : Type) → List (Write β) → List (Write β)), 0 < p ∧ NoSingleton w p ∧ (∀ β l, (s β l).Perm l) ∧
    r = floatParallel c ω files w solver p s

theorem slab_sizes (w : Arr ℝ) (p : Nat) (hp : 0 < p) (ax : Nat) (hone : ∀ r < p, size (w.shape.set ax (countOf (ext w.shape ax) p r)) ≠ 1) :
    ∀ r < p, size (distributeDimension w ax (some (p, r))).shape ≠ 1 := by
  intro r hr
  have h := slab_shape w ax p r hp hr
  rw [h]
  exact hone r hr

theorem float_runs (c : Cfg) (ω : ℂ) (files : List (List (Arr ℝ))) (w : Arr ℝ) (m : MeanType) (A : Accepted c files w m)
    (solver : Solver (fitNb c files.flatten.length)) :
    ∀ r, FloatRun c ω files w solver r → r = some (globalFloat c ω files.flatten w solver) := by
  have hne : files.flatten ≠ [] := by
    intro h
    have h1 := ((feasible_iff files.flatten.length c.nDft c.nOvlp A.overlap).1 A.blocks).2
    rw [h] at h1
    have h2 := (feasible_nb c _ A.blocks).2
    have h3 := A.overlap
    simp at h1
    omega
  obtain ⟨ax, hax, hmax⟩ := maxAxis_ok files w A.shapes hne A.axes
  rintro r (rfl | ⟨p, s, hp, hone, hs, rfl⟩)
  · simp only [floatSerial, hax, oneStage_ok files w ax none hne]
    simpa [distributeDimension] using float_ser c m A.mean ω files.flatten w A.blocks solver ax A.many
  · simp only [floatParallel, hax]
    rw [mapM_some _ _ _ fun r _ => oneStage_ok files w ax (some (p, r)) hne]
    simp only
    exact float_par c m A.mean ω files.flatten w _ A.blocks solver ax hmax.1 p hp
      (fun r _ => ⟨List.length_map _, fun idx _ => atIdx_slab files.flatten w A.shapes ax p r idx⟩)
      (slab_sizes w p hp ax fun r hr => hone ax hmax r hr) s hs

/-- **C178 (exactly when).** Every accepted fit, on any number of ranks, with any correct eigen-solver: the numbers of mode `k` at a frequency are all
    finite when the reported eigenvalue is not zero, and then they are those of `fit_formula`; when it is zero none of them is finite. -/
theorem finite_modes_exact (c : Cfg) (ω : ℂ) (files : List (List (Arr ℝ))) (w : Arr ℝ) (m : MeanType) (A : Accepted c files w m)
    (solver : Solver (fitNb c files.flatten.length)) (hs : SolverOk solver) :
    ∃ out, (∀ r, FitRun c ω files w solver r → r = some out) ∧ ∃ modes, (∀ r, FloatRun c ω files w solver r → r = some modes) ∧
      ∀ f < nFreq c.nDft c.isreal c.full, ∀ k : Fin (fitNb c files.flatten.length), k.1 < c.nSave → ∀ x, InRange w.shape x →
        fileEntry (modes f) (x ++ [k.1]) = some (if out.eigs f k = 0 then none else fileEntry (out.modes f) (x ++ [k.1])) := by
  obtain ⟨out, h1, h2⟩ := fit_runs c ω files w m A solver
  refine ⟨out, h1, globalFloat c ω files.flatten w solver, float_runs c ω files w m A solver, fun f hf k hk x hx => ?_⟩
  obtain ⟨e1, e2⟩ := h2 f hf
  have e := rows_globalHat c m A.mean ω files.flatten w.shape A.window (feasible_nb c _ A.blocks).2 A.overlap f hf
  have hr : unravel w.shape (ravel w.shape x) = x := unravel_ravel hx
  have q := e2 k hk ⟨ravel w.shape x, ravel_lt hx⟩
  simp only [hr] at q
  have hW : ∀ x, 0 ≤ specW w x := fun x => A.weights _ (inRange_unravel x.2)
  have hH := (crossSpectral_posSemidef (specQ c m ω files.flatten w.shape (fitNb c files.flatten.length) f) (specW w) hW).1
  have hnn := eigenvalues_real_nonneg _ (specW w) hW _ _ (hs _ hH).1
  rw [e1, q]
  simp only [globalFloat, e]
  rw [fileEntry_npSave _ _ (by
    simp only [markCols, phiArr]
    exact inRange_snoc hx (by have := k.2; omega))]
  simp only [markCols, List.getLastD_concat]
  rw [dif_pos k.2, phiArr_at _ _ _ x k.1 hx k.2]
  congr 1
  have hfac : (oneSidedFactor c.isreal (nFreq c.nDft c.isreal c.full) f : ℝ) ≠ 0 := by
    unfold oneSidedFactor
    split <;> norm_num
  have hiff : reorderL (realIfClose (solver (crossSpectral (specQ c m ω files.flatten w.shape (fitNb c files.flatten.length) f) (specW w))).1)
      (solver (crossSpectral (specQ c m ω files.flatten w.shape (fitNb c files.flatten.length) f) (specW w))).2.2 k ≤ 0 ↔
      (spodFreq (specQ c m ω files.flatten w.shape (fitNb c files.flatten.length) f)
        (solver (crossSpectral (specQ c m ω files.flatten w.shape (fitNb c files.flatten.length) f) (specW w))).1
        (solver (crossSpectral (specQ c m ω files.flatten w.shape (fitNb c files.flatten.length) f) (specW w))).2.1
        (solver (crossSpectral (specQ c m ω files.flatten w.shape (fitNb c files.flatten.length) f) (specW w))).2.2
        (oneSidedFactor c.isreal (nFreq c.nDft c.isreal c.full) f)).1 k = 0 := by
    simp only [spodFreq, eigsOut, abs_eq_zero, mul_eq_zero, hfac, false_or]
    constructor
    · intro h
      exact le_antisymm h (hnn _).2.1
    · intro h
      exact h.le
  by_cases h0 : reorderL (realIfClose (solver (crossSpectral (specQ c m ω files.flatten w.shape (fitNb c files.flatten.length) f) (specW w))).1)
      (solver (crossSpectral (specQ c m ω files.flatten w.shape (fitNb c files.flatten.length) f) (specW w))).2.2 k ≤ 0
  · rw [if_pos (hiff.1 h0)]
    exact if_pos h0
  · rw [if_neg (fun h => h0 (hiff.2 h))]
    exact if_neg h0

/-! ### How many modes are finite -/

/-- realizations with the square roots of the weights -/
noncomputable def weighted {X : Type} {nb : Nat} (w : X → ℝ) (Q : Matrix X (Fin nb) ℂ) : Matrix X (Fin nb) ℂ :=
  Matrix.of fun x b => ((Real.sqrt (w x) : ℝ) : ℂ) * Q x b

theorem crossSpectral_weighted {X : Type} [Fintype X] [DecidableEq X] {nb : Nat} (Q : Matrix X (Fin nb) ℂ) (w : X → ℝ) (hw : ∀ x, 0 ≤ w x) :
    crossSpectral Q w = ((nb : ℂ)⁻¹) • ((weighted w Q)ᴴ * weighted w Q) := by
  unfold crossSpectral
  congr 1
  ext a b
  simp only [Matrix.mul_apply, Matrix.conjTranspose_apply, Matrix.of_apply, weighted]
  refine Finset.sum_congr rfl fun x _ => ?_
  have h : ((w x : ℝ) : ℂ) = ((Real.sqrt (w x) : ℝ) : ℂ) * ((Real.sqrt (w x) : ℝ) : ℂ) := by
    rw [← Complex.ofReal_mul, Real.mul_self_sqrt (hw x)]
  rw [h, star_mul']
  have : star ((Real.sqrt (w x) : ℝ) : ℂ) = ((Real.sqrt (w x) : ℝ) : ℂ) := Complex.conj_ofReal _
  rw [this]
  ring

/-- the number of eigenvalues that are not zero -/
theorem nonzero_eigs {nb : Nat} (M : Matrix (Fin nb) (Fin nb) ℂ) (L : Fin nb → ℂ) (V : Matrix (Fin nb) (Fin nb) ℂ) (h : EigPairs M L V)
    (hV : IsUnit V.det) : M.rank = Fintype.card {k // L k ≠ 0} := by
  have e : M * V = V * Matrix.diagonal L := by
    ext i j
    rw [Matrix.mul_diagonal]
    have := congrFun (h j).1 i
    simp only [Matrix.mulVec, dotProduct, Pi.smul_apply, smul_eq_mul] at this
    rw [Matrix.mul_apply, this, mul_comm]
  rw [← Matrix.rank_diagonal, ← Matrix.rank_mul_eq_left_of_isUnit_det V M hV, e, Matrix.rank_mul_eq_right_of_isUnit_det V _ hV]

/-- of a decreasing sequence of numbers that are not negative, `R` of which are not zero, these are the first `R` -/
theorem first_nonzero {nb R : Nat} (e : Fin nb → ℝ) (h0 : ∀ k, 0 ≤ e k) (hd : ∀ i j, i ≤ j → e j ≤ e i) (hR : R = Fintype.card {k // e k ≠ 0}) (k : Fin nb) :
    e k ≠ 0 ↔ k.1 < R := by
  classical
  rw [Fintype.card_subtype] at hR
  constructor
  · intro h
    have hsub : Finset.Iic k ⊆ Finset.univ.filter fun k => e k ≠ 0 := by
      intro j hj
      rw [Finset.mem_filter]
      refine ⟨Finset.mem_univ _, fun hz => h (le_antisymm ?_ (h0 k))⟩
      rw [← hz]
      exact hd j k (Finset.mem_Iic.1 hj)
    have := Finset.card_le_card hsub
    rw [Fin.card_Iic] at this
    omega
  · intro h hz
    have hsub : (Finset.univ.filter fun k => e k ≠ 0) ⊆ Finset.Iio k := by
      intro j hj
      rw [Finset.mem_filter] at hj
      rw [Finset.mem_Iio]
      by_contra hk
      exact hj.2 (le_antisymm (by rw [← hz]; exact hd k j (not_lt.1 hk)) (h0 j))
    have := Finset.card_le_card hsub
    rw [Fin.card_Iio] at this
    omega

theorem eigs_rank {X : Type} [Fintype X] [DecidableEq X] {nb : Nat} (hnb : 0 < nb) (Q : Matrix X (Fin nb) ℂ) (w : X → ℝ) (hw : ∀ x, 0 ≤ w x) (solver : Solver nb)
    (hs : SolverFull solver) (fac : Nat) (hfac : 0 < fac) (k : Fin nb) :
    (spodFreq Q (solver (crossSpectral Q w)).1 (solver (crossSpectral Q w)).2.1 (solver (crossSpectral Q w)).2.2 fac).1 k ≠ 0 ↔
      k.1 < (weighted w Q).rank := by
  have hH := (crossSpectral_posSemidef Q w hw).1
  obtain ⟨a1, a2, a3⟩ := hs _ hH
  have hnn := eigenvalues_real_nonneg Q w hw _ _ a1
  have hr : (weighted w Q).rank = (crossSpectral Q w).rank := by
    rw [crossSpectral_weighted Q w hw, Matrix.rank_smul_of_mem_nonZeroDivisors _ (mem_nonZeroDivisors_of_ne_zero (by
      simp only [ne_eq, inv_eq_zero, Nat.cast_eq_zero]; omega)), Matrix.rank_conjTranspose_mul_self]
  obtain ⟨b1, -⟩ := spod_sorted_and_matched Q w hw _ _ a1 _ a3 fac
  refine first_nonzero _ (fun k => abs_nonneg _) b1 ?_ k
  rw [hr, nonzero_eigs _ _ _ a1 a2]
  refine Fintype.card_congr ?_
  refine (Equiv.subtypeEquiv (solver (crossSpectral Q w)).2.2 fun k => ?_).symm
  rw [(hnn ((solver (crossSpectral Q w)).2.2 k)).2.2]
  simp [reorderL, realIfClose, hfac.ne']

/-- **C178 (how many).** The modes that consist of finite numbers are the first `R` stored ones, where `R` is the rank of the matrix of the windowed Fourier
    realizations of the fluctuations (grid points times blocks) multiplied with the square roots of the weights: no number of mode `k` is finite for
    `k ≥ R`, all are for `k < R`. -/
theorem finite_modes_rank (c : Cfg) (ω : ℂ) (files : List (List (Arr ℝ))) (w : Arr ℝ) (m : MeanType) (A : Accepted c files w m)
    (solver : Solver (fitNb c files.flatten.length)) (hs : SolverFull solver) :
    ∃ modes, (∀ r, FloatRun c ω files w solver r → r = some modes) ∧
      ∀ f < nFreq c.nDft c.isreal c.full, ∀ k : Fin (fitNb c files.flatten.length), k.1 < c.nSave → ∀ x, InRange w.shape x →
        ∃ v, fileEntry (modes f) (x ++ [k.1]) = some v ∧ (v.isSome ↔
          k.1 < (Matrix.of fun (y : Fin (size w.shape)) (b : Fin (fitNb c files.flatten.length)) =>
            ((Real.sqrt (w.at' (unravel w.shape y)) : ℝ) : ℂ) * specHat c m ω (files.flatten.map fun a => a.at' (unravel w.shape y)) f b).rank) := by
  obtain ⟨out, h1, modes, h2, h3⟩ := finite_modes_exact c ω files w m A solver hs.ok
  refine ⟨modes, h2, fun f hf k hk x hx => ⟨_, h3 f hf k hk x hx, ?_⟩⟩
  obtain ⟨out', h1', h2'⟩ := fit_runs c ω files w m A solver
  obtain rfl : out = out' := by
    have a := h1 _ (Or.inl rfl)
    rw [h1' _ (Or.inl rfl)] at a
    exact (Option.some.inj a).symm
  obtain ⟨e1, e2⟩ := h2' f hf
  have hr : unravel w.shape (ravel w.shape x) = x := unravel_ravel hx
  have q := e2 k hk ⟨ravel w.shape x, ravel_lt hx⟩
  simp only [hr] at q
  have hW : ∀ x, 0 ≤ specW w x := fun x => A.weights _ (inRange_unravel x.2)
  have key := eigs_rank (by have := k.2; omega) (specQ c m ω files.flatten w.shape (fitNb c files.flatten.length) f) (specW w) hW solver hs
    (oneSidedFactor c.isreal (nFreq c.nDft c.isreal c.full) f) (by unfold oneSidedFactor; split <;> omega) k
  rw [← congrFun e1 k] at key
  rw [q]
  refine Iff.trans ?_ key
  by_cases h0 : out.eigs f k = 0
  · simp [h0]
  · simp [h0]

/-- **C178 (fails).** More blocks than grid points of positive weight: from that number on no mode of any frequency contains a finite number. -/
theorem finite_modes_fails (c : Cfg) (ω : ℂ) (files : List (List (Arr ℝ))) (w : Arr ℝ) (m : MeanType) (A : Accepted c files w m)
    (solver : Solver (fitNb c files.flatten.length)) (hs : SolverFull solver) :
    ∃ modes, (∀ r, FloatRun c ω files w solver r → r = some modes) ∧
      ∀ f < nFreq c.nDft c.isreal c.full, ∀ k < c.nSave, k < fitNb c files.flatten.length →
        (Finset.univ.filter fun y : Fin (size w.shape) => w.at' (unravel w.shape y) ≠ 0).card ≤ k → ∀ x, InRange w.shape x →
          fileEntry (modes f) (x ++ [k]) = some none := by
  obtain ⟨modes, h2, h3⟩ := finite_modes_rank c ω files w m A solver hs
  refine ⟨modes, h2, fun f hf k hk hkn hcard x hx => ?_⟩
  obtain ⟨v, hv, hiff⟩ := h3 f hf ⟨k, hkn⟩ hk x hx
  rw [hv]
  congr 1
  rw [← Option.not_isSome_iff_eq_none, hiff, not_lt]
  refine le_trans (Matrix.rank_le_card_of_support_subset _ (Finset.univ.filter fun y : Fin (size w.shape) => w.at' (unravel w.shape y) ≠ 0) ?_) hcard
  intro y hy
  rw [Function.mem_support] at hy
  rw [Finset.mem_coe, Finset.mem_filter]
  refine ⟨Finset.mem_univ _, fun h0 => hy ?_⟩
  funext b
  simp [Matrix.row, h0]

/-- **C178 (partial).** If the realizations of the blocks, restricted to the points of positive weight, are linearly independent at a frequency (rank `n_blocks`),
    every number of every stored mode of that frequency is finite and is that of `fit_formula`. -/
theorem finite_modes_partial (c : Cfg) (ω : ℂ) (files : List (List (Arr ℝ))) (w : Arr ℝ) (m : MeanType) (A : Accepted c files w m)
    (solver : Solver (fitNb c files.flatten.length)) (hs : SolverFull solver) :
    ∃ modes, (∀ r, FloatRun c ω files w solver r → r = some modes) ∧
      ∀ f < nFreq c.nDft c.isreal c.full,
        (Matrix.of fun (y : Fin (size w.shape)) (b : Fin (fitNb c files.flatten.length)) =>
          ((Real.sqrt (w.at' (unravel w.shape y)) : ℝ) : ℂ) * specHat c m ω (files.flatten.map fun a => a.at' (unravel w.shape y)) f b).rank =
            fitNb c files.flatten.length →
        ∀ k < c.nSave, k < fitNb c files.flatten.length → ∀ x, InRange w.shape x → ∃ v, fileEntry (modes f) (x ++ [k]) = some (some v) := by
  obtain ⟨modes, h2, h3⟩ := finite_modes_rank c ω files w m A solver hs
  refine ⟨modes, h2, fun f hf hR k hk hkn x hx => ?_⟩
  obtain ⟨v, hv, hiff⟩ := h3 f hf ⟨k, hkn⟩ hk x hx
  have : v.isSome := hiff.2 (lt_of_lt_of_eq hkn hR.symm)
  obtain ⟨u, rfl⟩ := Option.isSome_iff_exists.1 this
  exact ⟨u, hv⟩

/-- **C178 (fails).** Steady data, mean type `longtime` or `blockwise`: no stored mode contains a finite number. -/
theorem finite_steady_fails (c : Cfg) (ω : ℂ) (files : List (List (Arr ℝ))) (w : Arr ℝ) (m : MeanType) (A : Accepted c files w m) (hm : m ≠ .zero)
    (hnorm : c.normalize = false) (b : List Nat → ℝ)
    (h : ∀ x, InRange w.shape x → ∀ t < files.flatten.length, (files.flatten.getD t ⟨[], fun _ => 0⟩).at' x = b x)
    (solver : Solver (fitNb c files.flatten.length)) (hs : SolverFull solver) :
    ∃ modes, (∀ r, FloatRun c ω files w solver r → r = some modes) ∧
      ∀ f < nFreq c.nDft c.isreal c.full, ∀ k < c.nSave, k < fitNb c files.flatten.length → ∀ x, InRange w.shape x →
        fileEntry (modes f) (x ++ [k]) = some none := by
  obtain ⟨out, h1, modes, h2, h3⟩ := finite_modes_exact c ω files w m A solver hs.ok
  obtain ⟨out', h1', h2'⟩ := fit_pattern c ω files w m A hnorm (fun _ => 0) b (fun hz => absurd hz hm) (List.replicate files.flatten.length 0) (by simp)
    (fun x hx t ht => by rw [h x hx t ht]; ring) solver hs
  obtain rfl : out = out' := by
    have a := h1 _ (Or.inl rfl)
    rw [h1' _ (Or.inl rfl)] at a
    exact (Option.some.inj a).symm
  refine ⟨modes, h2, fun f hf k hk hkn x hx => ?_⟩
  have e := (h2' f hf).1 ⟨k, hkn⟩
  have e0 : out.eigs f ⟨k, hkn⟩ = 0 := by rw [e]; split <;> simp
  have := h3 f hf ⟨k, hkn⟩ hk x hx
  rw [if_pos e0] at this
  exact this

/-! ### POD -/

/-- **C178 (POD, exactly when).** The numbers of mode `j` in `modes.npy` are finite exactly when the eigenvalue stored at position `j` is not zero. -/
theorem pod_finite_exact {c weights files dims mk n} (R : PodRun c weights files dims mk n) (solver : PodFit.Solver) {comms : List Comm} {sched : Sched}
    (hrun : IsRun comms sched) : ∃ o, PodFit.podFit c weights solver files comms sched = some o ∧
      ∀ j < n, ∀ x < size dims, ∃ v, (PodFit.floatModes o n).data (x * n + j) = some v ∧ (v.isSome ↔ o.eigs.getD j 0 ≠ 0) := by
  refine ⟨_, R.fit solver hrun, fun j hj x hx => ?_⟩
  have hsz : size (dims ++ [1] ++ [n]) = size dims * n := by rw [size_append, size_append, Nat.mul_one]
  have hlt : x * n + j < size (dims ++ [1] ++ [n]) := by
    rw [hsz]
    calc x * n + j < (x + 1) * n := by rw [Nat.add_mul]; omega
      _ ≤ _ := Nat.mul_le_mul_right _ hx
  have e : ∃ z, (podOut mk solver files.flatten (dims ++ [1]) (weights.getD ⟨dims ++ [1], fun _ => 1⟩) n).modes.data (x * n + j) = some z :=
    ⟨_, if_pos hlt⟩
  obtain ⟨z, hz⟩ := e
  have hmod : (x * n + j) % n = j := by rw [Nat.add_comm, Nat.add_mul_mod_self_right]; exact Nat.mod_eq_of_lt hj
  refine ⟨_, by simp only [PodFit.floatModes]; rw [hz, Option.map_some], ?_⟩
  rw [hmod]
  split <;> simp_all

/-- **C178 (POD, fails).** The mean over time is removed and all modes are kept (`n_modes_save` is the number of snapshots): whatever the data, some stored mode
    contains no finite number. -/
theorem pod_finite_fails {c weights files dims n} (R : PodRun c weights files dims .longtime n) (hn : n = files.flatten.length) (solver : PodFit.Solver) (lamV)
    (hs : PodSolver solver lamV) {comms : List Comm} {sched : Sched} (hrun : IsRun comms sched) :
    ∃ o, PodFit.podFit c weights solver files comms sched = some o ∧
      ∃ j < n, ∀ x < size dims, (PodFit.floatModes o n).data (x * n + j) = some none := by
  obtain ⟨o, lam, V, h1, h2, h3, -, -⟩ := pod_files_spec R solver lamV hs hrun
  obtain ⟨o', h1', h4⟩ := pod_finite_exact R solver hrun
  obtain rfl : o = o' := by rw [h1] at h1'; exact Option.some.inj h1'
  have hnt : 0 < files.flatten.length := hn ▸ R.n_pos
  have hzero : ∃ j, lam j = 0 := by
    by_contra hcon
    push Not at hcon
    have e := h3.eig
    have hMV : corrMat (fitData .longtime (podD files.flatten (dims ++ [1]))) (podW (weights.getD ⟨dims ++ [1], fun _ => 1⟩) (dims ++ [1])) * V =
        V * Matrix.diagonal lam := by
      ext i j
      rw [Matrix.mul_diagonal]
      have := congrFun (e j) i
      simp only [Matrix.mulVec, dotProduct, Pi.smul_apply, smul_eq_mul] at this
      rw [Matrix.mul_apply, this, mul_comm]
    have hdet : IsUnit (corrMat (fitData .longtime (podD files.flatten (dims ++ [1])))
        (podW (weights.getD ⟨dims ++ [1], fun _ => 1⟩) (dims ++ [1]))).det := by
      have := congrArg Matrix.det hMV
      rw [Matrix.det_mul, Matrix.det_mul, Matrix.det_diagonal] at this
      rw [isUnit_iff_ne_zero]
      intro h0
      rw [h0, zero_mul] at this
      have hV := h3.basis
      rw [isUnit_iff_ne_zero] at hV
      have hp : ∏ i, lam i ≠ 0 := Finset.prod_ne_zero_iff.2 fun i _ => hcon i
      exact (mul_ne_zero hV hp) this.symm
    have hones : corrMat (fitData .longtime (podD files.flatten (dims ++ [1]))) (podW (weights.getD ⟨dims ++ [1], fun _ => 1⟩) (dims ++ [1])) *ᵥ
        (fun _ => 1) = 0 := by
      funext t
      simp only [Matrix.mulVec, dotProduct, mul_one, Pi.zero_apply, corrMat, Matrix.mul_apply, Matrix.transpose_apply, Matrix.of_apply]
      rw [Finset.sum_comm]
      refine Finset.sum_eq_zero fun x _ => ?_
      rw [← Finset.mul_sum, ← Finset.sum_mul]
      have : ∑ t', fitData .longtime (podD files.flatten (dims ++ [1])) x t' = 0 := by
        simp only [fitData, Pod.tMean, Matrix.of_apply, Finset.sum_sub_distrib, Finset.sum_const, Finset.card_univ, Fintype.card_fin, nsmul_eq_mul]
        have : ((files.flatten.length : ℕ) : ℝ) ≠ 0 := by exact_mod_cast hnt.ne'
        field_simp
        ring
      rw [this, zero_mul, mul_zero]
    have := (Matrix.mulVec_injective_iff_isUnit.2 ((Matrix.isUnit_iff_isUnit_det _).2 hdet)) (hones.trans (Matrix.mulVec_zero _).symm)
    have h1 := congrFun this ⟨0, hnt⟩
    simp at h1
  obtain ⟨j, hj⟩ := hzero
  refine ⟨o, h1, j.1, hn ▸ j.2, fun x hx => ?_⟩
  obtain ⟨v, hv, hiff⟩ := h4 j.1 (hn ▸ j.2) x hx
  rw [hv]
  congr 1
  rw [← Option.not_isSome_iff_eq_none, hiff, h2, ofFn_getD _ _ j.2, not_not]
  simp [hj]

/-! #### The hypotheses are met -/

/-- two blocks, one point of positive weight: the second mode is not finite -/
example (ω : ℂ) (l : List ℝ) (hl : l.length = 8) :
    ∃ solver : Solver (fitNb calmCfg (series l).flatten.length), SolverFull solver ∧
      ∃ modes, (∀ r, FloatRun calmCfg ω (series l) ⟨[2], fun x => if x = [0] then 1 else 0⟩ solver r → r = some modes) ∧
        ∀ x, InRange [2] x → fileEntry (modes 1) (x ++ [1]) = some none := by
  obtain ⟨solver, hs⟩ := solver_full_exists (fitNb calmCfg (series l).flatten.length)
  have A := calm_accepted l (Or.inl hl)
  obtain ⟨modes, h1, h2⟩ := finite_modes_fails calmCfg ω (series l) ⟨[2], fun x => if x = [0] then 1 else 0⟩ .blockwise
    { A with weights := fun x _ => by dsimp only; split <;> norm_num } solver hs
  refine ⟨solver, hs, modes, h1, fun x hx => h2 1 (by decide) 1 (by decide) (by rw [series_length, hl]; decide) ?_ x hx⟩
  have hu : ∀ y : Fin 2, (Finset.univ.filter fun y : Fin 2 => (if unravel [2] y = [0] then (1 : ℝ) else 0) ≠ 0) ⊆ {0} := by
    intro _ y hy
    rw [Finset.mem_filter] at hy
    rw [Finset.mem_singleton]
    have h2 : y = 0 ∨ y = 1 := by omega
    rcases h2 with rfl | rfl
    · rfl
    · exact absurd hy.2 (by simp [unravel, size])
  exact Finset.card_le_card (hu 0)

/-- eight equal snapshots -/
example (ω : ℂ) (v : ℝ) (solver : Solver (fitNb calmCfg (series (List.replicate 8 v)).flatten.length)) (hs : SolverFull solver) :
    ∃ modes, (∀ r, FloatRun calmCfg ω (series (List.replicate 8 v)) ⟨[2], fun _ => 1⟩ solver r → r = some modes) ∧
      ∀ x, InRange [2] x → fileEntry (modes 1) (x ++ [0]) = some none := by
  obtain ⟨modes, h1, h2⟩ := finite_steady_fails calmCfg ω (series (List.replicate 8 v)) ⟨[2], fun _ => 1⟩ .blockwise
    (calm_accepted _ (Or.inl (by simp))) (by simp) rfl (fun x => v * (x.getD 0 0 + 1 : ℕ)) (fun x _ t ht => by
      rw [series_length] at ht
      rw [series_at _ t ht]
      congr 1
      have ht' : t < 8 := by simpa using ht
      rw [List.getD_eq_getElem?_getD, List.getElem?_replicate, if_pos ht', Option.getD_some]) solver hs
  exact ⟨modes, h1, fun x hx => h2 1 (by decide) 0 (by decide) (by rw [series_length, List.length_replicate]; decide) x hx⟩

/-- POD with the mean removed, all modes kept -/
def podAllCfg : PodFit.Cfg := ⟨1, 1, "longtime", .int 2⟩

theorem podAllRun : PodRun podAllCfg none podExFiles [2] .longtime 2 where
  files_ne := by simp [podExFiles]
  ne := by simp [podExFiles]
  snaps := by simp [podExFiles]
  nv := rfl
  xdim := by decide
  dims_ne := by simp
  pos := by decide
  weights := by simp
  mean := podMean_longtime _ (by decide +kernel)
  save := rfl
  n_pos := by omega
  n_le := by simp [podExFiles]

example (solver : PodFit.Solver) (lamV) (hs : PodSolver solver lamV) :
    ∃ o, PodFit.podFit podAllCfg none solver podExFiles [none] none = some o ∧
      ∃ j < 2, ∀ x < 2, (PodFit.floatModes o 2).data (x * 2 + j) = some none :=
  pod_finite_fails podAllRun (by simp [podExFiles]) solver lamV hs (Or.inl ⟨rfl, rfl⟩)

end Verif.Props
