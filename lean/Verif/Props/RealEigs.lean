import Verif.Model.OrderedCorr
import Verif.Props.PowerTwo
import Mathlib.LinearAlgebra.Matrix.Hermitian
import Mathlib.LinearAlgebra.Matrix.PosDef
import Mathlib.Analysis.Complex.Polynomial.Basic
/-
  C255: the eigenvalues of the rounded correlation matrix of a POD fit are real for weights that are powers of two, and need not be for others.
-/
namespace Verif.Props
open Verif Verif.Par Verif.Dbl Verif.Round Verif.Proj

theorem corrTerms_symm {fl : ℝ → ℝ} (h : ScalesTwo fl) (d : Nat → Arr ℝ) (w : Arr ℝ)
    (hw : ∀ n < size w.shape, ∃ k : ℤ, w.at' (unravel w.shape n) = 2 ^ k) (i j : Nat)
    (hd : ∀ b, b = i ∨ b = j → ∀ n < size w.shape, fl ((d b).at' (unravel w.shape n)) = (d b).at' (unravel w.shape n)) :
    corrTerms fl d w i j = corrTerms fl d w j i := by
  refine List.map_congr_left fun n hn => ?_
  have hn := List.mem_range.1 hn
  obtain ⟨k, hk⟩ := hw n hn
  rw [hk, mul_comm ((d j).at' _) ((2 : ℝ) ^ k), h, mul_comm ((d i).at' _) ((2 : ℝ) ^ k), h, hd j (Or.inr rfl) n hn, hd i (Or.inl rfl) n hn, mul_left_comm, h, mul_left_comm, h, mul_comm ((d i).at' _)]

/-- a real symmetric matrix has no eigenvalue with an imaginary part -/
theorem symm_real {n : Nat} (Q : Fin n → Fin n → ℝ) (hQ : ∀ i j, Q i j = Q j i) (l : ℂ) (v : Fin n → ℂ) (hv : v ≠ 0) (he : ∀ i, ∑ j, (Q i j : ℂ) * v j = l * v i) : l.im = 0 := by
  have hA : (Matrix.of fun i j => (Q i j : ℂ)).IsHermitian := by
    ext i j
    simp [Matrix.conjTranspose_apply, hQ j i]
  have h1 := hA.im_star_dotProduct_mulVec_self v
  have h2 : (Matrix.of fun i j => (Q i j : ℂ)).mulVec v = l • v := by
    funext i
    simpa [Matrix.mulVec, dotProduct] using he i
  rw [h2, dotProduct_smul, smul_eq_mul] at h1
  have h3 : star v ⬝ᵥ v = ((∑ i, ‖v i‖ ^ 2 : ℝ) : ℂ) := by
    simp only [dotProduct, Pi.star_apply, RCLike.star_def]
    push_cast
    refine Finset.sum_congr rfl fun i _ => ?_
    rw [mul_comm, Complex.mul_conj, Complex.normSq_eq_norm_sq]
    push_cast; rfl
  have h4 : 0 < ∑ i, ‖v i‖ ^ 2 := by
    obtain ⟨i, hi⟩ := Function.ne_iff.1 hv
    exact lt_of_lt_of_le (pow_pos (norm_pos_iff.2 hi) 2) (Finset.single_le_sum (f := fun i => ‖v i‖ ^ 2) (fun _ _ => by positivity) (Finset.mem_univ i))
  rw [h3] at h1
  have h5 : (l * ((∑ i, ‖v i‖ ^ 2 : ℝ) : ℂ)).im = 0 := h1
  rw [Complex.im_mul_ofReal] at h5
  exact (mul_eq_zero.1 h5).resolve_right h4.ne'

/-- **C255.** If all weights are powers of two (as the default weights, one) and every entry of the matrix is added with the same procedure, then the rounded correlation matrix of a POD fit has
    only real eigenvalues, on one process and on `p` ranks. -/
theorem eigs_real_partial {fl : ℝ → ℝ} (h : ScalesTwo fl) (S T : List ℝ → ℝ) (comms : List Comm) (ax : Nat) (d : Nat → Arr ℝ) (w : Arr ℝ) (hax : ax < w.shape.length)
    (nt : Nat) (hs : ∀ b < nt, (d b).shape = w.shape) (hd : ∀ b < nt, ∀ idx, InRange w.shape idx → fl ((d b).at' idx) = (d b).at' idx)
    (hw : ∀ idx, InRange w.shape idx → ∃ k : ℤ, w.at' idx = 2 ^ k) (l : ℂ) (v : Fin nt → ℂ) (hv : v ≠ 0)
    (he : ∀ i : Fin nt, ∑ j : Fin nt, (orderedCorr fl S T comms ax d w i j : ℂ) * v j = l * v i) : l.im = 0 := by
  refine symm_real (fun i j => orderedCorr fl S T comms ax d w i j) (fun i j => ?_) l v hv he
  unfold orderedCorr
  refine congrArg T (List.map_congr_left fun comm _ => congrArg S ?_)
  refine corrTerms_symm h _ _ (fun n hn => inRange_slab w ax hax comm (fun x => ∃ k : ℤ, x = 2 ^ k) hw _ (inRange_unravel hn)) i j fun b hb n hn => ?_
  have hb : b < nt := by rcases hb with rfl | rfl <;> omega
  refine inRange_slab (d b) ax (by rw [hs b hb]; exact hax) comm (fun x => fl x = x) (fun idx hi => hd b hb idx (by rw [← hs b hb]; exact hi)) _ ?_
  have e : (distributeDimension (d b) ax comm).shape = (distributeDimension w ax comm).shape := by
    cases comm <;> simp only [distributeDimension, Arr.slice, hs b hb]
  rw [e]; exact inRange_unravel hn

/-- the entries added with a fixed procedure are among the possible entries of C253 and C254 -/
theorem ordered_possible {fl : ℝ → ℝ} (S T : List ℝ → ℝ) (hS : ∀ l, DblSum fl l (S l)) (hT : ∀ l, DblSum fl l (T l)) (comms : List Comm) (ax : Nat) (d : Nat → Arr ℝ) (w : Arr ℝ) (i j : Nat) :
    DblCorr fl comms ax d w i j (orderedCorr fl S T comms ax d w i j) := by
  refine ⟨_, ?_, hT _⟩
  rw [List.forall₂_map_right_iff, List.forall₂_same]
  exact fun comm _ => hS _

theorem leaves_ne_nil (t : RTree ℝ) : t.leaves ≠ [] := by
  induction t with
  | rank d => simp [RTree.leaves]
  | node l r h1 _ => simp [RTree.leaves, h1]

theorem tree_single (t : RTree ℝ) (x : ℝ) (h : t.leaves = [x]) : t = .rank x := by
  cases t with
  | rank d => simpa [RTree.leaves] using h
  | node l r =>
    have h1 := List.length_pos_iff.2 (leaves_ne_nil l)
    have h2 := List.length_pos_iff.2 (leaves_ne_nil r)
    have h3 := congrArg List.length h
    simp [RTree.leaves] at h3
    omega

theorem dblSum_one (fl : ℝ → ℝ) (x z : ℝ) : DblSum fl [x] z ↔ z = x := by
  constructor
  · rintro (⟨h, -⟩ | ⟨t, ht, rfl⟩)
    · cases h
    · rw [tree_single t x (List.perm_singleton.1 ht)]; rfl
  · rintro rfl
    exact Or.inr ⟨.rank z, List.Perm.refl _, rfl⟩

theorem dblSum_two (fl : ℝ → ℝ) (x y z : ℝ) : DblSum fl [x, y] z ↔ z = fl (x + y) := by
  constructor
  · rintro (⟨h, -⟩ | ⟨t, ht, rfl⟩)
    · cases h
    · have hl := ht.length_eq
      cases t with
      | rank d => simp [RTree.leaves] at hl
      | node l r =>
        have h1 := List.length_pos_iff.2 (leaves_ne_nil l)
        have h2 := List.length_pos_iff.2 (leaves_ne_nil r)
        simp [RTree.leaves] at hl
        obtain ⟨p, hp⟩ := List.length_eq_one_iff.1 (show l.leaves.length = 1 by omega)
        obtain ⟨q, hq⟩ := List.length_eq_one_iff.1 (show r.leaves.length = 1 by omega)
        rw [tree_single l p hp, tree_single r q hq] at ht ⊢
        simp only [dblTree]
        have hs := ht.sum_eq
        simp [RTree.leaves] at hs
        rw [hs]
  · rintro rfl
    exact Or.inr ⟨.node (.rank x) (.rank y), List.Perm.refl _, rfl⟩

/-- two snapshots of a field with two points: `(1 + 2^-52, -11)` and `(11, 1 + 2^-52)` -/
noncomputable def oddData : Nat → Arr ℝ := fun b => ⟨[2], fun idx => if b = 0 then (if idx = [0] then 1 + 2 ^ (-52 : ℤ) else -11) else (if idx = [0] then 11 else 1 + 2 ^ (-52 : ℤ))⟩

theorem oddData_entry (fl : ℝ → ℝ) (w : ℝ) (i j : Nat) (z : ℝ) :
    DblCorr fl [none] 0 oddData ⟨[2], fun _ => w⟩ i j z ↔
      z = fl (fl ((oddData i).at' [0] * fl ((oddData j).at' [0] * w)) + fl ((oddData i).at' [1] * fl ((oddData j).at' [1] * w))) := by
  unfold DblCorr DblCorrLocal
  have e : ∀ l, (List.Forall₂ (fun comm l => DblSum fl ((List.range (size (distributeDimension (⟨[2], fun _ => w⟩ : Arr ℝ) 0 comm).shape)).map fun k =>
      fl ((distributeDimension (oddData i) 0 comm).at' (unravel (distributeDimension (⟨[2], fun _ => w⟩ : Arr ℝ) 0 comm).shape k) *
        fl ((distributeDimension (oddData j) 0 comm).at' (unravel (distributeDimension (⟨[2], fun _ => w⟩ : Arr ℝ) 0 comm).shape k) *
          (distributeDimension (⟨[2], fun _ => w⟩ : Arr ℝ) 0 comm).at' (unravel (distributeDimension (⟨[2], fun _ => w⟩ : Arr ℝ) 0 comm).shape k)))) l) [none] l ↔
      l = [fl (fl ((oddData i).at' [0] * fl ((oddData j).at' [0] * w)) + fl ((oddData i).at' [1] * fl ((oddData j).at' [1] * w)))]) := fun l => by
    have key : ∀ z, DblSum fl ((List.range (size [2])).map fun k =>
      fl ((oddData i).at' (unravel [2] k) * fl ((oddData j).at' (unravel [2] k) * w))) z ↔
        z = fl (fl ((oddData i).at' [0] * fl ((oddData j).at' [0] * w)) + fl ((oddData i).at' [1] * fl ((oddData j).at' [1] * w))) := fun z => by
      rw [← dblSum_two]; rfl
    constructor
    · rintro (_ | ⟨h1, _ | _⟩)
      rw [(key _).1 h1]
    · rintro rfl
      exact .cons ((key _).2 rfl) .nil
  constructor
  · rintro ⟨ls, h1, h2⟩
    rw [(e ls).1 h1, dblSum_one] at h2
    exact h2
  · rintro rfl
    exact ⟨_, (e _).2 rfl, (dblSum_one _ _ _).2 rfl⟩

/-- **C255.** With other weights, uniform ones included, the eigenvalues need not be real: for the data `oddData` and weights 5, in double precision, the matrix has the entries `α`, `2^-47`,
    `-2^-47`, `α` in whatever order the terms are added, and no real eigenvalue. The data are double-precision numbers. -/
theorem eigs_real_fails : (∀ b idx, rn ((oddData b).at' idx) = (oddData b).at' idx) ∧ ∃ α : ℝ, (∀ z, DblCorr rn [none] 0 oddData ⟨[2], fun _ => 5⟩ 0 0 z ↔ z = α) ∧ (∀ z, DblCorr rn [none] 0 oddData ⟨[2], fun _ => 5⟩ 1 1 z ↔ z = α) ∧
    (∀ z, DblCorr rn [none] 0 oddData ⟨[2], fun _ => 5⟩ 0 1 z ↔ z = 2 ^ (-47 : ℤ)) ∧ (∀ z, DblCorr rn [none] 0 oddData ⟨[2], fun _ => 5⟩ 1 0 z ↔ z = -2 ^ (-47 : ℤ)) ∧
    ∀ l x y : ℝ, α * x + 2 ^ (-47 : ℤ) * y = l * x → -2 ^ (-47 : ℤ) * x + α * y = l * y → x = 0 ∧ y = 0 := by
  have hneg : ∀ x, rn (-x) = -rn x := fun x => by
    unfold rn
    rcases lt_trichotomy x 0 with h | h | h
    · rw [if_pos (by linarith), if_neg (by linarith), if_pos h, neg_neg]
    · subst h; simp
    · rw [if_neg (by linarith), if_pos (by linarith), if_pos h, neg_neg]
  have n55 : rn 55 = 55 := by have := fl_nat rn_double 55 (by norm_num); simpa using this
  have a5 : rn ((1 + 2 ^ (-52 : ℤ)) * 5) = 5 + 2 ^ (-50 : ℤ) := by
    rw [rn_value _ 2 (5 * 2 ^ 50 + 1) (by norm_num) (by norm_num) (by norm_num [abs_lt])]
    norm_num
  have a55 : rn ((1 + 2 ^ (-52 : ℤ)) * 55) = 55 + 2 ^ (-46 : ℤ) := by
    rw [rn_value _ 5 (55 * 2 ^ 47 + 2) (by norm_num) (by norm_num) (by norm_num [abs_lt])]
    norm_num
  have b55 : rn (11 * (5 + 2 ^ (-50 : ℤ))) = 55 + 2 ^ (-47 : ℤ) := by
    rw [rn_value _ 5 (55 * 2 ^ 47 + 1) (by norm_num) (by norm_num) (by norm_num [abs_lt])]
    norm_num
  have p47 : rn (2 ^ (-47 : ℤ)) = 2 ^ (-47 : ℤ) := by
    rw [rn_value _ (-47) (2 ^ 52) (by norm_num) (by norm_num) (by norm_num)]
    norm_num
  have d00 : (oddData 0).at' [0] = 1 + 2 ^ (-52 : ℤ) := rfl
  have d01 : (oddData 0).at' [1] = -11 := rfl
  have d10 : (oddData 1).at' [0] = 11 := rfl
  have d11 : (oddData 1).at' [1] = 1 + 2 ^ (-52 : ℤ) := rfl
  have m55 : (11 : ℝ) * 5 = 55 := by norm_num
  have n11 : rn 11 = 11 := by have := fl_nat rn_double 11 (by norm_num); simpa using this
  have a1 : rn (1 + 2 ^ (-52 : ℤ)) = 1 + 2 ^ (-52 : ℤ) := by
    rw [rn_value _ 0 (2 ^ 52 + 1) (by norm_num) (by norm_num) (by norm_num)]
    norm_num
  refine ⟨fun b idx => ?_, rn (rn ((1 + 2 ^ (-52 : ℤ)) * rn ((1 + 2 ^ (-52 : ℤ)) * 5)) + rn (11 * 55)), fun z => ?_, fun z => ?_, fun z => ?_, fun z => ?_, fun l x y h1 h2 => ?_⟩
  · unfold oddData
    simp only
    split_ifs
    · exact a1
    · rw [hneg, n11]
    · exact n11
    · exact a1
  · rw [oddData_entry, d00, d01]
    simp only [neg_mul, mul_neg, hneg, m55, n55, neg_neg]
  · rw [oddData_entry, d10, d11, m55, n55, add_comm (rn (11 * 55))]
  · rw [oddData_entry, d00, d01, d10, d11, m55, n55, a55, a5, neg_mul, hneg, b55]
    rw [show (55 : ℝ) + 2 ^ (-46 : ℤ) + -(55 + 2 ^ (-47 : ℤ)) = 2 ^ (-47 : ℤ) by norm_num, p47]
  · rw [oddData_entry, d00, d01, d10, d11, a5, b55, neg_mul, m55, hneg, n55, mul_neg, hneg, a55]
    rw [show (55 : ℝ) + 2 ^ (-47 : ℤ) + -(55 + 2 ^ (-46 : ℤ)) = -2 ^ (-47 : ℤ) by norm_num, hneg, p47]
  · have h3 : (2 : ℝ) ^ (-47 : ℤ) * (x ^ 2 + y ^ 2) = 0 := by linear_combination y * h1 - x * h2
    have h4 := (mul_eq_zero.1 h3).resolve_left (by positivity)
    constructor <;> nlinarith [sq_nonneg x, sq_nonneg y]

/-- non-vacuity: with the default weights the same data meet the hypotheses, on any number of processes; the points are added from the first to the last -/
example (l : ℂ) (v : Fin 2 → ℂ) (hv : v ≠ 0)
    (he : ∀ i : Fin 2, ∑ j : Fin 2, (orderedCorr rn (List.foldl (fun s x => rn (s + x)) 0) (List.foldl (fun s x => rn (s + x)) 0) (ranksOf 2) 0 oddData ⟨[2], fun _ => 1⟩ i j : ℂ) * v j = l * v i) :
    l.im = 0 :=
  eigs_real_partial rn_scales _ _ _ 0 oddData ⟨[2], fun _ => 1⟩ (by simp) 2 (fun _ _ => rfl) (fun b _ idx _ => eigs_real_fails.1 b idx) (fun _ _ => ⟨0, by simp⟩) l v hv he

theorem quotient_not_real (x : ℝ) (hx : x ≠ 0) (l r : ℂ) (hl : l.im ≠ 0) (hr : r ^ 2 = l) : ((x : ℂ) / r).im ≠ 0 := by
  intro h
  have hr0 : r ≠ 0 := by rintro rfl; rw [← hr] at hl; simp at hl
  obtain ⟨y, hy⟩ : ∃ y : ℝ, (x : ℂ) / r = y := ⟨_, (Complex.ext rfl (by simpa using h) : (x : ℂ) / r = (((x : ℂ) / r).re : ℝ))⟩
  have h1 : (x : ℂ) = y * r := by rw [← hy, div_mul_cancel₀ _ hr0]
  have hy0 : y ≠ 0 := by rintro rfl; apply hx; simpa using h1
  have h2 : r = ((x / y : ℝ) : ℂ) := by
    push_cast
    rw [h1, mul_div_cancel_left₀ _ (by exact_mod_cast hy0)]
  rw [← hr, h2] at hl
  apply hl
  rw [← Complex.ofReal_pow, Complex.ofReal_im]

/-- **C255.** For the data `oddData` and weights 5, whatever eigenvalue and eigenvector of the double-precision matrix are returned and whichever square root is taken, the mode
    `Re(d v) / √λ` of the real data is not real at one of the two points (these last steps in exact arithmetic). -/
theorem modes_real_fails (q : Nat → Nat → ℝ) (hq : ∀ i < 2, ∀ j < 2, DblCorr rn [none] 0 oddData ⟨[2], fun _ => 5⟩ i j (q i j)) (l r x y : ℂ) (hv : ¬ (x = 0 ∧ y = 0))
    (h0 : q 0 0 * x + q 0 1 * y = l * x) (h1 : q 1 0 * x + q 1 1 * y = l * y) (hr : r ^ 2 = l) :
    ∃ p < 2, ((((((oddData 0).at' [p] : ℝ) : ℂ) * x + (((oddData 1).at' [p] : ℝ) : ℂ) * y).re : ℂ) / r).im ≠ 0 := by
  obtain ⟨-, α, e00, e11, e01, e10, -⟩ := eigs_real_fails
  rw [(e00 _).1 (hq 0 (by norm_num) 0 (by norm_num)), (e01 _).1 (hq 0 (by norm_num) 1 (by norm_num))] at h0
  rw [(e10 _).1 (hq 1 (by norm_num) 0 (by norm_num)), (e11 _).1 (hq 1 (by norm_num) 1 (by norm_num))] at h1
  generalize hβ : (2 : ℝ) ^ (-47 : ℤ) = β at h0 h1
  have hβ0 : β ≠ 0 := by rw [← hβ]; positivity
  have hβc : (β : ℂ) ≠ 0 := by exact_mod_cast hβ0
  push_cast at h1
  have hsq : (x ^ 2 + y ^ 2) * (β : ℂ) = 0 := by linear_combination y * h0 - x * h1
  have hxy : (y - Complex.I * x) * (y + Complex.I * x) = 0 := by
    have := (mul_eq_zero.1 hsq).resolve_right hβc
    linear_combination this - x ^ 2 * Complex.I_sq
  obtain ⟨s, hs, hy⟩ : ∃ s : ℝ, (s = 1 ∨ s = -1) ∧ y = s * Complex.I * x := by
    rcases mul_eq_zero.1 hxy with h | h
    · exact ⟨1, Or.inl rfl, by push_cast; linear_combination h⟩
    · exact ⟨-1, Or.inr rfl, by push_cast; linear_combination h⟩
  have hx : x ≠ 0 := by
    rintro rfl
    exact hv ⟨rfl, by rw [hy, mul_zero]⟩
  have hl : l.im ≠ 0 := by
    have : l = α + s * β * Complex.I := by
      apply mul_right_cancel₀ hx
      rw [hy] at h0
      linear_combination -h0
    rw [this]
    rcases hs with rfl | rfl <;> simp [hβ0]
  by_contra hc
  push Not at hc
  have c0 := hc 0 (by norm_num)
  have c1 := hc 1 (by norm_num)
  have z0 : ((((oddData 0).at' [0] : ℝ) : ℂ) * x + (((oddData 1).at' [0] : ℝ) : ℂ) * y).re = 0 := by
    by_contra hne; exact quotient_not_real _ hne l r hl hr c0
  have z1 : ((((oddData 0).at' [1] : ℝ) : ℂ) * x + (((oddData 1).at' [1] : ℝ) : ℂ) * y).re = 0 := by
    by_contra hne; exact quotient_not_real _ hne l r hl hr c1
  have d00 : (oddData 0).at' [0] = 1 + 2 ^ (-52 : ℤ) := rfl
  have d01 : (oddData 0).at' [1] = -11 := rfl
  have d10 : (oddData 1).at' [0] = 11 := rfl
  have d11 : (oddData 1).at' [1] = 1 + 2 ^ (-52 : ℤ) := rfl
  rw [d00, d10, hy] at z0
  rw [d01, d11, hy] at z1
  generalize (1 : ℝ) + 2 ^ (-52 : ℤ) = a at z0 z1
  apply hx
  simp [Complex.mul_re, Complex.mul_im] at z0 z1
  have hs2 : s ^ 2 = 1 := by rcases hs with rfl | rfl <;> norm_num
  have k1 : (a ^ 2 + 121) * x.re = 0 := by linear_combination a * z0 - 11 * z1
  have k2 : (a ^ 2 + 121) * x.im = 0 := by linear_combination -11 * s * z0 - a * s * z1 - (a ^ 2 + 121) * x.im * hs2
  exact Complex.ext ((mul_eq_zero.1 k1).resolve_left (by positivity)) ((mul_eq_zero.1 k2).resolve_left (by positivity))

/-- non-vacuity: the matrix has a complex eigenpair and its eigenvalue a square root -/
example : ∃ (q : Nat → Nat → ℝ) (l r x y : ℂ), (∀ i < 2, ∀ j < 2, DblCorr rn [none] 0 oddData ⟨[2], fun _ => 5⟩ i j (q i j)) ∧ ¬ (x = 0 ∧ y = 0) ∧
    (q 0 0 : ℂ) * x + q 0 1 * y = l * x ∧ (q 1 0 : ℂ) * x + q 1 1 * y = l * y ∧ r ^ 2 = l := by
  obtain ⟨-, α, e00, e11, e01, e10, -⟩ := eigs_real_fails
  obtain ⟨r, hr⟩ := IsAlgClosed.exists_pow_nat_eq ((α : ℂ) + ((2 : ℝ) ^ (-47 : ℤ) : ℝ) * Complex.I) (n := 2) (by norm_num)
  refine ⟨fun i j => if i = j then α else if i = 0 then 2 ^ (-47 : ℤ) else -2 ^ (-47 : ℤ), _, r, 1, Complex.I, ?_, by simp, ?_, ?_, hr⟩
  · intro i hi j hj
    interval_cases i <;> interval_cases j
    · exact (e00 _).2 rfl
    · exact (e01 _).2 rfl
    · exact (e10 _).2 rfl
    · exact (e11 _).2 rfl
  · simp
  · simp
    linear_combination (-(2 : ℂ) ^ 47)⁻¹ * (Complex.I_sq)

end Verif.Props
