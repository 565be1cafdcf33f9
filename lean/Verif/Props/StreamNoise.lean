import Verif.Props.StreamTrunc
import Verif.Props.StreamImage
import Verif.Props.Constraints
/-
  C220-C221: streaming fits of changed data and of parts of the domain.
-/
namespace Verif.Props
open Verif Verif.Par Verif.Rd Verif.Spod Verif.Fit Verif.SFit Verif.Stream Matrix

section
variable {X : Type} [Fintype X] [DecidableEq X] {k : Nat}

/-- the blocks `x` as seen in the direction `v`, with the factors of the running update -/
noncomputable def probe (M : Nat) (x : Nat → X → ℂ) (v : X → ℂ) : EuclideanSpace ℂ (Fin M) :=
  WithLp.toLp 2 fun b => ((Real.sqrt (((b.1 : ℝ) + 2) / ((b.1 : ℝ) + 3) / ((M : ℝ) + 2)) : ℝ) : ℂ) * (star (x b) ⬝ᵥ v)

theorem probe_sq (M : Nat) (x : Nat → X → ℂ) (v : X → ℂ) :
    ‖probe M x v‖ ^ 2 = ∑ b : Fin M, ((b.1 : ℝ) + 2) / ((b.1 : ℝ) + 3) / ((M : ℝ) + 2) * Complex.normSq (star (x b) ⬝ᵥ v) := by
  rw [EuclideanSpace.norm_sq_eq]
  refine Finset.sum_congr rfl fun b _ => ?_
  simp only [probe]
  rw [Complex.sq_norm, Complex.normSq_mul, Complex.normSq_ofReal, Real.mul_self_sqrt (by positivity)]

theorem probe_form {M : Nat} {x : Nat → X → ℂ} {U : Matrix X (Fin k) ℂ} {S : Fin k → ℝ}
    (h : StreamRun k ((List.range M).map x) U S) (hM : M ≤ k) (v : X → ℂ) : form (density U S) v = ‖probe M x v‖ ^ 2 := by
  have hlen : ((List.range M).map x).length = M := by rw [List.length_map, List.length_range]
  rw [stream_closed_form h (by omega), hlen, probe_sq]
  rw [show (1 / ((M : ℂ) + 2)) = ((1 / ((M : ℝ) + 2) : ℝ) : ℂ) by push_cast; rfl, form_smul]
  have hs : ∀ (N : Nat) (g : Nat → Matrix X X ℂ), form (∑ b ∈ Finset.range N, g b) v = ∑ b ∈ Finset.range N, form (g b) v := by
    intro N g
    induction N with
    | zero => simp [form]
    | succ N ih => rw [Finset.sum_range_succ, Finset.sum_range_succ, form_add, ih]
  rw [hs, Finset.sum_range, Finset.mul_sum]
  refine Finset.sum_congr rfl fun b _ => ?_
  rw [show (((b.1 : ℂ) + 2) / ((b.1 : ℂ) + 3)) = ((((b.1 : ℝ) + 2) / ((b.1 : ℝ) + 3) : ℝ) : ℂ) by push_cast; rfl, form_smul, form_outer,
    List.getD_eq_getElem?_getD, List.getElem?_map, List.getElem?_range b.2]
  simp only [Option.map_some, Option.getD_some]
  ring

theorem probe_add {M : Nat} {x y z : Nat → X → ℂ} (h : ∀ b < M, x b = y b + z b) (v : X → ℂ) : probe M x v = probe M y v + probe M z v := by
  ext b
  simp only [probe, PiLp.add_apply]
  rw [h b b.2, star_add, add_dotProduct, mul_add]

theorem probe_le {M : Nat} {x : Nat → X → ℂ} {t : ℝ} (h : ∀ b < M, len2 (x b) ≤ t ^ 2) (v : X → ℂ) : ‖probe M x v‖ ^ 2 ≤ t ^ 2 * len2 v := by
  rw [probe_sq]
  have hv := len2_nonneg v
  calc _ ≤ ∑ b : Fin M, 1 / ((M : ℝ) + 2) * (t ^ 2 * len2 v) := by
        refine Finset.sum_le_sum fun b _ => ?_
        refine mul_le_mul ?_ ((cauchy _ _).trans (mul_le_mul_of_nonneg_right (h b b.2) hv)) (Complex.normSq_nonneg _) (by positivity)
        refine div_le_div_of_nonneg_right ?_ (by positivity)
        rw [div_le_one (by positivity)]
        linarith
    _ = (M : ℝ) / ((M : ℝ) + 2) * (t ^ 2 * len2 v) := by rw [Finset.sum_const, Finset.card_univ, Fintype.card_fin, nsmul_eq_mul]; ring
    _ ≤ 1 * (t ^ 2 * len2 v) := by
        refine mul_le_mul_of_nonneg_right ?_ (mul_nonneg (sq_nonneg _) hv)
        rw [div_le_one (by positivity)]
        linarith
    _ = _ := one_mul _

theorem card_below (k j : Nat) : Fintype.card {a : Fin k // a.1 < j} ≤ j := by
  rw [Fintype.card_subtype]
  calc (Finset.univ.filter fun a : Fin k => a.1 < j).card = ((Finset.univ.filter fun a : Fin k => a.1 < j).map Fin.valEmbedding).card := by
        rw [Finset.card_map]
    _ ≤ (Finset.range j).card := Finset.card_le_card fun a ha => by
        obtain ⟨b, hb, rfl⟩ := Finset.mem_map.1 ha
        exact Finset.mem_range.2 (Finset.mem_filter.1 hb).2
    _ = j := Finset.card_range _

/-- value `i + j` of a sum -/
theorem runs_triangle {k₁ k₂ M : Nat} {x y z : Nat → X → ℂ} {U : Matrix X (Fin k) ℂ} {S : Fin k → ℝ} {U₁ : Matrix X (Fin k₁) ℂ} {S₁ : Fin k₁ → ℝ}
    {U₂ : Matrix X (Fin k₂) ℂ} {S₂ : Fin k₂ → ℝ} (h : StreamRun k ((List.range M).map x) U S) (h₁ : StreamRun k₁ ((List.range M).map y) U₁ S₁)
    (h₂ : StreamRun k₂ ((List.range M).map z) U₂ S₂) (hk : M ≤ k) (hk₁ : M ≤ k₁) (hk₂ : M ≤ k₂) (hs : ∀ b < M, x b = y b + z b)
    (l : Fin k) (i : Fin k₁) (j : Fin k₂) (hl : l.1 = i.1 + j.1) : S l ≤ S₁ i + S₂ j := by
  have n := run_nonneg h
  have n₁ := run_nonneg h₁
  have n₂ := run_nonneg h₂
  rcases eq_or_ne (S l) 0 with h0 | h0
  · rw [h0]; exact add_nonneg (n₁ i) (n₂ j)
  obtain ⟨v, hv, ho, hf⟩ := strong_direction U S (stream_orthonormal h) (run_sorted h) n l h0 (ι := {a : Fin k₁ // a.1 < i.1} ⊕ {a : Fin k₂ // a.1 < j.1})
    (by rw [Fintype.card_sum]; have := card_below k₁ i.1; have := card_below k₂ j.1; omega)
    (Sum.elim (fun a x => U₁ x a.1) fun a x => U₂ x a.1)
  have w₁ := weak_direction U₁ S₁ (stream_orthonormal h₁) (run_sorted h₁) n₁ i.1 v fun a ha => ho (.inl ⟨a, ha⟩)
  have w₂ := weak_direction U₂ S₂ (stream_orthonormal h₂) (run_sorted h₂) n₂ j.1 v fun a ha => ho (.inr ⟨a, ha⟩)
  rw [dif_pos i.2, hv, mul_one, probe_form h₁ hk₁] at w₁
  rw [dif_pos j.2, hv, mul_one, probe_form h₂ hk₂] at w₂
  rw [probe_form h hk] at hf
  have t₁ := (pow_le_pow_iff_left₀ (norm_nonneg _) (n₁ i) two_ne_zero).1 w₁
  have t₂ := (pow_le_pow_iff_left₀ (norm_nonneg _) (n₂ j) two_ne_zero).1 w₂
  have t := (pow_le_pow_iff_left₀ (n l) (norm_nonneg _) two_ne_zero).1 hf
  rw [probe_add hs] at t
  have := norm_add_le (probe M y v) (probe M z v)
  linarith

theorem runs_noise {k₁ M : Nat} {x y : Nat → X → ℂ} {U : Matrix X (Fin k) ℂ} {S : Fin k → ℝ} {U₁ : Matrix X (Fin k₁) ℂ} {S₁ : Fin k₁ → ℝ}
    (h : StreamRun k ((List.range M).map x) U S) (h₁ : StreamRun k₁ ((List.range M).map y) U₁ S₁) (hk : M ≤ k) (hk₁ : M ≤ k₁) (t : ℝ) (ht : 0 ≤ t)
    (hs : ∀ b < M, len2 (x b - y b) ≤ t ^ 2) (l : Fin k) (i : Fin k₁) (hl : l.1 = i.1) : S l ≤ S₁ i + t := by
  have n := run_nonneg h
  have n₁ := run_nonneg h₁
  rcases eq_or_ne (S l) 0 with h0 | h0
  · rw [h0]; exact add_nonneg (n₁ i) ht
  obtain ⟨v, hv, ho, hf⟩ := strong_direction U S (stream_orthonormal h) (run_sorted h) n l h0 (ι := {a : Fin k₁ // a.1 < i.1})
    (by have := card_below k₁ i.1; omega) (fun a x => U₁ x a.1)
  have w₁ := weak_direction U₁ S₁ (stream_orthonormal h₁) (run_sorted h₁) n₁ i.1 v fun a ha => ho ⟨a, ha⟩
  rw [dif_pos i.2, hv, mul_one, probe_form h₁ hk₁] at w₁
  rw [probe_form h hk] at hf
  have w₂ := probe_le (M := M) (x := fun b => x b - y b) hs v
  rw [hv, mul_one] at w₂
  have t₁ := (pow_le_pow_iff_left₀ (norm_nonneg _) (n₁ i) two_ne_zero).1 w₁
  have t₂ := (pow_le_pow_iff_left₀ (norm_nonneg _) ht two_ne_zero).1 w₂
  have t := (pow_le_pow_iff_left₀ (n l) (norm_nonneg _) two_ne_zero).1 hf
  rw [probe_add (x := x) (y := y) (z := fun b => x b - y b) fun b _ => by simp] at t
  have := norm_add_le (probe M y v) (probe M (fun b => x b - y b) v)
  linarith

/-- the blocks restricted to some of the points -/
theorem runs_part {Y : Type} [Fintype Y] [DecidableEq Y] {k' M : Nat} {x : Nat → X → ℂ} {y : Nat → Y → ℂ} {U : Matrix X (Fin k) ℂ} {S : Fin k → ℝ}
    {U' : Matrix Y (Fin k') ℂ} {S' : Fin k' → ℝ} (h : StreamRun k ((List.range M).map x) U S) (h' : StreamRun k' ((List.range M).map y) U' S') (hk : M ≤ k)
    (hk' : M ≤ k') (e : Y → X) (he : Function.Injective e) (hs : ∀ b < M, ∀ i, y b i = x b (e i)) (l : Fin k) (i : Fin k') (hl : i.1 = l.1) : S' i ≤ S l := by
  have n := run_nonneg h
  have n' := run_nonneg h'
  rcases eq_or_ne (S' i) 0 with h0 | h0
  · rw [h0]; exact n l
  obtain ⟨v, hv, ho, hf⟩ := strong_direction U' S' (stream_orthonormal h') (run_sorted h') n' i h0 (ι := {a : Fin k // a.1 < l.1})
    (by have := card_below k l.1; omega) (fun a x => U (e x) a.1)
  let V : X → ℂ := fun p => ∑ q, if e q = p then v q else 0
  have hV : ∀ g : X → ℂ, g ⬝ᵥ V = (fun q => g (e q)) ⬝ᵥ v := by
    intro g
    simp only [dotProduct, V, Finset.mul_sum]
    rw [Finset.sum_comm]
    refine Finset.sum_congr rfl fun q _ => ?_
    rw [Finset.sum_eq_single (e q) (fun p _ hp => by rw [if_neg (Ne.symm hp), mul_zero]) (by simp), if_pos rfl]
  have hVe : ∀ q, V (e q) = v q := fun q => by
    show ∑ q', (if e q' = e q then v q' else 0) = v q
    rw [Finset.sum_eq_single q (fun p _ hp => if_neg fun hh => hp (he hh)) (by simp), if_pos rfl]
  have hVl : len2 V = 1 := by
    have : ((len2 V : ℝ) : ℂ) = len2 v := by
      rw [← len2_dot, ← len2_dot, hV]
      congr 1
      funext q
      simp only [Pi.star_apply, hVe]
    rw [← hv]
    exact_mod_cast this
  have wk := weak_direction U S (stream_orthonormal h) (run_sorted h) n l.1 V fun a ha => by
    rw [hV]
    exact ho ⟨a, ha⟩
  rw [dif_pos l.2, hVl, mul_one, probe_form h hk] at wk
  rw [probe_form h' hk'] at hf
  have hp : probe M y v = probe M x V := by
    ext b
    simp only [probe]
    rw [hV]
    congr 2
    funext q
    simp only [Pi.star_apply, hs b b.2]
  rw [hp] at hf
  exact (pow_le_pow_iff_left₀ (n' i) (n l) two_ne_zero).1 (hf.trans wk)

/-- the blocks of two parts -/
theorem runs_cut {X₁ X₂ : Type} [Fintype X₁] [DecidableEq X₁] [Fintype X₂] [DecidableEq X₂] {k₁ k₂ M : Nat} {x : Nat → X → ℂ} {y : Nat → X₁ → ℂ}
    {z : Nat → X₂ → ℂ} {U : Matrix X (Fin k) ℂ} {S : Fin k → ℝ} {U₁ : Matrix X₁ (Fin k₁) ℂ} {S₁ : Fin k₁ → ℝ} {U₂ : Matrix X₂ (Fin k₂) ℂ} {S₂ : Fin k₂ → ℝ}
    (h : StreamRun k ((List.range M).map x) U S) (h₁ : StreamRun k₁ ((List.range M).map y) U₁ S₁) (h₂ : StreamRun k₂ ((List.range M).map z) U₂ S₂)
    (hk : M ≤ k) (hk₁ : M ≤ k₁) (hk₂ : M ≤ k₂) (e : X₁ ⊕ X₂ ≃ X) (hy : ∀ b < M, ∀ i, y b i = x b (e (.inl i))) (hz : ∀ b < M, ∀ i, z b i = x b (e (.inr i)))
    (l : Fin k) (i : Fin k₁) (j : Fin k₂) (hl : l.1 = i.1 + j.1) : S l ^ 2 ≤ S₁ i ^ 2 + S₂ j ^ 2 := by
  have n := run_nonneg h
  have n₁ := run_nonneg h₁
  have n₂ := run_nonneg h₂
  rcases eq_or_ne (S l) 0 with h0 | h0
  · rw [h0, zero_pow two_ne_zero]; exact add_nonneg (sq_nonneg _) (sq_nonneg _)
  have dot : ∀ g v : X → ℂ, g ⬝ᵥ v = (fun a => g (e (.inl a))) ⬝ᵥ (fun a => v (e (.inl a))) + (fun a => g (e (.inr a))) ⬝ᵥ fun a => v (e (.inr a)) := by
    intro g v
    simp only [dotProduct]
    rw [← Equiv.sum_comp e, Fintype.sum_sum_type]
  obtain ⟨v, hv, ho, hf⟩ := strong_direction U S (stream_orthonormal h) (run_sorted h) n l h0 (ι := {a : Fin k₁ // a.1 < i.1} ⊕ {a : Fin k₂ // a.1 < j.1})
    (by rw [Fintype.card_sum]; have := card_below k₁ i.1; have := card_below k₂ j.1; omega)
    (Sum.elim (fun a p => Sum.elim (fun q => U₁ q a.1) (fun _ => 0) (e.symm p)) fun a p => Sum.elim (fun _ => 0) (fun q => U₂ q a.1) (e.symm p))
  have w₁ := weak_direction U₁ S₁ (stream_orthonormal h₁) (run_sorted h₁) n₁ i.1 (fun a => v (e (.inl a))) fun a ha => by
    have := ho (.inl ⟨a, ha⟩)
    rw [dot] at this
    simpa [dotProduct] using this
  have w₂ := weak_direction U₂ S₂ (stream_orthonormal h₂) (run_sorted h₂) n₂ j.1 (fun a => v (e (.inr a))) fun a ha => by
    have := ho (.inr ⟨a, ha⟩)
    rw [dot] at this
    simpa [dotProduct] using this
  have hvl : len2 (fun a => v (e (.inl a))) + len2 (fun a => v (e (.inr a))) = 1 := by
    rw [← hv, len2, len2, len2, ← Equiv.sum_comp e, Fintype.sum_sum_type]
  rw [dif_pos i.2, probe_form h₁ hk₁] at w₁
  rw [dif_pos j.2, probe_form h₂ hk₂] at w₂
  rw [probe_form h hk] at hf
  have hp : probe M x v = probe M y (fun a => v (e (.inl a))) + probe M z fun a => v (e (.inr a)) := by
    ext b
    simp only [probe, PiLp.add_apply]
    rw [dot, ← mul_add]
    congr 3 <;> funext q <;> simp only [Pi.star_apply, hy b b.2, hz b b.2]
  rw [hp] at hf
  have q₁ := len2_nonneg fun a => v (e (.inl a))
  have q₂ := len2_nonneg fun a => v (e (.inr a))
  set a := len2 fun a => v (e (.inl a))
  set b := len2 fun a => v (e (.inr a))
  set A := probe M y fun a => v (e (.inl a))
  set B := probe M z fun a => v (e (.inr a))
  have c1 : ‖A‖ ≤ S₁ i * Real.sqrt a := by
    refine (pow_le_pow_iff_left₀ (norm_nonneg _) (mul_nonneg (n₁ i) (Real.sqrt_nonneg _)) two_ne_zero).1 ?_
    rwa [mul_pow, Real.sq_sqrt q₁]
  have c2 : ‖B‖ ≤ S₂ j * Real.sqrt b := by
    refine (pow_le_pow_iff_left₀ (norm_nonneg _) (mul_nonneg (n₂ j) (Real.sqrt_nonneg _)) two_ne_zero).1 ?_
    rwa [mul_pow, Real.sq_sqrt q₂]
  have c3 : ‖A + B‖ ^ 2 ≤ (S₁ i * Real.sqrt a + S₂ j * Real.sqrt b) ^ 2 :=
    pow_le_pow_left₀ (norm_nonneg _) ((norm_add_le _ _).trans (add_le_add c1 c2)) 2
  have c4 : (S₁ i * Real.sqrt a + S₂ j * Real.sqrt b) ^ 2 ≤ (S₁ i ^ 2 + S₂ j ^ 2) * (a + b) := by
    have := sq_nonneg (S₁ i * Real.sqrt b - S₂ j * Real.sqrt a)
    have e1 := Real.sq_sqrt q₁
    have e2 := Real.sq_sqrt q₂
    nlinarith
  rw [hvl, mul_one] at c4
  linarith

/-- the sum of the squares -/
theorem runs_sum {M : Nat} {x : Nat → X → ℂ} {U : Matrix X (Fin k) ℂ} {S : Fin k → ℝ} (h : StreamRun k ((List.range M).map x) U S) (hk : M ≤ k) :
    ∑ j, S j ^ 2 = ∑ b : Fin M, ((b.1 : ℝ) + 2) / ((b.1 : ℝ) + 3) / ((M : ℝ) + 2) * len2 (x b) := by
  rw [← trace_density U S (stream_orthonormal h)]
  have ht : (Matrix.trace (density U S)).re = ∑ i : X, form (density U S) (Pi.single i 1) := by
    rw [Matrix.trace, Complex.re_sum]
    refine Finset.sum_congr rfl fun i _ => ?_
    simp [form]
  rw [ht]
  simp only [probe_form h hk, probe_sq]
  rw [Finset.sum_comm]
  refine Finset.sum_congr rfl fun b _ => ?_
  rw [← Finset.mul_sum]
  congr 1
  refine Finset.sum_congr rfl fun i _ => ?_
  rw [dotProduct_single, mul_one, Pi.star_apply, Complex.star_def, Complex.normSq_conj]

end

/-- as many modes are kept as blocks are read -/
def AllKept (c : Cfg) (nt : Nat) : Prop := ∀ m, streamStart (Stream.nPar c.nDft (sep c)) (sep c) m + c.nDft ≤ nt → m < kept c nt

theorem AllKept.updates {c : Cfg} {nt : Nat} (h : AllKept c nt) (ω : ℂ) (hn : 0 < c.nDft) (hd : 0 < sep c) : nUpdates c ω nt ≤ kept c nt := by
  by_contra hcon
  push Not at hcon
  have := h (kept c nt) ((nUpdates_spec c ω hn hd nt _).1 hcon)
  omega

/-- a streaming fit leaves `out`: serially, and on every number of ranks (none of which is left with a single number) in every order of the element writes -/
def StreamGives (c : Cfg) (ω : ℂ) (frames : List (Arr ℝ)) (w : Arr ℝ) (svd : Svd (kept c frames.length)) (out : SOut (kept c frames.length)) : Prop :=
  streamSerial c ω frames w svd = some out ∧
    ∀ p, 0 < p → NoSingleton w p → ∀ s : (β : Type) → List (Write β) → List (Write β), (∀ β l, (s β l).Perm l) → streamParallel c ω frames w svd p s = some out

theorem StreamAccepted.gives {c frames w} (h : StreamAccepted c frames w) (ω : ℂ) (svd : Svd (SFit.kept c frames.length)) :
    StreamGives c ω frames w svd (globalStream c ω frames w svd) := h.runs ω svd

/-- a streaming fit at a frequency with independent blocks -/
theorem whole_run {c : Cfg} {ω : ℂ} {frames : List (Arr ℝ)} {w : Arr ℝ} (h : StreamAccepted c frames w) (svd : Svd (kept c frames.length))
    (hsvd : ∀ K, Stream.IsSVD K (svd K).1 (svd K).2) (f : Nat) (hind : Independent c ω frames w f) :
    StreamRun (kept c frames.length) ((List.range (nUpdates c ω frames.length)).map (specVec c ω frames w f))
      (basisMat w.shape ((lastBasis c ω frames.length f frames w svd).U 0)) ((globalStream c ω frames w svd).eigs f) := by
  have r := basis_run w.shape svd hsvd (fun m idx => newCol c ω f m (w.at' idx) (atIdx idx frames)) (nUpdates c ω frames.length)
    (independent_cols c ω frames w h f hind)
  rwa [List.map_congr_left fun m hm => col_spec h f m (List.mem_range.1 hm)] at r

/-- snapshot `t` at `x` -/
noncomputable def snapAt (frames : List (Arr ℝ)) (t : Nat) (x : List Nat) : ℝ := (frames.getD t ⟨[], fun _ => 0⟩).at' x

theorem snapAt_eq (frames : List (Arr ℝ)) (x : List Nat) (t : Nat) (ht : t < frames.length) : (frames.map fun a => a.at' x).getD t 0 = snapAt frames t x := by
  simp [snapAt, List.getD_eq_getElem?_getD, List.getElem?_eq_getElem ht]

theorem zip_sub_getD (u v : List ℝ) (t : Nat) (hu : t < u.length) (hv : t < v.length) : (List.zipWith (· - ·) u v).getD t 0 = u.getD t 0 - v.getD t 0 := by
  simp [List.getD_eq_getElem?_getD, hu, hv]

theorem len2_neg {X : Type} [Fintype X] (v : X → ℂ) : len2 (-v) = len2 v := by simp [len2]

theorem specBlock_two (c : Cfg) (ω : ℂ) (f m : Nat) (u u₁ u₂ : List ℝ) (a b : ℝ) (N : Nat) (h : ∀ t < N, u.getD t 0 = a * u₁.getD t 0 + b * u₂.getD t 0)
    (hm : streamStart (Stream.nPar c.nDft (sep c)) (sep c) m + c.nDft ≤ N) :
    specBlock c ω f m u = (a : ℂ) * specBlock c ω f m u₁ + (b : ℂ) * specBlock c ω f m u₂ := by
  have := specBlock_linear c ω f m u (![u₁, u₂] : Fin 2 → List ℝ) (![a, b] : Fin 2 → ℝ) N (fun t ht => by rw [Fin.sum_univ_two]; exact h t ht) hm
  rw [Fin.sum_univ_two] at this
  exact this

/-- the transform of a small block is small -/
theorem specBlock_le (c : Cfg) (ω : ℂ) (hω : ‖ω‖ = 1) (u : List ℝ) (ε : ℝ) (N : Nat) (hu : ∀ t < N, |u.getD t 0| ≤ ε) (hn : 0 < c.nDft)
    (hwin : ∀ t, 0 ≤ c.win.getD t 0) (hsum : 0 < c.win.sum) (hlen : c.win.length = c.nDft) (f m : Nat)
    (hm : streamStart (Stream.nPar c.nDft (sep c)) (sep c) m + c.nDft ≤ N) : ‖specBlock c ω f m u‖ ≤ 4 * ε := by
  unfold specBlock
  simp only
  set s := streamStart (Stream.nPar c.nDft (sep c)) (sep c) m with hs
  have h0 : 0 ≤ ε := (abs_nonneg _).trans (hu s (by omega))
  have hmean : ‖(∑ i ∈ Finset.range (s + c.nDft), ((u.getD i 0 : ℝ) : ℂ)) / ((s + c.nDft : Nat) : ℂ)‖ ≤ ε := by
    rw [norm_div, Complex.norm_natCast, div_le_iff₀ (by exact_mod_cast (by omega : 0 < s + c.nDft))]
    refine (norm_sum_le _ _).trans ?_
    calc _ ≤ ∑ _i ∈ Finset.range (s + c.nDft), ε := Finset.sum_le_sum fun i hi => by
          rw [Complex.norm_real]; exact hu i (by have := Finset.mem_range.1 hi; omega)
      _ = _ := by rw [Finset.sum_const, Finset.card_range, nsmul_eq_mul, mul_comm]
  have hd : ∀ t, ‖Stream.dftMat ω c.isreal (nFreq c.nDft c.isreal c.full) f t‖ ≤ 2 := by
    intro t
    unfold Stream.dftMat
    split
    · rw [norm_mul, norm_pow, hω, one_pow]; simp
    · rw [norm_pow, hω, one_pow]; norm_num
  have hterm : ∀ t ∈ Finset.range c.nDft, ‖((c.win.getD t 0 : ℝ) : ℂ) * Stream.dftMat ω c.isreal (nFreq c.nDft c.isreal c.full) f t *
      (((u.getD (s + t) 0 : ℝ) : ℂ) - (∑ i ∈ Finset.range (s + c.nDft), ((u.getD i 0 : ℝ) : ℂ)) / ((s + c.nDft : Nat) : ℂ))‖ ≤ c.win.getD t 0 * (4 * ε) := by
    intro t ht
    have ht := Finset.mem_range.1 ht
    rw [norm_mul, norm_mul, Complex.norm_real, Real.norm_eq_abs, abs_of_nonneg (hwin t)]
    have e1 : ‖((u.getD (s + t) 0 : ℝ) : ℂ) - (∑ i ∈ Finset.range (s + c.nDft), ((u.getD i 0 : ℝ) : ℂ)) / ((s + c.nDft : Nat) : ℂ)‖ ≤ 2 * ε := by
      refine (norm_sub_le _ _).trans ?_
      have := hu (s + t) (by omega)
      rw [Complex.norm_real, Real.norm_eq_abs]
      linarith
    calc _ ≤ c.win.getD t 0 * 2 * (2 * ε) := mul_le_mul (mul_le_mul_of_nonneg_left (hd t) (hwin t)) e1 (norm_nonneg _) (mul_nonneg (hwin t) (by norm_num))
      _ = _ := by ring
  have hws : ∑ t ∈ Finset.range c.nDft, c.win.getD t 0 = c.win.sum := by
    rw [← hlen, Finset.sum_range, ← Fin.sum_univ_getElem c.win]
    refine Finset.sum_congr rfl fun t _ => ?_
    rw [List.getD_eq_getElem?_getD, List.getElem?_eq_getElem t.2, Option.getD_some]
  have hW : ‖((winWeight c.win : ℝ) : ℂ) / (c.nDft : ℂ)‖ = 1 / c.win.sum := by
    have hn' : (c.nDft : ℝ) ≠ 0 := by exact_mod_cast hn.ne'
    rw [norm_div, Complex.norm_natCast, Complex.norm_real, winWeight, hlen, Real.norm_eq_abs, abs_of_nonneg (by positivity)]
    field_simp
  rw [norm_mul, hW]
  calc _ ≤ 1 / c.win.sum * ∑ t ∈ Finset.range c.nDft, c.win.getD t 0 * (4 * ε) :=
        mul_le_mul_of_nonneg_left ((norm_sum_le _ _).trans (Finset.sum_le_sum hterm)) (by positivity)
    _ = 4 * ε := by rw [← Finset.sum_mul, hws]; field_simp

section
variable {c : Cfg} {ω : ℂ} {w : Arr ℝ}

/-- **C220.** Streaming fits of two records and of their sum, with as many modes kept as blocks are read, any correct routines `svd` and any number of ranks: at
    every frequency at which the blocks of each record are independent, eigenvalue `i + j` of the sum (counted from 0) is at most eigenvalue `i` of the one plus
    eigenvalue `j` of the other. -/
theorem stream_triangle {frames frames₁ frames₂ : List (Arr ℝ)} (h : StreamAccepted c frames w) (h₁ : StreamAccepted c frames₁ w)
    (h₂ : StreamAccepted c frames₂ w) (l₁ : frames₁.length = frames.length) (l₂ : frames₂.length = frames.length)
    (hs : ∀ t < frames.length, ∀ x, InRange w.shape x → snapAt frames t x = snapAt frames₁ t x + snapAt frames₂ t x) (hk : AllKept c frames.length)
    (svd : Svd (kept c frames.length)) (svd₁ : Svd (kept c frames₁.length)) (svd₂ : Svd (kept c frames₂.length))
    (hsvd : ∀ K, Stream.IsSVD K (svd K).1 (svd K).2) (hsvd₁ : ∀ K, Stream.IsSVD K (svd₁ K).1 (svd₁ K).2)
    (hsvd₂ : ∀ K, Stream.IsSVD K (svd₂ K).1 (svd₂ K).2) :
    ∃ out out₁ out₂, StreamGives c ω frames w svd out ∧ StreamGives c ω frames₁ w svd₁ out₁ ∧ StreamGives c ω frames₂ w svd₂ out₂ ∧
      ∀ f, Independent c ω frames w f → Independent c ω frames₁ w f → Independent c ω frames₂ w f →
        ∀ l i j, l.1 = i.1 + j.1 → out.eigs f l ≤ out₁.eigs f i + out₂.eigs f j := by
  refine ⟨_, _, _, h.gives ω svd, h₁.gives ω svd₁, h₂.gives ω svd₂, fun f i0 i1 i2 l i j hl => ?_⟩
  have r := whole_run h svd hsvd f i0
  have r₁ := whole_run h₁ svd₁ hsvd₁ f i1
  have r₂ := whole_run h₂ svd₂ hsvd₂ f i2
  have m0 := hk.updates ω h.dft h.sep
  have e₁ : nUpdates c ω frames₁.length = nUpdates c ω frames.length := by rw [l₁]
  have e₂ : nUpdates c ω frames₂.length = nUpdates c ω frames.length := by rw [l₂]
  have k₁ : kept c frames₁.length = kept c frames.length := by rw [l₁]
  have k₂ : kept c frames₂.length = kept c frames.length := by rw [l₂]
  rw [e₁] at r₁
  rw [e₂] at r₂
  refine runs_triangle r r₁ r₂ m0 (by omega) (by omega) (fun b hb => ?_) l i j hl
  have hb' := (nUpdates_spec c ω h.dft h.sep frames.length b).1 hb
  funext x
  simp only [specVec, Pi.add_apply]
  rw [specBlock_two c ω f b _ (frames₁.map fun a => a.at' (unravel w.shape x)) (frames₂.map fun a => a.at' (unravel w.shape x)) 1 1 frames.length (fun t ht => by
    rw [snapAt_eq _ _ _ ht, snapAt_eq _ _ _ (by omega), snapAt_eq _ _ _ (by omega), hs t ht _ (inRange_unravel x.2)]; ring) hb']
  push_cast
  ring

/-- **C220**, noise: if no value of the records differs by more than `ε`, no eigenvalue differs by more than `4 ε √(Σ w)`. -/
theorem stream_noise {frames frames' : List (Arr ℝ)} (hω : ‖ω‖ = 1) (h : StreamAccepted c frames w) (h' : StreamAccepted c frames' w)
    (hl : frames'.length = frames.length) (hwin : ∀ t, 0 ≤ c.win.getD t 0) (hsum : 0 < c.win.sum) (hlen : c.win.length = c.nDft)
    (hw : ∀ idx, InRange w.shape idx → 0 ≤ w.at' idx) (ε : ℝ) (hε0 : 0 ≤ ε)
    (hε : ∀ t < frames.length, ∀ x, InRange w.shape x → |snapAt frames t x - snapAt frames' t x| ≤ ε) (hk : AllKept c frames.length)
    (svd : Svd (kept c frames.length)) (svd' : Svd (kept c frames'.length)) (hsvd : ∀ K, Stream.IsSVD K (svd K).1 (svd K).2)
    (hsvd' : ∀ K, Stream.IsSVD K (svd' K).1 (svd' K).2) :
    ∃ out out', StreamGives c ω frames w svd out ∧ StreamGives c ω frames' w svd' out' ∧
      ∀ f, Independent c ω frames w f → Independent c ω frames' w f →
        ∀ j j', j.1 = j'.1 → |out.eigs f j - out'.eigs f j'| ≤ 4 * ε * Real.sqrt (∑ x : Fin (size w.shape), w.at' (unravel w.shape x)) := by
  refine ⟨_, _, h.gives ω svd, h'.gives ω svd', fun f i0 i1 j j' hj => ?_⟩
  have r := whole_run h svd hsvd f i0
  have r' := whole_run h' svd' hsvd' f i1
  have m0 := hk.updates ω h.dft h.sep
  have e₁ : nUpdates c ω frames'.length = nUpdates c ω frames.length := by rw [hl]
  have k₁ : kept c frames'.length = kept c frames.length := by rw [hl]
  rw [e₁] at r'
  have hW : 0 ≤ ∑ x : Fin (size w.shape), w.at' (unravel w.shape x) := Finset.sum_nonneg fun x _ => hw _ (inRange_unravel x.2)
  have hbound : ∀ b < nUpdates c ω frames.length, len2 (specVec c ω frames w f b - specVec c ω frames' w f b) ≤
      (4 * ε * Real.sqrt (∑ x : Fin (size w.shape), w.at' (unravel w.shape x))) ^ 2 := by
    intro b hb
    have hb' := (nUpdates_spec c ω h.dft h.sep frames.length b).1 hb
    rw [mul_pow, Real.sq_sqrt hW, Finset.mul_sum]
    refine Finset.sum_le_sum fun x _ => ?_
    simp only [specVec, Pi.sub_apply]
    rw [← sub_mul, Complex.normSq_mul, Complex.normSq_ofReal, Real.mul_self_sqrt (hw _ (inRange_unravel x.2))]
    refine mul_le_mul_of_nonneg_right ?_ (hw _ (inRange_unravel x.2))
    have lin := specBlock_two c ω f b (List.zipWith (· - ·) (frames.map fun a => a.at' (unravel w.shape x)) (frames'.map fun a => a.at' (unravel w.shape x)))
      (frames.map fun a => a.at' (unravel w.shape x)) (frames'.map fun a => a.at' (unravel w.shape x)) 1 (-1) frames.length (fun t ht => by
        rw [zip_sub_getD _ _ _ (by simpa using ht) (by simpa [hl] using ht)]; ring) hb'
    have sm := specBlock_le c ω hω (List.zipWith (· - ·) (frames.map fun a => a.at' (unravel w.shape x)) (frames'.map fun a => a.at' (unravel w.shape x))) ε
      frames.length (fun t ht => by
        rw [zip_sub_getD _ _ _ (by simpa using ht) (by simpa [hl] using ht), snapAt_eq _ _ _ ht, snapAt_eq _ _ _ (by omega)]
        exact hε t ht _ (inRange_unravel x.2)) h.dft hwin hsum hlen f b hb'
    rw [lin] at sm
    have e : specBlock c ω f b (frames.map fun a => a.at' (unravel w.shape x)) - specBlock c ω f b (frames'.map fun a => a.at' (unravel w.shape x)) =
      ((1 : ℝ) : ℂ) * specBlock c ω f b (frames.map fun a => a.at' (unravel w.shape x)) +
        ((-1 : ℝ) : ℂ) * specBlock c ω f b (frames'.map fun a => a.at' (unravel w.shape x)) := by push_cast; ring
    rw [e, ← Complex.sq_norm]
    exact pow_le_pow_left₀ (norm_nonneg _) sm 2
  have ht : 0 ≤ 4 * ε * Real.sqrt (∑ x : Fin (size w.shape), w.at' (unravel w.shape x)) := by positivity
  rw [abs_sub_le_iff]
  constructor
  · have := runs_noise r r' m0 (by omega) _ ht hbound j j' hj
    linarith
  · have := runs_noise r' r (by omega) m0 _ ht (fun b hb => by
      have := hbound b hb
      rw [show specVec c ω frames w f b - specVec c ω frames' w f b = -(specVec c ω frames' w f b - specVec c ω frames w f b) by simp, len2_neg] at this
      exact this) j' j hj.symm
    linarith


/-- the points of one record among those of another, with the same weights and data -/
structure StreamPart (frames frames' : List (Arr ℝ)) (w w' : Arr ℝ) (e : Fin (size w'.shape) → Fin (size w.shape)) : Prop where
  length : frames'.length = frames.length
  weights : ∀ x : Fin (size w'.shape), w'.at' (unravel w'.shape x) = w.at' (unravel w.shape (e x))
  data : ∀ t < frames.length, ∀ x : Fin (size w'.shape), snapAt frames' t (unravel w'.shape x) = snapAt frames t (unravel w.shape (e x))

theorem StreamPart.spec {frames frames' : List (Arr ℝ)} {w w' : Arr ℝ} {e : Fin (size w'.shape) → Fin (size w.shape)} (h : StreamPart frames frames' w w' e)
    (f b : Nat) (hb : streamStart (Stream.nPar c.nDft (sep c)) (sep c) b + c.nDft ≤ frames.length) (x : Fin (size w'.shape)) :
    specVec c ω frames' w' f b x = specVec c ω frames w f b (e x) := by
  simp only [specVec]
  rw [h.weights x, specBlock_two c ω f b _ (frames.map fun a => a.at' (unravel w.shape (e x))) [] 1 0 frames.length (fun t ht => by
    rw [snapAt_eq _ _ _ ht, snapAt_eq _ _ _ (by rw [h.length]; exact ht), h.data t ht]; ring) hb]
  push_cast
  ring

/-- blocks that are independent on a part are independent -/
theorem StreamPart.independent {frames frames' : List (Arr ℝ)} {w w' : Arr ℝ} {e : Fin (size w'.shape) → Fin (size w.shape)} (h : StreamPart frames frames' w w' e)
    (f : Nat) (hi : Independent c ω frames' w' f) : Independent c ω frames w f := by
  intro m hm hmem
  refine hi m (by rw [h.length]; exact hm) ?_
  have key := Submodule.mem_map_of_mem (f := LinearMap.funLeft ℂ ℂ e) hmem
  rw [Submodule.map_span] at key
  have hv : ∀ m' ≤ m, LinearMap.funLeft ℂ ℂ e (specVec c ω frames w f m') = specVec c ω frames' w' f m' := fun m' hm' => funext fun i =>
    (h.spec f m' (by
      have := streamStart_mono (P := Stream.nPar c.nDft (sep c)) (dn := sep c) hm'
      omega) i).symm
  rw [hv m le_rfl] at key
  refine Submodule.span_mono ?_ key
  rintro v ⟨u, ⟨m', hm', rfl⟩, rfl⟩
  exact ⟨m', hm', hv m' hm'.le⟩

/-- **C221.** A part of a domain: no eigenvalue of a streaming fit of the part exceeds that of the whole (with as many modes kept as blocks are read, at
    frequencies at which the blocks are independent on the part). -/
theorem stream_domain_mono {w' : Arr ℝ} {frames frames' : List (Arr ℝ)} (h : StreamAccepted c frames w) (h' : StreamAccepted c frames' w')
    (e : Fin (size w'.shape) → Fin (size w.shape)) (he : Function.Injective e) (hp : StreamPart frames frames' w w' e) (hk : AllKept c frames.length)
    (svd : Svd (kept c frames.length)) (svd' : Svd (kept c frames'.length)) (hsvd : ∀ K, Stream.IsSVD K (svd K).1 (svd K).2)
    (hsvd' : ∀ K, Stream.IsSVD K (svd' K).1 (svd' K).2) :
    ∃ out out', StreamGives c ω frames w svd out ∧ StreamGives c ω frames' w' svd' out' ∧
      ∀ f, Independent c ω frames' w' f → ∀ j j', j.1 = j'.1 → out'.eigs f j' ≤ out.eigs f j := by
  refine ⟨_, _, h.gives ω svd, h'.gives ω svd', fun f i1 j j' hj => ?_⟩
  have r := whole_run h svd hsvd f (hp.independent f i1)
  have r' := whole_run h' svd' hsvd' f i1
  have m0 := hk.updates ω h.dft h.sep
  have e₁ : nUpdates c ω frames'.length = nUpdates c ω frames.length := by rw [hp.length]
  have k₁ : kept c frames'.length = kept c frames.length := by rw [hp.length]
  rw [e₁] at r'
  exact runs_part r r' m0 (by omega) e he (fun b hb x => hp.spec f b ((nUpdates_spec c ω h.dft h.sep frames.length b).1 hb) x) j j' hj.symm

/-- **C221**, a domain cut into two: the squares of the eigenvalues of the parts add up to those of the whole, and the square of eigenvalue `i + j` of the whole
    is at most the square of eigenvalue `i` of the one part plus that of eigenvalue `j` of the other. -/
theorem stream_parts {w₁ w₂ : Arr ℝ} {frames frames₁ frames₂ : List (Arr ℝ)} (h : StreamAccepted c frames w) (h₁ : StreamAccepted c frames₁ w₁)
    (h₂ : StreamAccepted c frames₂ w₂) (e : Fin (size w₁.shape) ⊕ Fin (size w₂.shape) ≃ Fin (size w.shape))
    (p₁ : StreamPart frames frames₁ w w₁ fun x => e (.inl x)) (p₂ : StreamPart frames frames₂ w w₂ fun x => e (.inr x)) (hk : AllKept c frames.length)
    (svd : Svd (kept c frames.length)) (svd₁ : Svd (kept c frames₁.length)) (svd₂ : Svd (kept c frames₂.length))
    (hsvd : ∀ K, Stream.IsSVD K (svd K).1 (svd K).2) (hsvd₁ : ∀ K, Stream.IsSVD K (svd₁ K).1 (svd₁ K).2)
    (hsvd₂ : ∀ K, Stream.IsSVD K (svd₂ K).1 (svd₂ K).2) :
    ∃ out out₁ out₂, StreamGives c ω frames w svd out ∧ StreamGives c ω frames₁ w₁ svd₁ out₁ ∧ StreamGives c ω frames₂ w₂ svd₂ out₂ ∧
      ∀ f, Independent c ω frames₁ w₁ f → Independent c ω frames₂ w₂ f →
        ∑ j, out.eigs f j ^ 2 = ∑ j, out₁.eigs f j ^ 2 + ∑ j, out₂.eigs f j ^ 2 ∧
        ∀ l i j, l.1 = i.1 + j.1 → out.eigs f l ^ 2 ≤ out₁.eigs f i ^ 2 + out₂.eigs f j ^ 2 := by
  refine ⟨_, _, _, h.gives ω svd, h₁.gives ω svd₁, h₂.gives ω svd₂, fun f i1 i2 => ?_⟩
  have r := whole_run h svd hsvd f (p₁.independent f i1)
  have r₁ := whole_run h₁ svd₁ hsvd₁ f i1
  have r₂ := whole_run h₂ svd₂ hsvd₂ f i2
  have m0 := hk.updates ω h.dft h.sep
  have e₁ : nUpdates c ω frames₁.length = nUpdates c ω frames.length := by rw [p₁.length]
  have e₂ : nUpdates c ω frames₂.length = nUpdates c ω frames.length := by rw [p₂.length]
  have k₁ : kept c frames₁.length = kept c frames.length := by rw [p₁.length]
  have k₂ : kept c frames₂.length = kept c frames.length := by rw [p₂.length]
  rw [e₁] at r₁
  rw [e₂] at r₂
  have s₁ := fun b hb x => p₁.spec (c := c) (ω := ω) f b ((nUpdates_spec c ω h.dft h.sep frames.length b).1 hb) x
  have s₂ := fun b hb x => p₂.spec (c := c) (ω := ω) f b ((nUpdates_spec c ω h.dft h.sep frames.length b).1 hb) x
  refine ⟨?_, fun l i j hl => runs_cut r r₁ r₂ m0 (by omega) (by omega) e s₁ s₂ l i j hl⟩
  rw [runs_sum r m0, runs_sum r₁ (by omega), runs_sum r₂ (by omega), ← Finset.sum_add_distrib]
  refine Finset.sum_congr rfl fun b _ => ?_
  rw [← mul_add, len2, len2, len2, ← Equiv.sum_comp e, Fintype.sum_sum_type]
  simp only [s₁ b b.2, s₂ b b.2]

end

/-! #### The hypotheses are met -/

theorem sex_kept : AllKept sexCfg sexFrames.length := sex_few

/-- the first two points of `copyFrames` are `sexFrames` -/
theorem copy_part : StreamPart copyFrames sexFrames copyWeights sexWeights fun i => ⟨i.1, lt_trans i.2 (by decide)⟩ where
  length := by simp [copyFrames, sexFrames]
  weights := by
    intro i
    have : i = (0 : Fin 2) ∨ i = (1 : Fin 2) := (fun i : Fin 2 => (by omega : i = 0 ∨ i = 1)) i
    rcases this with rfl | rfl <;> simp [copyWeights, sexWeights, unravel, size] <;> norm_num
  data := by
    intro t ht i
    have ht : t < 6 := by simpa [copyFrames] using ht
    have : i = (0 : Fin 2) ∨ i = (1 : Fin 2) := (fun i : Fin 2 => (by omega : i = 0 ∨ i = 1)) i
    rcases this with rfl | rfl <;> simp [snapAt, copyFrames, sexFrames, copyWeights, sexWeights, unravel, size, List.getD_eq_getElem?_getD, ht]

/-- `stream_domain_mono`: two of three points -/
example : ∃ (svd : Svd 2) (out out' : SOut 2), streamSerial sexCfg (-Complex.I) copyFrames copyWeights svd = some out ∧
    streamSerial sexCfg (-Complex.I) sexFrames sexWeights svd = some out' ∧ ∀ f < 3, ∀ j, out'.eigs f j ≤ out.eigs f j := by
  choose g1 g2 hg using fun K : Matrix (Fin 2 ⊕ Unit) (Fin 2 ⊕ Unit) ℂ => svd_exists K
  obtain ⟨out, out', h1, h2, h3⟩ := stream_domain_mono (ω := -Complex.I) copy_accepted sex_accepted _ (fun i j h => Fin.ext (Fin.mk.inj h)) copy_part
    (by rw [show copyFrames.length = sexFrames.length by simp [copyFrames, sexFrames]]; exact sex_kept) (fun K => (g1 K, g2 K)) (fun K => (g1 K, g2 K)) hg hg
  exact ⟨_, out, out', h1.1, h2.1, fun f hf j => h3 f (sex_independent f hf) j j rfl⟩

/-- `sexFrames` twice, side by side -/
def twinFrames : List (Arr ℝ) :=
  (List.range 6).map fun (t : Nat) => ⟨[4, 1], fun i => if i.getD 0 0 % 2 = 0 then (if t = 1 then 1 else 0) else if t = 4 then 1 else 0⟩

def twinWeights : Arr ℝ := ⟨[4, 1], fun i => (i.getD 0 0 % 2 + 1 : ℕ)⟩

theorem twin_accepted : StreamAccepted sexCfg twinFrames twinWeights where
  shapes := by
    intro a ha
    simp only [twinFrames, List.mem_map] at ha
    obtain ⟨t, -, rfl⟩ := ha
    rfl
  space := by simp [twinWeights]
  mean := by decide
  blocks := by
    have hlen : twinFrames.length = 6 := by simp [twinFrames]
    rw [hlen]; decide
  overlap := by decide
  save := by decide
  points := by decide

theorem twin_part (s : Nat) (hs : s = 0 ∨ s = 2) : StreamPart twinFrames sexFrames twinWeights sexWeights fun i => ⟨s + i.1, by
    have : i.1 < 2 := i.2
    show s + i.1 < 4
    omega⟩ where
  length := by simp [twinFrames, sexFrames]
  weights := by
    intro i
    have : i = (0 : Fin 2) ∨ i = (1 : Fin 2) := (fun i : Fin 2 => (by omega : i = 0 ∨ i = 1)) i
    rcases this with rfl | rfl <;> rcases hs with rfl | rfl <;> simp [twinWeights, sexWeights, unravel, size]
  data := by
    intro t ht i
    have ht : t < 6 := by simpa [twinFrames] using ht
    have : i = (0 : Fin 2) ∨ i = (1 : Fin 2) := (fun i : Fin 2 => (by omega : i = 0 ∨ i = 1)) i
    rcases this with rfl | rfl <;> rcases hs with rfl | rfl <;>
      simp [snapAt, twinFrames, sexFrames, twinWeights, sexWeights, unravel, size, List.getD_eq_getElem?_getD, ht]

/-- `stream_parts`: the two halves are equal, the sum of squares is twice that of one -/
example : ∃ (svd : Svd 2) (out out' : SOut 2), streamSerial sexCfg (-Complex.I) twinFrames twinWeights svd = some out ∧
    streamSerial sexCfg (-Complex.I) sexFrames sexWeights svd = some out' ∧ ∀ f < 3, ∑ j, out.eigs f j ^ 2 = 2 * ∑ j, out'.eigs f j ^ 2 := by
  choose g1 g2 hg using fun K : Matrix (Fin 2 ⊕ Unit) (Fin 2 ⊕ Unit) ℂ => svd_exists K
  obtain ⟨out, out₁, out₂, h1, h2, h2', h3⟩ := stream_parts (ω := -Complex.I) twin_accepted sex_accepted sex_accepted (finSumFinEquiv : Fin 2 ⊕ Fin 2 ≃ Fin 4)
    (by
      have := twin_part 0 (Or.inl rfl)
      simp only [Nat.zero_add] at this
      exact this)
    (twin_part 2 (Or.inr rfl))
    (by rw [show twinFrames.length = sexFrames.length by simp [twinFrames, sexFrames]]; exact sex_kept) (fun K => (g1 K, g2 K)) (fun K => (g1 K, g2 K))
    (fun K => (g1 K, g2 K)) hg hg hg
  refine ⟨_, out, out₁, h1.1, h2.1, fun f hf => ?_⟩
  obtain rfl : out₁ = out₂ := Option.some.inj (h2.1.symm.trans h2'.1)
  exact (h3 f (sex_independent f hf) (sex_independent f hf)).1.trans (two_mul _).symm

theorem independent_scaled {c : Cfg} {ω : ℂ} {frames : List (Arr ℝ)} {w : Arr ℝ} {f : Nat} (h : Independent c ω frames w f) (a : ℝ) (ha : a ≠ 0) :
    Independent c ω (scaleAll a frames) w f := by
  have hl : (scaleAll a frames).length = frames.length := by simp [scaleAll]
  intro m hm hmem
  rw [hl] at hm
  have hv : ∀ m' ≤ m, specVec c ω (scaleAll a frames) w f m' = (a : ℂ) • specVec c ω frames w f m' := by
    intro m' hm'
    funext x
    have hb := streamStart_mono (P := Stream.nPar c.nDft (sep c)) (dn := sep c) hm'
    simp only [specVec, Pi.smul_apply, smul_eq_mul]
    rw [specBlock_two c ω f m' _ (frames.map fun a => a.at' (unravel w.shape x)) [] a 0 frames.length (fun t ht => by
      rw [snapAt_eq _ _ _ ht, snapAt_eq _ _ _ (by omega)]
      simp [snapAt, scaleAll, List.getD_eq_getElem?_getD, ht]) (by omega)]
    push_cast
    ring
  refine h m hm ?_
  have ha' : (a : ℂ) ≠ 0 := by exact_mod_cast ha
  rw [hv m le_rfl, Submodule.smul_mem_iff _ ha'] at hmem
  refine Submodule.span_le.2 ?_ hmem
  rintro v ⟨m', hm', rfl⟩
  rw [hv m' hm'.le]
  exact Submodule.smul_mem _ _ (Submodule.subset_span ⟨m', hm', rfl⟩)

theorem scaled_accepted (a : ℝ) : StreamAccepted sexCfg (scaleAll a sexFrames) sexWeights := by
  have hl : (scaleAll a sexFrames).length = sexFrames.length := by simp [scaleAll]
  refine sex_accepted.of_length hl ?_
  intro s hs
  simp only [scaleAll, List.mem_map] at hs
  obtain ⟨b, hb, rfl⟩ := hs
  exact sex_accepted.shapes b hb

theorem snapAt_scaled (a : ℝ) (t : Nat) (ht : t < sexFrames.length) (x : List Nat) : snapAt (scaleAll a sexFrames) t x = a * snapAt sexFrames t x := by
  simp [snapAt, scaleAll, List.getD_eq_getElem?_getD, ht]

/-- `stream_triangle`: `3 u = 2 u + u` -/
example : ∃ (svd : Svd 2) (out out₁ out₂ : SOut 2), streamSerial sexCfg (-Complex.I) (scaleAll 3 sexFrames) sexWeights svd = some out ∧
    streamSerial sexCfg (-Complex.I) (scaleAll 2 sexFrames) sexWeights svd = some out₁ ∧ streamSerial sexCfg (-Complex.I) sexFrames sexWeights svd = some out₂ ∧
      ∀ f < 3, out.eigs f 0 ≤ out₁.eigs f 0 + out₂.eigs f 0 ∧ out.eigs f 1 ≤ out₁.eigs f 1 + out₂.eigs f 0 ∧ out.eigs f 1 ≤ out₁.eigs f 0 + out₂.eigs f 1 := by
  have hl : ∀ a, (scaleAll a sexFrames).length = sexFrames.length := fun a => by simp [scaleAll]
  choose g1 g2 hg using fun K : Matrix (Fin 2 ⊕ Unit) (Fin 2 ⊕ Unit) ℂ => svd_exists K
  obtain ⟨out, out₁, out₂, h, h₁, h₂, h3⟩ := stream_triangle (ω := -Complex.I) (scaled_accepted 3) (scaled_accepted 2) sex_accepted (by rw [hl, hl]) (hl 3).symm
    (fun t ht x _ => by
      rw [hl] at ht
      rw [snapAt_scaled _ _ ht, snapAt_scaled _ _ ht]; ring) (by rw [hl]; exact sex_kept) (fun K => (g1 K, g2 K)) (fun K => (g1 K, g2 K)) (fun K => (g1 K, g2 K)) hg hg hg
  refine ⟨_, out, out₁, out₂, h.1, h₁.1, h₂.1, fun f hf => ?_⟩
  have := h3 f (independent_scaled (sex_independent f hf) 3 (by norm_num)) (independent_scaled (sex_independent f hf) 2 (by norm_num)) (sex_independent f hf)
  exact ⟨this (0 : Fin 2) (0 : Fin 2) (0 : Fin 2) rfl, this (1 : Fin 2) (1 : Fin 2) (0 : Fin 2) rfl, this (1 : Fin 2) (0 : Fin 2) (1 : Fin 2) rfl⟩

/-- `stream_noise`: data multiplied by `a` -/
example (a : ℝ) (ha : a ≠ 0) : ∃ (svd : Svd 2) (svd' : Svd (kept sexCfg (scaleAll a sexFrames).length)) (out : SOut 2) (out' : SOut (kept sexCfg (scaleAll a sexFrames).length)),
    streamSerial sexCfg (-Complex.I) sexFrames sexWeights svd = some out ∧ streamSerial sexCfg (-Complex.I) (scaleAll a sexFrames) sexWeights svd' = some out' ∧
      ∀ f < 3, ∀ j j', j.1 = j'.1 → |out.eigs f j - out'.eigs f j'| ≤ 4 * |1 - a| * Real.sqrt 3 := by
  have hl : ∀ a, (scaleAll a sexFrames).length = sexFrames.length := fun a => by simp [scaleAll]
  choose g1 g2 hg using fun K : Matrix (Fin 2 ⊕ Unit) (Fin 2 ⊕ Unit) ℂ => svd_exists K
  choose g1' g2' hg' using fun K : Matrix (Fin (kept sexCfg (scaleAll a sexFrames).length) ⊕ Unit) (Fin (kept sexCfg (scaleAll a sexFrames).length) ⊕ Unit) ℂ => svd_exists K
  obtain ⟨out, out', h, h', h3⟩ := stream_noise (ω := -Complex.I) (by simp) sex_accepted (scaled_accepted a) (hl _)
    (fun t => by
      have : t = 0 ∨ t = 1 ∨ t = 2 ∨ t = 3 ∨ 4 ≤ t := by omega
      rcases this with rfl | rfl | rfl | rfl | ht
      · simp [sexCfg]
      · simp [sexCfg]
      · simp [sexCfg]
      · simp [sexCfg]
      · rw [List.getD_eq_default _ _ (by simpa [sexCfg] using ht)]) (by simp [sexCfg]; norm_num) rfl (fun idx _ => by simp only [sexWeights]; positivity) |1 - a| (abs_nonneg _)
    (fun t ht x _ => by
      have h6 : t < 6 := by simpa [sexFrames] using ht
      rw [snapAt_scaled _ _ ht]
      simp only [snapAt, sexFrames, List.getD_eq_getElem?_getD, List.getElem?_map, List.getElem?_range h6, Option.map_some, Option.getD_some]
      split <;> split <;> simp) sex_kept (fun K => (g1 K, g2 K)) (fun K => (g1' K, g2' K)) hg hg'
  refine ⟨_, _, out, out', h.1, h'.1, fun f hf j j' hj => ?_⟩
  have := h3 f (sex_independent f hf) (independent_scaled (sex_independent f hf) _ ha) j j' hj
  have hs : ∑ x : Fin (size sexWeights.shape), sexWeights.at' (unravel sexWeights.shape x) = 3 := by
    have e : ∀ g : Fin 2 → ℝ, ∑ x : Fin (size sexWeights.shape), g x = g 0 + g 1 := fun g => Fin.sum_univ_two g
    refine (e fun x => sexWeights.at' (unravel sexWeights.shape x.1)).trans ?_
    simp [sexWeights, unravel, size]
    norm_num
  rwa [hs] at this

end Verif.Props
