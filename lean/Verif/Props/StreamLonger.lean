import Verif.Props.StreamProject
set_option linter.unusedSectionVars false
set_option linter.unusedVariables false
/-
  C229: streaming fits of longer records (pyspod/spod/streaming.py:133-212).
-/
namespace Verif.Props
open Verif Verif.Par Verif.Fit Verif.Spod Verif.SFit Verif.Stream Matrix

section
variable {X : Type} [Fintype X] [DecidableEq X] {k : Nat}

/-- the basis before the last column is dropped, with columns numbered `0, …, k` -/
noncomputable def wideBasis (V : Matrix X (Fin k ⊕ Unit) ℂ) : Matrix X (Fin (k + 1)) ℂ :=
  Matrix.of fun i l => V i (if h : l.1 < k then .inl ⟨l.1, h⟩ else .inr ())

noncomputable def wideValues (T : Fin k ⊕ Unit → ℝ) : Fin (k + 1) → ℝ := fun l => T (if h : l.1 < k then .inl ⟨l.1, h⟩ else .inr ())

theorem wide_sum {M : Type} [AddCommMonoid M] (g : Fin k ⊕ Unit → M) :
    ∑ l : Fin (k + 1), g (if h : l.1 < k then .inl ⟨l.1, h⟩ else .inr ()) = ∑ l, g l := by
  rw [Fin.sum_univ_castSucc, Fintype.sum_sum_type]
  simp

theorem wide_density (V : Matrix X (Fin k ⊕ Unit) ℂ) (T : Fin k ⊕ Unit → ℝ) : density (wideBasis V) (wideValues T) = density V T := by
  ext i j
  unfold density
  rw [Matrix.mul_apply, Matrix.mul_apply]
  simp only [Matrix.mul_diagonal, Matrix.conjTranspose_apply]
  exact wide_sum fun l => V i l * (T l : ℂ) ^ 2 * star (V j l)

theorem wide_gram (V : Matrix X (Fin k ⊕ Unit) ℂ) (T : Fin k ⊕ Unit → ℝ) (h : Vᴴ * V = Matrix.diagonal (ind T)) :
    (wideBasis V)ᴴ * wideBasis V = Matrix.diagonal (ind (wideValues T)) := by
  ext a b
  have := congrFun (congrFun h (if h : a.1 < k then .inl ⟨a.1, h⟩ else .inr ())) (if h : b.1 < k then .inl ⟨b.1, h⟩ else .inr ())
  refine Eq.trans ?_ (this.trans ?_)
  · simp only [Matrix.mul_apply, Matrix.conjTranspose_apply, wideBasis, Matrix.of_apply]
  · have hab : ((if h : a.1 < k then (.inl ⟨a.1, h⟩ : Fin k ⊕ Unit) else .inr ()) = if h : b.1 < k then .inl ⟨b.1, h⟩ else .inr ()) ↔ a = b := by
      constructor
      · intro e
        have := a.2
        have := b.2
        apply Fin.ext
        split at e <;> split at e <;> simp at e <;> omega
      · rintro rfl; rfl
    rw [Matrix.diagonal_apply, Matrix.diagonal_apply]
    simp only [hab]
    rfl

/-- one update: `n + 2` times the squares grow to `n + 3` times the squares, and interlace -/
theorem step_compare {xs : List (X → ℂ)} {U : Matrix X (Fin k) ℂ} {S : Fin k → ℝ} (h : StreamRun k xs U S) (x : X → ℂ)
    {Up : Matrix (Fin k ⊕ Unit) (Fin k ⊕ Unit) ℂ} {Sp : Fin k ⊕ Unit → ℝ} (ha : absUp U x ≠ 0) (hsvd : IsSVD (kMat U S x (xs.length + 1)) Up Sp) :
    (∀ j : Fin k, ((xs.length : ℝ) + 2) * S j ^ 2 ≤ ((xs.length : ℝ) + 3) * Sp (.inl j) ^ 2) ∧
    ∀ j j' : Fin k, j'.1 = j.1 + 1 → ((xs.length : ℝ) + 3) * Sp (.inl j') ^ 2 ≤ ((xs.length : ℝ) + 2) * S j ^ 2 := by
  have o := stream_orthonormal h
  have hn : (0 : ℝ) < (xs.length : ℝ) + 3 := by positivity
  set a : ℝ := ((xs.length : ℝ) + 2) / ((xs.length : ℝ) + 3) with hadef
  set b : ℝ := ((xs.length : ℝ) + 2) / ((xs.length : ℝ) + 3) ^ 2 with hbdef
  have ha0 : 0 < a := by positivity
  have hb0 : 0 ≤ b := by positivity
  have up : density (uRot U x Up) Sp = ((a : ℝ) : ℂ) • density U S + ((b : ℝ) : ℂ) • outerProd x := by
    rw [stream_update U S x _ Up Sp ha hsvd]
    have e3 : (((xs.length + 1 : ℕ) : ℂ) + 1) / (((xs.length + 1 : ℕ) : ℂ) + 2) = ((a : ℝ) : ℂ) := by
      rw [hadef]; push_cast; ring_nf
    have e4 : (((xs.length + 1 : ℕ) : ℂ) + 1) / (((xs.length + 1 : ℕ) : ℂ) + 2) ^ 2 = ((b : ℝ) : ℂ) := by
      rw [hbdef]; push_cast; ring_nf
    rw [e3, e4]
  have upf : ∀ v, form (density (uRot U x Up) Sp) v = a * form (density U S) v + b * Complex.normSq (star x ⬝ᵥ v) := fun v => by
    rw [up, form_add, form_smul, form_smul, form_outer]
  have oW := wide_gram _ _ (update_orthonormal U S x _ Up Sp ha hsvd o)
  have hT : Antitone (wideValues Sp) := by
    intro i j hij
    simp only [wideValues]
    have hij' : i.1 ≤ j.1 := hij
    split
    · split
      · exact hsvd.sorted _ _ (Fin.le_def.2 hij')
      · omega
    · split
      · exact hsvd.last _
      · exact le_rfl
  have run' : StreamRun k (xs ++ [x]) (update U x Up Sp).1 (update U x Up Sp).2 := StreamRun.snoc h ha hsvd
  have o' := stream_orthonormal run'
  constructor
  · intro j
    have hsq : ∀ l, (Real.sqrt a * S l) ^ 2 = a * S l ^ 2 := fun l => by rw [mul_pow, Real.sq_sqrt ha0.le]
    have hsp : 0 < Real.sqrt a := Real.sqrt_pos.2 ha0
    have hind : ind (fun l => Real.sqrt a * S l) = ind S := by
      funext l
      simp [ind, hsp.ne']
    have hd : density U (fun l => Real.sqrt a * S l) = ((a : ℝ) : ℂ) • density U S := by
      ext i l
      unfold density
      rw [Matrix.smul_apply, Matrix.mul_apply, Matrix.mul_apply]
      simp only [Matrix.mul_diagonal, Matrix.conjTranspose_apply, smul_eq_mul, Finset.mul_sum]
      refine Finset.sum_congr rfl fun r _ => ?_
      have : (((Real.sqrt a * S r : ℝ)) : ℂ) ^ 2 = (a : ℂ) * (S r : ℂ) ^ 2 := by exact_mod_cast congrArg Complex.ofReal (hsq r)
      rw [this]; ring
    have := density_compare U (fun l => Real.sqrt a * S l) (by rw [hind]; exact o)
      (fun i l hil => mul_le_mul_of_nonneg_left (run_sorted h hil) hsp.le) (fun l => mul_nonneg hsp.le (run_nonneg h l))
      (wideBasis (uRot U x Up)) (wideValues Sp) oW hT (fun l => hsvd.nonneg _) 0 le_rfl (fun v => by
        rw [hd, form_smul, wide_density, upf v, zero_mul, add_zero]
        have := mul_nonneg hb0 (Complex.normSq_nonneg (star x ⬝ᵥ v))
        linarith) j
    rw [add_zero, hsq, dif_pos (lt_trans j.2 (Nat.lt_succ_self k))] at this
    simp only [wideValues, j.2, dif_pos] at this
    rw [hadef] at this
    have h2 := mul_le_mul_of_nonneg_left this hn.le
    calc ((xs.length : ℝ) + 2) * S j ^ 2 = ((xs.length : ℝ) + 3) * (((xs.length : ℝ) + 2) / ((xs.length : ℝ) + 3) * S j ^ 2) := by field_simp
      _ ≤ _ := h2
  · intro j j' hjj
    rcases eq_or_ne (Sp (.inl j')) 0 with hz | hz
    · rw [hz]
      have : 0 ≤ ((xs.length : ℝ) + 2) * S j ^ 2 := by positivity
      simpa using this
    obtain ⟨v, v1, v2, v3⟩ := strong_direction (update U x Up Sp).1 (update U x Up Sp).2 o' (run_sorted run') (run_nonneg run') j' hz
      (ι := Fin j.1 ⊕ Unit) (by simp [hjj]) (Sum.elim (fun i i' => U i' ⟨i.1, lt_trans i.2 j.2⟩) fun _ => x)
    have hx : star x ⬝ᵥ v = 0 := v2 (.inr ())
    have w := weak_direction U S o (run_sorted h) (run_nonneg h) j.1 v fun c hc => v2 (.inl ⟨c.1, hc⟩)
    rw [dif_pos j.2, v1, mul_one] at w
    have t := stream_truncate U x Up Sp
    have tf := congrArg (fun M => form M v) t
    simp only [form_add, upf v, hx, Complex.normSq_zero, mul_zero, add_zero] at tf
    have hl : 0 ≤ form (((Sp (.inr ()) : ℂ) ^ 2) • outerProd fun i => uRot U x Up i (.inr ())) v := by
      rw [show ((Sp (.inr ()) : ℂ) ^ 2) = ((Sp (.inr ()) ^ 2 : ℝ) : ℂ) by push_cast; rfl, form_smul, form_outer]
      exact mul_nonneg (sq_nonneg _) (Complex.normSq_nonneg _)
    have h1 : Sp (.inl j') ^ 2 ≤ a * S j ^ 2 := by
      have e : (update U x Up Sp).2 j' = Sp (.inl j') := rfl
      rw [e] at v3
      have h2 := mul_le_mul_of_nonneg_left w ha0.le
      linarith
    have h2 := mul_le_mul_of_nonneg_left h1 hn.le
    calc _ ≤ _ := h2
      _ = _ := by rw [hadef]; field_simp

/-- more updates -/
theorem basis_longer (sh : List Nat) (svd : Svd k) (hsvd : ∀ K, Stream.IsSVD K (svd K).1 (svd K).2)
    (x : Nat → List Nat → ℂ) (N M : Nat)
    (hx : ∀ m < N + M, (fun i : Fin (size sh) => x m (unravel sh i)) ∉
      Submodule.span ℂ {v | ∃ m' < m, v = fun i : Fin (size sh) => x m' (unravel sh i)}) :
    (∀ j, ((N : ℝ) + 2) * (basisAfter svd 1 (fun _ => sh) (fun m _ => x m) N).S j ^ 2 ≤
      (((N + M : ℕ) : ℝ) + 2) * (basisAfter svd 1 (fun _ => sh) (fun m _ => x m) (N + M)).S j ^ 2) ∧
    ∀ j j' : Fin k, j'.1 = j.1 + M → (((N + M : ℕ) : ℝ) + 2) * (basisAfter svd 1 (fun _ => sh) (fun m _ => x m) (N + M)).S j' ^ 2 ≤
      ((N : ℝ) + 2) * (basisAfter svd 1 (fun _ => sh) (fun m _ => x m) N).S j ^ 2 := by
  induction M with
  | zero =>
    refine ⟨fun j => le_rfl, fun j j' hj => ?_⟩
    rw [Fin.ext (show j'.1 = j.1 by omega)]
    exact le_rfl
  | succ M ih =>
    obtain ⟨ih1, ih2⟩ := ih fun m hm => hx m (by omega)
    have run := basis_run sh svd hsvd x (N + M) fun m hm => hx m (by omega)
    have hlen : ((List.range (N + M)).map fun (m : Nat) => fun i : Fin (size sh) => x m (unravel sh i)).length = N + M := by
      rw [List.length_map, List.length_range]
    have ha : Stream.absUp (basisMat sh ((basisAfter svd 1 (fun _ => sh) (fun m _ => x m) (N + M)).U 0)) (fun i => x (N + M) (unravel sh i)) ≠ 0 := by
      apply absUp_ne_zero run
      have := hx (N + M) (by omega)
      convert this using 3
      ext v
      simp [eq_comm]
    obtain ⟨h1, -⟩ := update_one sh svd (N + M + 1) (basisAfter svd 1 (fun _ => sh) (fun m _ => x m) (N + M)) (x (N + M))
    have e : basisAfter svd 1 (fun _ => sh) (fun m _ => x m) (N + (M + 1)) =
        updateAll svd 1 (fun _ => sh) (N + M + 1) (basisAfter svd 1 (fun _ => sh) (fun m _ => x m) (N + M)) (fun _ => x (N + M)) := by
      rw [← Nat.add_assoc]
      simp [basisAfter, List.range_succ]
    have key := step_compare run (fun i => x (N + M) (unravel sh i)) ha (by rw [hlen]; exact hsvd _)
    rw [hlen] at key
    obtain ⟨k1, k2⟩ := key
    have hc : (((N + (M + 1) : ℕ) : ℝ) + 2) = ((N + M : ℕ) : ℝ) + 3 := by push_cast; ring
    rw [e, h1, hc]
    refine ⟨fun j => (ih1 j).trans (k1 j), fun j j' hj => ?_⟩
    have hm : j.1 + M < k := by have := j'.2; omega
    exact (k2 ⟨j.1 + M, hm⟩ j' (by show j'.1 = j.1 + M + 1; omega)).trans (ih2 j ⟨j.1 + M, hm⟩ rfl)
end

/-- the first blocks of a longer record are those of the shorter one -/
theorem newCol_longer {c : Cfg} {ω : ℂ} {frames more : List (Arr ℝ)} (hn : 0 < c.nDft) (hd : 0 < sep c) (f m : Nat)
    (hm : streamStart (nPar c.nDft (sep c)) (sep c) m + c.nDft ≤ frames.length) (wt : ℝ) (idx : List Nat) :
    newCol c ω f m wt (atIdx idx (frames ++ more)) = newCol c ω f m wt (atIdx idx frames) := by
  have l1 : (atIdx idx frames).length = frames.length := by simp [atIdx]
  have l2 : (atIdx idx (frames ++ more)).length = frames.length + more.length := by simp [atIdx]
  rw [newCol_spec c ω hn hd f m wt _ (by rw [l2, nUpdates_spec c ω hn hd]; omega),
    newCol_spec c ω hn hd f m wt _ (by rw [l1, nUpdates_spec c ω hn hd]; exact hm)]
  have hg : ∀ i < frames.length, (atIdx idx (frames ++ more)).getD i 0 = (atIdx idx frames).getD i 0 := by
    intro i hi
    simp only [atIdx, List.map_append]
    rw [List.getD_append _ _ _ _ (by simpa using hi)]
  congr 1
  unfold specBlock
  have e : ∑ i ∈ Finset.range (streamStart (nPar c.nDft (sep c)) (sep c) m + c.nDft), (((atIdx idx (frames ++ more)).getD i 0 : ℝ) : ℂ) =
      ∑ i ∈ Finset.range (streamStart (nPar c.nDft (sep c)) (sep c) m + c.nDft), (((atIdx idx frames).getD i 0 : ℝ) : ℂ) :=
    Finset.sum_congr rfl fun i hi => by rw [hg i (lt_of_lt_of_le (Finset.mem_range.1 hi) hm)]
  simp only [e]
  congr 1
  refine Finset.sum_congr rfl fun t ht => ?_
  rw [hg _ (by have := Finset.mem_range.1 ht; omega)]

theorem longer_eigs (c : Cfg) (ω : ℂ) (frames more : List (Arr ℝ)) (w : Arr ℝ) (h : StreamAccepted c frames w) (h' : StreamAccepted c (frames ++ more) w)
    (f : Nat) (hind : Independent c ω (frames ++ more) w f) (k : Nat) (svd : Svd k) (hsvd : ∀ K, Stream.IsSVD K (svd K).1 (svd K).2) :
    let B := fun (fr : List (Arr ℝ)) => basisAfter svd 1 (fun _ => w.shape) (fun m _ idx => newCol c ω f m (w.at' idx) (atIdx idx fr)) (nUpdates c ω fr.length)
    (∀ j, ((nUpdates c ω frames.length : ℝ) + 2) * (B frames).S j ^ 2 ≤ ((nUpdates c ω (frames ++ more).length : ℝ) + 2) * (B (frames ++ more)).S j ^ 2) ∧
    ∀ j j' : Fin k, j'.1 + nUpdates c ω frames.length = j.1 + nUpdates c ω (frames ++ more).length →
      ((nUpdates c ω (frames ++ more).length : ℝ) + 2) * (B (frames ++ more)).S j' ^ 2 ≤ ((nUpdates c ω frames.length : ℝ) + 2) * (B frames).S j ^ 2 := by
  intro B
  have hle : nUpdates c ω frames.length ≤ nUpdates c ω (frames ++ more).length := by
    by_contra hc
    have h1 := (nUpdates_spec c ω h.dft h.sep frames.length _).1 (not_le.1 hc)
    have h2 := (nUpdates_spec c ω h.dft h.sep (frames ++ more).length (nUpdates c ω (frames ++ more).length)).2
      (le_trans h1 (by rw [List.length_append]; exact Nat.le_add_right _ _))
    omega
  obtain ⟨M, hM⟩ := Nat.exists_eq_add_of_le hle
  have key := independent_cols c ω (frames ++ more) w h' f hind
  rw [hM] at key
  obtain ⟨k1, k2⟩ := basis_longer w.shape svd hsvd (fun m idx => newCol c ω f m (w.at' idx) (atIdx idx (frames ++ more))) (nUpdates c ω frames.length) M key
  have e : (B frames).S = (basisAfter svd 1 (fun _ => w.shape) (fun m _ idx => newCol c ω f m (w.at' idx) (atIdx idx (frames ++ more)))
      (nUpdates c ω frames.length)).S :=
    (basis_agree svd w.shape (fun m idx => newCol c ω f m (w.at' idx) (atIdx idx frames))
      (fun m idx => newCol c ω f m (w.at' idx) (atIdx idx (frames ++ more))) _ fun m hm i _ =>
      (newCol_longer h.dft h.sep f m ((nUpdates_spec c ω h.dft h.sep frames.length m).1 hm) _ i).symm).1
  have e' : (B (frames ++ more)).S = (basisAfter svd 1 (fun _ => w.shape) (fun m _ idx => newCol c ω f m (w.at' idx) (atIdx idx (frames ++ more)))
      (nUpdates c ω frames.length + M)).S := by rw [← hM]
  rw [e, e', hM]
  exact ⟨k1, fun j j' hj => k2 j j' (by omega)⟩

theorem longer_cast (c : Cfg) (ω : ℂ) (frames more : List (Arr ℝ)) (w : Arr ℝ) (h : StreamAccepted c frames w) (h' : StreamAccepted c (frames ++ more) w)
    (f : Nat) (hind : Independent c ω (frames ++ more) w f) (k k' : Nat) (hk : k' = k) (svd : ∀ k, Svd k)
    (hsvd : ∀ k K, Stream.IsSVD K (svd k K).1 (svd k K).2) :
    (∀ (j : Fin k) (j' : Fin k'), j'.1 = j.1 →
      ((nUpdates c ω frames.length : ℝ) + 2) * (basisAfter (svd k) 1 (fun _ => w.shape) (fun m _ idx => newCol c ω f m (w.at' idx) (atIdx idx frames))
        (nUpdates c ω frames.length)).S j ^ 2 ≤
      ((nUpdates c ω (frames ++ more).length : ℝ) + 2) * (basisAfter (svd k') 1 (fun _ => w.shape) (fun m _ idx => newCol c ω f m (w.at' idx)
        (atIdx idx (frames ++ more))) (nUpdates c ω (frames ++ more).length)).S j' ^ 2) ∧
    ∀ (j : Fin k) (j' : Fin k'), j'.1 + nUpdates c ω frames.length = j.1 + nUpdates c ω (frames ++ more).length →
      ((nUpdates c ω (frames ++ more).length : ℝ) + 2) * (basisAfter (svd k') 1 (fun _ => w.shape) (fun m _ idx => newCol c ω f m (w.at' idx)
        (atIdx idx (frames ++ more))) (nUpdates c ω (frames ++ more).length)).S j' ^ 2 ≤
      ((nUpdates c ω frames.length : ℝ) + 2) * (basisAfter (svd k) 1 (fun _ => w.shape) (fun m _ idx => newCol c ω f m (w.at' idx) (atIdx idx frames))
        (nUpdates c ω frames.length)).S j ^ 2 := by
  subst hk
  obtain ⟨h1, h2⟩ := longer_eigs c ω frames more w h h' f hind k' (svd k') (hsvd k')
  refine ⟨fun j j' hj => ?_, h2⟩
  rw [Fin.ext hj]
  exact h1 j

/-- **C229.** Streaming fits, on any numbers of ranks, of a record of `n` blocks and of its continuation, `n'` blocks in all, with the same number of modes kept (fewer than
    blocks, if you like): at a frequency with independent blocks, `n + 2` times the square of eigenvalue `j` of the shorter record is at most `n' + 2` times the square
    of eigenvalue `j` of the longer one, and not less than `n' + 2` times the square of its eigenvalue `j + n' - n`. -/
theorem stream_longer (c : Cfg) (ω : ℂ) (frames more : List (Arr ℝ)) (w : Arr ℝ) (h : StreamAccepted c frames w) (h' : StreamAccepted c (frames ++ more) w)
    (hk : kept c (frames ++ more).length = kept c frames.length) (svd : ∀ k, SFit.Svd k) (hsvd : ∀ k K, Stream.IsSVD K (svd k K).1 (svd k K).2)
    (n n' : Nat) (hn : ∀ b, b < n ↔ streamStart (nPar c.nDft (sep c)) (sep c) b + c.nDft ≤ frames.length)
    (hn' : ∀ b, b < n' ↔ streamStart (nPar c.nDft (sep c)) (sep c) b + c.nDft ≤ (frames ++ more).length) :
    ∃ out out', StreamGives c ω frames w (svd _) out ∧ StreamGives c ω (frames ++ more) w (svd _) out' ∧
      ∀ f, Independent c ω (frames ++ more) w f →
        (∀ j j', j'.1 = j.1 → ((n : ℝ) + 2) * out.eigs f j ^ 2 ≤ ((n' : ℝ) + 2) * out'.eigs f j' ^ 2) ∧
        ∀ j j', j'.1 + n = j.1 + n' → ((n' : ℝ) + 2) * out'.eigs f j' ^ 2 ≤ ((n : ℝ) + 2) * out.eigs f j ^ 2 := by
  have un : ∀ a b : Nat, (∀ i, i < a ↔ i < b) → a = b := fun a b hab => by
    have h1 := hab a
    have h2 := hab b
    omega
  have e : n = nUpdates c ω frames.length := un _ _ fun b => (hn b).trans (nUpdates_spec c ω h.dft h.sep frames.length b).symm
  have e' : n' = nUpdates c ω (frames ++ more).length := un _ _ fun b => (hn' b).trans (nUpdates_spec c ω h.dft h.sep (frames ++ more).length b).symm
  refine ⟨_, _, h.gives ω (svd _), h'.gives ω (svd _), fun f hind => ?_⟩
  rw [e, e']
  exact longer_cast c ω frames more w h h' f hind _ _ hk svd hsvd

/-! ### Non-vacuity: two pulses, then a third -/

/-- each block has a point of its own -/
theorem triangular_independent {c : Cfg} {ω : ℂ} {frames : List (Arr ℝ)} {w : Arr ℝ} {f : Nat} (p : Nat → Fin (size w.shape))
    (h : ∀ m, streamStart (nPar c.nDft (sep c)) (sep c) m + c.nDft ≤ frames.length →
      specVec c ω frames w f m (p m) ≠ 0 ∧ ∀ m' < m, specVec c ω frames w f m' (p m) = 0) : Independent c ω frames w f := by
  intro m hm hmem
  refine (h m hm).1 ?_
  have : Submodule.span ℂ {v | ∃ m' < m, v = specVec c ω frames w f m'} ≤ LinearMap.ker (LinearMap.proj (R := ℂ) (φ := fun _ => ℂ) (p m)) := by
    rw [Submodule.span_le]
    rintro v ⟨m', hm', rfl⟩
    exact (h m hm).2 m' hm'
  exact this hmem

def beatAt (t : Nat) : Arr ℝ := ⟨[3, 1], fun i => if i = [0, 0] then (if t = 1 then 1 else 0) else if i = [1, 0] then (if t = 4 then 1 else 0)
  else if t = 6 then 1 else 0⟩

def beatFrames : List (Arr ℝ) := (List.range 6).map beatAt
def beatMore : List (Arr ℝ) := (List.range 3).map fun (t : Nat) => beatAt (6 + t)
def beatWeights : Arr ℝ := ⟨[3, 1], fun _ => 1⟩

theorem beat_accepted (fr : List (Arr ℝ)) (hfr : fr = beatFrames ∨ fr = beatFrames ++ beatMore) : StreamAccepted sexCfg fr beatWeights where
  shapes := by
    intro a ha
    rcases hfr with rfl | rfl
    · simp only [beatFrames, List.mem_map] at ha
      obtain ⟨t, -, rfl⟩ := ha
      rfl
    · simp only [beatFrames, beatMore, List.mem_append, List.mem_map] at ha
      rcases ha with ⟨t, -, rfl⟩ | ⟨t, -, rfl⟩ <;> rfl
  space := by simp [beatWeights]
  mean := by decide
  blocks := by
    rcases hfr with rfl | rfl
    · rw [show beatFrames.length = 6 by simp [beatFrames]]; decide
    · rw [show (beatFrames ++ beatMore).length = 9 by simp [beatFrames, beatMore]]; decide
  overlap := by decide
  save := by decide
  points := by decide

theorem beat_independent : Independent sexCfg (-Complex.I) (beatFrames ++ beatMore) beatWeights 2 := by
  have h0 : streamStart (nPar sexCfg.nDft (sep sexCfg)) (sep sexCfg) 0 = 0 := by decide
  have h1 : streamStart (nPar sexCfg.nDft (sep sexCfg)) (sep sexCfg) 1 = 2 := by decide
  have h2 : streamStart (nPar sexCfg.nDft (sep sexCfg)) (sep sexCfg) 2 = 5 := by decide
  have ew : ((winWeight sexCfg.win : ℝ) : ℂ) = 2 / 3 := by
    simp [winWeight, sexCfg]
    norm_num
  have hn : nFreq sexCfg.nDft sexCfg.isreal sexCfg.full = 3 := by decide
  refine triangular_independent (fun m => (⟨m % 3, Nat.mod_lt _ (by decide)⟩ : Fin 3)) fun m hm => ?_
  have hm2 : m < 3 := by
    by_contra hcon
    have h3 : streamStart (nPar sexCfg.nDft (sep sexCfg)) (sep sexCfg) 3 + sexCfg.nDft = 11 := by decide
    have := streamStart_mono (P := nPar sexCfg.nDft (sep sexCfg)) (dn := sep sexCfg) (not_lt.1 hcon)
    rw [show (beatFrames ++ beatMore).length = 9 by simp [beatFrames, beatMore]] at hm
    omega
  have : m = 0 ∨ m = 1 ∨ m = 2 := by omega
  rcases this with rfl | rfl | rfl
  · refine ⟨?_, fun m' hm' => absurd hm' (by omega)⟩
    simp only [specVec, specBlock, h0, ew, hn]
    simp [sexCfg, beatFrames, beatMore, beatAt, beatWeights, Finset.sum_range_succ, unravel, size, Stream.dftMat, List.range_succ]
    norm_num
  · refine ⟨?_, fun m' hm' => ?_⟩
    · simp only [specVec, specBlock, h1, ew, hn]
      simp [sexCfg, beatFrames, beatMore, beatAt, beatWeights, Finset.sum_range_succ, unravel, size, Stream.dftMat, List.range_succ]
      try norm_num
    · obtain rfl : m' = 0 := by omega
      simp only [specVec, specBlock, h0, ew, hn]
      simp [sexCfg, beatFrames, beatMore, beatAt, beatWeights, Finset.sum_range_succ, unravel, size, Stream.dftMat, List.range_succ]
  · refine ⟨?_, fun m' hm' => ?_⟩
    · simp only [specVec, specBlock, h2, ew, hn]
      simp [sexCfg, beatFrames, beatMore, beatAt, beatWeights, Finset.sum_range_succ, unravel, size, Stream.dftMat, List.range_succ]
      try norm_num
    · have : m' = 0 ∨ m' = 1 := by omega
      rcases this with rfl | rfl
      · simp only [specVec, specBlock, h0, ew, hn]
        simp [sexCfg, beatFrames, beatMore, beatAt, beatWeights, Finset.sum_range_succ, unravel, size, Stream.dftMat, List.range_succ]
      · simp only [specVec, specBlock, h1, ew, hn]
        simp [sexCfg, beatFrames, beatMore, beatAt, beatWeights, Finset.sum_range_succ, unravel, size, Stream.dftMat, List.range_succ]

/-- three blocks and two modes: five times the squares are at least four times the squares of the first two blocks -/
example : ∃ (svd : ∀ k, SFit.Svd k) (out : SOut (kept sexCfg beatFrames.length)) (out' : SOut (kept sexCfg (beatFrames ++ beatMore).length)),
    StreamGives sexCfg (-Complex.I) beatFrames beatWeights (svd _) out ∧
    StreamGives sexCfg (-Complex.I) (beatFrames ++ beatMore) beatWeights (svd _) out' ∧
    (∀ j j', j'.1 = j.1 → 4 * out.eigs 2 j ^ 2 ≤ 5 * out'.eigs 2 j' ^ 2) ∧ ∀ j j', j.1 = 0 → j'.1 = 1 → 5 * out'.eigs 2 j' ^ 2 ≤ 4 * out.eigs 2 j ^ 2 := by
  choose g1 g2 hg using fun (k : Nat) (K : Matrix (Fin k ⊕ Unit) (Fin k ⊕ Unit) ℂ) => svd_exists K
  have l1 : beatFrames.length = 6 := by simp [beatFrames]
  have l2 : (beatFrames ++ beatMore).length = 9 := by simp [beatFrames, beatMore]
  have hb : ∀ (N L : Nat), streamStart (nPar sexCfg.nDft (sep sexCfg)) (sep sexCfg) N + sexCfg.nDft > L →
      (∀ b < N, streamStart (nPar sexCfg.nDft (sep sexCfg)) (sep sexCfg) b + sexCfg.nDft ≤ L) →
      ∀ b, b < N ↔ streamStart (nPar sexCfg.nDft (sep sexCfg)) (sep sexCfg) b + sexCfg.nDft ≤ L := by
    intro N L h1 h2 b
    refine ⟨h2 b, fun h => ?_⟩
    by_contra hcon
    have := streamStart_mono (P := nPar sexCfg.nDft (sep sexCfg)) (dn := sep sexCfg) (not_lt.1 hcon)
    omega
  obtain ⟨out, out', o1, o2, o3⟩ := stream_longer sexCfg (-Complex.I) beatFrames beatMore beatWeights (beat_accepted _ (Or.inl rfl)) (beat_accepted _ (Or.inr rfl))
    (by rw [l1, l2]; decide) (fun k K => (g1 k K, g2 k K)) hg 2 3 (by rw [l1]; exact hb 2 6 (by decide) (by decide)) (by rw [l2]; exact hb 3 9 (by decide) (by decide))
  obtain ⟨a, b⟩ := o3 2 beat_independent
  refine ⟨fun k K => (g1 k K, g2 k K), out, out', o1, o2, fun j j' hj => ?_, fun j j' hj hj' => ?_⟩
  · have := a j j' hj
    norm_num at this
    exact this
  · have := b j j' (by omega)
    norm_num at this
    exact this

end Verif.Props
