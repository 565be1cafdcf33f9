import Verif.Props.Rounding
import Verif.Props.PodPerturb
import Verif.Props.PodOther
/-
  C233: floating-point arithmetic in a POD fit.
-/
namespace Verif.Props
open Verif Verif.Par Verif.Round Verif.Fit Verif.Proj Verif.Pod Finset

theorem rounds_scale {u x y : ℝ} (c : ℝ) (h : Rounds u x y) : Rounds u (c * x) (c * y) := by
  simp only [Rounds, ← mul_sub, abs_mul] at h ⊢
  have := mul_le_mul_of_nonneg_left h (abs_nonneg c)
  linarith [mul_left_comm u |c| |x|]

theorem tree_scale {u : ℝ} (c : ℝ) (t : RTree ℝ) : ∀ z, FlTree u t z → ∃ t' : RTree ℝ, t'.leaves = t.leaves.map (c * ·) ∧ FlTree u t' (c * z) := by
  induction t with
  | rank d => intro z hz; exact ⟨.rank (c * d), rfl, by rw [FlTree] at hz ⊢; rw [hz]⟩
  | node l r ih1 ih2 =>
    rintro z ⟨a, b, ha, hb, hz⟩
    obtain ⟨l', h1, h2⟩ := ih1 a ha
    obtain ⟨r', h3, h4⟩ := ih2 b hb
    refine ⟨.node l' r', by simp [RTree.leaves, h1, h3], _, _, h2, h4, ?_⟩
    rw [← mul_add]
    exact rounds_scale c hz

theorem sum_scale {u : ℝ} (c : ℝ) (l : List ℝ) (z : ℝ) (h : FlSum u l z) : FlSum u (l.map (c * ·)) (c * z) := by
  rcases h with ⟨rfl, rfl⟩ | ⟨t, ht, hz⟩
  · exact Or.inl ⟨rfl, by simp⟩
  · obtain ⟨t', h1, h2⟩ := tree_scale c t z hz
    exact Or.inr ⟨t', h1 ▸ ht.map _, h2⟩

theorem sum_perm {u : ℝ} {l l' : List ℝ} {z : ℝ} (h : FlSum u l z) (hp : l.Perm l') : FlSum u l' z := by
  rcases h with ⟨rfl, rfl⟩ | ⟨t, ht, hz⟩
  · exact Or.inl ⟨hp.nil_eq.symm, rfl⟩
  · exact Or.inr ⟨t, ht.trans hp, hz⟩

theorem sum_zeros {u : ℝ} (hu : 0 ≤ u) {l : List ℝ} {z : ℝ} (h : FlSum u l z) (m : Nat) : FlSum u (l ++ List.replicate m 0) z := by
  induction m with
  | zero => simpa using h
  | succ m ih =>
    rw [List.replicate_succ', ← List.append_assoc]
    generalize l ++ List.replicate m (0 : ℝ) = l' at ih
    rcases ih with ⟨rfl, rfl⟩ | ⟨t, ht, hz⟩
    · exact Or.inr ⟨.rank 0, List.Perm.refl _, rfl⟩
    · refine Or.inr ⟨.node t (.rank 0), ?_, z, 0, hz, rfl, ?_⟩
      · exact ht.append_right _
      · rw [add_zero]; exact rounds_exact hu z

theorem dot_interleave {u : ℝ} (hu : 0 ≤ u) (l : List Nat) (f g : Nat → ℝ × ℝ) (hg : ∀ k, (g k).1 * (g k).2 = 0) : ∀ ys,
    List.Forall₂ (fun p y => Rounds u (p.1 * p.2) y) (l.map f) ys →
    ∃ ys', List.Forall₂ (fun p y => Rounds u (p.1 * p.2) y) (l.flatMap fun k => [f k, g k]) ys' ∧ (ys ++ List.replicate l.length 0).Perm ys' := by
  induction l with
  | nil =>
    intro ys h
    rw [List.map_nil, List.forall₂_nil_left_iff] at h
    subst h
    exact ⟨[], .nil, List.Perm.refl _⟩
  | cons k l ih =>
    intro ys h
    rw [List.map_cons, List.forall₂_cons_left_iff] at h
    obtain ⟨y, ys', hy, hys, rfl⟩ := h
    obtain ⟨y2, h1, h2⟩ := ih ys' hys
    refine ⟨y :: 0 :: y2, ?_, ?_⟩
    · rw [List.flatMap_cons]
      refine .cons hy (.cons ?_ h1)
      rw [hg]; exact rounds_exact hu 0
    · rw [List.length_cons, List.replicate_succ, List.cons_append]
      refine List.Perm.cons _ ?_
      exact List.perm_middle.trans (List.Perm.cons _ h2)

theorem corrLocal_complex {u : ℝ} (hu : 0 ≤ u) (d : Nat → Arr ℝ) (w : Arr ℝ) (i j : Nat) (z nb : ℝ) (h : FlCorrLocal u d w i j z) :
    FlLocal u (fun b => complexArr (d b)) w nb i j ((nb⁻¹ * z : ℝ) : ℂ) := by
  obtain ⟨v, hv, ys, hys, hz⟩ := h
  refine ⟨fun k => (v k : ℂ), (z : ℂ), fun k hk => ⟨?_, ?_⟩, ?_, ?_, ?_, ?_⟩
  · exact hv k hk
  · simp [complexArr, Rounds]
  · obtain ⟨ys', h1, h2⟩ := dot_interleave hu (List.range (size w.shape)) (fun k => ((d i).at' (unravel w.shape k), v k)) (fun _ => (0, 0)) (fun _ => by simp) ys hys
    refine ⟨ys', ?_, ?_⟩
    · simpa [dotRe, complexArr] using h1
    · exact sum_perm (sum_zeros hu (by simpa using hz) _) h2
  · have := dot_exact hu (dotIm (fun k => (complexArr (d i)).at' (unravel w.shape k)) (fun k => (v k : ℂ)) (size w.shape))
    have e : ((dotIm (fun k => (complexArr (d i)).at' (unravel w.shape k)) (fun k => (v k : ℂ)) (size w.shape)).map fun p => p.1 * p.2).sum = 0 := by
      rw [dotIm, List.map_flatMap]
      refine List.sum_eq_zero ?_
      intro x hx
      simp [complexArr] at hx
      exact hx.2
    rw [e] at this
    simpa using this
  · simp only [Complex.ofReal_re]
    rw [div_eq_inv_mul]
    exact rounds_exact hu _
  · simp [Rounds]

theorem corr_complex {u : ℝ} (hu : 0 ≤ u) (comms : List Comm) (ax : Nat) (d : Nat → Arr ℝ) (w : Arr ℝ) (i j : Nat) (z nb : ℝ) (h : FlCorr u comms ax d w i j z) :
    FlGram u comms ax (fun b => complexArr (d b)) w nb i j ((nb⁻¹ * z : ℝ) : ℂ) := by
  obtain ⟨ls, hls, hz⟩ := h
  refine ⟨ls.map fun l => ((nb⁻¹ * l : ℝ) : ℂ), ?_, ?_, ?_⟩
  · rw [List.forall₂_map_right_iff]
    refine hls.imp fun comm l hl => ?_
    have := corrLocal_complex hu _ _ i j l nb hl
    simpa only [complexArr_slab] using this
  · rw [List.map_map]
    exact sum_scale nb⁻¹ ls z hz
  · have := sum_exact hu ((ls.map fun l => ((nb⁻¹ * l : ℝ) : ℂ)).map Complex.im)
    have e : ((ls.map fun l => ((nb⁻¹ * l : ℝ) : ℂ)).map Complex.im).sum = 0 := by
      refine List.sum_eq_zero ?_
      intro x hx
      rw [List.map_map, List.mem_map] at hx
      obtain ⟨a, -, rfl⟩ := hx
      exact Complex.ofReal_im _
    rw [e] at this
    rw [Complex.ofReal_im]
    exact this

theorem Approx.neg {u : ℝ} {k y e B} (h : Approx u k y e B) : Approx u k (-y) (-e) B := by
  refine ⟨?_, by rw [abs_neg]; exact h.2⟩
  have : -y - -e = -(y - e) := by ring
  rw [this, abs_neg]; exact h.1

/-- one more rounding -/
theorem Approx.round {u : ℝ} (hu : 0 ≤ u) {k y e B z} (h : Approx u k y e B) (hz : Rounds u y z) : Approx u (k + 1) z e B := by
  have := h.mul hu 1 (z := z) (by rwa [mul_one])
  rwa [mul_one, _root_.abs_one, mul_one] at this

/-- the mean in floating-point arithmetic -/
theorem mean_approx {u : ℝ} (hu : 0 ≤ u) (vals : List ℝ) (hn : vals ≠ []) (X : ℝ) (hX : ∀ x ∈ vals, |x| ≤ X) (m : ℝ) (h : FlMean u vals m) :
    Approx u vals.length m (vals.sum / vals.length) X := by
  have hn' : 0 < vals.length := List.length_pos_iff.2 hn
  have hn : (0 : ℝ) < vals.length := by exact_mod_cast hn'
  obtain ⟨s, hs, hm⟩ := h
  have h1 := sum_approx hu 0 vals.length (vals.map fun x => (x, x, X)) (by simp) (by
    intro a ha
    obtain ⟨x, hx, rfl⟩ := List.mem_map.1 ha
    exact (Approx.exact _).mono hu (le_refl _) (hX x hx)) s (by simpa [List.map_map, Function.comp_def] using hs)
  simp only [List.map_map, Function.comp_def, List.map_id', List.map_const', List.sum_replicate, nsmul_eq_mul] at h1
  have h2 := h1.mul hu (vals.length : ℝ)⁻¹ (z := m) (by rw [← div_eq_mul_inv]; exact hm)
  have e : (vals.length : ℝ) * X * |(vals.length : ℝ)⁻¹| = X := by
    rw [abs_of_pos (inv_pos.2 hn)]
    field_simp
  rw [e, ← div_eq_mul_inv] at h2
  exact h2.mono hu (by omega) (le_refl _)

theorem sub_approx {u : ℝ} (hu : 0 ≤ u) (x X : ℝ) (hx : |x| ≤ X) (k : Nat) (m e z : ℝ) (hm : Approx u k m e X) (hz : Rounds u (x - m) z) :
    Approx u (k + 1) z (x - e) (2 * X) := by
  have := ((Approx.exact (u := u) x).mono hu (Nat.zero_le k) hx).add hu hm.neg (z := z) (by rw [← sub_eq_add_neg]; exact hz)
  rw [← sub_eq_add_neg, ← two_mul] at this
  exact this

/-- the fluctuation in floating-point arithmetic -/
theorem fluct_approx {u : ℝ} (hu : 0 ≤ u) (mk : MeanKind) (vals : List ℝ) (X : ℝ) (hX : ∀ x ∈ vals, |x| ≤ X) (t : Nat) (ht : t < vals.length) (z : ℝ)
    (h : FlFluct u mk vals t z) :
    |z - (vals.getD t 0 - if mk = .longtime then vals.sum / vals.length else 0)| ≤ ((1 + u) ^ (vals.length + 2) - 1) * (2 * X) := by
  have hmem : vals.getD t 0 ∈ vals := by
    rw [List.getD_eq_getElem _ _ ht]; exact List.getElem_mem _
  have hx := hX _ hmem
  have hX0 : 0 ≤ X := (abs_nonneg _).trans hx
  have hcast : ∀ x, Rounds u (vals.getD t 0) x → Approx u 1 x (vals.getD t 0) X := fun x h =>
    ((Approx.exact (u := u) (vals.getD t 0)).mono hu (le_refl 0) hx).round hu h
  cases mk with
  | longtime =>
    obtain ⟨m0, m, x, h1, h2, h3, h4⟩ := h
    rw [if_pos rfl]
    have g := (mean_approx hu vals (by rintro rfl; simp at ht) X hX m0 h1).round hu h2
    have g2 := ((hcast x h3).mono hu (show 1 ≤ vals.length + 1 by omega) (le_refl _)).add hu g.neg (z := z) (by rw [← sub_eq_add_neg]; exact h4)
    rw [← sub_eq_add_neg, ← two_mul] at g2
    exact g2.1
  | zero =>
    obtain ⟨x, h1, h2⟩ := h
    rw [if_neg (by simp), sub_zero]
    rw [sub_zero] at h2
    exact (((hcast x h1).round hu h2).mono hu (show 2 ≤ vals.length + 2 by omega) (by linarith : X ≤ 2 * X)).1

theorem pod_rounding_core {nt : Nat} (hnt : 0 < nt) (dh : Nat → Arr ℝ) (W : Arr ℝ) (hnn : ∀ idx, InRange W.shape idx → 0 ≤ W.at' idx)
    (hdh : ∀ t, (dh t).shape = W.shape) (D : Matrix (Fin (size W.shape)) (Fin nt) ℝ) (ε : ℝ) (hε : 0 ≤ ε)
    (hD : ∀ (x : Fin (size W.shape)) (t : Fin nt), |(dh t).at' (unravel W.shape x) - D x t| ≤ ε) (s : Fit.Solver nt) (hf : SolverFull s)
    (u : ℝ) (hu : 0 ≤ u) (comms : List Comm) (hc : Procs comms) (ax : Nat) (hax : ax < W.shape.length) (N : Nat)
    (hN : ∀ comm ∈ comms, size (distributeDimension W ax comm).shape ≤ N) (Mh : Matrix (Fin nt) (Fin nt) ℝ)
    (hMh : ∀ i j : Fin nt, FlCorr u comms ax dh W i j (Mh i j)) :
    ∃ lam : Fin nt → ℝ, Antitone lam ∧ (∀ k, 0 ≤ lam k) ∧
      (∀ k, |Real.sqrt (lam k) - Real.sqrt (nt * eigsAt (Matrix.of fun x t => (D x t : ℂ)) (specW W) s 1 k)| ≤ ε * Real.sqrt (nt * ∑ x, specW W x)) ∧
      ∀ (mu : ℂ) (δ : ℝ) (v : EuclideanSpace ℂ (Fin nt)), v ≠ 0 →
        ‖WithLp.toLp 2 ((Mh.map Complex.ofReal).mulVec v.ofLp) - mu • v‖ ≤ δ * ‖v‖ →
        ∃ k, ‖mu - lam k‖ ≤ roundBound u N comms.length * (∑ k, lam k) + δ := by
  have hnt0 : (0 : ℝ) < nt := by exact_mod_cast hnt
  have hw' : ∀ x, 0 ≤ specW W x := fun x => hnn _ (inRange_unravel x.2)
  have hM := (matrix_rounding hnt (fun b => complexArr (dh b)) W hnn (fun b => hdh b) s hf 1 u hu comms hc ax
    hax N hN (Matrix.of fun i j => (((nt : ℝ)⁻¹ * Mh i j : ℝ) : ℂ)) (fun i j => corr_complex hu comms ax dh _ i j _ nt (hMh i j)) _ rfl).2.2
  simp only [Nat.cast_one, one_mul] at hM
  obtain ⟨b1, b2, -⟩ := eigsAt_basis (Matrix.of fun (x : Fin (size W.shape)) (b : Fin nt) => (complexArr (dh b)).at' (unravel W.shape x)) (specW W) hw' s hf 1
  have hd : ∀ (x : Fin (size W.shape)) (b : Fin nt), ‖(Matrix.of fun (x : Fin (size W.shape)) (b : Fin nt) => (complexArr (dh b)).at' (unravel W.shape x)) x b -
      (Matrix.of fun x t => (D x t : ℂ)) x b‖ ≤ ε := by
    intro x b
    have := hD x b
    rw [Matrix.of_apply, Matrix.of_apply]
    show ‖(((dh b).at' (unravel W.shape x) : ℝ) : ℂ) - ((D x b : ℝ) : ℂ)‖ ≤ ε
    rw [← Complex.ofReal_sub, Complex.norm_real]
    exact this
  generalize hE : eigsAt (Matrix.of fun (x : Fin (size W.shape)) (b : Fin nt) => (complexArr (dh b)).at' (unravel W.shape x)) (specW W) s 1 = E at hM b1 b2
  refine ⟨fun k => nt * E k, fun i j h => mul_le_mul_of_nonneg_left (b1 h) hnt0.le, fun k => mul_nonneg hnt0.le (b2 k), fun k => ?_, ?_⟩
  · have g1 := eigs_near hnt _ _ (specW W) hw' s s hf hf 1 ε hε hd k
    have g2 := eigs_near hnt _ _ (specW W) hw' s s hf hf 1 ε hε (fun x b => by rw [norm_sub_rev]; exact hd x b) k
    rw [hE] at g1 g2
    simp only [Nat.cast_one, one_mul] at g1 g2
    rw [Real.sqrt_mul hnt0.le, Real.sqrt_mul hnt0.le, Real.sqrt_mul hnt0.le, ← mul_sub, abs_mul, abs_of_nonneg (Real.sqrt_nonneg _), mul_left_comm ε]
    refine mul_le_mul_of_nonneg_left ?_ (Real.sqrt_nonneg _)
    rw [abs_le]
    constructor <;> linarith
  · intro mu δ v hv hr
    obtain ⟨k, hk⟩ := hM ((nt : ℂ)⁻¹ * mu) ((nt : ℝ)⁻¹ * δ) v hv (by
      have e : WithLp.toLp 2 ((Matrix.of fun i j => (((nt : ℝ)⁻¹ * Mh i j : ℝ) : ℂ)).mulVec v.ofLp) - ((nt : ℂ)⁻¹ * mu) • v =
          (nt : ℂ)⁻¹ • (WithLp.toLp 2 ((Mh.map Complex.ofReal).mulVec v.ofLp) - mu • v) := by
        ext i
        simp only [PiLp.sub_apply, PiLp.smul_apply, smul_eq_mul, Matrix.mulVec, dotProduct, Matrix.of_apply, Matrix.map_apply, mul_sub, Finset.mul_sum]
        congr 1
        · exact Finset.sum_congr rfl fun j _ => by push_cast; ring
        · ring
      rw [e, norm_smul, norm_inv, Complex.norm_natCast, mul_assoc]
      exact mul_le_mul_of_nonneg_left hr (inv_nonneg.2 hnt0.le))
    refine ⟨k, ?_⟩
    have e : mu - ((nt * E k : ℝ) : ℂ) = (nt : ℂ) * ((nt : ℂ)⁻¹ * mu - (E k : ℂ)) := by
      have : (nt : ℂ) ≠ 0 := by exact_mod_cast hnt.ne'
      push_cast
      field_simp
    rw [e, norm_mul, Complex.norm_natCast, ← Finset.mul_sum]
    refine (mul_le_mul_of_nonneg_left hk hnt0.le).trans (le_of_eq ?_)
    field_simp

/-- **C233.** A POD fit in floating-point arithmetic with unit roundoff `u`, of data of magnitude at most `X`: the mean is subtracted in floating-point arithmetic
    (result `dh`), the matrix `Mh` is computed on one process or on `p` ranks with at most `N` values each, in any order of the additions, and the eigen-solver leaves
    a residual `δ`.  There are numbers `lam`, in descending order, whose roots differ from those of the exact eigenvalues by at most
    `2 X ((1 + u)^(nt + 2) - 1) √(nt Σ w)`, and every computed eigenvalue is one of them up to `roundBound u N p` times their sum plus `δ`. -/
theorem pod_floating {c weights files dims mk n} (R : PodRun c weights files dims mk n) (solver : PodFit.Solver) (lamV) (hs : PodSolver solver lamV)
    (hw : ∀ w, weights = some w → ∀ k, 0 ≤ flat w k) :
    ∃ o, (∀ comms sched, IsRun comms sched → PodFit.podFit c weights solver files comms sched = some o) ∧
      ∀ u : ℝ, 0 ≤ u → ∀ X : ℝ, (∀ t < files.flatten.length, ∀ x < size (dims ++ [1]), |podAt files t x| ≤ X) →
      ∀ dh : Nat → Arr ℝ, (∀ t, (dh t).shape = dims ++ [1]) → (∀ t < files.flatten.length, ∀ x < size (dims ++ [1]),
        FlFluct u mk ((List.range files.flatten.length).map fun t' => podAt files t' x) t ((dh t).at' (unravel (dims ++ [1]) x))) →
      ∀ W : Arr ℝ, W.shape = dims ++ [1] → (∀ x : Fin (size (dims ++ [1])), W.at' (unravel (dims ++ [1]) x) = podWeight weights dims x) →
      ∀ comms : List Comm, Procs comms → ∀ ax ≤ dims.length, ∀ N : Nat, (∀ comm ∈ comms, size (distributeDimension W ax comm).shape ≤ N) →
      ∀ Mh : Matrix (Fin files.flatten.length) (Fin files.flatten.length) ℝ,
      (∀ i j : Fin files.flatten.length, FlCorr u comms ax dh W i j (Mh i j)) →
        ∃ lam : Fin files.flatten.length → ℝ, Antitone lam ∧ (∀ k, 0 ≤ lam k) ∧
          (∀ k, |Real.sqrt (lam k) - Real.sqrt (kthLargest o.eigs k)| ≤
            ((1 + u) ^ (files.flatten.length + 2) - 1) * (2 * X) * Real.sqrt (files.flatten.length * ∑ x, podWeight weights dims x)) ∧
          ∀ (mu : ℂ) (δ : ℝ) (v : EuclideanSpace ℂ (Fin files.flatten.length)), v ≠ 0 →
            ‖WithLp.toLp 2 ((Mh.map Complex.ofReal).mulVec v.ofLp) - mu • v‖ ≤ δ * ‖v‖ →
            ∃ k, ‖mu - lam k‖ ≤ roundBound u N comms.length * (∑ k, lam k) + δ := by
  have hnt : 0 < files.flatten.length := lt_of_lt_of_le R.n_pos R.n_le
  obtain ⟨s, hf⟩ := solver_full_exists files.flatten.length
  obtain ⟨o, ho, hk⟩ := pod_spectrum R solver lamV hs hw (comms := [none]) (sched := none) (Or.inl ⟨rfl, rfl⟩) s hf
  refine ⟨o, fun comms sched hr => ?_, ?_⟩
  · rw [R.fit solver hr, ← R.fit solver (comms := [none]) (sched := none) (Or.inl ⟨rfl, rfl⟩), ho]
  intro u hu X hX dh hdh hfl W hW hWw comms hc ax hax N hN Mh hMh
  have hp := podWeight_nonneg (dims := dims) hw
  obtain ⟨Wsh, Wf⟩ := W
  simp only at hW
  subst hW
  have hWeq : specW ⟨dims ++ [1], Wf⟩ = podWeight weights dims := funext hWw
  have hnn : ∀ idx, InRange (dims ++ [1]) idx → 0 ≤ Wf idx := by
    intro idx hi
    have := hWw ⟨ravel (dims ++ [1]) idx, ravel_lt hi⟩
    simp only [unravel_ravel hi] at this
    rw [this]; exact hp _
  have hX0 : 0 ≤ X := (abs_nonneg _).trans (hX 0 hnt 0 (by rw [size_append]; simpa using R.pos))
  have := pod_rounding_core hnt dh ⟨dims ++ [1], Wf⟩ hnn hdh (Matrix.of fun x t => podFluct mk files.flatten (dims ++ [1]) x t)
    (((1 + u) ^ (files.flatten.length + 2) - 1) * (2 * X)) (mul_nonneg (sub_nonneg.2 (one_le_pow₀ (by linarith))) (by linarith)) (by
      intro x t
      have h := fluct_approx hu mk _ X (by
        intro y hy
        obtain ⟨t', ht', rfl⟩ := List.mem_map.1 hy
        exact hX t' (List.mem_range.1 ht') x x.2) t (by rw [List.length_map, List.length_range]; exact t.2) _ (hfl t t.2 x x.2)
      rw [Matrix.of_apply, podFluct_at]
      rw [List.length_map, List.length_range, list_range_sum] at h
      rw [List.getD_eq_getElem _ _ (by rw [List.length_map, List.length_range]; exact t.2)] at h
      simpa only [List.getElem_map, List.getElem_range] using h) s hf u hu comms hc ax (by simp; omega) N hN Mh hMh
  obtain ⟨lam, l1, l2, l3, l4⟩ := this
  refine ⟨lam, l1, l2, fun k => ?_, l4⟩
  have h := l3 k
  rw [hWeq] at h
  rw [hk k]
  exact h

/-! ### Projection -/

/-- a sum in any order of products of exact numbers with numbers that approximate others -/
theorem dot_approx_any {u : ℝ} (hu : 0 ≤ u) (k m : Nat) (qs : List (ℝ × ℝ × ℝ × ℝ)) (hm : qs.length ≤ m) (h : ∀ q ∈ qs, Approx u k q.2.1 q.2.2.1 q.2.2.2)
    (z : ℝ) (hz : FlDot u (qs.map fun q => (q.1, q.2.1)) z) :
    Approx u (k + m) z (qs.map fun q => q.1 * q.2.2.1).sum (qs.map fun q => |q.1| * q.2.2.2).sum := by
  obtain ⟨ys, hys, hz⟩ := hz
  have key : ∃ l : List (ℝ × ℝ × ℝ), l.map (·.1) = ys ∧ l.map (·.2.1) = (qs.map fun q => q.1 * q.2.2.1) ∧
      l.map (·.2.2) = (qs.map fun q => |q.1| * q.2.2.2) ∧ ∀ a ∈ l, Approx u (k + 1) a.1 a.2.1 a.2.2 := by
    clear hz hm
    induction qs generalizing ys with
    | nil =>
      simp only [List.map_nil, List.forall₂_nil_left_iff] at hys
      subst hys
      exact ⟨[], rfl, rfl, rfl, by simp⟩
    | cons q qs ih =>
      rw [List.map_cons, List.forall₂_cons_left_iff] at hys
      obtain ⟨y, ys', hy, hys', rfl⟩ := hys
      obtain ⟨l, h1, h2, h3, h4⟩ := ih (fun q hq => h q (by simp [hq])) ys' hys'
      have hq := (h q (by simp)).mul hu q.1 (z := y) (by rw [mul_comm]; exact hy)
      rw [mul_comm _ q.1, mul_comm _ |q.1|] at hq
      refine ⟨(y, q.1 * q.2.2.1, |q.1| * q.2.2.2) :: l, by simp [h1], by simp [h2], by simp [h3], ?_⟩
      intro a ha
      rcases List.mem_cons.1 ha with rfl | ha
      · exact hq
      · exact h4 a ha
  obtain ⟨l, h1, h2, h3, h4⟩ := key
  subst h1
  have hl : l.length = qs.length := by have := congrArg List.length h2; simpa using this
  have := sum_approx hu (k + 1) m l (by omega) h4 z hz
  rw [h2, h3] at this
  exact this.mono hu (by omega) (le_refl _)

/-- an entry of a slab is an entry of the array, the same for all arrays of this shape -/
theorem slab_index (sh : List Nat) (ax : Nat) (hax : ax < sh.length) (comm : Comm) (a : Arr ℝ) (ha : a.shape = sh) (idx : List Nat)
    (h : InRange (distributeDimension a ax comm).shape idx) :
    ∃ idx', InRange sh idx' ∧ ∀ v : Arr ℝ, v.shape = sh → (distributeDimension v ax comm).at' idx = v.at' idx' := by
  classical
  match comm with
  | none => exact ⟨idx, ha ▸ h, fun v hv => rfl⟩
  | some (p, r) =>
    have := slab_nonneg (⟨sh, fun i => if InRange sh i then 1 else -1⟩ : Arr ℝ) (fun i hi => by simp [hi]) ax hax (some (p, r)) idx
      (by simpa only [distributeDimension, Arr.slice, ha] using h)
    refine ⟨idx.set ax (idx.getD ax 0 + (blockdist (ext sh ax) p r).2), ?_, fun v hv => ?_⟩
    · by_contra hn
      simp only [distributeDimension, Arr.slice] at this
      rw [if_neg hn] at this
      linarith
    · simp only [distributeDimension, Arr.slice, hv]

theorem slab_extent (ax : Nat) (comm : Comm) (a b : Arr ℝ) (h : a.shape = b.shape) : (distributeDimension a ax comm).shape = (distributeDimension b ax comm).shape := by
  match comm with
  | none => exact h
  | some (p, r) => simp only [distributeDimension, Arr.slice, h]

/-- a coefficient in floating-point arithmetic -/
theorem coef_approx {u : ℝ} (hu : 0 ≤ u) (k : Nat) (comms : List Comm) (hc : Procs comms) (ax : Nat) (sh : List Nat) (hax : ax < sh.length) (phi d D B : Arr ℝ)
    (h1 : phi.shape = sh) (h2 : d.shape = sh) (h3 : D.shape = sh) (h4 : B.shape = sh)
    (hd : ∀ idx, InRange sh idx → Approx u k (d.at' idx) (D.at' idx) (B.at' idx)) (N : Nat)
    (hN : ∀ comm ∈ comms, size (distributeDimension d ax comm).shape ≤ N) (z : ℝ) (hz : FlCoef u comms ax phi d z) :
    Approx u (k + N + comms.length - 1) z (idxSum sh fun idx => phi.at' idx * D.at' idx) (idxSum sh fun idx => |phi.at' idx| * B.at' idx) := by
  obtain ⟨ls, hls, hz⟩ := hz
  let one : Arr ℝ := ⟨sh, fun _ => 1⟩
  let Q : Nat → Arr ℝ := fun b => if b = 0 then phi else D
  let Qa : Nat → Arr ℝ := fun b => if b = 0 then ⟨sh, fun idx => |phi.at' idx|⟩ else B
  have g1 := gram_procs comms hc ax Q one 1 hax (fun b => by simp only [Q]; split <;> assumption) 0 1
  have g2 := gram_procs comms hc ax Qa one 1 hax (fun b => by simp only [Qa]; split; rfl; assumption) 0 1
  have key : ∃ l : List (ℝ × ℝ × ℝ), l.map (·.1) = ls ∧
      l.map (·.2.1) = (comms.map fun comm => localGram (fun b => distributeDimension (Q b) ax comm) (distributeDimension one ax comm) 1 0 1) ∧
      l.map (·.2.2) = (comms.map fun comm => localGram (fun b => distributeDimension (Qa b) ax comm) (distributeDimension one ax comm) 1 0 1) ∧
      ∀ a ∈ l, Approx u (k + N) a.1 a.2.1 a.2.2 := by
    clear hz hc g1 g2
    induction comms generalizing ls with
    | nil =>
      rw [List.forall₂_nil_left_iff] at hls
      subst hls
      exact ⟨[], rfl, rfl, rfl, by simp⟩
    | cons comm comms ih =>
      rw [List.forall₂_cons_left_iff] at hls
      obtain ⟨y, ys, hy, hys, rfl⟩ := hls
      obtain ⟨l, e1, e2, e3, e4⟩ := ih (fun c hc => hN c (by simp [hc])) ys hys
      have hsh : (distributeDimension one ax comm).shape = (distributeDimension d ax comm).shape := slab_extent ax comm one d h2.symm
      set S := (distributeDimension d ax comm).shape with hS
      have h5 := dot_approx_any hu k N ((List.range (size S)).map fun i =>
          ((distributeDimension phi ax comm).at' (unravel S i), (distributeDimension d ax comm).at' (unravel S i),
            (distributeDimension D ax comm).at' (unravel S i), (distributeDimension B ax comm).at' (unravel S i)))
        (by rw [List.length_map, List.length_range]; exact hN comm (by simp)) (by
          intro q hq
          obtain ⟨i, hi, rfl⟩ := List.mem_map.1 hq
          obtain ⟨idx', i1, i2⟩ := slab_index sh ax hax comm d h2 (unravel S i) (inRange_unravel (List.mem_range.1 hi))
          simp only [i2 d h2, i2 D h3, i2 B h4]
          exact hd idx' i1) y (by rw [List.map_map]; exact hy)
      rw [List.map_map, List.map_map] at h5
      simp only [Function.comp_def] at h5
      rw [list_range_sum, list_range_sum] at h5
      have f1 : localGram (fun b => distributeDimension (Q b) ax comm) (distributeDimension one ax comm) 1 0 1 =
          ∑ i ∈ range (size S), (distributeDimension phi ax comm).at' (unravel S i) * (distributeDimension D ax comm).at' (unravel S i) := by
        rw [localGram, hsh, div_one]
        refine Finset.sum_congr rfl fun i hi => ?_
        obtain ⟨idx', i1, i2⟩ := slab_index sh ax hax comm d h2 (unravel S i) (inRange_unravel (Finset.mem_range.1 hi))
        rw [i2 one rfl]
        simp [Q, one]
      have f2 : localGram (fun b => distributeDimension (Qa b) ax comm) (distributeDimension one ax comm) 1 0 1 =
          ∑ i ∈ range (size S), |(distributeDimension phi ax comm).at' (unravel S i)| * (distributeDimension B ax comm).at' (unravel S i) := by
        rw [localGram, hsh, div_one]
        refine Finset.sum_congr rfl fun i hi => ?_
        obtain ⟨idx', i1, i2⟩ := slab_index sh ax hax comm d h2 (unravel S i) (inRange_unravel (Finset.mem_range.1 hi))
        rw [i2 one rfl, i2 phi h1]
        simp only [Qa, if_pos rfl, i2 (⟨sh, fun idx => |phi.at' idx|⟩ : Arr ℝ) rfl]
        simp [one]
      refine ⟨(y, localGram (fun b => distributeDimension (Q b) ax comm) (distributeDimension one ax comm) 1 0 1,
        localGram (fun b => distributeDimension (Qa b) ax comm) (distributeDimension one ax comm) 1 0 1) :: l, by simp [e1], by simp only [List.map_cons, e2],
          by simp only [List.map_cons, e3], ?_⟩
      intro a ha
      rcases List.mem_cons.1 ha with rfl | ha
      · rw [f1, f2]; exact h5
      · exact e4 a ha
  obtain ⟨l, e1, e2, e3, e4⟩ := key
  subst e1
  have hlen : l.length = comms.length := by have := congrArg List.length e2; simpa using this
  have := sum_approx hu (k + N) comms.length l hlen.le e4 z hz
  rw [e2, e3, g1, g2] at this
  have t1 : gramSpec Q one 1 0 1 = idxSum sh fun idx => phi.at' idx * D.at' idx := by simp [gramSpec, Q, one]
  have t2 : gramSpec Qa one 1 0 1 = idxSum sh fun idx => |phi.at' idx| * B.at' idx := by simp [gramSpec, Qa, one]
  rw [t1, t2] at this
  exact this

/-- **C234.** Projection of data of magnitude at most `X` on real modes `A` and reconstruction, in floating-point arithmetic with unit roundoff `u`: the mean `mh`, the
    fluctuations `dh`, the coefficients `ah` (on one process or on `p` ranks with at most `N` values each, in any order of the additions) and the reconstruction
    `rh`.  They differ from the exact ones (those of the model without rounding, on any ranks) by at most the bounds, which depend on the modes and on `X` only. -/
theorem pod_project_floating (S : PodFit.Stored) (frames : List (Arr ℝ)) (dims : List Nat) (n : Nat) (hF : PodFolder S frames dims n) (hfr : frames ≠ [])
    (hd : dims ≠ []) (hpos : 0 < size dims) (A : Matrix (Fin (size (dims ++ [1]))) (Fin n) ℝ)
    (hA : ∀ (x : Fin (size (dims ++ [1]))) (j : Fin n), NpyFile.num S.modes (x * n + j) = ((A x j : ℝ) : ℂ))
    (mi : Option (List Nat)) (c2 c3 : List Comm) (s2 s3 : Sched) (h2 : IsRun c2 s2) (h3 : IsRun c3 s3) :
    ∃ G rec, PodFit.podProject S mi frames c2 s2 = some G ∧ PodFit.podReconstruct G none (.str "all") c3 s3 = some rec ∧
      ∀ u : ℝ, 0 ≤ u → ∀ X : ℝ, (∀ t < frames.length, ∀ x < size (dims ++ [1]), |snapVal frames t x| ≤ X) →
      ∀ mh : Nat → ℝ, (∀ x < size (dims ++ [1]), FlMean u ((List.range frames.length).map fun t => snapVal frames t x) (mh x)) →
      ∀ dh : Nat → Arr ℝ, (∀ t, (dh t).shape = dims ++ [1]) →
      (∀ t < frames.length, ∀ x < size (dims ++ [1]), Rounds u (snapVal frames t x - mh x) ((dh t).at' (unravel (dims ++ [1]) x))) →
      ∀ phi : Nat → Arr ℝ, (∀ j, (phi j).shape = dims ++ [1]) →
      (∀ (j : Fin n) (x : Fin (size (dims ++ [1]))), (phi j).at' (unravel (dims ++ [1]) x) = A x j) →
      ∀ comms : List Comm, Procs comms → ∀ ax ≤ dims.length, ∀ N : Nat, (∀ comm ∈ comms, ∀ t, size (distributeDimension (dh t) ax comm).shape ≤ N) →
      ∀ ah : Nat → Nat → ℝ, (∀ j < n, ∀ t < frames.length, FlCoef u comms ax (phi j) (dh t) (ah j t)) →
      ∀ rh : Nat → Nat → ℝ, (∀ t < frames.length, ∀ x < size (dims ++ [1]),
        FlRecon u n (fun j => (phi j).at' (unravel (dims ++ [1]) x)) (fun j => ah j t) (mh x) (rh t x)) →
        (∀ (j : Fin n) (t : Fin frames.length), ∃ a : ℝ, fileEntry G.coeffs [j.1, t.1] = some (a : ℂ) ∧
          |ah j t - a| ≤ ((1 + u) ^ (frames.length + N + comms.length) - 1) * (2 * X * ∑ x, |A x j|)) ∧
        ∀ (t : Fin frames.length) (x : Fin (size (dims ++ [1]))), ∃ r : ℝ, fileEntry rec (t.1 :: unravel (dims ++ [1]) x) = some (r : ℂ) ∧
          |rh t x - r| ≤ ((1 + u) ^ (frames.length + N + comms.length + n + 1) - 1) * (X + 2 * X * ∑ j, |A x j| * ∑ y, |A y j|) := by
  obtain ⟨G, rec, g1, g2, ⟨g3, g4⟩, g5, g6⟩ := pod_folder_written S frames dims n hF hfr hd hpos A hA mi c2 c3 s2 s3 h2 h3
  refine ⟨G, rec, g1, g2, ?_⟩
  intro u hu X hX mh hmh dh hdh hdr phi hps hpv comms hc ax hax N hN ah hah rh hrh
  have hnt : 0 < frames.length := List.length_pos_iff.2 hfr
  have hp : 0 < comms.length := by
    rcases hc with rfl | ⟨p, hp, rfl⟩
    · simp
    · simpa [Proj.ranksOf] using hp
  have hsz : 0 < size (dims ++ [1]) := by rw [size_append]; simpa using hpos
  have hX0 : 0 ≤ X := (abs_nonneg _).trans (hX 0 hnt 0 hsz)
  have hm : ∀ x < size (dims ++ [1]), Approx u frames.length (mh x) (snapMean frames x) X := by
    intro x hx
    have := mean_approx hu _ (by simpa using hfr) X (by
      intro y hy
      obtain ⟨t, ht, rfl⟩ := List.mem_map.1 hy
      exact hX t (List.mem_range.1 ht) x hx) (mh x) (hmh x hx)
    rwa [List.length_map, List.length_range, list_range_sum] at this
  have hdev : ∀ t < frames.length, ∀ x < size (dims ++ [1]),
      Approx u (frames.length + 1) ((dh t).at' (unravel (dims ++ [1]) x)) (snapVal frames t x - snapMean frames x) (2 * X) := fun t ht x hx =>
    sub_approx hu _ X (hX t ht x hx) _ _ _ _ (hm x hx) (hdr t ht x hx)
  have hco : ∀ (j : Fin n) (t : Fin frames.length), Approx u (frames.length + N + comms.length) (ah j t) (coeffsOp A (podD frames (dims ++ [1])) j t)
      (2 * X * ∑ x, |A x j|) := by
    intro j t
    have h := coef_approx hu (frames.length + 1) comms hc ax (dims ++ [1]) (by simp; omega) (phi j) (dh t)
      ⟨dims ++ [1], fun idx => snapVal frames t (ravel (dims ++ [1]) idx) - snapMean frames (ravel (dims ++ [1]) idx)⟩ ⟨dims ++ [1], fun _ => 2 * X⟩
      (hps j) (hdh t) rfl rfl (by
        intro idx hi
        have := hdev t t.2 (ravel (dims ++ [1]) idx) (ravel_lt hi)
        rwa [unravel_ravel hi] at this) N (fun comm hcm => hN comm hcm t) _ (hah j j.2 t t.2)
    rw [← sum_unravel, ← sum_unravel, Finset.sum_range, Finset.sum_range] at h
    have e1 : (∑ x : Fin (size (dims ++ [1])), (phi j).at' (unravel (dims ++ [1]) x) *
        (snapVal frames t (ravel (dims ++ [1]) (unravel (dims ++ [1]) x)) - snapMean frames (ravel (dims ++ [1]) (unravel (dims ++ [1]) x)))) =
        coeffsOp A (podD frames (dims ++ [1])) j t := by
      rw [coeffsOp, Matrix.mul_apply]
      refine Finset.sum_congr rfl fun x _ => ?_
      rw [ravel_unravel x.2, hpv, Matrix.transpose_apply, Matrix.of_apply, snapMean_eq]
      rfl
    have e2 : (∑ x : Fin (size (dims ++ [1])), |(phi j).at' (unravel (dims ++ [1]) x)| * (2 * X)) = 2 * X * ∑ x, |A x j| := by
      rw [Finset.mul_sum]
      exact Finset.sum_congr rfl fun x _ => by rw [hpv, mul_comm]
    rw [e1, e2] at h
    exact h.mono hu (by omega) (le_refl _)
  refine ⟨fun j t => ⟨_, g4 j t, (hco j t).1⟩, fun t x => ⟨_, g6 t x, ?_⟩⟩
  obtain ⟨s, hs, hr⟩ := hrh t t.2 x x.2
  have hs2 := dot_approx_any hu (frames.length + N + comms.length) n ((List.range n).map fun j => ((phi j).at' (unravel (dims ++ [1]) x), ah j t,
      (if h : j < n then coeffsOp A (podD frames (dims ++ [1])) ⟨j, h⟩ t else 0), (if h : j < n then 2 * X * ∑ y, |A y ⟨j, h⟩| else 0)))
    (by rw [List.length_map, List.length_range]) (by
      intro q hq
      obtain ⟨j, hj, rfl⟩ := List.mem_map.1 hq
      have hj := List.mem_range.1 hj
      simp only [dif_pos hj]
      exact hco ⟨j, hj⟩ t) s (by rw [List.map_map]; exact hs)
  rw [List.map_map, List.map_map] at hs2
  simp only [Function.comp_def] at hs2
  rw [list_range_sum, list_range_sum, Finset.sum_range, Finset.sum_range] at hs2
  simp only [Fin.is_lt, dite_true, Fin.eta, hpv] at hs2
  have h := hs2.add hu ((hm x x.2).mono hu (by omega) (le_refl _)) (z := rh t x) hr
  have e1 : (∑ j, A x j * coeffsOp A (podD frames (dims ++ [1])) j t) + snapMean frames x = Pod.reconstruct A (podD frames (dims ++ [1])) x t := by
    rw [Pod.reconstruct, Matrix.of_apply, Matrix.mul_apply, snapMean_eq]
  have e2 : (∑ j, |A x j| * (2 * X * ∑ y, |A y j|)) + X = X + 2 * X * ∑ j, |A x j| * ∑ y, |A y j| := by
    rw [add_comm, Finset.mul_sum]
    congr 1
    exact Finset.sum_congr rfl fun j _ => by ring
  rw [e1, e2] at h
  exact h.1

/-! ### Cases -/

/-- the exact results are possible results, so that the hypotheses of `pod_floating` can be met for every record -/
theorem pod_exact_possible {u : ℝ} (hu : 0 ≤ u) :
    (∀ (mk : MeanKind) (vals : List ℝ) (t : Nat), FlFluct u mk vals t (vals.getD t 0 - if mk = .longtime then vals.sum / vals.length else 0)) ∧
    ∀ (comms : List Comm) (ax : Nat) (d : Nat → Arr ℝ) (w : Arr ℝ) (i j : Nat), ∃ z, FlCorr u comms ax d w i j z := by
  refine ⟨fun mk vals t => ?_, fun comms ax d w i j => ?_⟩
  · cases mk with
    | longtime => exact ⟨_, _, _, ⟨_, sum_exact hu _, rounds_exact hu _⟩, rounds_exact hu _, rounds_exact hu _, by rw [if_pos rfl]; exact rounds_exact hu _⟩
    | zero => rw [if_neg (by simp)]; exact ⟨_, rounds_exact hu _, rounds_exact hu _⟩
  · have hloc : ∀ comm : Comm, ∃ z, FlCorrLocal u (fun b => distributeDimension (d b) ax comm) (distributeDimension w ax comm) i j z :=
      fun comm => ⟨_, _, fun k _ => rounds_exact hu _, dot_exact hu _⟩
    choose f hf using hloc
    exact ⟨_, comms.map f, by rw [List.forall₂_map_right_iff, List.forall₂_same]; exact fun comm _ => hf comm, sum_exact hu _⟩

/-- the same for the projection: means, coefficients and reconstructions exist -/
theorem pod_project_possible {u : ℝ} (hu : 0 ≤ u) :
    (∀ vals : List ℝ, FlMean u vals (vals.sum / vals.length)) ∧
    (∀ (comms : List Comm) (ax : Nat) (phi d : Arr ℝ), ∃ z, FlCoef u comms ax phi d z) ∧
    ∀ (n : Nat) (phi a : Nat → ℝ) (m : ℝ), ∃ z, FlRecon u n phi a m z := by
  refine ⟨fun vals => ⟨_, sum_exact hu _, rounds_exact hu _⟩, fun comms ax phi d => ?_, fun n phi a m => ⟨_, _, dot_exact hu _, rounds_exact hu _⟩⟩
  exact ⟨_, comms.map fun comm => _, by rw [List.forall₂_map_right_iff, List.forall₂_same]; exact fun comm _ => dot_exact hu _, sum_exact hu _⟩

/-- the error is relative to the data, not to the fluctuations: with five binary digits the fluctuation `-1/2` of the first of the values 16 and 17 may be lost -/
example : FlFluct (1 / 16) .longtime [16, 17] 0 0 :=
  ⟨16, 16, 16, ⟨32, Or.inr ⟨.node (.rank 16) (.rank 17), List.Perm.refl _, 16, 17, rfl, rfl, by norm_num [Rounds]⟩, by norm_num [Rounds]⟩, by norm_num [Rounds],
    by norm_num [Rounds], by norm_num [Rounds]⟩

/-- `pod_floating` for the snapshots `(1, 2), (3, 4)`, in double precision on two ranks: the eigenvalues are found to thirteen digits -/
example (solver : PodFit.Solver) (lamV) (hs : PodSolver solver lamV) : ∃ o, PodFit.podFit podOneCfg none solver (podPair 1 2 3 4) [none] none = some o ∧
    ∀ dh : Nat → Arr ℝ, (∀ t, (dh t).shape = [2, 1]) → (∀ t < 2, ∀ x < 2,
      FlFluct (1 / 2 ^ 53) .zero [podAt (podPair 1 2 3 4) 0 x, podAt (podPair 1 2 3 4) 1 x] t ((dh t).at' (unravel [2, 1] x))) →
    ∀ Mh : Matrix (Fin 2) (Fin 2) ℝ, (∀ i j : Fin 2, FlCorr (1 / 2 ^ 53) (ranksOf 2) 0 dh ⟨[2, 1], fun _ => 1⟩ i j (Mh i j)) →
      ∃ lam : Fin 2 → ℝ, Antitone lam ∧ (∀ k, |Real.sqrt (lam k) - Real.sqrt (kthLargest o.eigs k)| ≤ 1 / 10 ^ 13) ∧
        ∀ (mu : ℂ) (v : EuclideanSpace ℂ (Fin 2)), v ≠ 0 → WithLp.toLp 2 ((Mh.map Complex.ofReal).mulVec v.ofLp) = mu • v →
          ∃ k, ‖mu - lam k‖ ≤ 1 / 10 ^ 13 * (∑ k, lam k) := by
  obtain ⟨o, h1, h2⟩ := pod_floating (podPairRun 1 2 3 4) solver lamV hs (by simp)
  refine ⟨o, h1 _ _ (Or.inl ⟨rfl, rfl⟩), fun dh hsh hfl Mh hMh => ?_⟩
  obtain ⟨lam, l1, l2, l3, l4⟩ := h2 (1 / 2 ^ 53) (by norm_num) 4 (podPair_all (by simp only [podPair_at]; norm_num) 1 2 3 4) dh hsh hfl ⟨[2, 1], fun _ => 1⟩ rfl
    (fun x => by simp [podWeight, podW, flat]) (ranksOf 2) (Or.inr ⟨2, by norm_num, rfl⟩) 0 (by simp) 1 (by decide) Mh hMh
  refine ⟨lam, l1, fun k => (l3 k).trans ?_, fun mu v hv he => ?_⟩
  · have e : (∑ x, podWeight none [2] x) = 2 := by
      refine (Fin.sum_univ_two (fun x : Fin 2 => podWeight none [2] x)).trans ?_
      norm_num [podWeight, podW, flat]
    have e2 : ((podPair 1 2 3 4).flatten.length : ℝ) = 2 := by norm_num [podPair]
    have e3 : (podPair 1 2 3 4).flatten.length = 2 := rfl
    rw [e, e2, e3, show (2 : ℝ) * 2 = 2 ^ 2 by norm_num, Real.sqrt_sq (by norm_num)]
    norm_num
  · obtain ⟨k, hk⟩ := l4 mu 0 v hv ((norm_eq_zero.2 (sub_eq_zero.2 he)).le.trans (by simp))
    refine ⟨k, hk.trans ?_⟩
    rw [add_zero]
    refine mul_le_mul_of_nonneg_right ?_ (Finset.sum_nonneg fun k _ => l2 k)
    have b := roundBound_le (u := 1 / 2 ^ 53) (by norm_num) 1 2 (by norm_num)
    have e2 : (ranksOf 2).length = 2 := rfl
    rw [e2]
    norm_num at b ⊢
    linarith

end Verif.Props
