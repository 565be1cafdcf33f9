import Verif.Props.PodError
/-
  C217-C218: data with few degrees of freedom.
-/
namespace Verif.Props
open Verif Verif.Par Verif.Rd Verif.Spod Verif.Fit Verif.Pod Verif.Proj Matrix

section
variable {X : Type} [Fintype X] [DecidableEq X] {nb : Nat}

/-- realizations that are combinations of `r` fields wherever the weight is positive: at most `r` eigenvalues are not zero -/
theorem eigsAt_rank (Q : Matrix X (Fin nb) ℂ) (w : X → ℝ) (hw : ∀ x, 0 ≤ w x) (solver : Solver nb) (hs : SolverFull solver) (fac : Nat)
    {ι : Type} [Fintype ι] (a : ι → X → ℂ) (g : ι → Fin nb → ℂ) (hQ : ∀ x, 0 < w x → ∀ b, Q x b = ∑ i, a i x * g i b) (k : Fin nb)
    (hk : Fintype.card ι ≤ k.1) : eigsAt Q w solver fac k = 0 := by
  obtain ⟨m, p, u, hu⟩ := eigsAt_basis Q w hw solver hs fac
  have hcard : Fintype.card (ι ⊕ {j : Fin nb // k < j}) < nb := by
    rw [Fintype.card_sum, Fintype.card_subtype]
    have : (Finset.univ.filter fun j : Fin nb => k < j).card = nb - 1 - k.1 := by
      have : (Finset.univ.filter fun j : Fin nb => k < j) = Finset.Ioi k := by ext j; simp
      rw [this, Fin.card_Ioi]
    rw [this]
    have := k.2
    omega
  obtain ⟨v, hv, h0⟩ := common_zero hcard fun q : ι ⊕ {j : Fin nb // k < j} => match q with
    | .inl i => WithLp.toLp 2 fun b => star (g i b)
    | .inr j => u j.1
  have hg : ∀ i, ∑ b, g i b * v.ofLp b = 0 := by
    intro i
    have := h0 (.inl i)
    simp only [PiLp.inner_apply, RCLike.inner_apply] at this
    rw [← this]
    refine Finset.sum_congr rfl fun b _ => ?_
    simp [mul_comm]
  have hz : rescale w (Q *ᵥ v.ofLp) = 0 := by
    ext x
    show ((Real.sqrt (w x) : ℝ) : ℂ) * (Q *ᵥ v.ofLp) x = 0
    rcases (hw x).eq_or_lt with h | h
    · rw [← h]; simp
    · have : (Q *ᵥ v.ofLp) x = ∑ i, a i x * ∑ b, g i b * v.ofLp b := by
        simp only [Matrix.mulVec, dotProduct, hQ x h, Finset.sum_mul, Finset.mul_sum]
        rw [Finset.sum_comm]
        exact Finset.sum_congr rfl fun i _ => Finset.sum_congr rfl fun b _ => by ring
      rw [this]
      simp [hg]
  have h1 := head_mean_ge u _ m k v hv fun j hj => h0 (.inr ⟨j, hj⟩)
  have h2 := hu v
  rw [hz] at h2
  simp at h2
  rw [← h2] at h1
  exact le_antisymm h1 (p k)

/-- no more eigenvalues than points of positive weight -/
theorem eigsAt_points (Q : Matrix X (Fin nb) ℂ) (w : X → ℝ) (hw : ∀ x, 0 ≤ w x) (solver : Solver nb) (hs : SolverFull solver) (fac : Nat) (k : Fin nb)
    (hk : (Finset.univ.filter fun x => 0 < w x).card ≤ k.1) : eigsAt Q w solver fac k = 0 := by
  refine eigsAt_rank Q w hw solver hs fac (ι := {x // 0 < w x}) (fun i x => if x = i.1 then 1 else 0) (fun i b => Q i.1 b) (fun x hx b => ?_) k ?_
  · rw [Finset.sum_eq_single (⟨x, hx⟩ : {x // 0 < w x})]
    · simp
    · intro i _ hi
      rw [if_neg, zero_mul]
      rintro rfl
      exact hi rfl
    · simp
  · rwa [Fintype.card_subtype]

end

/-! ### SPOD -/

/-- **C217.** Data that are, at the points of positive weight, combinations of `r` fields with amplitudes that vary in time, plus a steady field (absent for
    mean type `zero`), not normalised; any library, any number of ranks: at every frequency all eigenvalues from number `r` on are zero. -/
theorem fit_rank (c : Cfg) (ω : ℂ) (files : List (List (Arr ℝ))) (w : Arr ℝ) (m : MeanType) (A : Accepted c files w m) (hnorm : c.normalize = false)
    (r : Nat) (a : Fin r → List Nat → ℝ) (g : Fin r → Nat → ℝ) (b : List Nat → ℝ) (hb : m = .zero → ∀ x, b x = 0)
    (h : ∀ t < files.flatten.length, ∀ x, InRange w.shape x → 0 < w.at' x → frameAt files t x = ∑ i, a i x * g i t + b x)
    (solver : Solver (fitNb c files.flatten.length)) (hs : SolverFull solver) :
    ∃ out, (∀ r, FitRun c ω files w solver r → r = some out) ∧ ∀ f < nFreq c.nDft c.isreal c.full, ∀ k, r ≤ k.1 → out.eigs f k = 0 := by
  obtain ⟨out, g1, e⟩ := fit_eigsAt c ω files w m A solver
  refine ⟨out, g1, fun f hf k hk => ?_⟩
  rw [e f hf]
  refine eigsAt_rank _ _ (specW_nonneg A) solver hs _ (fun (i : Fin r) (x : Fin (size w.shape)) => (a i (unravel w.shape x) : ℂ))
    (fun i k => specHat c m ω ((List.range files.flatten.length).map (g i)) f k) (fun x hx k => ?_) k (by simpa using hk)
  have hx' : 0 < w.at' (unravel w.shape x) := hx
  have key : ∀ t < files.flatten.length, (files.flatten.map fun q => q.at' (unravel w.shape x)).getD t 0 = frameAt files t (unravel w.shape x) := by
    intro t ht
    simp only [frameAt, List.getD_eq_getElem?_getD, List.getElem?_map, List.getElem?_eq_getElem ht, Option.map_some, Option.getD_some]
  show specHat c m ω (files.flatten.map fun q => q.at' (unravel w.shape x)) f k = _
  have e1 : specHat c m ω (files.flatten.map fun q => q.at' (unravel w.shape x)) f k =
      specHat c m ω ((List.range files.flatten.length).map fun (t : Nat) => ∑ i, a i (unravel w.shape x) * g i t) f k := by
    have := specHat_affine c m ω ((List.range files.flatten.length).map fun (t : Nat) => ∑ i, a i (unravel w.shape x) * g i t)
      (files.flatten.map fun q => q.at' (unravel w.shape x)) 1 (b (unravel w.shape x)) (fun hm => hb hm _) (by rw [List.length_map, List.length_map, List.length_range])
      (fun t ht => by
        simp only [List.length_map, List.length_range] at ht
        rw [key t ht, h t ht _ (inRange_unravel x.2) hx']
        rw [List.getD_eq_getElem?_getD, List.getElem?_map, List.getElem?_range ht, Option.map_some, Option.getD_some, one_mul]) hnorm A.overlap f k (by
        rw [List.length_map, List.length_range]
        exact k.2)
    rw [this, Complex.ofReal_one, one_mul]
  rw [e1]
  exact specHat_linear c m ω _ (fun i => (List.range files.flatten.length).map (g i)) (fun i => a i (unravel w.shape x)) files.flatten.length (by
      rw [List.length_map, List.length_range]) (fun i => by rw [List.length_map, List.length_range]) (fun t ht => by
      simp only [List.getD_eq_getElem?_getD, List.getElem?_map, List.getElem?_range ht, Option.map_some, Option.getD_some]) hnorm A.overlap f k k.2

/-- **C217.** At every frequency at most as many eigenvalues are not zero as there are points of positive weight, normalised data included. -/
theorem fit_points (c : Cfg) (ω : ℂ) (files : List (List (Arr ℝ))) (w : Arr ℝ) (m : MeanType) (A : Accepted c files w m)
    (solver : Solver (fitNb c files.flatten.length)) (hs : SolverFull solver) :
    ∃ out, (∀ r, FitRun c ω files w solver r → r = some out) ∧ ∀ f < nFreq c.nDft c.isreal c.full, ∀ k,
      (Finset.univ.filter fun x : Fin (size w.shape) => 0 < w.at' (unravel w.shape x)).card ≤ k.1 → out.eigs f k = 0 := by
  obtain ⟨out, g1, e⟩ := fit_eigsAt c ω files w m A solver
  refine ⟨out, g1, fun f hf k hk => ?_⟩
  rw [e f hf]
  exact eigsAt_points _ _ (specW_nonneg A) solver hs _ k hk

/-- **C217.** No data set with `r` degrees of freedom comes closer to the data than eigenvalue number `r` tells: the largest eigenvalue of the difference is at
    least eigenvalue number `r` of the data, at every frequency. -/
theorem fit_low_rank (c : Cfg) (ω : ℂ) (files files₁ files₂ : List (List (Arr ℝ))) (w : Arr ℝ) (m : MeanType) (A : Accepted c files w m)
    (A₁ : Accepted c files₁ w m) (A₂ : Accepted c files₂ w m) (hnorm : c.normalize = false) (hl₁ : files₁.flatten.length = files.flatten.length)
    (hl₂ : files₂.flatten.length = files.flatten.length)
    (h : ∀ t < files.flatten.length, ∀ x, InRange w.shape x → frameAt files₂ t x = frameAt files t x - frameAt files₁ t x)
    (r : Nat) (a : Fin r → List Nat → ℝ) (g : Fin r → Nat → ℝ) (b : List Nat → ℝ) (hb : m = .zero → ∀ x, b x = 0)
    (h₁ : ∀ t < files.flatten.length, ∀ x, InRange w.shape x → 0 < w.at' x → frameAt files₁ t x = ∑ i, a i x * g i t + b x)
    (solver : Solver (fitNb c files.flatten.length)) (solver₂ : Solver (fitNb c files₂.flatten.length)) (hs : SolverFull solver) (hs₂ : SolverFull solver₂) :
    ∃ out out₂, (∀ r, FitRun c ω files w solver r → r = some out) ∧ (∀ r, FitRun c ω files₂ w solver₂ r → r = some out₂) ∧
      ∀ f < nFreq c.nDft c.isreal c.full, ∀ k k₂, k.1 = r + k₂.1 → out.eigs f k ≤ out₂.eigs f k₂ := by
  obtain ⟨solver₁, hs₁⟩ := solver_full_exists (fitNb c files₁.flatten.length)
  obtain ⟨out, out₁, out₂, q, q₁, q₂, e⟩ := fit_triangle c ω files files₁ files₂ w m A A₁ A₂ hnorm hl₁ hl₂ (fun t ht x hx => by rw [h t ht x hx]; ring)
    solver solver₁ solver₂ hs hs₁ hs₂
  obtain ⟨out₁', q₁', e₁⟩ := fit_rank c ω files₁ w m A₁ hnorm r a g b hb (fun t ht x hx hp => h₁ t (by omega) x hx hp) solver₁ hs₁
  have hsame : out₁' = out₁ := by
    have i1 := q₁ _ (Or.inl rfl)
    have i2 := q₁' _ (Or.inl rfl)
    rw [i1] at i2
    exact (Option.some.inj i2).symm
  subst hsame
  refine ⟨out, out₂, q, q₂, fun f hf k k₂ hk => ?_⟩
  have hn : fitNb c files₁.flatten.length = fitNb c files.flatten.length := by rw [hl₁]
  have hr : r < fitNb c files₁.flatten.length := by
    have := k.2
    omega
  have t := (e f hf).1 k ⟨r, hr⟩ k₂ hk
  rw [e₁ f hf ⟨r, hr⟩ le_rfl, Real.sqrt_zero, zero_add] at t
  obtain ⟨o₂, j₂, l₂⟩ := fit_eigsAt c ω files₂ w m A₂ solver₂
  have hsame : o₂ = out₂ := by
    have i1 := q₂ _ (Or.inl rfl)
    have i2 := j₂ _ (Or.inl rfl)
    rw [i1] at i2
    exact (Option.some.inj i2).symm
  have hp : 0 ≤ out₂.eigs f k₂ := by
    rw [← hsame, l₂ f hf]
    exact (eigsAt_basis _ _ (specW_nonneg A₂) solver₂ hs₂ _).2.1 _
  exact (Real.sqrt_le_sqrt_iff hp).1 t

/-! ### POD -/

/-- **C218.** POD of data that are combinations of `r` fields with amplitudes that vary in time, plus a steady field (absent for mean type `zero`), where the
    weight is positive: all but `r` of the stored eigenvalues are zero. -/
theorem pod_rank {c weights files dims mk n} (R : PodRun c weights files dims mk n) (solver : PodFit.Solver) (lamV) (hs : PodSolver solver lamV)
    (hw : ∀ w, weights = some w → ∀ k, 0 ≤ flat w k) (r : Nat) (a : Fin r → Nat → ℝ) (g : Fin r → Nat → ℝ) (b : Nat → ℝ)
    (hb : mk = .zero → ∀ x, b x = 0)
    (h : ∀ t < files.flatten.length, ∀ x : Fin (size (dims ++ [1])), 0 < podWeight weights dims x → podAt files t x = ∑ i, a i x * g i t + b x)
    {comms : List Comm} {sched : Sched} (hrun : IsRun comms sched) :
    ∃ o, PodFit.podFit c weights solver files comms sched = some o ∧ ∀ k, r ≤ k → k < files.flatten.length → kthLargest o.eigs k = 0 := by
  obtain ⟨s, hf⟩ := solver_full_exists files.flatten.length
  obtain ⟨o, h1, h2⟩ := pod_spectrum R solver lamV hs hw hrun s hf
  refine ⟨o, h1, fun k hk hlt => ?_⟩
  have := h2 ⟨k, hlt⟩
  simp only [] at this
  rw [this]
  have hnt : (files.flatten.length : ℝ) ≠ 0 := by
    have : 0 < files.flatten.length := lt_of_lt_of_le R.n_pos R.n_le
    exact_mod_cast this.ne'
  refine mul_eq_zero_of_right _ ?_
  refine eigsAt_rank _ _ (podWeight_nonneg hw) s hf 1 (fun (i : Fin r) x => (a i x : ℂ))
    (fun i t => ((g i t - if mk = .longtime then (∑ t' ∈ Finset.range files.flatten.length, g i t') / files.flatten.length else 0 : ℝ) : ℂ))
    (fun x hx t => ?_) ⟨k, hlt⟩ (by simpa using hk)
  simp only [Matrix.of_apply]
  rw [podFluct_at]
  have hx : 0 < podWeight weights dims x := hx
  rw [h t t.2 x hx]
  cases mk with
  | zero => simp [hb rfl]
  | longtime =>
    simp only [↓reduceIte]
    rw [Finset.sum_congr rfl fun t' ht' => h t' (Finset.mem_range.1 ht') x hx, Finset.sum_add_distrib, Finset.sum_const,
      Finset.card_range, nsmul_eq_mul, Finset.sum_comm]
    rw [show (∑ i : Fin r, (a i x : ℂ) * ((g i t - (∑ t' ∈ Finset.range files.flatten.length, g i t') / files.flatten.length : ℝ) : ℂ)) =
      ((∑ i : Fin r, a i x * (g i t - (∑ t' ∈ Finset.range files.flatten.length, g i t') / files.flatten.length) : ℝ) : ℂ) by push_cast; rfl]
    congr 1
    simp only [← Finset.mul_sum, mul_sub, Finset.sum_sub_distrib]
    rw [add_div, mul_div_cancel_left₀ _ hnt, Finset.sum_div]
    simp only [mul_div_assoc]
    ring

/-- if the values from rank `n` on are zero and the first `n` of the list are positive, the others are zero -/
theorem rest_zero (l : List ℂ) (n : Nat) (hpos : ∀ j < n, 0 < (l.getD j 0).re)
    (hz : ∀ k, n ≤ k → k < l.length → kthLargest l k = 0) (j : Nat) (hj : n ≤ j) (hlt : j < l.length) : (l.getD j 0).re = 0 := by
  set L := l.map Complex.re with hL
  set S := L.mergeSort (fun a b => decide (b ≤ a)) with hS
  have hperm : S.Perm L := List.mergeSort_perm _ _
  have hlen : S.length = l.length := by rw [hperm.length_eq, hL, List.length_map]
  have h1 : (S.drop n).countP (fun x => decide (x = 0)) = S.length - n := by
    rw [← List.length_drop, List.countP_eq_length]
    intro x hx
    obtain ⟨i, hi, rfl⟩ := List.getElem_of_mem hx
    rw [List.length_drop] at hi
    have := hz (n + i) (by omega) (by omega)
    simp only [kthLargest] at this
    rw [← hL, ← hS, List.getD_eq_getElem?_getD, List.getElem?_eq_getElem (by omega)] at this
    simpa using this
  have h2 : S.length - n ≤ S.countP (fun x => decide (x = 0)) := by
    rw [← h1]
    exact List.Sublist.countP_le (List.drop_sublist _ _)
  have h3 : (L.take n).countP (fun x => decide (x = 0)) = 0 := by
    rw [List.countP_eq_zero]
    intro x hx
    obtain ⟨i, hi, rfl⟩ := List.getElem_of_mem hx
    have hi' : i < n ∧ i < l.length := by simpa [hL] using hi
    have := hpos i hi'.1
    rw [List.getD_eq_getElem?_getD, List.getElem?_eq_getElem hi'.2] at this
    simp only [List.getElem_take, hL, List.getElem_map, decide_eq_true_eq]
    exact this.ne'
  have h4 : (L.drop n).countP (fun x => decide (x = 0)) = (L.drop n).length := by
    refine le_antisymm List.countP_le_length ?_
    have e : L.countP (fun x => decide (x = 0)) = (L.take n).countP (fun x => decide (x = 0)) + (L.drop n).countP (fun x => decide (x = 0)) := by
      rw [← List.countP_append, List.take_append_drop]
    rw [← hperm.countP_eq, h3, zero_add] at e
    rw [← e, List.length_drop, ← hperm.length_eq]
    exact h2
  rw [List.countP_eq_length] at h4
  have hm : (L.drop n)[j - n]'(by simp [hL]; omega) ∈ L.drop n := List.getElem_mem _
  have := h4 _ hm
  simp only [List.getElem_drop, hL, List.getElem_map, decide_eq_true_eq, Nat.add_sub_cancel' hj] at this
  rw [List.getD_eq_getElem?_getD, List.getElem?_eq_getElem hlt]
  exact this

/-- **C218.** Fit with the long-time mean and without weights, projection and reconstruction, each on its own number of ranks, of data that are combinations of
    `n` fields plus a steady field, saving `n` modes: if the saved modes belong to positive, distinct eigenvalues, the reconstruction is the data. -/
theorem pod_rank_exact {c files dims n} (R : PodRun c none files dims .longtime n) (solver : PodFit.Solver) (lamV) (hs : PodSolver solver lamV)
    (a : Fin n → Nat → ℝ) (g : Fin n → Nat → ℝ) (b : Nat → ℝ)
    (h : ∀ t < files.flatten.length, ∀ x : Fin (size (dims ++ [1])), podAt files t x = ∑ i, a i x * g i t + b x)
    (mi : Option (List Nat)) (c1 c2 c3 : List Comm) (s1 s2 s3 : Sched) (h1 : IsRun c1 s1) (h2 : IsRun c2 s2) (h3 : IsRun c3 s3) :
    ∃ o, PodFit.podFit c none solver files c1 s1 = some o ∧
      ((∀ j < n, 0 < (o.eigs.getD j 0).re) → (∀ i < n, ∀ j < n, o.eigs.getD i 0 = o.eigs.getD j 0 → i = j) →
        ∃ (G : Folder) (rec : NpyFile ℂ), PodFit.podProject (PodFit.storedOf c o) mi files.flatten c2 s2 = some G ∧
          PodFit.podReconstruct G none (.str "all") c3 s3 = some rec ∧ rec.shape = files.flatten.length :: (dims ++ [1]) ∧
          ∀ (t : Fin files.flatten.length) (x : Fin (size (dims ++ [1]))), fileEntry rec (t.1 :: unravel (dims ++ [1]) x) = some ((podAt files t x : ℝ) : ℂ)) := by
  obtain ⟨o, e1, e2⟩ := pod_error R solver lamV hs mi c1 c2 c3 s1 s2 s3 h1 h2 h3
  obtain ⟨o', i1, i2⟩ := pod_rank R solver lamV hs (by simp) n a g b (by simp) (fun t ht x _ => h t ht x) h1
  obtain ⟨o'', lam, V, k1, k2, -⟩ := pod_files_spec R solver lamV hs h1
  rw [e1] at i1 k1
  obtain rfl := Option.some.inj i1
  obtain rfl := Option.some.inj k1
  have hlen : o.eigs.length = files.flatten.length := by rw [k2, List.length_ofFn]
  refine ⟨o, e1, fun hpos hd => ?_⟩
  obtain ⟨G, rec, v, g1, g2, g3, g4, g5, -⟩ := e2 hpos hd
  refine ⟨G, rec, g1, g2, g3, fun t x => ?_⟩
  rw [Finset.sum_eq_zero (s := Finset.univ) (f := fun j : Fin files.flatten.length => if n ≤ j.1 then (o.eigs.getD j 0).re else 0) fun j _ => by
    split
    · rename_i hj
      exact rest_zero _ n hpos (fun k hk hlt => i2 k hk (by omega)) _ hj (by rw [hlen]; exact j.2)
    · rfl] at g5
  rw [Finset.sum_eq_zero_iff_of_nonneg fun t _ => Finset.sum_nonneg fun x _ => sq_nonneg _] at g5
  have := g5 t (Finset.mem_univ _)
  rw [Finset.sum_eq_zero_iff_of_nonneg fun x _ => sq_nonneg _] at this
  have := this x (Finset.mem_univ _)
  rw [g4 t x, sub_eq_zero.1 (pow_eq_zero_iff (two_ne_zero) |>.1 this)]

/-! ### Non-vacuity -/

/-- snapshots `v, 2v`: one degree of freedom -/
example (ω : ℂ) (l : List ℝ) (hl : 8 ≤ l.length) (solver : Solver (fitNb calmCfg (series l).flatten.length)) (hs : SolverFull solver) :
    ∃ out, (∀ r, FitRun calmCfg ω (series l) ⟨[2], fun _ => 1⟩ solver r → r = some out) ∧ ∀ k, 1 ≤ k.1 → out.eigs 1 k = 0 := by
  obtain ⟨out, h1, h2⟩ := fit_rank calmCfg ω (series l) ⟨[2], fun _ => 1⟩ .blockwise (calm_any l hl 1 zero_le_one) rfl 1
    (fun _ x => (x.getD 0 0 + 1 : ℕ)) (fun _ t => l.getD t 0) (fun _ => 0) (fun _ _ => rfl) (fun t ht x _ _ => by
      rw [series_length] at ht
      rw [series_frame l t ht x]
      simp [mul_comm]) solver hs
  exact ⟨out, h1, h2 1 (by decide)⟩

/-- two points and three blocks: the third eigenvalue is zero -/
example (ω : ℂ) (l : List ℝ) (hl : l.length = 12) (solver : Solver (fitNb calmCfg (series l).flatten.length)) (hs : SolverFull solver) :
    fitNb calmCfg (series l).flatten.length = 3 ∧
      ∃ out, (∀ r, FitRun calmCfg ω (series l) ⟨[2], fun _ => 1⟩ solver r → r = some out) ∧ ∀ k, k.1 = 2 → out.eigs 1 k = 0 := by
  refine ⟨by rw [series_length, hl]; decide, ?_⟩
  obtain ⟨out, h1, h2⟩ := fit_points calmCfg ω (series l) ⟨[2], fun _ => 1⟩ .blockwise (calm_any l (by omega) 1 zero_le_one) solver hs
  refine ⟨out, h1, fun k hk => h2 1 (by decide) k ?_⟩
  rw [hk]
  refine (Finset.card_le_univ _).trans ?_
  rw [Fintype.card_fin]
  exact le_of_eq rfl

/-- `fit_low_rank`: a signal and one degree of freedom; the rest is a signal as well -/
example (ω : ℂ) (l l₁ : List ℝ) (h8 : l.length = 8) (h9 : l₁.length = 8) (lib : (nb : Nat) → Solver nb) (hs : ∀ nb, SolverFull (lib nb)) :
    ∃ out out₂, (∀ r, FitRun calmCfg ω (series l) ⟨[2], fun _ => 1⟩ (lib _) r → r = some out) ∧
      (∀ r, FitRun calmCfg ω (series (List.zipWith (· - ·) l l₁)) ⟨[2], fun _ => 1⟩ (lib _) r → r = some out₂) ∧
      ∀ k k₂, k.1 = 1 + k₂.1 → out.eigs 1 k ≤ out₂.eigs 1 k₂ := by
  have hz : (List.zipWith (· - ·) l l₁).length = 8 := by simp [h8, h9]
  obtain ⟨out, out₂, h1, h2, h3⟩ := fit_low_rank calmCfg ω (series l) (series l₁) (series (List.zipWith (· - ·) l l₁)) ⟨[2], fun _ => 1⟩ .blockwise
    (calm_any _ h8.ge 1 zero_le_one) (calm_any _ h9.ge 1 zero_le_one) (calm_any _ hz.ge 1 zero_le_one) rfl
    (by rw [series_length, series_length, h8, h9]) (by rw [series_length, series_length, hz, h8]) (fun t ht x _ => by
      rw [series_length] at ht
      rw [series_frame _ t (by omega), series_frame _ t (by omega), series_frame _ t (by omega), ← sub_mul]
      congr 1
      simp only [List.getD_eq_getElem?_getD, List.getElem?_zipWith]
      rw [List.getElem?_eq_getElem (by omega), List.getElem?_eq_getElem (by omega)]
      rfl) 1 (fun _ x => (x.getD 0 0 + 1 : ℕ)) (fun _ t => l₁.getD t 0) (fun _ => 0) (fun _ _ => rfl) (fun t ht x _ _ => by
      rw [series_length] at ht
      rw [series_frame l₁ t (by omega) x]
      simp [mul_comm]) (lib _) (lib _) (hs _) (hs _)
  exact ⟨out, out₂, h1, h2, h3 1 (by decide)⟩

/-- `pod_rank`: the snapshots `(3, 6)` and `(4, 8)` -/
example (solver : PodFit.Solver) (lamV) (hs : PodSolver solver lamV) :
    ∃ o, PodFit.podFit podOneCfg none solver (podPair 3 6 4 8) [none] none = some o ∧ kthLargest o.eigs 1 = 0 := by
  obtain ⟨o, h1, h2⟩ := pod_rank (podPairRun 3 6 4 8) solver lamV hs (by simp) 1 (fun _ x => if x = 0 then 1 else 2) (fun _ t => if t = 0 then 3 else 4)
    (fun _ => 0) (fun _ _ => rfl) (fun t ht x _ => by
      have ht : t < 2 := ht
      have hx : x = (0 : Fin 2) ∨ x = (1 : Fin 2) := (fun i : Fin 2 => (by omega : i = 0 ∨ i = 1)) x
      have : t = 0 ∨ t = 1 := by omega
      rcases this with rfl | rfl <;> rcases hx with rfl | rfl <;> norm_num [podAt, podPair, flat, unravel, size])
    (comms := [none]) (sched := none) (Or.inl ⟨rfl, rfl⟩)
  exact ⟨o, h1, h2 1 le_rfl (by simp [podPair])⟩

/-- four snapshots on two points, two modes saved -/
def podTwoCfg : PodFit.Cfg := ⟨1, 1, "longtime", .int 2⟩

/-- `pod_rank_exact`: on two points two modes give the data back -/
theorem podFour_back : ∃ solver lamV, PodSolver solver lamV ∧ ∃ (o : PodFit.Out) (G : Folder) (rec : NpyFile ℂ),
    PodFit.podFit podTwoCfg none solver podFour [none] none = some o ∧ o.eigs = [16, 4, 0, 0] ∧
      PodFit.podProject (PodFit.storedOf podTwoCfg o) none podFour.flatten [none] none = some G ∧
      PodFit.podReconstruct G none (.str "all") [none] none = some rec ∧
      ∀ (t : Fin podFour.flatten.length) (x : Fin (size ([2] ++ [1]))), fileEntry rec (t.1 :: unravel ([2] ++ [1]) x) = some ((podAt podFour t x : ℝ) : ℂ) := by
  obtain ⟨solver, lamV, hs, hl⟩ := solver_with _ _ _ podFour_eig
  have R : PodRun podTwoCfg none podFour [2] .longtime 2 :=
    { podFourRun with
      nv := rfl
      xdim := by decide
      mean := podMean_longtime _ (by decide +kernel)
      save := rfl
      n_pos := by omega
      n_le := by simp [podFour] }
  refine ⟨solver, lamV, hs, ?_⟩
  obtain ⟨o, h1, h2⟩ := pod_rank_exact R solver lamV hs (fun i x => if x = i.1 then 1 else 0) (fun i t => podAt podFour t i) (fun _ => 0) (by
    intro t _ x
    have hx : x = (0 : Fin 2) ∨ x = (1 : Fin 2) := (fun i : Fin 2 => (by omega : i = 0 ∨ i = 1)) x
    rw [Fin.sum_univ_two]
    rcases hx with rfl | rfl <;> simp) none [none] [none] [none] none none none (Or.inl ⟨rfl, rfl⟩) (Or.inl ⟨rfl, rfl⟩) (Or.inl ⟨rfl, rfl⟩)
  have he : o.eigs = [16, 4, 0, 0] := by
    have hfit := R.fit solver (comms := [none]) (sched := none) (Or.inl ⟨rfl, rfl⟩)
    rw [h1] at hfit
    have : o.eigs = List.ofFn (solver 4 (!![5, -3, 3, -5; -3, 5, -5, 3; 3, -5, 5, -3; -5, 3, -3, 5])).1 := by
      rw [Option.some.inj hfit, ← podFour_corr]; rfl
    rw [this, hs.real, hl]
    simp [List.ofFn_succ]
  obtain ⟨G, rec, g1, g2, -, g4⟩ := h2 (by
    intro j hj
    have : j = 0 ∨ j = 1 := by omega
    rw [he]
    rcases this with rfl | rfl <;> norm_num) (fun i hi j hj e => by
    have h1 : i = 0 ∨ i = 1 := by omega
    have h2 : j = 0 ∨ j = 1 := by omega
    rw [he] at e
    rcases h1 with rfl | rfl <;> rcases h2 with rfl | rfl <;> first | rfl | (norm_num at e))
  exact ⟨o, G, rec, h1, he, g1, g2, g4⟩

end Verif.Props
