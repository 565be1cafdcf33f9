import Verif.Props.Best
import Verif.Props.Invariance
/-
  What has influence on the results and what has none: coefficients at one frequency are inner products with single modes, grid
  points of weight zero, the number of saved modes, the order of the blocks, the unit of time.
-/
set_option linter.unusedVariables false
set_option linter.unusedSectionVars false
namespace Verif.Props
open Verif Verif.Par Verif.Rd Verif.Fit Verif.Proj Verif.Spod Matrix ComplexConjugate

/-! ### C166: one frequency -/

section
variable {m : Type} [Fintype m] [DecidableEq m]

/-- the truncated inverse of the identity is the identity, for every decomposition and every tolerance below one -/
theorem mInv_identity (tol : ℝ) (ht : tol < 1) (U V : Matrix m m ℂ) (l : m → ℝ) (h : Coef.IsSvd (1 : Matrix m m ℂ) U l V) :
    Coef.mInv tol U l V = 1 := by
  have h1 : Coef.IsSvd (1 : Matrix m m ℂ) 1 (fun _ => 1) 1 :=
    ⟨by simp, by simp, fun _ => zero_le_one, by simp⟩
  rw [mInv_unique h h1 tol]
  unfold Coef.mInv
  have : Coef.lInv tol (fun _ : m => (1 : ℝ)) = fun _ => 1 := by
    funext i
    have : Nonempty m := ⟨i⟩
    simp only [Coef.lInv, ciSup_const, mul_one, gt_iff_lt, if_pos ht]
    simp
  rw [this]
  simp

end

/-- orthonormal columns: the Gram matrix is the identity -/
theorem mMat_orthonormal {X : Type} [Fintype X] [DecidableEq X] {k : Nat} (Φ : Matrix X (Fin k) ℂ) (w : X → ℝ)
    (h : OrthonormalW w fun j => col Φ j) : Coef.mMat Φ w = 1 := by
  ext i j
  have := h i j
  rw [Matrix.one_apply, ← this]
  unfold Coef.mMat inner_W col
  rw [Matrix.mul_apply]
  refine Finset.sum_congr rfl fun x _ => ?_
  rw [Matrix.conjTranspose_apply, Matrix.diagonal_mul]
  exact (mul_assoc _ _ _).symm

/-- snapshot `t` minus the time mean, at every grid point -/
noncomputable def fluctuation (frames : List (Arr ℝ)) (sh : List Nat) (t : Nat) : Fin (size sh) → ℂ := fun i =>
  ((flat (frames.getD t ⟨[], fun _ => 0⟩) i - (∑ τ ∈ Finset.range frames.length, flat (frames.getD τ ⟨[], fun _ => 0⟩) i) /
    frames.length : ℝ) : ℂ)

theorem centred_fluct (frames : List (Arr ℝ)) (sh : List Nat) (i : Fin (size sh)) (t : Fin frames.length) :
    Coef.centred (specD frames sh) i t = fluctuation frames sh t i := by
  simp only [Coef.centred, Coef.ltMean, specD, Matrix.of_apply, fluctuation, Fintype.card_fin]
  push_cast
  rw [Finset.sum_range]

/-- **C166 (part).** Selected modes that are orthonormal in the stored weights, any tolerance below one, any decomposition, any number of
    ranks: row `j` of the saved coefficients holds the weighted inner products of mode `j` with the fluctuations. -/
theorem coeffs_inner_products (S : Stored) (o : Opts) (svd : Svd)
    (hsvd : ∀ k M, Coef.IsSvd M (svd k M).1 (svd k M).2.1 (svd k M).2.2)
    (frames : List (Arr ℝ)) (b : Coef.Band) (dims sh : List Nat) (h : Ready S o frames b dims sh) (htol : o.tol < 1)
    (horth : OrthonormalW (specWt S sh) fun j => col (selPhi S b sh) j) :
    ∃ G, (∀ comms sched, IsRun comms sched → project S o svd frames comms sched = some G) ∧
      G.coeffs.shape = [b.freqIdx.length * S.nModes, frames.length] ∧
      ∀ (j : Fin (b.freqIdx.length * S.nModes)), ∀ t < frames.length,
        (openMemmap G.coeffs).at' [j, t] = inner_W (specWt S sh) (col (selPhi S b sh) j) (fluctuation frames sh t) := by
  obtain ⟨ax, hmax, hp⟩ := project_runs S o svd frames b dims sh h
  refine ⟨_, hp, rfl, fun j t ht => ?_⟩
  refine (open_matArr _ j.1 t j.2 ht).trans ?_
  have hM := mMat_orthonormal (selPhi S b sh) (specWt S sh) horth
  have hs := hsvd _ (Coef.mMat (selPhi S b sh) (specWt S sh))
  generalize hq : svd _ (Coef.mMat (selPhi S b sh) (specWt S sh)) = q at hs
  rw [hM] at hs
  have hinv := mInv_identity o.tol htol _ _ _ hs
  have : Coef.coeffs (selPhi S b sh) (specWt S sh) (specD frames sh) o.tol q.1 q.2.1 q.2.2 j ⟨t, ht⟩ =
      inner_W (specWt S sh) (col (selPhi S b sh) j) (fluctuation frames sh t) := by
    unfold Coef.coeffs Coef.qMat
    rw [hinv, Matrix.one_mul, Matrix.mul_apply]
    refine Finset.sum_congr rfl fun x _ => ?_
    rw [Matrix.conjTranspose_apply, Matrix.diagonal_mul, centred_fluct]
    exact (mul_assoc _ _ _).symm
  rw [← this, ← hq]
  rfl

theorem specWt_stored (c : Cfg) (xdim nv : Nat) (dt : ℝ) {nb : Nat} (out : Out nb) (w : Arr ℝ) (h1 : out.weights.shape = w.shape)
    (h2 : ∀ x, InRange w.shape x → fileEntry out.weights x = some (w.at' x)) :
    specWt (storedOf c xdim nv dt out) w.shape = specW w := by
  funext i
  have := h2 _ (inRange_unravel i.2)
  unfold fileEntry at this
  rw [h1, ravel_unravel i.2] at this
  show (out.weights.data i).getD default = _
  rw [this]
  rfl

/-- **C166.** After a fit on any number of ranks: if the eigenvalues of the saved modes of frequency number `f` are positive and different, the
    projection of any data of the same grid on that frequency alone, on any numbers of ranks, with any tolerance below one and any
    decomposition, saves in row `j` the weighted inner products of saved mode `j` with the fluctuations of the data. -/
theorem single_frequency_coeffs (c : Cfg) (ω : ℂ) (files : List (List (Arr ℝ))) (w : Arr ℝ) (m : MeanType) (A : Accepted c files w m)
    (hpos : 0 < size w.shape) (hsave : 0 < c.nSave)
    (solver : Solver (fitNb c files.flatten.length)) (hsolver : SolverFull solver)
    (xdim nv : Nat) (dt : ℝ) (o : Opts) (svd : Svd) (hsvd : ∀ k M, Coef.IsSvd M (svd k M).1 (svd k M).2.1 (svd k M).2.2) (b : Coef.Band)
    (hb : Coef.selectBand (freqAxis c.nDft dt c.isreal c.full) o.tLb o.tUb o.freqIdx = .ok b) (hlen : b.nFreqR = b.freqIdx.length)
    (f : Nat) (hf : f < nFreq c.nDft c.isreal c.full) (hfs : b.freqIdx = [f]) (htol : o.tol < 1)
    (frames : List (Arr ℝ)) (hfr : frames ≠ []) (dims : List Nat) (hd : dims ≠ []) (hdims : ∀ a ∈ frames, a.shape = dims)
    (hax : (dims = w.shape ∧ (nv ≠ 1 ∨ dims.length = xdim + 1)) ∨ (w.shape = dims ++ [1] ∧ nv = 1 ∧ dims.length ≠ xdim + 1)) :
    ∃ out, (∀ r, FitRun c ω files w solver r → r = some out) ∧
      ((∀ i j : Fin (fitNb c files.flatten.length), i.1 < c.nSave → j.1 < c.nSave → 0 < out.eigs f i ∧ (out.eigs f i = out.eigs f j → i = j)) →
      ∃ G, (∀ comms sched, IsRun comms sched → project (storedOf c xdim nv dt out) o svd frames comms sched = some G) ∧
        G.coeffs.shape = [min c.nSave (fitNb c files.flatten.length), frames.length] ∧
        ∀ j < min c.nSave (fitNb c files.flatten.length), ∃ φ : Fin (size w.shape) → ℂ,
          (∀ row : Fin (size w.shape), fileEntry (out.modes f) (unravel w.shape row ++ [j]) = some (φ row)) ∧
          ∀ t < frames.length, (openMemmap G.coeffs).at' [j, t] = inner_W (specW w) φ (fluctuation frames w.shape t)) := by
  obtain ⟨out, hout, -⟩ := fit_runs c ω files w m A solver
  have hnb := (feasible_nb c _ A.blocks).1
  have hone : NoSingleton w 1 := by
    intro ax hax r hr
    obtain rfl : r = 0 := by omega
    have e : countOf (ext w.shape ax) 1 0 = ext w.shape ax := by simp [countOf, blockdist, Nat.mod_one]
    rw [e, set_ext_self]
    exact A.many
  obtain ⟨out', q1, q2, q3⟩ := spod_optimal c ω files w A.shapes A.axes m A.mean A.blocks A.overlap A.window A.weights solver hsolver A.many 1
    Nat.one_pos hone (fun _ l => l) (fun _ _ => List.Perm.refl _)
  obtain ⟨out'', r1, r2, r3, r4, -⟩ := fit_formula c ω files w A.shapes A.axes m A.mean A.blocks A.overlap A.window solver A.many 1
    Nat.one_pos hone (fun _ l => l) (fun _ _ => List.Perm.refl _)
  have e1 : out' = out := Option.some.inj (q2.symm.trans (hout _ (Or.inl rfl)))
  have e2 : out'' = out := Option.some.inj (r1.symm.trans (hout _ (Or.inl rfl)))
  subst e1 e2
  refine ⟨out'', hout, fun hev => ?_⟩
  obtain ⟨-, q5⟩ := q3 f hf
  obtain ⟨φ, φ1, -, φ3, φ4⟩ := q5 (min c.nSave (fitNb c files.flatten.length)) (min_le_left _ _) (min_le_right _ _)
    (fun k => (hev (Fin.castLE (min_le_right _ _) k) (Fin.castLE (min_le_right _ _) k) (lt_of_lt_of_le k.2 (min_le_left _ _))
      (lt_of_lt_of_le k.2 (min_le_left _ _))).1)
  have hR : Ready (storedOf c xdim nv dt out'') o frames b dims w.shape := by
    refine ⟨hb, hlen, by rw [hfs]; simp, ⟨r4.1, hdims, hax, fun g hg => ⟨out''.modes g, ?_, ?_⟩⟩, hfr, hd, ?_, hpos⟩
    · rw [hfs, List.mem_singleton] at hg
      subst hg
      exact if_pos hf
    · rw [hfs, List.mem_singleton] at hg
      subst hg
      exact (r3 _ hf).2.1
    · show 0 < min _ _; omega
  have hk : b.freqIdx.length * (storedOf c xdim nv dt out'').nModes = min c.nSave (fitNb c files.flatten.length) := by
    rw [hfs]; exact Nat.one_mul _
  have hW := specWt_stored c xdim nv dt out'' w r4.1 r4.2
  have hcol : ∀ j : Fin (b.freqIdx.length * (storedOf c xdim nv dt out'').nModes),
      col (selPhi (storedOf c xdim nv dt out'') b w.shape) j = φ (Fin.cast hk j) := by
    intro j
    funext row
    have hj : j.1 < (storedOf c xdim nv dt out'').nModes := by
      exact lt_of_lt_of_eq j.2 hk
    have e : (storedOf c xdim nv dt out'').modes f = some (out''.modes f) := if_pos hf
    simp only [col, selPhi, specPhi, Matrix.of_apply, Nat.div_eq_of_lt hj, Nat.mod_eq_of_lt hj, hfs, List.getD_cons_zero, e]
    have := φ1 (Fin.cast hk j) row
    unfold fileEntry at this
    simp only [Fin.val_cast] at this
    rw [this]
    rfl
  have horth : OrthonormalW (specWt (storedOf c xdim nv dt out'') w.shape) fun j => col (selPhi (storedOf c xdim nv dt out'') b w.shape) j := by
    intro i j
    simp only [hcol, hW]
    by_cases hij : i = j
    · rw [if_pos hij, hij]; exact φ3 _
    · rw [if_neg hij]
      apply φ4
      intro he
      apply hij
      have hi : (Fin.cast hk i).1 < c.nSave := lt_of_lt_of_le (Fin.cast hk i).2 (min_le_left _ _)
      have hj : (Fin.cast hk j).1 < c.nSave := lt_of_lt_of_le (Fin.cast hk j).2 (min_le_left _ _)
      have := congrArg Fin.val ((hev _ _ hi hj).2 he)
      exact Fin.ext (by simpa using this)
  obtain ⟨G, g1, g2, g3⟩ := coeffs_inner_products _ o svd hsvd frames b dims w.shape hR htol horth
  refine ⟨G, g1, by rw [g2, hk], fun j hj => ⟨φ ⟨j, hj⟩, φ1 ⟨j, hj⟩, fun t ht => ?_⟩⟩
  have := g3 (Fin.cast hk.symm ⟨j, hj⟩) t ht
  rw [hcol, hW] at this
  exact this

/-! #### The hypotheses are met: snapshots `1, -1, 1, -1, …` on two points, last frequency, one saved mode -/

def swingCfg : Cfg := ⟨4, 0, "zero", false, 0, false, true, [1, 1, 1, 1], 1⟩
def swingFiles : List (List (Arr ℝ)) := 
  [(List.range 3).map fun (t : Nat) => ⟨[2], fun _ => (-1) ^ t⟩, (List.range 5).map fun (t : Nat) => ⟨[2], fun _ => (-1) ^ (t + 3)⟩]
def swingWeights : Arr ℝ := ⟨[2], fun _ => 1⟩

theorem swing_accepted : Accepted swingCfg swingFiles swingWeights .zero where
  shapes := by
    intro a ha
    simp only [swingFiles, List.flatten_cons, List.flatten_nil, List.append_nil, List.mem_append, List.mem_map] at ha
    rcases ha with ⟨t, -, rfl⟩ | ⟨t, -, rfl⟩ <;> rfl
  axes := by simp [swingWeights]
  mean := by decide
  blocks := by decide
  overlap := by decide
  window := rfl
  weights := fun x _ => zero_le_one
  many := by simp [swingWeights, size]

theorem swing_hat (x : List Nat) (b : Nat) (hb : b < 2) :
    specHat swingCfg .zero (-Complex.I) (swingFiles.flatten.map fun a => a.at' x) 2 b = 1 := by
  have hu : (swingFiles.flatten.map fun a => a.at' x) = [1, -1, 1, -1, 1, -1, 1, -1] := by
    norm_num [swingFiles, List.range_succ]
  have e2 : ∀ t : Nat, (-Complex.I) ^ (t * 2) = (-1 : ℂ) ^ t := by
    intro t
    rw [mul_comm, pow_mul]
    congr 1
    rw [neg_sq, Complex.I_sq]
  rw [hu]
  have hh : ((4 : Int) - 0).toNat = 4 := rfl
  simp only [specHat, e2, specNorm, specFluct, swingCfg, Bool.false_eq_true, if_false]
  interval_cases b <;> simp [Finset.sum_range_succ] <;> norm_num

theorem swing_eig (solver : Solver (fitNb swingCfg swingFiles.flatten.length)) (hs : SolverFull solver)
    (out : Out (fitNb swingCfg swingFiles.flatten.length)) (ho : ∀ r, FitRun swingCfg (-Complex.I) swingFiles swingWeights solver r → r = some out)
    (i : Fin (fitNb swingCfg swingFiles.flatten.length)) (hi : i.1 < 1) : 0 < out.eigs 2 i := by
  have A := swing_accepted
  obtain ⟨out', q1, q2, q3⟩ := spod_optimal swingCfg (-Complex.I) swingFiles swingWeights A.shapes A.axes .zero A.mean A.blocks A.overlap A.window A.weights
    solver hs A.many 1 Nat.one_pos (by
      intro ax hax r hr
      obtain rfl : r = 0 := by omega
      have e : countOf (ext swingWeights.shape ax) 1 0 = ext swingWeights.shape ax := by simp [countOf, blockdist, Nat.mod_one]
      rw [e, set_ext_self]
      exact A.many) (fun _ l => l) (fun _ _ => List.Perm.refl _)
  obtain rfl : out' = out := Option.some.inj (q2.symm.trans (ho _ (Or.inl rfl)))
  have h := (q3 2 (by decide)).1 1 (fun _ x => if x.1 = 0 then 1 else 0) (by
    intro i j
    obtain rfl : i = j := Subsingleton.elim _ _
    rw [if_pos rfl]
    show ∑ x : Fin 2, _ = (1 : ℂ)
    rw [Fin.sum_univ_two]
    simp [specW, swingWeights])
  have hnb : fitNb swingCfg swingFiles.flatten.length = 2 := by decide
  have hsum : (∑ k : Fin (fitNb swingCfg swingFiles.flatten.length), if k.1 < 1 then out'.eigs 2 k else 0) = out'.eigs 2 i := by
    rw [Finset.sum_eq_single i]
    · rw [if_pos hi]
    · intro k _ hk
      rw [if_neg]
      intro h
      exact hk (Fin.ext (by omega))
    · simp
  rw [hsum] at h
  refine lt_of_lt_of_le ?_ h
  have hq : captured (specW swingWeights) (specQ swingCfg .zero (-Complex.I) swingFiles.flatten swingWeights.shape
      (fitNb swingCfg swingFiles.flatten.length) 2) (fun (_ : Fin 1) x => if x.1 = 0 then 1 else 0) = 1 := by
    unfold captured
    have hin : ∀ (j : Fin 1) (b : Fin (fitNb swingCfg swingFiles.flatten.length)), inner_W (specW swingWeights)
        ((fun (_ : Fin 1) (x : Fin (size swingWeights.shape)) => if x.1 = 0 then (1 : ℂ) else 0) j)
        (fun x => specQ swingCfg .zero (-Complex.I) swingFiles.flatten swingWeights.shape (fitNb swingCfg swingFiles.flatten.length) 2 x b) = 1 := by
      intro j b
      have hb : b.1 < 2 := lt_of_lt_of_eq b.2 hnb
      simp only [inner_W, specQ, Matrix.of_apply, swing_hat _ _ hb]
      show ∑ x : Fin 2, _ = (1 : ℂ)
      rw [Fin.sum_univ_two]
      simp [specW, swingWeights]
    refine (congrArg (· / ((fitNb swingCfg swingFiles.flatten.length : ℕ) : ℝ)) (Finset.sum_congr rfl fun b _ =>
      Finset.sum_congr rfl fun j _ => by rw [hin j b])).trans ?_
    rw [hnb]
    simp
  rw [hq]
  simp [oneSidedFactor, swingCfg, nFreq]

example (solver : Solver (fitNb swingCfg swingFiles.flatten.length)) (hs : SolverFull solver) (svd : Svd)
    (hsvd : ∀ k M, Coef.IsSvd M (svd k M).1 (svd k M).2.1 (svd k M).2.2) :
    ∃ out G, (∀ r, FitRun swingCfg (-Complex.I) swingFiles swingWeights solver r → r = some out) ∧
      (∀ comms sched, IsRun comms sched →
        project (storedOf swingCfg 1 2 1 out) ⟨some 2, some 2, none, 1 / 2, false⟩ svd pexFrames comms sched = some G) ∧
      G.coeffs.shape = [1, 2] ∧ ∃ φ : Fin 2 → ℂ, (∀ row : Fin 2, fileEntry (out.modes 2) [row, 0] = some (φ row)) ∧
        (openMemmap G.coeffs).at' [0, 1] = conj (φ 0) * (-1) + conj (φ 1) * 1 := by
  obtain ⟨out, h1, h2⟩ := single_frequency_coeffs swingCfg (-Complex.I) swingFiles swingWeights .zero swing_accepted (by simp [swingWeights, size])
    (by decide) solver hs 1 2 1 ⟨some 2, some 2, none, 1 / 2, false⟩ svd hsvd ⟨2, 2, 1, [2]⟩
    (by
      simp [Coef.selectBand, freqAxis, swingCfg, Coef.arange, Coef.findNearestFreq, Coef.argmin, Coef.argminGo, List.range_succ]
      have h1 : |(4 : ℝ)⁻¹ - 2⁻¹| = 1 / 4 := by norm_num [abs_of_neg]
      have h2 : |(2 : ℝ) / 4 - 2⁻¹| = 0 := by norm_num
      norm_num [h1, h2])
    rfl 2 (by decide) rfl (by norm_num) pexFrames (by simp [pexFrames]) [2] (by simp)
    (by
      intro a ha
      simp only [pexFrames, List.mem_cons, List.not_mem_nil, or_false] at ha
      rcases ha with rfl | rfl <;> rfl)
    (Or.inl ⟨rfl, Or.inl (by norm_num)⟩)
  obtain ⟨G, g1, g2, g3⟩ := h2 fun i j hi hj => ⟨swing_eig solver hs out h1 i hi, fun _ => by
    have hi' : i.1 < 1 := hi
    have hj' : j.1 < 1 := hj
    exact Fin.ext (by omega)⟩
  have hm : min swingCfg.nSave (fitNb swingCfg swingFiles.flatten.length) = 1 := by decide
  obtain ⟨φ, φ1, φ2⟩ := g3 0 (by rw [hm]; exact Nat.one_pos)
  refine ⟨out, G, h1, g1, by rw [g2, hm]; rfl, φ, ?_, ?_⟩
  · intro row
    have := φ1 row
    have e : unravel swingWeights.shape row = [row.1] := by
      have : ∀ r : Fin 2, unravel [2] r = [r.1] := by decide
      exact this row
    rw [e] at this
    exact this
  · rw [φ2 1 (by simp [pexFrames])]
    show ∑ x : Fin 2, _ = _
    rw [Fin.sum_univ_two]
    have e0 : fluctuation pexFrames swingWeights.shape 1 (0 : Fin 2) = -1 := by
      norm_num [fluctuation, pexFrames, flat, unravel, swingWeights, Finset.sum_range_succ, size]
    have e1 : fluctuation pexFrames swingWeights.shape 1 (1 : Fin 2) = 1 := by
      norm_num [fluctuation, pexFrames, flat, unravel, swingWeights, Finset.sum_range_succ, size]
    rw [e0, e1]
    simp [specW, swingWeights]

/-! ### C167: grid points of weight zero -/

/-- realizations that agree wherever the weight is not zero -/
theorem spod_masked {X : Type} [Fintype X] [DecidableEq X] {n n' : Nat} (hn : n' = n) (w : X → ℝ) (Q : Matrix X (Fin n) ℂ) (Q' : Matrix X (Fin n') ℂ)
    (h : ∀ x, w x ≠ 0 → ∀ (k : Fin n) (k' : Fin n'), k.1 = k'.1 → Q' x k' = Q x k) (lib : (nb : Nat) → Solver nb) (fac : Nat)
    (k : Fin n) (k' : Fin n') (hk : k.1 = k'.1) :
    let r := lib n (crossSpectral Q w)
    let r' := lib n' (crossSpectral Q' w)
    (spodFreq Q' r'.1 r'.2.1 r'.2.2 fac).1 k' = (spodFreq Q r.1 r.2.1 r.2.2 fac).1 k ∧
    ∀ x, w x ≠ 0 → (spodFreq Q' r'.1 r'.2.1 r'.2.2 fac).2 x k' = (spodFreq Q r.1 r.2.1 r.2.2 fac).2 x k := by
  subst hn
  obtain rfl : k = k' := Fin.ext hk
  have hM : crossSpectral Q' w = crossSpectral Q w := by
    ext a b
    rw [crossSpectral_apply, crossSpectral_apply]
    congr 1
    refine Finset.sum_congr rfl fun x _ => ?_
    by_cases hx : w x = 0
    · simp [hx]
    · beta_reduce
      rw [h x hx a a rfl, h x hx b b rfl]
  rw [hM]
  refine ⟨rfl, fun x hx => ?_⟩
  simp only [spodFreq, phiAll, Matrix.mul_apply]
  exact Finset.sum_congr rfl fun b _ => by rw [h x hx b b rfl]

/-- **C167 (fit).** Two data sets that agree at every grid point whose weight is not zero; the same libraries, each fit on any number of ranks: the
    same eigenvalues, and the same modes at every grid point whose weight is not zero. -/
theorem fit_masked (c : Cfg) (ω : ℂ) (files files' : List (List (Arr ℝ))) (w : Arr ℝ) (m : MeanType) (A : Accepted c files w m)
    (A' : Accepted c files' w m) (hlen : files'.flatten.length = files.flatten.length)
    (h : ∀ x, InRange w.shape x → w.at' x ≠ 0 → ∀ t < files.flatten.length,
      (files'.flatten.getD t ⟨[], fun _ => 0⟩).at' x = (files.flatten.getD t ⟨[], fun _ => 0⟩).at' x) (lib : (nb : Nat) → Solver nb) :
    ∃ out out', (∀ r, FitRun c ω files w (lib _) r → r = some out) ∧ (∀ r, FitRun c ω files' w (lib _) r → r = some out') ∧
      ∀ f < nFreq c.nDft c.isreal c.full, ∀ k k', k.1 = k'.1 → out'.eigs f k' = out.eigs f k ∧
        (k.1 < c.nSave → ∀ x, InRange w.shape x → w.at' x ≠ 0 →
          ∃ v, fileEntry (out.modes f) (x ++ [k.1]) = some v ∧ fileEntry (out'.modes f) (x ++ [k.1]) = some v) := by
  obtain ⟨out, h1, h2⟩ := fit_runs c ω files w m A (lib _)
  obtain ⟨out', h1', h2'⟩ := fit_runs c ω files' w m A' (lib _)
  refine ⟨out, out', h1, h1', fun f hf k k' hk => ?_⟩
  obtain ⟨e1, e2⟩ := h2 f hf
  obtain ⟨e1', e2'⟩ := h2' f hf
  have hQ : ∀ x, specW w x ≠ 0 → ∀ (k : Fin (fitNb c files.flatten.length)) (k' : Fin (fitNb c files'.flatten.length)), k.1 = k'.1 →
      specQ c m ω files'.flatten w.shape (fitNb c files'.flatten.length) f x k' =
        specQ c m ω files.flatten w.shape (fitNb c files.flatten.length) f x k := by
    intro x hx k k' hk
    simp only [specQ, Matrix.of_apply, ← hk]
    congr 1
    refine List.ext_getElem (by rw [List.length_map, List.length_map, hlen]) fun t g1 g2 => ?_
    rw [List.length_map] at g2
    have := h (unravel w.shape x) (inRange_unravel x.2) hx t g2
    rw [← getD_map_arr _ _ t (by rw [hlen]; exact g2), ← getD_map_arr _ _ t g2] at this
    rw [List.getD_eq_getElem?_getD, List.getD_eq_getElem?_getD, List.getElem?_eq_getElem g1, List.getElem?_eq_getElem
      (by rw [List.length_map]; exact g2)] at this
    exact this
  obtain ⟨g1, g2⟩ := spod_masked (by rw [hlen]) (specW w) _ _ hQ lib (oneSidedFactor c.isreal (nFreq c.nDft c.isreal c.full) f) k k' hk
  refine ⟨by rw [e1', e1]; exact g1, fun hks x hx hwx => ?_⟩
  have hr : unravel w.shape (ravel w.shape x) = x := unravel_ravel hx
  have q1 := e2 k hks ⟨ravel w.shape x, ravel_lt hx⟩
  have q2 := e2' k' (by rw [← hk]; exact hks) ⟨ravel w.shape x, ravel_lt hx⟩
  simp only [hr] at q1 q2
  refine ⟨_, q1, ?_⟩
  rw [hk, q2]
  exact congrArg some (g2 ⟨ravel w.shape x, ravel_lt hx⟩ (by simpa only [specW, hr] using hwx))

/-- **C167 (projection).** Data that agree at every grid point whose stored weight is not zero give the same coefficients. -/
theorem projection_masked (S : Stored) (o : Opts) (svd : Svd) (frames frames' : List (Arr ℝ)) (b : Coef.Band) (dims sh : List Nat)
    (h : Ready S o frames b dims sh) (hsn : ∀ a ∈ frames', a.shape = dims) (hn : frames'.length = frames.length)
    (hD : ∀ t < frames.length, ∀ i : Fin (size sh), specWt S sh i ≠ 0 →
      flat (frames'.getD t ⟨[], fun _ => 0⟩) i = flat (frames.getD t ⟨[], fun _ => 0⟩) i) :
    ∃ G G', (∀ comms sched, IsRun comms sched → project S o svd frames comms sched = some G) ∧
      (∀ comms sched, IsRun comms sched → project S o svd frames' comms sched = some G') ∧ G'.coeffs = G.coeffs ∧ G'.modesR = G.modesR := by
  have hpos : 0 < frames.length := List.length_pos_iff.2 h.some_
  have h' : Ready S o frames' b dims sh := ⟨h.band, h.len, h.sel, ⟨h.fits.weights, hsn, h.fits.axis, h.fits.modes⟩, by
    intro h0
    rw [h0] at hn
    simp at hn
    omega, h.dim, h.modes, h.pos⟩
  obtain ⟨ax, hmax, hp⟩ := project_runs S o svd frames b dims sh h
  obtain ⟨ax', hmax', hp'⟩ := project_runs S o svd frames' b dims sh h'
  refine ⟨_, _, hp, hp', ?_, rfl⟩
  refine npSave_matArr_congr hn _ _ fun j t => ?_
  unfold Coef.coeffs
  rw [Matrix.mul_apply, Matrix.mul_apply]
  refine Finset.sum_congr rfl fun l _ => ?_
  congr 1
  unfold Coef.qMat
  rw [Matrix.mul_apply, Matrix.mul_apply]
  refine Finset.sum_congr rfl fun x _ => ?_
  congr 1
  rw [Matrix.diagonal_mul, Matrix.diagonal_mul]
  by_cases hx : specWt S sh x = 0
  · simp [hx]
  · congr 1
    rw [centred_fluct, centred_fluct]
    simp only [fluctuation, Fin.val_cast, hn]
    rw [hD _ (by simpa [hn] using t.2) x hx, Finset.sum_congr rfl fun τ hτ => hD τ (Finset.mem_range.1 hτ) x hx]

/-! ### C168: the number of saved modes -/

/-- **C168.** `n_modes_save` decides how many modes are saved and nothing else: with another value the eigenvalues, weights and mean are the same and the
    modes saved by both fits are the same. -/
theorem saved_modes_prefix (c : Cfg) (n' : Nat) (ω : ℂ) (files : List (List (Arr ℝ))) (w : Arr ℝ) (m : MeanType) (A : Accepted c files w m)
    (solver : Solver (fitNb c files.flatten.length)) :
    ∃ out out' : Out (fitNb c files.flatten.length), (∀ r, FitRun c ω files w solver r → r = some out) ∧
      (∀ r, FitRun { c with nSave := n' } ω files w solver r → r = some out') ∧
      out'.weights = out.weights ∧ out'.ltm = out.ltm ∧
      ∀ f < nFreq c.nDft c.isreal c.full, out'.eigs f = out.eigs f ∧
        (out.modes f).shape = w.shape ++ [min c.nSave (fitNb c files.flatten.length)] ∧
        (out'.modes f).shape = w.shape ++ [min n' (fitNb c files.flatten.length)] ∧
        ∀ k < fitNb c files.flatten.length, k < c.nSave → k < n' → ∀ x, InRange w.shape x →
          ∃ v, fileEntry (out.modes f) (x ++ [k]) = some v ∧ fileEntry (out'.modes f) (x ++ [k]) = some v := by
  have A' : Accepted { c with nSave := n' } files w m := ⟨A.shapes, A.axes, A.mean, A.blocks, A.overlap, A.window, A.weights, A.many⟩
  obtain ⟨out, h1, h2⟩ := fit_runs c ω files w m A solver
  obtain ⟨out', h1', h2'⟩ := fit_runs { c with nSave := n' } ω files w m A' solver
  have s1 := serial_out c ω files w A.shapes A.axes m A.mean A.blocks A.overlap solver A.many
  have s1' := serial_out { c with nSave := n' } ω files w A.shapes A.axes m A.mean A.blocks A.overlap solver A.many
  have o1 : globalOut c ω files.flatten w solver = out := Option.some.inj (s1.symm.trans (h1 _ (Or.inl rfl)))
  have o2 : globalOut { c with nSave := n' } ω files.flatten w solver = out' := Option.some.inj (s1'.symm.trans (h1' _ (Or.inl rfl)))
  refine ⟨out, out', h1, h1', ?_, ?_, fun f hf => ⟨?_, ?_, ?_, ?_⟩⟩
  · rw [← o1, ← o2]; rfl
  · rw [← o1, ← o2]; rfl
  · rw [(h2 f hf).1, (h2' f hf).1]; rfl
  · rw [← o1]; rfl
  · rw [← o2]; rfl
  · intro k hk hk1 hk2 x hx
    have hr : unravel w.shape (ravel w.shape x) = x := unravel_ravel hx
    have q1 := (h2 f hf).2 ⟨k, hk⟩ hk1 ⟨ravel w.shape x, ravel_lt hx⟩
    have q2 := (h2' f hf).2 ⟨k, hk⟩ hk2 ⟨ravel w.shape x, ravel_lt hx⟩
    simp only [hr] at q1 q2
    exact ⟨_, q1, q2⟩

/-! ### C169, C170: the order of the blocks and the direction of time -/

section
variable {X : Type} [Fintype X] [DecidableEq X] {nb : Nat}

/-- the identity or the complex conjugation -/
def IdOrConj (κ : ℂ →+* ℂ) : Prop := κ = RingHom.id ℂ ∨ κ = starRingEnd ℂ

theorem IdOrConj.real {κ : ℂ →+* ℂ} (h : IdOrConj κ) (x : ℝ) : κ (x : ℂ) = x := by
  rcases h with rfl | rfl
  · rfl
  · exact Complex.conj_ofReal x

theorem IdOrConj.conj {κ : ℂ →+* ℂ} (h : IdOrConj κ) (z : ℂ) : κ (starRingEnd ℂ z) = starRingEnd ℂ (κ z) := by
  rcases h with rfl | rfl <;> rfl

theorem IdOrConj.re {κ : ℂ →+* ℂ} (h : IdOrConj κ) (z : ℂ) : (κ z).re = z.re := by
  rcases h with rfl | rfl
  · rfl
  · exact Complex.conj_re z

/-- realizations listed in another order, conjugated or not, multiplied by a factor of modulus one -/
theorem spod_moved (κ : ℂ →+* ℂ) (hκ : IdOrConj κ) (σ : Equiv.Perm (Fin nb)) (Q Q' : Matrix X (Fin nb) ℂ) (w : X → ℝ) (hw : ∀ x, 0 ≤ w x)
    (α : ℂ) (hα : ‖α‖ = 1) (hQ : ∀ x b, Q' x b = α * κ (Q x (σ b))) (r r' : (Fin nb → ℂ) × Matrix (Fin nb) (Fin nb) ℂ × Equiv.Perm (Fin nb))
    (a1 : EigPairs (crossSpectral Q w) r.1 r.2.1) (a2 : IsUnit r.2.1.det) (a3 : ArgsortDesc (realIfClose r.1) r.2.2)
    (a1' : EigPairs (crossSpectral Q' w) r'.1 r'.2.1) (a2' : IsUnit r'.2.1.det) (a3' : ArgsortDesc (realIfClose r'.1) r'.2.2) (fac : Nat) :
    (∀ k, (spodFreq Q' r'.1 r'.2.1 r'.2.2 fac).1 k = (spodFreq Q r.1 r.2.1 r.2.2 fac).1 k) ∧
    ∀ k, (∀ j, j ≠ k → reorderL (realIfClose r.1) r.2.2 j ≠ reorderL (realIfClose r.1) r.2.2 k) →
      ∃ z : ℂ, ‖z‖ = 1 ∧ ∀ x, (spodFreq Q' r'.1 r'.2.1 r'.2.2 fac).2 x k = z * κ ((spodFreq Q r.1 r.2.1 r.2.2 fac).2 x k) := by
  have hαα : starRingEnd ℂ α * α = 1 := by rw [Complex.conj_mul', hα]; simp
  have hM : ∀ a b, crossSpectral Q' w a b = κ (crossSpectral Q w (σ a) (σ b)) := by
    intro a b
    rw [crossSpectral_apply, crossSpectral_apply, map_mul]
    congr 1
    · rw [map_inv₀, map_natCast]
    · unfold inner_W
      rw [map_sum]
      refine Finset.sum_congr rfl fun x _ => ?_
      simp only [hQ, map_mul, hκ.conj, hκ.real]
      linear_combination (starRingEnd ℂ (κ (Q x (σ a))) * (w x : ℂ) * κ (Q x (σ b))) * hαα
  set V : Matrix (Fin nb) (Fin nb) ℂ := Matrix.of fun i j => κ (r.2.1 (σ i) j) with hV
  set L : Fin nb → ℂ := fun j => κ (r.1 j) with hL
  have b1 : EigPairs (crossSpectral Q' w) L V := by
    intro j
    obtain ⟨g1, g2⟩ := a1 j
    refine ⟨?_, ?_⟩
    · funext a
      have := congrArg κ (congrFun g1 (σ a))
      simp only [Matrix.mulVec, dotProduct, Pi.smul_apply, smul_eq_mul, map_sum, map_mul] at this ⊢
      rw [hL, hV]
      simp only [Matrix.of_apply, hM]
      rw [← this]
      exact Equiv.sum_comp σ (fun b => κ (crossSpectral Q w (σ a) b) * κ (r.2.1 b j))
    · have := congrArg κ g2
      rw [map_sum, map_one] at this
      rw [← this]
      refine Eq.trans ?_ (Equiv.sum_comp σ fun b => κ (starRingEnd ℂ (r.2.1 b j) * r.2.1 b j))
      refine Finset.sum_congr rfl fun b _ => ?_
      simp only [hV, Matrix.of_apply, map_mul, hκ.conj]
  have b2 : IsUnit V.det := by
    have e : V = κ.mapMatrix (r.2.1.submatrix σ id) := rfl
    rw [e, ← RingHom.map_det, Matrix.det_permute]
    refine IsUnit.map κ (IsUnit.mul ?_ a2)
    rcases Int.units_eq_one_or (Equiv.Perm.sign σ) with h | h <;> simp [h]
  have hre : realIfClose L = realIfClose r.1 := by
    funext j
    exact hκ.re _
  have b3 : ArgsortDesc (realIfClose L) r.2.2 := by rw [hre]; exact a3
  have hLL := sorted_eigs_unique _ _ rfl _ _ _ _ b1 a1' b2 a2' r.2.2 r'.2.2 b3 a3'
  rw [hre] at hLL
  refine ⟨fun k => by simp only [spodFreq, hLL], fun k hsimple => ?_⟩
  have real := eigenvalues_real_nonneg Q w hw r.1 r.2.1 a1
  have real' := eigenvalues_real_nonneg Q' w hw r'.1 r'.2.1 a1'
  have hLr : ∀ j, L j = r.1 j := by
    intro j
    show κ (r.1 j) = r.1 j
    rw [(real j).2.2]
    exact hκ.real _
  obtain ⟨z, hz, hzv⟩ := eig_phase _ L r'.1 V r'.2.1 b1 a1' b2 (r.2.2 k) (r'.2.2 k)
    (by
      have := congrFun hLL k
      simp only [reorderL] at this
      rw [hLr, (real' _).2.2, (real _).2.2]
      exact congrArg _ this.symm)
    (by
      intro j hj hLj
      refine hsimple (r.2.2.symm j) (fun h => hj (by rw [← h, Equiv.apply_symm_apply])) ?_
      rw [hLr, hLr] at hLj
      simp only [reorderL, realIfClose, Equiv.apply_symm_apply, hLj])
  refine ⟨z * α, by rw [norm_mul, hz, hα, one_mul], fun x => ?_⟩
  simp only [spodFreq, phiAll, Matrix.mul_apply, Matrix.of_apply, reorderV, hzv, hQ, ← congrFun hLL k, map_sum, map_mul, hκ.real,
    Finset.mul_sum, hV]
  refine Eq.trans ?_ (Equiv.sum_comp σ fun b => z * α * (κ (Q x b) * (κ (r.2.1 b (r.2.2 k)) *
    ((1 / (Real.sqrt nb * Real.sqrt (reorderL (realIfClose r.1) r.2.2 k)) : ℝ) : ℂ))))
  exact Finset.sum_congr rfl fun b _ => by ring

end

/-- the common part of C169 and C170 -/
theorem fit_moved (c : Cfg) (ω : ℂ) (files files' : List (List (Arr ℝ))) (w : Arr ℝ) (m : MeanType) (A : Accepted c files w m)
    (A' : Accepted c files' w m) (hlen : files'.flatten.length = files.flatten.length) (κ : ℂ →+* ℂ) (hκ : IdOrConj κ)
    (σ : Equiv.Perm (Fin (fitNb c files.flatten.length))) (α : Nat → ℂ) (hα : ∀ f, ‖α f‖ = 1)
    (h : ∀ (k : Fin (fitNb c files.flatten.length)) f x, InRange w.shape x → specHat c m ω (files'.flatten.map fun s => s.at' x) f k.1 =
      α f * κ (specHat c m ω (files.flatten.map fun s => s.at' x) f (σ k).1))
    (solver : Solver (fitNb c files.flatten.length)) (solver' : Solver (fitNb c files'.flatten.length)) (hs : SolverFull solver)
    (hs' : SolverFull solver') :
    ∃ out out', (∀ r, FitRun c ω files w solver r → r = some out) ∧ (∀ r, FitRun c ω files' w solver' r → r = some out') ∧
      ∀ f < nFreq c.nDft c.isreal c.full, ∀ k k', k.1 = k'.1 → out'.eigs f k' = out.eigs f k ∧
        (k.1 < c.nSave → (∀ j, j ≠ k → out.eigs f j ≠ out.eigs f k) →
          ∃ z : ℂ, ‖z‖ = 1 ∧ ∀ x, InRange w.shape x → ∃ v, fileEntry (out.modes f) (x ++ [k.1]) = some v ∧
            fileEntry (out'.modes f) (x ++ [k.1]) = some (z * κ v)) := by
  obtain ⟨out, h1, h2⟩ := fit_runs c ω files w m A solver
  obtain ⟨out', h1', h2'⟩ := fit_runs c ω files' w m A' solver'
  refine ⟨out, out', h1, h1', fun f hf => ?_⟩
  obtain ⟨e1, e2⟩ := h2 f hf
  obtain ⟨e1', e2'⟩ := h2' f hf
  have hQ : ∀ x (k : Fin (fitNb c files.flatten.length)) (k' : Fin (fitNb c files'.flatten.length)), k.1 = k'.1 →
      specQ c m ω files'.flatten w.shape (fitNb c files'.flatten.length) f x k' =
        α f * κ (specQ c m ω files.flatten w.shape (fitNb c files.flatten.length) f x (σ k)) := by
    intro x k k' hk
    simp only [specQ, Matrix.of_apply, ← hk]
    exact h k f _ (inRange_unravel x.2)
  have hW : ∀ x, 0 ≤ specW w x := fun x => A.weights _ (inRange_unravel x.2)
  generalize specQ c m ω files.flatten w.shape (fitNb c files.flatten.length) f = Q at *
  generalize specQ c m ω files'.flatten w.shape (fitNb c files'.flatten.length) f = Q' at *
  generalize oneSidedFactor c.isreal (nFreq c.nDft c.isreal c.full) f = fac at *
  obtain ⟨a1, a2, a3⟩ := hs _ (crossSpectral_posSemidef Q (specW w) hW).1
  obtain ⟨a1', a2', a3'⟩ := hs' _ (crossSpectral_posSemidef Q' (specW w) hW).1
  generalize solver (crossSpectral Q (specW w)) = r at *
  generalize solver' (crossSpectral Q' (specW w)) = r' at *
  generalize out.eigs f = E at *
  generalize out'.eigs f = E' at *
  generalize out.modes f = F at *
  generalize out'.modes f = F' at *
  clear h1 h1' h2 h2' hs hs' out out' solver solver' A A' h
  have hnb : fitNb c files'.flatten.length = fitNb c files.flatten.length := by rw [hlen]
  generalize fitNb c files'.flatten.length = nb' at *
  generalize fitNb c files.flatten.length = nb at *
  subst hnb
  intro k k' hk
  obtain rfl : k = k' := Fin.ext hk
  obtain ⟨g1, g2⟩ := spod_moved κ hκ σ Q Q' (specW w) hW (α f) (hα f) (fun x b => hQ x b b rfl) r r' a1 a2 a3 a1' a2' a3' fac
  refine ⟨by rw [e1', e1, g1], fun hks hsimple => ?_⟩
  obtain ⟨z, hz, hzv⟩ := g2 k (by
    intro j hj hE
    refine hsimple j hj ?_
    rw [e1]
    simp only [spodFreq, eigsOut, hE])
  refine ⟨z, hz, fun x hx => ?_⟩
  have hr : unravel w.shape (ravel w.shape x) = x := unravel_ravel hx
  have q1 := e2 k hks ⟨ravel w.shape x, ravel_lt hx⟩
  have q2 := e2' k hks ⟨ravel w.shape x, ravel_lt hx⟩
  simp only [hr] at q1 q2
  exact ⟨_, q1, by rw [q2, hzv]⟩

/-- the sum of a series over whole blocks and a remainder -/
theorem sum_blocks (u : Nat → ℝ) (n nb r : Nat) :
    ∑ t ∈ Finset.range (nb * n + r), u t = (∑ k ∈ Finset.range nb, ∑ t ∈ Finset.range n, u (k * n + t)) + ∑ t ∈ Finset.range r, u (nb * n + t) := by
  rw [Finset.sum_range_add]
  congr 1
  induction nb with
  | zero => simp
  | succ k ih => rw [Nat.succ_mul, Finset.sum_range_add, ih, Finset.sum_range_succ]

/-- **C169.** Blocks without overlap: if the blocks of the second data set are those of the first in another order (and the snapshots after the last
    block are the same), then the eigenvalues are the same, and the modes of simple eigenvalues up to a factor of modulus one. -/
theorem fit_blocks_reordered (c : Cfg) (ω : ℂ) (files files' : List (List (Arr ℝ))) (w : Arr ℝ) (m : MeanType) (A : Accepted c files w m)
    (A' : Accepted c files' w m) (hlen : files'.flatten.length = files.flatten.length) (h0 : c.nOvlp = 0)
    (σ : Equiv.Perm (Fin (fitNb c files.flatten.length)))
    (h : ∀ (k : Fin (fitNb c files.flatten.length)), ∀ t < c.nDft, ∀ x, InRange w.shape x →
      (files'.flatten.getD (k.1 * c.nDft + t) ⟨[], fun _ => 0⟩).at' x = (files.flatten.getD ((σ k).1 * c.nDft + t) ⟨[], fun _ => 0⟩).at' x)
    (hrest : ∀ t, fitNb c files.flatten.length * c.nDft ≤ t → t < files.flatten.length → ∀ x, InRange w.shape x →
      (files'.flatten.getD t ⟨[], fun _ => 0⟩).at' x = (files.flatten.getD t ⟨[], fun _ => 0⟩).at' x)
    (solver : Solver (fitNb c files.flatten.length)) (solver' : Solver (fitNb c files'.flatten.length)) (hs : SolverFull solver)
    (hs' : SolverFull solver') :
    ∃ out out', (∀ r, FitRun c ω files w solver r → r = some out) ∧ (∀ r, FitRun c ω files' w solver' r → r = some out') ∧
      ∀ f < nFreq c.nDft c.isreal c.full, ∀ k k', k.1 = k'.1 → out'.eigs f k' = out.eigs f k ∧
        (k.1 < c.nSave → (∀ j, j ≠ k → out.eigs f j ≠ out.eigs f k) →
          ∃ z : ℂ, ‖z‖ = 1 ∧ ∀ x, InRange w.shape x → ∃ v, fileEntry (out.modes f) (x ++ [k.1]) = some v ∧
            fileEntry (out'.modes f) (x ++ [k.1]) = some (z * v)) := by
  have hstep : ((c.nDft : Int) - c.nOvlp).toNat = c.nDft := by rw [h0]; omega
  have hin : ∀ k < fitNb c files.flatten.length, k * c.nDft + c.nDft ≤ files.flatten.length := by
    intro k hk
    have := (offsets_getD c A.overlap _ k hk).2
    rwa [hstep] at this
  refine fit_moved c ω files files' w m A A' hlen (RingHom.id ℂ) (Or.inl rfl) σ (fun _ => 1) (fun _ => norm_one) ?_ solver solver' hs hs'
  intro k f x hx
  set u := files.flatten.map fun s => s.at' x with hu
  set u' := files'.flatten.map fun s => s.at' x with hu'
  have hul : u.length = files.flatten.length := by rw [hu, List.length_map]
  have hul' : u'.length = files.flatten.length := by rw [hu', List.length_map, hlen]
  have hb : ∀ (k : Fin (fitNb c files.flatten.length)), ∀ t < c.nDft, u'.getD (k.1 * c.nDft + t) 0 = u.getD ((σ k).1 * c.nDft + t) 0 := by
    intro k t ht
    have g1 := hin k.1 k.2
    have g2 := hin (σ k).1 (σ k).2
    rw [hu, hu', getD_map_arr _ _ _ (by omega), getD_map_arr _ _ _ (by omega)]
    exact h k t ht x hx
  have hsum : u'.sum = u.sum := by
    rw [list_sum_range, list_sum_range, hul, hul']
    obtain ⟨r, hr⟩ : ∃ r, files.flatten.length = fitNb c files.flatten.length * c.nDft + r := by
      rcases Nat.eq_zero_or_pos (fitNb c files.flatten.length) with h0 | h0
      · exact ⟨files.flatten.length, by rw [h0]; simp⟩
      · have := hin (fitNb c files.flatten.length - 1) (by omega)
        have e : (fitNb c files.flatten.length - 1) * c.nDft + c.nDft = fitNb c files.flatten.length * c.nDft := by
          rw [← Nat.succ_mul]
          congr 1
          omega
        exact ⟨files.flatten.length - fitNb c files.flatten.length * c.nDft, by omega⟩
    have hrest' : ∀ t < r, u'.getD (fitNb c files.flatten.length * c.nDft + t) 0 = u.getD (fitNb c files.flatten.length * c.nDft + t) 0 := by
      intro t ht
      rw [hu, hu', getD_map_arr _ _ _ (by omega), getD_map_arr _ _ _ (by omega)]
      exact hrest _ (by omega) (by omega) x hx
    have e1 : ∑ k ∈ Finset.range (fitNb c files.flatten.length), ∑ t ∈ Finset.range c.nDft, u'.getD (k * c.nDft + t) 0 =
        ∑ k ∈ Finset.range (fitNb c files.flatten.length), ∑ t ∈ Finset.range c.nDft, u.getD (k * c.nDft + t) 0 := by
      rw [Finset.sum_range, Finset.sum_range,
        ← Equiv.sum_comp σ fun (k : Fin (fitNb c files.flatten.length)) => ∑ t ∈ Finset.range c.nDft, u.getD (k.1 * c.nDft + t) 0]
      exact Finset.sum_congr rfl fun k _ => Finset.sum_congr rfl fun t ht => hb k t (Finset.mem_range.1 ht)
    have e2 := Finset.sum_congr rfl fun t ht => hrest' t (Finset.mem_range.1 ht)
    have s1 := sum_blocks (fun t => u'.getD t 0) c.nDft (fitNb c files.flatten.length) r
    have s2 := sum_blocks (fun t => u.getD t 0) c.nDft (fitNb c files.flatten.length) r
    rw [← hr] at s1 s2
    rw [s1, s2, e1, e2]
  have hfl : ∀ t < c.nDft, specFluct m u' (k.1 * c.nDft) c.nDft t = specFluct m u ((σ k).1 * c.nDft) c.nDft t := by
    intro t ht
    cases m with
    | longtime => simp only [specFluct, hb k t ht, hsum, hul, hul']
    | blockwise =>
      simp only [specFluct, hb k t ht]
      rw [Finset.sum_congr rfl fun τ hτ => hb k τ (Finset.mem_range.1 hτ)]
    | zero => simp only [specFluct, hb k t ht]
  simp only [specHat, hstep, one_mul, RingHom.id_apply]
  congr 1
  refine Finset.sum_congr rfl fun t ht => ?_
  congr 3
  unfold specNorm
  simp only
  rw [hfl t (Finset.mem_range.1 ht), Finset.sum_congr rfl fun τ hτ => hfl τ (Finset.mem_range.1 hτ)]
  have e3 : ∀ a : ℝ, ∑ τ ∈ Finset.range c.nDft, (specFluct m u' (k.1 * c.nDft) c.nDft τ - a) ^ 2 =
      ∑ τ ∈ Finset.range c.nDft, (specFluct m u ((σ k).1 * c.nDft) c.nDft τ - a) ^ 2 := fun a =>
    Finset.sum_congr rfl fun τ hτ => by rw [hfl τ (Finset.mem_range.1 hτ)]
  rw [e3]

/-- **C170.** Data whose snapshots are in reverse order, with blocks that end at the last snapshot and a window that is symmetric: the same
    eigenvalues, and the modes of simple eigenvalues are the complex conjugates up to a factor of modulus one. -/
theorem fit_time_reversed (c : Cfg) (ω : ℂ) (hω : ‖ω‖ = 1) (files files' : List (List (Arr ℝ))) (w : Arr ℝ) (m : MeanType)
    (A : Accepted c files w m) (A' : Accepted c files' w m) (hlen : files'.flatten.length = files.flatten.length)
    (hwin : ∀ t < c.nDft, c.win.getD (c.nDft - 1 - t) 0 = c.win.getD t 0)
    (hall : (fitNb c files.flatten.length - 1) * ((c.nDft : Int) - c.nOvlp).toNat + c.nDft = files.flatten.length)
    (h : ∀ t < files.flatten.length, ∀ x, InRange w.shape x →
      (files'.flatten.getD t ⟨[], fun _ => 0⟩).at' x = (files.flatten.getD (files.flatten.length - 1 - t) ⟨[], fun _ => 0⟩).at' x)
    (solver : Solver (fitNb c files.flatten.length)) (solver' : Solver (fitNb c files'.flatten.length)) (hs : SolverFull solver)
    (hs' : SolverFull solver') :
    ∃ out out', (∀ r, FitRun c ω files w solver r → r = some out) ∧ (∀ r, FitRun c ω files' w solver' r → r = some out') ∧
      ∀ f < nFreq c.nDft c.isreal c.full, ∀ k k', k.1 = k'.1 → out'.eigs f k' = out.eigs f k ∧
        (k.1 < c.nSave → (∀ j, j ≠ k → out.eigs f j ≠ out.eigs f k) →
          ∃ z : ℂ, ‖z‖ = 1 ∧ ∀ x, InRange w.shape x → ∃ v, fileEntry (out.modes f) (x ++ [k.1]) = some v ∧
            fileEntry (out'.modes f) (x ++ [k.1]) = some (z * conj v)) := by
  refine fit_moved c ω files files' w m A A' hlen (starRingEnd ℂ) (Or.inr rfl) Fin.revPerm (fun f => ω ^ ((c.nDft - 1) * f))
    (fun f => by rw [norm_pow, hω, one_pow]) ?_ solver solver' hs hs'
  intro k f x hx
  set st := ((c.nDft : Int) - c.nOvlp).toNat with hst
  set u := files.flatten.map fun s => s.at' x with hu
  set u' := files'.flatten.map fun s => s.at' x with hu'
  have hul : u.length = files.flatten.length := by rw [hu, List.length_map]
  have hul' : u'.length = files.flatten.length := by rw [hu', List.length_map, hlen]
  have hin : k.1 * st + c.nDft ≤ files.flatten.length := (offsets_getD c A.overlap _ k.1 k.2).2
  have hrev : ∀ t < files.flatten.length, u'.getD t 0 = u.getD (files.flatten.length - 1 - t) 0 := by
    intro t ht
    rw [hu, hu', getD_map_arr _ _ _ (by omega), getD_map_arr _ _ _ (by omega)]
    exact h t ht x hx
  have hpos : (Fin.revPerm k).1 * st + k.1 * st + c.nDft = files.flatten.length := by
    refine Eq.trans ?_ hall
    rw [← Nat.add_mul]
    congr 2
    have := k.2
    simp only [Fin.revPerm_apply, Fin.val_rev]
    omega
  have hb : ∀ t < c.nDft, u'.getD (k.1 * st + t) 0 = u.getD ((Fin.revPerm k).1 * st + (c.nDft - 1 - t)) 0 := by
    intro t ht
    rw [hrev _ (by omega)]
    congr 1
    omega
  have hsum : u'.sum = u.sum := by
    rw [list_sum_range, list_sum_range, hul, hul', Finset.sum_congr rfl fun t ht => hrev t (Finset.mem_range.1 ht)]
    exact Finset.sum_range_reflect (fun t => u.getD t 0) _
  have hfl : ∀ t < c.nDft, specFluct m u' (k.1 * st) c.nDft t = specFluct m u ((Fin.revPerm k).1 * st) c.nDft (c.nDft - 1 - t) := by
    intro t ht
    cases m with
    | longtime => simp only [specFluct, hb t ht, hsum, hul, hul']
    | blockwise =>
      simp only [specFluct, hb t ht]
      rw [Finset.sum_congr rfl fun τ hτ => hb τ (Finset.mem_range.1 hτ)]
      rw [Finset.sum_range_reflect (fun τ => u.getD ((Fin.revPerm k).1 * st + τ) 0)]
    | zero => simp only [specFluct, hb t ht]
  have hnorm : ∀ t < c.nDft, specNorm c.normalize c.eps4 c.nDft (specFluct m u' (k.1 * st) c.nDft) t =
      specNorm c.normalize c.eps4 c.nDft (specFluct m u ((Fin.revPerm k).1 * st) c.nDft) (c.nDft - 1 - t) := by
    intro t ht
    unfold specNorm
    simp only
    rw [hfl t ht, Finset.sum_congr rfl fun τ hτ => hfl τ (Finset.mem_range.1 hτ),
      Finset.sum_range_reflect (fun τ => specFluct m u ((Fin.revPerm k).1 * st) c.nDft τ)]
    have e3 : ∀ a : ℝ, ∑ τ ∈ Finset.range c.nDft, (specFluct m u' (k.1 * st) c.nDft τ - a) ^ 2 =
        ∑ τ ∈ Finset.range c.nDft, (specFluct m u ((Fin.revPerm k).1 * st) c.nDft τ - a) ^ 2 := fun a => by
      rw [Finset.sum_congr rfl fun τ hτ => by rw [hfl τ (Finset.mem_range.1 hτ)]]
      exact Finset.sum_range_reflect (fun τ => (specFluct m u ((Fin.revPerm k).1 * st) c.nDft τ - a) ^ 2) _
    rw [e3]
  have hωω : ω * conj ω = 1 := by rw [Complex.mul_conj']; simp [hω]
  simp only [specHat, ← hst]
  rw [map_div₀, Complex.conj_ofReal, ← mul_div_assoc]
  congr 1
  rw [map_sum, Finset.mul_sum, ← Finset.sum_range_reflect]
  refine Finset.sum_congr rfl fun t ht => ?_
  have ht' := Finset.mem_range.1 ht
  have e1 : c.nDft - 1 - (c.nDft - 1 - t) = t := by omega
  rw [hnorm _ (by omega), e1, hwin t ht', map_mul, Complex.conj_ofReal, map_pow]
  rw [mul_left_comm]
  congr 1
  have e2 : (c.nDft - 1) * f = (c.nDft - 1 - t) * f + t * f := by rw [← Nat.add_mul]; congr 1; omega
  rw [e2, pow_add, mul_assoc, ← mul_pow, hωω, one_pow, mul_one]

/-! #### The hypotheses are met: eight snapshots on two points, blocks of four without overlap -/

def shortCfg : Cfg := ⟨4, 0, "longtime", true, 1, false, true, [1, 2, 2, 1], 2⟩
/-- snapshots `v, 2v` -/
def series (l : List ℝ) : List (List (Arr ℝ)) := [l.map fun v => ⟨[2], fun i => v * (i.getD 0 0 + 1 : ℕ)⟩]

theorem series_length (l : List ℝ) : (series l).flatten.length = l.length := by simp [series]

theorem short_accepted (l : List ℝ) (hl : l.length = 8) (g : Nat → ℝ) (hg : ∀ i, 0 ≤ g i) :
    Accepted shortCfg (series l) ⟨[2], fun i => g (i.getD 0 0)⟩ .longtime where
  shapes := by
    intro a ha
    simp only [series, List.flatten_cons, List.flatten_nil, List.append_nil, List.mem_map] at ha
    obtain ⟨v, -, rfl⟩ := ha
    rfl
  axes := by simp
  mean := by decide
  blocks := by rw [series_length, hl]; decide
  overlap := by decide
  window := rfl
  weights := fun x _ => hg _
  many := by simp [size]

/-- the second point has weight zero: only the first one matters -/
example (ω : ℂ) (lib : (nb : Nat) → Solver nb) (l : List ℝ) (hl : l.length = 8) (files' : List (List (Arr ℝ)))
    (hf : files' = [l.map fun v => ⟨[2], fun i => if i = [0] then v else 77⟩]) :
    ∃ out out', (∀ r, FitRun shortCfg ω (series l) ⟨[2], fun i => if i.getD 0 0 = 0 then 1 else 0⟩ (lib _) r → r = some out) ∧
      (∀ r, FitRun shortCfg ω files' ⟨[2], fun i => if i.getD 0 0 = 0 then 1 else 0⟩ (lib _) r → r = some out') ∧
      ∀ k k', k.1 = k'.1 → out'.eigs 1 k' = out.eigs 1 k := by
  have hlen : files'.flatten.length = (series l).flatten.length := by rw [series_length, hf]; simp
  have A := short_accepted l hl (fun i => if i = 0 then 1 else 0) (fun i => by split <;> norm_num)
  have A' : Accepted shortCfg files' ⟨[2], fun i => if i.getD 0 0 = 0 then 1 else 0⟩ .longtime := by
    refine { A with shapes := ?_, blocks := by rw [hlen]; exact A.blocks }
    intro a ha
    rw [hf, List.flatten_cons, List.flatten_nil, List.append_nil, List.mem_map] at ha
    obtain ⟨v, -, rfl⟩ := ha
    rfl
  obtain ⟨out, out', h1, h2, h3⟩ := fit_masked shortCfg ω (series l) files' ⟨[2], fun i => if i.getD 0 0 = 0 then 1 else 0⟩ .longtime A A' hlen (by
    intro x hx hw t ht
    rw [series_length] at ht
    have hx0 : x = [0] := by
      match x, hx with
      | [i], hi =>
        simp only [List.getD_cons_zero, ne_eq, ite_eq_right_iff, one_ne_zero, imp_false, not_not] at hw
        rw [hw]
    subst hx0
    rw [hf, series, List.flatten_cons, List.flatten_nil, List.append_nil, List.flatten_cons, List.flatten_nil, List.append_nil]
    rw [List.getD_eq_getElem?_getD, List.getElem?_map, List.getElem?_eq_getElem ht, List.getD_eq_getElem?_getD, List.getElem?_map,
      List.getElem?_eq_getElem ht]
    simp) lib
  exact ⟨out, out', h1, h2, fun k k' hk => (h3 1 (by decide) k k' hk).1⟩

/-- two saved modes or one -/
example (ω : ℂ) (l : List ℝ) (hl : l.length = 8) (solver : Solver (fitNb shortCfg (series l).flatten.length)) :
    ∃ out out' : Out (fitNb shortCfg (series l).flatten.length), (∀ r, FitRun shortCfg ω (series l) ⟨[2], fun _ => 1⟩ solver r → r = some out) ∧
      (∀ r, FitRun { shortCfg with nSave := 1 } ω (series l) ⟨[2], fun _ => 1⟩ solver r → r = some out') ∧ out'.eigs 2 = out.eigs 2 ∧
      ∃ v, fileEntry (out.modes 2) [1, 0] = some v ∧ fileEntry (out'.modes 2) [1, 0] = some v := by
  obtain ⟨out, out', h1, h2, -, -, h3⟩ := saved_modes_prefix shortCfg 1 ω (series l) ⟨[2], fun _ => 1⟩ .longtime
    (short_accepted l hl (fun _ => 1) fun _ => zero_le_one) solver
  obtain ⟨g1, -, -, g2⟩ := h3 2 (by decide)
  refine ⟨out, out', h1, h2, g1, g2 0 ?_ (by decide) (by decide) [1] ⟨by decide, trivial⟩⟩
  rw [series_length, hl]
  decide

/-- the two blocks swapped -/
example (ω : ℂ) (solver : Solver (fitNb shortCfg (series [1, 5, 2, 7, 3, 3, 8, 0]).flatten.length))
    (solver' : Solver (fitNb shortCfg (series [3, 3, 8, 0, 1, 5, 2, 7]).flatten.length)) (hs : SolverFull solver) (hs' : SolverFull solver') :
    ∃ out out', (∀ r, FitRun shortCfg ω (series [1, 5, 2, 7, 3, 3, 8, 0]) ⟨[2], fun _ => 1⟩ solver r → r = some out) ∧
      (∀ r, FitRun shortCfg ω (series [3, 3, 8, 0, 1, 5, 2, 7]) ⟨[2], fun _ => 1⟩ solver' r → r = some out') ∧
      ∀ k k', k.1 = k'.1 → out'.eigs 1 k' = out.eigs 1 k := by
  obtain ⟨out, out', h1, h2, h3⟩ := fit_blocks_reordered shortCfg ω (series [1, 5, 2, 7, 3, 3, 8, 0]) (series [3, 3, 8, 0, 1, 5, 2, 7]) ⟨[2], fun _ => 1⟩
    .longtime (short_accepted _ rfl (fun _ => 1) fun _ => zero_le_one) (short_accepted _ rfl (fun _ => 1) fun _ => zero_le_one) rfl rfl
    (Fin.revPerm : Equiv.Perm (Fin 2))
    (by
      intro k t ht x hx
      have hk : k.1 < 2 := k.2
      have ht' : t < 4 := ht
      match k, hk with
      | ⟨0, _⟩, _ => interval_cases t <;> rfl
      | ⟨1, _⟩, _ => interval_cases t <;> rfl)
    (by
      intro t h1 h2
      exact absurd (lt_of_lt_of_eq h2 rfl) (not_lt.2 h1)) solver solver' hs hs'
  exact ⟨out, out', h1, h2, fun k k' hk => (h3 1 (by decide) k k' hk).1⟩

/-- the snapshots in reverse order -/
example (solver : Solver (fitNb shortCfg (series [1, 5, 2, 7, 3, 3, 8, 0]).flatten.length))
    (solver' : Solver (fitNb shortCfg (series [0, 8, 3, 3, 7, 2, 5, 1]).flatten.length)) (hs : SolverFull solver) (hs' : SolverFull solver') :
    ∃ out out', (∀ r, FitRun shortCfg (-Complex.I) (series [1, 5, 2, 7, 3, 3, 8, 0]) ⟨[2], fun _ => 1⟩ solver r → r = some out) ∧
      (∀ r, FitRun shortCfg (-Complex.I) (series [0, 8, 3, 3, 7, 2, 5, 1]) ⟨[2], fun _ => 1⟩ solver' r → r = some out') ∧
      ∀ k k', k.1 = k'.1 → out'.eigs 1 k' = out.eigs 1 k := by
  obtain ⟨out, out', h1, h2, h3⟩ := fit_time_reversed shortCfg (-Complex.I) (by simp) (series [1, 5, 2, 7, 3, 3, 8, 0])
    (series [0, 8, 3, 3, 7, 2, 5, 1]) ⟨[2], fun _ => 1⟩
    .longtime (short_accepted _ rfl (fun _ => 1) fun _ => zero_le_one) (short_accepted _ rfl (fun _ => 1) fun _ => zero_le_one) rfl
    (by
      intro t ht
      have ht' : t < 4 := ht
      interval_cases t <;> rfl)
    (by decide)
    (by
      intro t ht x hx
      have ht' : t < 8 := ht
      interval_cases t <;> rfl) solver solver' hs hs'
  exact ⟨out, out', h1, h2, fun k k' hk => (h3 1 (by decide) k k' hk).1⟩

end Verif.Props
