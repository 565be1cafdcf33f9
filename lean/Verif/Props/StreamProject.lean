import Verif.Model.StreamProject
import Verif.Props.Constraints
import Verif.Props.Influence
import Verif.Props.StreamNoise
set_option linter.unusedSectionVars false
set_option linter.unusedVariables false
/-
  C225-C226: projecting data on the modes of a streaming fit (pyspod/spod/streaming.py, pyspod/spod/utils.py:68-268, 441-537).
-/
namespace Verif.Props
open Verif Verif.Par Verif.Fit Verif.Proj Verif.Spod Verif.SFit Verif.Stream Matrix ComplexConjugate

/-- The folder of a streaming fit fits data on its grid. -/
theorem stream_ready {c : Cfg} {ω : ℂ} {frames : List (Arr ℝ)} {w : Arr ℝ} (h : StreamAccepted c frames w) (svd : SFit.Svd (kept c frames.length))
    (hpos : 0 < size w.shape) (xdim nv : Nat) (dt : ℝ) (o : Opts) (b : Coef.Band)
    (hb : Coef.selectBand (freqAxis c.nDft dt c.isreal c.full) o.tLb o.tUb o.freqIdx = .ok b)
    (hlen : b.nFreqR = b.freqIdx.length) (hfs : b.freqIdx ≠ []) (hex : ∀ f ∈ b.freqIdx, f < nFreq c.nDft c.isreal c.full)
    (data : List (Arr ℝ)) (hfr : data ≠ []) (dims : List Nat) (hd : dims ≠ []) (hdims : ∀ a ∈ data, a.shape = dims)
    (hax : (dims = w.shape ∧ (nv ≠ 1 ∨ dims.length = xdim + 1)) ∨ (w.shape = dims ++ [1] ∧ nv = 1 ∧ dims.length ≠ xdim + 1)) :
    Ready (streamStored c xdim nv dt (globalStream c ω frames w svd)) o data b dims w.shape := by
  refine ⟨hb, hlen, hfs, ⟨rfl, hdims, hax, fun f hf => ⟨(globalStream c ω frames w svd).modes f, if_pos (hex f hf), rfl⟩⟩, hfr, hd, ?_, hpos⟩
  show 0 < SFit.kept c frames.length
  have := h.kept
  omega

/-- the selected modes are the stored ones -/
theorem stream_selected {c : Cfg} {k : Nat} (out : SOut k) (sh : List Nat) (xdim nv : Nat) (dt : ℝ) (b : Coef.Band)
    (hex : ∀ f ∈ b.freqIdx, f < nFreq c.nDft c.isreal c.full) (j : Fin (b.freqIdx.length * k)) (x : Fin (size sh)) :
    selPhi (streamStored c xdim nv dt out) b sh x j = streamMode out (b.freqIdx.getD (j.1 / k) 0) (unravel sh x) (j.1 % k) := by
  have hj : j.1 / k < b.freqIdx.length := Nat.div_lt_of_lt_mul (lt_of_lt_of_eq j.2 (mul_comm _ _))
  have hmem : b.freqIdx.getD (j.1 / k) 0 ∈ b.freqIdx := by
    rw [List.getD_eq_getElem?_getD, List.getElem?_eq_getElem hj]
    exact List.getElem_mem hj
  show (match (streamStored c xdim nv dt out).modes (b.freqIdx.getD (j.1 / k) 0) with
    | some f => (f.data (ravel f.shape (unravel sh x ++ [j.1 % k]))).getD default
    | none => 0) = _
  rw [show (streamStored c xdim nv dt out).modes (b.freqIdx.getD (j.1 / k) 0) = some (out.modes (b.freqIdx.getD (j.1 / k) 0)) from if_pos (hex _ hmem)]
  rfl

/-- **C225.** A streaming fit of data with `∑ l x * q x = b`, positive weights; projection of data that satisfy the same relation with any right-hand side `b'` on the
    modes of selected frequencies, at which the blocks are independent, and reconstruction of all times, each step on any number of ranks: every reconstructed
    snapshot satisfies `∑ l x * q x = b'`. -/
theorem stream_workflow_constraint (c : Cfg) (ω : ℂ) (frames : List (Arr ℝ)) (w : Arr ℝ) (h : StreamAccepted c frames w)
    (hw : ∀ idx, InRange w.shape idx → 0 < w.at' idx) (svd : SFit.Svd (kept c frames.length)) (hsvd : ∀ K, Stream.IsSVD K (svd K).1 (svd K).2)
    (l : Fin (size w.shape) → ℝ) (b b' : ℝ) (hl : Satisfies frames w.shape l b) (hpos : 0 < size w.shape)
    (xdim nv : Nat) (dt : ℝ) (o : Opts) (svd' : Proj.Svd) (bd : Coef.Band)
    (hbd : Coef.selectBand (freqAxis c.nDft dt c.isreal c.full) o.tLb o.tUb o.freqIdx = .ok bd)
    (hlen : bd.nFreqR = bd.freqIdx.length) (hfs : bd.freqIdx ≠ []) (hex : ∀ f ∈ bd.freqIdx, f < nFreq c.nDft c.isreal c.full)
    (hind : ∀ f ∈ bd.freqIdx, Independent c ω frames w f)
    (data : List (Arr ℝ)) (hfr : data ≠ []) (dims : List Nat) (hd : dims ≠ []) (hdims : ∀ a ∈ data, a.shape = dims)
    (hax : (dims = w.shape ∧ (nv ≠ 1 ∨ dims.length = xdim + 1)) ∨ (w.shape = dims ++ [1] ∧ nv = 1 ∧ dims.length ≠ xdim + 1))
    (hl' : ∀ t : Fin data.length, ∑ x, (l x : ℂ) * specD data w.shape x t = b') :
    ∃ out, StreamGives c ω frames w svd out ∧ ∀ comms comms' sched sched', IsRun comms sched → IsRun comms' sched' →
      ∃ G R, project (streamStored c xdim nv dt out) o svd' data comms sched = some G ∧
        reconstruct G none (.str "all") comms' sched' = some (npSave (timeArr w.shape R)) ∧ ∀ t : Fin data.length, ∑ x, (l x : ℂ) * R x t = b' := by
  refine ⟨_, h.gives ω svd, fun comms comms' sched sched' hrun hrun' => ?_⟩
  obtain ⟨out, h1, -, h2⟩ := stream_constraint c ω frames w h hw svd hsvd l b hl
  obtain rfl : globalStream c ω frames w svd = out := Option.some.inj ((h.runs ω svd).1.symm.trans h1)
  have hR := stream_ready (ω := ω) h svd hpos xdim nv dt o bd hbd hlen hfs hex data hfr dims hd hdims hax
  refine reconstruction_constraint _ o svd' data bd dims w.shape hR comms comms' sched sched' hrun hrun' l b' hl' fun j => ?_
  have hk : 0 < SFit.kept c frames.length := by have := h.kept; omega
  have hj : j.1 / SFit.kept c frames.length < bd.freqIdx.length := Nat.div_lt_of_lt_mul (lt_of_lt_of_eq j.2 (mul_comm _ _))
  have hmem : bd.freqIdx.getD (j.1 / SFit.kept c frames.length) 0 ∈ bd.freqIdx := by
    rw [List.getD_eq_getElem?_getD, List.getElem?_eq_getElem hj]
    exact List.getElem_mem hj
  refine Eq.trans (Finset.sum_congr rfl fun x _ => ?_) (h2 _ (hind _ hmem) ⟨j.1 % SFit.kept c frames.length, Nat.mod_lt _ hk⟩)
  exact congrArg _ (stream_selected (globalStream c ω frames w svd) w.shape xdim nv dt bd hex j x)

section
variable {X : Type} [Fintype X] [DecidableEq X] {k : Nat}

/-- the matrix of an update, `r` positive singular values before: rank `r + 1` -/
theorem kMat_rank_ge (U : Matrix X (Fin k) ℂ) (S : Fin k → ℝ) (x : X → ℂ) (c r : Nat) (hrk : r ≤ k)
    (hS : ∀ j : Fin k, j.val < r → S j ≠ 0) (ha : absUp U x ≠ 0) : r + 1 ≤ (kMat U S x c).rank := by
  classical
  set e : Fin k ⊕ Unit → ℂ := fun j => match j with | .inl j => if j.val < r then 1 else 0 | .inr _ => 1 with he
  set S' : Fin k → ℝ := fun j => if j.val < r then S j else 1 with hS'
  have hK : kMat U S x c * Matrix.diagonal e = kMat U S' x c * Matrix.diagonal e := by
    ext i j
    rw [Matrix.mul_diagonal, Matrix.mul_diagonal]
    rcases j with j | j
    · by_cases hj : j.val < r
      · rcases i with i | i
        · by_cases hij : i = j
          · subst hij; simp [kMat, hS', hj]
          · simp [kMat, hij]
        · simp [kMat]
      · simp [he, hj]
    · rcases i with i | i <;> simp [kMat]
  have h0 : ∀ j, S' j ≠ 0 := by
    intro j
    by_cases hj : j.val < r
    · simp only [hS', hj, if_true]; exact hS j hj
    · simp [hS', hj]
  have hdet : IsUnit (kMat U S' x c).det := by
    rw [isUnit_iff_ne_zero]
    unfold kMat
    rw [Matrix.det_smul, Matrix.det_fromBlocks_zero₂₁, Matrix.det_smul, Matrix.det_diagonal]
    have h1 : (0 : ℝ) < Real.sqrt (((c : ℝ) + 1) / ((c : ℝ) + 2) ^ 2) := Real.sqrt_pos.2 (by positivity)
    have h2 : (0 : ℝ) < Real.sqrt ((c : ℝ) + 2) := Real.sqrt_pos.2 (by positivity)
    refine mul_ne_zero (pow_ne_zero _ (by exact_mod_cast h1.ne')) (mul_ne_zero (mul_ne_zero (pow_ne_zero _ (by exact_mod_cast h2.ne')) ?_) ?_)
    · exact Finset.prod_ne_zero_iff.2 fun j _ => by exact_mod_cast h0 j
    · simp [Matrix.det_unique]
      exact_mod_cast ha
  have h1 : (kMat U S x c * Matrix.diagonal e).rank = (Matrix.diagonal e).rank := by
    rw [hK, Matrix.rank_mul_eq_right_of_isUnit_det _ _ hdet]
  have h2 := Matrix.rank_mul_le_left (kMat U S x c) (Matrix.diagonal e)
  rw [h1, Matrix.rank_diagonal] at h2
  refine le_trans ?_ h2
  have := Fintype.card_le_of_injective (α := Fin r ⊕ Unit) (β := {j // e j ≠ 0})
    (fun j => match j with
      | .inl j => ⟨.inl ⟨j.1, lt_of_lt_of_le j.2 hrk⟩, by simp [he]⟩
      | .inr _ => ⟨.inr (), by simp [he]⟩) (by
        rintro (a | a) (b | b) hab <;> simp_all [Fin.ext_iff])
  simpa using this

/-- after `n` updates the first `n` singular values are positive -/
theorem run_rank {xs : List (X → ℂ)} {U : Matrix X (Fin k) ℂ} {S : Fin k → ℝ} (h : StreamRun k xs U S) :
    ∀ j : Fin k, j.val < xs.length → 0 < S j := by
  classical
  induction h with
  | nil => intro j hj; simp at hj
  | @snoc xs U S x Up Sp hr ha hsvd ih =>
    intro j hj
    have hlen : (xs ++ [x]).length = xs.length + 1 := by simp
    rw [hlen] at hj
    show 0 < Sp (.inl j)
    refine lt_of_le_of_ne (hsvd.nonneg _) fun h0 => ?_
    have hr := kMat_rank_ge U S x (xs.length + 1) (min xs.length k) (min_le_right _ _) (fun i hi => (ih i (lt_of_lt_of_le hi (min_le_left _ _))).ne') ha
    obtain ⟨V, hV, hK⟩ := hsvd.factor
    have h1 : (kMat U S x (xs.length + 1)).rank ≤ (Matrix.diagonal fun j => (Sp j : ℂ)).rank := by
      rw [hK]
      exact (Matrix.rank_mul_le_left _ _).trans (Matrix.rank_mul_le_right _ _)
    rw [Matrix.rank_diagonal] at h1
    have h2 : Fintype.card {i // (Sp i : ℂ) ≠ 0} ≤ Fintype.card (Fin j.1) := by
      have hz : ∀ i, (Sp i : ℂ) ≠ 0 → ∃ a : Fin k, i = .inl a ∧ a.1 < j.1 := by
        rintro (a | a) ha
        · refine ⟨a, rfl, ?_⟩
          by_contra hc
          have := hsvd.sorted j a (Fin.le_def.2 (not_lt.1 hc))
          exact ha (by exact_mod_cast le_antisymm (this.trans h0.symm.le) (hsvd.nonneg _))
        · have := hsvd.last j
          exact absurd (by exact_mod_cast le_antisymm (this.trans h0.symm.le) (hsvd.nonneg _)) ha
      choose g hg1 hg2 using hz
      refine Fintype.card_le_of_injective (fun i => (⟨(g i.1 i.2).1, hg2 _ _⟩ : Fin j.1)) fun a b hab => Subtype.ext ?_
      rw [hg1 a.1 a.2, hg1 b.1 b.2, Fin.ext (Fin.mk.inj hab)]
    have := j.2
    rw [Fintype.card_fin] at h2
    have h3 := le_trans hr (le_trans h1 h2)
    omega

/-- and the others are zero -/
theorem run_rest {xs : List (X → ℂ)} {U : Matrix X (Fin k) ℂ} {S : Fin k → ℝ} (h : StreamRun k xs U S) :
    ∀ j : Fin k, xs.length ≤ j.val → S j = 0 := by
  induction h with
  | nil => intro j _; rfl
  | @snoc xs U S x Up Sp hr ha hsvd ih =>
    intro j hj
    have hlen : (xs ++ [x]).length = xs.length + 1 := by simp
    rw [hlen] at hj
    have := j.2
    exact (svd_rank_zero hsvd (xs.length + 1) (by omega) (kMat_rank U S x _ xs.length (by omega) ih)).1 j hj
end

/-- **C227.** A streaming fit on any number of ranks, any decomposition: at a frequency with independent blocks, eigenvalue `j` is positive if the record holds more
    than `j` blocks, and zero otherwise. -/
theorem stream_rank (c : Cfg) (ω : ℂ) (frames : List (Arr ℝ)) (w : Arr ℝ) (h : StreamAccepted c frames w) (svd : SFit.Svd (kept c frames.length))
    (hsvd : ∀ K, Stream.IsSVD K (svd K).1 (svd K).2) :
    ∃ out, StreamGives c ω frames w svd out ∧ ∀ f, Independent c ω frames w f → ∀ j : Fin (kept c frames.length),
      (streamStart (Stream.nPar c.nDft (sep c)) (sep c) j + c.nDft ≤ frames.length → 0 < out.eigs f j) ∧
      (frames.length < streamStart (Stream.nPar c.nDft (sep c)) (sep c) j + c.nDft → out.eigs f j = 0) := by
  refine ⟨_, h.gives ω svd, fun f hind j => ?_⟩
  have run := whole_run (ω := ω) h svd hsvd f hind
  have hN := nUpdates_spec c ω h.dft h.sep frames.length j
  have hl : ((List.range (nUpdates c ω frames.length)).map (specVec c ω frames w f)).length = nUpdates c ω frames.length := by
    rw [List.length_map, List.length_range]
  constructor
  · intro hj
    exact run_rank run j (by rw [hl]; exact hN.2 hj)
  · intro hj
    refine run_rest run j ?_
    rw [hl]
    by_contra hc
    have := hN.1 (not_le.1 hc)
    omega

/-- **C226.** After a streaming fit on any number of ranks, positive weights: at a frequency with independent blocks whose stored eigenvalues are not zero, the
    projection of any data of the same grid on that frequency alone, on any numbers of ranks, with any tolerance below one and any decomposition, saves in row `j` the weighted
    inner products of stored mode `j` with the fluctuations of the data (the eigenvalues need not be different). -/
theorem stream_single_frequency (c : Cfg) (ω : ℂ) (frames : List (Arr ℝ)) (w : Arr ℝ) (h : StreamAccepted c frames w)
    (hw : ∀ idx, InRange w.shape idx → 0 < w.at' idx) (svd : SFit.Svd (kept c frames.length)) (hsvd : ∀ K, Stream.IsSVD K (svd K).1 (svd K).2)
    (hpos : 0 < size w.shape)
    (xdim nv : Nat) (dt : ℝ) (o : Opts) (svd' : Proj.Svd) (hsvd' : ∀ k M, Coef.IsSvd M (svd' k M).1 (svd' k M).2.1 (svd' k M).2.2) (bd : Coef.Band)
    (hbd : Coef.selectBand (freqAxis c.nDft dt c.isreal c.full) o.tLb o.tUb o.freqIdx = .ok bd) (hlen : bd.nFreqR = bd.freqIdx.length)
    (f : Nat) (hf : f < nFreq c.nDft c.isreal c.full) (hfs : bd.freqIdx = [f]) (htol : o.tol < 1) (hind : Independent c ω frames w f)
    (data : List (Arr ℝ)) (hfr : data ≠ []) (dims : List Nat) (hd : dims ≠ []) (hdims : ∀ a ∈ data, a.shape = dims)
    (hax : (dims = w.shape ∧ (nv ≠ 1 ∨ dims.length = xdim + 1)) ∨ (w.shape = dims ++ [1] ∧ nv = 1 ∧ dims.length ≠ xdim + 1)) :
    ∃ out, StreamGives c ω frames w svd out ∧ ((∀ j, out.eigs f j ≠ 0) →
      ∃ G, (∀ comms sched, IsRun comms sched → project (streamStored c xdim nv dt out) o svd' data comms sched = some G) ∧
        G.coeffs.shape = [kept c frames.length, data.length] ∧
        ∀ j < kept c frames.length, ∀ t < data.length, (openMemmap G.coeffs).at' [j, t] =
          inner_W (specW w) (fun x => streamMode out f (unravel w.shape x) j) (fluctuation data w.shape t)) := by
  refine ⟨_, h.gives ω svd, fun hne => ?_⟩
  have hex : ∀ g ∈ bd.freqIdx, g < nFreq c.nDft c.isreal c.full := by
    intro g hg
    rw [hfs, List.mem_singleton] at hg
    exact hg ▸ hf
  have hR := stream_ready (ω := ω) h svd hpos xdim nv dt o bd hbd hlen (by rw [hfs]; simp) hex data hfr dims hd hdims hax
  have hk : bd.freqIdx.length * SFit.kept c frames.length = SFit.kept c frames.length := by
    rw [hfs]; exact Nat.one_mul _
  have hW : specWt (streamStored c xdim nv dt (globalStream c ω frames w svd)) w.shape = specW w := by
    funext i
    show ((npSave w).data i).getD default = _
    have : (npSave w).data i = some (w.at' (unravel w.shape i)) := if_pos i.2
    rw [this]
    rfl
  have hcol : ∀ j : Fin (bd.freqIdx.length * SFit.kept c frames.length), ∀ x,
      selPhi (streamStored c xdim nv dt (globalStream c ω frames w svd)) bd w.shape x j =
        streamMode (globalStream c ω frames w svd) f (unravel w.shape x) (Fin.cast hk j) := by
    intro j x
    have hj : j.1 < SFit.kept c frames.length := lt_of_lt_of_eq j.2 hk
    refine (stream_selected (globalStream c ω frames w svd) w.shape xdim nv dt bd hex j x).trans ?_
    have e : bd.freqIdx.getD 0 0 = f := by rw [hfs]; rfl
    rw [Nat.div_eq_of_lt hj, Nat.mod_eq_of_lt hj, e]
    rfl
  have run := whole_run (ω := ω) h svd hsvd f hind
  have orth := stream_orthonormal run
  have iy : ∀ y : Fin (size w.shape), (⟨ravel w.shape (unravel w.shape y), ravel_lt (inRange_unravel y.2)⟩ : Fin (size w.shape)) = y :=
    fun y => Fin.ext (ravel_unravel y.2)
  have hphi : ∀ (x : Fin (size w.shape)) (j : Fin (SFit.kept c frames.length)), streamMode (globalStream c ω frames w svd) f (unravel w.shape x) j =
      basisMat w.shape ((lastBasis c ω frames.length f frames w svd).U 0) x j * (1 / ((Real.sqrt (w.at' (unravel w.shape x)) : ℝ) : ℂ)) := by
    intro x j
    rw [streamMode_at c ω frames w svd f (unravel w.shape x) (inRange_unravel x.2) j, iy]
  have horth : OrthonormalW (specWt (streamStored c xdim nv dt (globalStream c ω frames w svd)) w.shape) fun j =>
      col (selPhi (streamStored c xdim nv dt (globalStream c ω frames w svd)) bd w.shape) j := by
    intro i j
    have := congrFun (congrFun orth (Fin.cast hk i)) (Fin.cast hk j)
    rw [Matrix.mul_apply, Matrix.diagonal_apply, if_neg (hne _)] at this
    have hij : (Fin.cast hk i = Fin.cast hk j) ↔ i = j := ⟨fun e => Fin.ext (show i.1 = j.1 from congrArg (fun a : Fin (SFit.kept c frames.length) => a.1) e), fun e => e ▸ rfl⟩
    simp only [hij] at this
    refine Eq.trans ?_ this
    rw [hW]
    refine Finset.sum_congr rfl fun x _ => ?_
    have e1 : col (selPhi (streamStored c xdim nv dt (globalStream c ω frames w svd)) bd w.shape) i x = _ := (hcol i x).trans (hphi x (Fin.cast hk i))
    have e2 : col (selPhi (streamStored c xdim nv dt (globalStream c ω frames w svd)) bd w.shape) j x = _ := (hcol j x).trans (hphi x (Fin.cast hk j))
    have hx := hw _ (inRange_unravel x.2)
    have hs : ((Real.sqrt (w.at' (unravel w.shape x)) : ℝ) : ℂ) ≠ 0 := by exact_mod_cast (Real.sqrt_pos.2 hx).ne'
    have hww : ((specW w x : ℝ) : ℂ) = ((Real.sqrt (w.at' (unravel w.shape x)) : ℝ) : ℂ) * ((Real.sqrt (w.at' (unravel w.shape x)) : ℝ) : ℂ) := by
      rw [← Complex.ofReal_mul, Real.mul_self_sqrt hx.le]
      rfl
    show conj (col (selPhi (streamStored c xdim nv dt (globalStream c ω frames w svd)) bd w.shape) i x) * _ *
      col (selPhi (streamStored c xdim nv dt (globalStream c ω frames w svd)) bd w.shape) j x = _
    rw [e1, e2, hww, Matrix.conjTranspose_apply, map_mul, map_div₀, map_one, Complex.conj_ofReal]
    field_simp
    exact mul_comm _ _
  obtain ⟨G, g1, g2, g3⟩ := coeffs_inner_products _ o svd' hsvd' data bd dims w.shape hR htol horth
  refine ⟨G, g1, g2.trans (congrArg (fun a => [a, data.length]) hk), fun j hj t ht => ?_⟩
  have := g3 (Fin.cast hk.symm ⟨j, hj⟩) t ht
  rw [hW] at this
  refine this.trans ?_
  congr 1
  funext x
  exact hcol _ x

/-! ### Non-vacuity -/

theorem sex_two : kept sexCfg sexFrames.length = 2 := by
  have hlen : sexFrames.length = 6 := by simp [sexFrames]
  rw [hlen]; decide

/-- `stream_rank`: both eigenvalues of the two pulses are positive at every frequency -/
theorem sex_positive (svd : SFit.Svd (kept sexCfg sexFrames.length)) (hsvd : ∀ K, Stream.IsSVD K (svd K).1 (svd K).2) :
    ∃ out, StreamGives sexCfg (-Complex.I) sexFrames sexWeights svd out ∧ ∀ f < 3, ∀ j : Fin (kept sexCfg sexFrames.length), 0 < out.eigs f j := by
  obtain ⟨out, h1, h2⟩ := stream_rank sexCfg (-Complex.I) sexFrames sexWeights sex_accepted svd hsvd
  refine ⟨out, h1, fun f hf j => (h2 f (sex_independent f hf) j).1 ?_⟩
  have hlen : sexFrames.length = 6 := by simp [sexFrames]
  have hj : j.1 < 2 := lt_of_lt_of_eq j.2 sex_two
  have : ∀ i : Fin 2, streamStart (nPar sexCfg.nDft (sep sexCfg)) (sep sexCfg) i + sexCfg.nDft ≤ 6 := by decide
  exact (this ⟨j.1, hj⟩).trans_eq hlen.symm

/-- `stream_single_frequency`: the two pulses projected on the modes of frequency 2 -/
example (svd' : Proj.Svd) (hsvd' : ∀ k M, Coef.IsSvd M (svd' k M).1 (svd' k M).2.1 (svd' k M).2.2) :
    ∃ svd out G, StreamGives sexCfg (-Complex.I) sexFrames sexWeights svd out ∧
      project (streamStored sexCfg 1 1 1 out) ⟨some 2, some 2, none, 1 / 2, false⟩ svd' sexFrames [none] none = some G ∧
      G.coeffs.shape = [2, 6] ∧
      (openMemmap G.coeffs).at' [1, 4] = inner_W (specW sexWeights) (fun x => streamMode out 2 (unravel [2, 1] x) 1) (fluctuation sexFrames [2, 1] 4) := by
  choose g1 g2 hg using fun K : Matrix (Fin (SFit.kept sexCfg sexFrames.length) ⊕ Unit) (Fin (SFit.kept sexCfg sexFrames.length) ⊕ Unit) ℂ =>
    svd_exists K
  have hlen : sexFrames.length = 6 := by simp [sexFrames]
  obtain ⟨out, h1, h2⟩ := stream_single_frequency sexCfg (-Complex.I) sexFrames sexWeights sex_accepted
    (fun idx _ => by simp only [sexWeights]; positivity)
    (fun K => (g1 K, g2 K)) hg (by simp [sexWeights, size]) 1 1 1 ⟨some 2, some 2, none, 1 / 2, false⟩ svd' hsvd' ⟨2, 2, 1, [2]⟩
    (by
      simp [Coef.selectBand, freqAxis, sexCfg, Coef.arange, Coef.findNearestFreq, Coef.argmin, Coef.argminGo, List.range_succ]
      have h1 : |(4 : ℝ)⁻¹ - 2⁻¹| = 1 / 4 := by norm_num [abs_of_neg]
      have h2 : |(2 : ℝ) / 4 - 2⁻¹| = 0 := by norm_num
      norm_num [h1, h2])
    rfl 2 (by decide) rfl (by norm_num) (sex_independent 2 (by decide)) sexFrames (by simp [sexFrames]) [2, 1] (by simp) sex_accepted.shapes
    (Or.inl ⟨rfl, Or.inr rfl⟩)
  obtain ⟨out', p1, p2⟩ := sex_positive (fun K => (g1 K, g2 K)) hg
  obtain rfl : out' = out := Option.some.inj (p1.1.symm.trans h1.1)
  obtain ⟨G, k1, k2, k3⟩ := h2 fun j => (p2 2 (by decide) j).ne'
  refine ⟨_, out', G, h1, k1 _ _ (Or.inl ⟨rfl, rfl⟩), by rw [k2, sex_two, hlen], ?_⟩
  exact k3 1 (by rw [sex_two]; decide) 4 (by rw [hlen]; decide)

/-- `stream_workflow_constraint`: the first and the third point of `copyFrames` stay equal -/
example (svd' : Proj.Svd) (tol : ℝ) : ∃ svd out G R, StreamGives sexCfg (-Complex.I) copyFrames copyWeights svd out ∧
      project (streamStored sexCfg 1 1 1 out) ⟨none, none, none, tol, false⟩ svd' copyFrames [none] none = some G ∧
      reconstruct G none (.str "all") (ranksOf 2) (some fun _ l => l.reverse) = some (npSave (timeArr [3, 1] R)) ∧
      ∀ t : Fin copyFrames.length, ∑ x, (((![1, 0, -1] : Fin 3 → ℝ) x : ℝ) : ℂ) * R x t = (0 : ℝ) := by
  choose g1 g2 hg using fun K : Matrix (Fin (SFit.kept sexCfg copyFrames.length) ⊕ Unit) (Fin (SFit.kept sexCfg copyFrames.length) ⊕ Unit) ℂ =>
    svd_exists K
  have hsat : Satisfies copyFrames copyWeights.shape (![1, 0, -1] : Fin 3 → ℝ) 0 := by
      intro t ht
      have ht : t < 6 := ht
      have e : ∀ g : Fin 3 → ℝ, ∑ x : Fin (size [3, 1]), g x = g 0 + g 1 + g 2 := fun g => Fin.sum_univ_three g
      refine (e fun x => (![1, 0, -1] : Fin 3 → ℝ) x * (copyFrames.getD t ⟨[], fun _ => 0⟩).at' (unravel [3, 1] x.1)).trans ?_
      simp [copyFrames, List.getD_eq_getElem?_getD, ht, unravel, size]
      split <;> norm_num
  have hlen : (freqAxis sexCfg.nDft (1 : ℝ) sexCfg.isreal sexCfg.full).length = 3 := by rw [freqAxis_length _ _ _ _ (by decide)]; decide
  obtain ⟨out, h1, h2⟩ := stream_workflow_constraint sexCfg (-Complex.I) copyFrames copyWeights copy_accepted
    (fun idx _ => by simp only [copyWeights]; split <;> norm_num) (fun K => (g1 K, g2 K)) hg (![1, 0, -1] : Fin 3 → ℝ) 0 0 hsat (by simp [copyWeights, size])
    1 1 1 ⟨none, none, none, tol, false⟩ svd' _
    (band_default _ (by intro h; rw [h] at hlen; cases hlen)) (by simp) (by simp [hlen]) (by
      intro f hf
      rw [hlen] at hf
      exact List.mem_range.1 hf) (by
      intro f hf
      rw [hlen] at hf
      exact copy_independent f (List.mem_range.1 hf)) copyFrames (by simp [copyFrames]) [3, 1] (by simp) copy_accepted.shapes (Or.inl ⟨rfl, Or.inr rfl⟩) (by
      intro t
      refine Eq.trans ?_ (congrArg Complex.ofReal (hsat t.1 t.2))
      push_cast
      refine Finset.sum_congr rfl fun x _ => ?_
      rw [specD_apply]
      have ht : t.1 < 6 := t.2
      have hs : (copyFrames.getD t.1 ⟨[], fun _ => 0⟩).shape = [3, 1] := by
        simp [copyFrames, List.getD_eq_getElem?_getD, ht]
      have : flat (copyFrames.getD t.1 ⟨[], fun _ => 0⟩) x.1 = (copyFrames.getD t.1 ⟨[], fun _ => 0⟩).at' (unravel copyWeights.shape x.1) := by
        show (copyFrames.getD t.1 ⟨[], fun _ => 0⟩).at' (unravel (copyFrames.getD t.1 ⟨[], fun _ => 0⟩).shape x.1) = _
        rw [hs]
        rfl
      rw [this])
  obtain ⟨G, R, k1, k2, k3⟩ := h2 [none] (ranksOf 2) none (some fun _ l => l.reverse) (Or.inl ⟨rfl, rfl⟩)
    (Or.inr ⟨2, _, by omega, fun _ l => List.reverse_perm _, rfl, rfl⟩)
  exact ⟨_, out, G, R, h1, k1, k2, k3⟩

end Verif.Props
