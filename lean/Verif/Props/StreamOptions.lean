import Verif.Model.Attributes
import Verif.Props.StreamFinite
/-
  C185: mean_type and normalize_data in streaming fits.  C186: confidence bounds of streaming fits.  C187: documented attributes of fitted objects.
-/
namespace Verif.Props
open Verif Verif.Par Verif.Rd Verif.Spod Verif.Fit Verif.SFit Matrix

/-! ### C185 -/

/-- the options `c` with another type of mean and other choices about the normalisation of the data -/
def otherMean (c : Cfg) (mean : String) (norm : Bool) (eps : ℝ) : Cfg := { c with meanType := mean, normalize := norm, eps4 := eps }

/-- **C185 fails**: whichever of the accepted types of mean is chosen, and whether the data shall be normalised or not, a streaming fit leaves exactly the same
    files: it always subtracts the mean of what was read so far, also with `mean_type='zero'`, and never normalises the data.  For every record, routine `svd`,
    number of ranks and order of the element writes. -/
theorem stream_options_fail (c : Cfg) (ω : ℂ) (frames : List (Arr ℝ)) (w : Arr ℝ) (mean : String) (norm : Bool) (eps : ℝ)
    (h : lower c.meanType = "longtime" ∨ lower c.meanType = "blockwise" ∨ lower c.meanType = "zero")
    (h' : lower mean = "longtime" ∨ lower mean = "blockwise" ∨ lower mean = "zero") (svd : Svd (kept c frames.length)) :
    streamSerial (otherMean c mean norm eps) ω frames w svd = streamSerial c ω frames w svd ∧
    ∀ p s, streamParallel (otherMean c mean norm eps) ω frames w svd p s = streamParallel c ω frames w svd p s := by
  obtain ⟨m, hm⟩ := (mean_type_accepted c.meanType).2 h
  obtain ⟨m', hm'⟩ := (mean_type_accepted mean).2 h'
  have key : ∀ sched ax p ranks, streamFit (otherMean c mean norm eps) ω frames.length svd sched ax p ranks =
      streamFit c ω frames.length svd sched ax p ranks := by
    intro sched ax p ranks
    unfold streamFit
    have e : parseMean (otherMean c mean norm eps).meanType = .ok m' := hm'
    have ef : feasible ((otherMean c mean norm eps).nDft : Int) (nBlocks frames.length (otherMean c mean norm eps).nDft (otherMean c mean norm eps).nOvlp) =
        feasible c.nDft (nBlocks frames.length c.nDft c.nOvlp) := rfl
    rw [e, hm, ef]
    cases feasible c.nDft (nBlocks frames.length c.nDft c.nOvlp) <;> rfl
  constructor
  · unfold streamSerial
    split
    · rfl
    · split
      · rfl
      · exact key _ _ _ _
  · intro p s
    unfold streamParallel
    split
    · rfl
    · split
      · rfl
      · exact key _ _ _ _

/-- In particular, with `mean_type='zero'` too a steady field has no influence on a streaming fit (in a standard fit of type zero it has, see C21). -/
theorem stream_zero_mean_fails (c : Cfg) (hz : c.meanType = "zero") (ω : ℂ) (frames : List (Arr ℝ)) (w : Arr ℝ) (h : StreamAccepted c frames w)
    (g : List Nat → ℝ) (svd : ∀ k, Svd k) :
    c.meanType = "zero" ∧ ∃ out out', streamSerial c ω frames w (svd _) = some out ∧ streamSerial c ω (addSteady g frames) w (svd _) = some out' ∧
      SameSpod out out' := by
  obtain ⟨out, out', h1, h2, h3, -⟩ := stream_steady c ω frames w h g svd
  exact ⟨hz, out, out', h1, h2, h3⟩

/-- **C185**, the part that holds: other types of mean are rejected, as in a standard fit. -/
theorem stream_options_partial (c : Cfg) (ω : ℂ) (frames : List (Arr ℝ)) (w : Arr ℝ) (svd : Svd (kept c frames.length))
    (h : ¬ (lower c.meanType = "longtime" ∨ lower c.meanType = "blockwise" ∨ lower c.meanType = "zero")) :
    streamSerial c ω frames w svd = none ∧ ∀ p s, streamParallel c ω frames w svd p s = none := by
  have hm : ∀ m, parseMean c.meanType ≠ .ok m := fun m hm => h ((mean_type_accepted c.meanType).1 ⟨m, hm⟩)
  have key : ∀ sched ax p ranks, streamFit c ω frames.length svd sched ax p ranks = none := by
    intro sched ax p ranks
    unfold streamFit
    split
    · rename_i _ h2
      exact absurd h2 (hm _)
    · rfl
  constructor
  · unfold streamSerial
    split
    · rfl
    · split
      · rfl
      · exact key _ _ _ _
  · intro p s
    unfold streamParallel
    split
    · rfl
    · split
      · rfl
      · exact key _ _ _ _

example (ω : ℂ) (svd : Svd (kept sexCfg sexFrames.length)) :
    streamSerial (otherMean sexCfg "zero" true 1) ω sexFrames sexWeights svd = streamSerial sexCfg ω sexFrames sexWeights svd :=
  (stream_options_fail sexCfg ω sexFrames sexWeights "zero" true 1 (by decide) (by decide) svd).1

/-! ### C186 -/

/-- the stored bounds of the eigenvalue of mode `j` at frequency `f` enclose it, read in either order -/
def Encloses (e : Attr.EigsFile) (f j : Nat) : Prop :=
  (e.lower.val f j ≤ e.eigs.val f j ∧ e.eigs.val f j ≤ e.upper.val f j) ∨ (e.upper.val f j ≤ e.eigs.val f j ∧ e.eigs.val f j ≤ e.lower.val f j)

/-- the three arrays of the file have the same shape -/
def SameShape (e : Attr.EigsFile) : Prop :=
  e.lower.rows = e.eigs.rows ∧ e.upper.rows = e.eigs.rows ∧ e.lower.cols = e.eigs.cols ∧ e.upper.cols = e.eigs.cols

theorem run_nonneg {X : Type} [Fintype X] [DecidableEq X] {k : Nat} {xs : List (X → ℂ)} {U : Matrix X (Fin k) ℂ} {S : Fin k → ℝ}
    (h : StreamRun k xs U S) (j : Fin k) : 0 ≤ S j := by
  cases h with
  | nil => exact le_rfl
  | snoc hr ha hsvd => exact hsvd.nonneg _

/-- a streaming fit with independent blocks, no more than the modes kept, has a positive eigenvalue at every frequency -/
theorem stream_eig_pos (c : Cfg) (ω : ℂ) (frames : List (Arr ℝ)) (w : Arr ℝ) (h : StreamAccepted c frames w)
    (svd : Svd (kept c frames.length)) (hsvd : ∀ K, Stream.IsSVD K (svd K).1 (svd K).2) (f : Nat) (hind : Independent c ω frames w f)
    (hM : ∀ m, streamStart (Stream.nPar c.nDft (sep c)) (sep c) m + c.nDft ≤ frames.length → m < kept c frames.length) :
    ∃ j, 0 < (globalStream c ω frames w svd).eigs f j := by
  have hsp := fun m => nUpdates_spec c ω h.dft h.sep frames.length m
  have hM' : nUpdates c ω frames.length ≤ kept c frames.length := by
    by_contra hcon
    push Not at hcon
    have := hM (kept c frames.length) ((hsp _).1 hcon)
    omega
  have hM0 : 0 < nUpdates c ω frames.length := by
    rw [hsp 0]
    have h1 := ((feasible_iff frames.length c.nDft c.nOvlp h.overlap).1 h.blocks).2
    have := h.overlap
    simp only [streamStart, Nat.zero_mul, Nat.zero_div]
    omega
  have key : ∀ m < nUpdates c ω frames.length, (fun i : Fin (size w.shape) => newCol c ω f m (w.at' (unravel w.shape i))
      (atIdx (unravel w.shape i) frames)) ∉ Submodule.span ℂ {v | ∃ m' < m, v = fun i : Fin (size w.shape) =>
        newCol c ω f m' (w.at' (unravel w.shape i)) (atIdx (unravel w.shape i) frames)} := by
    intro m hm
    rw [col_spec h f m hm]
    have := hind m ((hsp m).1 hm)
    convert this using 3
    ext v
    constructor
    · rintro ⟨m', h', rfl⟩; exact ⟨m', h', col_spec h f m' (by omega)⟩
    · rintro ⟨m', h', rfl⟩; exact ⟨m', h', (col_spec h f m' (by omega)).symm⟩
  have hrun := basis_run w.shape svd hsvd (fun m idx => newCol c ω f m (w.at' idx) (atIdx idx frames)) (nUpdates c ω frames.length) key
  by_contra hcon
  push Not at hcon
  have hS : ∀ j, (globalStream c ω frames w svd).eigs f j = 0 := fun j => le_antisymm (hcon j) (run_nonneg hrun j)
  have hspan := run_span hrun
  have hlast := stream_closed_form hrun (by simpa using hM')
  have hz : density (basisMat w.shape ((basisAfter svd 1 (fun _ => w.shape) (fun m _ idx => newCol c ω f m (w.at' idx) (atIdx idx frames))
      (nUpdates c ω frames.length)).U 0)) (basisAfter svd 1 (fun _ => w.shape) (fun m _ idx => newCol c ω f m (w.at' idx) (atIdx idx frames))
      (nUpdates c ω frames.length)).S = 0 := by
    have : (basisAfter svd 1 (fun _ => w.shape) (fun m _ idx => newCol c ω f m (w.at' idx) (atIdx idx frames)) (nUpdates c ω frames.length)).S =
        fun _ => 0 := funext hS
    rw [this]
    simp [density]
  have hen := stream_energy hrun (by simpa using hM')
  have hx0 := key 0 hM0
  have hne : (fun i : Fin (size w.shape) => newCol c ω f 0 (w.at' (unravel w.shape i)) (atIdx (unravel w.shape i) frames)) ≠ 0 := by
    intro h0
    apply hx0
    rw [h0]
    exact Submodule.zero_mem _
  have hS0 : ∀ j, (basisAfter svd 1 (fun _ => w.shape) (fun m _ idx => newCol c ω f m (w.at' idx) (atIdx idx frames)) (nUpdates c ω frames.length)).S j = 0 := hS
  simp only [hS0, Complex.ofReal_zero, ne_eq, OfNat.ofNat_ne_zero, not_false_eq_true, zero_pow, Finset.sum_const_zero, List.length_map,
    List.length_range] at hen
  have hre := congrArg Complex.re hen
  set xs := (List.range (nUpdates c ω frames.length)).map fun (m : Nat) => fun i : Fin (size w.shape) =>
    newCol c ω f m (w.at' (unravel w.shape i)) (atIdx (unravel w.shape i) frames) with hxs
  have hreal : (1 / ((nUpdates c ω frames.length : ℂ) + 2)) * ∑ b ∈ Finset.range (nUpdates c ω frames.length),
      (((b : ℂ) + 2) / ((b : ℂ) + 3)) * ∑ i, xs.getD b 0 i * star (xs.getD b 0 i) =
      (((1 / ((nUpdates c ω frames.length : ℝ) + 2)) * ∑ b ∈ Finset.range (nUpdates c ω frames.length),
      (((b : ℝ) + 2) / ((b : ℝ) + 3)) * ∑ i, Complex.normSq (xs.getD b 0 i) : ℝ) : ℂ) := by
    push_cast
    congr 1
    apply Finset.sum_congr rfl
    intro b _
    congr 1
    apply Finset.sum_congr rfl
    intro i _
    rw [Complex.star_def, Complex.mul_conj]
  rw [hreal, Complex.ofReal_re, Complex.zero_re] at hre
  have hpos : 0 < (1 / ((nUpdates c ω frames.length : ℝ) + 2)) * ∑ b ∈ Finset.range (nUpdates c ω frames.length),
      (((b : ℝ) + 2) / ((b : ℝ) + 3)) * ∑ i, Complex.normSq (xs.getD b 0 i) := by
    apply mul_pos (by positivity)
    apply Finset.sum_pos' (fun b _ => mul_nonneg (by positivity) (Finset.sum_nonneg fun i _ => Complex.normSq_nonneg _))
    refine ⟨0, Finset.mem_range.2 hM0, ?_⟩
    apply mul_pos (by norm_num)
    have e0 : xs.getD 0 0 = fun i : Fin (size w.shape) => newCol c ω f 0 (w.at' (unravel w.shape i)) (atIdx (unravel w.shape i) frames) := by
      rw [hxs]
      simp [List.getD_eq_getElem?_getD, List.getElem?_range hM0]
    rw [e0]
    obtain ⟨i, hi⟩ := Function.ne_iff.1 hne
    apply Finset.sum_pos' fun i _ => Complex.normSq_nonneg _
    exact ⟨i, Finset.mem_univ i, Complex.normSq_pos.2 hi⟩
  linarith

/-- **C186 fails** for streaming fits: the stored bounds are zero and enclose no positive eigenvalue, whichever of the two is taken as the lower one. -/
theorem stream_bounds_fail (c : Cfg) (nt : Nat) (out : SOut (kept c nt)) (f j : Nat) (hj : j < kept c nt) (hpos : 0 < out.eigs f ⟨j, hj⟩) :
    ¬ Encloses (Attr.streamEigsFile c nt out) f j := by
  simp only [Encloses, Attr.streamEigsFile, Attr.initBounds, hj, ↓reduceDIte]
  rintro (⟨-, h⟩ | ⟨-, h⟩) <;> linarith

/-- ... and there are as many bounds as blocks, not as modes: the arrays of the file differ in shape as soon as fewer modes than blocks are kept. -/
theorem stream_bounds_shape_fails (c : Cfg) (nt : Nat) (out : SOut (kept c nt)) : SameShape (Attr.streamEigsFile c nt out) ↔ fitNb c nt ≤ c.nSave := by
  simp only [SameShape, Attr.streamEigsFile, Attr.initBounds, kept]
  constructor
  · rintro ⟨-, -, h, -⟩
    omega
  · intro h
    refine ⟨trivial, trivial, ?_, ?_⟩ <;> omega

/-- **C186**, the part that holds: the file of a standard fit has arrays of one shape, and its bounds enclose every eigenvalue (read in the order of C29) if the
    contract of `gammaincinv` puts the quantiles around the number of blocks. -/
theorem standard_bounds_partial (ginv : Nat → ℝ → ℝ) (nf nb : Nat) (hnb : 0 < nb) (level : ℝ) (eigs : Nat → Nat → ℝ)
    (hlo : 0 < ginv nb (1 - level)) (hmid : ginv nb (1 - level) ≤ nb) (hup : (nb : ℝ) ≤ ginv nb level) (f j : Nat) (he : 0 ≤ eigs f j) :
    SameShape (Attr.standardEigsFile ginv level nf nb eigs) ∧ Encloses (Attr.standardEigsFile ginv level nf nb eigs) f j := by
  have hn : (0 : ℝ) < nb := by exact_mod_cast hnb
  refine ⟨⟨rfl, rfl, rfl, rfl⟩, Or.inr ?_⟩
  simp only [Attr.standardEigsFile, confBounds, xi2]
  constructor
  · have : 2 * (nb : ℝ) / (2 * ginv nb level) ≤ 1 := (div_le_one (by linarith)).2 (by linarith)
    nlinarith
  · have : 1 ≤ 2 * (nb : ℝ) / (2 * ginv nb (1 - level)) := (one_le_div (by linarith)).2 (by linarith)
    nlinarith

example : ∃ (svd : Svd (kept sexCfg sexFrames.length)) (out : _), streamSerial sexCfg (-Complex.I) sexFrames sexWeights svd = some out ∧
    ∃ j : Fin (kept sexCfg sexFrames.length), ¬ Encloses (Attr.streamEigsFile sexCfg sexFrames.length out) 1 j := by
  choose g1 g2 hg using fun K : Matrix (Fin (kept sexCfg sexFrames.length) ⊕ Unit) (Fin (kept sexCfg sexFrames.length) ⊕ Unit) ℂ =>
    svd_exists K
  have hlen : sexFrames.length = 6 := by simp [sexFrames]
  obtain ⟨j, hj⟩ := stream_eig_pos sexCfg (-Complex.I) sexFrames sexWeights sex_accepted (fun K => (g1 K, g2 K)) hg 1 (sex_independent 1 (by omega)) (by
    intro m hm
    have hk : kept sexCfg sexFrames.length = 2 := by rw [hlen]; decide
    rw [hk]
    rw [hlen] at hm
    by_contra hcon
    have h2 : streamStart (Stream.nPar sexCfg.nDft (sep sexCfg)) (sep sexCfg) 2 + sexCfg.nDft = 9 := by decide
    have := streamStart_mono (P := Stream.nPar sexCfg.nDft (sep sexCfg)) (dn := sep sexCfg) (not_lt.1 hcon)
    omega)
  exact ⟨_, _, (sex_accepted.runs (-Complex.I) _).1, j, stream_bounds_fail sexCfg _ _ 1 j j.2 hj⟩

/-! ### C187 -/

theorem session_mono (ops ops' : List Attr.Op) (a : String) (h : a ∈ Attr.session ops) : a ∈ Attr.session (ops ++ ops') := by
  unfold Attr.session at *
  rw [List.foldl_append]
  generalize ops.foldl Attr.step [] = l at h
  induction ops' generalizing l with
  | nil => exact h
  | cons o os ih =>
    rw [List.foldl_cons]
    apply ih
    cases o <;> simp only [Attr.step]
    · exact List.mem_append_left _ h
    · exact List.mem_append_left _ h
    · split
      · exact List.mem_append_left _ h
      · exact h
    · split
      · exact List.mem_append_left _ h
      · exact h

/-- every attribute an object ever has -/
theorem session_subset (ops : List Attr.Op) : ∀ a ∈ Attr.session ops,
    a ∈ Attr.initAttrs ++ Attr.fitAttrs ++ ["_file_coeffs", "_coeffs_dir", "_file_recons"] := by
  induction ops using List.reverseRecOn with
  | nil => simp [Attr.session]
  | append_singleton os o ih =>
    intro a ha
    unfold Attr.session at *
    rw [List.foldl_append, List.foldl_cons, List.foldl_nil] at ha
    cases o with
    | construct =>
      rcases List.mem_append.1 ha with h | h
      · exact ih a h
      · exact List.mem_append_left _ (List.mem_append_left _ h)
    | fit n =>
      rcases List.mem_append.1 ha with h | h
      · exact ih a h
      · exact List.mem_append_left _ (List.mem_append_right _ (List.mem_of_mem_take h))
    | coeffs d =>
      simp only [Attr.step] at ha
      split at ha
      · rcases List.mem_append.1 ha with h | h
        · exact ih a h
        · apply List.mem_append_right
          simp only [List.mem_cons, List.not_mem_nil, or_false] at h ⊢
          tauto
      · exact ih a ha
    | recons d =>
      simp only [Attr.step] at ha
      split at ha
      · rcases List.mem_append.1 ha with h | h
        · exact ih a h
        · apply List.mem_append_right
          simp only [List.mem_cons, List.not_mem_nil, or_false] at h ⊢
          tauto
      · exact ih a ha

/-- **C187 fails**: in every session, whatever was called and how far it came, reading `file_dynamics`, `freq_idx_lb` or `freq_idx_ub` raises. -/
theorem getters_fail (ops : List Attr.Op) (name : String) (h : name ∈ ["file_dynamics", "freq_idx_lb", "freq_idx_ub"]) :
    Attr.read (Attr.session ops) name = .error "AttributeError" := by
  have key : ∀ p ∈ [("file_dynamics", "_file_dynamics"), ("freq_idx_lb", "_freq_idx_lb"), ("freq_idx_ub", "_freq_idx_ub")],
      Attr.getters.lookup p.1 = some p.2 ∧ p.2 ∉ Attr.initAttrs ++ Attr.fitAttrs ++ ["_file_coeffs", "_coeffs_dir", "_file_recons"] := by decide +kernel
  have : ∃ at', (name, at') ∈ [("file_dynamics", "_file_dynamics"), ("freq_idx_lb", "_freq_idx_lb"), ("freq_idx_ub", "_freq_idx_ub")] := by
    simp only [List.mem_cons, List.not_mem_nil, or_false] at h
    rcases h with rfl | rfl | rfl
    · exact ⟨_, List.mem_cons_self ..⟩
    · exact ⟨"_freq_idx_lb", by simp⟩
    · exact ⟨"_freq_idx_ub", by simp⟩
  obtain ⟨at', hat⟩ := this
  obtain ⟨h1, h2⟩ := key (name, at') hat
  unfold Attr.read
  rw [h1]
  simp only
  rw [if_neg fun hm => h2 (session_subset ops _ hm)]

/-- **C187**, the part that holds: once a fit has ended, every other documented attribute can be read, whatever is called later; and `file_coeffs` once
    coefficients have been computed. -/
theorem getters_partial (before after : List Attr.Op) (name at' : String) (h : (name, at') ∈ Attr.getters)
    (hn : name ∉ ["file_dynamics", "freq_idx_lb", "freq_idx_ub", "file_coeffs"]) :
    Attr.read (Attr.session (.construct :: before ++ [.fit Attr.fitAttrs.length] ++ after)) name = .ok () ∧
    Attr.read (Attr.session (before ++ [.coeffs true] ++ after)) "file_coeffs" = .ok () := by
  have key : ∀ p ∈ Attr.getters, p.1 ∉ ["file_dynamics", "freq_idx_lb", "freq_idx_ub", "file_coeffs"] →
      Attr.getters.lookup p.1 = some p.2 ∧ (p.2 ∈ Attr.initAttrs ∨ p.2 ∈ Attr.fitAttrs) := by decide +kernel
  obtain ⟨h1, h2⟩ := key (name, at') h hn
  constructor
  · unfold Attr.read
    simp only at h1 h2
    rw [h1]
    simp only
    rw [if_pos]
    apply session_mono
    rcases h2 with h2 | h2
    · have : Attr.Op.construct :: before ++ [.fit Attr.fitAttrs.length] = [.construct] ++ (before ++ [.fit Attr.fitAttrs.length]) := by simp
      rw [this]
      apply session_mono
      simpa [Attr.session, Attr.step] using h2
    · unfold Attr.session
      rw [List.foldl_append, List.foldl_cons, List.foldl_nil]
      simp only [Attr.step, List.take_length]
      exact List.mem_append_right _ h2
  · have e : Attr.getters.lookup "file_coeffs" = some "_file_coeffs" := by decide +kernel
    unfold Attr.read
    rw [e]
    simp only
    rw [if_pos]
    apply session_mono
    unfold Attr.session
    rw [List.foldl_append, List.foldl_cons, List.foldl_nil]
    simp [Attr.step]

example : Attr.read (Attr.session [.construct, .fit Attr.fitAttrs.length]) "eigs" = .ok () :=
  (getters_partial [] [] "eigs" "_eigs" (by decide +kernel) (by decide +kernel)).1

end Verif.Props
