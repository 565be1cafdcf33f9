import Verif.Model.StreamFit
import Verif.Props.Fit
import Verif.Props.StreamBlocks
import Verif.Props.StreamBasis
import Verif.Props.Svd
/-
  C97, C98: the whole streaming fit, end to end.
-/
set_option linter.unusedSectionVars false
set_option linter.unusedSimpArgs false
set_option linter.unusedVariables false
namespace Verif.Props
open Verif Verif.Par Verif.Rd Verif.Spod Verif.Fit Verif.SFit Matrix

/-! ### Sums over slabs -/

/-- index of the whole grid that local index `i` of rank `r` stands for -/
def toGlobal (sh : List Nat) (ax p r : Nat) (i : List Nat) : List Nat :=
  i.set ax (i.getD ax 0 + startOf (ext sh ax) p r)

theorem slab_shape {α} (w : Arr α) (ax p r : Nat) (hp : 0 < p) (hr : r < p) :
    (distributeDimension w ax (some (p, r))).shape = w.shape.set ax (countOf (ext w.shape ax) p r) := by
  have hle : startOf (ext w.shape ax) p r + countOf (ext w.shape ax) p r ≤ ext w.shape ax := by
    rcases Nat.lt_or_ge r (p - 1) with h | h
    · have h1 := endOf_le_startOf (ext w.shape ax) p h (by omega)
      have h2 := blockdist_end (ext w.shape ax) p (p - 1) (by omega) (by omega)
      omega
    · have h2 := blockdist_end (ext w.shape ax) p r (by omega) (by omega)
      omega
  simp only [distributeDimension, Arr.slice]
  congr 1
  simp only [startOf, countOf] at hle ⊢
  omega

theorem slab_at {α} (w : Arr α) (ax p r : Nat) (i : List Nat) :
    (distributeDimension w ax (some (p, r))).at' i = w.at' (toGlobal w.shape ax p r i) := rfl

theorem slab_inRange {α} (w : Arr α) (ax p r : Nat) (hax : ax < w.shape.length) (i : List Nat)
    (hi : InRange (distributeDimension w ax (some (p, r))).shape i) : InRange w.shape (toGlobal w.shape ax p r i) := by
  apply inRange_shift w.shape ax _ (countOf (ext w.shape ax) p r) hax
  simpa [distributeDimension, Arr.slice] using hi

/-- A sum over the values of all ranks is the sum over the values of the whole array. -/
theorem slab_sum {M} [AddCommMonoid M] (sh : List Nat) (ax p : Nat) (hp : 0 < p) (hax : ax < sh.length)
    (F : List Nat → M) :
    allreduce ((List.range p).map fun (r : Nat) => ∑ i ∈ Finset.range (size (sh.set ax (countOf (ext sh ax) p r))),
      F (toGlobal sh ax p r (unravel (sh.set ax (countOf (ext sh ax) p r)) i))) =
    ∑ i ∈ Finset.range (size sh), F (unravel sh i) := by
  rw [foldr_add_eq_sum, sum_unravel]
  have key := idxSum_slabs sh ax hax ((List.range p).map (countOf (ext sh ax) p)) 0 F
  rw [sum_counts _ _ hp, set_ext_self] at key
  simp only [List.length_map, List.length_range, Nat.add_zero, set_getD_self] at key
  rw [key]
  congr 1
  apply List.map_congr_left
  intro r hr
  have hr := List.mem_range.1 hr
  rw [sum_unravel _ fun i => F (toGlobal sh ax p r i), sum_counts_take _ _ _ hr]
  simp [toGlobal, hr, List.getD_eq_getElem?_getD]

/-! ### The basis of the slabs is the slab of the basis -/

section
variable {k : Nat} (sh : List Nat) (ax p : Nat)

/-- the ranks' arrays `a` are the slabs of the whole array `A` (at the points they own) -/
def IsSlab {V : Type} (a : Nat → List Nat → V) (A : List Nat → V) : Prop :=
  ∀ r < p, ∀ i, InRange (sh.set ax (countOf (ext sh ax) p r)) i → a r i = A (toGlobal sh ax p r i)

theorem update_slab (hp : 0 < p) (hax : ax < sh.length) (svd : Svd k) (b : Nat) (B B1 : Basis k)
    (x : Nat → List Nat → ℂ) (X : List Nat → ℂ) (hS : B.S = B1.S) (hU : IsSlab sh ax p B.U (B1.U 0))
    (hx : IsSlab sh ax p x X) :
    (updateAll svd p (fun r => sh.set ax (countOf (ext sh ax) p r)) b B x).S =
      (updateAll svd 1 (fun _ => sh) b B1 fun _ => X).S ∧
    IsSlab sh ax p (updateAll svd p (fun r => sh.set ax (countOf (ext sh ax) p r)) b B x).U
      ((updateAll svd 1 (fun _ => sh) b B1 fun _ => X).U 0) := by
  have hproj : projAll p (fun r => sh.set ax (countOf (ext sh ax) p r)) B.U x = projAll 1 (fun _ => sh) B1.U fun _ => X := by
    funext j
    unfold projAll
    have := slab_sum sh ax p hp hax fun i => star (B1.U 0 i j) * X i
    simp only [List.range_one, List.map_cons, List.map_nil, allreduce, List.foldr_cons, List.foldr_nil, add_zero] at this ⊢
    rw [← this]
    congr 1
    apply List.map_congr_left
    intro r hr
    apply Finset.sum_congr rfl
    intro i hi
    have hi := inRange_unravel (Finset.mem_range.1 hi)
    have hr := List.mem_range.1 hr
    rw [hU r hr _ hi, hx r hr _ hi]
  have hperp : IsSlab sh ax p (perpAll B.U x (projAll 1 (fun _ => sh) B1.U fun _ => X))
      (perpAll B1.U (fun _ => X) (projAll 1 (fun _ => sh) B1.U fun _ => X) 0) := by
    intro r hr i hi
    simp only [perpAll]
    rw [hU r hr i hi, hx r hr i hi]
  have habs : absAll p (fun r => sh.set ax (countOf (ext sh ax) p r)) (perpAll B.U x (projAll 1 (fun _ => sh) B1.U fun _ => X)) =
      absAll 1 (fun _ => sh) (perpAll B1.U (fun _ => X) (projAll 1 (fun _ => sh) B1.U fun _ => X)) := by
    unfold absAll
    congr 1
    have := slab_sum sh ax p hp hax fun i =>
      Complex.normSq (perpAll B1.U (fun _ => X) (projAll 1 (fun _ => sh) B1.U fun _ => X) 0 i)
    simp only [List.range_one, List.map_cons, List.map_nil, allreduce, List.foldr_cons, List.foldr_nil, add_zero] at this ⊢
    rw [← this]
    congr 1
    apply List.map_congr_left
    intro r hr
    apply Finset.sum_congr rfl
    intro i hi
    have hi := inRange_unravel (Finset.mem_range.1 hi)
    rw [hperp r (List.mem_range.1 hr) _ hi]
  constructor
  · simp only [updateAll, hproj, habs, hS]
  · intro r hr i hi
    simp only [updateAll, hproj, habs, hS]
    funext j
    rw [hU r hr i hi, hperp r hr i hi]

theorem basis_slab (hp : 0 < p) (hax : ax < sh.length) (svd : Svd k) (x : Nat → Nat → List Nat → ℂ)
    (X : Nat → List Nat → ℂ) (hx : ∀ m, IsSlab sh ax p (x m) (X m)) (M : Nat) :
    (basisAfter svd p (fun r => sh.set ax (countOf (ext sh ax) p r)) x M).S =
      (basisAfter svd 1 (fun _ => sh) (fun m _ => X m) M).S ∧
    IsSlab sh ax p (basisAfter svd p (fun r => sh.set ax (countOf (ext sh ax) p r)) x M).U
      ((basisAfter svd 1 (fun _ => sh) (fun m _ => X m) M).U 0) := by
  induction M with
  | zero => exact ⟨rfl, fun r _ i _ => rfl⟩
  | succ M ih =>
    simp only [basisAfter, List.range_succ, List.foldl_append, List.foldl_cons, List.foldl_nil] at ih ⊢
    exact update_slab sh ax p hp hax svd (M + 1) _ _ (x M) (X M) ih.1 ih.2 (hx M)
end

theorem updateAll_congr {k : Nat} (svd : Svd k) (p : Nat) (sh sh' : Nat → List Nat) (h : ∀ r < p, sh r = sh' r) (b : Nat)
    (B : Basis k) (x : Nat → List Nat → ℂ) : updateAll svd p sh b B x = updateAll svd p sh' b B x := by
  have h1 : projAll p sh B.U x = projAll p sh' B.U x := by
    funext j
    unfold projAll
    congr 1
    apply List.map_congr_left
    intro r hr
    rw [h r (List.mem_range.1 hr)]
  have h2 : ∀ up, absAll p sh up = absAll p sh' up := by
    intro up
    unfold absAll
    congr 2
    apply List.map_congr_left
    intro r hr
    rw [h r (List.mem_range.1 hr)]
  simp only [updateAll, h1, h2]

theorem basisAfter_congr {k : Nat} (svd : Svd k) (p : Nat) (sh sh' : Nat → List Nat) (h : ∀ r < p, sh r = sh' r)
    (x : Nat → Nat → List Nat → ℂ) (M : Nat) : basisAfter svd p sh x M = basisAfter svd p sh' x M := by
  unfold basisAfter
  congr 1
  funext B m
  exact updateAll_congr svd p sh sh' h _ B _

/-! ### C97 -/

theorem shapesOk_iff (xv k : Nat) (hk : 2 ≤ k) : shapesOk xv k = true ↔ xv ≠ 1 := by
  have hk1 : k ≠ 1 := by omega
  unfold shapesOk
  by_cases h : xv = 1
  · subst h
    simp [Stream.squeeze, hk1, Stream.matmulShape]
  · simp [Stream.streamDiag, Stream.diagShape, Stream.squeeze, hk1, h, Stream.matmulShape]

/-- Everything a streaming fit of the whole data on one process leaves behind. -/
noncomputable def globalStream (c : Cfg) (ω : ℂ) (frames : List (Arr ℝ)) (w : Arr ℝ)
    (svd : Svd (kept c frames.length)) : SOut (kept c frames.length) :=
  let B : Nat → Basis (kept c frames.length) := fun f => basisAfter svd 1 (fun _ => w.shape)
    (fun m _ idx => newCol c ω f m (w.at' idx) (atIdx idx frames)) (nUpdates c ω frames.length)
  { eigs := fun f => (B f).S
    modes := fun f => npSave (modesOf w ((B f).U 0))
    weights := npSave w
    ltm := npSave ⟨w.shape, fun idx => Stream.longTMeanNt ℝ frames.length (fitNb c frames.length) (atIdx idx (frames.take 1))⟩ }

theorem readRank_ok (frames : List (Arr ℝ)) (w : Arr ℝ) (ax : Nat) (comm : Comm) :
    readRank [frames] w ax comm (frames.length + 1) =
      some ⟨frames.map fun a => distributeDimension a ax comm, distributeDimension w ax comm⟩ := by
  unfold readRank
  have := stream_reads_partial (⟨[], fun _ => 0⟩ : Arr ℝ) (frames.map fun a => distributeDimension a ax comm)
    (frames.length + 1) (by simp)
  simp only [List.map_cons, List.map_nil, this]

theorem modes_slab {k : Nat} (w : Arr ℝ) (ax p r : Nat) (hr : r < p) (hax : ax < w.shape.length)
    (u : Nat → List Nat → Fin k → ℂ) (U : List Nat → Fin k → ℂ) (h : IsSlab w.shape ax p u U) :
    (modesOf (distributeDimension w ax (some (p, r))) (u r)).Eqv
      (distributeDimension (modesOf w U) ax (some (p, r))) := by
  have hext : ext (w.shape ++ [k]) ax = ext w.shape ax := by
    simp [ext, List.getD_eq_getElem?_getD, List.getElem?_append_left hax]
  constructor
  · simp only [distributeDimension, modesOf, Arr.slice, hext]
    rw [List.set_append_left _ _ hax]
  · intro idx hidx
    obtain ⟨x, j, rfl, hx, hj⟩ := inRange_append hidx
    have hxl : ax < x.length := by
      have := hx.length
      simp only [distributeDimension, Arr.slice, List.length_set] at this
      omega
    have e : (distributeDimension (modesOf w U) ax (some (p, r))).at' (x ++ [j]) =
        (modesOf w U).at' (toGlobal w.shape ax p r x ++ [j]) := by
      have hN : ext (modesOf w U).shape ax = ext w.shape ax := hext
      simp only [distributeDimension, Arr.slice, hN, toGlobal]
      rw [List.set_append_left _ _ hxl]
      congr 3
      simp [List.getD_eq_getElem?_getD, List.getElem?_append_left hxl]
    rw [e]
    rw [slab_shape w ax p r (by omega) hr] at hx
    have := h r hr x hx
    simp only [modesOf, List.getLastD_concat, List.dropLast_concat, hj, ↓reduceDIte, slab_at, this]

theorem stream_par_global (c : Cfg) (m : MeanType) (hm : parseMean c.meanType = .ok m) (ω : ℂ)
    (frames : List (Arr ℝ)) (w : Arr ℝ) (hsh : ∀ a ∈ frames, a.shape = w.shape)
    (hfeas : feasible c.nDft (nBlocks frames.length c.nDft c.nOvlp) = .ok ()) (hk : 2 ≤ kept c frames.length)
    (svd : Svd (kept c frames.length)) (ax : Nat) (hax : ax < w.shape.length) (p : Nat) (hp : 0 < p)
    (hone : ∀ r < p, size (distributeDimension w ax (some (p, r))).shape ≠ 1)
    (s : (β : Type) → List (Write β) → List (Write β)) (hs : ∀ β l, (s β l).Perm l) (ranks : Nat → Rank)
    (hranks : ∀ r < p, ranks r = ⟨frames.map fun a => distributeDimension a ax (some (p, r)),
      distributeDimension w ax (some (p, r))⟩) :
    streamFit c ω frames.length svd (some s) ax p ranks = some (globalStream c ω frames w svd) := by
  have hok : nUpdates c ω frames.length = 0 ∨
      ∀ r < p, shapesOk (size (ranks r).w.shape) (kept c frames.length) = true := by
    right
    intro r hr
    rw [shapesOk_iff _ _ hk, hranks r hr]
    exact hone r hr
  have hB : ∀ f, _ := fun f => basis_slab w.shape ax p hp hax svd
    (fun m r idx => newCol c ω f m ((ranks r).w.at' idx) (atIdx idx (ranks r).data))
    (fun m idx => newCol c ω f m (w.at' idx) (atIdx idx frames))
    (by
      intro m r hr i hi
      simp only [hranks r hr, slab_at]
      rw [atIdx_slab frames w hsh ax p r i]
      rfl) (nUpdates c ω frames.length)
  have hBc : ∀ f, basisAfter svd p (fun r => (ranks r).w.shape)
      (fun m r idx => newCol c ω f m ((ranks r).w.at' idx) (atIdx idx (ranks r).data)) (nUpdates c ω frames.length) =
      basisAfter svd p (fun r => w.shape.set ax (countOf (ext w.shape ax) p r))
      (fun m r idx => newCol c ω f m ((ranks r).w.at' idx) (atIdx idx (ranks r).data)) (nUpdates c ω frames.length) := by
    intro f
    apply basisAfter_congr
    intro r hr
    rw [hranks r hr]
    exact slab_shape w ax p r hp hr
  simp only [streamFit, hfeas, hm, if_pos hok, Option.some.injEq, globalStream, hBc]
  congr 1
  · funext f
    exact (hB f).1
  · funext f
    apply saveAll_slabs _ ax p hp (by simp only [modesOf, List.length_append]; omega) s hs
    intro r hr
    rw [hranks r hr]
    exact modes_slab w ax p r hr hax _ _ (hB f).2
  · apply saveAll_slabs _ ax p hp hax s hs
    intro r hr
    rw [hranks r hr]
    exact Arr.Eqv.refl _
  · refine saveAll_slabs (⟨w.shape, fun idx => Stream.longTMeanNt ℝ frames.length (fitNb c frames.length)
      (atIdx idx (frames.take 1))⟩ : Arr ℝ) ax p hp hax s hs _ ?_
    intro r hr
    rw [hranks r hr]
    refine ⟨rfl, fun idx hidx => ?_⟩
    simp only [slab_at]
    rw [← List.map_take, atIdx_slab (frames.take 1) w (fun a ha => hsh a (List.mem_of_mem_take ha)) ax p r idx]
    rfl

theorem stream_ser_global (c : Cfg) (m : MeanType) (hm : parseMean c.meanType = .ok m) (ω : ℂ)
    (frames : List (Arr ℝ)) (w : Arr ℝ)
    (hfeas : feasible c.nDft (nBlocks frames.length c.nDft c.nOvlp) = .ok ()) (hk : 2 ≤ kept c frames.length)
    (svd : Svd (kept c frames.length)) (ax : Nat) (hone : size w.shape ≠ 1) :
    streamFit c ω frames.length svd none ax 1 (fun _ => ⟨frames, w⟩) = some (globalStream c ω frames w svd) := by
  have hok : nUpdates c ω frames.length = 0 ∨
      ∀ r < 1, shapesOk (size w.shape) (kept c frames.length) = true := by
    right
    intro r hr
    rw [shapesOk_iff _ _ hk]
    exact hone
  simp only [streamFit, hfeas, hm, if_pos hok, Option.some.injEq, globalStream, List.range_one, List.map_cons, List.map_nil, saveAll]

/-- **C97.** A streaming fit of an array does not depend on the number of ranks: for every accepted configuration that keeps
    at least two modes, every number of ranks none of which is left with a single value, and every order of the element
    writes, the parallel fit succeeds and leaves exactly the files of the serial fit. -/
theorem stream_fit_rank_independent (c : Cfg) (ω : ℂ) (frames : List (Arr ℝ)) (w : Arr ℝ)
    (hsh : ∀ a ∈ frames, a.shape = w.shape) (hw : w.shape ≠ [])
    (hmean : lower c.meanType = "longtime" ∨ lower c.meanType = "blockwise" ∨ lower c.meanType = "zero")
    (hfeas : feasible c.nDft (nBlocks frames.length c.nDft c.nOvlp) = .ok ())
    (hov : c.nOvlp ≤ (c.nDft : Int) - 1) (hsave : 2 ≤ c.nSave)
    (svd : Svd (kept c frames.length)) (p : Nat) (hp : 0 < p) (hone : NoSingleton w p) (hone1 : size w.shape ≠ 1)
    (s : (β : Type) → List (Write β) → List (Write β)) (hs : ∀ β l, (s β l).Perm l) :
    ∃ out, streamSerial c ω frames w svd = some out ∧ streamParallel c ω frames w svd p s = some out := by
  obtain ⟨m, hm⟩ := (mean_type_accepted c.meanType).2 hmean
  have hne : frames ≠ [] := by
    intro h
    have h1 := ((feasible_iff frames.length c.nDft c.nOvlp hov).1 hfeas).2
    rw [h] at h1
    have h2 := (feasible_nb c _ hfeas).2
    simp at h1
    omega
  have hk : 2 ≤ kept c frames.length := by
    have := (feasible_nb c _ hfeas).1
    unfold kept
    omega
  obtain ⟨ax, hax, hmax⟩ := maxAxis_ok [frames] w (by simpa using hsh) (by simpa using hne) hw
  refine ⟨globalStream c ω frames w svd, ?_, ?_⟩
  · simp only [streamSerial, hax, readRank_ok]
    simpa [distributeDimension] using stream_ser_global c m hm ω frames w hfeas hk svd ax hone1
  · simp only [streamParallel, hax]
    rw [mapM_some _ _ _ fun r _ => readRank_ok frames w ax (some (p, r))]
    simp only
    apply stream_par_global c m hm ω frames w hsh hfeas hk svd ax hmax.1 p hp _ s hs
    · intro r hr
      simp [List.getD_eq_getElem?_getD, List.getElem?_map, List.getElem?_range hr]
    · intro r hr
      rw [slab_shape w ax p r hp hr]
      exact hone ax hmax r hr

/-! ### C98: what the files of a streaming fit contain -/

/-- The `m`-th block at a grid point with time series `u`: the windowed Fourier sum of the segment starting at
    `streamStart … m`, minus the mean of everything read until its end, scaled by the window gain. -/
noncomputable def specBlock (c : Cfg) (ω : ℂ) (f m : Nat) (u : List ℝ) : ℂ :=
  let s := streamStart (Stream.nPar c.nDft (sep c)) (sep c) m
  ((winWeight c.win : ℝ) : ℂ) / (c.nDft : ℂ) * ∑ t ∈ Finset.range c.nDft,
    ((c.win.getD t 0 : ℝ) : ℂ) * Stream.dftMat ω c.isreal (nFreq c.nDft c.isreal c.full) f t *
      (((u.getD (s + t) 0 : ℝ) : ℂ) - (∑ i ∈ Finset.range (s + c.nDft), ((u.getD i 0 : ℝ) : ℂ)) / ((s + c.nDft : Nat) : ℂ))

theorem getD_map_complex (u : List ℝ) (i : Nat) : (u.map Complex.ofReal).getD i 0 = ((u.getD i 0 : ℝ) : ℂ) := by
  simp only [List.getD_eq_getElem?_getD, List.getElem?_map]
  cases u[i]? <;> simp

theorem blocksAt_out (c : Cfg) (ω : ℂ) (hn : 0 < c.nDft) (hd : 0 < sep c) (f : Nat) (u : List ℝ) :
    ∃ M, (∀ m, m < M ↔ streamStart (Stream.nPar c.nDft (sep c)) (sep c) m + c.nDft ≤ u.length) ∧
      (blocksAt c ω f u).out.map (·.2.2) = (List.range M).map fun (m : Nat) => specBlock c ω f m u := by
  obtain ⟨M, hM, ho⟩ := stream_exact hn hd (fun t => ((c.win.getD t 0 : ℝ) : ℂ))
    (Stream.dftMat ω c.isreal (nFreq c.nDft c.isreal c.full) f) ((winWeight c.win : ℝ) : ℂ) (u.map Complex.ofReal)
  refine ⟨M, by simpa using hM, ?_⟩
  unfold blocksAt
  rw [ho, List.map_map]
  apply List.map_congr_left
  intro m _
  simp only [Function.comp_apply, specBlock, getD_map_complex]

theorem nUpdates_spec (c : Cfg) (ω : ℂ) (hn : 0 < c.nDft) (hd : 0 < sep c) (nt m : Nat) :
    m < nUpdates c ω nt ↔ streamStart (Stream.nPar c.nDft (sep c)) (sep c) m + c.nDft ≤ nt := by
  obtain ⟨M, hM, ho⟩ := blocksAt_out c ω hn hd 0 (List.replicate nt 0)
  have : nUpdates c ω nt = M := by
    have := congrArg List.length ho
    simpa [nUpdates] using this
  rw [this, hM]
  simp

theorem newCol_spec (c : Cfg) (ω : ℂ) (hn : 0 < c.nDft) (hd : 0 < sep c) (f m : Nat) (wt : ℝ) (u : List ℝ)
    (hm : m < nUpdates c ω u.length) : newCol c ω f m wt u = specBlock c ω f m u * ((Real.sqrt wt : ℝ) : ℂ) := by
  obtain ⟨M, hM, ho⟩ := blocksAt_out c ω hn hd f u
  rw [nUpdates_spec c ω hn hd, ← hM] at hm
  unfold newCol
  congr 1
  have := congrArg (fun l => l[m]?) ho
  simp only [List.getElem?_map, List.getElem?_range hm, Option.map_some] at this
  rw [List.getD_eq_getElem?_getD]
  cases h : (blocksAt c ω f u).out[m]? with
  | none => rw [h] at this; simp at this
  | some a => rw [h] at this; simpa using this

/-- The weighted blocks as vectors over the grid points (and variables) in C order. -/
noncomputable def specVec (c : Cfg) (ω : ℂ) (frames : List (Arr ℝ)) (w : Arr ℝ) (f m : Nat) : Fin (size w.shape) → ℂ :=
  fun i => specBlock c ω f m (frames.map fun a => a.at' (unravel w.shape i)) *
    ((Real.sqrt (w.at' (unravel w.shape i)) : ℝ) : ℂ)

section
variable {k : Nat}

/-- rows of the basis on one process, in C order -/
noncomputable def basisMat (sh : List Nat) (U : List Nat → Fin k → ℂ) : Matrix (Fin (size sh)) (Fin k) ℂ :=
  Matrix.of fun i j => U (unravel sh i) j

theorem proj_one (sh : List Nat) (U : Nat → List Nat → Fin k → ℂ) (x : List Nat → ℂ) :
    projAll 1 (fun _ => sh) U (fun _ => x) = Stream.proj (basisMat sh (U 0)) fun i => x (unravel sh i) := by
  funext j
  simp only [projAll, List.range_one, List.map_cons, List.map_nil, allreduce, List.foldr_cons, List.foldr_nil, add_zero]
  rw [Finset.sum_range fun i => star (U 0 (unravel sh i) j) * x (unravel sh i)]
  rfl

theorem perp_one (sh : List Nat) (U : Nat → List Nat → Fin k → ℂ) (x : List Nat → ℂ) (i : Fin (size sh)) :
    perpAll U (fun _ => x) (projAll 1 (fun _ => sh) U fun _ => x) 0 (unravel sh i) =
      Stream.uPerp (basisMat sh (U 0)) (fun i => x (unravel sh i)) i := by
  rw [proj_one]
  rfl

theorem abs_one (sh : List Nat) (U : Nat → List Nat → Fin k → ℂ) (x : List Nat → ℂ) :
    absAll 1 (fun _ => sh) (perpAll U (fun _ => x) (projAll 1 (fun _ => sh) U fun _ => x)) =
      Stream.absUp (basisMat sh (U 0)) fun i => x (unravel sh i) := by
  simp only [absAll, List.range_one, List.map_cons, List.map_nil, allreduce, List.foldr_cons, List.foldr_nil, add_zero, Stream.absUp]
  congr 1
  rw [Finset.sum_range fun i => Complex.normSq (perpAll U (fun _ => x) (projAll 1 (fun _ => sh) U fun _ => x) 0 (unravel sh i))]
  exact Finset.sum_congr rfl fun i _ => by rw [perp_one]

/-- One update on one process is the update of `Stream.update`. -/
theorem update_one (sh : List Nat) (svd : Svd k) (b : Nat) (B : Basis k) (x : List Nat → ℂ) :
    let U := basisMat sh (B.U 0)
    let v := fun i : Fin (size sh) => x (unravel sh i)
    let r := svd (Stream.kMat U B.S v b)
    (updateAll svd 1 (fun _ => sh) b B fun _ => x).S = (Stream.update U v r.1 r.2).2 ∧
    basisMat sh ((updateAll svd 1 (fun _ => sh) b B fun _ => x).U 0) = (Stream.update U v r.1 r.2).1 := by
  intro U v r
  have hK : kOf B.S (projAll 1 (fun _ => sh) B.U fun _ => x)
      (absAll 1 (fun _ => sh) (perpAll B.U (fun _ => x) (projAll 1 (fun _ => sh) B.U fun _ => x))) b =
      Stream.kMat U B.S v b := by
    rw [abs_one, proj_one]
    rfl
  refine ⟨?_, ?_⟩
  · simp only [updateAll, hK, Stream.update]
    rfl
  · ext i j
    simp only [updateAll, hK]
    simp only [basisMat, Matrix.of_apply, Stream.update, Stream.uRot, Matrix.mul_apply, Fintype.sum_sum_type,
      Matrix.fromCols_apply_inl, Matrix.fromCols_apply_inr, Finset.univ_unique, Finset.sum_singleton, Stream.uNew,
      perp_one, abs_one]
    rfl

/-- The columns of the basis lie in the span of the blocks read so far. -/
theorem run_span {X : Type} [Fintype X] [DecidableEq X] {xs : List (X → ℂ)} {U : Matrix X (Fin k) ℂ} {S : Fin k → ℝ}
    (h : StreamRun k xs U S) (j : Fin k) : (fun i => U i j) ∈ Submodule.span ℂ {v | v ∈ xs} := by
  induction h generalizing j with
  | nil => exact Submodule.zero_mem _
  | @snoc xs U S x Up Sp hr ha hsvd ih =>
    have hmono : Submodule.span ℂ {v | v ∈ xs} ≤ Submodule.span ℂ {v | v ∈ xs ++ [x]} :=
      Submodule.span_mono fun v hv => List.mem_append_left _ hv
    have hU : ∀ l, (fun i => U i l) ∈ Submodule.span ℂ {v | v ∈ xs ++ [x]} := fun l => hmono (ih l)
    have hx : x ∈ Submodule.span ℂ {v | v ∈ xs ++ [x]} := Submodule.subset_span (by simp)
    have hp : Stream.uPerp U x ∈ Submodule.span ℂ {v | v ∈ xs ++ [x]} := by
      have : Stream.uPerp U x = x - ∑ l, Stream.proj U x l • fun i => U i l := by
        funext i
        simp [Stream.uPerp, Matrix.mulVec, dotProduct, mul_comm]
      rw [this]
      exact Submodule.sub_mem _ hx (Submodule.sum_mem _ fun l _ => Submodule.smul_mem _ _ (hU l))
    have : (fun i => (Stream.update U x Up Sp).1 i j) =
        (∑ l, Up (.inl l) (.inl j) • fun i => U i l) +
          (Up (.inr ()) (.inl j) / (Stream.absUp U x : ℂ)) • Stream.uPerp U x := by
      funext i
      simp [Stream.update, Stream.uRot, Matrix.mul_apply, Stream.uNew, mul_comm, mul_div_assoc, div_eq_mul_inv]
      ring
    rw [this]
    exact Submodule.add_mem _ (Submodule.sum_mem _ fun l _ => Submodule.smul_mem _ _ (hU l)) (Submodule.smul_mem _ _ hp)

/-- A block outside the span of the earlier ones has a new direction. -/
theorem absUp_ne_zero {X : Type} [Fintype X] [DecidableEq X] {xs : List (X → ℂ)} {U : Matrix X (Fin k) ℂ} {S : Fin k → ℝ}
    (h : StreamRun k xs U S) (x : X → ℂ) (hx : x ∉ Submodule.span ℂ {v | v ∈ xs}) : Stream.absUp U x ≠ 0 := by
  intro h0
  apply hx
  have hsum : ∑ i, Complex.normSq (Stream.uPerp U x i) = 0 := by
    have := (Real.sqrt_eq_zero (Finset.sum_nonneg fun i _ => Complex.normSq_nonneg _)).1 h0
    exact this
  have hz : ∀ i, Stream.uPerp U x i = 0 := fun i =>
    Complex.normSq_eq_zero.1 ((Finset.sum_eq_zero_iff_of_nonneg fun i _ => Complex.normSq_nonneg _).1 hsum i (Finset.mem_univ i))
  have : x = ∑ l, Stream.proj U x l • fun i => U i l := by
    funext i
    have := hz i
    simp only [Stream.uPerp, Pi.sub_apply, Matrix.mulVec, dotProduct, sub_eq_zero] at this
    rw [this]
    simp [mul_comm]
  rw [this]
  exact Submodule.sum_mem _ fun l _ => Submodule.smul_mem _ _ (run_span h l)

theorem basis_run (sh : List Nat) (svd : Svd k) (hsvd : ∀ K, Stream.IsSVD K (svd K).1 (svd K).2)
    (x : Nat → List Nat → ℂ) (M : Nat)
    (hx : ∀ m < M, (fun i : Fin (size sh) => x m (unravel sh i)) ∉
      Submodule.span ℂ {v | ∃ m' < m, v = fun i : Fin (size sh) => x m' (unravel sh i)}) :
    StreamRun k ((List.range M).map fun (m : Nat) => fun i : Fin (size sh) => x m (unravel sh i))
      (basisMat sh ((basisAfter svd 1 (fun _ => sh) (fun m _ => x m) M).U 0))
      (basisAfter svd 1 (fun _ => sh) (fun m _ => x m) M).S := by
  induction M with
  | zero => exact StreamRun.nil
  | succ M ih =>
    have ih := ih fun m hm => hx m (by omega)
    obtain ⟨h1, h2⟩ := update_one sh svd (M + 1) (basisAfter svd 1 (fun _ => sh) (fun m _ => x m) M) (x M)
    have e : basisAfter svd 1 (fun _ => sh) (fun m _ => x m) (M + 1) =
        updateAll svd 1 (fun _ => sh) (M + 1) (basisAfter svd 1 (fun _ => sh) (fun m _ => x m) M) (fun _ => x M) := by
      simp [basisAfter, List.range_succ]
    rw [e, h1, h2, List.range_succ, List.map_append, List.map_cons, List.map_nil]
    apply StreamRun.snoc ih
    · apply absUp_ne_zero ih
      have := hx M (by omega)
      convert this using 3
      ext v
      simp [eq_comm]
    · have := hsvd (Stream.kMat (basisMat sh ((basisAfter svd 1 (fun _ => sh) (fun m _ => x m) M).U 0))
        (basisAfter svd 1 (fun _ => sh) (fun m _ => x m) M).S (fun i => x M (unravel sh i)) (M + 1))
      simpa using this
end

/-- The array whose entry `[*idx, j]` is the mode `j` at grid index `idx`, from modes with rows in C order. -/
noncomputable def modeFile {k : Nat} (sh : List Nat) (Phi : Matrix (Fin (size sh)) (Fin k) ℂ) : Arr ℂ where
  shape := sh ++ [k]
  at' := fun idx =>
    if h : ravel sh idx.dropLast < size sh ∧ idx.getLastD 0 < k then Phi ⟨_, h.1⟩ ⟨_, h.2⟩ else 0

/-- **C98.** What a streaming fit of an array leaves (on one process, and by C97 on any number of ranks), for every SVD
    routine that meets its contract, at every frequency whose blocks are linearly independent and for positive weights:
    the number of blocks `M` is exactly that of the segments that fit; the stored modes `Φ` satisfy `Φᴴ W Φ = 1` on the
    modes with non-zero stored value and vanish elsewhere; and if no more blocks were read than modes are kept,
    `Φ diag(S²) Φᴴ = 1/(M+2) Σ_b (b+2)/(b+3) q_b q_bᴴ`, `q_b` being the Fourier transforms of the blocks. -/
theorem stream_fit_formula (c : Cfg) (ω : ℂ) (frames : List (Arr ℝ)) (w : Arr ℝ)
    (hsh : ∀ a ∈ frames, a.shape = w.shape) (hw : w.shape ≠ [])
    (hmean : lower c.meanType = "longtime" ∨ lower c.meanType = "blockwise" ∨ lower c.meanType = "zero")
    (hfeas : feasible c.nDft (nBlocks frames.length c.nDft c.nOvlp) = .ok ())
    (hov : c.nOvlp ≤ (c.nDft : Int) - 1) (hsave : 2 ≤ c.nSave)
    (svd : Svd (kept c frames.length)) (hsvd : ∀ K, Stream.IsSVD K (svd K).1 (svd K).2) (hone1 : size w.shape ≠ 1)
    (hpos : ∀ idx, InRange w.shape idx → 0 < w.at' idx) :
    ∃ out M, streamSerial c ω frames w svd = some out ∧
      (∀ m, m < M ↔ streamStart (Stream.nPar c.nDft (sep c)) (sep c) m + c.nDft ≤ frames.length) ∧
      ∀ f, (∀ m < M, specVec c ω frames w f m ∉ Submodule.span ℂ {v | ∃ m' < m, v = specVec c ω frames w f m'}) →
        ∃ Phi : Matrix (Fin (size w.shape)) (Fin (kept c frames.length)) ℂ,
          out.modes f = npSave (modeFile w.shape Phi) ∧
          Phiᴴ * Matrix.diagonal (fun i : Fin (size w.shape) => ((w.at' (unravel w.shape i) : ℝ) : ℂ)) * Phi =
            Matrix.diagonal (fun j => if out.eigs f j = 0 then 0 else 1) ∧
          (M ≤ kept c frames.length →
            Phi * Matrix.diagonal (fun j => ((out.eigs f j : ℝ) : ℂ) ^ 2) * Phiᴴ = (1 / ((M : ℂ) + 2)) •
              ∑ b ∈ Finset.range M, (((b : ℂ) + 2) / ((b : ℂ) + 3)) •
                outerProd fun i : Fin (size w.shape) => specBlock c ω f b (frames.map fun a => a.at' (unravel w.shape i))) := by
  obtain ⟨m0, hm0⟩ := (mean_type_accepted c.meanType).2 hmean
  have hnd : 0 < c.nDft := (feasible_nb c _ hfeas).2
  have hd : 0 < sep c := by unfold sep; omega
  have hne : frames ≠ [] := by
    intro h
    have h1 := ((feasible_iff frames.length c.nDft c.nOvlp hov).1 hfeas).2
    rw [h] at h1
    simp at h1
    omega
  have hk : 2 ≤ kept c frames.length := by
    have := (feasible_nb c _ hfeas).1
    unfold kept
    omega
  obtain ⟨ax, hax, hmax⟩ := maxAxis_ok [frames] w (by simpa using hsh) (by simpa using hne) hw
  refine ⟨globalStream c ω frames w svd, nUpdates c ω frames.length, ?_, nUpdates_spec c ω hnd hd frames.length, ?_⟩
  · simp only [streamSerial, hax, readRank_ok]
    simpa [distributeDimension] using stream_ser_global c m0 hm0 ω frames w hfeas hk svd ax hone1
  intro f hind
  set M := nUpdates c ω frames.length with hM
  have hcol : ∀ m < M, (fun i : Fin (size w.shape) => newCol c ω f m (w.at' (unravel w.shape i))
      (atIdx (unravel w.shape i) frames)) = specVec c ω frames w f m := by
    intro m hm
    funext i
    rw [newCol_spec c ω hnd hd f m _ _ (by simpa [atIdx] using hm)]
    rfl
  have hrun := basis_run w.shape svd hsvd (fun m idx => newCol c ω f m (w.at' idx) (atIdx idx frames)) M (by
    intro m hm
    rw [hcol m hm]
    have := hind m hm
    convert this using 3
    ext v
    constructor
    · rintro ⟨m', h, rfl⟩; exact ⟨m', h, hcol m' (by omega)⟩
    · rintro ⟨m', h, rfl⟩; exact ⟨m', h, (hcol m' (by omega)).symm⟩)
  have hxs : ((List.range M).map fun (m : Nat) => fun i : Fin (size w.shape) => newCol c ω f m (w.at' (unravel w.shape i))
      (atIdx (unravel w.shape i) frames)) = (List.range M).map (specVec c ω frames w f) := by
    apply List.map_congr_left
    intro m hm
    exact hcol m (List.mem_range.1 hm)
  rw [hxs] at hrun
  set U := basisMat w.shape ((basisAfter svd 1 (fun _ => w.shape)
    (fun m _ idx => newCol c ω f m (w.at' idx) (atIdx idx frames)) M).U 0) with hU
  set D : Matrix (Fin (size w.shape)) (Fin (size w.shape)) ℂ :=
    Matrix.diagonal fun i => (1 / ((Real.sqrt (w.at' (unravel w.shape i)) : ℝ) : ℂ)) with hD
  have hwpos : ∀ i : Fin (size w.shape), 0 < w.at' (unravel w.shape i) := fun i => hpos _ (inRange_unravel i.2)
  have hDh : Dᴴ = D := by
    rw [hD, Matrix.diagonal_conjTranspose]
    congr 1
    funext i
    simp
  have hsq : ∀ i : Fin (size w.shape), ((Real.sqrt (w.at' (unravel w.shape i)) : ℝ) : ℂ) ≠ 0 := fun i => by
    exact_mod_cast (Real.sqrt_pos.2 (hwpos i)).ne'
  have heig : (globalStream c ω frames w svd).eigs f = (basisAfter svd 1 (fun _ => w.shape)
    (fun m _ idx => newCol c ω f m (w.at' idx) (atIdx idx frames)) M).S := rfl
  refine ⟨D * U, ?_, ?_, ?_⟩
  · apply npSave_congr
    refine ⟨rfl, fun idx hidx => ?_⟩
    obtain ⟨x, j, rfl, hx, hj⟩ := inRange_append hidx
    have hr := ravel_lt hx
    simp only [modesOf, modeFile, List.getLastD_concat, List.dropLast_concat, hj, hr, and_self, ↓reduceDIte, hD,
      Matrix.diagonal_mul, hU, basisMat, Matrix.of_apply, unravel_ravel hx]
    rw [mul_comm]
  · rw [heig, ← stream_orthonormal hrun, Matrix.conjTranspose_mul, hDh]
    have : D * Matrix.diagonal (fun i : Fin (size w.shape) => ((w.at' (unravel w.shape i) : ℝ) : ℂ)) * D = 1 := by
      rw [hD, Matrix.diagonal_mul_diagonal, Matrix.diagonal_mul_diagonal, ← Matrix.diagonal_one]
      congr 1
      funext i
      have e : ((w.at' (unravel w.shape i) : ℝ) : ℂ) = ((Real.sqrt (w.at' (unravel w.shape i)) : ℝ) : ℂ) ^ 2 := by
        rw [← Complex.ofReal_pow, Real.sq_sqrt (hwpos i).le]
      have := hsq i
      rw [e]
      field_simp
    rw [show Uᴴ * D * Matrix.diagonal (fun i : Fin (size w.shape) => ((w.at' (unravel w.shape i) : ℝ) : ℂ)) * (D * U) =
      Uᴴ * (D * Matrix.diagonal (fun i : Fin (size w.shape) => ((w.at' (unravel w.shape i) : ℝ) : ℂ)) * D) * U by
        simp only [Matrix.mul_assoc], this, Matrix.mul_one]
  · intro hMk
    have hc := stream_closed_form hrun (by simpa using hMk)
    rw [heig, Matrix.conjTranspose_mul, hDh]
    rw [show D * U * Matrix.diagonal (fun j => (((basisAfter svd 1 (fun _ => w.shape)
      (fun m _ idx => newCol c ω f m (w.at' idx) (atIdx idx frames)) M).S j : ℝ) : ℂ) ^ 2) * (Uᴴ * D) =
      D * (density U (basisAfter svd 1 (fun _ => w.shape)
        (fun m _ idx => newCol c ω f m (w.at' idx) (atIdx idx frames)) M).S) * D by
        simp only [density, Matrix.mul_assoc], hc]
    simp only [List.length_map, List.length_range]
    rw [Matrix.mul_smul, Matrix.smul_mul, Matrix.mul_sum, Matrix.sum_mul]
    congr 1
    apply Finset.sum_congr rfl
    intro b hb
    have hb := Finset.mem_range.1 hb
    rw [Matrix.mul_smul, Matrix.smul_mul]
    congr 1
    have e : ((List.range M).map (specVec c ω frames w f)).getD b 0 = specVec c ω frames w f b := by
      simp [List.getD_eq_getElem?_getD, List.getElem?_range hb]
    rw [e]
    ext i j
    have hi := hsq i
    have hj := hsq j
    rw [hD, Matrix.mul_diagonal, Matrix.diagonal_mul]
    simp only [outerProd, Matrix.of_apply, specVec, star_mul', RCLike.star_def, Complex.conj_ofReal]
    field_simp

/-- **C98**, the rest of what is stored: mode `b` is kept exactly if `b` is below the requested number and block `b` of
    the batch decomposition (start `b (n_dft - n_ovlp)`) fits into the data; the weights are stored as given; and the
    stored mean is the first snapshot divided by the number of snapshots (which is not the mean: C69). -/
theorem stream_fit_rest (c : Cfg) (ω : ℂ) (frames : List (Arr ℝ)) (w : Arr ℝ)
    (hsh : ∀ a ∈ frames, a.shape = w.shape) (hw : w.shape ≠ [])
    (hfeas : feasible c.nDft (nBlocks frames.length c.nDft c.nOvlp) = .ok ())
    (hov : c.nOvlp ≤ (c.nDft : Int) - 1) (hsave : 2 ≤ c.nSave)
    (svd : Svd (kept c frames.length)) (hone1 : size w.shape ≠ 1) (out : SOut (kept c frames.length))
    (hout : streamSerial c ω frames w svd = some out) :
    (∀ b : Nat, b < kept c frames.length ↔ b < c.nSave ∧ (b : Int) * (c.nDft - c.nOvlp) + c.nDft ≤ frames.length) ∧
    out.weights = npSave w ∧
    ∃ a0 tl, frames = a0 :: tl ∧ out.ltm = npSave ⟨w.shape, fun idx => a0.at' idx / frames.length⟩ := by
  have hb : ∀ n : Int, n ≤ nBlocks frames.length c.nDft c.nOvlp ↔
      (n - 1) * ((c.nDft : Int) - c.nOvlp) + c.nDft ≤ frames.length := fun n => blocks_number _ _ _ (by omega) n
  have hnd : 0 < c.nDft := (feasible_nb c _ hfeas).2
  have hnb2 : 2 ≤ fitNb c frames.length := (feasible_nb c _ hfeas).1
  have hk : 2 ≤ kept c frames.length := by unfold kept; omega
  have hne : frames ≠ [] := by
    intro h
    have h1 := ((feasible_iff frames.length c.nDft c.nOvlp hov).1 hfeas).2
    rw [h] at h1
    simp at h1
    omega
  have hm : ∃ m0, parseMean c.meanType = .ok m0 := by
    by_contra hcon
    have : streamSerial c ω frames w svd = none := by
      unfold streamSerial
      split
      · rfl
      · split
        · rfl
        · unfold streamFit
          split
          · rename_i _ h
            exact absurd ⟨_, h⟩ hcon
          · rfl
    rw [this] at hout
    cases hout
  obtain ⟨m0, hm0⟩ := hm
  obtain ⟨ax, hax, hmax⟩ := maxAxis_ok [frames] w (by simpa using hsh) (by simpa using hne) hw
  have hg : streamSerial c ω frames w svd = some (globalStream c ω frames w svd) := by
    simp only [streamSerial, hax, readRank_ok]
    simpa [distributeDimension] using stream_ser_global c m0 hm0 ω frames w hfeas hk svd ax hone1
  rw [hg] at hout
  cases hout
  refine ⟨fun b => ?_, rfl, ?_⟩
  · have h1 := hb (b + 1)
    rw [show ((b : Int) + 1 - 1) = b by ring] at h1
    rw [← h1]
    unfold kept fitNb
    omega
  · obtain ⟨a0, tl, rfl⟩ := List.exists_cons_of_ne_nil hne
    refine ⟨a0, tl, rfl, ?_⟩
    have hle : fitNb c (a0 :: tl).length ≤ (a0 :: tl).length := by
      have h1 := (hb (fitNb c (a0 :: tl).length)).1 (by unfold fitNb at hnb2 ⊢; omega)
      have h2 : ((fitNb c (a0 :: tl).length : Int) - 1) * 1 ≤ ((fitNb c (a0 :: tl).length : Int) - 1) * ((c.nDft : Int) - c.nOvlp) :=
        mul_le_mul_of_nonneg_left (by omega) (by omega)
      omega
    have : ∀ x : ℝ, Stream.longTMeanNt ℝ (a0 :: tl).length (fitNb c (a0 :: tl).length) [x] = x / (a0 :: tl).length := fun x => by
      rw [stream_ltm_fails x _ _ (by omega) hle, smul_eq_mul, div_eq_mul_inv, mul_comm]
    simp only [globalStream, List.take_succ_cons, List.take_zero, atIdx, List.map_cons, List.map_nil, this]

/-! #### The hypotheses are met by a concrete fit -/

/-- 6 snapshots of 2 points of one variable -/
def sexFrames : List (Arr ℝ) :=
  (List.range 6).map fun (t : Nat) => ⟨[2, 1], fun i => if i = [0, 0] then (if t = 1 then 1 else 0) else if t = 4 then 1 else 0⟩

def sexCfg : Cfg := ⟨4, 2, "longtime", false, 0, false, true, [1, 2, 2, 1], 2⟩

def sexWeights : Arr ℝ := ⟨[2, 1], fun i => (i.getD 0 0 + 1 : ℕ)⟩

theorem sex_block (ω : ℂ) : specVec sexCfg ω sexFrames sexWeights 0 0 ⟨0, by decide⟩ ≠ 0 ∧
    specVec sexCfg ω sexFrames sexWeights 0 0 ⟨1, by decide⟩ = 0 ∧
    specVec sexCfg ω sexFrames sexWeights 0 1 ⟨1, by decide⟩ ≠ 0 := by
  have h0 : streamStart (Stream.nPar sexCfg.nDft (sep sexCfg)) (sep sexCfg) 0 = 0 := by decide
  have h1 : streamStart (Stream.nPar sexCfg.nDft (sep sexCfg)) (sep sexCfg) 1 = 2 := by decide
  have hs : (Real.sqrt 2 : ℂ) ≠ 0 := by
    exact_mod_cast (Real.sqrt_pos.2 (by norm_num : (0 : ℝ) < 2)).ne'
  have ew : ((winWeight sexCfg.win : ℝ) : ℂ) = 2 / 3 := by
    simp [winWeight, sexCfg]
    norm_num
  refine ⟨?_, ?_, ?_⟩ <;>
    simp only [specVec, specBlock, h0, h1, ew] <;>
    simp [sexCfg, sexFrames, sexWeights, Finset.sum_range_succ, unravel, size, Stream.dftMat, List.range_succ] <;>
    norm_num [hs]

example (s : (β : Type) → List (Write β) → List (Write β)) (hs : ∀ β l, (s β l).Perm l) (ω : ℂ) :
    ∃ svd, ∃ out, ∃ Phi : Matrix (Fin (size [2, 1])) (Fin (kept sexCfg sexFrames.length)) ℂ, streamParallel sexCfg ω sexFrames sexWeights svd 1 s = some out ∧
      out.modes 0 = npSave (modeFile [2, 1] Phi) ∧
      Phi * Matrix.diagonal (fun j => ((out.eigs 0 j : ℝ) : ℂ) ^ 2) * Phiᴴ = (1 / (((2 : ℕ) : ℂ) + 2)) •
        ∑ b ∈ Finset.range 2, (((b : ℂ) + 2) / ((b : ℂ) + 3)) •
          outerProd fun i : Fin (size [2, 1]) => specBlock sexCfg ω 0 b (sexFrames.map fun a => a.at' (unravel [2, 1] i)) := by
  have hlen : sexFrames.length = 6 := by simp [sexFrames]
  choose g1 g2 hg using fun K : Matrix (Fin (kept sexCfg sexFrames.length) ⊕ Unit) (Fin (kept sexCfg sexFrames.length) ⊕ Unit) ℂ =>
    svd_exists K
  have hsh : ∀ a ∈ sexFrames, a.shape = sexWeights.shape := by
    intro a ha
    simp only [sexFrames, List.mem_map] at ha
    obtain ⟨t, -, rfl⟩ := ha
    rfl
  have hfeas : feasible sexCfg.nDft (nBlocks sexFrames.length sexCfg.nDft sexCfg.nOvlp) = .ok () := by rw [hlen]; decide
  obtain ⟨out, M, h1, hM, hf⟩ := stream_fit_formula sexCfg ω sexFrames sexWeights hsh (by simp [sexWeights]) (by decide) hfeas
    (by decide) (by decide) (fun K => (g1 K, g2 K)) hg (by decide) (fun idx _ => by simp only [sexWeights]; positivity)
  have hM2 : M = 2 := by
    have a0 := hM 0
    have a1 := hM 1
    have a2 := hM 2
    rw [hlen] at a0 a1 a2
    have e1 : streamStart (Stream.nPar sexCfg.nDft (sep sexCfg)) (sep sexCfg) 1 + sexCfg.nDft = 6 := by decide
    have e2 : streamStart (Stream.nPar sexCfg.nDft (sep sexCfg)) (sep sexCfg) 2 + sexCfg.nDft = 9 := by decide
    omega
  subst hM2
  obtain ⟨b1, b2, b3⟩ := sex_block ω
  obtain ⟨Phi, h2, -, h4⟩ := hf 0 (by
    intro m hm hin
    have hm : m = 0 ∨ m = 1 := by omega
    rcases hm with rfl | rfl
    · simp at hin
      exact b1 (congrFun hin _)
    · have hz : ∀ v ∈ Submodule.span ℂ {v | ∃ m' < 1, v = specVec sexCfg ω sexFrames sexWeights 0 m'}, v ⟨1, by decide⟩ = 0 := by
        intro v hv
        induction hv using Submodule.span_induction with
        | mem v h =>
          obtain ⟨m', hm', rfl⟩ := h
          have : m' = 0 := by omega
          subst this
          exact b2
        | zero => rfl
        | add x y _ _ hx hy => simp [hx, hy]
        | smul a x _ hx => simp [hx]
      exact b3 (hz _ hin))
  obtain ⟨out', h5, h6⟩ := stream_fit_rank_independent sexCfg ω sexFrames sexWeights hsh (by simp [sexWeights]) (by decide) hfeas
    (by decide) (by decide) (fun K => (g1 K, g2 K)) 1 (by decide) (by
      intro ax hax r hr
      have : ax = 0 := by
        have h := hax.1
        have h0 := hax.2.1 0 (by simp [sexWeights])
        simp only [sexWeights, List.length_cons, List.length_nil] at h
        have : ax = 0 ∨ ax = 1 := by omega
        rcases this with rfl | rfl
        · rfl
        · revert h0; simp [sexWeights]
      subst this
      have : r = 0 := by omega
      subst this
      decide) (by decide) s hs
  rw [h1] at h5
  simp only [Option.some.injEq] at h5
  subst h5
  exact ⟨_, out, Phi, h6, h2, h4 (by rw [hlen]; decide)⟩

end Verif.Props
