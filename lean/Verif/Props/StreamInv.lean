import Verif.Props.StreamFit
import Verif.Props.SvdFree
import Verif.Props.Influence
/-
  C182: a steady field added to the data does not change a streaming fit.
  C183: grid points of weight zero have no influence on a streaming fit.
-/
namespace Verif.Props
open Verif Verif.Par Verif.Rd Verif.Spod Verif.Fit Verif.SFit Matrix

/-! ### The basis depends on the blocks at the grid points only -/

theorem update_agree {k : Nat} (svd : Svd k) (sh : List Nat) (b : Nat) (B B' : Basis k) (x x' : List Nat → ℂ) (hS : B.S = B'.S)
    (hU : ∀ i, InRange sh i → B.U 0 i = B'.U 0 i) (hx : ∀ i, InRange sh i → x i = x' i) :
    (updateAll svd 1 (fun _ => sh) b B fun _ => x).S = (updateAll svd 1 (fun _ => sh) b B' fun _ => x').S ∧
    ∀ i, InRange sh i → (updateAll svd 1 (fun _ => sh) b B fun _ => x).U 0 i = (updateAll svd 1 (fun _ => sh) b B' fun _ => x').U 0 i := by
  have hproj : projAll 1 (fun _ => sh) B.U (fun _ => x) = projAll 1 (fun _ => sh) B'.U fun _ => x' := by
    funext j
    simp only [projAll, List.range_one, List.map_cons, List.map_nil]
    congr 2
    apply Finset.sum_congr rfl
    intro i hi
    have hi := inRange_unravel (Finset.mem_range.1 hi)
    rw [hU _ hi, hx _ hi]
  have hperp : ∀ i, InRange sh i → perpAll B.U (fun _ => x) (projAll 1 (fun _ => sh) B'.U fun _ => x') 0 i =
      perpAll B'.U (fun _ => x') (projAll 1 (fun _ => sh) B'.U fun _ => x') 0 i := by
    intro i hi
    simp only [perpAll]
    rw [hU i hi, hx i hi]
  have habs : absAll 1 (fun _ => sh) (perpAll B.U (fun _ => x) (projAll 1 (fun _ => sh) B'.U fun _ => x')) =
      absAll 1 (fun _ => sh) (perpAll B'.U (fun _ => x') (projAll 1 (fun _ => sh) B'.U fun _ => x')) := by
    simp only [absAll, List.range_one, List.map_cons, List.map_nil]
    congr 3
    apply Finset.sum_congr rfl
    intro i hi
    rw [hperp _ (inRange_unravel (Finset.mem_range.1 hi))]
  constructor
  · simp only [updateAll, hproj, habs, hS]
  · intro i hi
    simp only [updateAll, hproj, habs, hS]
    funext j
    rw [hU i hi, hperp i hi]

theorem basisAfter_succ {k : Nat} (svd : Svd k) (p : Nat) (sh : Nat → List Nat) (x : Nat → Nat → List Nat → ℂ) (M : Nat) :
    basisAfter svd p sh x (M + 1) = updateAll svd p sh (M + 1) (basisAfter svd p sh x M) (x M) := by
  simp [basisAfter, List.range_succ]

theorem basis_agree {k : Nat} (svd : Svd k) (sh : List Nat) (x x' : Nat → List Nat → ℂ) (M : Nat)
    (hx : ∀ m < M, ∀ i, InRange sh i → x m i = x' m i) :
    (basisAfter svd 1 (fun _ => sh) (fun m _ => x m) M).S = (basisAfter svd 1 (fun _ => sh) (fun m _ => x' m) M).S ∧
    ∀ i, InRange sh i → (basisAfter svd 1 (fun _ => sh) (fun m _ => x m) M).U 0 i =
      (basisAfter svd 1 (fun _ => sh) (fun m _ => x' m) M).U 0 i := by
  induction M with
  | zero => simp [basisAfter]
  | succ M ih =>
    have ih := ih fun m hm => hx m (by omega)
    simp only [basisAfter_succ]
    exact update_agree svd sh (M + 1) _ _ (x M) (x' M) ih.1 ih.2 (hx M (by omega))

/-! ### Two records with the same blocks -/

/-- A record, weights and options that `Streaming.fit` accepts, with at least two modes to keep and more than one number per snapshot. -/
structure StreamAccepted (c : Cfg) (frames : List (Arr ℝ)) (w : Arr ℝ) : Prop where
  shapes : ∀ a ∈ frames, a.shape = w.shape
  space : w.shape ≠ []
  mean : lower c.meanType = "longtime" ∨ lower c.meanType = "blockwise" ∨ lower c.meanType = "zero"
  blocks : feasible c.nDft (nBlocks frames.length c.nDft c.nOvlp) = .ok ()
  overlap : c.nOvlp ≤ (c.nDft : Int) - 1
  save : 2 ≤ c.nSave
  points : size w.shape ≠ 1

theorem StreamAccepted.kept {c frames w} (h : StreamAccepted c frames w) : 2 ≤ SFit.kept c frames.length := by
  have := (feasible_nb c _ h.blocks).1
  have := h.save
  unfold SFit.kept
  omega

theorem StreamAccepted.dft {c frames w} (h : StreamAccepted c frames w) : 0 < c.nDft := (feasible_nb c _ h.blocks).2

theorem StreamAccepted.sep {c frames w} (h : StreamAccepted c frames w) : 0 < SFit.sep c := by
  have := h.overlap
  unfold SFit.sep
  omega

theorem StreamAccepted.ne {c frames w} (h : StreamAccepted c frames w) : frames ≠ [] := by
  intro h0
  have h1 := ((feasible_iff frames.length c.nDft c.nOvlp h.overlap).1 h.blocks).2
  have := h.dft
  have := h.overlap
  rw [h0] at h1
  simp at h1
  omega

/-- what the serial fit and the fits on every number of ranks leave -/
theorem StreamAccepted.runs {c frames w} (h : StreamAccepted c frames w) (ω : ℂ) (svd : Svd (SFit.kept c frames.length)) :
    streamSerial c ω frames w svd = some (globalStream c ω frames w svd) ∧
    ∀ p, 0 < p → NoSingleton w p → ∀ s : (β : Type) → List (Write β) → List (Write β), (∀ β l, (s β l).Perm l) →
      streamParallel c ω frames w svd p s = some (globalStream c ω frames w svd) := by
  obtain ⟨m, hm⟩ := (mean_type_accepted c.meanType).2 h.mean
  obtain ⟨ax, hax, hmax⟩ := maxAxis_ok [frames] w (by simpa using h.shapes) (by simpa using h.ne) h.space
  have hser : streamSerial c ω frames w svd = some (globalStream c ω frames w svd) := by
    simp only [streamSerial, hax, readRank_ok]
    simpa [distributeDimension] using stream_ser_global c m hm ω frames w h.blocks h.kept svd ax h.points
  refine ⟨hser, fun p hp hone s hs => ?_⟩
  obtain ⟨out, h1, h2⟩ := stream_fit_rank_independent c ω frames w h.shapes h.space h.mean h.blocks h.overlap h.save svd p hp hone h.points s hs
  rw [h2, ← h1, hser]

theorem StreamAccepted.of_length {c frames frames' w} (h : StreamAccepted c frames w) (hl : frames'.length = frames.length)
    (hs : ∀ a ∈ frames', a.shape = w.shape) : StreamAccepted c frames' w :=
  ⟨hs, h.space, h.mean, by rw [hl]; exact h.blocks, h.overlap, h.save, h.points⟩

theorem agree_modes {k : Nat} (w : Arr ℝ) (U U' : List Nat → Fin k → ℂ) (h : ∀ i, InRange w.shape i → U' i = U i) :
    npSave (modesOf w U') = npSave (modesOf w U) := by
  apply npSave_congr
  refine ⟨rfl, fun idx hidx => ?_⟩
  obtain ⟨i, j, rfl, hi, hj⟩ := inRange_append hidx
  simp only [modesOf, List.getLastD_concat, List.dropLast_concat, hj, ↓reduceDIte]
  rw [h i hi]

/-- the basis of the whole grid after all updates -/
noncomputable def lastBasis (c : Cfg) (ω : ℂ) (n f : Nat) (frames : List (Arr ℝ)) (w : Arr ℝ) (svd : Svd (kept c n)) : Basis (kept c n) :=
  basisAfter svd 1 (fun _ => w.shape) (fun m _ idx => newCol c ω f m (w.at' idx) (atIdx idx frames)) (nUpdates c ω n)

theorem agree_results (c : Cfg) (ω : ℂ) (frames frames' : List (Arr ℝ)) (w : Arr ℝ) (f n n' : Nat) (hn : n' = n) (svd : ∀ k, Svd k)
    (hx : ∀ m < nUpdates c ω n, ∀ idx, InRange w.shape idx →
      newCol c ω f m (w.at' idx) (atIdx idx frames') = newCol c ω f m (w.at' idx) (atIdx idx frames)) :
    (∀ j hj hj', (lastBasis c ω n' f frames' w (svd _)).S ⟨j, hj'⟩ = (lastBasis c ω n f frames w (svd _)).S ⟨j, hj⟩) ∧
    npSave (modesOf w ((lastBasis c ω n' f frames' w (svd _)).U 0)) = npSave (modesOf w ((lastBasis c ω n f frames w (svd _)).U 0)) := by
  subst hn
  have h := basis_agree (svd (kept c n')) w.shape (fun m idx => newCol c ω f m (w.at' idx) (atIdx idx frames'))
    (fun m idx => newCol c ω f m (w.at' idx) (atIdx idx frames)) (nUpdates c ω n') hx
  exact ⟨fun j hj _ => congrFun h.1 ⟨j, hj⟩, agree_modes w _ _ h.2⟩

/-- Two results of streaming fits hold the same eigenvalues and modes. -/
def SameSpod {k k' : Nat} (out : SOut k) (out' : SOut k') : Prop :=
  k' = k ∧ ∀ f, (∀ j (hj : j < k) (hj' : j < k'), out'.eigs f ⟨j, hj'⟩ = out.eigs f ⟨j, hj⟩) ∧ out'.modes f = out.modes f

theorem same_blocks (c : Cfg) (ω : ℂ) (frames frames' : List (Arr ℝ)) (w : Arr ℝ) (hl : frames'.length = frames.length) (svd : ∀ k, Svd k)
    (hx : ∀ f, ∀ m < nUpdates c ω frames.length, ∀ idx, InRange w.shape idx →
      newCol c ω f m (w.at' idx) (atIdx idx frames') = newCol c ω f m (w.at' idx) (atIdx idx frames)) :
    SameSpod (globalStream c ω frames w (svd _)) (globalStream c ω frames' w (svd _)) :=
  ⟨by rw [hl], fun f => agree_results c ω frames frames' w f _ _ hl svd (hx f)⟩

/-! ### C182: a steady field -/

/-- the record `frames` with the field `g` added to every snapshot -/
def addSteady (g : List Nat → ℝ) (frames : List (Arr ℝ)) : List (Arr ℝ) :=
  frames.map fun a => ⟨a.shape, fun i => a.at' i + g i⟩

theorem specBlock_shift (c : Cfg) (ω : ℂ) (f m : Nat) (u : List ℝ) (g : ℝ)
    (hm : streamStart (Stream.nPar c.nDft (sep c)) (sep c) m + c.nDft ≤ u.length) (hn : 0 < c.nDft) :
    specBlock c ω f m (u.map (· + g)) = specBlock c ω f m u := by
  unfold specBlock
  simp only
  set s := streamStart (Stream.nPar c.nDft (sep c)) (sep c) m with hs
  have hg : ∀ i < s + c.nDft, (((u.map (· + g)).getD i 0 : ℝ) : ℂ) = ((u.getD i 0 : ℝ) : ℂ) + (g : ℂ) := by
    intro i hi
    have hi' : i < u.length := by omega
    simp [List.getD_eq_getElem?_getD, List.getElem?_eq_getElem hi']
  congr 1
  apply Finset.sum_congr rfl
  intro t ht
  have ht := Finset.mem_range.1 ht
  rw [hg (s + t) (by omega), Finset.sum_congr rfl fun i hi => hg i (Finset.mem_range.1 hi), Finset.sum_add_distrib]
  have hne : ((s + c.nDft : Nat) : ℂ) ≠ 0 := by exact_mod_cast (by omega : s + c.nDft ≠ 0)
  simp only [Finset.sum_const, Finset.card_range, nsmul_eq_mul]
  rw [add_div, mul_div_cancel_left₀ _ hne]
  ring

/-- **C182.** A field that does not depend on time, added to every snapshot, changes neither the eigenvalues nor the modes of a streaming fit: for every
    accepted record, every option, every routine `svd`, serially and on every number of ranks (none of which is left with a single number), in every order
    of the element writes. -/
theorem stream_steady (c : Cfg) (ω : ℂ) (frames : List (Arr ℝ)) (w : Arr ℝ) (h : StreamAccepted c frames w) (g : List Nat → ℝ) (svd : ∀ k, Svd k) :
    ∃ out out', streamSerial c ω frames w (svd _) = some out ∧ streamSerial c ω (addSteady g frames) w (svd _) = some out' ∧ SameSpod out out' ∧
      ∀ p, 0 < p → NoSingleton w p → ∀ s : (β : Type) → List (Write β) → List (Write β), (∀ β l, (s β l).Perm l) →
        streamParallel c ω frames w (svd _) p s = some out ∧ streamParallel c ω (addSteady g frames) w (svd _) p s = some out' := by
  have hl : (addSteady g frames).length = frames.length := by simp [addSteady]
  have h' : StreamAccepted c (addSteady g frames) w := h.of_length hl (by
    intro a ha
    obtain ⟨b, hb, rfl⟩ := List.mem_map.1 ha
    exact h.shapes b hb)
  have r := h.runs ω (svd _)
  have r' := h'.runs ω (svd _)
  refine ⟨_, _, r.1, r'.1, ?_, fun p hp ho s hs => ⟨r.2 p hp ho s hs, r'.2 p hp ho s hs⟩⟩
  apply same_blocks c ω frames _ w hl svd
  intro f m hm idx _
  rw [newCol_spec c ω h.dft h.sep f m _ _ (by simpa [atIdx, hl] using hm), newCol_spec c ω h.dft h.sep f m _ _ (by simpa [atIdx] using hm)]
  congr 1
  have e : atIdx idx (addSteady g frames) = (atIdx idx frames).map (· + g idx) := by simp [atIdx, addSteady]
  rw [e]
  exact specBlock_shift c ω f m _ _ (by
    have := (nUpdates_spec c ω h.dft h.sep frames.length m).1 hm
    simpa [atIdx] using this) h.dft

/-- The stored mean does follow the steady field (it is the first snapshot over the number of snapshots, C69): the record of the example is not mapped to
    the same `ltm_modes.npy`. -/
theorem stream_steady_ltm (c : Cfg) (ω : ℂ) (frames : List (Arr ℝ)) (w : Arr ℝ) (h : StreamAccepted c frames w) (g : List Nat → ℝ) (svd : ∀ k, Svd k)
    (out' : SOut _) (ho' : streamSerial c ω (addSteady g frames) w (svd _) = some out') :
    ∃ a0 tl, frames = a0 :: tl ∧ out'.ltm = npSave ⟨w.shape, fun idx => (a0.at' idx + g idx) / frames.length⟩ := by
  have hl : (addSteady g frames).length = frames.length := by simp [addSteady]
  have h' : StreamAccepted c (addSteady g frames) w := h.of_length hl (by
    intro a ha
    obtain ⟨b, hb, rfl⟩ := List.mem_map.1 ha
    exact h.shapes b hb)
  obtain ⟨-, -, a0, tl, e, e2⟩ := stream_fit_rest c ω _ w h'.shapes h'.space h'.blocks h'.overlap h'.save (svd _) h'.points out' ho'
  obtain ⟨b0, bl, rfl⟩ := List.exists_cons_of_ne_nil h.ne
  refine ⟨b0, bl, rfl, ?_⟩
  rw [e2, hl]
  have : a0 = ⟨b0.shape, fun i => b0.at' i + g i⟩ := by
    have := congrArg List.head? e
    simpa [addSteady, eq_comm] using this
  subst this
  rfl

/-! ### C183: grid points of weight zero -/

/-- Two records agree at the grid points (and variables) whose weight is not zero. -/
def AgreeWeighted (w : Arr ℝ) (frames frames' : List (Arr ℝ)) : Prop :=
  frames'.length = frames.length ∧ ∀ idx, InRange w.shape idx → w.at' idx ≠ 0 → frames'.map (·.at' idx) = frames.map (·.at' idx)

/-- **C183.** What the data are at points of weight zero changes neither the eigenvalues nor the modes elsewhere of a streaming fit (the modes of points of
    weight zero are stored as `u · 1/√0`, see C184): for every pair of accepted records that agree where the weight is not zero, every `svd`, serially and on
    every number of ranks. -/
theorem stream_zero_weight (c : Cfg) (ω : ℂ) (frames frames' : List (Arr ℝ)) (w : Arr ℝ) (h : StreamAccepted c frames w)
    (h' : StreamAccepted c frames' w) (ha : AgreeWeighted w frames frames') (svd : ∀ k, Svd k) :
    ∃ out out', streamSerial c ω frames w (svd _) = some out ∧ streamSerial c ω frames' w (svd _) = some out' ∧ SameSpod out out' ∧
      ∀ p, 0 < p → NoSingleton w p → ∀ s : (β : Type) → List (Write β) → List (Write β), (∀ β l, (s β l).Perm l) →
        streamParallel c ω frames w (svd _) p s = some out ∧ streamParallel c ω frames' w (svd _) p s = some out' := by
  have r := h.runs ω (svd _)
  have r' := h'.runs ω (svd _)
  refine ⟨_, _, r.1, r'.1, ?_, fun p hp ho s hs => ⟨r.2 p hp ho s hs, r'.2 p hp ho s hs⟩⟩
  apply same_blocks c ω frames _ w ha.1 svd
  intro f m hm idx hi
  by_cases h0 : w.at' idx = 0
  · simp [newCol, h0]
  · have := ha.2 idx hi h0
    simp only [atIdx]
    rw [this]

/-! #### The hypotheses are met by a concrete fit -/

theorem sex_accepted : StreamAccepted sexCfg sexFrames sexWeights where
  shapes := by
    intro a ha
    simp only [sexFrames, List.mem_map] at ha
    obtain ⟨t, -, rfl⟩ := ha
    rfl
  space := by simp [sexWeights]
  mean := by decide
  blocks := by
    have hlen : sexFrames.length = 6 := by simp [sexFrames]
    rw [hlen]; decide
  overlap := by decide
  save := by decide
  points := by decide

example (ω : ℂ) (svd : ∀ k, Svd k) : ∃ out out', streamSerial sexCfg ω sexFrames sexWeights (svd _) = some out ∧
    streamSerial sexCfg ω (addSteady (fun i => i.length + 3) sexFrames) sexWeights (svd _) = some out' ∧ SameSpod out out' := by
  obtain ⟨out, out', h1, h2, h3, -⟩ := stream_steady sexCfg ω sexFrames sexWeights sex_accepted (fun i => i.length + 3) svd
  exact ⟨out, out', h1, h2, h3⟩

/-- three points, the middle one of weight zero, and two records that differ there -/
def maskWeights : Arr ℝ := ⟨[3, 1], fun i => if i = [1, 0] then 0 else 1⟩
def maskFrames (v : ℝ) : List (Arr ℝ) :=
  (List.range 6).map fun (t : Nat) => ⟨[3, 1], fun i => if i = [1, 0] then v * t ^ 3 else if i = [0, 0] then (if t = 1 then 1 else 0) else t ^ 2⟩

theorem mask_accepted (v : ℝ) : StreamAccepted sexCfg (maskFrames v) maskWeights where
  shapes := by
    intro a ha
    simp only [maskFrames, List.mem_map] at ha
    obtain ⟨t, -, rfl⟩ := ha
    rfl
  space := by simp [maskWeights]
  mean := by decide
  blocks := by
    have hlen : (maskFrames v).length = 6 := by simp [maskFrames]
    rw [hlen]; decide
  overlap := by decide
  save := by decide
  points := by decide

example (ω : ℂ) (svd : ∀ k, Svd k) : ∃ out out', streamSerial sexCfg ω (maskFrames 1) maskWeights (svd _) = some out ∧
    streamSerial sexCfg ω (maskFrames 5) maskWeights (svd _) = some out' ∧ SameSpod out out' ∧ maskFrames 1 ≠ maskFrames 5 := by
  obtain ⟨out, out', h1, h2, h3, -⟩ := stream_zero_weight sexCfg ω (maskFrames 1) (maskFrames 5) maskWeights (mask_accepted 1) (mask_accepted 5)
    ⟨by simp [maskFrames], fun idx _ hw => by
      have : idx ≠ [1, 0] := by
        intro h
        apply hw
        simp [maskWeights, h]
      simp [maskFrames, this]⟩ svd
  refine ⟨out, out', h1, h2, h3, fun h => ?_⟩
  have := congrArg (fun l => (l.getD 1 ⟨[], fun _ => 0⟩).at' [1, 0]) h
  simp [maskFrames, List.range_succ] at this

end Verif.Props
