import Verif.Model.Fit
import Verif.Props.SpodAlgebra
import Verif.Props.NpyFile
import Verif.Props.Reduce
import Verif.Props.Mean
import Verif.Props.Reader1
import Verif.Props.StreamSource
import Verif.Props.Reader2
/-
  C82, C83: the whole fit, end to end.
-/
set_option linter.unusedSectionVars false
set_option linter.unusedSimpArgs false
namespace Verif.Props
open Verif Verif.Par Verif.Rd Verif.Spod Verif.Fit Matrix

/-! ### Specification -/

/-- Fluctuation of block `[s, s+n)` of the series `u`, by mean type. -/
noncomputable def specFluct (m : MeanType) (u : List ℝ) (s n t : Nat) : ℝ :=
  match m with
  | .longtime => u.getD (s + t) 0 - u.sum / u.length
  | .blockwise => u.getD (s + t) 0 - (∑ τ ∈ Finset.range n, u.getD (s + τ) 0) / n
  | .zero => u.getD (s + t) 0

/-- Optional division by the unbiased variance over the block (1 where it is below the threshold). -/
noncomputable def specNorm (on : Bool) (eps4 : ℝ) (n : Nat) (y : Nat → ℝ) (t : Nat) : ℝ :=
  let mean := (∑ τ ∈ Finset.range n, y τ) / n
  let v := (∑ τ ∈ Finset.range n, (y τ - mean) ^ 2) / (n - 1)
  if on then y t / (if v < eps4 then 1 else v) else y t

/-- Windowed DFT of block `b` (blocks start every `n - o` snapshots) at frequency `f`, scaled by the sum of the
    window. -/
noncomputable def specHat (c : Cfg) (m : MeanType) (ω : ℂ) (u : List ℝ) (f b : Nat) : ℂ :=
  (∑ t ∈ Finset.range c.nDft,
    ((c.win.getD t 0 * specNorm c.normalize c.eps4 c.nDft
      (specFluct m u (b * ((c.nDft : Int) - c.nOvlp).toNat) c.nDft) t : ℝ) : ℂ) * ω ^ (t * f))
  / ((c.win.sum : ℝ) : ℂ)

/-- Matrix of the Fourier realizations of the whole data: rows are the grid points (and variables) in C order. -/
noncomputable def specQ (c : Cfg) (m : MeanType) (ω : ℂ) (frames : List (Arr ℝ)) (sh : List Nat) (nb f : Nat) :
    Matrix (Fin (size sh)) (Fin nb) ℂ :=
  Matrix.of fun k b => specHat c m ω (frames.map fun a => a.at' (unravel sh k)) f b

/-- The weights, one per row. -/
def specW (w : Arr ℝ) : Fin (size w.shape) → ℝ := fun k => w.at' (unravel w.shape k)

/-! ### Saving slabs -/

theorem npSave_congr {α} {a b : Arr α} (h : a.Eqv b) : npSave a = npSave b := by
  simp only [npSave, h.1, NpyFile.mk.injEq, true_and]
  funext k
  split
  · rename_i hk
    rw [h.2 _ (by rw [h.1]; exact inRange_unravel hk)]
  · rfl

theorem pick_congr {α} [Inhabited α] (ax m : Nat) (base : List Nat) (ps qs : List (Arr α))
    (hs : ∀ p ∈ ps, ∃ n, p.shape = base.set ax n) (hpq : List.Forall₂ Arr.Eqv ps qs) (idx : List Nat)
    (hidx : InRange (base.set ax m) idx) (i : Nat) : pick ax ps idx i = pick ax qs idx i := by
  induction hpq generalizing i with
  | nil => rfl
  | cons h _ ih =>
    rename_i p q ps qs _
    simp only [pick]
    rw [← h.1]
    split
    · rename_i hi
      refine h.2 _ ?_
      obtain ⟨n, hn⟩ := hs p (by simp)
      have : p.shape = (base.set ax m).set ax (ext p.shape ax) := by
        rw [List.set_set]
        by_cases hax : ax < base.length
        · rw [hn, ext_set hax]
        · rw [List.set_eq_of_length_le (by omega), hn, List.set_eq_of_length_le (by omega)]
      rw [this]
      exact hidx.set ax _ _ hi
    · exact ih (fun r hr => hs r (by simp [hr])) _

theorem concat_congr {α} [Inhabited α] (ax : Nat) (base : List Nat) (ps qs : List (Arr α)) (hne : ps ≠ [])
    (hs : Compatible ax base ps) (hpq : List.Forall₂ Arr.Eqv ps qs) : (concat ax ps).Eqv (concat ax qs) := by
  have hext : (ps.map fun p : Arr α => ext p.shape ax) = qs.map fun p : Arr α => ext p.shape ax := by
    clear hne hs
    induction hpq with
    | nil => rfl
    | cons h _ ih => simp only [List.map_cons, ih, h.1]
  refine ⟨?_, fun idx hidx => ?_⟩
  · simp only [concat, hext]
    cases hpq with
    | nil => rfl
    | cons h _ => simp only [h.1]
  · rw [concat_shape hs hne] at hidx
    exact pick_congr ax _ base ps qs hs.2 hpq idx hidx _

/-- Saving pieces that are (as numpy values) the slabs of `A` leaves the file `np.save(A)` would, whatever the
    order of the element writes. -/
theorem saveAll_slabs {α} [Inhabited α] (A : Arr α) (ax p : Nat) (hp : 0 < p) (hax : ax < A.shape.length)
    (s : (β : Type) → List (Write β) → List (Write β)) (hs : ∀ β l, (s β l).Perm l) (loc : Nat → Arr α)
    (hloc : ∀ r < p, (loc r).Eqv (distributeDimension A ax (some (p, r)))) :
    saveAll (some s) ax ((List.range p).map loc) = npSave A := by
  have hne : (List.range p).map loc ≠ [] := by simp; omega
  have hcomp : Compatible ax A.shape ((List.range p).map loc) := by
    refine ⟨hax, fun a ha => ?_⟩
    obtain ⟨r, hr, rfl⟩ := List.mem_map.1 ha
    refine ⟨_, (hloc r (List.mem_range.1 hr)).1⟩
  simp only [saveAll]
  rw [npy_save_eq_serial ax A.shape _ hcomp hne _ (hs _ _)]
  apply npSave_congr
  refine (concat_congr ax A.shape _ ((List.range p).map fun r => distributeDimension A ax (some (p, r))) hne
    hcomp ?_).trans (distributeDimension_gather A ax p hax hp).1
  rw [List.forall₂_map_left_iff, List.forall₂_map_right_iff, List.forall₂_same]
  exact fun r hr => hloc r (List.mem_range.1 hr)

/-! ### One point -/

theorem pslice_getD {β} (l : List β) (a n t : Nat) (d : β) (ht : t < n) (_h : a + n ≤ l.length) :
    (pslice l a (a + n)).getD t d = l.getD (a + t) d := by
  simp [pslice, List.getD_eq_getElem?_getD, List.getElem?_take, ht, List.getElem?_drop]

theorem list_sum_range (l : List ℝ) : l.sum = ∑ t ∈ Finset.range l.length, l.getD t 0 := by
  induction l with
  | nil => simp
  | cons a l ih =>
    rw [List.sum_cons, List.length_cons, Finset.sum_range_succ', ih]
    simp [add_comm]

theorem map_sum_range (l : List ℝ) (g : ℝ → ℝ) :
    (l.map g).sum = ∑ t ∈ Finset.range l.length, g (l.getD t 0) := by
  rw [list_sum_range, List.length_map]
  refine Finset.sum_congr rfl fun t ht => ?_
  have ht := Finset.mem_range.1 ht
  simp [List.getD_eq_getElem?_getD, ht]

theorem getD_map_real (l : List ℝ) (g : ℝ → ℝ) (t : Nat) (ht : t < l.length) :
    (l.map g).getD t 0 = g (l.getD t 0) := by
  simp [List.getD_eq_getElem?_getD, ht]

theorem subtractMean_getD (m : MeanType) (u : List ℝ) (s n t : Nat) (ht : t < n) (h : s + n ≤ u.length) :
    (subtractMean ℝ m (u.sum / u.length) (pslice u s (s + n))).getD t 0 = specFluct m u s n t ∧
    (subtractMean ℝ m (u.sum / u.length) (pslice u s (s + n))).length = n := by
  have hl : (pslice u s (s + n)).length = n := by rw [pslice_length]; omega
  cases m with
  | longtime =>
    simp only [subtractMean, tMean, specFluct, reduceCtorEq, ↓reduceIte, List.length_map, hl, and_true]
    rw [getD_map_real _ (fun x => x - u.sum / u.length) _ (by omega), pslice_getD u s n t 0 ht h]
  | zero =>
    simp only [subtractMean, tMean, specFluct, reduceCtorEq, ↓reduceIte, List.length_map, hl, and_true, sub_zero,
      List.map_id']
    rw [pslice_getD u s n t 0 ht h]
  | blockwise =>
    simp only [subtractMean, tMean, specFluct, ↓reduceIte, List.length_map, hl, and_true, sub_zero,
      List.map_id', blkMean, smul_eq_mul]
    rw [getD_map_real _ (fun x => x - (n : ℝ)⁻¹ * (pslice u s (s + n)).sum) _ (by omega),
      pslice_getD u s n t 0 ht h, list_sum_range, hl, div_eq_inv_mul]
    congr 2
    exact Finset.sum_congr rfl fun τ hτ => pslice_getD u s n τ 0 (Finset.mem_range.1 hτ) h

theorem normalizeBlk_getD (eps4 : ℝ) (l : List ℝ) (n t : Nat) (hl : l.length = n) (ht : t < n) (y : Nat → ℝ)
    (hy : ∀ τ < n, l.getD τ 0 = y τ) :
    (normalizeBlk eps4 l).getD t 0 = specNorm true eps4 n y t ∧ (normalizeBlk eps4 l).length = n := by
  have e1 : l.sum = ∑ τ ∈ Finset.range n, y τ := by
    rw [list_sum_range, hl]
    exact Finset.sum_congr rfl fun τ hτ => hy τ (Finset.mem_range.1 hτ)
  have e2 : ∀ c : ℝ, (l.map fun x => (x - c) ^ 2).sum = ∑ τ ∈ Finset.range n, (y τ - c) ^ 2 := by
    intro c
    rw [map_sum_range, hl]
    exact Finset.sum_congr rfl fun τ hτ => by rw [hy τ (Finset.mem_range.1 hτ)]
  simp only [normalizeBlk, List.length_map, hl, and_true, specNorm, ↓reduceIte]
  rw [getD_map_real _ (fun x => x / _) _ (by omega), hy t ht, e1, e2]
  simp only [div_eq_inv_mul]

theorem hatPoint_spec (c : Cfg) (m : MeanType) (hm : parseMean c.meanType = .ok m) (ω : ℂ) (u : List ℝ)
    (hwin : c.win.length = c.nDft) (hn : 0 < c.nDft) (s f : Nat) (h : s + c.nDft ≤ u.length)
    (hf : f < nFreq c.nDft c.isreal c.full) :
    (hatPoint c ω (u.sum / u.length) (pslice u s (s + c.nDft))).getD f 0 =
      (∑ t ∈ Finset.range c.nDft, ((c.win.getD t 0 * specNorm c.normalize c.eps4 c.nDft
        (specFluct m u s c.nDft) t : ℝ) : ℂ) * ω ^ (t * f)) / ((c.win.sum : ℝ) : ℂ) := by
  obtain ⟨n, hnn⟩ : ∃ n, n = c.nDft := ⟨_, rfl⟩
  have hsub := fun t ht => subtractMean_getD m u s c.nDft t ht h
  have hlen : (subtractMean ℝ m (u.sum / u.length) (pslice u s (s + c.nDft))).length = c.nDft := (hsub 0 hn).2
  set b := subtractMean ℝ m (u.sum / u.length) (pslice u s (s + c.nDft)) with hb
  have hnorm : ∀ t < c.nDft, (if c.normalize = true then normalizeBlk c.eps4 b else b).getD t 0 =
      specNorm c.normalize c.eps4 c.nDft (specFluct m u s c.nDft) t := by
    intro t ht
    cases hc : c.normalize with
    | true =>
      simp only [↓reduceIte]
      exact (normalizeBlk_getD c.eps4 b c.nDft t hlen ht _ fun τ hτ => (hsub τ hτ).1).1
    | false => simp only [Bool.false_eq_true, ↓reduceIte, specNorm]; exact (hsub t ht).1
  have hlen2 : (if c.normalize = true then normalizeBlk c.eps4 b else b).length = c.nDft := by
    split
    · simp [normalizeBlk, hlen]
    · exact hlen
  set b2 := (if c.normalize = true then normalizeBlk c.eps4 b else b) with hb2
  have hlen3 : (applyWindow c.win b2).length = c.nDft := by simp [applyWindow, hlen2, hwin]
  have hprep : prepareBlocks c.meanType c.normalize c.eps4 c.win (u.sum / u.length) [pslice u s (s + c.nDft)] =
      .ok [applyWindow c.win b2] := by
    simp only [prepareBlocks, hm, List.map_cons, List.map_nil, hb2, hb]
  simp only [hatPoint, hprep, blockHat, List.length_map, hlen3]
  rw [List.getD_eq_getElem?_getD, List.getElem?_map, List.getElem?_range hf]
  simp only [Option.map_some, Option.getD_some, dftBin, List.length_map, hlen3, winWeight, hwin]
  have hn' : (c.nDft : ℂ) ≠ 0 := by exact_mod_cast hn.ne'
  have hW : ((1 / (c.win.sum / (c.nDft : ℝ)) : ℝ) : ℂ) / (c.nDft : ℂ) = 1 / ((c.win.sum : ℝ) : ℂ) := by
    push_cast
    by_cases hz : ((c.win.sum : ℝ) : ℂ) = 0
    · rw [hz]; simp
    · field_simp
  rw [hW, one_div, ← div_eq_inv_mul]
  congr 1
  refine Finset.sum_congr rfl fun t ht => ?_
  have ht := Finset.mem_range.1 ht
  congr 1
  have : (List.map Complex.ofReal (applyWindow c.win b2)).getD t 0 =
      (((applyWindow c.win b2).getD t 0 : ℝ) : ℂ) := by
    simp [List.getD_eq_getElem?_getD, hlen3, ht]
  rw [this]
  congr 1
  rw [← hnorm t ht, mul_comm]
  simp [applyWindow, List.getD_eq_getElem?_getD, hlen2, hwin, ht]

/-! ### All points of a rank -/

theorem map_pslice {α β} (g : α → β) (l : List α) (a b : Nat) : (pslice l a b).map g = pslice (l.map g) a b := by
  simp [pslice, List.map_take, List.map_drop]

/-- the transform at a point as the code computes it, from the series at that point -/
noncomputable def pointHat (c : Cfg) (ω : ℂ) (u : List ℝ) (f b : Nat) : ℂ :=
  (hatPoint c ω (longTMeanArr ℝ (fitNb c u.length) u)
    (((offsets c u.length).map fun s => pslice u s (s + c.nDft)).getD b [])).getD f 0

theorem rankHats_arr (c : Cfg) (ω : ℂ) (d : List (Arr ℝ)) (sh : List Nat) :
    rankHats c ω d.length sh (.arr d) =
      some fun f b => ⟨sh, fun idx => pointHat c ω (atIdx idx d) f b⟩ := by
  simp only [rankHats, srcMean, srcBlocks, Option.some.injEq]
  funext f b
  congr 1
  funext idx
  simp only [pointHat, atIdx, List.length_map]
  congr 2
  simp only [List.getD_eq_getElem?_getD, List.getElem?_map, getBlockArr]
  cases (offsets c d.length)[b]? with
  | none => rfl
  | some s => simp only [Option.map_some, Option.getD_some]; exact map_pslice _ _ _ _

theorem offsets_getD (c : Cfg) (hov : c.nOvlp ≤ (c.nDft : Int) - 1) (nt b : Nat) (hb : b < fitNb c nt) :
    (offsets c nt)[b]? = some (b * ((c.nDft : Int) - c.nOvlp).toNat) ∧
    b * ((c.nDft : Int) - c.nOvlp).toNat + c.nDft ≤ nt := by
  obtain ⟨h1, h2, h3⟩ := (blocks_position nt c.nDft c.nOvlp hov).1 b (by omega)
    (by unfold fitNb at hb; omega)
  have hd : (((c.nDft : Int) - c.nOvlp).toNat : Int) = c.nDft - c.nOvlp := by omega
  have hm : ((b * ((c.nDft : Int) - c.nOvlp).toNat : Nat) : Int) = b * (c.nDft - c.nOvlp) := by
    rw [Nat.cast_mul, hd]
  constructor
  · simp only [offsets, List.getElem?_map]
    rw [List.getElem?_range hb]
    simp only [Option.map_some, Option.some.injEq]
    omega
  · omega

theorem pointHat_spec (c : Cfg) (m : MeanType) (hm : parseMean c.meanType = .ok m) (ω : ℂ) (u : List ℝ)
    (hwin : c.win.length = c.nDft) (hn : 0 < c.nDft) (hov : c.nOvlp ≤ (c.nDft : Int) - 1) (f b : Nat)
    (hb : b < fitNb c u.length) (hf : f < nFreq c.nDft c.isreal c.full) :
    pointHat c ω u f b = specHat c m ω u f b := by
  obtain ⟨h1, h2⟩ := offsets_getD c hov u.length b hb
  unfold pointHat specHat
  have e : ((offsets c u.length).map fun s => pslice u s (s + c.nDft)).getD b [] =
      pslice u (b * ((c.nDft : Int) - c.nOvlp).toNat) (b * ((c.nDft : Int) - c.nOvlp).toNat + c.nDft) := by
    rw [List.getD_eq_getElem?_getD, List.getElem?_map, h1]; rfl
  rw [long_time_mean_array _ (by omega), smul_eq_mul, ← div_eq_inv_mul, e]
  rw [hatPoint_spec c m hm ω u hwin hn _ f h2 hf]

/-! ### The whole data set -/

/-- Fourier realizations of the whole data set, as arrays -/
noncomputable def globalHat (c : Cfg) (ω : ℂ) (frames : List (Arr ℝ)) (sh : List Nat) (f b : Nat) : Arr ℂ :=
  ⟨sh, fun idx => pointHat c ω (atIdx idx frames) f b⟩

theorem gramShape_ok (xv nb : Nat) (h1 : xv ≠ 1) (h2 : 2 ≤ nb) : Stream.gramShape xv nb = some [nb, nb] := by
  have b : nb ≠ 1 := by omega
  simp [Stream.gramShape, Stream.squeeze, Stream.bcast2, Stream.matmulShape, h1, b]

/-- complex copy of the weights -/
noncomputable def cW (w : Arr ℝ) : Arr ℂ := ⟨w.shape, fun idx => ((w.at' idx : ℝ) : ℂ)⟩

theorem rankState_arr (c : Cfg) (ω : ℂ) (d : List (Arr ℝ)) (w : Arr ℝ) (hw : size w.shape ≠ 1)
    (hnb : 2 ≤ fitNb c d.length) :
    rankState c ω d.length (.arr d, w) = some
      (fun f b => globalHat c ω d w.shape f b,
       fun f => localGram (globalHat c ω d w.shape f) (cW w) (fitNb c d.length : ℂ),
       ⟨w.shape, fun idx => longTMeanArr ℝ (fitNb c d.length) (atIdx idx d)⟩) := by
  simp only [rankState, rankHats_arr, srcMean, gramShape_ok _ _ hw hnb, ↓reduceIte]
  rfl

theorem mapM_some {α β} (l : List α) (g : α → Option β) (h : α → β) (H : ∀ a ∈ l, g a = some (h a)) :
    l.mapM g = some (l.map h) := by
  induction l with
  | nil => rfl
  | cons a l ih =>
    rw [List.mapM_cons, H a (by simp), ih fun b hb => H b (by simp [hb])]
    rfl

/-- the reduced matrix is the weighted cross-spectral matrix of the whole data -/
theorem gramSpec_eq_crossSpectral {nb : Nat} (Q : Nat → Arr ℂ) (w : Arr ℝ) :
    (Matrix.of fun (i j : Fin nb) => gramSpec Q (cW w) (nb : ℂ) i j) =
      crossSpectral (rowsOf w.shape Q) (specW w) := by
  ext i j
  simp only [Matrix.of_apply, gramSpec, cW, crossSpectral, Matrix.smul_apply, Matrix.mul_apply,
    Matrix.conjTranspose_apply, rowsOf, specW, smul_eq_mul]
  rw [← sum_unravel, Finset.sum_range, div_eq_inv_mul]

theorem phiArr_at {nb : Nat} (sh : List Nat) (nS : Nat) (phi : Matrix (Fin (size sh)) (Fin nb) ℂ) (x : List Nat)
    (k : Nat) (hx : InRange sh x) (hk : k < nb) :
    (phiArr sh nS phi).at' (x ++ [k]) = phi ⟨ravel sh x, ravel_lt hx⟩ ⟨k, hk⟩ := by
  simp [phiArr, ravel_lt hx, hk]

theorem inRange_append {sh idx : List Nat} {n : Nat} (h : InRange (sh ++ [n]) idx) :
    ∃ x k, idx = x ++ [k] ∧ InRange sh x ∧ k < n := by
  induction sh generalizing idx with
  | nil => cases idx with
    | nil => simp [InRange] at h
    | cons i is =>
      simp only [List.nil_append] at h
      cases is with
      | nil => exact ⟨[], i, rfl, trivial, h.1⟩
      | cons j js => simp [InRange] at h
  | cons a sh ih => cases idx with
    | nil => simp [InRange] at h
    | cons i is =>
      obtain ⟨x, k, rfl, hx, hk⟩ := ih h.2
      exact ⟨i :: x, k, rfl, ⟨h.1, hx⟩, hk⟩

theorem inRange_shift (w : List Nat) (ax s n : Nat) (hax : ax < w.length) (x : List Nat)
    (hx : InRange (w.set ax (min (s + n) (ext w ax) - s)) x) :
    InRange w (x.set ax (x.getD ax 0 + s)) := by
  have h1 := hx.getD_lt ax (by simpa using hax)
  rw [ext_set hax] at h1
  have h2 := hx.set ax (ext w ax) (x.getD ax 0 + s) (by omega)
  rwa [List.set_set, set_ext_self] at h2

theorem atIdx_slab (frames : List (Arr ℝ)) (w : Arr ℝ) (hsh : ∀ a ∈ frames, a.shape = w.shape) (ax p r : Nat)
    (idx : List Nat) :
    atIdx idx (frames.map fun a => distributeDimension a ax (some (p, r))) =
      atIdx (idx.set ax (idx.getD ax 0 + startOf (ext w.shape ax) p r)) frames := by
  simp only [atIdx, List.map_map]
  apply List.map_congr_left
  intro a ha
  simp [distributeDimension, Arr.slice, hsh a ha]

/-- The snapshots `loc` of rank `r` are, at the points it owns, those of the whole data. -/
def HasSlab (loc frames : List (Arr ℝ)) (w : Arr ℝ) (ax p r : Nat) : Prop :=
  loc.length = frames.length ∧
  ∀ idx, InRange (distributeDimension w ax (some (p, r))).shape idx →
    atIdx idx loc = atIdx (idx.set ax (idx.getD ax 0 + startOf (ext w.shape ax) p r)) frames

theorem spodFreq_row {X Y : Type} [Fintype X] [DecidableEq X] [Fintype Y] [DecidableEq Y] {nb : Nat}
    (Q : Matrix X (Fin nb) ℂ) (R : Matrix Y (Fin nb) ℂ) (L0 : Fin nb → ℂ) (V0 : Matrix (Fin nb) (Fin nb) ℂ)
    (σ : Equiv.Perm (Fin nb)) (fac : Nat) (x : X) (y : Y) (h : ∀ b, Q x b = R y b) (k : Fin nb) :
    (spodFreq Q L0 V0 σ fac).2 x k = (spodFreq R L0 V0 σ fac).2 y k := by
  simp only [spodFreq, phiAll, Matrix.mul_apply, h]

/-- The rank's modes are its slab of the modes of the whole data. -/
theorem phi_slab {nb : Nat} (c : Cfg) (ω : ℂ) (frames : List (Arr ℝ)) (w : Arr ℝ)
    (ax : Nat) (hax : ax < w.shape.length) (p r : Nat) (loc : List (Arr ℝ))
    (hloc : HasSlab loc frames w ax p r) (f fac : Nat) (L0 : Fin nb → ℂ)
    (V0 : Matrix (Fin nb) (Fin nb) ℂ) (σ : Equiv.Perm (Fin nb)) :
    (phiArr (distributeDimension w ax (some (p, r))).shape c.nSave
      (spodFreq (rowsOf (distributeDimension w ax (some (p, r))).shape
        (globalHat c ω loc (distributeDimension w ax (some (p, r))).shape f)) L0 V0 σ fac).2).Eqv
    (distributeDimension (phiArr w.shape c.nSave
      (spodFreq (rowsOf w.shape (globalHat c ω frames w.shape f)) L0 V0 σ fac).2) ax (some (p, r))) := by
  have hext : ext (w.shape ++ [min c.nSave nb]) ax = ext w.shape ax := by
    simp [ext, List.getD_eq_getElem?_getD, List.getElem?_append_left hax]
  constructor
  · simp only [distributeDimension, phiArr, Arr.slice, hext]
    rw [List.set_append_left _ _ hax]
  · intro idx hidx
    obtain ⟨x, k, rfl, hx, hk⟩ := inRange_append hidx
    have hk' : k < nb := by omega
    rw [phiArr_at _ _ _ x k hx hk']
    have hxl : ax < x.length := by
      have := hx.length
      simp only [distributeDimension, Arr.slice, List.length_set] at this
      omega
    have hshift : InRange w.shape (x.set ax (x.getD ax 0 + startOf (ext w.shape ax) p r)) := by
      apply inRange_shift w.shape ax _ (countOf (ext w.shape ax) p r) hax
      simpa [distributeDimension, Arr.slice] using hx
    have e : (distributeDimension (phiArr w.shape c.nSave
        (spodFreq (rowsOf w.shape (globalHat c ω frames w.shape f)) L0 V0 σ fac).2) ax (some (p, r))).at' (x ++ [k]) =
        (phiArr w.shape c.nSave (spodFreq (rowsOf w.shape (globalHat c ω frames w.shape f)) L0 V0 σ fac).2).at'
          (x.set ax (x.getD ax 0 + startOf (ext w.shape ax) p r) ++ [k]) := by
      have hN : ext (phiArr w.shape c.nSave
          (spodFreq (rowsOf w.shape (globalHat c ω frames w.shape f)) L0 V0 σ fac).2).shape ax = ext w.shape ax := hext
      simp only [distributeDimension, Arr.slice, hN]
      rw [List.set_append_left _ _ hxl]
      congr 3
      simp [List.getD_eq_getElem?_getD, List.getElem?_append_left hxl]
    rw [e, phiArr_at _ _ _ _ k hshift hk']
    apply spodFreq_row
    intro b
    simp only [rowsOf, Matrix.of_apply, unravel_ravel hx, unravel_ravel hshift, globalHat]
    rw [hloc.2 x hx]

/-- Everything a fit of the whole data on one process leaves behind, in terms of `globalHat`. -/
noncomputable def globalOut (c : Cfg) (ω : ℂ) {nt : Nat} (frames : List (Arr ℝ)) (w : Arr ℝ)
    (solver : Solver (fitNb c nt)) : Out (fitNb c nt) where
  eigs := fun f =>
    let Q := rowsOf w.shape (globalHat c ω frames w.shape f)
    let s := solver (crossSpectral Q (specW w))
    (spodFreq Q s.1 s.2.1 s.2.2 (oneSidedFactor c.isreal (nFreq c.nDft c.isreal c.full) f)).1
  modes := fun f =>
    let Q := rowsOf w.shape (globalHat c ω frames w.shape f)
    let s := solver (crossSpectral Q (specW w))
    npSave (phiArr w.shape c.nSave
      (spodFreq Q s.1 s.2.1 s.2.2 (oneSidedFactor c.isreal (nFreq c.nDft c.isreal c.full) f)).2)
  weights := npSave w
  ltm := npSave ⟨w.shape, fun idx => longTMeanArr ℝ (fitNb c nt) (atIdx idx frames)⟩

theorem feasible_nb (c : Cfg) (nt : Nat) (h : feasible c.nDft (nBlocks nt c.nDft c.nOvlp) = .ok ()) :
    2 ≤ fitNb c nt ∧ 0 < c.nDft := by
  unfold feasible at h
  split at h
  · simp at h
  · unfold fitNb; omega

theorem localGram_congr (Q Q' : Nat → Arr ℂ) (w : Arr ℂ) (n : ℂ) (i j : Nat)
    (hi : ∀ idx, InRange w.shape idx → (Q i).at' idx = (Q' i).at' idx)
    (hj : ∀ idx, InRange w.shape idx → (Q j).at' idx = (Q' j).at' idx) :
    localGram Q w n i j = localGram Q' w n i j := by
  unfold localGram
  congr 1
  refine Finset.sum_congr rfl fun k hk => ?_
  have hk := inRange_unravel (Finset.mem_range.1 hk)
  rw [hi _ hk, hj _ hk]

/-- The modes of the whole data at frequency `f`. -/
noncomputable def globalPhi (c : Cfg) (ω : ℂ) {nt : Nat} (frames : List (Arr ℝ)) (w : Arr ℝ)
    (solver : Solver (fitNb c nt)) (f : Nat) : Arr ℂ :=
  let Q := rowsOf w.shape (globalHat c ω frames w.shape f)
  let s := solver (crossSpectral Q (specW w))
  phiArr w.shape c.nSave
    (spodFreq Q s.1 s.2.1 s.2.2 (oneSidedFactor c.isreal (nFreq c.nDft c.isreal c.full) f)).2

/-- The long-time mean of the whole data. -/
noncomputable def globalLtm (c : Cfg) (nt : Nat) (frames : List (Arr ℝ)) (w : Arr ℝ) : Arr ℝ :=
  ⟨w.shape, fun idx => longTMeanArr ℝ (fitNb c nt) (atIdx idx frames)⟩

theorem fitRanks_par (c : Cfg) (m : MeanType) (hm : parseMean c.meanType = .ok m) (ω : ℂ)
    (frames : List (Arr ℝ)) (w : Arr ℝ) (loc : Nat → List (Arr ℝ))
    (hfeas : feasible c.nDft (nBlocks frames.length c.nDft c.nOvlp) = .ok ())
    (solver : Solver (fitNb c frames.length)) (ax : Nat) (hax : ax < w.shape.length) (p : Nat) (hp : 0 < p)
    (hloc : ∀ r < p, HasSlab (loc r) frames w ax p r)
    (hone : ∀ r < p, size (distributeDimension w ax (some (p, r))).shape ≠ 1) :
    ∃ (g : Nat → Nat → Arr ℂ) (l : Nat → Arr ℝ),
      fitRanks c ω frames.length solver ((List.range p).map fun r =>
        (.arr (loc r), distributeDimension w ax (some (p, r)))) =
        some ((globalOut c ω frames w solver).eigs, fun f => (List.range p).map (g f), (List.range p).map l) ∧
      (∀ f, ∀ r < p, (g f r).Eqv (distributeDimension (globalPhi c ω frames w solver f) ax (some (p, r)))) ∧
      ∀ r < p, (l r).Eqv (distributeDimension (globalLtm c frames.length frames w) ax (some (p, r))) := by
  have hnb := (feasible_nb c _ hfeas).1
  have hslab : ∀ r < p, ∀ f b idx, InRange (distributeDimension w ax (some (p, r))).shape idx →
      (globalHat c ω (loc r) (distributeDimension w ax (some (p, r))).shape f b).at' idx =
      (distributeDimension (globalHat c ω frames w.shape f b) ax (some (p, r))).at' idx := by
    intro r hr f b idx hidx
    simp only [globalHat, (hloc r hr).2 idx hidx]
    rfl
  have hcw : ∀ r, cW (distributeDimension w ax (some (p, r))) = distributeDimension (cW w) ax (some (p, r)) :=
    fun r => rfl
  let st : Nat → (Nat → Nat → Arr ℂ) × (Nat → Nat → Nat → ℂ) × Arr ℝ := fun r =>
    (fun f b => globalHat c ω (loc r) (distributeDimension w ax (some (p, r))).shape f b,
     fun f => localGram (globalHat c ω (loc r) (distributeDimension w ax (some (p, r))).shape f)
        (cW (distributeDimension w ax (some (p, r)))) (fitNb c frames.length : ℂ),
     ⟨(distributeDimension w ax (some (p, r))).shape,
       fun idx => longTMeanArr ℝ (fitNb c frames.length) (atIdx idx (loc r))⟩)
  have hst : ((List.range p).map fun r =>
      ((Src.arr (loc r), distributeDimension w ax (some (p, r))) : Src × Arr ℝ)).mapM
        (rankState c ω frames.length) = some ((List.range p).map st) := by
    rw [List.mapM_map]
    apply mapM_some
    intro r hr
    have hr := List.mem_range.1 hr
    have h := rankState_arr c ω (loc r) (distributeDimension w ax (some (p, r))) (hone r hr)
      (by rw [(hloc r hr).1]; exact hnb)
    rw [(hloc r hr).1] at h
    rw [Function.comp_apply, h]
  have hG : ∀ r < p, ∀ f i j, (st r).2.1 f i j =
      localGram (fun b => distributeDimension (globalHat c ω frames w.shape f b) ax (some (p, r)))
        (distributeDimension (cW w) ax (some (p, r))) (fitNb c frames.length : ℂ) i j := by
    intro r hr f i j
    exact localGram_congr _ _ _ _ i j (fun idx hidx => hslab r hr f i idx hidx)
      (fun idx hidx => hslab r hr f j idx hidx)
  have hM : ∀ f, (Matrix.of fun (i j : Fin (fitNb c frames.length)) =>
      allreduce (((List.range p).map st).map fun x => x.2.1 f i j)) =
      crossSpectral (rowsOf w.shape (globalHat c ω frames w.shape f)) (specW w) := by
    intro f
    rw [← gramSpec_eq_crossSpectral]
    ext i j
    simp only [Matrix.of_apply]
    rw [← gram_rank_independent p ax (globalHat c ω frames w.shape f) (cW w) _ hp hax (fun _ => rfl)]
    simp only [gram, List.map_map]
    refine congrArg allreduce ?_
    apply List.map_congr_left
    intro r hr
    exact hG r (List.mem_range.1 hr) f i j
  let sol := fun f => solver (crossSpectral (rowsOf w.shape (globalHat c ω frames w.shape f)) (specW w))
  refine ⟨fun f r => phiArr (st r).2.2.shape c.nSave (spodFreq (rowsOf (st r).2.2.shape ((st r).1 f)) (sol f).1
    (sol f).2.1 (sol f).2.2 (oneSidedFactor c.isreal (nFreq c.nDft c.isreal c.full) f)).2, fun r => (st r).2.2, ?_, ?_, ?_⟩
  · simp only [fitRanks, hfeas, hm, hst, hM]
    simp only [List.map_map]
    rfl
  · intro f r hr
    exact phi_slab c ω frames w ax hax p r (loc r) (hloc r hr) f _ _ _ _
  · intro r hr
    exact ⟨rfl, fun idx hidx => by simp only [st, (hloc r hr).2 idx hidx]; rfl⟩

theorem fit_par_global (c : Cfg) (m : MeanType) (hm : parseMean c.meanType = .ok m) (ω : ℂ)
    (frames : List (Arr ℝ)) (w : Arr ℝ) (loc : Nat → List (Arr ℝ))
    (hfeas : feasible c.nDft (nBlocks frames.length c.nDft c.nOvlp) = .ok ())
    (solver : Solver (fitNb c frames.length)) (ax : Nat) (hax : ax < w.shape.length) (p : Nat) (hp : 0 < p)
    (hloc : ∀ r < p, HasSlab (loc r) frames w ax p r)
    (hone : ∀ r < p, size (distributeDimension w ax (some (p, r))).shape ≠ 1)
    (s : (β : Type) → List (Write β) → List (Write β)) (hs : ∀ β l, (s β l).Perm l) :
    fit c ω frames.length solver (some s) ax ((List.range p).map fun r =>
      (.arr (loc r), distributeDimension w ax (some (p, r)))) =
    some (globalOut c ω frames w solver) := by
  obtain ⟨g, l, h, hg, hl⟩ := fitRanks_par c m hm ω frames w loc hfeas solver ax hax p hp hloc hone
  simp only [fit, h, Option.some.injEq]
  have hwt : saveAll (some s) ax (((List.range p).map fun r =>
      ((Src.arr (loc r), distributeDimension w ax (some (p, r))) : Src × Arr ℝ)).map (·.2)) = npSave w := by
    rw [List.map_map]
    exact saveAll_slabs w ax p hp hax s hs _ fun r _ => Arr.Eqv.refl _
  rw [hwt, saveAll_slabs (globalLtm c frames.length frames w) ax p hp hax s hs _ hl]
  have : (fun f => saveAll (some s) ax ((List.range p).map (g f))) = (globalOut c ω frames w solver).modes := by
    funext f
    exact saveAll_slabs (globalPhi c ω frames w solver f) ax p hp
      (by simp only [globalPhi, phiArr, List.length_append]; omega) s hs _ (hg f)
  rw [this]
  rfl

theorem fit_ser_global (c : Cfg) (m : MeanType) (hm : parseMean c.meanType = .ok m) (ω : ℂ)
    (frames : List (Arr ℝ)) (w : Arr ℝ)
    (hfeas : feasible c.nDft (nBlocks frames.length c.nDft c.nOvlp) = .ok ())
    (solver : Solver (fitNb c frames.length)) (ax : Nat) (hone : size w.shape ≠ 1) :
    fit c ω frames.length solver none ax [(.arr frames, w)] = some (globalOut c ω frames w solver) := by
  have hnb := (feasible_nb c _ hfeas).1
  have h := rankState_arr c ω frames w hone hnb
  have hM : ∀ f, (Matrix.of fun (i j : Fin (fitNb c frames.length)) =>
      localGram (globalHat c ω frames w.shape f) (cW w) (fitNb c frames.length : ℂ) i j + 0) =
      crossSpectral (rowsOf w.shape (globalHat c ω frames w.shape f)) (specW w) := by
    intro f
    rw [← gramSpec_eq_crossSpectral]
    ext i j
    simp only [Matrix.of_apply, add_zero, localGram, gramSpec]
    rw [sum_unravel (cW w).shape fun idx => star ((globalHat c ω frames w.shape f i).at' idx) *
      ((globalHat c ω frames w.shape f j).at' idx * (cW w).at' idx)]
  simp only [fit, fitRanks, hfeas, hm, List.mapM_cons, List.mapM_nil, h, Option.pure_def, Option.bind_eq_bind, Option.bind_some,
    List.map_cons, List.map_nil, allreduce, List.foldr_cons, List.foldr_nil, hM, saveAll, globalOut]
  rfl

theorem oneStage_ok (files : List (List (Arr ℝ))) (w : Arr ℝ) (ax : Nat) (comm : Comm) (hne : files.flatten ≠ []) :
    oneStage files w ax comm =
      some (.arr (files.flatten.map fun a => distributeDimension a ax comm), distributeDimension w ax comm) := by
  unfold oneStage
  rw [reader1_full]
  · simp [List.map_flatten]
  · simpa [← List.map_flatten] using hne

theorem maxAxis_ok (files : List (List (Arr ℝ))) (w : Arr ℝ) (hsh : ∀ a ∈ files.flatten, a.shape = w.shape)
    (hne : files.flatten ≠ []) (hw : w.shape ≠ []) :
    ∃ ax, maxAxis files = some ax ∧ IsFirstMax w.shape ax := by
  obtain ⟨ax, h⟩ := argmax_isSome w.shape hw
  refine ⟨ax, ?_, argmax_spec _ _ h⟩
  unfold maxAxis
  cases hf : files.flatten with
  | nil => exact absurd hf hne
  | cons a l => simp only [hsh a (by rw [hf]; simp), h]

/-! ### C82, C83 -/

/-- No rank is left with exactly one value (see C68 for what happens then). -/
def NoSingleton (w : Arr ℝ) (p : Nat) : Prop :=
  ∀ ax, IsFirstMax w.shape ax → ∀ r < p, size (w.shape.set ax (countOf (ext w.shape ax) p r)) ≠ 1

/-- **C82.** The whole fit does not depend on the number of ranks: for every list of datasets of one spatial shape,
    every accepted configuration, every number of ranks none of which is left with a single value, and every order
    of the element writes, the parallel fit succeeds and leaves exactly the eigenvalues, mode files, weights file and
    mean file of the serial fit. -/
theorem fit_rank_independent (c : Cfg) (ω : ℂ) (files : List (List (Arr ℝ))) (w : Arr ℝ)
    (hsh : ∀ a ∈ files.flatten, a.shape = w.shape) (hw : w.shape ≠ [])
    (hmean : lower c.meanType = "longtime" ∨ lower c.meanType = "blockwise" ∨ lower c.meanType = "zero")
    (hfeas : feasible c.nDft (nBlocks files.flatten.length c.nDft c.nOvlp) = .ok ())
    (hov : c.nOvlp ≤ (c.nDft : Int) - 1)
    (solver : Solver (fitNb c files.flatten.length)) (p : Nat) (hp : 0 < p) (hone : NoSingleton w p)
    (hone1 : size w.shape ≠ 1)
    (s : (β : Type) → List (Write β) → List (Write β)) (hs : ∀ β l, (s β l).Perm l) :
    ∃ out, fitSerial c ω files w solver = some out ∧ fitParallel c ω files w solver p s = some out := by
  obtain ⟨m, hm⟩ := (mean_type_accepted c.meanType).2 hmean
  have hne : files.flatten ≠ [] := by
    intro h
    have h1 := ((feasible_iff files.flatten.length c.nDft c.nOvlp hov).1 hfeas).2
    rw [h] at h1
    have h2 := (feasible_nb c _ hfeas).2
    simp at h1
    omega
  obtain ⟨ax, hax, hmax⟩ := maxAxis_ok files w hsh hne hw
  refine ⟨globalOut c ω files.flatten w solver, ?_, ?_⟩
  · simp only [fitSerial, hax, oneStage_ok files w ax none hne]
    simpa [distributeDimension] using fit_ser_global c m hm ω files.flatten w hfeas solver ax hone1
  · simp only [fitParallel, hax]
    rw [mapM_some _ _ _ fun r _ => oneStage_ok files w ax (some (p, r)) hne]
    simp only
    apply fit_par_global c m hm ω files.flatten w _ hfeas solver ax hmax.1 p hp
      (fun r _ => ⟨List.length_map _, fun idx _ => atIdx_slab files.flatten w hsh ax p r idx⟩) _ s hs
    intro r hr
    have := hone ax hmax r hr
    have hle : startOf (ext w.shape ax) p r + countOf (ext w.shape ax) p r ≤ ext w.shape ax := by
      rcases Nat.lt_or_ge r (p - 1) with h | h
      · have h1 := endOf_le_startOf (ext w.shape ax) p h (by omega)
        have h2 := blockdist_end (ext w.shape ax) p (p - 1) (by omega) (by omega)
        omega
      · have h2 := blockdist_end (ext w.shape ax) p r (by omega) (by omega)
        omega
    have e : (distributeDimension w ax (some (p, r))).shape = w.shape.set ax (countOf (ext w.shape ax) p r) := by
      simp only [distributeDimension, Arr.slice]
      congr 1
      simp only [startOf, countOf] at hle ⊢
      omega
    rwa [e]

theorem dict_last_nonempty {β} (frames : List β) (get : Nat → Nat → List β)
    (hget : ∀ s e, s ≤ e → e ≤ frames.length → get s e = pslice frames s e)
    (nchunks nblks : Nat) (hc : 0 < nchunks) (hb : 0 < nblks) (hlen : nchunks * nblks ≤ frames.length) :
    ∃ lp, (dictPieces get frames.length nchunks nblks).getLast? = some lp ∧ lp.2.2.length ≠ 0 := by
  have hct := reader2_dict_content frames nchunks nblks get hget
  obtain ⟨c, rfl⟩ : ∃ c, nchunks = c + 1 := ⟨nchunks - 1, by omega⟩
  obtain ⟨b, rfl⟩ : ∃ b, nblks = b + 1 := ⟨nblks - 1, by omega⟩
  refine ⟨_, dictPieces_getLast get frames.length c b, ?_⟩
  have hmem := List.mem_of_getLast? (dictPieces_getLast get frames.length c b)
  have hval := hct.2 _ hmem
  simp only at hval ⊢
  rw [hval, pslice_length]
  have h1 := blockdist_end frames.length (c + 1) c (by omega) (by omega)
  have h2 := blockdist_end (countOf frames.length (c + 1) c) (b + 1) b (by omega) (by omega)
  have h3 : 0 < countOf (countOf frames.length (c + 1) c) (b + 1) b := by
    rw [countOf_last, countOf_last, Nat.div_div_eq_div_mul]
    exact Nat.div_pos hlen (by positivity)
  omega

theorem dictPieces_map {β γ} (g : β → γ) (get : Nat → Nat → List β) (nt nc nk : Nat) :
    ((dictPieces get nt nc nk).map fun q => (q.1, q.2.1, q.2.2.map g)) =
      dictPieces (fun s e => (get s e).map g) nt nc nk := by
  simp only [dictPieces, List.map_flatMap, List.map_map]
  congr 1
  funext chunk
  apply List.map_congr_left
  intro blk _
  simp only [Function.comp_apply, map_pslice]

/-- Data in pieces lead to the same state of a rank as the same data in one array. -/
theorem rankState_dict (c : Cfg) (ω : ℂ) (frames : List (Arr ℝ)) (get : Nat → Nat → List (Arr ℝ))
    (hget : ∀ s e, s ≤ e → e ≤ frames.length → get s e = pslice frames s e)
    (nchunks nblks : Nat) (hc : 0 < nchunks) (hb : 0 < nblks) (hlen : nchunks * nblks ≤ frames.length)
    (hov : c.nOvlp ≤ (c.nDft : Int) - 1) (hnb : 0 < fitNb c frames.length) (w : Arr ℝ) :
    rankState c ω frames.length (.dict (dictPieces get frames.length nchunks nblks), w) =
      rankState c ω frames.length (.arr frames, w) := by
  obtain ⟨lp, hl, hlp⟩ := dict_last_nonempty frames get hget nchunks nblks hc hb hlen
  have hmean : srcMean (fitNb c frames.length) frames.length (.dict (dictPieces get frames.length nchunks nblks)) =
      srcMean (fitNb c frames.length) frames.length (.arr frames) := by
    simp only [srcMean, hl, hlp, ↓reduceIte, Option.some.injEq]
    funext idx
    have hmapped : (dictPieces get frames.length nchunks nblks).map (fun q => (q.1, q.2.1, atIdx idx q.2.2)) =
        dictPieces (fun s e => atIdx idx (get s e)) (atIdx idx frames).length nchunks nblks := by
      rw [show (atIdx idx frames).length = frames.length from List.length_map _]
      exact dictPieces_map (fun a : Arr ℝ => a.at' idx) get frames.length nchunks nblks
    have hl' : (dictPieces (fun s e => atIdx idx (get s e)) (atIdx idx frames).length nchunks nblks).getLast? =
        some (lp.1, lp.2.1, atIdx idx lp.2.2) := by
      rw [← hmapped, List.getLast?_map, hl]; rfl
    have := long_time_mean_same (K := ℝ) (atIdx idx frames) (fitNb c frames.length) hnb
      (fun s e => atIdx idx (get s e)) (fun s e h1 h2 => by
        simp only [atIdx, List.length_map] at h2 ⊢
        rw [hget s e h1 h2, map_pslice]) nchunks nblks hc hb _ hl' (by simpa [atIdx] using hlp)
    rw [hmapped]
    rw [show (atIdx idx frames).length = frames.length from List.length_map _] at this ⊢
    rw [this]
    rfl
  have hblk : srcBlocks c frames.length (.dict (dictPieces get frames.length nchunks nblks)) =
      srcBlocks c frames.length (.arr frames) := by
    have h := fit_blocks_two_stage (⟨[], fun _ => 0⟩ : Arr ℝ) frames get hget nchunks nblks hc hb c.nDft c.nOvlp hov hlen
    simp only [srcBlocks, offsets, fitNb]
    rw [h]
    simp only [List.map_map, Option.some.injEq]
    apply List.map_congr_left
    intro i hi
    have hi : i < fitNb c frames.length := by simpa [fitNb] using hi
    have ho := (offsets_getD c hov frames.length i hi).1
    rw [offsets, List.getElem?_map, List.getElem?_range hi] at ho
    simp only [Option.map_some, Option.some.injEq] at ho
    simp only [Function.comp_apply, getBlockArr, ho]
  simp only [rankState, rankHats, hmean, hblk]

theorem mapM_congr' {α β γ} (l : List γ) (f g : γ → α) (h : α → Option β) (H : ∀ r ∈ l, h (f r) = h (g r)) :
    (l.map f).mapM h = (l.map g).mapM h := by
  induction l with
  | nil => rfl
  | cons a l ih =>
    simp only [List.map_cons, List.mapM_cons]
    rw [H a (by simp), ih fun r hr => H r (by simp [hr])]

/-- A fit depends on the ranks' data only through `rankState`. -/
theorem fit_congr (c : Cfg) (ω : ℂ) (nt : Nat) (solver : Solver (fitNb c nt)) (sched : Sched) (ax p : Nat)
    (f g : Nat → Src) (w : Nat → Arr ℝ)
    (H : ∀ r < p, rankState c ω nt (f r, w r) = rankState c ω nt (g r, w r)) :
    fit c ω nt solver sched ax ((List.range p).map fun r => (f r, w r)) =
      fit c ω nt solver sched ax ((List.range p).map fun r => (g r, w r)) := by
  unfold fit fitRanks
  rw [mapM_congr' (List.range p) (fun r => (f r, w r)) (fun r => (g r, w r)) _ fun r hr => H r (List.mem_range.1 hr)]
  simp only [List.map_map]
  rfl

/-- entry `[x, v]` of the slab of rank `r` of a flattened snapshot -/
def slabEntry (snap : Arr ℝ) (n s nv : Nat) : List Nat → ℝ
  | [x, v] => if x < n ∧ v < nv then snap.at' [s + x, v] else 0
  | _ => 0

theorem twoStageGet_eq (names : List String) (content : String → NcFile (Arr ℝ))
    (hnd : names.Nodup) (hwf : ∀ f ∈ names, NcWF (content f)) (nx nv nreaders p r : Nat)
    (hnr : 0 < nreaders) (hnp : nreaders ≤ p) (hr : r < p)
    (arrive : Nat → Nat → List (Write ℝ) → List (Write ℝ)) (harr : ∀ a b l, (arrive a b l).Perm l)
    (frames : List (Arr ℝ)) (hframes : frames = (names.map fun f => (content f).snaps).flatten) (s e : Nat)
    (hse : s ≤ e) (he : e ≤ frames.length) :
    twoStageGet names content nreaders nx nv p r arrive s e =
      pslice (frames.map fun a => ⟨[(blockdist nx p r).1, nv], slabEntry a (blockdist nx p r).1 (blockdist nx p r).2 nv⟩)
        s e := by
  obtain ⟨inputs, h1, h2⟩ := reader2_redistribute (⟨[nx, nv], fun _ => 0⟩ : Arr ℝ) names content hnd hwf p nreaders s e
    nx nv r hnr hnp hr hse (by rw [← hframes]; exact he)
  have hin : ((List.range p).map fun q => message nx p (stack nx nv
      ((inputData2 ⟨[nx, nv], fun _ => 0⟩ names content nreaders s e q).getD [])) r) =
      (List.range p).map fun q => message nx p (stack nx nv (inputs q)) r := by
    apply List.map_congr_left
    intro q hq
    rw [h1 q (List.mem_range.1 hq)]
    rfl
  have h3 := h2 _ (harr s e _)
  simp only [twoStageGet]
  rw [hin]
  apply List.ext_getElem?
  intro t
  rw [List.getElem?_map]
  by_cases ht : t < e - s
  · rw [List.getElem?_range ht]
    simp only [Option.map_some]
    have hlt : s + t < frames.length := by omega
    have hs2 : (pslice (frames.map fun a => (⟨[(blockdist nx p r).1, nv],
        slabEntry a (blockdist nx p r).1 (blockdist nx p r).2 nv⟩ : Arr ℝ)) s e)[t]? =
        some ⟨[(blockdist nx p r).1, nv], slabEntry frames[s + t] (blockdist nx p r).1 (blockdist nx p r).2 nv⟩ := by
      simp [pslice, List.getElem?_take, ht, List.getElem?_drop, hlt]
    rw [hs2]
    simp only [Option.some.injEq, Arr.mk.injEq, true_and]
    funext idx
    match idx with
    | [] => rfl
    | [_] => rfl
    | _ :: _ :: _ :: _ => rfl
    | [x, v] =>
      simp only [bufEntry, slabEntry]
      by_cases hxv : x < (blockdist nx p r).1 ∧ v < nv
      · rw [if_pos hxv, if_pos hxv]
        obtain ⟨snap, ha, hb⟩ := h3 t x v ht hxv.1 hxv.2
        rw [hb]
        rw [← hframes, List.getElem?_eq_getElem hlt] at ha
        simp only [Option.some.injEq] at ha
        simp [ha]
      · rw [if_neg hxv, if_neg hxv]
  · rw [List.getElem?_eq_none (by simpa using ht), List.getElem?_eq_none (by rw [pslice_length]; omega)]
    rfl

/-- **C82**, two-stage (NetCDF) data: for every set of well-formed files, every number of readers and ranks, every
    partition into chunks and pieces with at most one piece per snapshot, every arrival order of the messages and every
    order of the file writes, the parallel fit leaves what the serial fit of the concatenated snapshots leaves. -/
theorem fit_two_stage_eq_serial (c : Cfg) (ω : ℂ) (names : List String) (content : String → NcFile (Arr ℝ))
    (hnd : names.Nodup) (hwf : ∀ f ∈ names, NcWF (content f)) (nx nv nreaders nchunks nblks p : Nat)
    (hnr : 0 < nreaders) (hnp : nreaders ≤ p) (hc : 0 < nchunks) (hk : 0 < nblks)
    (hlen : nchunks * nblks ≤ ncNt names content)
    (w : Arr ℝ) (hw : w.shape = [nx, nv])
    (hmean : lower c.meanType = "longtime" ∨ lower c.meanType = "blockwise" ∨ lower c.meanType = "zero")
    (hfeas : feasible c.nDft (nBlocks (ncNt names content) c.nDft c.nOvlp) = .ok ())
    (hov : c.nOvlp ≤ (c.nDft : Int) - 1)
    (solver : Solver (fitNb c (ncNt names content)))
    (hone : ∀ r < p, (blockdist nx p r).1 * nv ≠ 1) (hone1 : nx * nv ≠ 1)
    (arrive : Nat → Nat → Nat → List (Write ℝ) → List (Write ℝ)) (harr : ∀ r a b l, (arrive r a b l).Perm l)
    (s : (β : Type) → List (Write β) → List (Write β)) (hs : ∀ β l, (s β l).Perm l) :
    ∃ out, fitTwoStage c ω names content nx nv nreaders nchunks nblks w solver p arrive s = some out ∧
      fit c ω (ncNt names content) solver none 0
        [(.arr (names.map fun f => (content f).snaps).flatten, w)] = some out := by
  obtain ⟨m, hm⟩ := (mean_type_accepted c.meanType).2 hmean
  set frames := (names.map fun f => (content f).snaps).flatten with hframes
  have hnb := (feasible_nb c _ hfeas).1
  let loc : Nat → List (Arr ℝ) := fun r => frames.map fun a =>
    ⟨[(blockdist nx p r).1, nv], slabEntry a (blockdist nx p r).1 (blockdist nx p r).2 nv⟩
  have hlocl : ∀ r, (loc r).length = frames.length := fun r => List.length_map _
  have hstate : ∀ r < p, rankState c ω frames.length
      (.dict (dictPieces (twoStageGet names content nreaders nx nv p r (arrive r)) frames.length nchunks nblks),
        distributeDimension w 0 (some (p, r))) =
      rankState c ω frames.length (.arr (loc r), distributeDimension w 0 (some (p, r))) := by
    intro r hr
    have h := rankState_dict c ω (loc r) (twoStageGet names content nreaders nx nv p r (arrive r))
      (fun s e h1 h2 => twoStageGet_eq names content hnd hwf nx nv nreaders p r hnr hnp hr (arrive r) (harr r) frames
        rfl s e h1 (by rw [hlocl] at h2; exact h2)) nchunks nblks hc hk (by rw [hlocl]; exact hlen) hov
      (by rw [hlocl]; exact Nat.lt_of_lt_of_le (by omega) hnb) (distributeDimension w 0 (some (p, r)))
    rw [hlocl] at h
    exact h
  have hext : ext w.shape 0 = nx := by rw [hw]; rfl
  have hshape : ∀ r < p, (distributeDimension w 0 (some (p, r))).shape = [(blockdist nx p r).1, nv] := by
    intro r hr
    have hext' : ext [nx, nv] 0 = nx := rfl
    simp only [distributeDimension, Arr.slice, hw, hext', List.set_cons_zero, List.cons.injEq, and_true]
    have h := bound_succ nx p r hr
    have h' : bound nx p (r + 1) ≤ nx := by
      unfold bound
      split
      · have := blockdist_end nx p (p - 1) (by omega) (by omega)
        have := startOf_mono nx p (show r + 1 ≤ p - 1 by omega) (by omega)
        omega
      · omega
    simp only [startOf, countOf] at h
    omega
  refine ⟨globalOut c ω frames w solver, ?_, ?_⟩
  · unfold fitTwoStage
    refine (fit_congr c ω (ncNt names content) solver (some s) 0 p _ (fun r => .arr (loc r)) _ hstate).trans ?_
    refine fit_par_global c m hm ω frames w loc hfeas solver 0 (by rw [hw]; simp) p (by omega) ?_ ?_ s hs
    · intro r hr
      refine ⟨hlocl r, fun idx hidx => ?_⟩
      rw [hshape r hr] at hidx
      match idx, hidx with
      | [x, v], ⟨hx, hv, _⟩ =>
        simp only [atIdx, loc, List.map_map, List.getD_cons_zero, List.set_cons_zero, hext]
        apply List.map_congr_left
        intro a _
        simp only [Function.comp_apply, slabEntry, hx, hv, and_self, ↓reduceIte, startOf]
        rw [Nat.add_comm]
    · intro r hr
      rw [hshape r hr]
      simpa [size] using hone r hr
  · exact fit_ser_global c m hm ω frames w hfeas solver 0 (by rw [hw]; simpa [size] using hone1)

end Verif.Props
