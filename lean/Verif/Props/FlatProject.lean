import Verif.Props.Pipeline
import Verif.Props.FitFiles
/-
  Projection on a results folder written by a fit of files (NetCDF, MATLAB): there the weights and modes are stored with the
  grid flattened to one axis (base.py:676-677, standard.py:237-239: `[local_shape, nv]`).
-/
namespace Verif.Props
open Verif Verif.Par Verif.Fit Verif.Proj Verif.Spod Matrix

/-- the same values laid out on the grid -/
def gridded (S : Stored) (sh : List Nat) : Stored :=
  { S with
    weights := ⟨sh, S.weights.data⟩
    modes := fun f => (S.modes f).map fun file => ⟨sh ++ [S.nModes], file.data⟩ }

/-- The folder of a fit of single-variable files on the grid `dims`, and snapshots on this grid without variable axis. -/
structure FlatFits (S : Stored) (fs : List Nat) (frames : List (Arr ℝ)) (dims : List Nat) : Prop where
  weights : S.weights.shape = [size dims, 1]
  modes : ∀ f ∈ fs, ∃ file, S.modes f = some file ∧ file.shape = [size dims, 1, S.nModes]
  nv : S.nv = 1
  xdim : S.xdim = dims.length
  snaps : ∀ a ∈ frames, a.shape = dims

theorem FlatFits.fits {S : Stored} {fs : List Nat} {frames : List (Arr ℝ)} {dims : List Nat} (F : FlatFits S fs frames dims) :
    Fits (gridded S (dims ++ [1])) fs frames dims (dims ++ [1]) := by
  refine ⟨rfl, F.snaps, Or.inr ⟨rfl, F.nv, ?_⟩, ?_⟩
  · show dims.length ≠ S.xdim + 1
    rw [F.xdim]
    omega
  · intro f hf
    obtain ⟨file, h1, h2⟩ := F.modes f hf
    exact ⟨⟨dims ++ [1] ++ [S.nModes], file.data⟩, by simp [gridded, h1], rfl⟩

/-- two folders whose local weights and modes have the same values in C order give the same share -/
theorem rankPart_congr (S S' : Stored) (hx : S'.xdim = S.xdim) (hv : S'.nv = S.nv) (hn : S'.nModes = S.nModes) (fs : List Nat)
    (hfs : fs ≠ []) (frames : List (Arr ℝ)) (sh : List Nat) (ax p r : Nat)
    (hw1 : size (distributeDimension (openMemmap S.weights) ax (some (p, r))).shape = size (shOf sh ax p r))
    (hw1' : size (distributeDimension (openMemmap S'.weights) ax (some (p, r))).shape = size (shOf sh ax p r))
    (hw2 : ∀ i < size (shOf sh ax p r), flat (distributeDimension (openMemmap S.weights) ax (some (p, r))) i =
      flat (distributeDimension (openMemmap S'.weights) ax (some (p, r))) i)
    (hm : ∀ f ∈ fs, ∃ file file', S.modes f = some file ∧ S'.modes f = some file' ∧
      size (distributeDimension (openMemmap file) ax (some (p, r))).shape = size (shOf sh ax p r) * S.nModes ∧
      size (distributeDimension (openMemmap file') ax (some (p, r))).shape = size (shOf sh ax p r) * S.nModes ∧
      ∀ i < size (shOf sh ax p r) * S.nModes, flat (distributeDimension (openMemmap file) ax (some (p, r))) i =
        flat (distributeDimension (openMemmap file') ax (some (p, r))) i)
    (q' : Part) (h' : rankPart S' fs.length fs frames ax (some (p, r)) = some q')
    (hq' : IsPart S' fs frames sh ax p r (fs.length * S'.nModes) q') :
    ∃ q, rankPart S fs.length fs frames ax (some (p, r)) = some q ∧ IsPart S' fs frames sh ax p r (fs.length * S'.nModes) q := by
  have hc : ∀ (T : Stored), T.nModes = S.nModes → ∀ f file, T.modes f = some file →
      size (distributeDimension (openMemmap file) ax (some (p, r))).shape = size (shOf sh ax p r) * S.nModes →
      modeCols T ax (some (p, r)) (size (shOf sh ax p r)) f = some ((List.range S.nModes).map fun (m : Nat) (i : Nat) =>
        flat (distributeDimension (openMemmap file) ax (some (p, r))) (i * S.nModes + m)) := by
    intro T hT f file hf hsz
    simp only [modeCols, hf, hT]
    rw [if_pos hsz]
  obtain ⟨cols, c1, c2, c3, -⟩ := modes_matrix (fun _ : Nat => (0 : ℂ)) S.nModes
    (fun f => (modeCols S ax (some (p, r)) (size (shOf sh ax p r)) f).getD []) fs hfs (by
      intro f hf
      obtain ⟨file, file', a1, a2, a3, a4, a5⟩ := hm f hf
      simp [hc S rfl f file a1 a3])
  obtain ⟨cols', c1', c2', c3', -⟩ := modes_matrix (fun _ : Nat => (0 : ℂ)) S.nModes
    (fun f => (modeCols S' ax (some (p, r)) (size (shOf sh ax p r)) f).getD []) fs hfs (by
      intro f hf
      obtain ⟨file, file', a1, a2, a3, a4, a5⟩ := hm f hf
      simp [hc S' hn f file' a2 a4])
  have hcols : ∀ j < fs.length * S.nModes, ∀ x < size (shOf sh ax p r),
      cols.getD j (fun _ => 0) x = cols'.getD j (fun _ => 0) x := by
    intro j hj x hxl
    have hnm : 0 < S.nModes := by
      rcases Nat.eq_zero_or_pos S.nModes with h0 | h0
      · simp [h0] at hj
      · exact h0
    have hq : j / S.nModes < fs.length := by rw [Nat.div_lt_iff_lt_mul hnm]; exact hj
    have hmd := Nat.mod_lt j hnm
    obtain ⟨file, file', a1, a2, a3, a4, a5⟩ := hm fs[j / S.nModes] (List.getElem_mem _)
    have e := c3 (j / S.nModes) (j % S.nModes) _ (List.getElem?_eq_getElem hq) hmd
    have e' := c3' (j / S.nModes) (j % S.nModes) _ (List.getElem?_eq_getElem hq) hmd
    rw [Nat.div_add_mod' j S.nModes] at e e'
    simp only [List.getD_eq_getElem?_getD, e, e', hc S rfl _ file a1 a3, hc S' hn _ file' a2 a4, Option.getD_some,
      List.getElem?_map, List.getElem?_range hmd, Option.map_some]
    apply a5
    calc x * S.nModes + j % S.nModes < (x + 1) * S.nModes := by rw [Nat.add_mul]; omega
      _ ≤ _ := Nat.mul_le_mul_right _ hxl
  -- the share with the other folder
  unfold rankPart at h'
  simp only [hw1', hx, hv, hn, c1'] at h'
  split at h'
  · rename_i hcond
    simp only [Option.some.injEq] at h'
    refine ⟨⟨q'.sh, size (shOf sh ax p r), flat (distributeDimension (openMemmap S.weights) ax (some (p, r))), q'.mean, q'.data,
      cols⟩, ?_, ?_⟩
    · unfold rankPart
      simp only [hw1]
      rw [if_pos, c1]
      · rw [← h']
      · refine ⟨hcond.1, ?_⟩
        intro f hf
        obtain ⟨file, file', a1, a2, a3, a4, a5⟩ := hm f hf
        simp [hc S rfl f file a1 a3]
    · have hw' : q'.w = flat (distributeDimension (openMemmap S'.weights) ax (some (p, r))) := by rw [← h']
      have hp' : q'.phir = cols' := by rw [← h']
      refine ⟨hq'.sh_eq, rfl, ?_, hq'.mean, hq'.data, ?_⟩
      · intro i hi h
        rw [← hq'.w i hi h, hw']
        exact hw2 i hi
      · intro i hi h j
        rw [← hq'.phir i hi h j, hp']
        exact hcols j (by rw [← hn]; exact j.2) i hi
  · simp at h'

/-! ### Slabs of the first axis -/

theorem gRow_zero (a : Nat) (rest : List Nat) (p r i : Nat) (hi : i < size (shOf (a :: rest) 0 p r)) :
    gRow (a :: rest) 0 p r i = startOf a p r * size rest + i := by
  have hpos : 0 < size rest := by
    rcases Nat.eq_zero_or_pos (size rest) with h | h
    · simp [shOf, size, h] at hi
    · exact h
  have hm := Nat.mod_lt i hpos
  simp only [gRow, shOf, List.set_cons_zero, unravel, toGlobal, ext, List.getD_cons_zero, ravel]
  rw [ravel_unravel hm]
  have := Nat.div_add_mod i (size rest)
  rw [Nat.add_mul]
  rw [Nat.mul_comm (i / size rest)]
  omega

theorem flat_first {α} [Inhabited α] (f : NpyFile α) (a : Nat) (rest : List Nat) (hf : f.shape = a :: rest) (p r i : Nat) (hp : 0 < p)
    (hr : r < p) (hi : i < countOf a p r * size rest) :
    flat (distributeDimension (openMemmap f) 0 (some (p, r))) i = (f.data (startOf a p r * size rest + i)).getD default := by
  have hs : (openMemmap f).shape = a :: rest := hf
  have hi' : i < size (shOf (a :: rest) 0 p r) := by simpa [shOf, size, ext] using hi
  rw [flat_slab _ _ _ _ _ hp hr (by rw [hs]; simp) (by rw [hs]; exact hi'), hs]
  have hlt := gRow_lt (a :: rest) 0 p r i hp hr (by simp) hi'
  rw [flat_open _ _ (by rw [hf]; exact hlt), gRow_zero a rest p r i hi']

theorem size_first {α} [Inhabited α] (f : NpyFile α) (a : Nat) (rest : List Nat) (hf : f.shape = a :: rest) (p r : Nat) (hp : 0 < p)
    (hr : r < p) : size (distributeDimension (openMemmap f) 0 (some (p, r))).shape = countOf a p r * size rest := by
  rw [slab_shape _ _ _ _ hp hr]
  simp [openMemmap, hf, size, ext]

theorem count_mul_iff' (a b p : Nat) (hp : 0 < p) (hd : p ∣ a) : ∀ r < p, countOf (a * b) p r = countOf a p r * b := by
  obtain ⟨c, rfl⟩ := hd
  intro r hr
  have e1 : p * c * b / p = c * b := by rw [Nat.mul_assoc, Nat.mul_div_cancel_left _ hp]
  have e2 : p * c * b % p = 0 := by rw [Nat.mul_assoc, Nat.mul_mod_right]
  simp [countOf, blockdist, hr, e1, e2, Nat.mul_div_cancel_left _ hp]

theorem count_mul_iff (a b p : Nat) (hb : 2 ≤ b) (hp : 0 < p) :
    (∀ r < p, countOf (a * b) p r = countOf a p r * b) ↔ p ∣ a := by
  constructor
  · intro h
    by_contra hdvd
    have hs : 0 < a % p := Nat.pos_of_ne_zero fun h0 => hdvd (Nat.dvd_of_mod_eq_zero h0)
    have hlt := Nat.mod_lt a hp
    have hlt' := Nat.mod_lt (a * b) hp
    have h0 := h 0 hp
    have h1 := h (p - 1) (by omega)
    simp only [countOf, blockdist, hp, if_pos hs, show p - 1 < p by omega] at h0 h1
    rw [if_neg (by omega : ¬ p - 1 < a % p), if_neg (by omega : ¬ p - 1 < a * b % p)] at h1
    simp only [if_true, Nat.add_zero] at h0 h1
    rw [h1, Nat.add_mul] at h0
    split at h0 <;> omega
  · exact fun h => count_mul_iff' a b p hp h

theorem start_mul (a b p : Nat) (hp : 0 < p) (hd : p ∣ a) (r : Nat) (hr : r < p) : startOf (a * b) p r = startOf a p r * b := by
  obtain ⟨c, rfl⟩ := hd
  rw [startOf_eq _ _ _ hr, startOf_eq _ _ _ hr]
  have e1 : p * c * b / p = c * b := by rw [Nat.mul_assoc, Nat.mul_div_cancel_left _ hp]
  have e2 : p * c * b % p = 0 := by rw [Nat.mul_assoc, Nat.mul_mod_right]
  rw [e1, e2, Nat.mul_div_cancel_left _ hp, Nat.mul_mod_right]
  simp [Nat.mul_assoc]

/-- a rank's share of a flattened folder when the slabs agree: one process, or the first axis divided evenly -/
theorem flat_part (S : Stored) (fs : List Nat) (hfs : fs ≠ []) (frames : List (Arr ℝ)) (hfr : frames ≠ []) (a : Nat)
    (rest : List Nat) (F : FlatFits S fs frames (a :: rest)) (ax p r : Nat) (hp : 0 < p) (hr : r < p) (hax : ax < rest.length + 1)
    (hcase : p = 1 ∨ (ax = 0 ∧ p ∣ a)) :
    ∃ q, rankPart S fs.length fs frames ax (some (p, r)) = some q ∧
      IsPart (gridded S (a :: rest ++ [1])) fs frames (a :: rest ++ [1]) ax p r
        (fs.length * (gridded S (a :: rest ++ [1])).nModes) q := by
  obtain ⟨q', h1, h2⟩ := rankPart_ok (gridded S (a :: rest ++ [1])) fs frames (a :: rest) (a :: rest ++ [1]) F.fits hfr hfs ax p r
    hp hr (by simpa using hax)
  have hN : size (a :: rest ++ [1]) = size (a :: rest) := by rw [size_append, Nat.mul_one]
  rcases hcase with rfl | ⟨rfl, hdvd⟩
  · -- one process: nothing is cut
    obtain rfl : r = 0 := by omega
    have hsh1 : shOf (a :: rest ++ [1]) ax 1 0 = a :: rest ++ [1] := by
      have := slab_shape (⟨a :: rest ++ [1], fun _ => ()⟩ : Arr Unit) ax 1 0 (by omega) (by omega)
      rw [distribute_one] at this
      exact this.symm
    refine rankPart_congr S (gridded S (a :: rest ++ [1])) rfl rfl rfl fs hfs frames _ ax 1 0 ?_ ?_ ?_ ?_ q' h1 h2
    · rw [distribute_one, hsh1, hN]
      simp [openMemmap, F.weights, size]
    · rw [distribute_one, hsh1]
      rfl
    · intro i hi
      rw [hsh1] at hi
      rw [distribute_one, distribute_one, flat_open _ _ (by rw [F.weights]; simp only [size]; rw [hN] at hi; simpa [size] using hi),
        flat_open _ _ hi]
      rfl
    · intro f hf
      obtain ⟨file, g1, g2⟩ := F.modes f hf
      refine ⟨file, ⟨a :: rest ++ [1] ++ [S.nModes], file.data⟩, g1, by simp [gridded, g1], ?_, ?_, ?_⟩
      · rw [distribute_one, hsh1, hN]
        simp [openMemmap, g2, size]
      · rw [distribute_one, hsh1]
        show size (a :: rest ++ [1] ++ [S.nModes]) = _
        rw [size_append]
      · intro i hi
        rw [hsh1] at hi
        rw [distribute_one, distribute_one, flat_open _ _ (by rw [g2]; rw [hN] at hi; simpa [size] using hi),
          flat_open _ _ (by show i < size (a :: rest ++ [1] ++ [S.nModes]); rw [size_append]; exact hi)]
  · -- even division of the first axis
    have hc := (count_mul_iff' a (size rest) p hp hdvd) r hr
    have hst := start_mul a (size rest) p hp hdvd r hr
    have hsz : size (shOf (a :: rest ++ [1]) 0 p r) = countOf a p r * size rest := by
      simp only [shOf, List.cons_append, List.set_cons_zero, size, ext, List.getD_cons_zero, size_append, Nat.mul_one]
    have hWs : S.weights.shape = (a * size rest) :: [1] := F.weights
    have hs1 : size (rest ++ [1]) = size rest := by rw [size_append, Nat.mul_one]
    refine rankPart_congr S (gridded S (a :: rest ++ [1])) rfl rfl rfl fs hfs frames _ 0 p r ?_ ?_ ?_ ?_ q' h1 h2
    · rw [hsz, size_first _ _ _ hWs p r hp hr, hc]
      simp [size]
    · rw [hsz, size_first _ a (rest ++ [1]) rfl p r hp hr, hs1]
    · intro i hi
      rw [hsz] at hi
      rw [flat_first _ _ _ hWs p r i hp hr (by rw [hc]; simpa [size] using hi),
        flat_first _ a (rest ++ [1]) rfl p r i hp hr (by rw [hs1]; exact hi), hst, hs1]
      simp [gridded, size]
    · intro f hf
      obtain ⟨file, g1, g2⟩ := F.modes f hf
      have hms : file.shape = (a * size rest) :: [1, S.nModes] := g2
      have hs2 : size (rest ++ [1] ++ [S.nModes]) = size rest * S.nModes := by rw [size_append, hs1]
      refine ⟨file, ⟨a :: (rest ++ [1] ++ [S.nModes]), file.data⟩, g1, by simp [gridded, g1], ?_, ?_, ?_⟩
      · rw [hsz, size_first _ _ _ hms p r hp hr, hc]
        simp [size]
      · rw [hsz, size_first _ a (rest ++ [1] ++ [S.nModes]) rfl p r hp hr, hs2, Nat.mul_assoc]
      · intro i hi
        rw [hsz] at hi
        rw [flat_first _ _ _ hms p r i hp hr (by rw [hc]; simpa [size] using hi),
          flat_first _ a (rest ++ [1] ++ [S.nModes]) rfl p r i hp hr (by rw [hs2, ← Nat.mul_assoc]; exact hi), hst, hs2]
        simp [size, Nat.mul_assoc]

theorem rankPart_size_none (S : Stored) (nf : Nat) (fs : List Nat) (frames : List (Arr ℝ)) (ax : Nat) (comm : Comm) (a : Arr ℝ)
    (ha : a ∈ frames) (h : size (withAxis S.xdim S.nv (distributeDimension a ax comm)).shape ≠
      size (distributeDimension (openMemmap S.weights) ax comm).shape) : rankPart S nf fs frames ax comm = none := by
  unfold rankPart
  rw [if_neg]
  intro hc
  exact h (hc.1 _ (List.mem_map_of_mem ha))

theorem projectBand_none (S : Stored) (o : Opts) (svd : Svd) (frames : List (Arr ℝ)) (nf : Nat) (fs : List Nat) (dims : List Nat)
    (hsn : ∀ a ∈ frames, a.shape = dims) (ax : Nat) (hax : argmax dims = some ax) (comms : List Comm) (sched : Sched)
    (h : comms.mapM (rankPart S nf fs frames ax) = none) : projectBand S o svd frames comms sched nf fs = none := by
  cases frames with
  | nil => rfl
  | cons a l =>
    have : a.shape = dims := hsn a (by simp)
    simp only [projectBand, this, hax, h]

/-- **C106 (exact).** Projection on the folder of a fit of files.  On one process, or when the first grid axis is the largest and the
    number of ranks divides it, the result is the one of the same values laid out on the grid; on every other number of ranks
    `compute_coeffs_op` raises. -/
theorem flat_projection_exact (S : Stored) (o : Opts) (svd : Svd) (frames : List (Arr ℝ)) (b : Coef.Band) (a : Nat) (rest : List Nat)
    (hb : Coef.selectBand S.freq o.tLb o.tUb o.freqIdx = .ok b) (hlen : b.nFreqR = b.freqIdx.length) (hfs : b.freqIdx ≠ [])
    (F : FlatFits S b.freqIdx frames (a :: rest)) (hfr : frames ≠ []) (hk : 0 < S.nModes) (ha : 0 < a) (hrest : 2 ≤ size rest) :
    ∃ ax G, IsFirstMax (a :: rest) ax ∧
      (∀ comms sched, IsRun comms sched → project (gridded S (a :: rest ++ [1])) o svd frames comms sched = some G) ∧
      project S o svd frames [none] none = some G ∧
      ∀ p, 0 < p → ∀ s : (β : Type) → List (Write β) → List (Write β), (∀ β l, (s β l).Perm l) →
        project S o svd frames (ranksOf p) (some s) = if p = 1 ∨ (ax = 0 ∧ p ∣ a) then some G else none := by
  have hneg : ¬ b.nFreqR * (S.nModes : Int) < 0 := by rw [hlen]; exact not_lt.2 (by positivity)
  have hto : b.nFreqR.toNat = b.freqIdx.length := by rw [hlen]; rfl
  have hpr : ∀ comms sched, project S o svd frames comms sched =
      projectBand S o svd frames comms sched b.freqIdx.length b.freqIdx := by
    intro comms sched
    simp only [project, hb, if_neg hneg, hto]
  obtain ⟨ax, hmax, g1, g2⟩ := projection_files (gridded S (a :: rest ++ [1])) o svd frames b (a :: rest) (a :: rest ++ [1]) hb hlen
    hfs F.fits hfr (by simp) hk
  obtain ⟨ax', hax'⟩ := argmax_isSome (a :: rest) (by simp)
  obtain rfl : ax' = ax := (argmax_spec _ _ hax').unique hmax
  have haxl : ax' < rest.length + 1 := by simpa using hmax.1
  have hok : ∀ p, 0 < p → p = 1 ∨ (ax' = 0 ∧ p ∣ a) → ∀ s : (β : Type) → List (Write β) → List (Write β),
      (∀ β l, (s β l).Perm l) → projectBand S o svd frames (ranksOf p) (some s) b.freqIdx.length b.freqIdx =
        some (globalFolder (gridded S (a :: rest ++ [1])) b.freqIdx o.tol svd frames (a :: rest ++ [1]) ax') := by
    intro p hp hcase s hs
    choose q hq using fun (r : Fin p) => flat_part S b.freqIdx hfs frames hfr a rest F ax' p r hp r.2 haxl hcase
    let q' : Nat → Part := fun r => if h : r < p then q ⟨r, h⟩ else ⟨[], 0, fun _ => 0, fun _ => 0, fun _ _ => 0, []⟩
    refine project_of_parts S (gridded S (a :: rest ++ [1])) rfl o svd frames b.freqIdx (a :: rest) (a :: rest ++ [1]) hfs hfr F.snaps
      hk ax' hax' (by simp; omega) p hp s hs q' ?_ ?_
    · intro r hr; simp only [q', dif_pos hr]; exact (hq ⟨r, hr⟩).1
    · intro r hr; simp only [q', dif_pos hr]; exact (hq ⟨r, hr⟩).2
  refine ⟨ax', globalFolder (gridded S (a :: rest ++ [1])) b.freqIdx o.tol svd frames (a :: rest ++ [1]) ax', hmax, ?_, ?_, ?_⟩
  · rintro comms sched (⟨rfl, rfl⟩ | ⟨p, s, hp, hs, rfl, rfl⟩)
    · exact g2
    · exact g1 p hp s hs
  · obtain ⟨q, hq1, hq2⟩ := flat_part S b.freqIdx hfs frames hfr a rest F ax' 1 0 (by omega) (by omega) haxl (Or.inl rfl)
    rw [hpr, project_one S o svd frames _ b.freqIdx (a :: rest) hfr F.snaps ax' hax' q hq1
      (by rw [hq2.sh_eq]; simp; omega)]
    exact hok 1 (by omega) (Or.inl rfl) _ fun _ _ => List.Perm.refl _
  · intro p hp s hs
    rw [hpr]
    split
    · rename_i hcase
      exact hok p hp hcase s hs
    · rename_i hcase
      rw [not_or] at hcase
      obtain ⟨a0, l, hal⟩ := List.exists_cons_of_ne_nil hfr
      have hmem : a0 ∈ frames := by simp [hal]
      refine projectBand_none S o svd frames _ _ (a :: rest) F.snaps ax' hax' _ _ ?_
      -- a rank whose numbers of values differ
      have hbad : ∃ r < p, size (shOf (a :: rest) ax' p r) ≠
          size (distributeDimension (openMemmap S.weights) ax' (some (p, r))).shape := by
        rcases Nat.eq_zero_or_pos ax' with h0 | h0
        · have hnd : ¬ p ∣ a := fun h => hcase.2 ⟨h0, h⟩
          rw [← count_mul_iff a (size rest) p hrest hp] at hnd
          push Not at hnd
          obtain ⟨r, hr, hne⟩ := hnd
          refine ⟨r, hr, fun he => hne ?_⟩
          subst h0
          rw [size_first _ (a * size rest) [1] F.weights p r hp hr] at he
          simpa [shOf, size, ext] using he.symm
        · refine ⟨0, hp, ?_⟩
          have hWs : size (distributeDimension (openMemmap S.weights) ax' (some (p, 0))).shape = size (a :: rest) := by
            rw [slab_shape _ _ _ _ hp hp]
            show size (S.weights.shape.set ax' (countOf (ext S.weights.shape ax') p 0)) = _
            rw [F.weights]
            rcases Nat.lt_or_ge 1 ax' with h1 | h1
            · rw [List.set_eq_of_length_le (by simp; omega)]
              simp [size]
            · obtain rfl : ax' = 1 := by omega
              have : countOf 1 p 0 = 1 := by
                rcases Nat.lt_or_ge 1 p with h | h
                · simp [countOf, blockdist, hp, Nat.div_eq_of_lt h, Nat.mod_eq_of_lt h]
                · obtain rfl : p = 1 := by omega
                  simp [countOf, blockdist]
              simp [ext, size, this]
          rw [hWs]
          have hext : 2 ≤ ext (a :: rest) ax' := by
            have := hmax.2.2 0 h0
            simp only [List.getD_cons_zero] at this
            show 2 ≤ (a :: rest).getD ax' 0
            omega
          have hlt : countOf (ext (a :: rest) ax') p 0 < ext (a :: rest) ax' := by
            have h1 : 1 < p := by
              have := hcase.1
              omega
            generalize ext (a :: rest) ax' = n at hext
            simp only [countOf, blockdist, hp]
            have h2 := Nat.div_add_mod n p
            have h3 := Nat.mod_lt n hp
            have h4 : 2 * (n / p) ≤ p * (n / p) := Nat.mul_le_mul_right _ h1
            split_ifs <;> omega
          have hpos : 0 < size ((a :: rest).set ax' 1) := by
            apply size_set_pos_pj
            simp only [size]
            exact Nat.mul_pos ha (by omega)
          have e1 := size_set_pj (a :: rest) ax' (countOf (ext (a :: rest) ax') p 0) (by simpa using haxl)
          have e2 := size_set_pj (a :: rest) ax' (ext (a :: rest) ax') (by simpa using haxl)
          rw [set_ext_self] at e2
          rw [e1, e2]
          exact (Nat.mul_lt_mul_of_pos_right hlt hpos).ne
      obtain ⟨r, hr, hne⟩ := hbad
      refine mapM_none _ _ (some (p, r)) (by simp [ranksOf, hr]) ?_
      refine rankPart_size_none S _ _ frames ax' _ a0 hmem ?_
      have := (withAxis_slab (gridded S (a :: rest ++ [1])) b.freqIdx frames (a :: rest) (a :: rest ++ [1]) F.fits a0 (F.snaps a0 hmem)
        ax' p r hp hr (by simpa using haxl)).1
      change (withAxis S.xdim S.nv (distributeDimension a0 ax' (some (p, r)))).shape = _ at this
      rw [this, shOf_snoc _ _ _ _ _ (by simpa using haxl), size_append, Nat.mul_one]
      exact hne

/-! #### The hypotheses are met: the grid [4, 2], one mode, two snapshots: one process and 2 or 4 ranks work, 3 ranks raise -/

noncomputable def fexStored : Stored where
  xdim := 2
  nv := 1
  nModes := 1
  freq := [0]
  weights := npSave ⟨[8, 1], fun _ => 1⟩
  modes := fun _ => some (npSave ⟨[8, 1, 1], fun i => (i.getD 0 0 : ℕ)⟩)

def fexFrames : List (Arr ℝ) := [⟨[4, 2], fun i => (i.getD 0 0 : ℕ)⟩, ⟨[4, 2], fun i => (i.getD 1 0 : ℕ)⟩]

example (svd : Svd) (s : (β : Type) → List (Write β) → List (Write β)) (hs : ∀ β l, (s β l).Perm l) :
    ∃ G, project fexStored pexOpts svd fexFrames [none] none = some G ∧
      project fexStored pexOpts svd fexFrames (ranksOf 2) (some s) = some G ∧
      project fexStored pexOpts svd fexFrames (ranksOf 4) (some s) = some G ∧
      project fexStored pexOpts svd fexFrames (ranksOf 3) (some s) = none := by
  obtain ⟨ax, G, h1, -, h2, h3⟩ := flat_projection_exact fexStored pexOpts svd fexFrames ⟨0, 0, 1, [0]⟩ 4 [2]
    (by simp [Coef.selectBand, fexStored, pexOpts, Coef.arange]) rfl (by simp)
    ⟨rfl, fun _ _ => ⟨_, rfl, rfl⟩, rfl, rfl, by
      intro a ha
      simp only [fexFrames, List.mem_cons, List.not_mem_nil, or_false] at ha
      rcases ha with rfl | rfl <;> rfl⟩ (by simp [fexFrames]) (by decide) (by decide) (by decide)
  obtain rfl : ax = 0 := h1.unique ⟨by decide, by decide, by simp⟩
  exact ⟨G, h2, (h3 2 (by decide) s hs).trans (if_pos (by decide)), (h3 4 (by decide) s hs).trans (if_pos (by decide)),
    (h3 3 (by decide) s hs).trans (if_neg (by decide))⟩

end Verif.Props
