import Verif.Model.NormFit
import Verif.Props.Patterns
import Verif.Props.Project
import Verif.Props.Cache
import Verif.Props.FitFiles
/-
  C179-C181: fits with `normalize_weights`.
-/
namespace Verif.Props
open Verif Verif.Par Verif.Rd Verif.Spod Verif.Fit Matrix

/-! ### Specification -/

/-- sum of `F` over the values of variable `i` of all snapshots on the grid `dims` -/
noncomputable def varSum (frames : List (Arr ℝ)) (dims : List Nat) (i : Nat) (F : ℝ → ℝ) : ℝ :=
  (frames.map fun a => ∑ k ∈ Finset.range (size dims), F (a.at' (unravel dims k ++ [i]))).sum

/-- mean of variable `i` over all snapshots and grid points -/
noncomputable def dataMean (frames : List (Arr ℝ)) (dims : List Nat) (i : Nat) : ℝ := varSum frames dims i id / (frames.length * size dims : ℕ)

/-- variance of variable `i` over all snapshots and grid points -/
noncomputable def dataVar (frames : List (Arr ℝ)) (dims : List Nat) (i : Nat) : ℝ :=
  varSum frames dims i (fun v => (v - dataMean frames dims i) ^ 2) / (frames.length * size dims : ℕ)

/-- the weights divided by the variances of the variables -/
noncomputable def byVariance (frames : List (Arr ℝ)) (dims : List Nat) (w : Arr ℝ) : Arr ℝ :=
  ⟨w.shape, fun idx => w.at' idx / dataVar frames dims (idx.getLastD 0)⟩

/-! ### One process -/

/-- the values of variable `i` -/
def valuesOf (dims : List Nat) (i : Nat) (d : List (Arr ℝ)) : List ℝ :=
  (d.map fun a => (List.range (size dims)).map fun (k : Nat) => a.at' (unravel dims k ++ [i])).flatten

theorem varValues_ok (dims : List Nat) (nv i : Nat) (hi : i < nv) (d : List (Arr ℝ)) (hd : ∀ a ∈ d, a.shape = dims ++ [nv]) :
    varValues i d = some ((valuesOf dims i d).map some) := by
  unfold varValues
  rw [if_pos (by intro a ha; rw [hd a ha, List.getLastD_concat]; exact hi)]
  congr 1
  unfold valuesOf
  rw [List.map_flatten, List.map_map]
  congr 1
  refine List.map_congr_left fun a ha => ?_
  simp only [Function.comp, List.map_map, hd a ha, List.dropLast_concat]
  rfl

theorem valuesOf_length (dims : List Nat) (i : Nat) (d : List (Arr ℝ)) : (valuesOf dims i d).length = d.length * size dims := by
  unfold valuesOf
  rw [List.length_flatten, List.map_map]
  induction d with
  | nil => simp
  | cons a d ih =>
    rw [List.map_cons, List.sum_cons, ih, List.length_cons, Nat.add_mul, Function.comp_apply, List.length_map, List.length_range]
    omega

theorem valuesOf_sum (dims : List Nat) (i : Nat) (d : List (Arr ℝ)) (F : ℝ → ℝ) : ((valuesOf dims i d).map F).sum = varSum d dims i F := by
  unfold valuesOf varSum
  rw [List.map_flatten, List.sum_flatten, List.map_map, List.map_map]
  congr 1
  refine List.map_congr_left fun a _ => ?_
  simp only [Function.comp, List.map_map]
  rw [Finset.sum_range]
  rw [← List.sum_ofFn, List.ofFn_eq_map]
  rw [← List.map_coe_finRange_eq_range, List.map_map]
  rfl

theorem valuesOf_stats (dims : List Nat) (i : Nat) (d : List (Arr ℝ)) : (stats (valuesOf dims i d)).2.2 = dataVar d dims i := by
  have h1 : (valuesOf dims i d).sum = varSum d dims i id := by
    rw [← valuesOf_sum, List.map_id]
  simp only [stats, valuesOf_length, h1, dataVar, dataMean]
  rw [valuesOf_sum dims i d (fun v => (v - varSum d dims i id / ((d.length * size dims : ℕ) : ℝ)) ^ 2)]

theorem nanvar_values (dims : List Nat) (i : Nat) (d : List (Arr ℝ)) (hne : d.length * size dims ≠ 0) :
    nanvar ((valuesOf dims i d).map some) = some (dataVar d dims i) := by
  have hf : ((valuesOf dims i d).map (some : ℝ → FV ℝ)).filter Option.isSome = (valuesOf dims i d).map some := by
    rw [List.filter_eq_self]; simp
  simp only [nanvar, hf]
  rw [localStat_some _ (by rw [valuesOf_length]; exact_mod_cast hne)]
  rw [valuesOf_stats]

theorem vals_getD {α} (nv i : Nat) (hi : i < nv) (g : Nat → List α) : ((List.range nv).map g).getD i [] = g i := by
  simp [List.getD_eq_getElem?_getD, hi]

theorem scaleVars_ok (nv : Nat) (dims : List Nat) (v : Nat → FV ℝ) (u : Nat → ℝ) (w : Arr ℝ) (hw : w.shape = dims ++ [nv])
    (h : ∀ i < nv, v i = some (u i) ∧ u i ≠ 0) :
    ∃ w', scaleVars nv v w = some w' ∧ w'.shape = w.shape ∧ ∀ idx, InRange w.shape idx → w'.at' idx = w.at' idx / u (idx.getLastD 0) := by
  unfold scaleVars
  rw [if_pos ⟨by rw [hw, List.getLastD_concat], fun i hi => ⟨u i, h i hi⟩⟩]
  refine ⟨_, rfl, rfl, fun idx hidx => ?_⟩
  rw [hw] at hidx
  obtain ⟨x, k, rfl, hx, hk⟩ := inRange_append hidx
  simp only [List.getLastD_concat]
  rw [if_pos hk, (h k hk).1, Option.getD_some]

theorem normAlone_ok (nv : Nat) (dims : List Nat) (d : List (Arr ℝ)) (w : Arr ℝ) (hw : w.shape = dims ++ [nv]) (hd : ∀ a ∈ d, a.shape = dims ++ [nv])
    (hne : d.length * size dims ≠ 0) (hv : ∀ i < nv, dataVar d dims i ≠ 0) :
    ∃ w', normAlone nv d w = some w' ∧ w'.Eqv (byVariance d dims w) := by
  unfold normAlone
  have hm := mapM_some (List.range nv) (fun i => varValues i d) (fun i => (valuesOf dims i d).map some) fun i hi =>
    varValues_ok dims nv i (List.mem_range.1 hi) d hd
  rw [hm]
  obtain ⟨w', h1, h2, h3⟩ := scaleVars_ok nv dims (fun i => nanvar (((List.range nv).map fun i => (valuesOf dims i d).map some).getD i [])) (dataVar d dims) w hw
    (fun i hi => ⟨by rw [vals_getD nv i hi]; exact nanvar_values dims i d hne, hv i hi⟩)
  exact ⟨w', h1, h2, fun idx hidx => h3 idx (h2 ▸ hidx)⟩

/-- the fit sees the weights only at the grid points -/
theorem rankState_eqv (c : Cfg) (ω : ℂ) (nt : Nat) (s : Src) (w w' : Arr ℝ) (h : w.Eqv w') : rankState c ω nt (s, w) = rankState c ω nt (s, w') := by
  obtain ⟨sh, at1⟩ := w
  obtain ⟨sh', at2⟩ := w'
  obtain ⟨h1, h2⟩ := h
  simp only at h1 h2
  subst h1
  unfold rankState
  have hg : ∀ Q : Nat → Nat → Arr ℂ, (fun f => localGram (Q f) (⟨sh, fun idx => ((at1 idx : ℝ) : ℂ)⟩ : Arr ℂ) ((fitNb c nt : ℕ) : ℂ)) =
      fun f => localGram (Q f) (⟨sh, fun idx => ((at2 idx : ℝ) : ℂ)⟩ : Arr ℂ) ((fitNb c nt : ℕ) : ℂ) := by
    intro Q
    funext f i j
    simp only [localGram]
    congr 1
    refine Finset.sum_congr rfl fun k hk => ?_
    rw [h2 _ (inRange_unravel (Finset.mem_range.1 hk))]
  simp only [hg]

theorem fitRanks_eqv (c : Cfg) (ω : ℂ) (nt : Nat) (solver : Solver (fitNb c nt)) (p : Nat) (a b : Nat → Src × Arr ℝ)
    (h : ∀ r < p, (a r).1 = (b r).1 ∧ (a r).2.Eqv (b r).2) :
    fitRanks c ω nt solver ((List.range p).map a) = fitRanks c ω nt solver ((List.range p).map b) := by
  have : ((List.range p).map a).mapM (rankState c ω nt) = ((List.range p).map b).mapM (rankState c ω nt) := by
    refine mapM_congr' _ _ _ _ fun r hr => ?_
    obtain ⟨h1, h2⟩ := h r (List.mem_range.1 hr)
    have := rankState_eqv c ω nt (a r).1 (a r).2 (b r).2 h2
    have e : b r = ((a r).1, (b r).2) := by rw [h1]
    rw [e, ← this]
  unfold fitRanks
  rw [this]

theorem snapshots_ne {c : Cfg} {files : List (List (Arr ℝ))} {w : Arr ℝ} {m : MeanType} (A : Accepted c files w m) : files.flatten ≠ [] := by
  intro h
  have h1 := ((feasible_iff files.flatten.length c.nDft c.nOvlp A.overlap).1 A.blocks).2
  rw [h] at h1
  have h2 := (feasible_nb c _ A.blocks).2
  have h3 := A.overlap
  simp at h1
  omega

theorem ownArrays_ok (files : List (List (Arr ℝ))) (w : Arr ℝ) (ax : Nat) (comm : Comm) (hne : files.flatten ≠ []) :
    ownArrays files w ax comm = some (files.flatten.map (fun a => distributeDimension a ax comm), distributeDimension w ax comm) := by
  unfold ownArrays
  rw [oneStage_ok files w ax comm hne]

/-- **C179 (one process).** A serial fit with `normalize_weights` is the fit with the weights divided by the variances of the variables. -/
theorem norm_serial (c : Cfg) (ω : ℂ) (files : List (List (Arr ℝ))) (w : Arr ℝ) (m : MeanType) (A : Accepted c files w m) (nv : Nat) (dims : List Nat)
    (hw : w.shape = dims ++ [nv]) (hpos : size dims ≠ 0) (hv : ∀ i < nv, dataVar files.flatten dims i ≠ 0)
    (solver : Solver (fitNb c files.flatten.length)) :
    fitSerialNorm c ω nv files w solver = fitSerial c ω files (byVariance files.flatten dims w) solver := by
  have hne := snapshots_ne A
  obtain ⟨ax, hax, -⟩ := maxAxis_ok files w A.shapes hne A.axes
  have hl : files.flatten.length ≠ 0 := fun h => hne (List.length_eq_zero_iff.1 h)
  obtain ⟨w', h1, h2⟩ := normAlone_ok nv dims files.flatten w hw (fun a ha => by rw [A.shapes a ha, hw]) (Nat.mul_ne_zero hl hpos) hv
  simp only [fitSerialNorm, fitSerial, hax, ownArrays_ok files w ax none hne, oneStage_ok files _ ax none hne]
  have e : files.flatten.map (fun a => distributeDimension a ax none) = files.flatten := by simp [distributeDimension]
  rw [e]
  have e2 : ∀ w : Arr ℝ, distributeDimension w ax none = w := fun w => rfl
  simp only [e2, h1]
  have := fitRanks_eqv c ω files.flatten.length solver 1 (fun _ => (.arr files.flatten, w'))
    (fun _ => (.arr files.flatten, byVariance files.flatten dims w)) fun r _ => ⟨rfl, h2⟩
  simp only [List.range_one, List.map_cons, List.map_nil] at this
  simp only [fit, this, List.map_cons, List.map_nil, saveAll, npSave_congr h2]

/-! ### Ranks -/

theorem perm_lift {l : List (List (FV ℝ))} {parts : List (List ℝ)} (h : l.Perm (parts.map (·.map some))) :
    ∃ parts' : List (List ℝ), l = parts'.map (·.map some) ∧ parts'.Perm parts := by
  have hinv : ∀ q : List ℝ, (q.map (some : ℝ → FV ℝ)).filterMap id = q := by
    intro q
    rw [List.filterMap_map]
    exact List.filterMap_some
  refine ⟨l.map (·.filterMap id), ?_, ?_⟩
  · rw [List.map_map]
    symm
    refine (List.map_congr_left (g := id) fun q hq => ?_).trans (List.map_id l)
    obtain ⟨u, -, rfl⟩ := List.mem_map.1 (h.subset hq)
    exact congrArg (List.map some) (hinv u)
  · have := h.map (·.filterMap id)
    rw [List.map_map] at this
    refine this.trans (List.Perm.of_eq ?_)
    exact (List.map_congr_left (g := id) fun q _ => hinv q).trans (List.map_id _)

theorem slab_value (a : Arr ℝ) (dims : List Nat) (nv i : Nat) (ha : a.shape = dims ++ [nv]) (ax p r k : Nat) (hp : 0 < p) (hr : r < p)
    (hax : ax < dims.length) (hk : k < size (shOf dims ax p r)) :
    (distributeDimension a ax (some (p, r))).at' (unravel (shOf dims ax p r) k ++ [i]) = a.at' (unravel dims (gRow dims ax p r k) ++ [i]) := by
  rw [slab_at, ha, toGlobal_snoc _ _ _ _ _ _ _ hax (by
    have := (inRange_unravel hk).length
    simpa [shOf] using this), unravel_gRow _ _ _ _ _ hp hr hax hk]

/-- sums over the ranks' shares -/
theorem varSum_ranks (frames : List (Arr ℝ)) (dims : List Nat) (nv i : Nat) (hd : ∀ a ∈ frames, a.shape = dims ++ [nv]) (ax p : Nat) (hp : 0 < p)
    (hax : ax < dims.length) (F : ℝ → ℝ) :
    ((List.range p).map fun (r : Nat) => varSum (frames.map fun a => distributeDimension a ax (some (p, r))) (shOf dims ax p r) i F).sum =
      varSum frames dims i F := by
  induction frames with
  | nil => simp [varSum]
  | cons a l ih =>
    have ih := ih fun b hb => hd b (List.mem_cons_of_mem _ hb)
    have h := row_sum dims ax p hp hax (fun k => F (a.at' (unravel dims k ++ [i])))
      (fun r k => F ((distributeDimension a ax (some (p, r))).at' (unravel (shOf dims ax p r) k ++ [i]))) (fun r hr k hk => by
        rw [slab_value a dims nv i (hd a (List.mem_cons_self ..)) ax p r k hp hr hax hk])
    rw [foldr_add_eq_sum] at h
    have e : varSum (a :: l) dims i F = (∑ k ∈ Finset.range (size dims), F (a.at' (unravel dims k ++ [i]))) + varSum l dims i F := by simp [varSum]
    rw [e, ← h, ← ih]
    rw [← List.sum_map_add]
    congr 1

theorem ranks_total (dims : List Nat) (ax p : Nat) (hp : 0 < p) (hax : ax < dims.length) :
    ((List.range p).map fun (r : Nat) => size (shOf dims ax p r)).sum = size dims := by
  have h := row_sum dims ax p hp hax (fun _ => 1) (fun _ _ => 1) (fun _ _ _ _ => rfl)
  rw [foldr_add_eq_sum] at h
  simpa using h

theorem slab_shape' (a : Arr ℝ) (dims : List Nat) (nv : Nat) (ha : a.shape = dims ++ [nv]) (ax p r : Nat) (hp : 0 < p) (hr : r < p) (hax : ax < dims.length) :
    (distributeDimension a ax (some (p, r))).shape = shOf dims ax p r ++ [nv] := by
  rw [slab_shape _ _ _ _ hp hr, ha]
  exact shOf_snoc _ _ _ _ _ hax

/-- the variance the ranks compute together -/
theorem pvar_ranks (tree : List (List (FV ℝ)) → RTree (List (FV ℝ))) (htree : ∀ l, l ≠ [] → (tree l).leaves.Perm l) (frames : List (Arr ℝ)) (dims : List Nat)
    (nv i : Nat) (hne : frames ≠ []) (hd : ∀ a ∈ frames, a.shape = dims ++ [nv]) (ax p : Nat) (hp : 0 < p) (hax : ax < dims.length)
    (hbusy : ∀ r < p, size (shOf dims ax p r) ≠ 0) :
    (pvar (tree ((List.range p).map fun (r : Nat) =>
      (valuesOf (shOf dims ax p r) i (frames.map fun a => distributeDimension a ax (some (p, r)))).map some))).2.2 = some (dataVar frames dims i) := by
  let parts : List (List ℝ) := (List.range p).map fun (r : Nat) => valuesOf (shOf dims ax p r) i (frames.map fun a => distributeDimension a ax (some (p, r)))
  have hl := htree (parts.map (·.map some)) (by simp [parts]; omega)
  obtain ⟨parts', h1, h2⟩ := perm_lift hl
  have hpv := pvar_correct _ parts' h1 (by
    intro q hq
    obtain ⟨r, hr, rfl⟩ := List.mem_map.1 (h2.subset hq)
    intro h0
    have := valuesOf_length (shOf dims ax p r) i (frames.map fun a => distributeDimension a ax (some (p, r)))
    rw [h0, List.length_map] at this
    have h3 := hbusy r (List.mem_range.1 hr)
    have h4 : frames.length ≠ 0 := fun h => hne (List.length_eq_zero_iff.1 h)
    exact (Nat.mul_ne_zero h4 h3) this.symm) parts.flatten h2.symm.flatten
  have e : (parts.map fun q => q.map (some : ℝ → FV ℝ)) = (List.range p).map fun (r : Nat) =>
      (valuesOf (shOf dims ax p r) i (frames.map fun a => distributeDimension a ax (some (p, r)))).map some := by
    simp only [parts, List.map_map]
    rfl
  rw [e] at hpv
  rw [hpv]
  have hsum : ∀ F : ℝ → ℝ, (parts.flatten.map F).sum = varSum frames dims i F := by
    intro F
    rw [List.map_flatten, List.sum_flatten, ← varSum_ranks frames dims nv i hd ax p hp hax F]
    simp only [parts, List.map_map]
    congr 1
    refine List.map_congr_left fun r _ => ?_
    simp only [Function.comp]
    exact valuesOf_sum _ _ _ F
  have hlen : parts.flatten.length = frames.length * size dims := by
    rw [List.length_flatten, ← ranks_total dims ax p hp hax]
    simp only [parts, List.map_map]
    rw [← List.sum_map_mul_left]
    congr 1
    refine List.map_congr_left fun r _ => ?_
    simp only [Function.comp]
    rw [valuesOf_length, List.length_map]
  have hid : parts.flatten.sum = varSum frames dims i id := by rw [← hsum, List.map_id]
  simp only [stats, hlen, hid, dataVar, dataMean]
  rw [hsum (fun v => (v - varSum frames dims i id / ((frames.length * size dims : ℕ) : ℝ)) ^ 2)]

theorem countOf_pos (n p r : Nat) (hr : r < p) (h : p ≤ n) : 0 < countOf n p r := by
  unfold countOf blockdist
  have := Nat.div_pos h (by omega)
  simp only [hr, ↓reduceIte]
  omega

theorem countOf_idle (n p : Nat) (hp : 0 < p) (h : n < p) : countOf n p (p - 1) = 0 := by
  unfold countOf blockdist
  have h1 := Nat.div_eq_of_lt h
  have h2 := Nat.mod_eq_of_lt h
  have h3 : p - 1 < p := by omega
  have h4 : ¬ n > p - 1 := by omega
  simp [h1, h2, h3, h4]

theorem countOf_lt (n p : Nat) (hp : 1 < p) (h : 1 < n) : countOf n p (p - 1) < n := by
  obtain ⟨q, rfl⟩ : ∃ q, p = q + 1 := ⟨p - 1, by omega⟩
  rw [Nat.add_sub_cancel, countOf_last]
  exact Nat.div_lt_self (by omega) (by omega)

/-- a longest axis that is no shorter than the axis of the variables is an axis of the grid -/
theorem split_grid (dims : List Nat) (nv ax : Nat) (hmax : IsFirstMax (dims ++ [nv]) ax) (h : ∃ n ∈ dims, nv ≤ n) : ax < dims.length := by
  obtain ⟨n, hn, hle⟩ := h
  obtain ⟨k, hk, rfl⟩ := List.getElem_of_mem hn
  obtain ⟨h1, h2, h3⟩ := hmax
  by_contra hc
  rw [List.length_append, List.length_singleton] at h1
  have e : ax = dims.length := by omega
  subst e
  have := h3 k hk
  simp [List.getD_eq_getElem?_getD, List.getElem?_append_left hk, List.getElem?_eq_getElem hk] at this
  omega

theorem split_large (dims : List Nat) (nv ax : Nat) (hmax : IsFirstMax (dims ++ [nv]) ax) (hax : ax < dims.length) (n : Nat) (hn : n ∈ dims) : n ≤ ext dims ax := by
  obtain ⟨k, hk, rfl⟩ := List.getElem_of_mem hn
  have := hmax.2.1 k (by rw [List.length_append]; omega)
  simpa [ext, List.getD_eq_getElem?_getD, List.getElem?_append_left hk, List.getElem?_append_left hax, List.getElem?_eq_getElem hk] using this

/-- **C179 (several processes).** When an axis of the grid is no shorter than the list of variables and than the number of ranks, a parallel fit with
    `normalize_weights` is the parallel fit with the weights divided by the variances of the variables over all ranks' data - for every distribution,
    every order in which the reduction combines the ranks and every order of the writes. -/
theorem norm_parallel (c : Cfg) (ω : ℂ) (files : List (List (Arr ℝ))) (w : Arr ℝ) (m : MeanType) (A : Accepted c files w m) (nv : Nat) (dims : List Nat)
    (hw : w.shape = dims ++ [nv]) (hpos : size dims ≠ 0) (hv : ∀ i < nv, dataVar files.flatten dims i ≠ 0)
    (solver : Solver (fitNb c files.flatten.length)) (p : Nat) (hp : 0 < p) (hbig : ∃ n ∈ dims, nv ≤ n ∧ p ≤ n)
    (tree : List (List (FV ℝ)) → RTree (List (FV ℝ))) (htree : ∀ l, l ≠ [] → (tree l).leaves.Perm l)
    (s : (β : Type) → List (Write β) → List (Write β)) (hs : ∀ β l, (s β l).Perm l) :
    fitParallelNorm c ω nv tree files w solver p s = fitParallel c ω files (byVariance files.flatten dims w) solver p s := by
  have hne := snapshots_ne A
  obtain ⟨ax, hax, hmax⟩ := maxAxis_ok files w A.shapes hne A.axes
  have hd : ∀ a ∈ files.flatten, a.shape = dims ++ [nv] := fun a ha => by rw [A.shapes a ha, hw]
  have hgrid : ax < dims.length := by
    obtain ⟨n, h1, h2, h3⟩ := hbig
    exact split_grid dims nv ax (hw ▸ hmax) ⟨n, h1, h2⟩
  have hbusy : ∀ r < p, size (shOf dims ax p r) ≠ 0 := by
    intro r hr
    obtain ⟨n, h1, h2, h3⟩ := hbig
    have h4 := split_large dims nv ax (hw ▸ hmax) hgrid n h1
    have h5 := countOf_pos (ext dims ax) p r hr (by omega)
    have h6 := (size_set_pos dims ax hgrid (by omega)).1
    simp only [shOf]
    rw [size_set _ _ _ hgrid]
    exact Nat.mul_ne_zero (by omega) (by omega)
  simp only [fitParallelNorm, fitParallel, hax]
  rw [mapM_some _ _ _ fun r _ => oneStage_ok files _ ax (some (p, r)) hne, mapM_some _ _ _ fun r _ => ownArrays_ok files w ax (some (p, r)) hne]
  simp only [normRanks, List.map_map]
  have hvals : (List.range nv).mapM (fun i => ((List.range p).map ((fun q : List (Arr ℝ) × Arr ℝ => q.1) ∘ fun r =>
      (files.flatten.map (fun a => distributeDimension a ax (some (p, r))), distributeDimension w ax (some (p, r))))).mapM (varValues i)) =
      some ((List.range nv).map fun i => (List.range p).map fun (r : Nat) =>
        (valuesOf (shOf dims ax p r) i (files.flatten.map fun a => distributeDimension a ax (some (p, r)))).map some) := by
    refine mapM_some _ _ _ fun i hi => ?_
    rw [List.mapM_map]
    refine mapM_some _ _ _ fun r hr => ?_
    refine varValues_ok (shOf dims ax p r) nv i (List.mem_range.1 hi) _ fun a ha => ?_
    obtain ⟨b, hb, rfl⟩ := List.mem_map.1 ha
    exact slab_shape' b dims nv (hd b hb) ax p r hp (List.mem_range.1 hr) hgrid
  rw [hvals]
  simp only
  have hsc : ∀ r < p, ∃ w', scaleVars nv (fun i => (pvar (tree (((List.range nv).map fun i => (List.range p).map fun (r : Nat) =>
        (valuesOf (shOf dims ax p r) i (files.flatten.map fun a => distributeDimension a ax (some (p, r)))).map (some : ℝ → FV ℝ)).getD i []))).2.2)
        (distributeDimension w ax (some (p, r))) = some w' ∧
      w'.Eqv (distributeDimension (byVariance files.flatten dims w) ax (some (p, r))) := by
    intro r hr
    have hshape := slab_shape' w dims nv hw ax p r hp hr hgrid
    obtain ⟨w', h1, h2, h3⟩ := scaleVars_ok nv (shOf dims ax p r) (fun i => (pvar (tree (((List.range nv).map fun i => (List.range p).map fun (r : Nat) =>
        (valuesOf (shOf dims ax p r) i (files.flatten.map fun a => distributeDimension a ax (some (p, r)))).map (some : ℝ → FV ℝ)).getD i []))).2.2)
        (dataVar files.flatten dims) (distributeDimension w ax (some (p, r))) hshape (fun i hi => ⟨by
          rw [vals_getD nv i hi]
          exact pvar_ranks tree htree files.flatten dims nv i hne hd ax p hp hgrid hbusy, hv i hi⟩)
    refine ⟨w', h1, ?_, fun idx hidx => ?_⟩
    · rw [h2]; rfl
    · rw [h3 idx (h2 ▸ hidx), slab_at, slab_at]
      simp only [byVariance]
      rw [h2, hshape] at hidx
      obtain ⟨x, k, rfl, hx, hk⟩ := inRange_append hidx
      rw [hw, toGlobal_snoc _ _ _ _ _ _ _ hgrid (by
        have := hx.length
        simpa [shOf] using this)]
      simp only [List.getLastD_concat]
  have : Inhabited (Arr ℝ) := ⟨⟨[], fun _ => 0⟩⟩
  choose! g hg1 hg2 using hsc
  have hws : (List.map ((fun q : List (Arr ℝ) × Arr ℝ => q.2) ∘ fun r =>
      (files.flatten.map (fun a => distributeDimension a ax (some (p, r))), distributeDimension w ax (some (p, r)))) (List.range p)).mapM
      (scaleVars nv fun i => (pvar (tree (((List.range nv).map fun i => (List.range p).map fun (r : Nat) =>
        (valuesOf (shOf dims ax p r) i (files.flatten.map fun a => distributeDimension a ax (some (p, r)))).map (some : ℝ → FV ℝ)).getD i []))).2.2) =
      some ((List.range p).map g) := by
    rw [List.mapM_map]
    exact mapM_some _ _ _ fun r hr => hg1 r (List.mem_range.1 hr)
  rw [hws]
  simp only
  have hzip : (((List.range p).map fun r => (files.flatten.map (fun a => distributeDimension a ax (some (p, r))), distributeDimension w ax (some (p, r)))).zip
      ((List.range p).map g)).map (fun q => ((Src.arr q.1.1, q.2) : Src × Arr ℝ)) =
      (List.range p).map fun r => (Src.arr (files.flatten.map fun a => distributeDimension a ax (some (p, r))), g r) := by
    rw [List.zip_map', List.map_map]
    rfl
  rw [hzip]
  simp only [fit]
  rw [fitRanks_eqv c ω files.flatten.length solver p (fun r => (Src.arr (files.flatten.map fun a => distributeDimension a ax (some (p, r))), g r)) (fun r => (Src.arr (files.flatten.map fun a => distributeDimension a ax (some (p, r))),
    distributeDimension (byVariance files.flatten dims w) ax (some (p, r)))) fun r hr => ⟨rfl, hg2 r hr⟩]
  have hlen : ax < (byVariance files.flatten dims w).shape.length := by
    show ax < w.shape.length
    exact hmax.1
  have e1 := saveAll_slabs (byVariance files.flatten dims w) ax p hp hlen s hs g hg2
  have e2 := saveAll_slabs (byVariance files.flatten dims w) ax p hp hlen s hs
    (fun r => distributeDimension (byVariance files.flatten dims w) ax (some (p, r))) fun r _ => Arr.Eqv.refl _
  simp only [List.map_map]
  have e3 : saveAll (some s) ax ((List.range p).map ((fun q : Src × Arr ℝ => q.2) ∘ fun r =>
      (Src.arr (files.flatten.map fun a => distributeDimension a ax (some (p, r))), g r))) = npSave (byVariance files.flatten dims w) := e1
  have e4 : saveAll (some s) ax ((List.range p).map ((fun q : Src × Arr ℝ => q.2) ∘ fun r =>
      (Src.arr (files.flatten.map fun a => distributeDimension a ax (some (p, r))),
        distributeDimension (byVariance files.flatten dims w) ax (some (p, r))))) = npSave (byVariance files.flatten dims w) := e2
  rw [e3, e4]

/-- **C179 (fails).** Two or more ranks, and more variables than points along every axis of the grid: the variables are what is split among the ranks, the
    last rank has no variable `nv - 1`, and the fit raises - although the serial fit succeeds. -/
theorem norm_variable_axis_fails (c : Cfg) (ω : ℂ) (files : List (List (Arr ℝ))) (w : Arr ℝ) (m : MeanType) (A : Accepted c files w m) (nv : Nat)
    (dims : List Nat) (hw : w.shape = dims ++ [nv]) (hnv : 1 < nv) (hsmall : ∀ n ∈ dims, n < nv)
    (solver : Solver (fitNb c files.flatten.length)) (p : Nat) (hp : 1 < p) (tree : List (List (FV ℝ)) → RTree (List (FV ℝ)))
    (s : (β : Type) → List (Write β) → List (Write β)) :
    fitParallelNorm c ω nv tree files w solver p s = none := by
  have hne := snapshots_ne A
  obtain ⟨ax, hax, hmax⟩ := maxAxis_ok files w A.shapes hne A.axes
  have hlast : ax = dims.length := by
    have h1 := hmax.1
    rw [hw, List.length_append, List.length_singleton] at h1
    by_contra hc
    have hlt : ax < dims.length := by omega
    have := hmax.2.1 dims.length (by rw [hw, List.length_append, List.length_singleton]; omega)
    rw [hw] at this
    simp [List.getD_eq_getElem?_getD, List.getElem?_append_left hlt, List.getElem?_eq_getElem hlt] at this
    have := hsmall _ (List.getElem_mem hlt)
    omega
  simp only [fitParallelNorm, hax]
  rw [mapM_some _ _ _ fun r _ => ownArrays_ok files w ax (some (p, r)) hne]
  simp only [normRanks, List.map_map]
  have : (List.range nv).mapM (fun i => ((List.range p).map ((fun q : List (Arr ℝ) × Arr ℝ => q.1) ∘ fun r =>
      (files.flatten.map (fun a => distributeDimension a ax (some (p, r))), distributeDimension w ax (some (p, r))))).mapM (varValues i)) = none := by
    refine mapM_none _ _ (nv - 1) (List.mem_range.2 (by omega)) ?_
    rw [List.mapM_map]
    refine mapM_none _ _ (p - 1) (List.mem_range.2 (by omega)) ?_
    simp only [Function.comp]
    unfold varValues
    rw [if_neg]
    intro hall
    obtain ⟨a, ha⟩ := List.exists_mem_of_ne_nil _ hne
    have h1 := hall _ (List.mem_map.2 ⟨a, ha, rfl⟩)
    have e : (dims ++ [nv]).set dims.length (countOf (ext (dims ++ [nv]) dims.length) p (p - 1)) = dims ++ [countOf nv p (p - 1)] := by
      simp [ext]
    rw [slab_shape _ _ _ _ (by omega) (by omega), A.shapes a ha, hw, hlast, e, List.getLastD_concat] at h1
    have := countOf_lt nv p hp hnv
    omega
  rw [this]

/-- **C179 (fails).** More ranks than points along the longest axis of the grid: some rank has no data, every variance is `nan`, and no finite weight is left. -/
theorem norm_idle_rank_fails (c : Cfg) (ω : ℂ) (files : List (List (Arr ℝ))) (w : Arr ℝ) (m : MeanType) (A : Accepted c files w m) (nv : Nat)
    (dims : List Nat) (hw : w.shape = dims ++ [nv]) (hnv : 0 < nv) (hgrid : ∃ n ∈ dims, nv ≤ n) (p : Nat) (hp : ∀ n ∈ dims, n < p)
    (solver : Solver (fitNb c files.flatten.length)) (tree : List (List (FV ℝ)) → RTree (List (FV ℝ))) (htree : ∀ l, l ≠ [] → (tree l).leaves.Perm l)
    (s : (β : Type) → List (Write β) → List (Write β)) :
    fitParallelNorm c ω nv tree files w solver p s = none := by
  have hne := snapshots_ne A
  obtain ⟨ax, hax, hmax⟩ := maxAxis_ok files w A.shapes hne A.axes
  have hd : ∀ a ∈ files.flatten, a.shape = dims ++ [nv] := fun a ha => by rw [A.shapes a ha, hw]
  have hlt : ax < dims.length := split_grid dims nv ax (hw ▸ hmax) hgrid
  have h0 : 0 < p := by
    obtain ⟨n, hn, -⟩ := hgrid
    have := hp n hn
    omega
  have hidle : size (shOf dims ax p (p - 1)) = 0 := by
    simp only [shOf]
    have hm : ext dims ax ∈ dims := by
      simp [ext, List.getD_eq_getElem?_getD, List.getElem?_eq_getElem hlt]
    rw [size_set _ _ _ hlt, countOf_idle _ p h0 (hp _ hm), Nat.zero_mul]
  simp only [fitParallelNorm, hax]
  rw [mapM_some _ _ _ fun r _ => ownArrays_ok files w ax (some (p, r)) hne]
  simp only [normRanks, List.map_map]
  have hvals : (List.range nv).mapM (fun i => ((List.range p).map ((fun q : List (Arr ℝ) × Arr ℝ => q.1) ∘ fun r =>
      (files.flatten.map (fun a => distributeDimension a ax (some (p, r))), distributeDimension w ax (some (p, r))))).mapM (varValues i)) =
      some ((List.range nv).map fun i => (List.range p).map fun (r : Nat) =>
        (valuesOf (shOf dims ax p r) i (files.flatten.map fun a => distributeDimension a ax (some (p, r)))).map some) := by
    refine mapM_some _ _ _ fun i hi => ?_
    rw [List.mapM_map]
    refine mapM_some _ _ _ fun r hr => ?_
    refine varValues_ok (shOf dims ax p r) nv i (List.mem_range.1 hi) _ fun a ha => ?_
    obtain ⟨b, hb, rfl⟩ := List.mem_map.1 ha
    exact slab_shape' b dims nv (hd b hb) ax p r h0 (List.mem_range.1 hr) hlt
  rw [hvals]
  simp only
  have : (List.map ((fun q : List (Arr ℝ) × Arr ℝ => q.2) ∘ fun r =>
      (files.flatten.map (fun a => distributeDimension a ax (some (p, r))), distributeDimension w ax (some (p, r)))) (List.range p)).mapM
      (scaleVars nv fun i => (pvar (tree (((List.range nv).map fun i => (List.range p).map fun (r : Nat) =>
        (valuesOf (shOf dims ax p r) i (files.flatten.map fun a => distributeDimension a ax (some (p, r)))).map (some : ℝ → FV ℝ)).getD i []))).2.2) = none := by
    rw [List.mapM_map]
    refine mapM_none _ _ 0 (List.mem_range.2 h0) ?_
    simp only [Function.comp]
    unfold scaleVars
    rw [if_neg]
    rintro ⟨-, h⟩
    obtain ⟨x, hx, -⟩ := h 0 hnv
    simp only [] at hx
    rw [vals_getD nv 0 hnv] at hx
    have hmem := (htree _ (show ((List.range p).map fun (r : Nat) =>
      (valuesOf (shOf dims ax p r) 0 (files.flatten.map fun a => distributeDimension a ax (some (p, r)))).map (some : ℝ → FV ℝ)) ≠ [] by
        simp; omega)).symm.subset (List.mem_map.2 ⟨p - 1, List.mem_range.2 (by omega), rfl⟩)
    have hnil : (valuesOf (shOf dims ax p (p - 1)) 0 (files.flatten.map fun a => distributeDimension a ax (some (p, p - 1)))).map (some : ℝ → FV ℝ) = [] := by
      rw [List.map_eq_nil_iff, ← List.length_eq_zero_iff, valuesOf_length, hidle, Nat.mul_zero]
    rw [hnil] at hmem
    have := pvar_idle_rank_nan _ hmem
    rw [this] at hx
    simp at hx
  rw [this]

/-- **C179 (fails).** A variable that is constant in space and time: its variance is zero and the weights are not finite. -/
theorem norm_constant_fails (c : Cfg) (ω : ℂ) (files : List (List (Arr ℝ))) (w : Arr ℝ) (m : MeanType) (A : Accepted c files w m) (nv : Nat) (dims : List Nat)
    (hw : w.shape = dims ++ [nv]) (hpos : size dims ≠ 0) (i : Nat) (hi : i < nv) (hv : dataVar files.flatten dims i = 0)
    (solver : Solver (fitNb c files.flatten.length)) : fitSerialNorm c ω nv files w solver = none := by
  have hne := snapshots_ne A
  obtain ⟨ax, hax, -⟩ := maxAxis_ok files w A.shapes hne A.axes
  have hl : files.flatten.length ≠ 0 := fun h => hne (List.length_eq_zero_iff.1 h)
  simp only [fitSerialNorm, hax, ownArrays_ok files w ax none hne]
  have e : files.flatten.map (fun a => distributeDimension a ax none) = files.flatten := by simp [distributeDimension]
  rw [e]
  have : normAlone nv files.flatten (distributeDimension w ax none) = none := by
    unfold normAlone
    rw [mapM_some (List.range nv) (fun i => varValues i files.flatten) (fun i => (valuesOf dims i files.flatten).map some) fun i hi =>
      varValues_ok dims nv i (List.mem_range.1 hi) files.flatten (fun a ha => by rw [A.shapes a ha, hw])]
    simp only
    unfold scaleVars
    rw [if_neg]
    rintro ⟨-, h⟩
    obtain ⟨x, hx, hx0⟩ := h i hi
    simp only [] at hx
    rw [vals_getD nv i hi, nanvar_values dims i _ (Nat.mul_ne_zero hl hpos), hv] at hx
    exact hx0 (Option.some.inj hx).symm
  simp only [this]

/-- the outcomes of a fit with `normalize_weights`: without communicator, or on `p` ranks with any order of reduction and of writes -/
def NormRun (c : Cfg) (ω : ℂ) (nv : Nat) (dims : List Nat) (files : List (List (Arr ℝ))) (w : Arr ℝ) (solver : Solver (fitNb c files.flatten.length))
    (r : Option (Out (fitNb c files.flatten.length))) : Prop :=
  r = fitSerialNorm c ω nv files w solver ∨
  ∃ (p : Nat) (tree : List (List (FV ℝ)) → RTree (List (FV ℝ))) (s : (β : Type) → List (Write β) → List (Write β)), 0 < p ∧ NoSingleton w p ∧
    (∃ n ∈ dims, nv ≤ n ∧ p ≤ n) ∧ (∀ l, l ≠ [] → (tree l).leaves.Perm l) ∧ (∀ β l, (s β l).Perm l) ∧ r = fitParallelNorm c ω nv tree files w solver p s

theorem dataVar_nonneg (frames : List (Arr ℝ)) (dims : List Nat) (i : Nat) : 0 ≤ dataVar frames dims i := by
  unfold dataVar varSum
  refine div_nonneg (List.sum_nonneg ?_) (Nat.cast_nonneg _)
  intro x hx
  obtain ⟨a, -, rfl⟩ := List.mem_map.1 hx
  exact Finset.sum_nonneg fun k _ => sq_nonneg _

theorem byVariance_accepted {c : Cfg} {files : List (List (Arr ℝ))} {w : Arr ℝ} {m : MeanType} (A : Accepted c files w m) (dims : List Nat) :
    Accepted c files (byVariance files.flatten dims w) m :=
  { shapes := A.shapes, axes := A.axes, mean := A.mean, blocks := A.blocks, overlap := A.overlap, window := A.window
    weights := fun x hx => div_nonneg (A.weights x hx) (dataVar_nonneg _ _ _), many := A.many }

/-- **C179.** Every outcome of a fit with `normalize_weights` is an outcome of the fit with the weights divided by the variances of the variables. -/
theorem norm_runs (c : Cfg) (ω : ℂ) (files : List (List (Arr ℝ))) (w : Arr ℝ) (m : MeanType) (A : Accepted c files w m) (nv : Nat) (dims : List Nat)
    (hw : w.shape = dims ++ [nv]) (hpos : size dims ≠ 0) (hv : ∀ i < nv, dataVar files.flatten dims i ≠ 0)
    (solver : Solver (fitNb c files.flatten.length)) (r : Option (Out (fitNb c files.flatten.length))) (hr : NormRun c ω nv dims files w solver r) :
    FitRun c ω files (byVariance files.flatten dims w) solver r := by
  rcases hr with rfl | ⟨p, tree, s, hp, hone, hbig, htree, hs, rfl⟩
  · left
    exact norm_serial c ω files w m A nv dims hw hpos hv solver
  · right
    exact ⟨p, s, hp, hone, hs, norm_parallel c ω files w m A nv dims hw hpos hv solver p hp hbig tree htree s hs⟩

/-! ### Units of the variables -/

theorem list_sum_map_mul {α} (l : List α) (f : α → ℝ) (t : ℝ) : (l.map fun a => t * f a).sum = t * (l.map f).sum := by
  rw [List.sum_map_mul_left]

theorem varSum_scaled (frames frames' : List (Arr ℝ)) (dims : List Nat) (i : Nat) (s : ℝ)
    (h : List.Forall₂ (fun a b => ∀ k < size dims, b.at' (unravel dims k ++ [i]) = s * a.at' (unravel dims k ++ [i])) frames frames') (F : ℝ → ℝ) :
    varSum frames' dims i F = varSum frames dims i (fun v => F (s * v)) := by
  unfold varSum
  congr 1
  induction h with
  | nil => rfl
  | cons hab _ ih =>
    rw [List.map_cons, List.map_cons, ih]
    congr 1
    exact Finset.sum_congr rfl fun k hk => by rw [hab k (Finset.mem_range.1 hk)]

theorem varSum_mul (frames : List (Arr ℝ)) (dims : List Nat) (i : Nat) (t : ℝ) (F : ℝ → ℝ) :
    varSum frames dims i (fun v => t * F v) = t * varSum frames dims i F := by
  unfold varSum
  rw [← list_sum_map_mul]
  congr 1
  refine List.map_congr_left fun a _ => ?_
  rw [Finset.mul_sum]

/-- the variance of a variable in other units -/
theorem dataVar_scaled (frames frames' : List (Arr ℝ)) (dims : List Nat) (i : Nat) (s : ℝ)
    (h : List.Forall₂ (fun a b => ∀ k < size dims, b.at' (unravel dims k ++ [i]) = s * a.at' (unravel dims k ++ [i])) frames frames') :
    dataVar frames' dims i = s ^ 2 * dataVar frames dims i := by
  have hl := h.length_eq
  have h1 : dataMean frames' dims i = s * dataMean frames dims i := by
    unfold dataMean
    rw [varSum_scaled frames frames' dims i s h, ← hl]
    have : varSum frames dims i (fun v => id (s * v)) = s * varSum frames dims i id := varSum_mul frames dims i s id
    rw [this, mul_div_assoc]
  unfold dataVar
  rw [varSum_scaled frames frames' dims i s h, ← hl, h1]
  have : varSum frames dims i (fun v => (s * v - s * dataMean frames dims i) ^ 2) =
      s ^ 2 * varSum frames dims i (fun v => (v - dataMean frames dims i) ^ 2) := by
    rw [← varSum_mul]
    congr 1
    funext v
    ring
  rw [this, mul_div_assoc]

/-- **C180.** With `normalize_weights`, the units of the variables do not matter: when variable `i` is multiplied by `u i ≠ 0` throughout, all eigenvalues stay
    the same and variable `i` of every stored mode is multiplied by `u i` - for all outcomes of both fits, on any numbers of ranks. -/
theorem norm_units (c : Cfg) (ω : ℂ) (files files' : List (List (Arr ℝ))) (w : Arr ℝ) (m : MeanType) (A : Accepted c files w m) (A' : Accepted c files' w m)
    (hnorm : c.normalize = false) (nv : Nat) (dims : List Nat) (hw : w.shape = dims ++ [nv]) (hpos : size dims ≠ 0)
    (hv : ∀ i < nv, dataVar files.flatten dims i ≠ 0) (u : Nat → ℝ) (hu : ∀ i < nv, u i ≠ 0) (hlen : files'.flatten.length = files.flatten.length)
    (h : ∀ t < files.flatten.length, ∀ x i, InRange dims x → i < nv → (files'.flatten.getD t ⟨[], fun _ => 0⟩).at' (x ++ [i]) =
      u i * (files.flatten.getD t ⟨[], fun _ => 0⟩).at' (x ++ [i])) (lib : (nb : Nat) → Solver nb) :
    ∃ out out', (∀ r, NormRun c ω nv dims files w (lib _) r → r = some out) ∧ (∀ r, NormRun c ω nv dims files' w (lib _) r → r = some out') ∧
      ∀ f < nFreq c.nDft c.isreal c.full, ∀ k k', k.1 = k'.1 → out'.eigs f k' = out.eigs f k ∧
        (k.1 < c.nSave → ∀ x i, InRange dims x → i < nv → ∃ φ, fileEntry (out.modes f) (x ++ [i, k.1]) = some φ ∧
          fileEntry (out'.modes f) (x ++ [i, k.1]) = some ((u i : ℂ) * φ)) := by
  have hvar : ∀ i < nv, dataVar files'.flatten dims i = u i ^ 2 * dataVar files.flatten dims i := by
    intro i hi
    refine dataVar_scaled _ _ _ _ _ ?_
    rw [List.forall₂_iff_get]
    refine ⟨hlen.symm, fun t h1 h2 k hk => ?_⟩
    have := h t h1 (unravel dims k) i (inRange_unravel hk) hi
    simpa [List.getD_eq_getElem?_getD, List.getElem?_eq_getElem h1, List.getElem?_eq_getElem h2] using this
  have hv' : ∀ i < nv, dataVar files'.flatten dims i ≠ 0 := fun i hi => by
    rw [hvar i hi]
    exact mul_ne_zero (pow_ne_zero _ (hu i hi)) (hv i hi)
  have hlast : ∀ x : Fin (size w.shape), ∃ z i, unravel w.shape x = z ++ [i] ∧ InRange dims z ∧ i < nv := by
    intro x
    have := inRange_unravel x.2
    have key : ∀ l, l = dims ++ [nv] → ∀ z, InRange l z → InRange (dims ++ [nv]) z := by
      rintro l rfl z hz
      exact hz
    exact inRange_append (key _ hw _ this)
  obtain ⟨out, out', h1, h2, h3⟩ := fit_isometry c ω files files' (byVariance files.flatten dims w) (byVariance files'.flatten dims w) m
    (byVariance_accepted A dims) (byVariance_accepted A' dims) hnorm hlen
    (fun (x y : Fin (size w.shape)) => if x = y then u ((unravel w.shape x).getLastD 0) else 0)
    (fun (y z : Fin (size w.shape)) => by
      show ∑ x : Fin (size w.shape), w.at' (unravel w.shape x) / dataVar files'.flatten dims ((unravel w.shape x).getLastD 0) *
        (if x = y then u ((unravel w.shape x).getLastD 0) else 0) * (if x = z then u ((unravel w.shape x).getLastD 0) else 0) =
        if y = z then w.at' (unravel w.shape y) / dataVar files.flatten dims ((unravel w.shape y).getLastD 0) else 0
      rw [Finset.sum_eq_single y]
      · by_cases hyz : y = z
        · rw [if_pos rfl, if_pos hyz, if_pos hyz]
          obtain ⟨q, i, e, -, hi⟩ := hlast y
          rw [e, List.getLastD_concat, hvar i hi]
          have hne := hv i hi
          have hui := hu i hi
          field_simp
        · rw [if_neg hyz, if_neg hyz, mul_zero]
      · intro x _ hxy
        rw [if_neg hxy, mul_zero, zero_mul]
      · intro h
        exact absurd (Finset.mem_univ _) h)
    (fun t ht (x : Fin (size w.shape)) => by
      show (files'.flatten.getD t ⟨[], fun _ => 0⟩).at' (unravel w.shape x) = ∑ y : Fin (size w.shape),
        (if x = y then u ((unravel w.shape x).getLastD 0) else 0) * (files.flatten.getD t ⟨[], fun _ => 0⟩).at' (unravel w.shape y)
      rw [Finset.sum_eq_single x]
      · rw [if_pos rfl]
        obtain ⟨q, i, e, hq, hi⟩ := hlast x
        rw [e, List.getLastD_concat]
        exact h t ht q i hq hi
      · intro y _ hy
        rw [if_neg (Ne.symm hy), zero_mul]
      · intro h
        exact absurd (Finset.mem_univ _) h) lib
  refine ⟨out, out', fun r hr => h1 r (norm_runs c ω files w m A nv dims hw hpos hv _ r hr),
    fun r hr => h2 r (norm_runs c ω files' w m A' nv dims hw hpos hv' _ r hr), fun f hf k k' hk => ?_⟩
  obtain ⟨e1, e2⟩ := h3 f hf k k' hk
  refine ⟨e1, fun hks x i hx hi => ?_⟩
  obtain ⟨φ, g1, g2⟩ := e2 hks
  have hin : InRange w.shape (x ++ [i]) := by
    rw [hw]
    exact inRange_snoc hx hi
  have hr : unravel w.shape (ravel w.shape (x ++ [i])) = x ++ [i] := unravel_ravel hin
  let z : Fin (size w.shape) := ⟨ravel w.shape (x ++ [i]), ravel_lt hin⟩
  have q1 := g1 z
  have q2 := g2 z
  have hz : unravel w.shape z = x ++ [i] := hr
  have eb : ∀ fr : List (Arr ℝ), (byVariance fr dims w).shape = w.shape := fun _ => rfl
  simp only [eb, hz] at q1 q2
  rw [List.append_assoc] at q1 q2
  refine ⟨φ z, q1, q2.trans ?_⟩
  congr 1
  refine (Finset.sum_eq_single z ?_ ?_).trans ?_
  · intro y _ hy
    rw [if_neg (Ne.symm hy)]
    simp
  · intro h
    exact absurd (Finset.mem_univ _) h
  · rw [if_pos rfl, List.getLastD_concat]

/-! ### Weights without the axis of the variables, dictionaries, streaming -/

/-- **C179 (fails).** Weights given as one flat list - the form the documentation of `custom` asks for, and which passes the size check: only the first `nv`
    entries are divided, entry `i` by the variance of variable `i`, whatever point and variable it belongs to; all others stay as they are. -/
theorem norm_flat_fails (nv N : Nat) (dims : List Nat) (d : List (Arr ℝ)) (w : Arr ℝ) (hw : w.shape = [N]) (hN : nv ≤ N)
    (hd : ∀ a ∈ d, a.shape = dims ++ [nv]) (hne : d.length * size dims ≠ 0) (hv : ∀ i < nv, dataVar d dims i ≠ 0) :
    ∃ w', normAlone nv d w = some w' ∧ w'.shape = [N] ∧ ∀ k < N, w'.at' [k] = if k < nv then w.at' [k] / dataVar d dims k else w.at' [k] := by
  unfold normAlone
  rw [mapM_some (List.range nv) (fun i => varValues i d) (fun i => (valuesOf dims i d).map some) fun i hi =>
    varValues_ok dims nv i (List.mem_range.1 hi) d hd]
  simp only [scaleVars]
  rw [if_pos ⟨by rw [hw]; exact hN, fun i hi => ⟨dataVar d dims i, by rw [vals_getD nv i hi]; exact nanvar_values dims i d hne, hv i hi⟩⟩]
  refine ⟨_, rfl, hw, fun k _ => ?_⟩
  show (if k < nv then w.at' [k] / _ else w.at' [k]) = _
  split
  · rename_i hk
    show w.at' [k] / (nanvar (((List.range nv).map fun i => (valuesOf dims i d).map some).getD k [])).getD 0 = _
    rw [vals_getD nv k hk, nanvar_values dims k d hne, Option.getD_some]
  · rfl


/-- **C179 (fails).** Data read from files by the two-stage readers are a dictionary of pieces: `normalize_weights` raises for them, whatever they contain. -/
theorem norm_dict_fails (nv : Nat) (w : Arr ℝ) : ∀ d, normSrc nv w (.dict d) = none := fun _ => rfl

/-- **C181.** What a streaming fit with `normalize_weights` does: it divides by the variances of the first snapshot, and proceeds with those weights. -/
theorem stream_norm_exact (c : Cfg) (ω : ℂ) (frames : List (Arr ℝ)) (w : Arr ℝ) (nv : Nat) (dims : List Nat) (hsh : ∀ a ∈ frames, a.shape = w.shape)
    (hw : w.shape = dims ++ [nv]) (hpos : size dims ≠ 0) (hne : frames ≠ []) (hv : ∀ i < nv, dataVar (frames.take 1) dims i ≠ 0)
    (svd : SFit.Svd (SFit.kept c frames.length)) :
    ∃ w', w'.Eqv (byVariance (frames.take 1) dims w) ∧ SFit.streamSerialNorm c ω nv frames w svd = SFit.streamSerial c ω frames w' svd := by
  have hl : (frames.take 1).length ≠ 0 := by
    rw [List.length_take]
    have := List.length_pos_of_ne_nil hne
    omega
  obtain ⟨w', h1, h2⟩ := normAlone_ok nv dims (frames.take 1) w hw (fun a ha => by rw [hsh a (List.mem_of_mem_take ha), hw]) (Nat.mul_ne_zero hl hpos) hv
  exact ⟨w', h2, by simp only [SFit.streamSerialNorm, h1]⟩

/-- **C181 (fails).** Two records with the same first snapshot get the same weights, whatever the variances of the variables: the weights stored by a streaming
    fit are the given weights divided by the variances of the first snapshot. -/
theorem stream_norm_fails (c : Cfg) (ω : ℂ) (frames : List (Arr ℝ)) (w : Arr ℝ) (nv : Nat) (dims : List Nat) (hsh : ∀ a ∈ frames, a.shape = w.shape)
    (hw : w.shape = dims ++ [nv]) (hpos : size dims ≠ 0) (hv : ∀ i < nv, dataVar (frames.take 1) dims i ≠ 0)
    (hmean : lower c.meanType = "longtime" ∨ lower c.meanType = "blockwise" ∨ lower c.meanType = "zero")
    (hfeas : feasible c.nDft (nBlocks frames.length c.nDft c.nOvlp) = .ok ()) (hov : c.nOvlp ≤ (c.nDft : Int) - 1) (hsave : 2 ≤ c.nSave)
    (hone1 : size w.shape ≠ 1) (svd : SFit.Svd (SFit.kept c frames.length)) :
    ∃ out, SFit.streamSerialNorm c ω nv frames w svd = some out ∧ ∀ x i, InRange dims x → i < nv →
      fileEntry out.weights (x ++ [i]) = some (w.at' (x ++ [i]) / dataVar (frames.take 1) dims i) ∧
      (w.at' (x ++ [i]) ≠ 0 → dataVar frames dims i ≠ dataVar (frames.take 1) dims i →
        fileEntry out.weights (x ++ [i]) ≠ some (w.at' (x ++ [i]) / dataVar frames dims i)) := by
  have hne : frames ≠ [] := by
    intro h
    have h1 := ((feasible_iff frames.length c.nDft c.nOvlp hov).1 hfeas).2
    rw [h] at h1
    have h2 := (feasible_nb c _ hfeas).2
    simp at h1
    omega
  obtain ⟨w', e1, e2⟩ := stream_norm_exact c ω frames w nv dims hsh hw hpos hne hv svd
  have hws : w'.shape = w.shape := e1.1
  have hwne : w'.shape ≠ [] := by rw [hws, hw]; simp
  obtain ⟨m, hm⟩ := (mean_type_accepted c.meanType).2 hmean
  have hk : 2 ≤ SFit.kept c frames.length := by
    have := (feasible_nb c _ hfeas).1
    unfold SFit.kept
    omega
  obtain ⟨ax, hax, hmax⟩ := maxAxis_ok [frames] w' (by simpa [hws] using hsh) (by simpa using hne) hwne
  have hout : SFit.streamSerial c ω frames w' svd = some (globalStream c ω frames w' svd) := by
    simp only [SFit.streamSerial, hax, readRank_ok]
    simpa [distributeDimension] using stream_ser_global c m hm ω frames w' hfeas hk svd ax (by rw [hws]; exact hone1)
  refine ⟨_, e2.trans hout, fun x i hx hi => ?_⟩
  have hin : InRange w'.shape (x ++ [i]) := by
    rw [hws, hw]
    exact inRange_snoc hx hi
  have hf : fileEntry (globalStream c ω frames w' svd).weights (x ++ [i]) = some (w.at' (x ++ [i]) / dataVar (frames.take 1) dims i) := by
    have : (globalStream c ω frames w' svd).weights = npSave w' := rfl
    rw [this, fileEntry_npSave _ _ hin, e1.2 _ hin]
    simp only [byVariance, List.getLastD_concat]
  refine ⟨hf, fun hw0 hd => ?_⟩
  rw [hf]
  intro h
  have h := Option.some.inj h
  apply hd
  by_cases h0 : dataVar frames dims i = 0
  · rw [h0, div_zero] at h
    exact absurd h (div_ne_zero hw0 (hv i hi))
  · rw [div_eq_div_iff (hv i hi) h0] at h
    exact mul_left_cancel₀ hw0 h

/-- **C181 (fails).** A record whose first snapshot is uniform in some variable (a flow starting from rest): the variance is zero and no streaming fit with
    `normalize_weights` has finite weights. -/
theorem stream_norm_start_fails (c : Cfg) (ω : ℂ) (frames : List (Arr ℝ)) (w : Arr ℝ) (nv : Nat) (dims : List Nat) (hsh : ∀ a ∈ frames, a.shape = w.shape)
    (hw : w.shape = dims ++ [nv]) (hpos : size dims ≠ 0) (hne : frames ≠ []) (i : Nat) (hi : i < nv)
    (v : ℝ) (hu : ∀ x, InRange dims x → (frames.getD 0 ⟨[], fun _ => 0⟩).at' (x ++ [i]) = v) (svd : SFit.Svd (SFit.kept c frames.length)) :
    SFit.streamSerialNorm c ω nv frames w svd = none := by
  obtain ⟨a, rest, rfl⟩ := List.exists_cons_of_ne_nil hne
  have hu : ∀ x, InRange dims x → a.at' (x ++ [i]) = v := by simpa using hu
  have hvar : dataVar [a] dims i = 0 := by
    have hm : dataMean [a] dims i = v := by
      simp only [dataMean, varSum, List.map_cons, List.map_nil, List.sum_cons, List.sum_nil, add_zero, List.length_singleton, one_mul, id]
      rw [Finset.sum_congr rfl fun k hk => hu _ (inRange_unravel (Finset.mem_range.1 hk))]
      rw [Finset.sum_const, Finset.card_range, nsmul_eq_mul]
      have : ((size dims : ℕ) : ℝ) ≠ 0 := by exact_mod_cast hpos
      field_simp
    simp only [dataVar, varSum, List.map_cons, List.map_nil, List.sum_cons, List.sum_nil, add_zero, hm]
    rw [Finset.sum_eq_zero fun k hk => by rw [hu _ (inRange_unravel (Finset.mem_range.1 hk))]; ring, zero_div]
  have : normAlone nv [a] w = none := by
    unfold normAlone
    rw [mapM_some (List.range nv) (fun i => varValues i [a]) (fun i => (valuesOf dims i [a]).map some) fun i hi =>
      varValues_ok dims nv i (List.mem_range.1 hi) [a] (fun b hb => by
        rw [List.mem_singleton.1 hb, hsh a (List.mem_cons_self ..), hw])]
    simp only
    unfold scaleVars
    rw [if_neg]
    rintro ⟨-, h⟩
    obtain ⟨x, hx, hx0⟩ := h i hi
    simp only [] at hx
    rw [vals_getD nv i hi, nanvar_values dims i _ (by simpa using hpos), hvar] at hx
    exact hx0 (Option.some.inj hx).symm
  simp only [SFit.streamSerialNorm, List.take_succ_cons, List.take_zero, this]

/-! #### The hypotheses are met -/

/-- one variable on two points: `v` and `2 v` -/
def spikes (l : List ℝ) : List (List (Arr ℝ)) := [l.map fun v => ⟨[2, 1], fun i => v * (i.getD 0 0 + 1 : ℕ)⟩]

theorem spikes_accepted (l : List ℝ) (hl : l.length = 8) : Accepted calmCfg (spikes l) ⟨[2, 1], fun _ => 1⟩ .blockwise where
  shapes := by
    intro a ha
    simp only [spikes, List.flatten_cons, List.flatten_nil, List.append_nil, List.mem_map] at ha
    obtain ⟨v, -, rfl⟩ := ha
    rfl
  axes := by simp
  mean := by decide
  blocks := by
    have : (spikes l).flatten.length = 8 := by simp [spikes, hl]
    rw [this]; decide
  overlap := by decide
  window := rfl
  weights := fun x _ => zero_le_one
  many := by simp [size]

theorem spikes_var (v : ℝ) : dataVar (spikes [v, 0, 0, 0, 0, 0, 0, 0]).flatten [2] 0 = 71 / 256 * v ^ 2 := by
  have h0 : unravel [2] 0 = [0] := by decide
  have h1 : unravel [2] 1 = [1] := by decide
  simp [dataVar, dataMean, varSum, spikes, size, Finset.sum_range_succ, h0, h1]
  ring

/-- two ranks, either order of the reduction: all outcomes agree with the fit of the divided weights -/
example (ω : ℂ) (solver : Solver (fitNb calmCfg (spikes [1, 0, 0, 0, 0, 0, 0, 0]).flatten.length)) (r)
    (hr : NormRun calmCfg ω 1 [2] (spikes [1, 0, 0, 0, 0, 0, 0, 0]) ⟨[2, 1], fun _ => 1⟩ solver r) :
    FitRun calmCfg ω (spikes [1, 0, 0, 0, 0, 0, 0, 0]) (byVariance (spikes [1, 0, 0, 0, 0, 0, 0, 0]).flatten [2] ⟨[2, 1], fun _ => 1⟩) solver r :=
  norm_runs calmCfg ω _ _ .blockwise (spikes_accepted _ rfl) 1 [2] rfl (by simp [size]) (fun i hi => by
    obtain rfl : i = 0 := by omega
    rw [spikes_var]; norm_num) solver r hr

/-- metres or millimetres -/
example (ω : ℂ) (lib : (nb : Nat) → Solver nb) :
    ∃ out out', (∀ r, NormRun calmCfg ω 1 [2] (spikes [1, 0, 0, 0, 0, 0, 0, 0]) ⟨[2, 1], fun _ => 1⟩ (lib _) r → r = some out) ∧
      (∀ r, NormRun calmCfg ω 1 [2] (spikes [1000, 0, 0, 0, 0, 0, 0, 0]) ⟨[2, 1], fun _ => 1⟩ (lib _) r → r = some out') ∧
      ∀ k k', k.1 = k'.1 → out'.eigs 1 k' = out.eigs 1 k := by
  obtain ⟨out, out', h1, h2, h3⟩ := norm_units calmCfg ω (spikes [1, 0, 0, 0, 0, 0, 0, 0]) (spikes [1000, 0, 0, 0, 0, 0, 0, 0]) ⟨[2, 1], fun _ => 1⟩ .blockwise
    (spikes_accepted _ rfl) (spikes_accepted _ rfl) rfl 1 [2] rfl (by simp [size]) (fun i hi => by
      obtain rfl : i = 0 := by omega
      rw [spikes_var]; norm_num) (fun _ => 1000) (fun _ _ => by norm_num) rfl (fun t ht x i _ _ => by
        have ht : t < 8 := ht
        interval_cases t <;> simp [spikes]) lib
  exact ⟨out, out', h1, h2, fun k k' hk => (h3 1 (by decide) k k' hk).1⟩

/-- first snapshot `1, 2` of variance `1/4`; the record has variance `71/256` -/
example : dataVar ((spikes [1, 0, 0, 0, 0, 0, 0, 0]).flatten.take 1) [2] 0 = 1 / 4 ∧ dataVar (spikes [1, 0, 0, 0, 0, 0, 0, 0]).flatten [2] 0 = 71 / 256 := by
  refine ⟨?_, by rw [spikes_var]; norm_num⟩
  have h0 : unravel [2] 0 = [0] := by decide
  have h1 : unravel [2] 1 = [1] := by decide
  simp [dataVar, dataMean, varSum, spikes, size, Finset.sum_range_succ, h0, h1]
  norm_num

end Verif.Props
