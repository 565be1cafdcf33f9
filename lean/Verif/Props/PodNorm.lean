import Verif.Model.PodNorm
import Verif.Props.PodPerturb
import Verif.Props.NormFit
import Verif.Props.PodError
/-
  C215-C216: POD with `normalize_weights`.
-/
namespace Verif.Props
open Verif Verif.Par Verif.Rd Verif.Spod Verif.Fit Verif.Proj Matrix

/-! ### Specification -/

/-- mean of all values of all snapshots on the grid `dims` -/
noncomputable def allMean (frames : List (Arr ℝ)) (dims : List Nat) : ℝ :=
  (frames.map fun a => ∑ k ∈ Finset.range (size dims), a.at' (unravel dims k)).sum / (frames.length * size dims : ℕ)

/-- variance of all values of all snapshots -/
noncomputable def allVar (frames : List (Arr ℝ)) (dims : List Nat) : ℝ :=
  (frames.map fun a => ∑ k ∈ Finset.range (size dims), (a.at' (unravel dims k) - allMean frames dims) ^ 2).sum / (frames.length * size dims : ℕ)

/-- weights divided by a number -/
noncomputable def overAll (w : Arr ℝ) (v : ℝ) : Arr ℝ := ⟨w.shape, fun idx => w.at' idx / v⟩

/-! ### One rank -/

/-- a snapshot with the axis of its single variable -/
def oneVar (a : Arr ℝ) : Arr ℝ := ⟨a.shape ++ [1], fun idx => a.at' idx.dropLast⟩

theorem varSum_oneVar (frames : List (Arr ℝ)) (dims : List Nat) (i : Nat) (F : ℝ → ℝ) :
    varSum (frames.map oneVar) dims i F = (frames.map fun a => ∑ k ∈ Finset.range (size dims), F (a.at' (unravel dims k))).sum := by
  unfold varSum
  rw [List.map_map]
  congr 1
  refine List.map_congr_left fun a _ => ?_
  simp only [Function.comp, oneVar, List.dropLast_concat]

theorem dataVar_oneVar (frames : List (Arr ℝ)) (dims : List Nat) (i : Nat) : dataVar (frames.map oneVar) dims i = allVar frames dims := by
  unfold dataVar dataMean allVar allMean
  simp only [varSum_oneVar, List.length_map, id]

theorem rankArrays_ok (w : Arr ℝ) (files : List (List (Arr ℝ))) (ax : Nat) (comm : Comm) (h : comm = none ∨ ax < w.shape.length) :
    PodFit.rankArrays w files ax comm = some ((files.flatten.map fun a => distributeDimension a ax comm).map oneVar, distributeDimension w ax comm) := by
  unfold PodFit.rankArrays
  rw [if_pos h, load_eq]
  rfl

/-- the weights are the only thing in which a rank of a normalised fit differs -/
theorem localFrom_of (mk : Pod.MeanKind) (w : Arr ℝ) (files : List (List (Arr ℝ))) (ax : Nat) (comm : Comm) (q : PodFit.Local)
    (h : PodFit.rankData mk w files ax comm = some q) (wl : Arr ℝ) (hs : size wl.shape = size (distributeDimension w ax comm).shape) :
    PodFit.localFrom mk ax comm ((files.flatten.map fun a => distributeDimension a ax comm).map oneVar) wl = some { q with w := flat wl } ∧
      q.w = flat (distributeDimension w ax comm) := by
  unfold PodFit.rankData at h
  rw [load_eq] at h
  simp only at h
  split at h
  · rename_i hc
    simp only [Option.some.injEq] at h
    subst h
    refine ⟨?_, rfl⟩
    unfold PodFit.localFrom
    simp only
    rw [if_pos]
    · rfl
    · rw [hs]; exact hc.2
  · simp at h

/-! ### All ranks -/

theorem values_slab (frames : List (Arr ℝ)) (dims : List Nat) (hd : ∀ a ∈ frames, a.shape = dims) (i ax p r : Nat) (hp : 0 < p) (hr : r < p)
    (hax : ax < dims.length) : valuesOf (shOf dims ax p r) i ((frames.map fun a => distributeDimension a ax (some (p, r))).map oneVar) =
      valuesOf (shOf dims ax p r) i ((frames.map oneVar).map fun a => distributeDimension a ax (some (p, r))) := by
  unfold valuesOf
  rw [List.map_map, List.map_map, List.map_map, List.map_map]
  congr 1
  refine List.map_congr_left fun a ha => ?_
  simp only [Function.comp]
  refine List.map_congr_left fun k hk => ?_
  have hk := List.mem_range.1 hk
  rw [slab_value (oneVar a) dims 1 i (by simp [oneVar, hd a ha]) ax p r k hp hr hax hk]
  simp only [oneVar, List.dropLast_concat]
  rw [slab_at, hd a ha, unravel_gRow _ _ _ _ _ hp hr hax hk]

theorem normRanks_one (frames : List (Arr ℝ)) (hne : frames ≠ []) (w : Arr ℝ) (dims : List Nat) (hd : ∀ a ∈ frames, a.shape = dims)
    (hw : w.shape = dims ++ [1]) (ax p : Nat) (hp : 0 < p) (hax : ax < dims.length) (hbusy : ∀ r < p, size (shOf dims ax p r) ≠ 0)
    (tree : List (List (FV ℝ)) → RTree (List (FV ℝ))) (htree : ∀ l, l ≠ [] → (tree l).leaves.Perm l) (hv : allVar frames dims ≠ 0) :
    ∃ g : Nat → Arr ℝ, normRanks 1 tree ((List.range p).map fun (r : Nat) => ((frames.map fun a => distributeDimension a ax (some (p, r))).map oneVar,
        distributeDimension w ax (some (p, r)))) = some ((List.range p).map g) ∧
      ∀ r < p, (g r).Eqv (distributeDimension (overAll w (allVar frames dims)) ax (some (p, r))) := by
  have hd1 : ∀ a ∈ frames.map oneVar, a.shape = dims ++ [1] := by
    intro a ha
    obtain ⟨b, hb, rfl⟩ := List.mem_map.1 ha
    simp [oneVar, hd b hb]
  have hvals : (List.range 1).mapM (fun i => (((List.range p).map fun (r : Nat) => ((frames.map fun a => distributeDimension a ax (some (p, r))).map oneVar,
        distributeDimension w ax (some (p, r)))).map (·.1)).mapM (varValues i)) =
      some ((List.range 1).map fun i => (List.range p).map fun (r : Nat) =>
        (valuesOf (shOf dims ax p r) i ((frames.map oneVar).map fun a => distributeDimension a ax (some (p, r)))).map some) := by
    refine mapM_some _ _ _ fun i hi => ?_
    rw [List.map_map, List.mapM_map]
    refine mapM_some _ _ _ fun r hr => ?_
    rw [← values_slab frames dims hd i ax p r hp (List.mem_range.1 hr) hax]
    refine varValues_ok (shOf dims ax p r) 1 i (List.mem_range.1 hi) _ fun a ha => ?_
    obtain ⟨b, hb, rfl⟩ := List.mem_map.1 ha
    obtain ⟨b', hb', rfl⟩ := List.mem_map.1 hb
    simp only [oneVar]
    rw [slab_shape _ _ _ _ hp (List.mem_range.1 hr), hd b' hb']
  have hsc : ∀ r < p, ∃ w', scaleVars 1 (fun i => (pvar (tree (((List.range 1).map fun i => (List.range p).map fun (r : Nat) =>
        (valuesOf (shOf dims ax p r) i ((frames.map oneVar).map fun a => distributeDimension a ax (some (p, r)))).map (some : ℝ → FV ℝ)).getD i []))).2.2)
        (distributeDimension w ax (some (p, r))) = some w' ∧
      w'.Eqv (distributeDimension (overAll w (allVar frames dims)) ax (some (p, r))) := by
    intro r hr
    have hshape := slab_shape' w dims 1 hw ax p r hp hr hax
    obtain ⟨w', h1, h2, h3⟩ := scaleVars_ok 1 (shOf dims ax p r) (fun i => (pvar (tree (((List.range 1).map fun i => (List.range p).map fun (r : Nat) =>
        (valuesOf (shOf dims ax p r) i ((frames.map oneVar).map fun a => distributeDimension a ax (some (p, r)))).map (some : ℝ → FV ℝ)).getD i []))).2.2)
        (fun _ => allVar frames dims) (distributeDimension w ax (some (p, r))) hshape (fun i hi => ⟨by
          rw [vals_getD 1 i hi, ← dataVar_oneVar frames dims i]
          exact pvar_ranks tree htree (frames.map oneVar) dims 1 i (by simpa using hne) hd1 ax p hp hax hbusy, hv⟩)
    exact ⟨w', h1, h2, fun idx hidx => by rw [h3 idx (h2 ▸ hidx), slab_at, slab_at]; rfl⟩
  have : Inhabited (Arr ℝ) := ⟨⟨[], fun _ => 0⟩⟩
  choose! g hg1 hg2 using hsc
  refine ⟨g, ?_, hg2⟩
  unfold normRanks
  rw [hvals]
  simp only
  rw [List.map_map, List.mapM_map]
  exact mapM_some _ _ _ fun r hr => hg1 r (List.mem_range.1 hr)

theorem flat_eqv {a b : Arr ℝ} (h : a.Eqv b) (i : Nat) (hi : i < size a.shape) : flat a i = flat b i := by
  unfold flat
  rw [h.2 _ (inRange_unravel hi), h.1]

theorem fitNorm_par (solver : PodFit.Solver) (files : List (List (Arr ℝ))) (mk : Pod.MeanKind) (w w' : Arr ℝ) (hww : w'.shape = w.shape) (dims : List Nat)
    (F : PodFits files.flatten w' dims) (hfr : files.flatten ≠ []) (ax n : Nat) (hax : ax < dims.length) (hn : 0 < n)
    (hnt : n ≤ files.flatten.length) (hpos : 0 < size dims) (p : Nat) (hp : 0 < p)
    (s : (β : Type) → List (Write β) → List (Write β)) (hs : ∀ β l, (s β l).Perm l) (nv : Nat) (tree : List (List (FV ℝ)) → RTree (List (FV ℝ)))
    (g : Nat → Arr ℝ) (h1 : normRanks nv tree ((List.range p).map fun (r : Nat) => ((files.flatten.map fun a => distributeDimension a ax (some (p, r))).map oneVar,
        distributeDimension w ax (some (p, r)))) = some ((List.range p).map g))
    (h2 : ∀ r < p, (g r).Eqv (distributeDimension w' ax (some (p, r)))) :
    PodFit.fitWithNorm solver nv tree files (ranksOf p) (some s) files.flatten.length ax n mk dims w =
      some (podOut mk solver files.flatten (dims ++ [1]) w' n) := by
  have hwax : ax < w.shape.length := by
    rw [← hww]
    rcases F.weights with h | h <;> rw [h]
    · exact hax
    · simp; omega
  have hq := fun (r : Nat) (hr : r < p) => rankData_ok mk w' files dims F hfr ax p r hp hr hax
  have : Inhabited PodFit.Local := ⟨⟨0, fun _ _ => 0, fun _ => 0, none⟩⟩
  choose! q hq1 hq2 hq3 using hq
  have hM := mapM_map_ok p (fun r => (some (p, r) : Comm)) (PodFit.rankArrays w files ax)
    (fun r => ((files.flatten.map fun a => distributeDimension a ax (some (p, r))).map oneVar, distributeDimension w ax (some (p, r))))
    (fun r _ => rankArrays_ok w files ax _ (Or.inr hwax))
  have hnorm : PodFit.normalised nv tree (ranksOf p) ((List.range p).map fun (r : Nat) => ((files.flatten.map fun a => distributeDimension a ax (some (p, r))).map oneVar,
        distributeDimension w ax (some (p, r)))) = some ((List.range p).map g) := by
    rw [← h1]
    unfold PodFit.normalised
    split
    · rename_i h
      have := congrArg List.head? h
      simp [ranksOf, List.head?_range] at this
    · rfl
  have hz : (ranksOf p).zip (((List.range p).map fun (r : Nat) => ((files.flatten.map fun a => distributeDimension a ax (some (p, r))).map oneVar,
        distributeDimension w ax (some (p, r)))).zip ((List.range p).map g)) =
      (List.range p).map fun (r : Nat) => ((some (p, r) : Comm), (((files.flatten.map fun a => distributeDimension a ax (some (p, r))).map oneVar,
        distributeDimension w ax (some (p, r))), g r)) := by
    rw [List.zip_map', ranksOf, List.zip_map']
  have hL := mapM_map_ok p (fun (r : Nat) => ((some (p, r) : Comm), (((files.flatten.map fun a => distributeDimension a ax (some (p, r))).map oneVar,
        distributeDimension w ax (some (p, r))), g r))) (fun q => PodFit.localFrom mk ax q.1 q.2.1.1 q.2.2) (fun r => { q r with w := flat (g r) })
    (fun r hr => (localFrom_of mk w' files ax (some (p, r)) (q r) (hq1 r hr) (g r) (by rw [(h2 r hr).1])).1)
  unfold PodFit.fitWithNorm
  rw [show (ranksOf p).mapM (PodFit.rankArrays w files ax) = _ from hM]
  simp only
  rw [hnorm]
  simp only
  rw [hz, hL]
  refine pod_finish_par solver files.flatten mk w' dims ax n hax hn hnt hpos p hp s hs _ (fun r hr => hq2 r hr) (fun r hr => ⟨(hq3 r hr).n, (hq3 r hr).data, ?_⟩)
  intro i hi h
  rw [← (hq3 r hr).w i hi h, (localFrom_of mk w' files ax (some (p, r)) (q r) (hq1 r hr) (g r) (by rw [(h2 r hr).1])).2]
  refine flat_eqv (h2 r hr) i ?_
  rw [(h2 r hr).1, slab_shape _ _ _ _ hp hr]
  rcases F.weights with hw | hw <;> rw [hw]
  · rw [shOf_one _ _ _ _ hax] at hi
    exact hi
  · exact hi

theorem fitNorm_ser (solver : PodFit.Solver) (files : List (List (Arr ℝ))) (mk : Pod.MeanKind) (w w' : Arr ℝ) (dims : List Nat)
    (F : PodFits files.flatten w' dims) (hfr : files.flatten ≠ []) (ax n : Nat) (hax : ax < dims.length)
    (hnt : n ≤ files.flatten.length) (nv : Nat) (tree : List (List (FV ℝ)) → RTree (List (FV ℝ)))
    (g : Arr ℝ) (h1 : normAlone nv (files.flatten.map oneVar) w = some g) (h2 : g.Eqv w') :
    PodFit.fitWithNorm solver nv tree files [none] none files.flatten.length ax n mk dims w =
      some (podOut mk solver files.flatten (dims ++ [1]) w' n) := by
  obtain ⟨q, hrd, hq3⟩ := rankData_ser files mk w' dims F hfr ax hax
  have hL := localFrom_of mk w' files ax none _ hrd g (by rw [h2.1]; rfl)
  have e : (files.flatten.map fun a => distributeDimension a ax none) = files.flatten := by simp [distributeDimension]
  rw [e] at hL
  unfold PodFit.fitWithNorm
  have hM : ([none] : List Comm).mapM (PodFit.rankArrays w files ax) = some [(files.flatten.map oneVar, w)] := by
    simp only [List.mapM_cons, List.mapM_nil, rankArrays_ok w files ax none (Or.inl rfl), e]
    rfl
  rw [hM]
  simp only [PodFit.normalised, List.mapM_cons, List.mapM_nil, h1]
  show (match ([(none, ((files.flatten.map oneVar, w), g))] : List (Comm × ((List (Arr ℝ) × Arr ℝ) × Arr ℝ))).mapM
    (fun q => PodFit.localFrom mk ax q.1 q.2.1.1 q.2.2) with | none => none | some rs => PodFit.finish solver none files.flatten.length ax n dims rs) = _
  simp only [List.mapM_cons, List.mapM_nil, hL.1]
  refine pod_finish_ser solver files.flatten mk w' dims ax n hax hnt { q with w := flat g } ⟨hq3.n, hq3.data, ?_⟩
  intro i hi h
  rw [← hq3.w i hi h]
  show flat g i = q.w i
  have h3 : q.w = flat w' := hL.2
  rw [h3]
  refine flat_eqv h2 i ?_
  rw [h2.1]
  rw [shOf_whole] at hi
  rcases F.weights with hw | hw <;> rw [hw]
  · rw [size_append, Nat.mul_one] at hi
    exact hi
  · exact hi

/-- the checks before the data are loaded -/
theorem podFitNorm_head {c weights files dims mk n} (R : PodRun c weights files dims mk n) (solver : PodFit.Solver)
    (tree : List (List (FV ℝ)) → RTree (List (FV ℝ))) (comms : List Comm) (sched : Sched) :
    ∃ ax, argmax dims = some ax ∧ PodFit.podFitNorm c weights solver tree files comms sched =
      PodFit.fitWithNorm solver 1 tree files comms sched files.flatten.length ax n mk dims (weights.getD ⟨dims ++ [1], fun _ => 1⟩) := by
  obtain ⟨l0, ls, rfl⟩ := List.exists_cons_of_ne_nil R.files_ne
  obtain ⟨ax, hax⟩ := argmax_isSome dims R.dims_ne
  refine ⟨ax, hax, ?_⟩
  have hsz : size (weights.getD ⟨dims ++ [c.nv], fun _ => 1⟩).shape = size dims * c.nv := by
    rw [R.nv, Nat.mul_one]
    cases weights with
    | none => simp [size_append]
    | some w =>
      rcases R.weights w rfl with h | h <;> simp [h, size_append]
  have hinit : Pod.initShapes c.nv c.xdim ((l0 :: ls).map fun l => (l.length, dims)) = some (l0 :: ls).flatten.length := by
    rw [R.nv, List.map_cons, pod_shape_nt _ _ _ _ R.xdim (by simp)]
    simp [List.length_flatten, Function.comp_def]
  rw [List.map_cons] at hinit
  simp only [PodFit.podFitNorm, shapes_ok _ _ R.ne R.snaps, hinit, List.map_cons, List.headD_cons, hax, R.mean, R.save]
  refine (if_pos hsz).trans ?_
  rw [R.nv]

/-- **C215.** POD with `normalize_weights`, on no more ranks than the longest axis of the grid has points: the fit with the weights divided by the
    variance of all data, for every order in which the ranks' contributions are combined. -/
theorem pod_norm_partial {c weights files dims mk n} (R : PodRun c weights files dims mk n) (hw : ∀ w, weights = some w → w.shape = dims ++ [1])
    (hv : allVar files.flatten dims ≠ 0) (solver : PodFit.Solver) (tree : List (List (FV ℝ)) → RTree (List (FV ℝ)))
    (htree : ∀ l, l ≠ [] → (tree l).leaves.Perm l) {comms : List Comm} {sched : Sched} (hrun : IsRun comms sched)
    (hranks : ∃ m ∈ dims, comms.length ≤ m) :
    PodFit.podFitNorm c weights solver tree files comms sched =
      PodFit.podFit c (some (overAll (weights.getD ⟨dims ++ [1], fun _ => 1⟩) (allVar files.flatten dims))) solver files comms sched := by
  have hfr : files.flatten ≠ [] := by
    obtain ⟨l0, ls, hf⟩ := List.exists_cons_of_ne_nil R.files_ne
    have := R.ne l0 (by simp [hf])
    simp [hf, this]
  have hws : (weights.getD ⟨dims ++ [1], fun _ => 1⟩).shape = dims ++ [1] := by
    cases weights with
    | none => rfl
    | some w => exact hw w rfl
  obtain ⟨ax, hax, e⟩ := podFitNorm_head R solver tree comms sched
  have hlt : ax < dims.length := (argmax_spec _ _ hax).1
  have R' : PodRun c (some (overAll (weights.getD ⟨dims ++ [1], fun _ => 1⟩) (allVar files.flatten dims))) files dims mk n :=
    { R with weights := by rintro w h; rw [← Option.some.inj h]; exact Or.inr hws }
  rw [e, R'.fit solver hrun, Option.getD_some]
  clear e
  generalize weights.getD ⟨dims ++ [1], fun _ => 1⟩ = w0 at hws ⊢
  have F : PodFits files.flatten (overAll w0 (allVar files.flatten dims)) dims := ⟨R.snaps, Or.inr hws⟩
  rcases hrun with ⟨rfl, rfl⟩ | ⟨p, s, hp, hs, rfl, rfl⟩
  · obtain ⟨g, h1, h2⟩ := normAlone_ok 1 dims (files.flatten.map oneVar) w0 hws (by
      intro a ha
      obtain ⟨b, hb, rfl⟩ := List.mem_map.1 ha
      simp [oneVar, R.snaps b hb]) (by
      rw [List.length_map]
      exact Nat.mul_ne_zero (fun h => hfr (List.length_eq_zero_iff.1 h)) R.pos.ne') (fun i _ => by rw [dataVar_oneVar]; exact hv)
    refine fitNorm_ser solver files mk w0 _ dims F hfr ax n hlt R.n_le 1 tree g h1 ⟨h2.1, fun idx hidx => ?_⟩
    rw [h2.2 idx hidx]
    simp only [byVariance, overAll, dataVar_oneVar]
  · have hbusy : ∀ r < p, size (shOf dims ax p r) ≠ 0 := by
      intro r hr
      obtain ⟨m, h1, h2⟩ := hranks
      have h3 : m ≤ ext dims ax := by
        obtain ⟨k, hk, rfl⟩ := List.getElem_of_mem h1
        have := (argmax_spec _ _ hax).2.1 k hk
        simpa [ext, List.getD_eq_getElem?_getD, List.getElem?_eq_getElem hk, List.getElem?_eq_getElem hlt] using this
      have h4 : (ranksOf p).length = p := by simp [ranksOf]
      have h5 := countOf_pos (ext dims ax) p r hr (by omega)
      have h6 := (size_set_pos dims ax hlt R.pos).1
      simp only [shOf]
      rw [size_set _ _ _ hlt]
      exact Nat.mul_ne_zero (by omega) (by omega)
    obtain ⟨g, h1, h2⟩ := normRanks_one files.flatten hfr w0 dims R.snaps hws ax p hp hlt hbusy tree htree hv
    exact fitNorm_par solver files mk w0 (overAll w0 (allVar files.flatten dims)) rfl dims F hfr ax n hlt R.n_pos R.n_le R.pos p hp s hs 1 tree g h1 h2

theorem flatten_ne {c weights files dims mk n} (R : PodRun c weights files dims mk n) : files.flatten ≠ [] := by
  obtain ⟨l0, ls, hf⟩ := List.exists_cons_of_ne_nil R.files_ne
  have := R.ne l0 (by simp [hf])
  simp [hf, this]

/-- **C215 fails** for data that are constant in space and time: the variance is zero and the weights are not finite (one process). -/
theorem pod_norm_constant_fails {c weights files dims mk n} (R : PodRun c weights files dims mk n) (hv : allVar files.flatten dims = 0)
    (solver : PodFit.Solver) (tree : List (List (FV ℝ)) → RTree (List (FV ℝ))) :
    PodFit.podFitNorm c weights solver tree files [none] none = none := by
  have hfr := flatten_ne R
  obtain ⟨ax, hax, e⟩ := podFitNorm_head R solver tree [none] none
  rw [e]
  unfold PodFit.fitWithNorm
  have hM : ([none] : List Comm).mapM (PodFit.rankArrays (weights.getD ⟨dims ++ [1], fun _ => 1⟩) files ax) =
      some [(files.flatten.map oneVar, weights.getD ⟨dims ++ [1], fun _ => 1⟩)] := by
    have e : (files.flatten.map fun a => distributeDimension a ax none) = files.flatten := by simp [distributeDimension]
    simp only [List.mapM_cons, List.mapM_nil, rankArrays_ok _ files ax none (Or.inl rfl), e]
    rfl
  rw [hM]
  have hn : normAlone 1 (files.flatten.map oneVar) (weights.getD ⟨dims ++ [1], fun _ => 1⟩) = none := by
    unfold normAlone
    rw [mapM_some (List.range 1) (fun i => varValues i (files.flatten.map oneVar)) (fun i => (valuesOf dims i (files.flatten.map oneVar)).map some) fun i hi =>
      varValues_ok dims 1 i (List.mem_range.1 hi) (files.flatten.map oneVar) (fun a ha => by
        obtain ⟨b, hb, rfl⟩ := List.mem_map.1 ha
        simp [oneVar, R.snaps b hb])]
    simp only
    unfold scaleVars
    rw [if_neg]
    rintro ⟨-, h⟩
    obtain ⟨x, hx, hx0⟩ := h 0 (by omega)
    simp only [] at hx
    rw [vals_getD 1 0 (by omega), nanvar_values dims 0 _ (by
      rw [List.length_map]
      exact Nat.mul_ne_zero (fun h => hfr (List.length_eq_zero_iff.1 h)) R.pos.ne'), dataVar_oneVar, hv] at hx
    exact hx0 (Option.some.inj hx).symm
  simp only [PodFit.normalised, List.mapM_cons, List.mapM_nil, hn]
  rfl

/-- **C215 fails** on more ranks than the longest axis of the grid has points: the variance computed with an idle rank is `nan`. -/
theorem pod_norm_idle_fails {c weights files dims mk n} (R : PodRun c weights files dims mk n) (solver : PodFit.Solver)
    (tree : List (List (FV ℝ)) → RTree (List (FV ℝ))) (htree : ∀ l, l ≠ [] → (tree l).leaves.Perm l) (p : Nat) (hp : ∀ m ∈ dims, m < p)
    (sched : Sched) : PodFit.podFitNorm c weights solver tree files (ranksOf p) sched = none := by
  have hfr := flatten_ne R
  obtain ⟨ax, hax, e⟩ := podFitNorm_head R solver tree (ranksOf p) sched
  have hlt : ax < dims.length := (argmax_spec _ _ hax).1
  have hm : ext dims ax ∈ dims := by
    simp [ext, List.getD_eq_getElem?_getD, List.getElem?_eq_getElem hlt]
  have h0 : 0 < p := by
    have := hp _ hm
    omega
  have hwax : ax < (weights.getD ⟨dims ++ [1], fun _ => 1⟩).shape.length := by
    cases weights with
    | none => simp; omega
    | some w => rcases R.weights w rfl with h | h <;> simp [h] <;> omega
  rw [e]
  clear e
  generalize weights.getD ⟨dims ++ [1], fun _ => 1⟩ = w0 at hwax ⊢
  have hidle : size (shOf dims ax p (p - 1)) = 0 := by
    simp only [shOf]
    rw [size_set _ _ _ hlt, countOf_idle _ p h0 (hp _ hm), Nat.zero_mul]
  have hM := mapM_map_ok p (fun r => (some (p, r) : Comm)) (PodFit.rankArrays w0 files ax)
    (fun r => ((files.flatten.map fun a => distributeDimension a ax (some (p, r))).map oneVar, distributeDimension w0 ax (some (p, r))))
    (fun r _ => rankArrays_ok w0 files ax _ (Or.inr hwax))
  unfold PodFit.fitWithNorm
  rw [show (ranksOf p).mapM (PodFit.rankArrays w0 files ax) = _ from hM]
  simp only
  have hnorm : PodFit.normalised 1 tree (ranksOf p) ((List.range p).map fun (r : Nat) => ((files.flatten.map fun a => distributeDimension a ax (some (p, r))).map oneVar,
        distributeDimension w0 ax (some (p, r)))) = none := by
    unfold PodFit.normalised
    split
    · rename_i h
      have := congrArg List.head? h
      simp [ranksOf, List.head?_range] at this
    · unfold normRanks
      have hvals : (List.range 1).mapM (fun i => (((List.range p).map fun (r : Nat) => ((files.flatten.map fun a => distributeDimension a ax (some (p, r))).map oneVar,
          distributeDimension w0 ax (some (p, r)))).map (·.1)).mapM (varValues i)) =
          some ((List.range 1).map fun i => (List.range p).map fun (r : Nat) =>
            (valuesOf (shOf dims ax p r) i ((files.flatten.map fun a => distributeDimension a ax (some (p, r))).map oneVar)).map some) := by
        refine mapM_some _ _ _ fun i hi => ?_
        rw [List.map_map, List.mapM_map]
        refine mapM_some _ _ _ fun r hr => ?_
        refine varValues_ok (shOf dims ax p r) 1 i (List.mem_range.1 hi) _ fun a ha => ?_
        obtain ⟨b, hb, rfl⟩ := List.mem_map.1 ha
        obtain ⟨b', hb', rfl⟩ := List.mem_map.1 hb
        simp only [oneVar]
        rw [slab_shape _ _ _ _ h0 (List.mem_range.1 hr), R.snaps b' hb']
      rw [hvals]
      simp only
      rw [List.map_map, List.mapM_map]
      refine mapM_none _ _ 0 (List.mem_range.2 h0) ?_
      simp only [Function.comp]
      unfold scaleVars
      rw [if_neg]
      rintro ⟨-, h⟩
      obtain ⟨x, hx, -⟩ := h 0 (by omega)
      simp only [] at hx
      rw [vals_getD 1 0 (by omega)] at hx
      have hmem := (htree _ (show ((List.range p).map fun (r : Nat) =>
        (valuesOf (shOf dims ax p r) 0 ((files.flatten.map fun a => distributeDimension a ax (some (p, r))).map oneVar)).map (some : ℝ → FV ℝ)) ≠ [] by
          simp; omega)).symm.subset (List.mem_map.2 ⟨p - 1, List.mem_range.2 (by omega), rfl⟩)
      have hnil : (valuesOf (shOf dims ax p (p - 1)) 0 ((files.flatten.map fun a => distributeDimension a ax (some (p, p - 1))).map oneVar)).map
          (some : ℝ → FV ℝ) = [] := by
        rw [List.map_eq_nil_iff, ← List.length_eq_zero_iff, valuesOf_length, hidle, Nat.mul_zero]
      rw [hnil] at hmem
      have := pvar_idle_rank_nan _ hmem
      rw [this] at hx
      simp at hx
  rw [hnorm]

theorem dims_pos_of_size : ∀ dims : List Nat, 0 < size dims → ∀ m ∈ dims, 0 < m
  | [], _, m, h => by simp at h
  | a :: l, h, m, hm => by
    have hs : size (a :: l) = a * size l := by simp [size]
    rw [hs] at h
    rcases List.mem_cons.1 hm with rfl | hm
    · exact Nat.pos_of_mul_pos_right h
    · exact dims_pos_of_size l (Nat.pos_of_mul_pos_left h) m hm

/-- **C215 fails** for weights given without an axis for the variable, as every other option accepts them: `weights[..., 0]` is then the first column of
    the grid, and only the weights of that column are divided by the variance (one process). -/
theorem pod_norm_flat_fails {c w files dims mk n} (R : PodRun c (some w) files dims mk n) (hw : w.shape = dims) (hv : allVar files.flatten dims ≠ 0)
    (solver : PodFit.Solver) (tree : List (List (FV ℝ)) → RTree (List (FV ℝ))) :
    PodFit.podFitNorm c (some w) solver tree files [none] none =
      PodFit.podFit c (some ⟨dims, fun idx => if idx.getLastD 0 = 0 then w.at' idx / allVar files.flatten dims else w.at' idx⟩) solver files [none] none := by
  have hfr := flatten_ne R
  obtain ⟨ax, hax, e⟩ := podFitNorm_head R solver tree [none] none
  have hlt : ax < dims.length := (argmax_spec _ _ hax).1
  have R' : PodRun c (some ⟨dims, fun idx => if idx.getLastD 0 = 0 then w.at' idx / allVar files.flatten dims else w.at' idx⟩) files dims mk n :=
    { R with weights := by rintro w h; rw [← Option.some.inj h]; exact Or.inl rfl }
  rw [e, R'.fit solver (Or.inl ⟨rfl, rfl⟩), Option.getD_some, Option.getD_some]
  refine fitNorm_ser solver files mk w _ dims ⟨R.snaps, Or.inl rfl⟩ hfr ax n hlt R.n_le 1 tree
    ⟨w.shape, fun idx => if idx.getLastD 0 < 1 then w.at' idx / allVar files.flatten dims else w.at' idx⟩ ?_ ⟨hw, fun idx hidx => ?_⟩
  · unfold normAlone
    rw [mapM_some (List.range 1) (fun i => varValues i (files.flatten.map oneVar)) (fun i => (valuesOf dims i (files.flatten.map oneVar)).map some) fun i hi =>
      varValues_ok dims 1 i (List.mem_range.1 hi) (files.flatten.map oneVar) (fun a ha => by
        obtain ⟨b, hb, rfl⟩ := List.mem_map.1 ha
        simp [oneVar, R.snaps b hb])]
    simp only
    have hval : nanvar (((List.range 1).map fun i => (valuesOf dims i (files.flatten.map oneVar)).map (some : ℝ → FV ℝ)).getD 0 []) =
        some (allVar files.flatten dims) := by
      rw [vals_getD 1 0 (by omega), nanvar_values dims 0 _ (by
        rw [List.length_map]
        exact Nat.mul_ne_zero (fun h => hfr (List.length_eq_zero_iff.1 h)) R.pos.ne'), dataVar_oneVar]
    unfold scaleVars
    rw [if_pos]
    · congr 2
      funext idx
      by_cases h : idx.getLastD 0 < 1
      · rw [if_pos h, if_pos h, show idx.getLastD 0 = 0 by omega]
        beta_reduce
        rw [hval, Option.getD_some]
      · rw [if_neg h, if_neg h]
    · refine ⟨?_, fun i hi => ?_⟩
      · rw [hw]
        have : dims.getLastD 0 ∈ dims := by
          rw [List.getLastD_eq_getLast?, List.getLast?_eq_some_getLast R.dims_ne]
          exact List.getLast_mem R.dims_ne
        have := dims_pos_of_size dims R.pos _ this
        omega
      · obtain rfl : i = 0 := by omega
        exact ⟨_, hval, hv⟩
  · simp only [Nat.lt_one_iff]

/-! ### Other units -/

theorem list_sum_affine {α : Type} (l : List α) (f : α → ℝ) (s b : ℝ) : (l.map fun a => s * f a + b).sum = s * (l.map f).sum + l.length * b := by
  induction l with
  | nil => simp
  | cons a l ih =>
    simp only [List.map_cons, List.sum_cons, ih, List.length_cons]
    push_cast
    ring

/-- the variance of data in other units -/
theorem allVar_affine (frames frames' : List (Arr ℝ)) (dims : List Nat) (s b : ℝ) (hne : frames ≠ []) (hpos : 0 < size dims)
    (hlen : frames'.length = frames.length)
    (h : ∀ t < frames.length, ∀ k < size dims, (frames'.getD t ⟨[], fun _ => 0⟩).at' (unravel dims k) =
      s * (frames.getD t ⟨[], fun _ => 0⟩).at' (unravel dims k) + b) :
    allVar frames' dims = s ^ 2 * allVar frames dims := by
  have key : ∀ F : ℝ → ℝ, (frames'.map fun a => ∑ k ∈ Finset.range (size dims), F (a.at' (unravel dims k))) =
      frames.map fun a => ∑ k ∈ Finset.range (size dims), F (s * a.at' (unravel dims k) + b) := by
    intro F
    refine List.ext_getElem (by simp [hlen]) fun t h1 h2 => ?_
    simp only [List.length_map] at h1 h2
    simp only [List.getElem_map]
    refine Finset.sum_congr rfl fun k hk => ?_
    have := h t h2 k (Finset.mem_range.1 hk)
    simp only [List.getD_eq_getElem?_getD, List.getElem?_eq_getElem h1, List.getElem?_eq_getElem h2, Option.getD_some] at this
    rw [this]
  have hN : ((frames.length * size dims : ℕ) : ℝ) ≠ 0 := by
    exact_mod_cast Nat.mul_ne_zero (fun h => hne (List.length_eq_zero_iff.1 h)) hpos.ne'
  have hm : allMean frames' dims = s * allMean frames dims + b := by
    unfold allMean
    rw [key fun v => v, hlen]
    have : (fun a : Arr ℝ => ∑ k ∈ Finset.range (size dims), (s * a.at' (unravel dims k) + b)) =
        fun a => s * (∑ k ∈ Finset.range (size dims), a.at' (unravel dims k)) + size dims * b := by
      funext a
      rw [Finset.sum_add_distrib, ← Finset.mul_sum, Finset.sum_const, Finset.card_range, nsmul_eq_mul]
    rw [this, list_sum_affine]
    push_cast at hN ⊢
    rw [add_div, mul_div_assoc, ← mul_assoc, mul_div_cancel_left₀ _ hN]
  unfold allVar
  rw [key fun v => (v - allMean frames' dims) ^ 2, hm, hlen]
  have : (fun a : Arr ℝ => ∑ k ∈ Finset.range (size dims), (s * a.at' (unravel dims k) + b - (s * allMean frames dims + b)) ^ 2) =
      fun a => s ^ 2 * (∑ k ∈ Finset.range (size dims), (a.at' (unravel dims k) - allMean frames dims) ^ 2) + 0 := by
    funext a
    rw [add_zero, Finset.mul_sum]
    exact Finset.sum_congr rfl fun k _ => by ring
  rw [this, list_sum_affine, mul_zero, add_zero, mul_div_assoc]

/-- **C216.** With `normalize_weights` the units of the data do not matter to POD: when every value `v` becomes `s v + b` (`b = 0` if no mean is subtracted),
    the eigenvalues stay the same, in some order, and the stored mode of a positive simple eigenvalue is multiplied by `|s|`, up to its sign - for any
    exact solvers and any numbers of ranks not above the length of the longest axis. -/
theorem pod_norm_units {c c' weights files files' dims mk n n'} (R : PodRun c weights files dims mk n) (R' : PodRun c' weights files' dims mk n')
    (hw : ∀ w, weights = some w → w.shape = dims ++ [1]) (solver solver' : PodFit.Solver) (lamV lamV') (hs : PodSolver solver lamV)
    (hs' : PodSolver solver' lamV') (s b : ℝ) (hs0 : s ≠ 0) (hb : mk = .zero → b = 0) (hv : allVar files.flatten dims ≠ 0)
    (hlen : files'.flatten.length = files.flatten.length)
    (h : ∀ t < files.flatten.length, ∀ idx, InRange dims idx → (files'.flatten.getD t ⟨[], fun _ => 0⟩).at' idx =
      s * (files.flatten.getD t ⟨[], fun _ => 0⟩).at' idx + b)
    (tree tree' : List (List (FV ℝ)) → RTree (List (FV ℝ))) (htree : ∀ l, l ≠ [] → (tree l).leaves.Perm l)
    (htree' : ∀ l, l ≠ [] → (tree' l).leaves.Perm l) {comms comms' : List Comm} {sched sched' : Sched} (hrun : IsRun comms sched)
    (hrun' : IsRun comms' sched') (hranks : ∃ m ∈ dims, comms.length ≤ m) (hranks' : ∃ m ∈ dims, comms'.length ≤ m) :
    ∃ o o', PodFit.podFitNorm c weights solver tree files comms sched = some o ∧
      PodFit.podFitNorm c' weights solver' tree' files' comms' sched' = some o' ∧ o'.eigs.Perm o.eigs ∧
      ∀ j < n, ∀ j' < n', 0 < (o.eigs.getD j 0).re → (∀ i < files.flatten.length, i ≠ j → o.eigs.getD i 0 ≠ o.eigs.getD j 0) →
        o'.eigs.getD j' 0 = o.eigs.getD j 0 →
        ∃ z : ℝ, (z = 1 ∨ z = -1) ∧ ∀ x, podStoredMode o' (size (dims ++ [1])) n' j' x = ((z * |s| : ℝ) : ℂ) * podStoredMode o (size (dims ++ [1])) n j x := by
  have hfr := flatten_ne R
  have hvar : allVar files'.flatten dims = s ^ 2 * allVar files.flatten dims :=
    allVar_affine _ _ _ _ _ hfr R.pos hlen fun t ht k hk => h t ht _ (inRange_unravel hk)
  have hv' : allVar files'.flatten dims ≠ 0 := by rw [hvar]; exact mul_ne_zero (pow_ne_zero _ hs0) hv
  have hws : (weights.getD ⟨dims ++ [1], fun _ => 1⟩).shape = dims ++ [1] := by
    cases weights with
    | none => rfl
    | some w => exact hw w rfl
  have Q : PodRun c (some (overAll (weights.getD ⟨dims ++ [1], fun _ => 1⟩) (allVar files.flatten dims))) files dims mk n :=
    { R with weights := by rintro w h; rw [← Option.some.inj h]; exact Or.inr hws }
  have Q' : PodRun c' (some (overAll (weights.getD ⟨dims ++ [1], fun _ => 1⟩) (allVar files'.flatten dims))) files' dims mk n' :=
    { R' with weights := by rintro w h; rw [← Option.some.inj h]; exact Or.inr hws }
  rw [pod_norm_partial R hw hv solver tree htree hrun hranks, pod_norm_partial R' hw hv' solver' tree' htree' hrun' hranks']
  obtain ⟨o, o', h1, h2, h3, h4⟩ := pod_changed_data Q Q' solver solver' lamV lamV' hs hs' (1 / s ^ 2) s (by positivity) hs0 (Equiv.refl _)
    (finCongr hlen.symm) (fun _ => b) (fun hz _ => hb hz)
    (by
      intro x t
      have hx : x.1 < size dims := by
        have := x.2
        simpa [size_append] using this
      have e1 : ∀ l : List (Arr ℝ), (∀ a ∈ l, a.shape = dims) → ∀ t < l.length, flat (l.getD t ⟨[], fun _ => 0⟩) x.1 =
          (l.getD t ⟨[], fun _ => 0⟩).at' (unravel dims x.1) := by
        intro l hl t ht
        have : (l.getD t ⟨[], fun _ => 0⟩).shape = dims := by
          rw [List.getD_eq_getElem?_getD, List.getElem?_eq_getElem ht]
          exact hl _ (List.getElem_mem ht)
        simp only [flat, this]
      show flat (files'.flatten.getD t.1 ⟨[], fun _ => 0⟩) x.1 = s * flat (files.flatten.getD t.1 ⟨[], fun _ => 0⟩) x.1 + b
      rw [e1 _ R'.snaps _ (by have := t.2; omega), e1 _ R.snaps _ t.2]
      exact h t.1 t.2 _ (inRange_unravel hx))
    (by
      intro x
      simp only [podW, Option.getD_some, flat, overAll, Equiv.refl_apply, hvar]
      have := hv
      field_simp) hrun hrun'
  have ha : ((1 / s ^ 2 * s ^ 2 : ℝ) : ℂ) = 1 := by
    rw [one_div, inv_mul_cancel₀ (pow_ne_zero 2 hs0)]
    simp
  rw [ha] at h3
  simp only [one_mul, List.map_id'] at h3
  refine ⟨o, o', h1, h2, h3, fun j hj j' hj' p1 p2 p3 => ?_⟩
  obtain ⟨z, z1, z2⟩ := h4 j hj j' hj' p1 p2 (by rw [ha, one_mul]; exact p3)
  refine ⟨z, z1, fun x => ?_⟩
  have e : z / Real.sqrt (1 / s ^ 2) = z * |s| := by
    rw [one_div, Real.sqrt_inv, Real.sqrt_sq_eq_abs, div_inv_eq_mul]
  rw [← e]
  exact z2 x

/-! ### Non-vacuity: the values `2, -2` at the first and `1, 1, -1, -1` at the second point -/

theorem podFour_mean : allMean podFour.flatten [2] = 0 := by
  have e : ∀ g : ℕ → ℝ, ∑ k ∈ Finset.range (size [2]), g k = g 0 + g 1 := fun g => by simp [size, Finset.sum_range_succ]
  have u0 : unravel [2] 0 = [0] := by decide
  have u1 : unravel [2] 1 = [1] := by decide
  simp only [allMean, e, u0, u1, podFour]
  norm_num

/-- the variance of all eight values -/
theorem podFour_var : allVar podFour.flatten [2] = 5 / 2 := by
  have e : ∀ g : ℕ → ℝ, ∑ k ∈ Finset.range (size [2]), g k = g 0 + g 1 := fun g => by simp [size, Finset.sum_range_succ]
  have u0 : unravel [2] 0 = [0] := by decide
  have u1 : unravel [2] 1 = [1] := by decide
  unfold allVar
  rw [podFour_mean]
  simp only [e, u0, u1, podFour]
  norm_num [size]

/-- any order of the reduction: here one after the other -/
def inTurn : List (List (FV ℝ)) → RTree (List (FV ℝ))
  | [] => .rank []
  | [a] => .rank a
  | a :: l => .node (.rank a) (inTurn l)

theorem inTurn_leaves : ∀ l, l ≠ [] → (inTurn l).leaves.Perm l
  | [], h => absurd rfl h
  | [a], _ => by simp [inTurn, RTree.leaves]
  | a :: b :: l, _ => by
    have := inTurn_leaves (b :: l) (by simp)
    simp only [inTurn, RTree.leaves, List.singleton_append]
    exact this.cons a

/-- `pod_norm_partial`: two ranks, the weights become `2/5` -/
example (solver : PodFit.Solver) : PodFit.podFitNorm podFourCfg none solver inTurn podFour (ranksOf 2) (some fun _ l => l) =
    PodFit.podFit podFourCfg (some (overAll ⟨[2] ++ [1], fun _ => 1⟩ (5 / 2))) solver podFour (ranksOf 2) (some fun _ l => l) := by
  have := pod_norm_partial podFourRun (by simp) (by rw [podFour_var]; norm_num) solver inTurn inTurn_leaves
    (comms := ranksOf 2) (sched := some fun _ l => l) (Or.inr ⟨2, _, by omega, fun _ _ => List.Perm.refl _, rfl, rfl⟩) ⟨2, by simp, by simp [ranksOf]⟩
  rw [podFour_var] at this
  exact this

/-- `pod_norm_idle_fails`: three ranks on two points -/
example (solver : PodFit.Solver) (sched : Sched) : PodFit.podFitNorm podFourCfg none solver inTurn podFour (ranksOf 3) sched = none :=
  pod_norm_idle_fails podFourRun solver inTurn inTurn_leaves 3 (by simp) sched

/-- `pod_norm_constant_fails`: two equal snapshots with equal values -/
example (solver : PodFit.Solver) : PodFit.podFitNorm podOneCfg none solver inTurn (podPair 3 3 3 3) [none] none = none := by
  refine pod_norm_constant_fails (podPairRun 3 3 3 3) ?_ solver inTurn
  have e : ∀ g : ℕ → ℝ, ∑ k ∈ Finset.range (size [2]), g k = g 0 + g 1 := fun g => by simp [size, Finset.sum_range_succ]
  simp only [allVar, allMean, e, podPair]
  norm_num [size]

/-- `pod_norm_units`: Fahrenheit instead of Celsius -/
example (solver : PodFit.Solver) (lamV) (hs : PodSolver solver lamV) :
    ∃ o o', PodFit.podFitNorm podFourCfg none solver inTurn podFour [none] none = some o ∧
      PodFit.podFitNorm podFourCfg none solver inTurn (podFour.map fun l => l.map fun a => ⟨a.shape, fun idx => 9 / 5 * a.at' idx + 32⟩) (ranksOf 2)
        (some fun _ l => l) = some o' ∧ o'.eigs.Perm o.eigs := by
  have R' : PodRun podFourCfg none (podFour.map fun l => l.map fun a => (⟨a.shape, fun idx => 9 / 5 * a.at' idx + 32⟩ : Arr ℝ)) [2] .longtime 1 :=
    { podFourRun with
      files_ne := by simp [podFour]
      ne := by simp [podFour]
      snaps := by simp [podFour]
      n_le := by simp [podFour] }
  obtain ⟨o, o', h1, h2, h3, -⟩ := pod_norm_units podFourRun R' (by simp) solver solver lamV lamV hs hs (9 / 5) 32 (by norm_num) (by simp)
    (by rw [podFour_var]; norm_num) (by simp [podFour]) (by
      intro t ht idx _
      have ht : t < 4 := ht
      obtain rfl | rfl | rfl | rfl : t = 0 ∨ t = 1 ∨ t = 2 ∨ t = 3 := by omega
      all_goals simp [podFour]) inTurn inTurn inTurn_leaves inTurn_leaves (comms := [none]) (sched := none) (comms' := ranksOf 2) (sched' := some fun _ l => l)
    (Or.inl ⟨rfl, rfl⟩) (Or.inr ⟨2, _, by omega, fun _ _ => List.Perm.refl _, rfl, rfl⟩) ⟨2, by simp, by simp⟩ ⟨2, by simp, by simp [ranksOf]⟩
  exact ⟨o, o', h1, h2, h3⟩

/-- `pod_norm_flat_fails`: of the weights `1, 1` given without the axis of the variable only the first is divided -/
example (solver : PodFit.Solver) : PodFit.podFitNorm podFourCfg (some ⟨[2], fun _ => 1⟩) solver inTurn podFour [none] none =
    PodFit.podFit podFourCfg (some ⟨[2], fun idx => if idx.getLastD 0 = 0 then 1 / (5 / 2) else 1⟩) solver podFour [none] none := by
  have R : PodRun podFourCfg (some ⟨[2], fun _ => 1⟩) podFour [2] .longtime 1 :=
    { podFourRun with weights := by rintro w h; rw [← Option.some.inj h]; exact Or.inl rfl }
  have := pod_norm_flat_fails R rfl (by rw [podFour_var]; norm_num) solver inTurn
  rw [podFour_var] at this
  exact this

end Verif.Props
