import Verif.Model.PodFit
import Verif.Props.Project
import Verif.Props.Pod
/-
  C108-C111: the POD workflow end to end.
-/
namespace Verif.Props
open Verif Verif.Par Verif.Fit Verif.Proj Matrix

/-! ### Specification: the whole data on one process -/

/-- the data: row = grid point in C order, column = snapshot -/
def podD (frames : List (Arr ℝ)) (sh : List Nat) : Matrix (Fin (size sh)) (Fin frames.length) ℝ :=
  Matrix.of fun i t => flat (frames.getD t ⟨[], fun _ => 0⟩) i

/-- the weights in C order -/
def podW (w : Arr ℝ) (sh : List Nat) : Fin (size sh) → ℝ := fun i => flat w i

/-- the modes of POD for the answer `lv` of the eigen-solver: real part of `D v`, divided by the square root of the eigenvalue -/
noncomputable def podPhi {nt : Nat} (sh : List Nat) (D : Matrix (Fin (size sh)) (Fin nt) ℝ)
    (lv : (Fin nt → ℂ) × Matrix (Fin nt) (Fin nt) ℂ) (n : Nat) : Matrix (Fin (size sh)) (Fin n) ℂ :=
  Matrix.of fun i j => if h : j.1 < nt then
    ((∑ t, (D i t : ℂ) * lv.2 t ⟨j, h⟩).re : ℂ) / lv.1 ⟨j, h⟩ ^ (1 / 2 : ℂ) else 0

/-- a vector in C order as an array -/
def vecArr (sh : List Nat) (v : Fin (size sh) → ℝ) : Arr ℝ where
  shape := sh
  at' := fun idx => if h : ravel sh idx < size sh then v ⟨_, h⟩ else 0

/-- the results folder of the whole data -/
noncomputable def podOut (mk : Pod.MeanKind) (solver : PodFit.Solver) (frames : List (Arr ℝ)) (sh : List Nat) (w : Arr ℝ) (n : Nat) :
    PodFit.Out :=
  let D := Pod.fitData mk (podD frames sh)
  let lv := solver frames.length (Pod.corrMat D (podW w sh))
  { eigs := List.ofFn lv.1
    modes := npSave (gridArr sh (podPhi sh D lv n))
    weights := npSave (vecArr sh (podW w sh)) }

/-! ### Setting the shape of a flattened slab -/

theorem unravel_pod (N n i j : Nat) (hi : i < N) (hj : j < n) : unravel [N, n] (i * n + j) = [i, j] := by
  have := unravel_append [N] n i j (by simpa [size] using hi) hj
  rw [List.singleton_append] at this
  rw [this]
  simp [unravel, size]

theorem setShape_flat {α} (q : Arr α) (sh : List Nat) (ax p r : Nat) (hax : ax < sh.length) (hpos : 0 < size sh)
    (hq : size q.shape = size (shOf sh ax p r)) :
    setShape q sh (some ax) =
      some ⟨shOf sh ax p r, fun idx => q.at' (unravel q.shape (ravel (shOf sh ax p r) idx))⟩ := by
  have h1 := size_set_pos_pj sh ax hpos
  have h2 : size q.shape = countOf (ext sh ax) p r * size (sh.set ax 1) := by
    rw [hq]
    exact size_set_pj sh ax _ hax
  have h3 : ¬ (size (sh.set ax 1) = 0 ∨ size q.shape % size (sh.set ax 1) ≠ 0) := by
    rw [h2, Nat.mul_mod_left]
    omega
  simp only [setShape, if_neg h3]
  rw [h2, Nat.mul_div_cancel _ h1]

/-- the reshaped modes of a rank -/
theorem grid_slab (sh : List Nat) (k : Nat) (A : Matrix (Fin (size sh)) (Fin k) ℂ) (ax p r : Nat) (hp : 0 < p) (hr : r < p)
    (hax : ax < sh.length) (q : Arr ℂ) (hq : q.shape = [size (shOf sh ax p r), k])
    (he : ∀ i < size (shOf sh ax p r), ∀ h, ∀ j : Fin k, q.at' [i, j] = A ⟨gRow sh ax p r i, h⟩ j) :
    (⟨shOf (sh ++ [k]) ax p r, fun idx => q.at' (unravel q.shape (ravel (shOf (sh ++ [k]) ax p r) idx))⟩ : Arr ℂ).Eqv
      (distributeDimension (gridArr sh A) ax (some (p, r))) := by
  constructor
  · rw [slab_shape _ _ _ _ hp hr]
    rfl
  · intro idx hidx
    simp only [shOf_snoc _ _ _ _ _ hax] at hidx ⊢
    obtain ⟨x, j, rfl, hx, hj⟩ := inRange_append hidx
    rw [slab_at]
    simp only [gridArr]
    rw [toGlobal_snoc _ _ _ _ _ _ _ hax (by simpa using hx.length)]
    have hg := shOf_inRange sh ax p r hp hr hax x hx
    have hlt := ravel_lt hx
    simp only [List.getLastD_concat, List.dropLast_concat]
    rw [dif_pos ⟨ravel_lt hg, hj⟩, ravel_append _ _ _ _ hx hj, hq, unravel_pod _ _ _ _ hlt hj,
      he _ hlt (gRow_lt sh ax p r _ hp hr hax hlt) ⟨j, hj⟩]
    congr 1
    simp only [Fin.mk.injEq]
    rw [ravel_toGlobal sh ax p r hp hr hax x hx]

theorem vec_slab (sh : List Nat) (v : Fin (size sh) → ℝ) (ax p r : Nat) (hp : 0 < p) (hr : r < p)
    (hax : ax < sh.length) (q : Arr ℝ) (hq : q.shape = [size (shOf sh ax p r), 1])
    (he : ∀ i < size (shOf sh ax p r), ∀ h, q.at' [i, 0] = v ⟨gRow sh ax p r i, h⟩) :
    (⟨shOf sh ax p r, fun idx => q.at' (unravel q.shape (ravel (shOf sh ax p r) idx))⟩ : Arr ℝ).Eqv
      (distributeDimension (vecArr sh v) ax (some (p, r))) := by
  constructor
  · rw [slab_shape _ _ _ _ hp hr]
    rfl
  · intro x hx
    have hx' : InRange (shOf sh ax p r) x := hx
    rw [slab_at]
    simp only [vecArr]
    have hg := shOf_inRange sh ax p r hp hr hax x hx'
    have hlt := ravel_lt hx'
    have := unravel_pod (size (shOf sh ax p r)) 1 (ravel (shOf sh ax p r) x) 0 hlt (by omega)
    rw [Nat.mul_one, Nat.add_zero] at this
    rw [dif_pos (ravel_lt hg), hq, this, he _ hlt (gRow_lt sh ax p r _ hp hr hax hlt)]
    congr 1
    simp only [Fin.mk.injEq]
    rw [ravel_toGlobal sh ax p r hp hr hax x hx']

/-! ### A rank's share -/

structure IsLocal (mk : Pod.MeanKind) (frames : List (Arr ℝ)) (sh : List Nat) (w : Arr ℝ) (ax p r : Nat) (q : PodFit.Local) : Prop where
  n : q.n = size (shOf sh ax p r)
  data : ∀ i < size (shOf sh ax p r), ∀ h, ∀ t : Fin frames.length,
    q.data t i = Pod.fitData mk (podD frames sh) ⟨gRow sh ax p r i, h⟩ t
  w : ∀ i < size (shOf sh ax p r), ∀ h, q.w i = podW w sh ⟨gRow sh ax p r i, h⟩

/-- data without variable axis on the grid `dims`, weights with or without variable axis -/
structure PodFits (frames : List (Arr ℝ)) (w : Arr ℝ) (dims : List Nat) : Prop where
  snaps : ∀ a ∈ frames, a.shape = dims
  weights : w.shape = dims ∨ w.shape = dims ++ [1]

theorem gRow_one (dims : List Nat) (ax p r i : Nat) (hp : 0 < p) (hr : r < p) (hax : ax < dims.length)
    (hi : i < size (shOf dims ax p r)) : gRow (dims ++ [1]) ax p r i = gRow dims ax p r i := by
  have := gRow_snoc dims 1 ax p r i 0 hp hr hax hi (by omega)
  simpa using this

theorem shOf_one (dims : List Nat) (ax p r : Nat) (hax : ax < dims.length) :
    size (shOf (dims ++ [1]) ax p r) = size (shOf dims ax p r) := by
  rw [shOf_snoc _ _ _ _ _ hax, size_append, Nat.mul_one]

/-- a snapshot's slab with the variable axis -/
theorem axis_slab (a : Arr ℝ) (dims : List Nat) (ha : a.shape = dims) (ax p r i : Nat) (hp : 0 < p) (hr : r < p)
    (hax : ax < dims.length) (hi : i < size (shOf (dims ++ [1]) ax p r)) :
    flat (⟨(distributeDimension a ax (some (p, r))).shape ++ [1],
      fun idx => (distributeDimension a ax (some (p, r))).at' idx.dropLast⟩ : Arr ℝ) i = flat a (gRow (dims ++ [1]) ax p r i) := by
  subst ha
  rw [shOf_one _ _ _ _ hax] at hi
  rw [gRow_one _ _ _ _ _ hp hr hax hi, ← flat_slab a ax p r i hp hr hax hi]
  have hs := slab_shape a ax p r hp hr
  simp only [flat]
  rw [unravel_append_one _ _ (by rw [hs]; exact hi), List.dropLast_concat]

theorem rankData_ok (mk : Pod.MeanKind) (w : Arr ℝ) (files : List (List (Arr ℝ))) (dims : List Nat)
    (F : PodFits files.flatten w dims) (hfr : files.flatten ≠ []) (ax p r : Nat) (hp : 0 < p) (hr : r < p) (hax : ax < dims.length) :
    ∃ q, PodFit.rankData mk w files ax (some (p, r)) = some q ∧ q.infer = some ax ∧
      IsLocal mk files.flatten (dims ++ [1]) w ax p r q := by
  have hwax : ax < w.shape.length := by
    rcases F.weights with h | h <;> rw [h]
    · exact hax
    · simp; omega
  have hn : size ((files.flatten.map (fun a => distributeDimension a ax (some (p, r))) |>.map fun a =>
      (⟨a.shape ++ [1], fun idx => a.at' idx.dropLast⟩ : Arr ℝ)).headD ⟨[], fun _ => 0⟩).shape =
      size (shOf (dims ++ [1]) ax p r) := by
    obtain ⟨a, l, hal⟩ := List.exists_cons_of_ne_nil hfr
    have : a.shape = dims := F.snaps a (by simp [hal])
    simp only [hal, List.map_cons, List.headD_cons]
    rw [slab_shape _ _ _ _ hp hr, this, shOf_snoc _ _ _ _ _ hax]
  have hws : size (distributeDimension w ax (some (p, r))).shape = size (shOf (dims ++ [1]) ax p r) := by
    rw [slab_shape _ _ _ _ hp hr]
    rcases F.weights with h | h <;> rw [h]
    exact (shOf_one _ _ _ _ hax).symm
  let L := (files.flatten.map (fun a => distributeDimension a ax (some (p, r))) |>.map fun a =>
      (⟨a.shape ++ [1], fun idx => a.at' idx.dropLast⟩ : Arr ℝ))
  refine ⟨⟨size (shOf (dims ++ [1]) ax p r), fun t i => (L.map fun a => flat a i).getD t 0 - (match mk with
      | .longtime => Spod.longTMeanArr ℝ 2 (L.map fun a => flat a i)
      | .zero => 0), flat (distributeDimension w ax (some (p, r))), some ax⟩, ?_, rfl, ?_⟩
  · unfold PodFit.rankData
    rw [load_eq]
    simp only [hn]
    rw [if_pos ⟨Or.inr hwax, hws⟩]
    rfl
  · have hval : ∀ i < size (shOf (dims ++ [1]) ax p r), ((files.flatten.map (fun a => distributeDimension a ax (some (p, r))) |>.map fun a =>
        (⟨a.shape ++ [1], fun idx => a.at' idx.dropLast⟩ : Arr ℝ)).map fun a => flat a i) =
        files.flatten.map fun a => flat a (gRow (dims ++ [1]) ax p r i) := by
      intro i hi
      rw [List.map_map, List.map_map]
      refine List.map_congr_left fun a ha => ?_
      exact axis_slab a dims (F.snaps a ha) ax p r i hp hr hax hi
    refine ⟨rfl, ?_, ?_⟩
    · intro i hi h t
      simp only [L, hval i hi]
      rw [getD_complex_map _ _ _ t.2]
      cases mk with
      | zero => simp [Pod.fitData, podD]
      | longtime =>
        simp only [Pod.fitData, Matrix.of_apply, podD, Pod.tMean]
        rw [long_time_mean_array 2 (by omega), List.length_map, list_map_sum_range, Finset.sum_range, smul_eq_mul, inv_mul_eq_div]
    · intro i hi h
      simp only [podW]
      rcases F.weights with hw | hw
      · rw [shOf_one _ _ _ _ hax] at hi
        rw [gRow_one _ _ _ _ _ hp hr hax hi]
        rw [← hw] at hi ⊢
        exact flat_slab w ax p r i hp hr hwax hi
      · rw [← hw] at hi ⊢
        exact flat_slab w ax p r i hp hr hwax hi

theorem corrAll_spec (mk : Pod.MeanKind) (frames : List (Arr ℝ)) (sh : List Nat) (w : Arr ℝ) (ax p : Nat) (hp : 0 < p)
    (hax : ax < sh.length) (q : Nat → PodFit.Local) (hq : ∀ r < p, IsLocal mk frames sh w ax p r (q r)) :
    PodFit.corrAll frames.length ((List.range p).map q) = Pod.corrMat (Pod.fitData mk (podD frames sh)) (podW w sh) := by
  ext t t'
  simp only [PodFit.corrAll, Matrix.of_apply, List.map_map]
  let F : Nat → ℝ := fun i => if h : i < size sh then
    Pod.fitData mk (podD frames sh) ⟨i, h⟩ t * (Pod.fitData mk (podD frames sh) ⟨i, h⟩ t' * podW w sh ⟨i, h⟩) else 0
  have e : ((List.range p).map ((fun r : PodFit.Local => ∑ x ∈ Finset.range r.n, r.data t x * (r.data t' x * r.w x)) ∘ q)) =
      (List.range p).map fun (r : Nat) => ∑ i ∈ Finset.range (size (shOf sh ax p r)),
        (q r).data t i * ((q r).data t' i * (q r).w i) := by
    refine List.map_congr_left fun r hr => ?_
    simp only [Function.comp, (hq r (List.mem_range.1 hr)).n]
  rw [e, row_sum sh ax p hp hax F]
  · simp only [Pod.corrMat, Matrix.mul_apply, Matrix.transpose_apply, Matrix.of_apply, Finset.sum_range]
    refine Finset.sum_congr rfl fun i _ => ?_
    simp only [F, dif_pos i.2]
  · intro r hr i hi
    have hl := gRow_lt sh ax p r i hp hr hax hi
    simp only [F, dif_pos hl]
    rw [(hq r hr).data i hi hl t, (hq r hr).data i hi hl t', (hq r hr).w i hi hl]

/-! ### The files of a fit -/

/-- all ranks from the reduction on, whatever they have done to get their shares -/
theorem pod_finish_par (solver : PodFit.Solver) (frames : List (Arr ℝ)) (mk : Pod.MeanKind) (w : Arr ℝ) (dims : List Nat)
    (ax n : Nat) (hax : ax < dims.length) (hn : 0 < n)
    (hnt : n ≤ frames.length) (hpos : 0 < size dims) (p : Nat) (hp : 0 < p)
    (s : (β : Type) → List (Write β) → List (Write β)) (hs : ∀ β l, (s β l).Perm l) (q' : Nat → PodFit.Local)
    (hq2 : ∀ r < p, (q' r).infer = some ax) (hq3 : ∀ r < p, IsLocal mk frames (dims ++ [1]) w ax p r (q' r)) :
    PodFit.finish solver (some s) frames.length ax n dims ((List.range p).map q') =
      some (podOut mk solver frames (dims ++ [1]) w n) := by
  have hax' : ax < (dims ++ [1]).length := by simp; omega
  have hpos1 : 0 < size (dims ++ [1]) := by rw [size_append, Nat.mul_one]; exact hpos
  have hpos2 : 0 < size (dims ++ [1] ++ [n]) := by rw [size_append]; exact Nat.mul_pos hpos1 hn
  have hQ := corrAll_spec mk frames (dims ++ [1]) w ax p hp hax' q' hq3
  generalize hlv : solver frames.length (Pod.corrMat (Pod.fitData mk (podD frames (dims ++ [1]))) (podW w (dims ++ [1]))) = lv
  have h1 := mapM_map_ok p q' (fun r => setShape (PodFit.phiLocal frames.length lv n r) (dims ++ [1] ++ [n]) r.infer)
    (fun r => ⟨shOf (dims ++ [1] ++ [n]) ax p r, fun idx => (PodFit.phiLocal frames.length lv n (q' r)).at'
      (unravel (PodFit.phiLocal frames.length lv n (q' r)).shape (ravel (shOf (dims ++ [1] ++ [n]) ax p r) idx))⟩) (by
    intro r hr
    show setShape _ _ (q' r).infer = _
    rw [hq2 r hr]
    refine setShape_flat _ _ _ _ _ (by simp; omega) hpos2 ?_
    rw [shOf_snoc _ _ _ _ _ hax', size_append]
    simp only [PodFit.phiLocal, size, Nat.min_eq_left hnt, Nat.mul_one, (hq3 r hr).n])
  have h2 := mapM_map_ok p q' (fun r => setShape (PodFit.wLocal r) (dims ++ [1]) r.infer)
    (fun r => ⟨shOf (dims ++ [1]) ax p r, fun idx => (PodFit.wLocal (q' r)).at'
      (unravel (PodFit.wLocal (q' r)).shape (ravel (shOf (dims ++ [1]) ax p r) idx))⟩) (by
    intro r hr
    show setShape _ _ (q' r).infer = _
    rw [hq2 r hr]
    refine setShape_flat _ _ _ _ _ hax' hpos1 ?_
    simp only [PodFit.wLocal, size, Nat.mul_one, (hq3 r hr).n])
  simp only [PodFit.finish, hQ, hlv, h1, h2, podOut]
  congr 1
  congr 1
  · refine saveAll_slabs _ ax p hp (by simp [gridArr]; omega) s hs _ ?_
    intro r hr
    refine grid_slab (dims ++ [1]) n _ ax p r hp hr hax' _ ?_ ?_
    · simp only [PodFit.phiLocal, Nat.min_eq_left hnt, (hq3 r hr).n]
    · intro i hi h j
      have hj : j.1 < frames.length := by omega
      simp only [PodFit.phiLocal, podPhi, Matrix.of_apply]
      rw [dif_pos hj]
      show (if h : j.1 < frames.length then _ else _) = _
      rw [dif_pos hj]
      have hsum : (∑ t : Fin frames.length, (((q' r).data t i : ℝ) : ℂ) * lv.2 t ⟨j.1, hj⟩) =
          ∑ t, ((Pod.fitData mk (podD frames (dims ++ [1])) ⟨gRow (dims ++ [1]) ax p r i, h⟩ t : ℝ) : ℂ) * lv.2 t ⟨j.1, hj⟩ :=
        Finset.sum_congr rfl fun t _ => by rw [(hq3 r hr).data i hi h t]
      rw [← hsum]
      rfl
  · refine saveAll_slabs _ ax p hp (by simp [vecArr]; omega) s hs _ ?_
    intro r hr
    refine vec_slab (dims ++ [1]) _ ax p r hp hr hax' _ ?_ ?_
    · simp only [PodFit.wLocal, (hq3 r hr).n]
    · intro i hi h
      exact (hq3 r hr).w i hi h

theorem fitWith_par (solver : PodFit.Solver) (files : List (List (Arr ℝ))) (mk : Pod.MeanKind) (w : Arr ℝ) (dims : List Nat)
    (F : PodFits files.flatten w dims) (hfr : files.flatten ≠ []) (ax n : Nat) (hax : ax < dims.length) (hn : 0 < n)
    (hnt : n ≤ files.flatten.length) (hpos : 0 < size dims) (p : Nat) (hp : 0 < p)
    (s : (β : Type) → List (Write β) → List (Write β)) (hs : ∀ β l, (s β l).Perm l) :
    PodFit.fitWith solver files (ranksOf p) (some s) files.flatten.length ax n mk dims w =
      some (podOut mk solver files.flatten (dims ++ [1]) w n) := by
  choose q hq using fun (r : Fin p) => rankData_ok mk w files dims F hfr ax p r hp r.2 hax
  let q' : Nat → PodFit.Local := fun r => if h : r < p then q ⟨r, h⟩ else ⟨0, fun _ _ => 0, fun _ => 0, none⟩
  have hq1 : ∀ r < p, PodFit.rankData mk w files ax (some (p, r)) = some (q' r) := by
    intro r hr; simp only [q', dif_pos hr]; exact (hq ⟨r, hr⟩).1
  have hq2 : ∀ r < p, (q' r).infer = some ax := by
    intro r hr; simp only [q', dif_pos hr]; exact (hq ⟨r, hr⟩).2.1
  have hq3 : ∀ r < p, IsLocal mk files.flatten (dims ++ [1]) w ax p r (q' r) := by
    intro r hr; simp only [q', dif_pos hr]; exact (hq ⟨r, hr⟩).2.2
  have hM := mapM_map_ok p (fun r => (some (p, r) : Comm)) (PodFit.rankData mk w files ax) q' hq1
  simp only [PodFit.fitWith, ranksOf, hM]
  exact pod_finish_par solver files.flatten mk w dims ax n hax hn hnt hpos p hp s hs q' hq2 hq3

theorem shOf_whole (sh : List Nat) (ax : Nat) : shOf sh ax 1 0 = sh := by
  have := slab_shape (⟨sh, fun _ => ()⟩ : Arr Unit) ax 1 0 (by omega) (by omega)
  rw [distribute_one] at this
  exact this.symm

theorem pod_finish_ser (solver : PodFit.Solver) (frames : List (Arr ℝ)) (mk : Pod.MeanKind) (w : Arr ℝ) (dims : List Nat)
    (ax n : Nat) (hax : ax < dims.length) (hnt : n ≤ frames.length) (q : PodFit.Local)
    (hq3 : IsLocal mk frames (dims ++ [1]) w ax 1 0 q) :
    PodFit.finish solver none frames.length ax n dims [{ q with infer := none }] = some (podOut mk solver frames (dims ++ [1]) w n) := by
  have hax' : ax < (dims ++ [1]).length := by simp; omega
  have hQ := corrAll_spec mk frames (dims ++ [1]) w ax 1 (by omega) hax' (fun _ => q) (by
    intro r hr
    obtain rfl : r = 0 := by omega
    exact hq3)
  have hQ' : PodFit.corrAll frames.length [{ q with infer := none }] =
      Pod.corrMat (Pod.fitData mk (podD frames (dims ++ [1]))) (podW w (dims ++ [1])) := hQ
  generalize hlv : solver frames.length (Pod.corrMat (Pod.fitData mk (podD frames (dims ++ [1]))) (podW w (dims ++ [1]))) = lv
  have hn : q.n = size (dims ++ [1]) := by rw [hq3.n, shOf_whole]
  have g1 := grid_slab (dims ++ [1]) n (podPhi (dims ++ [1]) (Pod.fitData mk (podD frames (dims ++ [1]))) lv n) ax 1 0
    (by omega) (by omega) hax' (PodFit.phiLocal frames.length lv n q)
    (by simp only [PodFit.phiLocal, Nat.min_eq_left hnt, hq3.n]) (by
      intro i hi h j
      have hj : j.1 < frames.length := by omega
      simp only [PodFit.phiLocal, podPhi, Matrix.of_apply]
      rw [dif_pos hj]
      show (if h : j.1 < frames.length then _ else _) = _
      rw [dif_pos hj]
      have hsum : (∑ t : Fin frames.length, ((q.data t i : ℝ) : ℂ) * lv.2 t ⟨j.1, hj⟩) =
          ∑ t, ((Pod.fitData mk (podD frames (dims ++ [1])) ⟨gRow (dims ++ [1]) ax 1 0 i, h⟩ t : ℝ) : ℂ) * lv.2 t ⟨j.1, hj⟩ :=
        Finset.sum_congr rfl fun t _ => by rw [hq3.data i hi h t]
      rw [← hsum]
      rfl)
  have g2 := vec_slab (dims ++ [1]) (podW w (dims ++ [1])) ax 1 0 (by omega) (by omega) hax' (PodFit.wLocal q)
    (by simp only [PodFit.wLocal, hq3.n]) (fun i hi h => hq3.w i hi h)
  rw [distribute_one, shOf_whole] at g1 g2
  have h1 : setShape (PodFit.phiLocal frames.length lv n { q with infer := none }) (dims ++ [1] ++ [n]) none =
      some ⟨dims ++ [1] ++ [n], fun idx => (PodFit.phiLocal frames.length lv n q).at'
        (unravel (PodFit.phiLocal frames.length lv n q).shape (ravel (dims ++ [1] ++ [n]) idx))⟩ := by
    simp only [setShape]
    rw [if_pos]
    · rfl
    · rw [size_append _ n]
      simp only [PodFit.phiLocal, size, Nat.min_eq_left hnt, Nat.mul_one, hn]
  have h2 : setShape (PodFit.wLocal { q with infer := none }) (dims ++ [1]) none =
      some ⟨dims ++ [1], fun idx => (PodFit.wLocal q).at' (unravel (PodFit.wLocal q).shape (ravel (dims ++ [1]) idx))⟩ := by
    simp only [setShape]
    rw [if_pos]
    · rfl
    · simp only [PodFit.wLocal, size, Nat.mul_one, hn]
  simp only [PodFit.finish, hQ', hlv, List.mapM_cons, List.mapM_nil, h1, h2, podOut, saveAll]
  show some _ = some _
  congr 1
  congr 1
  · exact npSave_congr g1
  · exact npSave_congr g2

/-- the share of a single process -/
theorem rankData_ser (files : List (List (Arr ℝ))) (mk : Pod.MeanKind) (w : Arr ℝ) (dims : List Nat)
    (F : PodFits files.flatten w dims) (hfr : files.flatten ≠ []) (ax : Nat) (hax : ax < dims.length) :
    ∃ q, PodFit.rankData mk w files ax none = some { q with infer := none } ∧ IsLocal mk files.flatten (dims ++ [1]) w ax 1 0 q := by
  obtain ⟨q, hq1, hq2, hq3⟩ := rankData_ok mk w files dims F hfr ax 1 0 (by omega) (by omega) hax
  have hax' : ax < (dims ++ [1]).length := by simp; omega
  have hwax : ax < w.shape.length := by
    rcases F.weights with h | h <;> rw [h]
    · exact hax
    · exact hax'
  have hrd : PodFit.rankData mk w files ax none = some { q with infer := none } := by
    have e : ∀ a : Arr ℝ, distributeDimension a ax none = distributeDimension a ax (some (1, 0)) := fun a => (distribute_one a ax).symm
    unfold PodFit.rankData at hq1 ⊢
    simp only [e]
    simp only [] at hq1
    by_cases hc : size (distributeDimension w ax (some (1, 0))).shape = size ((List.map (fun a =>
        (⟨a.shape ++ [1], fun idx => a.at' idx.dropLast⟩ : Arr ℝ)) (Pod.load (fun a => distributeDimension a ax (some (1, 0)))
          ⟨[], fun _ => 0⟩ files)).headD ⟨[], fun _ => 0⟩).shape
    · rw [if_pos ⟨by simp, hc⟩]
      rw [if_pos ⟨Or.inr hwax, hc⟩] at hq1
      simp only [Option.some.injEq] at hq1
      rw [← hq1]
      rfl
    · rw [if_neg (fun h => hc h.2)] at hq1
      simp at hq1
  exact ⟨q, hrd, hq3⟩

theorem fitWith_ser (solver : PodFit.Solver) (files : List (List (Arr ℝ))) (mk : Pod.MeanKind) (w : Arr ℝ) (dims : List Nat)
    (F : PodFits files.flatten w dims) (hfr : files.flatten ≠ []) (ax n : Nat) (hax : ax < dims.length)
    (hnt : n ≤ files.flatten.length) :
    PodFit.fitWith solver files [none] none files.flatten.length ax n mk dims w =
      some (podOut mk solver files.flatten (dims ++ [1]) w n) := by
  obtain ⟨q, hrd, hq3⟩ := rankData_ser files mk w dims F hfr ax hax
  have hM : ([none] : List Comm).mapM (PodFit.rankData mk w files ax) = some [{ q with infer := none }] := by
    simp [List.mapM_cons, hrd]
  simp only [PodFit.fitWith, hM]
  exact pod_finish_ser solver files.flatten mk w dims ax n hax hnt q hq3

/-- the shapes of a list of datasets -/
theorem shapes_ok (files : List (List (Arr ℝ))) (dims : List Nat) (hne : ∀ l ∈ files, l ≠ [])
    (hs : ∀ a ∈ files.flatten, a.shape = dims) :
    files.mapM (fun l => l.head?.map fun a => (l.length, a.shape)) = some (files.map fun l => (l.length, dims)) := by
  induction files with
  | nil => rfl
  | cons l ls ih =>
    have h1 := ih (fun m hm => hne m (by simp [hm])) (fun a ha => hs a (by simp [ha]))
    cases l with
    | nil => exact absurd rfl (hne [] (by simp))
    | cons a l =>
      have : a.shape = dims := hs a (by simp)
      simp [List.mapM_cons, h1, this]

theorem podMean_longtime (s : String) (h : Spod.lower s = "longtime") : PodFit.podMean s = some .longtime := by simp [PodFit.podMean, h]
theorem podMean_zero (s : String) (h : Spod.lower s = "zero") : PodFit.podMean s = some .zero := by
  simp [PodFit.podMean, h]

/-- **C108.** The POD fit end to end: for every list of non-empty datasets of one variable on the grid `dims` (given without variable
    axis), every weights of the data's shape (with or without variable axis; default: ones), every number of modes between one and
    the number of snapshots, every number of ranks (also more ranks than values) and every order of the element writes, the
    fit succeeds and leaves the files of the whole data on one process: the POD of all datasets in order. -/
theorem pod_fit_files (c : PodFit.Cfg) (weights : Option (Arr ℝ)) (solver : PodFit.Solver) (files : List (List (Arr ℝ))) (dims : List Nat)
    (mk : Pod.MeanKind) (n : Nat) (hfiles : files ≠ []) (hne : ∀ l ∈ files, l ≠ []) (hs : ∀ a ∈ files.flatten, a.shape = dims)
    (hnv : c.nv = 1) (hxd : dims.length ≠ c.xdim + 1) (hd : dims ≠ []) (hpos : 0 < size dims)
    (hw : ∀ w, weights = some w → w.shape = dims ∨ w.shape = dims ++ [1])
    (hm : PodFit.podMean c.meanType = some mk) (hsave : c.nSave = .int n) (hn : 0 < n) (hnt : n ≤ files.flatten.length)
    (comms : List Comm) (sched : Sched) (hrun : IsRun comms sched) :
    PodFit.podFit c weights solver files comms sched =
      some (podOut mk solver files.flatten (dims ++ [1]) (weights.getD ⟨dims ++ [1], fun _ => 1⟩) n) := by
  obtain ⟨l0, ls, rfl⟩ := List.exists_cons_of_ne_nil hfiles
  obtain ⟨ax, hax⟩ := argmax_isSome dims hd
  have haxd : ax < dims.length := (argmax_spec _ _ hax).1
  have hfr : (l0 :: ls).flatten ≠ [] := by
    have := hne l0 (by simp)
    simp [this]
  have F : PodFits (l0 :: ls).flatten (weights.getD ⟨dims ++ [1], fun _ => 1⟩) dims := by
    refine ⟨hs, ?_⟩
    cases weights with
    | none => exact Or.inr rfl
    | some w => exact hw w rfl
  have hsz : size (weights.getD ⟨dims ++ [c.nv], fun _ => 1⟩).shape = size dims * c.nv := by
    rw [hnv, Nat.mul_one]
    rcases F.weights with h | h <;> rw [h]
    rw [size_append, Nat.mul_one]
  have hinit : Pod.initShapes c.nv c.xdim ((l0 :: ls).map fun l => (l.length, dims)) = some (l0 :: ls).flatten.length := by
    rw [hnv, List.map_cons, pod_shape_nt _ _ _ _ hxd (by simp)]
    simp [List.length_flatten, Function.comp_def]
  rw [List.map_cons] at hinit
  simp only [PodFit.podFit, shapes_ok _ _ hne hs, hinit, List.map_cons, List.headD_cons, hax, hm, hsave]
  refine (if_pos hsz).trans ?_
  rw [hnv]
  rcases hrun with ⟨rfl, rfl⟩ | ⟨p, s, hp, hs', rfl, rfl⟩
  · exact fitWith_ser solver _ mk _ dims F hfr ax n haxd hnt
  · exact fitWith_par solver _ mk _ dims F hfr ax n haxd hn hnt hpos p hp s hs'

/-! ### The files of a projection -/

/-- the stored POD folder seen as a folder with the modes of one frequency -/
noncomputable def asSpod (S : PodFit.Stored) : Proj.Stored where
  xdim := S.xdim
  nv := S.nv
  nModes := S.nModes
  freq := [0]
  weights := S.weights
  modes := fun _ => some S.modes

/-- the stored modes as a matrix: row = grid point in C order -/
noncomputable def podStoredPhi (S : PodFit.Stored) (sh : List Nat) : Matrix (Fin (size sh)) (Fin S.nModes) ℂ :=
  Matrix.of fun i j => (S.modes.data (i * S.nModes + j)).getD default

/-- the folder of one variable on the grid `dims` -/
structure PodFolder (S : PodFit.Stored) (frames : List (Arr ℝ)) (dims : List Nat) (k : Nat) : Prop where
  weights : S.weights.shape = dims ++ [1]
  modes : S.modes.shape = dims ++ [1] ++ [k]
  snaps : ∀ a ∈ frames, a.shape = dims
  nv : S.nv = 1
  xdim : dims.length ≠ S.xdim + 1

theorem PodFolder.nModes {S : PodFit.Stored} {frames : List (Arr ℝ)} {dims : List Nat} {k : Nat} (F : PodFolder S frames dims k) :
    S.nModes = k := by
  simp only [PodFit.Stored.nModes, F.modes, List.getLastD_concat]

theorem PodFolder.fits {S : PodFit.Stored} {frames : List (Arr ℝ)} {dims : List Nat} {k : Nat} (F : PodFolder S frames dims k) :
    Fits (asSpod S) [0] frames dims (dims ++ [1]) :=
  ⟨F.weights, F.snaps, Or.inr ⟨rfl, F.nv, F.xdim⟩, fun _ _ => ⟨S.modes, rfl, by rw [F.modes]; show _ = _ ++ [S.nModes]; rw [F.nModes]⟩⟩

theorem specPhi_pod (S : PodFit.Stored) (frames : List (Arr ℝ)) (dims : List Nat) (k : Nat) (F : PodFolder S frames dims k)
    (i : Fin (size (dims ++ [1]))) (j : Fin S.nModes) :
    specPhi (asSpod S) [0] (dims ++ [1]) S.nModes i j = podStoredPhi S (dims ++ [1]) i j := by
  have hj : j.1 % (asSpod S).nModes = j.1 := Nat.mod_eq_of_lt j.2
  simp only [specPhi, podStoredPhi, Matrix.of_apply]
  show (S.modes.data (ravel S.modes.shape (unravel (dims ++ [1]) i ++ [j.1 % (asSpod S).nModes]))).getD default = _
  have hm : S.modes.shape = dims ++ [1] ++ [S.nModes] := by rw [F.nModes]; exact F.modes
  rw [hj, hm, ravel_append _ _ _ _ (inRange_unravel i.2) j.2, ravel_unravel i.2]

theorem podPart_ok (S : PodFit.Stored) (frames : List (Arr ℝ)) (dims : List Nat) (k : Nat) (F : PodFolder S frames dims k)
    (hfr : frames ≠ []) (ax p r : Nat) (hp : 0 < p) (hr : r < p) (hax : ax < dims.length) :
    ∃ q, PodFit.rankPart S frames ax (some (p, r)) = some q ∧
      IsPart (asSpod S) [0] frames (dims ++ [1]) ax p r S.nModes q := by
  have hax' : ax < (dims ++ [1]).length := by simp; omega
  obtain ⟨q', h1, h2⟩ := rankPart_ok (asSpod S) [0] frames dims (dims ++ [1]) F.fits hfr (by simp) ax p r hp hr hax
  have hws : size (distributeDimension (openMemmap S.weights) ax (some (p, r))).shape = size (shOf (dims ++ [1]) ax p r) := by
    rw [slab_shape _ _ _ _ hp hr]
    show size (S.weights.shape.set ax (countOf (ext S.weights.shape ax) p r)) = _
    rw [F.weights]
  have hms : size (distributeDimension (openMemmap S.modes) ax (some (p, r))).shape = size (shOf (dims ++ [1]) ax p r) * S.nModes := by
    rw [slab_shape _ _ _ _ hp hr]
    show size (S.modes.shape.set ax (countOf (ext S.modes.shape ax) p r)) = _
    rw [F.modes, F.nModes, ← size_append, ← shOf_snoc _ _ _ _ _ hax']
  obtain ⟨a, l, hal⟩ := List.exists_cons_of_ne_nil hfr
  have hsa : a.shape = dims := F.snaps a (by simp [hal])
  have hn : size ((frames.map fun a => distributeDimension a ax (some (p, r))).headD ⟨[], fun _ => 0⟩).shape =
      size (shOf (dims ++ [1]) ax p r) := by
    rw [hal, List.map_cons, List.headD_cons, slab_shape _ _ _ _ hp hr, hsa, shOf_one _ _ _ _ hax]
  have hq : PodFit.rankPart S frames ax (some (p, r)) = some { q' with
      xsize := size (shOf (dims ++ [1]) ax p r),
      phir := (List.range S.nModes).map fun (m : Nat) (i : Nat) =>
        flat (distributeDimension (openMemmap S.modes) ax (some (p, r))) (i * S.nModes + m) } := by
    unfold PodFit.rankPart
    simp only [hn]
    rw [if_pos ⟨hms, hws⟩]
    unfold Proj.rankPart at h1
    simp only [] at h1
    split at h1
    · split at h1
      · simp at h1
      · simp only [Option.some.injEq] at h1
        rw [← h1]
        simp only [List.map_map]
        rfl
    · simp at h1
  refine ⟨_, hq, h2.sh_eq, rfl, h2.w, h2.mean, h2.data, ?_⟩
  intro i hi h j
  have hlen : i * S.nModes + j.1 < size (shOf (dims ++ [1]) ax p r) * S.nModes := by
    calc i * S.nModes + j.1 < (i + 1) * S.nModes := by rw [Nat.add_mul]; omega
      _ ≤ _ := Nat.mul_le_mul_right _ hi
  have hk := F.nModes
  simp only [List.getD_eq_getElem?_getD, List.getElem?_map, List.getElem?_range j.2, Option.map_some, Option.getD_some]
  have hsm : (openMemmap S.modes).shape = dims ++ [1] ++ [S.nModes] := by rw [hk]; exact F.modes
  rw [flat_slab _ ax p r _ hp hr (by rw [hsm]; simp; omega) (by
    rw [hsm, shOf_snoc _ _ _ _ _ hax', size_append]; exact hlen), hsm, gRow_snoc _ _ _ _ _ _ _ hp hr hax' hi j.2]
  rw [flat_open _ _ (by
    show _ < size (openMemmap S.modes).shape
    rw [hsm, size_append]
    calc gRow (dims ++ [1]) ax p r i * S.nModes + j.1 < (gRow (dims ++ [1]) ax p r i + 1) * S.nModes := by
          rw [Nat.add_mul]; have := j.2; omega
      _ ≤ _ := Nat.mul_le_mul_right _ h), specPhi_pod S frames dims k F]
  rfl

/-- the coefficients folder of the whole data on one process -/
noncomputable def podFolderOf (S : PodFit.Stored) (frames : List (Arr ℝ)) (sh : List Nat) (ax : Nat) : Folder where
  coeffs := npSave (matArr ((podStoredPhi S sh)ᵀ * Coef.centred (specD frames sh)))
  modesR := npSave (gridArr sh (podStoredPhi S sh))
  ltm := npSave (meanArr frames sh)
  maxAxis := ax

theorem coefAll_spec (S : PodFit.Stored) (frames : List (Arr ℝ)) (dims : List Nat) (k : Nat) (F : PodFolder S frames dims k) (ax p : Nat)
    (hp : 0 < p) (hax : ax < (dims ++ [1]).length) (q : Nat → Part)
    (hq : ∀ r < p, IsPart (asSpod S) [0] frames (dims ++ [1]) ax p r S.nModes (q r)) :
    PodFit.coefAll S.nModes frames.length ((List.range p).map q) =
      (podStoredPhi S (dims ++ [1]))ᵀ * Coef.centred (specD frames (dims ++ [1])) := by
  ext i t
  simp only [PodFit.coefAll, Matrix.of_apply, List.map_map]
  let G : Nat → ℂ := fun x => if h : x < size (dims ++ [1]) then
    podStoredPhi S (dims ++ [1]) ⟨x, h⟩ i * Coef.centred (specD frames (dims ++ [1])) ⟨x, h⟩ t else 0
  have e : ((List.range p).map ((fun r : Part => ∑ x ∈ Finset.range r.xsize,
      r.phir.getD i (fun _ => 0) x * (r.data t x : ℂ)) ∘ q)) =
      (List.range p).map fun (r : Nat) => ∑ x ∈ Finset.range (size (shOf (dims ++ [1]) ax p r)),
        (q r).phir.getD i (fun _ => 0) x * ((q r).data t x : ℂ) := by
    refine List.map_congr_left fun r hr => ?_
    simp only [Function.comp, (hq r (List.mem_range.1 hr)).xsize]
  rw [e, row_sum (dims ++ [1]) ax p hp hax G]
  · simp only [Matrix.mul_apply, Matrix.transpose_apply, Finset.sum_range]
    refine Finset.sum_congr rfl fun x _ => ?_
    simp only [G, dif_pos x.2]
  · intro r hr x hx
    have hl := gRow_lt (dims ++ [1]) ax p r x hp hr hax hx
    simp only [G, dif_pos hl]
    rw [(hq r hr).data x hx hl t, (hq r hr).phir x hx hl i, specPhi_pod S frames dims k F]

theorem specPhi_pod' (S : PodFit.Stored) (frames : List (Arr ℝ)) (dims : List Nat) (k : Nat) (F : PodFolder S frames dims k) :
    specPhi (asSpod S) [0] (dims ++ [1]) S.nModes = podStoredPhi S (dims ++ [1]) := by
  ext i j
  exact specPhi_pod S frames dims k F i j

/-- **C109.** POD projection end to end: on any number of ranks `compute_coeffs_op` stores the product of the transposed stored modes
    with the fluctuations of the data, these modes, and the time mean. -/
theorem pod_projection_files (S : PodFit.Stored) (mi : Option (List Nat)) (frames : List (Arr ℝ)) (dims : List Nat) (k : Nat)
    (F : PodFolder S frames dims k) (hfr : frames ≠ []) (hd : dims ≠ []) :
    ∃ ax, IsFirstMax dims ax ∧ ∀ comms sched, IsRun comms sched →
      PodFit.podProject S mi frames comms sched = some (podFolderOf S frames (dims ++ [1]) ax) := by
  obtain ⟨ax, hax⟩ := argmax_isSome dims hd
  have hmax := argmax_spec _ _ hax
  have haxd : ax < dims.length := hmax.1
  have haxs : ax < (dims ++ [1]).length := by simp; omega
  obtain ⟨a, l, hal⟩ := List.exists_cons_of_ne_nil hfr
  have hsha : a.shape = dims := F.snaps a (by simp [hal])
  have hpar : ∀ p, 0 < p → ∀ s : (β : Type) → List (Write β) → List (Write β), (∀ β l, (s β l).Perm l) →
      PodFit.podProject S mi frames (ranksOf p) (some s) = some (podFolderOf S frames (dims ++ [1]) ax) := by
    intro p hp s hs
    choose q hq using fun (r : Fin p) => podPart_ok S frames dims k F hfr ax p r hp r.2 haxd
    let q' : Nat → Part := fun r => if h : r < p then q ⟨r, h⟩ else ⟨[], 0, fun _ => 0, fun _ => 0, fun _ _ => 0, []⟩
    have hq1 : ∀ r < p, PodFit.rankPart S frames ax (some (p, r)) = some (q' r) := by
      intro r hr; simp only [q', dif_pos hr]; exact (hq ⟨r, hr⟩).1
    have hq2 : ∀ r < p, IsPart (asSpod S) [0] frames (dims ++ [1]) ax p r S.nModes (q' r) := by
      intro r hr; simp only [q', dif_pos hr]; exact (hq ⟨r, hr⟩).2
    have hM := mapM_map_ok p (fun r => (some (p, r) : Comm)) (PodFit.rankPart S frames ax) q' hq1
    have hC := coefAll_spec S frames dims k F ax p hp haxs q' hq2
    obtain ⟨g1, g2⟩ := parts_files (asSpod S) frames [0] (dims ++ [1]) ax _ haxs p hp s hs q' hq2
    rw [specPhi_pod' S frames dims k F] at g1
    have hal' := hal
    subst hal
    simp only [PodFit.podProject, hsha, hax, ranksOf, hM, hC, List.map_map]
    simp only [podFolderOf, Option.some.injEq, Folder.mk.injEq, and_true, true_and]
    exact ⟨g1, g2⟩
  refine ⟨ax, hmax, ?_⟩
  rintro comms sched (⟨rfl, rfl⟩ | ⟨p, s, hp, hs, rfl, rfl⟩)
  · rw [← hpar 1 (by omega) (fun _ l => l) fun _ _ => List.Perm.refl _]
    obtain ⟨q, hq1, hq2⟩ := podPart_ok S frames dims k F hfr ax 1 0 (by omega) (by omega) haxd
    have hnone : PodFit.rankPart S frames ax none = PodFit.rankPart S frames ax (some (1, 0)) := by
      have e : ∀ {α} (a : Arr α), distributeDimension a ax none = distributeDimension a ax (some (1, 0)) :=
        fun a => (distribute_one a ax).symm
      simp only [PodFit.rankPart, e]
    have hm1 : ([none] : List Comm).mapM (PodFit.rankPart S frames ax) = some [q] := by
      simp [List.mapM_cons, hnone, hq1]
    have hm2 : (ranksOf 1).mapM (PodFit.rankPart S frames ax) = some [q] := by
      simp [ranksOf, List.mapM_cons, hq1]
    have hql : ax < q.sh.length := by rw [hq2.sh_eq]; simp; omega
    subst hal
    simp only [PodFit.podProject, hsha, hax, hm1, hm2, List.map_cons, List.map_nil]
    rw [saveAll_single _ ax (by simp only [phirArr, List.length_append]; omega), saveAll_single _ ax hql]
  · exact hpar p hp s hs

/-! ### What the files contain -/

/-- the solver answers with real numbers (the matrix is real and symmetric), as complex type -/
def RealSolver (solver : PodFit.Solver) (lamV : (nt : Nat) → Matrix (Fin nt) (Fin nt) ℝ → (Fin nt → ℝ) × Matrix (Fin nt) (Fin nt) ℝ) : Prop :=
  ∀ nt Q, solver nt Q = ((fun i => ((lamV nt Q).1 i : ℂ)), Matrix.of fun i j => ((lamV nt Q).2 i j : ℂ))

theorem podPhi_real (sh : List Nat) (mk : Pod.MeanKind) {nt : Nat} (d : Matrix (Fin (size sh)) (Fin nt) ℝ) (lam : Fin nt → ℝ)
    (V : Matrix (Fin nt) (Fin nt) ℝ) (n : Nat) (hn : n ≤ nt) (hpos : ∀ j : Fin n, 0 < lam (Fin.castLE hn j))
    (i : Fin (size sh)) (j : Fin n) :
    podPhi sh (Pod.fitData mk d) ((fun i => (lam i : ℂ)), Matrix.of fun i j => (V i j : ℂ)) n i j =
      ((Pod.modes mk d lam V n hn i j : ℝ) : ℂ) := by
  have hj : j.1 < nt := by omega
  simp only [podPhi, Matrix.of_apply]
  rw [dif_pos hj]
  simp only [Pod.modes, Pod.keep, Pod.phiAll, Matrix.of_apply]
  have h0 : (0 : ℝ) ≤ lam ⟨j.1, hj⟩ := (hpos j).le
  have hc : (Fin.castLE hn j) = (⟨j.1, hj⟩ : Fin nt) := rfl
  rw [hc, Real.sqrt_eq_rpow, Complex.ofReal_div, Complex.ofReal_cpow h0]
  congr 1
  · rw [Complex.ofReal_inj, Matrix.mul_apply, ← Complex.ofReal_re (∑ t, Pod.fitData mk d i t * V t ⟨j.1, hj⟩)]
    push_cast
    rfl
  · push_cast
    rfl

/-- an array of numbers as stored: value number `k` -/
def NpyFile.num {α} [Inhabited α] (f : NpyFile α) (k : Nat) : α := (f.data k).getD default

theorem grid_num (sh : List Nat) (k : Nat) (A : Matrix (Fin (size sh)) (Fin k) ℂ) (i : Fin (size sh)) (j : Fin k) :
    NpyFile.num (npSave (gridArr sh A)) (i * k + j) = A i j := by
  have hlt : i.1 * k + j.1 < size (sh ++ [k]) := by
    rw [size_append]
    calc i.1 * k + j.1 < (i.1 + 1) * k := by rw [Nat.add_mul]; have := j.2; omega
      _ ≤ _ := Nat.mul_le_mul_right _ i.2
  have e : (npSave (gridArr sh A)).data (i * k + j) = some ((gridArr sh A).at' (unravel (sh ++ [k]) (i * k + j))) := if_pos hlt
  rw [NpyFile.num, e, Option.getD_some, unravel_append sh k i j i.2 j.2]
  simp only [gridArr]
  simp only [List.dropLast_concat, List.getLastD_concat]
  rw [dif_pos ⟨by rw [ravel_unravel i.2]; exact i.2, j.2⟩]
  congr 1
  exact Fin.ext (ravel_unravel i.2)

theorem vec_num (sh : List Nat) (v : Fin (size sh) → ℝ) (i : Fin (size sh)) : NpyFile.num (npSave (vecArr sh v)) i = v i := by
  have e : (npSave (vecArr sh v)).data i = some ((vecArr sh v).at' (unravel sh i)) := if_pos i.2
  rw [NpyFile.num, e, Option.getD_some]
  simp only [vecArr]
  rw [dif_pos (by rw [ravel_unravel i.2]; exact i.2)]
  congr 1
  exact Fin.ext (ravel_unravel i.2)

theorem ofFn_getD {nt : Nat} (f : Fin nt → ℂ) (j : Nat) (hj : j < nt) : (List.ofFn f).getD j 0 = f ⟨j, hj⟩ := by
  simp [List.getD_eq_getElem?_getD, hj]

/-- the parameters and data of a POD fit that succeeds -/
structure PodRun (c : PodFit.Cfg) (weights : Option (Arr ℝ)) (files : List (List (Arr ℝ))) (dims : List Nat) (mk : Pod.MeanKind) (n : Nat) :
    Prop where
  files_ne : files ≠ []
  ne : ∀ l ∈ files, l ≠ []
  snaps : ∀ a ∈ files.flatten, a.shape = dims
  nv : c.nv = 1
  xdim : dims.length ≠ c.xdim + 1
  dims_ne : dims ≠ []
  pos : 0 < size dims
  weights : ∀ w, weights = some w → w.shape = dims ∨ w.shape = dims ++ [1]
  mean : PodFit.podMean c.meanType = some mk
  save : c.nSave = .int n
  n_pos : 0 < n
  n_le : n ≤ files.flatten.length

theorem PodRun.fit {c weights files dims mk n} (R : PodRun c weights files dims mk n) (solver : PodFit.Solver)
    {comms : List Comm} {sched : Sched} (hrun : IsRun comms sched) :
    PodFit.podFit c weights solver files comms sched =
      some (podOut mk solver files.flatten (dims ++ [1]) (weights.getD ⟨dims ++ [1], fun _ => 1⟩) n) :=
  pod_fit_files c weights solver files dims mk n R.files_ne R.ne R.snaps R.nv R.xdim R.dims_ne R.pos R.weights R.mean R.save R.n_pos R.n_le
    comms sched hrun

/-- **C110.** The stored modes are orthonormal in the stored weights: for every run as in C108 and every solver that returns the
    eigenvalues and unit eigenvectors of the matrix it is given, if the first `n` of these eigenvalues are positive and distinct then
    the numbers in `modes.npy` and `weights.npy` satisfy `Σ_x w(x) φ_i(x) φ_j(x) = δ_ij`. -/
theorem pod_files_orthonormal_partial {c weights files dims mk n} (R : PodRun c weights files dims mk n) (solver : PodFit.Solver)
    (lamV : (nt : Nat) → Matrix (Fin nt) (Fin nt) ℝ → (Fin nt → ℝ) × Matrix (Fin nt) (Fin nt) ℝ) (hreal : RealSolver solver lamV)
    (heig : ∀ nt Q, Qᵀ = Q → Pod.EigBasis Q (lamV nt Q).1 (lamV nt Q).2)
    (comms : List Comm) (sched : Sched) (hrun : IsRun comms sched) :
    ∃ o, PodFit.podFit c weights solver files comms sched = some o ∧ o.eigs.length = files.flatten.length ∧
      o.modes.shape = dims ++ [1] ++ [n] ∧ o.weights.shape = dims ++ [1] ∧
      ((∀ j < n, ∃ e : ℝ, o.eigs.getD j 0 = (e : ℂ) ∧ 0 < e) → (∀ i < n, ∀ j < n, o.eigs.getD i 0 = o.eigs.getD j 0 → i = j) →
        ∀ i < n, ∀ j < n, ∑ x ∈ Finset.range (size dims),
          ((NpyFile.num o.weights x : ℝ) : ℂ) * (NpyFile.num o.modes (x * n + i) * NpyFile.num o.modes (x * n + j)) = if i = j then 1 else 0) := by
  refine ⟨_, R.fit solver hrun, by simp [podOut], by simp [podOut, npSave, gridArr], by simp [podOut, npSave, vecArr], ?_⟩
  generalize weights.getD ⟨dims ++ [1], fun _ => 1⟩ = w
  simp only [podOut]
  have hsym : (Pod.corrMat (Pod.fitData mk (podD files.flatten (dims ++ [1]))) (podW w (dims ++ [1])))ᵀ =
      Pod.corrMat (Pod.fitData mk (podD files.flatten (dims ++ [1]))) (podW w (dims ++ [1])) := by
    ext t t'
    simp only [Pod.corrMat, Matrix.transpose_apply, Matrix.mul_apply, Matrix.of_apply]
    exact Finset.sum_congr rfl fun x _ => by ring
  have hE := heig _ _ hsym
  rw [hreal]
  generalize lamV files.flatten.length (Pod.corrMat (Pod.fitData mk (podD files.flatten (dims ++ [1]))) (podW w (dims ++ [1]))) = lv at hE
  intro hpos hdist
  have hget : ∀ j, ∀ h : j < n, (List.ofFn fun i => (lv.1 i : ℂ)).getD j 0 = (lv.1 (Fin.castLE R.n_le ⟨j, h⟩) : ℂ) := by
    intro j h
    have hj : j < files.flatten.length := lt_of_lt_of_le h R.n_le
    exact ofFn_getD _ j hj
  have hp : ∀ j : Fin n, 0 < lv.1 (Fin.castLE R.n_le j) := by
    intro j
    obtain ⟨e, he, he'⟩ := hpos j j.2
    rw [hget j j.2, Complex.ofReal_inj] at he
    rw [he]; exact he'
  have hd : ∀ i j : Fin n, lv.1 (Fin.castLE R.n_le i) = lv.1 (Fin.castLE R.n_le j) → i = j := by
    intro i j h
    refine Fin.ext (hdist i i.2 j j.2 ?_)
    rw [hget i i.2, hget j j.2]
    exact congrArg _ h
  intro i hi j hj
  have key := pod_orthonormal_partial mk (podD files.flatten (dims ++ [1])) (podW w (dims ++ [1])) lv.1 lv.2 hE n R.n_le hp hd ⟨i, hi⟩ ⟨j, hj⟩
  have hsz : size dims = size (dims ++ [1]) := by rw [size_append, Nat.mul_one]
  rw [hsz, Finset.sum_range]
  have : ∀ x : Fin (size (dims ++ [1])), ((NpyFile.num (npSave (vecArr (dims ++ [1]) (podW w (dims ++ [1])))) x : ℝ) : ℂ) *
      (NpyFile.num (npSave (gridArr (dims ++ [1]) (podPhi (dims ++ [1]) (Pod.fitData mk (podD files.flatten (dims ++ [1])))
        ((fun i => (lv.1 i : ℂ)), Matrix.of fun i j => (lv.2 i j : ℂ)) n))) (x * n + i) *
       NpyFile.num (npSave (gridArr (dims ++ [1]) (podPhi (dims ++ [1]) (Pod.fitData mk (podD files.flatten (dims ++ [1])))
        ((fun i => (lv.1 i : ℂ)), Matrix.of fun i j => (lv.2 i j : ℂ)) n))) (x * n + j)) =
      ((podW w (dims ++ [1]) x * (Pod.modes mk (podD files.flatten (dims ++ [1])) lv.1 lv.2 n R.n_le x ⟨i, hi⟩ *
        Pod.modes mk (podD files.flatten (dims ++ [1])) lv.1 lv.2 n R.n_le x ⟨j, hj⟩) : ℝ) : ℂ) := by
    intro x
    rw [vec_num, grid_num _ _ _ x ⟨i, hi⟩, grid_num _ _ _ x ⟨j, hj⟩, podPhi_real _ _ _ _ _ _ R.n_le hp, podPhi_real _ _ _ _ _ _ R.n_le hp]
    push_cast
    rfl
  rw [Finset.sum_congr rfl fun x _ => this x, ← Complex.ofReal_sum]
  rw [show (∑ x, podW w (dims ++ [1]) x * (Pod.modes mk (podD files.flatten (dims ++ [1])) lv.1 lv.2 n R.n_le x ⟨i, hi⟩ *
        Pod.modes mk (podD files.flatten (dims ++ [1])) lv.1 lv.2 n R.n_le x ⟨j, hj⟩)) = _ from key]
  by_cases h : i = j <;> simp [h]

/-! ### Fit, project, reconstruct -/

theorem out_folder {c weights files dims mk n} (R : PodRun c weights files dims mk n) (solver : PodFit.Solver) :
    PodFolder (PodFit.storedOf c (podOut mk solver files.flatten (dims ++ [1]) (weights.getD ⟨dims ++ [1], fun _ => 1⟩) n))
      files.flatten dims n :=
  ⟨rfl, rfl, R.snaps, R.nv, R.xdim⟩

theorem stored_mul {sh : List Nat} (S : PodFit.Stored) (k : Nat) (hk : S.nModes = k) (A : Matrix (Fin (size sh)) (Fin k) ℂ)
    (h : ∀ i, ∀ j : Fin k, (S.modes.data (i.1 * k + j)).getD default = A i j) :
    podStoredPhi S sh * (podStoredPhi S sh)ᵀ = A * Aᵀ := by
  subst hk
  have : podStoredPhi S sh = A := by
    ext i j
    exact h i j
  rw [this]

theorem ltMean_real (frames : List (Arr ℝ)) (sh : List Nat) (x : Fin (size sh)) :
    Coef.ltMean (specD frames sh) x = ((Pod.tMean (podD frames sh) x : ℝ) : ℂ) := by
  simp [Coef.ltMean, specD, podD, Pod.tMean]

theorem centred_real (frames : List (Arr ℝ)) (sh : List Nat) :
    Coef.centred (specD frames sh) = (Matrix.of fun x t => podD frames sh x t - Pod.tMean (podD frames sh) x).map Complex.ofRealHom := by
  ext x t
  simp only [Coef.centred, ltMean_real, Matrix.of_apply, Matrix.map_apply, Complex.ofRealHom_eq_coe, Complex.ofReal_sub]
  rfl

/-- **C111.** Fit, projection and reconstruction with default (unit) weights, each step on its own number of ranks: if the stored modes
    belong to the positive eigenvalues, these are distinct and the others vanish, `compute_reconstruction(time_idx='all')` writes
    back the data. -/
theorem pod_roundtrip_partial {c files dims mk n} (R : PodRun c none files dims mk n) (solver : PodFit.Solver)
    (lamV : (nt : Nat) → Matrix (Fin nt) (Fin nt) ℝ → (Fin nt → ℝ) × Matrix (Fin nt) (Fin nt) ℝ) (hreal : RealSolver solver lamV)
    (heig : ∀ nt Q, Qᵀ = Q → Pod.EigBasis Q (lamV nt Q).1 (lamV nt Q).2)
    (mi : Option (List Nat)) (c1 c2 c3 : List Comm) (s1 s2 s3 : Sched) (h1 : IsRun c1 s1) (h2 : IsRun c2 s2) (h3 : IsRun c3 s3) :
    ∃ o, PodFit.podFit c none solver files c1 s1 = some o ∧
      ((∀ j < n, ∃ e : ℝ, o.eigs.getD j 0 = (e : ℂ) ∧ 0 < e) → (∀ i < n, ∀ j < n, o.eigs.getD i 0 = o.eigs.getD j 0 → i = j) →
        (∀ j, n ≤ j → o.eigs.getD j 0 = 0) →
        ∃ G, PodFit.podProject (PodFit.storedOf c o) mi files.flatten c2 s2 = some G ∧
          PodFit.podReconstruct G none (.str "all") c3 s3 = some (npSave (dataArr files.flatten (dims ++ [1])))) := by
  refine ⟨_, R.fit solver h1, ?_⟩
  have hF := out_folder R solver
  have hfr : files.flatten ≠ [] := by
    have := R.n_pos
    have := R.n_le
    intro h
    rw [h] at this
    simp at this
    omega
  obtain ⟨ax, hmax, hproj⟩ := pod_projection_files _ mi files.flatten dims n hF hfr R.dims_ne
  intro hpos hdist hrest
  refine ⟨_, hproj c2 s2 h2, ?_⟩
  have hpos1 : 0 < size (dims ++ [1]) := by rw [size_append, Nat.mul_one]; exact R.pos
  have hax' : ax < (dims ++ [1]).length := by have := hmax.1; simp; omega
  have hl : ((none : Option (Arr ℂ)).getD (openMemmap (podFolderOf (PodFit.storedOf c (podOut mk solver files.flatten (dims ++ [1])
      ((none : Option (Arr ℝ)).getD ⟨dims ++ [1], fun _ => 1⟩) n)) files.flatten (dims ++ [1]) ax).coeffs)).shape.length = 2 := rfl
  rw [PodFit.podReconstruct, if_pos hl, reconstruct_all _ files.flatten hfr (dims ++ [1]) hpos1 hax' _ _ _ rfl rfl rfl c3 s3 h3]
  rw [Option.some.injEq]
  apply npSave_congr
  refine ⟨rfl, ?_⟩
  intro idx hidx
  have hsz : ∀ t, ∀ x : List Nat, InRange (files.flatten.length :: (dims ++ [1])) (t :: x) → t < files.flatten.length ∧ ravel (dims ++ [1]) x < size (dims ++ [1]) := by
    intro t x h
    exact ⟨h.1, ravel_lt h.2⟩
  cases idx with
  | nil => cases hidx
  | cons t x =>
    obtain ⟨ht, hx⟩ := hsz t x hidx
    rw [timeArr_at _ _ _ _ ht hx]
    simp only [dataArr, List.headD_cons, List.tail_cons]
    have hw1 : podW ((none : Option (Arr ℝ)).getD ⟨dims ++ [1], fun _ => 1⟩) (dims ++ [1]) = fun _ => 1 := rfl
    have hsym : (Pod.corrMat (Pod.fitData mk (podD files.flatten (dims ++ [1]))) fun _ => 1)ᵀ =
        Pod.corrMat (Pod.fitData mk (podD files.flatten (dims ++ [1]))) fun _ => 1 := by
      ext t t'
      simp only [Pod.corrMat, Matrix.transpose_apply, Matrix.mul_apply, Matrix.of_apply]
      exact Finset.sum_congr rfl fun x _ => by ring
    have hE := heig _ _ hsym
    simp only [podOut, hw1] at hpos hdist hrest
    rw [hreal] at hpos hdist hrest
    have hmul := stored_mul (sh := dims ++ [1]) _ n hF.nModes _ (fun i j => by
      exact grid_num (dims ++ [1]) n (podPhi (dims ++ [1]) (Pod.fitData mk (podD files.flatten (dims ++ [1])))
        (solver files.flatten.length (Pod.corrMat (Pod.fitData mk (podD files.flatten (dims ++ [1]))) fun _ => 1)) n) i j)
    rw [hreal] at hmul
    generalize lamV files.flatten.length (Pod.corrMat (Pod.fitData mk (podD files.flatten (dims ++ [1]))) fun _ => 1) = lv
      at hE hpos hdist hrest hmul
    have hget : ∀ j, ∀ h : j < files.flatten.length, (List.ofFn fun i => (lv.1 i : ℂ)).getD j 0 = (lv.1 ⟨j, h⟩ : ℂ) :=
      fun j h => ofFn_getD _ j h
    have hp : ∀ j : Fin n, 0 < lv.1 (Fin.castLE R.n_le j) := by
      intro j
      obtain ⟨e, he, he'⟩ := hpos j j.2
      rw [hget j (lt_of_lt_of_le j.2 R.n_le), Complex.ofReal_inj] at he
      show 0 < lv.1 ⟨j.1, _⟩
      rw [he]; exact he'
    have hd : ∀ i j : Fin n, lv.1 (Fin.castLE R.n_le i) = lv.1 (Fin.castLE R.n_le j) → i = j := by
      intro i j h
      refine Fin.ext (hdist i i.2 j j.2 ?_)
      rw [hget i (lt_of_lt_of_le i.2 R.n_le), hget j (lt_of_lt_of_le j.2 R.n_le)]
      exact congrArg _ h
    have hr : ∀ j : Fin files.flatten.length, n ≤ j.val → lv.1 j = 0 := by
      intro j hj
      have := hrest j hj
      rw [hget j j.2] at this
      exact_mod_cast this
    have key := pod_reconstruct_partial mk (podD files.flatten (dims ++ [1])) (by omega) lv.1 lv.2 hE n R.n_le hp hd hr
    have hphi : podPhi (dims ++ [1]) (Pod.fitData mk (podD files.flatten (dims ++ [1])))
        ((fun i => (lv.1 i : ℂ)), Matrix.of fun i j => (lv.2 i j : ℂ)) n =
        (Pod.modes mk (podD files.flatten (dims ++ [1])) lv.1 lv.2 n R.n_le).map Complex.ofRealHom := by
      ext i j
      exact podPhi_real _ _ _ _ _ _ R.n_le hp i j
    rw [hphi] at hmul
    have hkey := congrFun (congrFun key ⟨ravel (dims ++ [1]) x, hx⟩) ⟨t, ht⟩
    simp only [Pod.reconstruct, Pod.coeffsOp, Matrix.of_apply] at hkey
    simp only [Coef.reconstruct, Matrix.of_apply, ltMean_real]
    rw [← Matrix.mul_assoc, hmul, centred_real, ← Matrix.transpose_map, ← Matrix.map_mul, ← Matrix.map_mul, Matrix.mul_assoc]
    simp only [Matrix.map_apply, Complex.ofRealHom_eq_coe]
    rw [← Complex.ofReal_add, hkey]
    rfl

/-- **C111.** Coefficients passed by the caller are used instead of the stored ones: the result is that of a folder storing them. -/
theorem pod_reconstruct_given (F : Proj.Folder) (f : NpyFile ℂ) (time : Coef.TimeArg) (comms : List Comm) (sched : Sched) :
    PodFit.podReconstruct F (some (Proj.openMemmap f)) time comms sched =
      PodFit.podReconstruct { F with coeffs := f } none time comms sched := rfl

/-- **C108.** A mean type that is neither `longtime` nor `zero` (in any letter case) ends the fit with an exception. -/
theorem pod_unknown_mean (c : PodFit.Cfg) (weights : Option (Arr ℝ)) (solver : PodFit.Solver) (files : List (List (Arr ℝ)))
    (comms : List Comm) (sched : Sched) (h1 : Spod.lower c.meanType ≠ "longtime") (h2 : Spod.lower c.meanType ≠ "zero") :
    PodFit.podFit c weights solver files comms sched = none := by
  have h : PodFit.podMean c.meanType = none := by simp [PodFit.podMean, h1, h2]
  unfold PodFit.podFit
  cases hs : files.mapM (fun l => l.head?.map fun a => (l.length, a.shape)) with
  | none => rfl
  | some ds => simp [h]

/-- **C112 fails.** `modes_idx` selects nothing: whatever is passed, `compute_coeffs_op` stores the coefficients of all stored modes,
    so for every list with another number of modes the stored array has another number of rows. -/
theorem pod_modes_idx_fails (S : PodFit.Stored) (mi : List Nat) (frames : List (Arr ℝ)) (dims : List Nat) (k : Nat)
    (F : PodFolder S frames dims k) (hfr : frames ≠ []) (hd : dims ≠ []) (comms : List Comm) (sched : Sched) (hrun : IsRun comms sched) :
    ∃ G, PodFit.podProject S (some mi) frames comms sched = some G ∧ PodFit.podProject S none frames comms sched = some G ∧
      G.coeffs.shape = [k, frames.length] ∧ (mi.length ≠ k → G.coeffs.shape ≠ [mi.length, frames.length]) := by
  obtain ⟨ax, hmax, h⟩ := pod_projection_files S (some mi) frames dims k F hfr hd
  have hk : (podFolderOf S frames (dims ++ [1]) ax).coeffs.shape = [k, frames.length] := by
    show [S.nModes, frames.length] = _
    rw [F.nModes]
  refine ⟨_, h comms sched hrun, h comms sched hrun, hk, ?_⟩
  rw [hk]
  intro hne heq
  simp only [List.cons.injEq] at heq
  exact hne heq.1.symm

/-! ### Non-vacuity -/

/-- there is an exact eigen-solver -/
theorem eig_solver_exists : ∃ lamV : (nt : Nat) → Matrix (Fin nt) (Fin nt) ℝ → (Fin nt → ℝ) × Matrix (Fin nt) (Fin nt) ℝ,
    ∀ nt Q, Qᵀ = Q → Pod.EigBasis Q (lamV nt Q).1 (lamV nt Q).2 := by
  classical
  have h : ∀ nt, ∀ Q : Matrix (Fin nt) (Fin nt) ℝ, ∃ lv : (Fin nt → ℝ) × Matrix (Fin nt) (Fin nt) ℝ,
      Qᵀ = Q → Pod.EigBasis Q lv.1 lv.2 := by
    intro nt Q
    by_cases hQ : Qᵀ = Q
    · have hH : Q.IsHermitian := by rw [Matrix.IsHermitian, Matrix.conjTranspose_eq_transpose_of_trivial]; exact hQ
      refine ⟨(hH.eigenvalues, hH.eigenvectorUnitary), fun _ => ⟨?_, ?_, ?_⟩⟩
      · intro j
        exact hH.mulVec_eigenvectorBasis j
      · intro j
        have := hH.eigenvectorBasis.orthonormal.1 j
        have h2 : ‖hH.eigenvectorBasis j‖ ^ 2 = 1 := by rw [this]; norm_num
        rw [EuclideanSpace.real_norm_sq_eq] at h2
        simp only [← sq]
        exact h2
      · exact (Matrix.isUnit_iff_isUnit_det _).1 (Unitary.isUnit_coe (U := hH.eigenvectorUnitary))
    · exact ⟨(fun _ => 0, 0), fun h => absurd h hQ⟩
  choose lv hlv using h
  exact ⟨lv, hlv⟩

/-- two datasets of one snapshot on two points: `(1, 0)` and `(0, 2)` -/
def podExFiles : List (List (Arr ℝ)) :=
  [[⟨[2], fun idx => if idx = [0] then 1 else 0⟩], [⟨[2], fun idx => if idx = [1] then 2 else 0⟩]]

def podExCfg : PodFit.Cfg := ⟨1, 1, "Zero", .int 2⟩

theorem podExRun : PodRun podExCfg none podExFiles [2] .zero 2 where
  files_ne := by simp [podExFiles]
  ne := by simp [podExFiles]
  snaps := by simp [podExFiles]
  nv := rfl
  xdim := by decide
  dims_ne := by simp
  pos := by decide
  weights := by simp
  mean := podMean_zero _ (by decide +kernel)
  save := rfl
  n_pos := by omega
  n_le := by simp [podExFiles]

theorem podExCorr : Pod.corrMat (Pod.fitData .zero (podD podExFiles.flatten [2, 1])) (podW ⟨[2, 1], fun _ => 1⟩ [2, 1]) =
    (!![1, 0; 0, 4] : Matrix (Fin 2) (Fin 2) ℝ) := by
  have hsum : ∀ f : Fin (size [2, 1]) → ℝ, ∑ x, f x = f ⟨0, by decide⟩ + f ⟨1, by decide⟩ := fun f => Fin.sum_univ_two (fun x : Fin 2 => f x)
  ext i j
  simp only [Pod.corrMat, Matrix.mul_apply, Matrix.transpose_apply, Matrix.of_apply, Pod.fitData, podD, podW]
  rw [hsum]
  have h2 : ∀ i : Fin 2, i = 0 ∨ i = 1 := fun i => by omega
  have hi : i = (0 : Fin 2) ∨ i = (1 : Fin 2) := h2 i
  have hj : j = (0 : Fin 2) ∨ j = (1 : Fin 2) := h2 j
  rcases hi with rfl | rfl <;> rcases hj with rfl | rfl <;> norm_num [podExFiles, flat, unravel, size]

/-- every exact solver gives distinct positive eigenvalues here, so the hypotheses of C110 and C111 are met -/
theorem podExEigs (lamV : (nt : Nat) → Matrix (Fin nt) (Fin nt) ℝ → (Fin nt → ℝ) × Matrix (Fin nt) (Fin nt) ℝ)
    (heig : ∀ nt Q, Qᵀ = Q → Pod.EigBasis Q (lamV nt Q).1 (lamV nt Q).2) :
    let l := (lamV 2 !![1, 0; 0, 4]).1
    (l 0 = 1 ∧ l 1 = 4) ∨ (l 0 = 4 ∧ l 1 = 1) := by
  intro l
  have h := heig 2 !![1, 0; 0, 4] (by ext i j; fin_cases i <;> fin_cases j <;> simp)
  have e0 : ∀ j, (1 - l j) * (lamV 2 !![1, 0; 0, 4]).2 0 j = 0 := by
    intro j
    have := congrFun (h.eig j) 0
    simp [Matrix.mulVec, dotProduct, Fin.sum_univ_two] at this
    rw [sub_mul, one_mul, sub_eq_zero]; exact this
  have e1 : ∀ j, (4 - l j) * (lamV 2 !![1, 0; 0, 4]).2 1 j = 0 := by
    intro j
    have := congrFun (h.eig j) 1
    simp [Matrix.mulVec, dotProduct, Fin.sum_univ_two] at this
    rcases this with h | h
    · have : 4 - l j = 0 := sub_eq_zero.2 h
      rw [this, zero_mul]
    · rw [h, mul_zero]
  have hdet := h.basis
  rw [Matrix.det_fin_two, isUnit_iff_ne_zero] at hdet
  have u0 := h.unit 0
  have u1 := h.unit 1
  rw [Fin.sum_univ_two] at u0 u1
  generalize (lamV 2 !![1, 0; 0, 4]).2 = V at *
  have c0 : ∀ j, l j = 1 ∧ V 1 j = 0 ∨ l j = 4 ∧ V 0 j = 0 := by
    intro j
    have hu := h.unit j
    rcases mul_eq_zero.1 (e0 j) with a | a
    · refine Or.inl ⟨by linarith, ?_⟩
      rcases mul_eq_zero.1 (e1 j) with b | b
      · exfalso; linarith
      · exact b
    · rcases mul_eq_zero.1 (e1 j) with b | b
      · exact Or.inr ⟨by linarith, a⟩
      · exfalso
        have hu2 : (1 : ℝ) = 0 := by
          fin_cases j
          · rw [← u0]; simp only [Fin.zero_eta, Fin.isValue] at a b; rw [a, b]; ring
          · rw [← u1]; simp only [Fin.mk_one, Fin.isValue] at a b; rw [a, b]; ring
        norm_num at hu2
  rcases c0 0 with ⟨a, b⟩ | ⟨a, b⟩ <;> rcases c0 1 with ⟨a', b'⟩ | ⟨a', b'⟩
  · exact absurd (by rw [b, b']; ring) hdet
  · exact Or.inl ⟨a, a'⟩
  · exact Or.inr ⟨a, a'⟩
  · exact absurd (by rw [b, b']; ring) hdet

/-- the example through the whole pipeline: fit on three ranks, projection on one process, reconstruction on two ranks -/
example (solver : PodFit.Solver) (lamV) (hreal : RealSolver solver lamV)
    (heig : ∀ nt Q, Qᵀ = Q → Pod.EigBasis Q (lamV nt Q).1 (lamV nt Q).2) :
    ∃ o, PodFit.podFit podExCfg none solver podExFiles (ranksOf 3) (some fun _ l => l) = some o ∧
      ∃ G, PodFit.podProject (PodFit.storedOf podExCfg o) none podExFiles.flatten [none] none = some G ∧
        PodFit.podReconstruct G none (.str "all") (ranksOf 2) (some fun _ l => l.reverse) =
          some (npSave (dataArr podExFiles.flatten [2, 1])) := by
  have h1 : IsRun (ranksOf 3) (some fun _ l => l) := Or.inr ⟨3, _, by omega, fun _ _ => List.Perm.refl _, rfl, rfl⟩
  have h2 : IsRun [none] none := Or.inl ⟨rfl, rfl⟩
  have h3 : IsRun (ranksOf 2) (some fun _ l => l.reverse) := Or.inr ⟨2, _, by omega, fun _ l => List.reverse_perm l, rfl, rfl⟩
  obtain ⟨o, ho, H⟩ := pod_roundtrip_partial podExRun solver lamV hreal heig none _ _ _ _ _ _ h1 h2 h3
  refine ⟨o, ho, ?_⟩
  have hoe : o = podOut .zero solver podExFiles.flatten [2, 1] ⟨[2, 1], fun _ => 1⟩ 2 := by
    have := podExRun.fit solver h1
    rw [ho] at this
    exact Option.some.inj this
  have he : o.eigs = [((lamV 2 !![1, 0; 0, 4]).1 0 : ℂ), ((lamV 2 !![1, 0; 0, 4]).1 1 : ℂ)] := by
    have : o.eigs = List.ofFn (solver 2 (!![1, 0; 0, 4])).1 := by
      rw [hoe, ← podExCorr]; rfl
    rw [this, hreal]
    simp [List.ofFn_succ]
  have hl := podExEigs lamV heig
  simp only [] at hl
  apply H
  · intro j hj
    rw [he]
    obtain rfl | rfl : j = 0 ∨ j = 1 := by omega
    · refine ⟨_, rfl, ?_⟩
      rcases hl with h | h <;> rw [h.1] <;> norm_num
    · refine ⟨_, rfl, ?_⟩
      rcases hl with h | h <;> rw [h.2] <;> norm_num
  · intro i hi j hj hij
    rw [he] at hij
    obtain rfl | rfl : i = 0 ∨ i = 1 := by omega
    · obtain rfl | rfl : j = 0 ∨ j = 1 := by omega
      · rfl
      · exfalso
        have : (lamV 2 !![1, 0; 0, 4]).1 0 = (lamV 2 !![1, 0; 0, 4]).1 1 := Complex.ofReal_inj.1 hij
        rcases hl with h | h <;> rw [h.1, h.2] at this <;> norm_num at this
    · obtain rfl | rfl : j = 0 ∨ j = 1 := by omega
      · exfalso
        have : (lamV 2 !![1, 0; 0, 4]).1 1 = (lamV 2 !![1, 0; 0, 4]).1 0 := Complex.ofReal_inj.1 hij
        rcases hl with h | h <;> rw [h.1, h.2] at this <;> norm_num at this
      · rfl
  · intro j hj
    rw [he, List.getD_eq_default]
    simpa using hj

end Verif.Props
