import Verif.Model.Project
import Verif.Props.StreamFit
import Verif.Props.Coeffs
import Verif.Props.FitFormula
/-
  C99, C100: projection and reconstruction, end to end (files in, files out).
-/
set_option linter.unusedSectionVars false
set_option linter.unusedSimpArgs false
set_option linter.unusedVariables false
namespace Verif.Props
open Verif Verif.Par Verif.Fit Verif.Proj Matrix

/-! ### Specification -/

/-- grid point number `i` (C order), column `k` of the matrix of modes: mode `k % n_modes` of the selected frequency number
    `k / n_modes`, as stored -/
noncomputable def specPhi (S : Stored) (fs : List Nat) (sh : List Nat) (k : Nat) : Matrix (Fin (size sh)) (Fin k) ℂ :=
  Matrix.of fun i j => match S.modes (fs.getD (j / S.nModes) 0) with
    | some f => (f.data (ravel f.shape (unravel sh i ++ [j % S.nModes]))).getD default
    | none => 0

/-- stored weight of grid point number `i` -/
def specWt (S : Stored) (sh : List Nat) : Fin (size sh) → ℝ := fun i => (S.weights.data i).getD default

/-- grid point number `i` of snapshot `t`: a variable axis of extent one does not change the C order -/
def specD (frames : List (Arr ℝ)) (sh : List Nat) : Matrix (Fin (size sh)) (Fin frames.length) ℂ :=
  Matrix.of fun i t => ((flat (frames.getD t ⟨[], fun _ => 0⟩) i : ℝ) : ℂ)

/-- The results folder fits the data: one value per weight, the modes of the selected frequencies exist. -/
structure Fits (S : Stored) (fs : List Nat) (frames : List (Arr ℝ)) (dims sh : List Nat) : Prop where
  weights : S.weights.shape = sh
  snaps : ∀ a ∈ frames, a.shape = dims
  axis : (dims = sh ∧ (S.nv ≠ 1 ∨ dims.length = S.xdim + 1)) ∨ (sh = dims ++ [1] ∧ S.nv = 1 ∧ dims.length ≠ S.xdim + 1)
  modes : ∀ f ∈ fs, ∃ file, S.modes f = some file ∧ file.shape = sh ++ [S.nModes]

/-! ### Slabs -/

theorem distribute_one {α} (a : Arr α) (ax : Nat) : distributeDimension a ax (some (1, 0)) = a := by
  simp only [distributeDimension, blockdist, Nat.div_one, Nat.mod_one, Arr.slice]
  have h : ∀ idx : List Nat, idx.set ax (idx.getD ax 0 + 0) = idx := fun idx => set_getD_self idx ax
  simp [set_ext_self, h, -List.getD_eq_getElem?_getD, set_getD_self]

theorem flat_dd {α} (a : Arr α) (ax p r i : Nat) :
    flat (distributeDimension a ax (some (p, r))) i =
      a.at' (toGlobal a.shape ax p r (unravel (distributeDimension a ax (some (p, r))).shape i)) := rfl

theorem unravel_append_one (sh : List Nat) (i : Nat) (hi : i < size sh) : unravel (sh ++ [1]) i = unravel sh i ++ [0] := by
  have h := inRange_unravel hi
  have h2 : InRange (sh ++ [1]) (unravel sh i ++ [0]) := by
    clear hi
    generalize unravel sh i = x at h
    induction sh generalizing x with
    | nil => cases x <;> simp_all [InRange]
    | cons a sh ih => cases x with
      | nil => simp [InRange] at h
      | cons j js => exact ⟨h.1, ih _ h.2⟩
  have e : ravel (sh ++ [1]) (unravel sh i ++ [0]) = ravel sh (unravel sh i) := by
    clear hi h2
    generalize unravel sh i = x at h
    induction sh generalizing x with
    | nil => cases x <;> simp_all [InRange, ravel, size]
    | cons a sh ih => cases x with
      | nil => simp [InRange] at h
      | cons j js =>
        have hs : size (sh ++ [1]) = size sh := by
          clear * -
          induction sh with
          | nil => simp [size]
          | cons b sh ih => simp [size, ih]
        simp only [List.cons_append, ravel, ih _ h.2, hs]
  rw [← unravel_ravel h2, e, ravel_unravel hi]

theorem size_append (sh : List Nat) (n : Nat) : size (sh ++ [n]) = size sh * n := by
  induction sh with
  | nil => simp [size]
  | cons b sh ih => simp [size, ih, Nat.mul_assoc]

theorem unravel_append (sh : List Nat) (n i m : Nat) (hi : i < size sh) (hm : m < n) :
    unravel (sh ++ [n]) (i * n + m) = unravel sh i ++ [m] := by
  induction sh generalizing i with
  | nil =>
    simp [size] at hi
    subst hi
    simp [unravel, size]
  | cons a sh ih =>
    have hpos : 0 < size sh := by
      rcases Nat.eq_zero_or_pos (size sh) with h | h
      · simp [size, h] at hi
      · exact h
    have hn : 0 < n := by omega
    simp only [List.cons_append, unravel, size_append]
    have hq : (i * n + m) / (size sh * n) = i / size sh := by
      rw [Nat.mul_comm (size sh) n, ← Nat.div_div_eq_div_mul, Nat.mul_comm i n, Nat.mul_add_div hn, Nat.div_eq_of_lt hm,
        Nat.add_zero]
    have hr : (i * n + m) % (size sh * n) = (i % size sh) * n + m := by
      have h1 := Nat.div_add_mod (i * n + m) (size sh * n)
      rw [hq] at h1
      have h2 := Nat.div_add_mod i (size sh)
      have h3 : i * n = size sh * n * (i / size sh) + (i % size sh) * n := by
        conv_lhs => rw [← h2]
        ring
      omega
    rw [hq, hr, ih _ (Nat.mod_lt _ hpos)]

theorem ravel_append (sh x : List Nat) (n m : Nat) (h : InRange sh x) (hm : m < n) :
    ravel (sh ++ [n]) (x ++ [m]) = ravel sh x * n + m := by
  have := unravel_append sh n (ravel sh x) m (ravel_lt h) hm
  rw [unravel_ravel h] at this
  rw [← this, ravel_unravel]
  rw [size_append]
  have := ravel_lt h
  calc ravel sh x * n + m < (ravel sh x + 1) * n := by rw [Nat.add_mul]; omega
    _ ≤ size sh * n := Nat.mul_le_mul_right _ this

theorem toGlobal_snoc (sh : List Nat) (n ax p r : Nat) (x : List Nat) (m : Nat) (hax : ax < sh.length)
    (hx : x.length = sh.length) : toGlobal (sh ++ [n]) ax p r (x ++ [m]) = toGlobal sh ax p r x ++ [m] := by
  have hext : ext (sh ++ [n]) ax = ext sh ax := by
    simp [ext, List.getD_eq_getElem?_getD, List.getElem?_append_left hax]
  have hxl : ax < x.length := by omega
  simp only [toGlobal, hext]
  rw [List.set_append_left _ _ hxl]
  simp [List.getD_eq_getElem?_getD, List.getElem?_append_left hxl]

/-- extents of rank `r` -/
abbrev shOf (sh : List Nat) (ax p r : Nat) : List Nat := sh.set ax (countOf (ext sh ax) p r)

theorem shOf_snoc (sh : List Nat) (n ax p r : Nat) (hax : ax < sh.length) : shOf (sh ++ [n]) ax p r = shOf sh ax p r ++ [n] := by
  have hext : ext (sh ++ [n]) ax = ext sh ax := by
    simp [ext, List.getD_eq_getElem?_getD, List.getElem?_append_left hax]
  simp only [shOf, hext]
  rw [List.set_append_left _ _ hax]

/-- row of the whole grid that row `i` of rank `r` stands for -/
def gRow (sh : List Nat) (ax p r i : Nat) : Nat := ravel sh (toGlobal sh ax p r (unravel (shOf sh ax p r) i))

theorem shOf_inRange (sh : List Nat) (ax p r : Nat) (hp : 0 < p) (hr : r < p) (hax : ax < sh.length) (x : List Nat)
    (hx : InRange (shOf sh ax p r) x) : InRange sh (toGlobal sh ax p r x) := by
  have := slab_inRange (⟨sh, fun _ => ()⟩ : Arr Unit) ax p r hax x
  rw [slab_shape _ _ _ _ hp hr] at this
  exact this hx

theorem gRow_lt (sh : List Nat) (ax p r i : Nat) (hp : 0 < p) (hr : r < p) (hax : ax < sh.length)
    (hi : i < size (shOf sh ax p r)) : gRow sh ax p r i < size sh :=
  ravel_lt (shOf_inRange sh ax p r hp hr hax _ (inRange_unravel hi))

theorem unravel_gRow (sh : List Nat) (ax p r i : Nat) (hp : 0 < p) (hr : r < p) (hax : ax < sh.length)
    (hi : i < size (shOf sh ax p r)) : unravel sh (gRow sh ax p r i) = toGlobal sh ax p r (unravel (shOf sh ax p r) i) :=
  unravel_ravel (shOf_inRange sh ax p r hp hr hax _ (inRange_unravel hi))

theorem flat_slab {α} (a : Arr α) (ax p r i : Nat) (hp : 0 < p) (hr : r < p) (hax : ax < a.shape.length)
    (hi : i < size (shOf a.shape ax p r)) :
    flat (distributeDimension a ax (some (p, r))) i = flat a (gRow a.shape ax p r i) := by
  rw [flat_dd, slab_shape _ _ _ _ hp hr]
  unfold flat
  rw [unravel_gRow _ _ _ _ _ hp hr hax hi]

theorem gRow_snoc (sh : List Nat) (n ax p r i m : Nat) (hp : 0 < p) (hr : r < p) (hax : ax < sh.length)
    (hi : i < size (shOf sh ax p r)) (hm : m < n) : gRow (sh ++ [n]) ax p r (i * n + m) = gRow sh ax p r i * n + m := by
  unfold gRow
  have hx := inRange_unravel hi
  rw [shOf_snoc _ _ _ _ _ hax, unravel_append _ _ _ _ hi hm, toGlobal_snoc _ _ _ _ _ _ _ hax (by simpa using hx.length),
    ravel_append _ _ _ _ (shOf_inRange sh ax p r hp hr hax _ hx) hm]

/-- sums over all ranks' rows -/
theorem row_sum {M} [AddCommMonoid M] (sh : List Nat) (ax p : Nat) (hp : 0 < p) (hax : ax < sh.length) (F : Nat → M)
    (f : Nat → Nat → M) (hf : ∀ r < p, ∀ i < size (shOf sh ax p r), f r i = F (gRow sh ax p r i)) :
    allreduce ((List.range p).map fun (r : Nat) => ∑ i ∈ Finset.range (size (shOf sh ax p r)), f r i) =
      ∑ i ∈ Finset.range (size sh), F i := by
  have h := slab_sum sh ax p hp hax (fun idx => F (ravel sh idx))
  have e : ∑ i ∈ Finset.range (size sh), F (ravel sh (unravel sh i)) = ∑ i ∈ Finset.range (size sh), F i :=
    Finset.sum_congr rfl fun i hi => by rw [ravel_unravel (Finset.mem_range.1 hi)]
  rw [e] at h
  rw [← h]
  congr 1
  apply List.map_congr_left
  intro r hr
  apply Finset.sum_congr rfl
  intro i hi
  exact hf r (List.mem_range.1 hr) i (Finset.mem_range.1 hi)

/-! ### What a rank has -/

theorem flat_open {α} [Inhabited α] (f : NpyFile α) (i : Nat) (hi : i < size f.shape) :
    flat (openMemmap f) i = (f.data i).getD default := by
  simp only [flat, openMemmap, ravel_unravel hi]

/-- rank `r`'s share of the problem -/
structure IsPart (S : Stored) (fs : List Nat) (frames : List (Arr ℝ)) (sh : List Nat) (ax p r k : Nat) (q : Part) : Prop where
  sh_eq : q.sh = shOf sh ax p r
  xsize : q.xsize = size (shOf sh ax p r)
  w : ∀ i < size (shOf sh ax p r), ∀ h, q.w i = specWt S sh ⟨gRow sh ax p r i, h⟩
  mean : ∀ i < size (shOf sh ax p r), ∀ h, (q.mean i : ℂ) = Coef.ltMean (specD frames sh) ⟨gRow sh ax p r i, h⟩
  data : ∀ i < size (shOf sh ax p r), ∀ h, ∀ t : Fin frames.length,
    (q.data t i : ℂ) = Coef.centred (specD frames sh) ⟨gRow sh ax p r i, h⟩ t
  phir : ∀ i < size (shOf sh ax p r), ∀ h, ∀ j : Fin k,
    q.phir.getD j (fun _ => 0) i = specPhi S fs sh k ⟨gRow sh ax p r i, h⟩ j

theorem withAxis_slab (S : Stored) (fs : List Nat) (frames : List (Arr ℝ)) (dims sh : List Nat) (F : Fits S fs frames dims sh)
    (a : Arr ℝ) (ha : a.shape = dims) (ax p r : Nat) (hp : 0 < p) (hr : r < p) (hax : ax < dims.length) :
    (withAxis S.xdim S.nv (distributeDimension a ax (some (p, r)))).shape = shOf sh ax p r ∧
    ∀ i < size (shOf sh ax p r), flat (withAxis S.xdim S.nv (distributeDimension a ax (some (p, r)))) i =
      flat a (gRow sh ax p r i) := by
  have hsl := slab_shape a ax p r hp hr
  rcases F.axis with ⟨h1, h2⟩ | ⟨h1, h2, h3⟩
  · have : withAxis S.xdim S.nv (distributeDimension a ax (some (p, r))) = distributeDimension a ax (some (p, r)) := by
      unfold withAxis
      rw [if_neg]
      rw [hsl, List.length_set, ha]
      omega
    rw [this]
    subst h1
    refine ⟨by rw [hsl, ha], fun i hi => ?_⟩
    rw [flat_slab a ax p r i hp hr (by rw [ha]; exact hax) (by rw [ha]; exact hi), ha]
  · subst h1
    have hc : S.nv = 1 ∧ (distributeDimension a ax (some (p, r))).shape.length + 1 ≠ S.xdim + 2 := by
      rw [hsl, List.length_set, ha]; omega
    have hsh : (withAxis S.xdim S.nv (distributeDimension a ax (some (p, r)))).shape = shOf (dims ++ [1]) ax p r := by
      unfold withAxis
      rw [if_pos hc]
      simp only [hsl, ha]
      rw [shOf_snoc _ _ _ _ _ hax]
    refine ⟨hsh, fun i hi => ?_⟩
    have hi' : i < size (shOf dims ax p r) := by
      rw [shOf_snoc _ _ _ _ _ hax, size_append] at hi
      omega
    have e1 : flat (withAxis S.xdim S.nv (distributeDimension a ax (some (p, r)))) i =
        flat (distributeDimension a ax (some (p, r))) i := by
      have hi2 : i < size (distributeDimension a ax (some (p, r))).shape := by rw [hsl, ha]; exact hi'
      unfold withAxis
      rw [if_pos hc]
      simp only [flat]
      rw [unravel_append_one _ _ hi2, List.dropLast_concat]
    rw [e1, flat_slab a ax p r i hp hr (by rw [ha]; exact hax) (by rw [ha]; exact hi'), ha]
    congr 1
    have := gRow_snoc dims 1 ax p r i 0 hp hr hax hi' (by omega)
    simpa using this.symm

theorem getD_complex_map (l : List (Arr ℝ)) (g : Arr ℝ → ℝ) (t : Nat) (ht : t < l.length) :
    (l.map g).getD t 0 = g (l.getD t ⟨[], fun _ => 0⟩) := by
  simp [List.getD_eq_getElem?_getD, ht]

theorem list_map_sum_range (l : List (Arr ℝ)) (g : Arr ℝ → ℝ) :
    (l.map g).sum = ∑ t ∈ Finset.range l.length, g (l.getD t ⟨[], fun _ => 0⟩) := by
  rw [list_sum_range, List.length_map]
  exact Finset.sum_congr rfl fun t ht => getD_complex_map l g t (Finset.mem_range.1 ht)

theorem rankPart_ok (S : Stored) (fs : List Nat) (frames : List (Arr ℝ)) (dims sh : List Nat) (F : Fits S fs frames dims sh)
    (hfr : frames ≠ []) (hfs : fs ≠ []) (ax p r : Nat) (hp : 0 < p) (hr : r < p) (hax : ax < dims.length) :
    ∃ q, rankPart S fs.length fs frames ax (some (p, r)) = some q ∧
      IsPart S fs frames sh ax p r (fs.length * S.nModes) q := by
  have haxs : ax < sh.length := by
    rcases F.axis with ⟨h, _⟩ | ⟨h, _⟩ <;> subst h
    · exact hax
    · simp; omega
  have hwsh : (distributeDimension (openMemmap S.weights) ax (some (p, r))).shape = shOf sh ax p r := by
    rw [slab_shape _ _ _ _ hp hr]
    simp only [openMemmap, F.weights]
  have hmc : ∀ f ∈ fs, ∃ file, S.modes f = some file ∧ file.shape = sh ++ [S.nModes] ∧
      modeCols S ax (some (p, r)) (size (shOf sh ax p r)) f = some ((List.range S.nModes).map fun (m : Nat) (i : Nat) =>
        flat (distributeDimension (openMemmap file) ax (some (p, r))) (i * S.nModes + m)) := by
    intro f hf
    obtain ⟨file, h1, h2⟩ := F.modes f hf
    refine ⟨file, h1, h2, ?_⟩
    have hph : (distributeDimension (openMemmap file) ax (some (p, r))).shape = shOf sh ax p r ++ [S.nModes] := by
      rw [slab_shape _ _ _ _ hp hr]
      simp only [openMemmap, h2]
      exact shOf_snoc _ _ _ _ _ haxs
    simp only [modeCols, h1]
    rw [if_pos (by rw [hph, size_append])]
  obtain ⟨cols, hc1, hc2, hc3, -⟩ := modes_matrix (fun _ : Nat => (0 : ℂ)) S.nModes
    (fun f => (modeCols S ax (some (p, r)) (size (shOf sh ax p r)) f).getD []) fs hfs (by
      intro f hf
      obtain ⟨file, -, -, h⟩ := hmc f hf
      simp [h])
  have hmean : ∀ i < size (shOf sh ax p r), ∀ h : gRow sh ax p r i < size sh,
      (((((frames.map fun a => withAxis S.xdim S.nv (distributeDimension a ax (some (p, r)))).map fun a => flat a i).sum /
        (frames.length : ℝ) : ℝ)) : ℂ) = Coef.ltMean (specD frames sh) ⟨gRow sh ax p r i, h⟩ := by
    intro i hi h
    have e : ((frames.map fun a => withAxis S.xdim S.nv (distributeDimension a ax (some (p, r)))).map fun a => flat a i) =
        frames.map fun a => flat a (gRow sh ax p r i) := by
      rw [List.map_map]
      apply List.map_congr_left
      intro a ha
      exact (withAxis_slab S fs frames dims sh F a (F.snaps a ha) ax p r hp hr hax).2 i hi
    rw [e, list_map_sum_range]
    simp only [Coef.ltMean, specD, Matrix.of_apply, Fintype.card_fin]
    push_cast
    congr 1
    rw [Finset.sum_range]
  refine ⟨⟨shOf sh ax p r, size (shOf sh ax p r), flat (distributeDimension (openMemmap S.weights) ax (some (p, r))),
    fun i => ((frames.map fun a => withAxis S.xdim S.nv (distributeDimension a ax (some (p, r)))).map fun a => flat a i).sum /
      (frames.length : ℝ),
    fun t i => ((frames.map fun a => withAxis S.xdim S.nv (distributeDimension a ax (some (p, r)))).map
      fun a => flat a i).getD t 0 -
      ((frames.map fun a => withAxis S.xdim S.nv (distributeDimension a ax (some (p, r)))).map fun a => flat a i).sum /
      (frames.length : ℝ), cols⟩, ?_, ?_⟩
  · unfold rankPart
    simp only [hwsh]
    rw [if_pos]
    · rw [hc1]
      have hh : ((frames.map fun a => withAxis S.xdim S.nv (distributeDimension a ax (some (p, r)))).headD
          ⟨[], fun _ => 0⟩).shape = shOf sh ax p r := by
        cases hf : frames with
        | nil => exact absurd hf hfr
        | cons a l =>
          simp only [List.map_cons, List.headD_cons]
          exact (withAxis_slab S fs frames dims sh F a (F.snaps a (by simp [hf])) ax p r hp hr hax).1
      simp only [hh]
    · refine ⟨?_, ?_⟩
      · intro a ha
        obtain ⟨b, hb, rfl⟩ := List.mem_map.1 ha
        rw [(withAxis_slab S fs frames dims sh F b (F.snaps b hb) ax p r hp hr hax).1]
      · intro f hf
        obtain ⟨file, -, -, h⟩ := hmc f hf
        simp [h]
  · refine ⟨rfl, rfl, ?_, hmean, ?_, ?_⟩
    · intro i hi h
      have hws : (openMemmap S.weights).shape = sh := F.weights
      simp only
      rw [flat_slab _ _ _ _ _ hp hr (by rw [hws]; exact haxs) (by rw [hws]; exact hi), hws,
        flat_open _ _ (by rw [F.weights]; exact h)]
      rfl
    · intro i hi h t
      have e : ((frames.map fun a => withAxis S.xdim S.nv (distributeDimension a ax (some (p, r)))).map
          fun a => flat a i).getD t 0 = flat (frames.getD t ⟨[], fun _ => 0⟩) (gRow sh ax p r i) := by
        rw [List.map_map, getD_complex_map _ _ _ t.2]
        have ht : frames.getD t ⟨[], fun _ => 0⟩ ∈ frames := by
          rw [List.getD_eq_getElem _ _ t.2]
          exact List.getElem_mem _
        exact (withAxis_slab S fs frames dims sh F _ (F.snaps _ ht) ax p r hp hr hax).2 i hi
      simp only
      rw [e, Complex.ofReal_sub, hmean i hi h]
      simp only [Coef.centred, Matrix.of_apply, specD]
    · intro i hi h j
      obtain ⟨hnm, hq⟩ : 0 < S.nModes ∧ j.1 / S.nModes < fs.length := by
        have hj := j.2
        rcases Nat.eq_zero_or_pos S.nModes with h0 | h0
        · exact absurd j.2 (by simp [h0])
        · exact ⟨h0, by rw [Nat.div_lt_iff_lt_mul h0]; exact hj⟩
      have hm := Nat.mod_lt j.1 hnm
      have hmem : fs[j.1 / S.nModes] ∈ fs := List.getElem_mem _
      obtain ⟨file, g1, g2, g3⟩ := hmc _ hmem
      have := hc3 (j.1 / S.nModes) (j.1 % S.nModes) _ (List.getElem?_eq_getElem hq) hm
      rw [Nat.div_add_mod' j.1 S.nModes] at this
      simp only [List.getD_eq_getElem?_getD, this, g3, Option.getD_some, List.getElem?_map, List.getElem?_range hm,
        Option.map_some, specPhi, Matrix.of_apply, List.getElem?_eq_getElem hq, g1]
      have hfs : (openMemmap file).shape = sh ++ [S.nModes] := g2
      have hlt : i * S.nModes + j.1 % S.nModes < size (shOf sh ax p r ++ [S.nModes]) := by
        rw [size_append]
        calc i * S.nModes + j.1 % S.nModes < (i + 1) * S.nModes := by rw [Nat.add_mul]; omega
          _ ≤ _ := Nat.mul_le_mul_right _ hi
      rw [flat_slab _ _ _ _ _ hp hr (by rw [hfs]; simp; omega) (by rw [hfs, shOf_snoc _ _ _ _ _ haxs]; exact hlt), hfs,
        gRow_snoc _ _ _ _ _ _ _ hp hr haxs hi hm]
      unfold flat
      rw [hfs, unravel_append _ _ _ _ h hm]
      rfl

/-! ### The projection -/

theorem mAll_spec (S : Stored) (fs : List Nat) (frames : List (Arr ℝ)) (sh : List Nat) (ax p k : Nat) (hp : 0 < p)
    (hax : ax < sh.length) (q : Nat → Part) (hq : ∀ r < p, IsPart S fs frames sh ax p r k (q r)) :
    mAll k ((List.range p).map q) = Coef.mMat (specPhi S fs sh k) (specWt S sh) := by
  ext i j
  simp only [mAll, Matrix.of_apply, List.map_map]
  have e : ((List.range p).map ((fun r : Part => ∑ x ∈ Finset.range r.xsize,
      star (r.phir.getD i (fun _ => 0) x) * ((r.w x : ℂ) * r.phir.getD j (fun _ => 0) x)) ∘ q)) =
      (List.range p).map fun (r : Nat) => ∑ x ∈ Finset.range (size (shOf sh ax p r)),
        star ((q r).phir.getD i (fun _ => 0) x) * (((q r).w x : ℂ) * (q r).phir.getD j (fun _ => 0) x) := by
    apply List.map_congr_left
    intro r hr
    simp only [Function.comp, (hq r (List.mem_range.1 hr)).xsize]
  rw [e, row_sum sh ax p hp hax (fun x => if h : x < size sh then
    star (specPhi S fs sh k ⟨x, h⟩ i) * ((specWt S sh ⟨x, h⟩ : ℂ) * specPhi S fs sh k ⟨x, h⟩ j) else 0)]
  · rw [Finset.sum_range]
    rw [Coef.mMat, Matrix.mul_apply]
    exact Finset.sum_congr rfl fun x _ => by simp only [Matrix.diagonal_mul, Matrix.conjTranspose_apply, Fin.is_lt, dite_true]
  · intro r hr x hx
    have h := gRow_lt sh ax p r x hp hr hax hx
    rw [dif_pos h, (hq r hr).phir x hx h i, (hq r hr).phir x hx h j, (hq r hr).w x hx h]

theorem qAll_spec (S : Stored) (fs : List Nat) (frames : List (Arr ℝ)) (sh : List Nat) (ax p k : Nat) (hp : 0 < p)
    (hax : ax < sh.length) (q : Nat → Part) (hq : ∀ r < p, IsPart S fs frames sh ax p r k (q r)) :
    qAll k frames.length ((List.range p).map q) =
      Coef.qMat (specPhi S fs sh k) (specWt S sh) (Coef.centred (specD frames sh)) := by
  ext i t
  simp only [qAll, Matrix.of_apply, List.map_map]
  have e : ((List.range p).map ((fun r : Part => ∑ x ∈ Finset.range r.xsize,
      star (r.phir.getD i (fun _ => 0) x) * ((r.w x : ℂ) * (r.data t x : ℂ))) ∘ q)) =
      (List.range p).map fun (r : Nat) => ∑ x ∈ Finset.range (size (shOf sh ax p r)),
        star ((q r).phir.getD i (fun _ => 0) x) * (((q r).w x : ℂ) * ((q r).data t x : ℂ)) := by
    apply List.map_congr_left
    intro r hr
    simp only [Function.comp, (hq r (List.mem_range.1 hr)).xsize]
  rw [e, row_sum sh ax p hp hax (fun x => if h : x < size sh then
    star (specPhi S fs sh k ⟨x, h⟩ i) * ((specWt S sh ⟨x, h⟩ : ℂ) * Coef.centred (specD frames sh) ⟨x, h⟩ t) else 0)]
  · rw [Finset.sum_range]
    rw [Coef.qMat, Matrix.mul_apply]
    exact Finset.sum_congr rfl fun x _ => by simp only [Matrix.diagonal_mul, Matrix.conjTranspose_apply, Fin.is_lt, dite_true]
  · intro r hr x hx
    have h := gRow_lt sh ax p r x hp hr hax hx
    rw [dif_pos h, (hq r hr).phir x hx h i, (hq r hr).w x hx h, (hq r hr).data x hx h t]

/-- a matrix with rows the grid points, as an array `[*sh, k]` -/
def gridArr (sh : List Nat) {k : Nat} (A : Matrix (Fin (size sh)) (Fin k) ℂ) : Arr ℂ where
  shape := sh ++ [k]
  at' := fun idx => if h : ravel sh idx.dropLast < size sh ∧ idx.getLastD 0 < k then A ⟨_, h.1⟩ ⟨_, h.2⟩ else 0

/-- the time mean of real data on the grid -/
noncomputable def meanArr (frames : List (Arr ℝ)) (sh : List Nat) : Arr ℝ where
  shape := sh
  at' := fun idx => (∑ t ∈ Finset.range frames.length, flat (frames.getD t ⟨[], fun _ => 0⟩) (ravel sh idx)) / (frames.length : ℝ)

theorem meanArr_spec (frames : List (Arr ℝ)) (sh idx : List Nat) (h : ravel sh idx < size sh) :
    ((meanArr frames sh).at' idx : ℂ) = Coef.ltMean (specD frames sh) ⟨ravel sh idx, h⟩ := by
  simp only [meanArr, Coef.ltMean, specD, Matrix.of_apply, Fintype.card_fin]
  push_cast
  rw [Finset.sum_range]

/-- The files of a projection of the whole data on one process. -/
noncomputable def globalFolder (S : Stored) (fs : List Nat) (tol : ℝ) (svd : Svd) (frames : List (Arr ℝ)) (sh : List Nat)
    (ax : Nat) : Folder :=
  let k := fs.length * S.nModes
  let Φ := specPhi S fs sh k
  let s := svd k (Coef.mMat Φ (specWt S sh))
  { coeffs := npSave (matArr (Coef.coeffs Φ (specWt S sh) (specD frames sh) tol s.1 s.2.1 s.2.2))
    modesR := npSave (gridArr sh Φ)
    ltm := npSave (meanArr frames sh)
    maxAxis := ax }

theorem ravel_toGlobal (sh : List Nat) (ax p r : Nat) (hp : 0 < p) (hr : r < p) (hax : ax < sh.length) (x : List Nat)
    (hx : InRange (shOf sh ax p r) x) :
    ravel sh (toGlobal sh ax p r x) = gRow sh ax p r (ravel (shOf sh ax p r) x) := by
  unfold gRow
  rw [unravel_ravel hx]

theorem phirArr_slab (S : Stored) (fs : List Nat) (frames : List (Arr ℝ)) (sh : List Nat) (ax p r k : Nat) (hp : 0 < p)
    (hr : r < p) (hax : ax < sh.length) (q : Part) (hq : IsPart S fs frames sh ax p r k q) :
    (phirArr k q).Eqv (distributeDimension (gridArr sh (specPhi S fs sh k)) ax (some (p, r))) := by
  constructor
  · rw [slab_shape _ _ _ _ hp hr]
    simp only [phirArr, gridArr, hq.sh_eq]
    exact (shOf_snoc _ _ _ _ _ hax).symm
  · intro idx hidx
    obtain ⟨x, j, rfl, hx, hj⟩ := inRange_append hidx
    rw [hq.sh_eq] at hx
    rw [slab_at]
    simp only [gridArr]
    rw [toGlobal_snoc _ _ _ _ _ _ _ hax (by simpa using hx.length)]
    have hg := shOf_inRange sh ax p r hp hr hax x hx
    simp only [phirArr, List.getLastD_concat, List.dropLast_concat]
    rw [dif_pos ⟨ravel_lt hg, hj⟩, hq.sh_eq]
    have hlt := ravel_lt hx
    have := hq.phir _ hlt (gRow_lt sh ax p r _ hp hr hax hlt) ⟨j, hj⟩
    simp only at this
    rw [this]
    congr 1
    simp only [Fin.mk.injEq]
    rw [ravel_toGlobal sh ax p r hp hr hax x hx]

theorem mapM_map_ok {α β} (n : Nat) (g : Nat → α) (f : α → Option β) (h : Nat → β) (H : ∀ r < n, f (g r) = some (h r)) :
    ((List.range n).map g).mapM f = some ((List.range n).map h) := by
  have : ∀ l : List Nat, (∀ r ∈ l, r < n) → (l.map g).mapM f = some (l.map h) := by
    intro l
    induction l with
    | nil => intro _; rfl
    | cons a l ih =>
      intro hl
      simp only [List.map_cons, List.mapM_cons]
      rw [H a (hl a (by simp)), ih fun r hr => hl r (by simp [hr])]
      rfl
  exact this _ fun r hr => List.mem_range.1 hr

/-- the files of a projection from the ranks' shares; the folder that is read (`S`) may lay out its values differently from `S'` -/
theorem parts_files (S' : Stored) (frames : List (Arr ℝ)) (fi : List Nat) (sh : List Nat) (ax K : Nat) (haxs : ax < sh.length)
    (p : Nat) (hp : 0 < p) (s : (β : Type) → List (Write β) → List (Write β)) (hs : ∀ β l, (s β l).Perm l) (q' : Nat → Part)
    (hq2 : ∀ r < p, IsPart S' fi frames sh ax p r K (q' r)) :
    saveAll (some s) ax ((List.range p).map fun r => phirArr K (q' r)) = npSave (gridArr sh (specPhi S' fi sh K)) ∧
    saveAll (some s) ax ((List.range p).map fun r =>
      (⟨(q' r).sh, fun idx => (q' r).mean (ravel (q' r).sh idx)⟩ : Arr ℝ)) = npSave (meanArr frames sh) := by
  have h1 : saveAll (some s) ax ((List.range p).map fun r => phirArr K (q' r)) =
      npSave (gridArr sh (specPhi S' fi sh K)) := by
    apply saveAll_slabs _ ax p hp (by simp only [gridArr, List.length_append]; omega) s hs
    intro r hr
    exact phirArr_slab S' fi frames sh ax p r _ hp hr haxs _ (hq2 r hr)
  have h2 : saveAll (some s) ax ((List.range p).map fun r =>
      (⟨(q' r).sh, fun idx => (q' r).mean (ravel (q' r).sh idx)⟩ : Arr ℝ)) = npSave (meanArr frames sh) := by
    apply saveAll_slabs _ ax p hp (by simpa [meanArr] using haxs) s hs
    intro r hr
    have hp' := hq2 r hr
    refine ⟨?_, ?_⟩
    · rw [slab_shape _ _ _ _ hp hr]
      simp only [hp'.sh_eq, meanArr]
    · intro x hx
      rw [hp'.sh_eq] at hx
      rw [slab_at]
      have hg := shOf_inRange sh ax p r hp hr haxs x hx
      have hlt := ravel_lt hx
      have e1 := hp'.mean _ hlt (gRow_lt sh ax p r _ hp hr haxs hlt)
      have e2 := meanArr_spec frames sh (toGlobal sh ax p r x) (ravel_lt hg)
      have : ((q' r).mean (ravel (shOf sh ax p r) x) : ℂ) = ((meanArr frames sh).at' (toGlobal sh ax p r x) : ℂ) := by
        rw [e1, e2]
        congr 1
        simp only [Fin.mk.injEq]
        rw [ravel_toGlobal sh ax p r hp hr haxs x hx]
      simp only [hp'.sh_eq]
      exact_mod_cast this
  exact ⟨h1, h2⟩

theorem project_of_parts (S S' : Stored) (hn : S'.nModes = S.nModes) (o : Opts) (svd : Svd) (frames : List (Arr ℝ)) (fi : List Nat)
    (dims sh : List Nat) (hfs : fi ≠ []) (hfr : frames ≠ []) (hsn : ∀ a ∈ frames, a.shape = dims) (hk : 0 < S.nModes) (ax : Nat)
    (hax : argmax dims = some ax) (haxs : ax < sh.length)
    (p : Nat) (hp : 0 < p) (s : (β : Type) → List (Write β) → List (Write β)) (hs : ∀ β l, (s β l).Perm l) (q' : Nat → Part)
    (hq1 : ∀ r < p, rankPart S fi.length fi frames ax (some (p, r)) = some (q' r))
    (hq2 : ∀ r < p, IsPart S' fi frames sh ax p r (fi.length * S'.nModes) (q' r)) :
    projectBand S o svd frames (ranksOf p) (some s) fi.length fi = some (globalFolder S' fi o.tol svd frames sh ax) := by
  obtain ⟨a, l, hal⟩ := List.exists_cons_of_ne_nil hfr
  have hsha : a.shape = dims := hsn a (by simp [hal])
  have hkne : ¬ (o.svd = true ∧ fi.length * S.nModes = 0) := by
    rintro ⟨_, h⟩
    rcases Nat.mul_eq_zero.1 h with h | h
    · exact hfs (List.length_eq_zero_iff.1 h)
    · omega
  have hmapM := mapM_map_ok p (fun r => (some (p, r) : Comm)) (rankPart S fi.length fi frames ax) q' hq1
  have hM := mAll_spec S' fi frames sh ax p _ hp haxs q' hq2
  have hQ := qAll_spec S' fi frames sh ax p _ hp haxs q' hq2
  obtain ⟨h1, h2⟩ := parts_files S' frames fi sh ax _ haxs p hp s hs q' hq2
  subst hal
  simp only [projectBand, hsha, hax, ranksOf, hmapM, if_neg hkne]
  rw [← hn]
  rw [hM, hQ, List.map_map, List.map_map]
  simp only [globalFolder, Option.some.injEq, Folder.mk.injEq, and_true]
  exact ⟨rfl, h1, h2⟩

theorem project_par (S : Stored) (o : Opts) (svd : Svd) (frames : List (Arr ℝ)) (fi : List Nat) (dims sh : List Nat)
    (hfs : fi ≠ []) (F : Fits S fi frames dims sh) (hfr : frames ≠ []) (hd : dims ≠ []) (hk : 0 < S.nModes)
    (p : Nat) (hp : 0 < p) (s : (β : Type) → List (Write β) → List (Write β)) (hs : ∀ β l, (s β l).Perm l) :
    ∃ ax, IsFirstMax dims ax ∧
      projectBand S o svd frames (ranksOf p) (some s) fi.length fi = some (globalFolder S fi o.tol svd frames sh ax) := by
  obtain ⟨ax, hax⟩ := argmax_isSome dims hd
  have hmax := argmax_spec _ _ hax
  have haxd : ax < dims.length := hmax.1
  have haxs : ax < sh.length := by
    rcases F.axis with ⟨h, _⟩ | ⟨h, _⟩ <;> subst h
    · exact haxd
    · simp; omega
  refine ⟨ax, hmax, ?_⟩
  choose q hq using fun (r : Fin p) => rankPart_ok S fi frames dims sh F hfr hfs ax p r hp r.2 haxd
  let q' : Nat → Part := fun r => if h : r < p then q ⟨r, h⟩ else ⟨[], 0, fun _ => 0, fun _ => 0, fun _ _ => 0, []⟩
  have hq1 : ∀ r < p, rankPart S fi.length fi frames ax (some (p, r)) = some (q' r) := by
    intro r hr; simp only [q', dif_pos hr]; exact (hq ⟨r, hr⟩).1
  have hq2 : ∀ r < p, IsPart S fi frames sh ax p r (fi.length * S.nModes) (q' r) := by
    intro r hr; simp only [q', dif_pos hr]; exact (hq ⟨r, hr⟩).2
  exact project_of_parts S S rfl o svd frames fi dims sh hfs hfr F.snaps hk ax hax haxs p hp s hs q' hq1 hq2

theorem saveAll_single {α} [Inhabited α] (a : Arr α) (ax : Nat) (hax : ax < a.shape.length) :
    saveAll none ax [a] = saveAll (some fun _ l => l) ax [a] := by
  have := saveAll_slabs a ax 1 (by omega) hax (fun _ l => l) (fun _ _ => List.Perm.refl _) (fun _ => a) (by
    intro r hr
    have : r = 0 := by omega
    subst this
    rw [distribute_one]
    exact Arr.Eqv.refl _)
  simp only [List.range_one, List.map_cons, List.map_nil] at this
  rw [this]; rfl

theorem rankPart_none (S : Stored) (nf : Nat) (fs : List Nat) (frames : List (Arr ℝ)) (ax : Nat) :
    rankPart S nf fs frames ax none = rankPart S nf fs frames ax (some (1, 0)) := by
  have hm : ∀ x f, modeCols S ax none x f = modeCols S ax (some (1, 0)) x f := by
    intro x f
    simp only [modeCols, distribute_one]
    rfl
  simp only [rankPart, distribute_one, hm]
  rfl

theorem project_one (S : Stored) (o : Opts) (svd : Svd) (frames : List (Arr ℝ)) (nf : Nat) (fi : List Nat) (dims : List Nat)
    (hfr : frames ≠ []) (hsn : ∀ a ∈ frames, a.shape = dims) (ax : Nat) (hax : argmax dims = some ax) (q : Part)
    (hq1 : rankPart S nf fi frames ax (some (1, 0)) = some q) (haxs : ax < q.sh.length) :
    projectBand S o svd frames [none] none nf fi =
      projectBand S o svd frames (ranksOf 1) (some fun _ l => l) nf fi := by
  obtain ⟨a, l, hal⟩ := List.exists_cons_of_ne_nil hfr
  have hsha : a.shape = dims := hsn a (by simp [hal])
  have hm1 : ([none] : List Comm).mapM (rankPart S nf fi frames ax) = some [q] := by
    simp [List.mapM_cons, rankPart_none, hq1]
  have hm2 : (ranksOf 1).mapM (rankPart S nf fi frames ax) = some [q] := by
    simp [ranksOf, List.mapM_cons, hq1]
  subst hal
  simp only [projectBand, hsha, hax, hm1, hm2, List.map_cons, List.map_nil]
  rw [saveAll_single _ ax (by simp only [phirArr, List.length_append]; omega), saveAll_single _ ax haxs]

theorem project_ser (S : Stored) (o : Opts) (svd : Svd) (frames : List (Arr ℝ)) (fi : List Nat) (dims sh : List Nat)
    (hfs : fi ≠ []) (F : Fits S fi frames dims sh) (hfr : frames ≠ []) (hd : dims ≠ []) :
    projectBand S o svd frames [none] none fi.length fi =
      projectBand S o svd frames (ranksOf 1) (some fun _ l => l) fi.length fi := by
  obtain ⟨ax, hax⟩ := argmax_isSome dims hd
  have haxd : ax < dims.length := (argmax_spec _ _ hax).1
  obtain ⟨q, hq1, hq2⟩ := rankPart_ok S fi frames dims sh F hfr hfs ax 1 0 (by omega) (by omega) haxd
  have haxs : ax < q.sh.length := by
    rw [hq2.sh_eq]
    rcases F.axis with ⟨h, _⟩ | ⟨h, _⟩ <;> subst h
    · simpa using haxd
    · simp; omega
  exact project_one S o svd frames fi.length fi dims hfr F.snaps ax hax q hq1 haxs

/-- **C99.** `compute_coeffs_op`, end to end.  For every results folder that fits the data, every selection of frequencies, every
    number of ranks and every order of the element writes, the projection succeeds and leaves the same files as on one
    process: the coefficients are the oblique projection of the fluctuations on the stored modes of the selected
    frequencies (frequency by frequency, mode by mode), the mode file holds these modes, the mean file the time mean of the
    data. -/
theorem projection_files (S : Stored) (o : Opts) (svd : Svd) (frames : List (Arr ℝ)) (b : Coef.Band) (dims sh : List Nat)
    (hb : Coef.selectBand S.freq o.tLb o.tUb o.freqIdx = .ok b) (hlen : b.nFreqR = b.freqIdx.length) (hfs : b.freqIdx ≠ [])
    (F : Fits S b.freqIdx frames dims sh) (hfr : frames ≠ []) (hd : dims ≠ []) (hk : 0 < S.nModes) :
    ∃ ax, IsFirstMax dims ax ∧
      (∀ p, 0 < p → ∀ s : (β : Type) → List (Write β) → List (Write β), (∀ β l, (s β l).Perm l) →
        project S o svd frames (ranksOf p) (some s) = some (globalFolder S b.freqIdx o.tol svd frames sh ax)) ∧
      project S o svd frames [none] none = some (globalFolder S b.freqIdx o.tol svd frames sh ax) := by
  have hneg : ¬ b.nFreqR * (S.nModes : Int) < 0 := by
    rw [hlen]
    exact not_lt.2 (by positivity)
  have hto : b.nFreqR.toNat = b.freqIdx.length := by rw [hlen]; rfl
  have hpr : ∀ comms sched, project S o svd frames comms sched =
      projectBand S o svd frames comms sched b.freqIdx.length b.freqIdx := by
    intro comms sched
    simp only [project, hb, if_neg hneg, hto]
  obtain ⟨ax, hmax, h1⟩ := project_par S o svd frames b.freqIdx dims sh hfs F hfr hd hk 1 (by omega) (fun _ l => l)
    (fun _ _ => List.Perm.refl _)
  refine ⟨ax, hmax, ?_, ?_⟩
  · intro p hp s hs
    obtain ⟨ax', hmax', h2⟩ := project_par S o svd frames b.freqIdx dims sh hfs F hfr hd hk p hp s hs
    rw [hpr, h2, hmax'.unique hmax]
  · rw [hpr, project_ser S o svd frames b.freqIdx dims sh hfs F hfr hd, h1]

/-! ### Reconstruction -/

theorem open_npSave {α} [Inhabited α] (A : Arr α) : (openMemmap (npSave A)).Eqv A := by
  refine ⟨rfl, fun idx h => ?_⟩
  have h' : InRange A.shape idx := h
  simp only [openMemmap, npSave, if_pos (ravel_lt h'), unravel_ravel h', Option.getD_some]

theorem slab_congr {α} {A B : Arr α} (h : A.Eqv B) (ax p r : Nat) (hax : ax < B.shape.length) :
    (distributeDimension A ax (some (p, r))).Eqv (distributeDimension B ax (some (p, r))) := by
  obtain ⟨hs, he⟩ := h
  have : (distributeDimension A ax (some (p, r))).shape = (distributeDimension B ax (some (p, r))).shape := by
    simp [distributeDimension, Arr.slice, hs]
  refine ⟨this, fun idx hi => ?_⟩
  have hg := slab_inRange A ax p r (by rw [hs]; exact hax) idx hi
  rw [slab_at, slab_at, he _ hg, hs]

theorem size_set_pj (sh : List Nat) (ax n : Nat) (hax : ax < sh.length) : size (sh.set ax n) = n * size (sh.set ax 1) := by
  induction sh generalizing ax with
  | nil => simp at hax
  | cons a sh ih => cases ax with
    | zero => simp [size]
    | succ ax =>
      simp only [List.set_cons_succ, size, ih ax (by simpa using hax)]
      ring

theorem size_set_pos_pj (sh : List Nat) (ax : Nat) (h : 0 < size sh) : 0 < size (sh.set ax 1) := by
  induction sh generalizing ax with
  | nil => simp [size]
  | cons a sh ih =>
    have ha : 0 < a ∧ 0 < size sh := by
      simp only [size] at h
      exact ⟨Nat.pos_of_mul_pos_right h |> fun h => by
        rcases Nat.eq_zero_or_pos a with h0 | h0
        · simp [h0] at *
        · exact h0, Nat.pos_of_ne_zero (by rintro h0; simp [h0] at h)⟩
    cases ax with
    | zero => simpa [size] using ha.2
    | succ ax =>
      simp only [List.set_cons_succ, size]
      exact Nat.mul_pos ha.1 (ih ax ha.2)

theorem reflat {α} (q : Arr α) : (⟨q.shape, fun idx => q.at' (unravel q.shape (ravel q.shape idx))⟩ : Arr α).Eqv q := by
  refine ⟨rfl, fun idx h => ?_⟩
  have h' : InRange q.shape idx := h
  simp only [unravel_ravel h']

/-- setting the shape of a rank's reconstruction gives the rank's extents back -/
theorem setShape_slab (q : Arr ℂ) (sh : List Nat) (T ax n : Nat) (hax : ax < sh.length) (hq : q.shape = sh.set ax n ++ [T])
    (hT : 0 < T) (hpos : 0 < size sh) : ∃ q', setShape q (sh ++ [T]) (some ax) = some q' ∧ q'.Eqv q := by
  have hoth : 0 < size ((sh ++ [T]).set ax 1) := by
    apply size_set_pos_pj
    rw [size_append]
    exact Nat.mul_pos hpos hT
  have hqs : q.shape = (sh ++ [T]).set ax n := by rw [hq, List.set_append_left _ _ hax]
  have hsz : size q.shape = n * size ((sh ++ [T]).set ax 1) := by
    rw [hqs]
    exact size_set_pj _ _ _ (by simp; omega)
  refine ⟨⟨q.shape, fun idx => q.at' (unravel q.shape (ravel q.shape idx))⟩, ?_, reflat q⟩
  simp only [setShape]
  rw [if_neg]
  · rw [hsz, Nat.mul_div_cancel _ hoth, ← hqs]
  · rw [hsz]
    simp
    omega

theorem setShape_none (q : Arr ℂ) : ∃ q', setShape q q.shape none = some q' ∧ q'.Eqv q :=
  ⟨_, by simp [setShape], reflat q⟩

/-- the modes file read as a matrix: `Φ x j` -/
def ModesRead (A : Arr ℂ) (sh : List Nat) (d k ax : Nat) (Φ : List Nat → Nat → ℂ) : Prop :=
  ∀ B : Arr ℂ, ∀ p r, 0 < p → r < p → B.Eqv (distributeDimension A ax (some (p, r))) →
    ∃ Φr, modesMat B k d = some (shOf sh ax p r, Φr) ∧
      ∀ x, InRange (shOf sh ax p r) x → ∀ j < k, Φr x j = Φ (toGlobal sh ax p r x) j

theorem modesRead_op (A : Arr ℂ) (sh : List Nat) (k ax : Nat) (hax : ax < sh.length) (hA : A.shape = sh ++ [k]) :
    ModesRead A sh 2 k ax fun x j => A.at' (x ++ [j]) := by
  intro B p r hp hr hB
  have hBs : B.shape = shOf sh ax p r ++ [k] := by
    rw [hB.1, slab_shape _ _ _ _ hp hr, hA]
    exact shOf_snoc _ _ _ _ _ hax
  refine ⟨fun x j => B.at' (x ++ [j]), ?_, ?_⟩
  · simp [modesMat, hBs]
  · intro x hx j hj
    have hi : InRange B.shape (x ++ [j]) := by rw [hBs]; exact inRange_snoc hx hj
    simp only
    rw [hB.2 _ hi, slab_at, hA, toGlobal_snoc _ _ _ _ _ _ _ hax (by simpa using hx.length)]

theorem toGlobal_length (sh : List Nat) (ax p r : Nat) (x : List Nat) : (toGlobal sh ax p r x).length = x.length := by
  simp [toGlobal]

theorem modesRead_conv (A : Arr ℂ) (sh : List Nat) (nf nm ax : Nat) (hax : ax < sh.length) (hA : A.shape = sh ++ [nf, nm])
    (hf : 0 < nf) (hm : 0 < nm) :
    ModesRead A sh 3 (nf * nm) ax fun x j => A.at' (x ++ [j / nm, j % nm]) := by
  intro B p r hp hr hB
  have e2 : ∀ l : List Nat, l ++ [nf, nm] = (l ++ [nf]) ++ [nm] := by simp
  have hax' : ax < (sh ++ [nf]).length := by simp; omega
  have hBs : B.shape = (shOf sh ax p r ++ [nf]) ++ [nm] := by
    rw [hB.1, slab_shape _ _ _ _ hp hr, hA, e2]
    have h1 := shOf_snoc (sh ++ [nf]) nm ax p r hax'
    rw [shOf_snoc sh nf ax p r hax] at h1
    exact h1
  have hd : B.shape.dropLast.dropLast = shOf sh ax p r := by rw [hBs, List.dropLast_concat, List.dropLast_concat]
  refine ⟨fun x j => B.at' (unravel B.shape (ravel (shOf sh ax p r) x * (nf * nm) + j)), ?_, ?_⟩
  · simp only [modesMat]
    rw [if_neg (by omega), if_pos]
    · rw [hd]
    · refine ⟨by rw [hBs]; simp, ?_, ?_, ?_⟩
      · rw [hBs]; simp [ext, List.getD_eq_getElem?_getD]; exact hm
      · rw [hBs]
        simp only [List.length_append, List.length_cons, List.length_nil, ext]
        rw [show (shOf sh ax p r).length + (0 + 1) + (0 + 1) - 2 = (shOf sh ax p r).length by omega]
        simpa [List.getD_eq_getElem?_getD] using hf
      · rw [hd, hBs, size_append, size_append, Nat.mul_assoc]
  · intro x hx j hj
    have hq : j / nm < nf := by rw [Nat.div_lt_iff_lt_mul hm]; exact hj
    have hmod := Nat.mod_lt j hm
    have hxl : x.length = sh.length := by simpa using hx.length
    have e : unravel B.shape (ravel (shOf sh ax p r) x * (nf * nm) + j) = x ++ [j / nm] ++ [j % nm] := by
      have h1 : ravel (shOf sh ax p r) x * (nf * nm) + j = (ravel (shOf sh ax p r) x * nf + j / nm) * nm + j % nm := by
        have := Nat.div_add_mod j nm
        nlinarith [this]
      have h2 : ravel (shOf sh ax p r) x * nf + j / nm < size (shOf sh ax p r ++ [nf]) := by
        rw [← ravel_append _ _ _ _ hx hq]
        exact ravel_lt (inRange_snoc hx hq)
      rw [h1, hBs, unravel_append _ _ _ _ h2 hmod, unravel_append _ _ _ _ (ravel_lt hx) hq, unravel_ravel hx]
    have hi : InRange B.shape (x ++ [j / nm] ++ [j % nm]) := by
      rw [hBs]; exact inRange_snoc (inRange_snoc hx hq) hmod
    simp only
    rw [e, hB.2 _ hi, slab_at, hA, e2, toGlobal_snoc _ _ _ _ _ _ _ hax' (by simp [hxl]),
      toGlobal_snoc _ _ _ _ _ _ _ hax hxl]
    simp

/-- time `times[t]`, grid point `x` of the reconstruction: `Σⱼ Φ x j * c j (times[t]) + mean x` -/
noncomputable def recArr (sh : List Nat) (Φ : List Nat → Nat → ℂ) (k : Nat) (c : Nat → Nat → ℂ) (times : List Nat) (L : Arr ℝ) :
    Arr ℂ where
  shape := times.length :: sh
  at' := fun idx => (∑ j ∈ Finset.range k, Φ idx.tail j * c j (times.getD (idx.headD 0) 0)) + (L.at' idx.tail : ℂ)

theorem recLocal_ok (A : Arr ℂ) (L : Arr ℝ) (d k ax p r : Nat) (Φ : List Nat → Nat → ℂ) (hp : 0 < p) (hr : r < p)
    (hax : ax < L.shape.length) (hΦ : ModesRead A L.shape d k ax Φ) (hAx : ax < A.shape.length)
    (fA : NpyFile ℂ) (fL : NpyFile ℝ) (hA : fA = npSave A) (hL : fL = npSave L) (c : Nat → Nat → ℂ) (times : List Nat) :
    ∃ q, recLocal (distributeDimension (openMemmap fA) ax (some (p, r))) (distributeDimension (openMemmap fL) ax (some (p, r)))
        d k c times = some q ∧ q.shape = shOf L.shape ax p r ++ [times.length] ∧
      ∀ x, InRange (shOf L.shape ax p r) x → ∀ t, q.at' (x ++ [t]) =
        (∑ j ∈ Finset.range k, Φ (toGlobal L.shape ax p r x) j * c j (times.getD t 0)) +
          (L.at' (toGlobal L.shape ax p r x) : ℂ) := by
  subst hA hL
  obtain ⟨Φr, h1, h2⟩ := hΦ _ p r hp hr (slab_congr (open_npSave A) ax p r hAx)
  have hl := slab_congr (open_npSave L) ax p r hax
  have hls : (distributeDimension (openMemmap (npSave L)) ax (some (p, r))).shape = shOf L.shape ax p r := by
    rw [hl.1, slab_shape _ _ _ _ hp hr]
  refine ⟨_, by simp only [recLocal, h1]; rw [if_pos hls.symm], rfl, ?_⟩
  intro x hx t
  simp only [List.dropLast_concat, List.getLastD_concat]
  congr 1
  · exact Finset.sum_congr rfl fun j hj => by rw [h2 x hx j (Finset.mem_range.1 hj)]
  · rw [hl.2 x (by rw [hls]; exact hx), slab_at]

theorem move_slab (q : Arr ℂ) (sh : List Nat) (Φ : List Nat → Nat → ℂ) (k ax p r : Nat) (c : Nat → Nat → ℂ) (times : List Nat)
    (L : Arr ℝ) (hp : 0 < p) (hr : r < p)
    (hs : q.shape = shOf sh ax p r ++ [times.length])
    (he : ∀ x, InRange (shOf sh ax p r) x → ∀ t < times.length, q.at' (x ++ [t]) =
        (∑ j ∈ Finset.range k, Φ (toGlobal sh ax p r x) j * c j (times.getD t 0)) +
          (L.at' (toGlobal sh ax p r x) : ℂ)) :
    (moveLastFirst q).Eqv (distributeDimension (recArr sh Φ k c times L) (ax + 1) (some (p, r))) := by
  have hsh : (moveLastFirst q).shape = times.length :: shOf sh ax p r := by
    simp [moveLastFirst, hs]
  refine ⟨?_, fun idx hidx => ?_⟩
  · rw [hsh, slab_shape _ _ _ _ hp hr]
    simp [recArr, shOf, ext]
  · rw [hsh] at hidx
    cases idx with
    | nil => simp [InRange] at hidx
    | cons t x =>
      have e : toGlobal (times.length :: sh) (ax + 1) p r (t :: x) = t :: toGlobal sh ax p r x := by
        simp [toGlobal, ext]
      rw [slab_at]
      simp only [recArr, e, moveLastFirst, List.tail_cons, List.headD_cons]
      exact he x hidx.2 t hidx.1

theorem rec_ranks (F : Folder) (A : Arr ℂ) (L : Arr ℝ) (d k ax : Nat) (Φ : List Nat → Nat → ℂ) (hax : ax < L.shape.length)
    (hΦ : ModesRead A L.shape d k ax Φ) (hAx : ax < A.shape.length) (hA : F.modesR = npSave A) (hL : F.ltm = npSave L)
    (hF : F.maxAxis = ax) (c : Nat → Nat → ℂ) (times : List Nat) :
    (∀ p, 0 < p → times ≠ [] → 0 < size L.shape → ∀ r < p, ∃ q, recRank F d k c times (some (p, r)) = some q ∧
      q.Eqv (distributeDimension (recArr L.shape Φ k c times L) (ax + 1) (some (p, r)))) ∧
    ∃ q, recRank F d k c times none = some q ∧ q.Eqv (recArr L.shape Φ k c times L) := by
  have hFs : F.ltm.shape = L.shape := by rw [hL]; rfl
  constructor
  · intro p hp ht hpos r hr
    obtain ⟨q, h1, h2, h3⟩ := recLocal_ok A L d k ax p r Φ hp hr hax hΦ hAx _ _ hA hL c times
    obtain ⟨q', g1, g2⟩ := setShape_slab q L.shape times.length ax _ hax h2 (List.length_pos_iff.2 ht) hpos
    refine ⟨moveLastFirst q', by simp only [recRank, hF, h1, hFs, Option.map_some, g1], ?_⟩
    apply move_slab q' L.shape Φ k ax p r c times L hp hr (g2.1.trans h2)
    intro x hx t ht
    rw [g2.2 _ (by rw [g2.1, h2]; exact inRange_snoc hx ht), h3 x hx t]
  · obtain ⟨q, h1, h2, h3⟩ := recLocal_ok A L d k ax 1 0 Φ (by omega) (by omega) hax hΦ hAx _ _ hA hL c times
    rw [distribute_one, distribute_one] at h1
    have hsh : shOf L.shape ax 1 0 = L.shape := by
      have := congrArg Arr.shape (distribute_one L ax)
      rw [slab_shape _ _ _ _ (by omega) (by omega)] at this
      exact this
    have h2' : q.shape = L.shape ++ [times.length] := by rw [h2, hsh]
    obtain ⟨q', g1, g2⟩ := setShape_none q
    rw [h2'] at g1
    have hm := move_slab q' L.shape Φ k ax 1 0 c times L (by omega) (by omega) (g2.1.trans h2) (by
      intro x hx t ht
      rw [g2.2 _ (by rw [g2.1, h2]; exact inRange_snoc hx ht), h3 x hx t])
    rw [distribute_one] at hm
    refine ⟨moveLastFirst q', ?_, hm⟩
    have hd : ∀ {α} (a : Arr α), distributeDimension a F.maxAxis none = a := fun a => rfl
    simp only [recRank, hd, h1, hFs, Option.map_none, g1, Option.map_some]

theorem rec_files (F : Folder) (A : Arr ℂ) (L : Arr ℝ) (k ax : Nat) (Φ : List Nat → Nat → ℂ) (hax : ax < L.shape.length)
    (given : Option (Arr ℂ)) (a : Arr ℂ) (ha : a = given.getD (openMemmap F.coeffs)) (c : Nat → Nat → ℂ)
    (hc : coefMat a = some (k, c)) (time : Coef.TimeArg) (ts : List Int)
    (hts : Coef.timeIdx (ext a.shape 1) time = .ok ts)
    (hΦ : ModesRead A L.shape a.shape.length k ax Φ) (hAx : ax < A.shape.length) (hA : F.modesR = npSave A)
    (hL : F.ltm = npSave L) (hF : F.maxAxis = ax) :
    (∀ p, 0 < p → ts ≠ [] → 0 < size L.shape → ∀ s : (β : Type) → List (Write β) → List (Write β), (∀ β l, (s β l).Perm l) →
      reconstruct F given time (ranksOf p) (some s) =
        some (npSave (recArr L.shape Φ k c (ts.map (wrap (ext a.shape 1))) L))) ∧
    reconstruct F given time [none] none = some (npSave (recArr L.shape Φ k c (ts.map (wrap (ext a.shape 1))) L)) := by
  obtain ⟨hpar, q, hq1, hq2⟩ := rec_ranks F A L a.shape.length k ax Φ hax hΦ hAx hA hL hF c (ts.map (wrap (ext a.shape 1)))
  constructor
  · intro p hp hne hpos s hs
    choose q h1 h2 using hpar p hp (by simpa using hne) hpos
    let q' : Nat → Arr ℂ := fun r => if h : r < p then q r h else ⟨[], fun _ => 0⟩
    have hm := mapM_map_ok p (fun r => (some (p, r) : Comm)) (recRank F a.shape.length k c (ts.map (wrap (ext a.shape 1)))) q'
      (by intro r hr; simp only [q', dif_pos hr]; exact h1 r hr)
    simp only [reconstruct, ← ha, hts, hc, ranksOf, hm, hF, Option.some.injEq]
    apply saveAll_slabs _ (ax + 1) p hp (by simp [recArr]; omega) s hs
    intro r hr
    simp only [q', dif_pos hr]
    exact h2 r hr
  · have hm : ([none] : List Comm).mapM (recRank F a.shape.length k c (ts.map (wrap (ext a.shape 1)))) = some [q] := by
      simp [List.mapM_cons, hq1]
    simp only [reconstruct, ← ha, hts, hc, hm, Option.some.injEq, saveAll]
    exact npSave_congr hq2

/-- How a function is run: by one process without communicator, or by the ranks of a communicator of any size, whose element
    writes happen in any order. -/
def IsRun (comms : List Comm) (sched : Sched) : Prop :=
  (comms = [none] ∧ sched = none) ∨
  ∃ (p : Nat) (s : (β : Type) → List (Write β) → List (Write β)), 0 < p ∧ (∀ β l, (s β l).Perm l) ∧
    comms = ranksOf p ∧ sched = some s

/-- **C100.** `compute_reconstruction` with two-dimensional coefficients (those of `compute_coeffs_op`, of the file or given by the
    caller), on any number of ranks: snapshot `t` of the file is the mean plus the modes times the coefficients at the
    `t`-th requested time (negative ones count from the end). -/
theorem reconstruction_file (F : Folder) (A : Arr ℂ) (L : Arr ℝ) (hax : F.maxAxis < L.shape.length)
    (hA : F.modesR = npSave A) (hL : F.ltm = npSave L) (hpos : 0 < size L.shape)
    (given : Option (Arr ℂ)) (a : Arr ℂ) (ha : a = given.getD (openMemmap F.coeffs)) (k nt : Nat) (hak : a.shape = [k, nt])
    (hAk : A.shape = L.shape ++ [k]) (time : Coef.TimeArg) (ts : List Int) (hts : Coef.timeIdx nt time = .ok ts)
    (hne : ts ≠ []) (comms : List Comm) (sched : Sched) (hrun : IsRun comms sched) :
    ∃ R : Arr ℂ, reconstruct F given time comms sched = some (npSave R) ∧ R.shape = ts.length :: L.shape ∧
      ∀ t x, t < ts.length → R.at' (t :: x) =
        (L.at' x : ℂ) + ∑ j ∈ Finset.range k, A.at' (x ++ [j]) *
          a.at' [j, if ts.getD t 0 < 0 then (ts.getD t 0 + nt).toNat else (ts.getD t 0).toNat] := by
  have hnt : ext a.shape 1 = nt := by simp [hak, ext]
  have hc : coefMat a = some (k, fun i t => a.at' [i, t]) := by simp [coefMat, hak]
  have hl : a.shape.length = 2 := by simp [hak]
  obtain ⟨h1, h2⟩ := rec_files F A L k F.maxAxis (fun x j => A.at' (x ++ [j])) hax given a ha _ hc time ts
    (by rw [hnt]; exact hts) (by rw [hl]; exact modesRead_op A L.shape k F.maxAxis hax hAk)
    (by rw [hAk]; simp; omega) hA hL rfl
  refine ⟨recArr L.shape (fun x j => A.at' (x ++ [j])) k (fun i t => a.at' [i, t]) (ts.map (wrap (ext a.shape 1))) L, ?_, ?_, ?_⟩
  · rcases hrun with ⟨rfl, rfl⟩ | ⟨p, s, hp, hs, rfl, rfl⟩
    · exact h2
    · exact h1 p hp hne hpos s hs
  · simp [recArr]
  · intro t x ht
    have : (ts.map (wrap (ext a.shape 1))).getD t 0 = wrap nt (ts.getD t 0) := by
      simp [List.getD_eq_getElem?_getD, ht, hnt]
    simp only [recArr, List.tail_cons, List.headD_cons, this, wrap]
    rw [add_comm]

/-- **C101.** The same with three-dimensional coefficients `[frequency, time, mode]` and modes `[*space, frequency, mode]`
    (those of `compute_coeffs_conv`): the sum runs over frequencies and modes. -/
theorem reconstruction_conv_file (F : Folder) (A : Arr ℂ) (L : Arr ℝ) (hax : F.maxAxis < L.shape.length)
    (hA : F.modesR = npSave A) (hL : F.ltm = npSave L) (hpos : 0 < size L.shape)
    (given : Option (Arr ℂ)) (a : Arr ℂ) (ha : a = given.getD (openMemmap F.coeffs)) (nf nm nt : Nat)
    (hak : a.shape = [nf, nt, nm]) (hAk : A.shape = L.shape ++ [nf, nm]) (hf : 0 < nf) (hm : 0 < nm)
    (time : Coef.TimeArg) (ts : List Int) (hts : Coef.timeIdx nt time = .ok ts)
    (hne : ts ≠ []) (comms : List Comm) (sched : Sched) (hrun : IsRun comms sched) :
    ∃ R : Arr ℂ, reconstruct F given time comms sched = some (npSave R) ∧ R.shape = ts.length :: L.shape ∧
      ∀ t x, t < ts.length → R.at' (t :: x) =
        (L.at' x : ℂ) + ∑ f ∈ Finset.range nf, ∑ m ∈ Finset.range nm, A.at' (x ++ [f, m]) *
          a.at' [f, if ts.getD t 0 < 0 then (ts.getD t 0 + nt).toNat else (ts.getD t 0).toNat, m] := by
  have hnt : ext a.shape 1 = nt := by simp [hak, ext]
  have hc : coefMat a = some (nf * nm, fun i t => a.at' [i / nm, t, i % nm]) := by simp [coefMat, hak]
  have hl : a.shape.length = 3 := by simp [hak]
  obtain ⟨h1, h2⟩ := rec_files F A L (nf * nm) F.maxAxis (fun x j => A.at' (x ++ [j / nm, j % nm])) hax given a ha _ hc time ts
    (by rw [hnt]; exact hts) (by rw [hl]; exact modesRead_conv A L.shape nf nm F.maxAxis hax hAk hf hm)
    (by rw [hAk]; simp; omega) hA hL rfl
  refine ⟨recArr L.shape (fun x j => A.at' (x ++ [j / nm, j % nm])) (nf * nm) (fun i t => a.at' [i / nm, t, i % nm])
    (ts.map (wrap (ext a.shape 1))) L, ?_, ?_, ?_⟩
  · rcases hrun with ⟨rfl, rfl⟩ | ⟨p, s, hp, hs, rfl, rfl⟩
    · exact h2
    · exact h1 p hp hne hpos s hs
  · simp [recArr]
  · intro t x ht
    have : (ts.map (wrap (ext a.shape 1))).getD t 0 = wrap nt (ts.getD t 0) := by
      simp [List.getD_eq_getElem?_getD, ht, hnt]
    simp only [recArr, List.tail_cons, List.headD_cons, this, wrap]
    rw [add_comm]
    congr 1
    rw [Finset.sum_range, ← finProdFinEquiv.sum_comp, Fintype.sum_prod_type, Finset.sum_range]
    refine Finset.sum_congr rfl fun f _ => ?_
    rw [Finset.sum_range]
    refine Finset.sum_congr rfl fun m _ => ?_
    have e1 : (finProdFinEquiv (f, m) : Fin (nf * nm)).1 / nm = f.1 := by
      simp only [finProdFinEquiv_apply_val]
      rw [Nat.add_comm, Nat.mul_add_div hm, Nat.div_eq_of_lt m.2, Nat.add_zero]
    have e2 : (finProdFinEquiv (f, m) : Fin (nf * nm)).1 % nm = m.1 := by
      simp only [finProdFinEquiv_apply_val]
      rw [Nat.add_comm, Nat.mul_add_mod, Nat.mod_eq_of_lt m.2]
    rw [e1, e2]

/-- **C102 fails**: for an empty list of times one process writes a file without snapshots, but every communicator raises
    (numpy cannot infer the extent of the distributed axis of an array without entries). -/
theorem reconstruction_no_times_fails (F : Folder) (A : Arr ℂ) (L : Arr ℝ) (hax : F.maxAxis < L.shape.length)
    (hA : F.modesR = npSave A) (hL : F.ltm = npSave L)
    (given : Option (Arr ℂ)) (a : Arr ℂ) (ha : a = given.getD (openMemmap F.coeffs)) (k nt : Nat) (hak : a.shape = [k, nt])
    (hAk : A.shape = L.shape ++ [k]) :
    (∃ f, reconstruct F given (.list []) [none] none = some f ∧ f.shape = 0 :: L.shape) ∧
    ∀ p, 0 < p → ∀ sched, reconstruct F given (.list []) (ranksOf p) sched = none := by
  have hnt : ext a.shape 1 = nt := by simp [hak, ext]
  have hc : coefMat a = some (k, fun i t => a.at' [i, t]) := by simp [coefMat, hak]
  have hl : a.shape.length = 2 := by simp [hak]
  have hts : Coef.timeIdx (ext a.shape 1) (.list []) = .ok [] := by simp [Coef.timeIdx]
  have hAx : F.maxAxis < A.shape.length := by rw [hAk]; simp; omega
  have hΦ := modesRead_op A L.shape k F.maxAxis hax hAk
  obtain ⟨-, h2⟩ := rec_files F A L k F.maxAxis (fun x j => A.at' (x ++ [j])) hax given a ha _ hc (.list []) []
    hts (by rw [hl]; exact hΦ) hAx hA hL rfl
  refine ⟨⟨_, h2, rfl⟩, ?_⟩
  intro p hp sched
  have hFs : F.ltm.shape = L.shape := by rw [hL]; rfl
  have h0 : recRank F 2 k (fun i t => a.at' [i, t]) [] (some (p, 0)) = none := by
    obtain ⟨q, h1, h2, -⟩ := recLocal_ok A L 2 k F.maxAxis p 0 _ hp hp hax hΦ hAx _ _ hA hL (fun i t => a.at' [i, t]) []
    have hz : size ((L.shape ++ [0]).set F.maxAxis 1) = 0 := by
      rw [List.set_append_left _ _ hax, size_append, Nat.mul_zero]
    simp only [recRank, h1, hFs, Option.map_some, setShape, List.length_nil, hz, true_or, if_true, Option.map_none]
  have hm : (ranksOf p).mapM (recRank F 2 k (fun i t => a.at' [i, t]) []) = none := by
    obtain ⟨p', rfl⟩ : ∃ p', p = p' + 1 := ⟨p - 1, by omega⟩
    simp only [ranksOf, List.range_succ_eq_map, List.map_cons, List.mapM_cons, h0]
    rfl
  simp only [reconstruct, ← ha, hts, hc, hl, List.map_nil, hm]

theorem all_times (nt : Nat) : Coef.timeIdx nt (.str "all") = .ok ((List.range nt).map fun (k : Nat) => (k : Int)) := by
  have e : Spod.lower "all" = "all" := by decide +kernel
  have hv : ((List.range nt).map fun (k : Nat) => (k : Int)).all (fun t => decide (-(nt : Int) ≤ t ∧ t < nt)) = true := by
    rw [List.all_eq_true]
    intro t ht
    obtain ⟨k, hk, rfl⟩ := List.mem_map.1 ht
    have := List.mem_range.1 hk
    simp only [decide_eq_true_eq]
    omega
  have hr : List.range' 0 ((nt + 1 - 1) / 1) 1 = List.range nt := by
    rw [List.range_eq_range']; simp
  simp only [Coef.timeIdx, e, if_true, hr, hv]

/-- the snapshots as one array `[nt, *sh]` -/
noncomputable def dataArr (frames : List (Arr ℝ)) (sh : List Nat) : Arr ℂ where
  shape := frames.length :: sh
  at' := fun idx => ((flat (frames.getD (idx.headD 0) ⟨[], fun _ => 0⟩) (ravel sh idx.tail) : ℝ) : ℂ)

/-- a matrix with columns the times, as an array `[nt, *sh]` -/
def timeArr (sh : List Nat) {nt : Nat} (D : Matrix (Fin (size sh)) (Fin nt) ℂ) : Arr ℂ where
  shape := nt :: sh
  at' := fun idx => if h : ravel sh idx.tail < size sh ∧ idx.headD 0 < nt then D ⟨_, h.1⟩ ⟨_, h.2⟩ else 0

theorem timeArr_at (sh : List Nat) {nt : Nat} (D : Matrix (Fin (size sh)) (Fin nt) ℂ) (t : Nat) (x : List Nat) (ht : t < nt)
    (hx : ravel sh x < size sh) : (timeArr sh D).at' (t :: x) = D ⟨ravel sh x, hx⟩ ⟨t, ht⟩ :=
  dif_pos (c := ravel sh x < size sh ∧ t < nt) ⟨hx, ht⟩

/-- reconstruction of all times from the files of a projection -/
theorem reconstruct_all (G : Folder) (frames : List (Arr ℝ)) (hfr : frames ≠ []) (sh : List Nat) (hpos : 0 < size sh)
    (hax : G.maxAxis < sh.length) (k : Nat) (Φ : Matrix (Fin (size sh)) (Fin k) ℂ) (a : Matrix (Fin k) (Fin frames.length) ℂ)
    (h1 : G.modesR = npSave (gridArr sh Φ)) (h2 : G.ltm = npSave (meanArr frames sh)) (h3 : G.coeffs = npSave (matArr a))
    (comms : List Comm) (sched : Sched) (hrun : IsRun comms sched) :
    reconstruct G none (.str "all") comms sched =
      some (npSave (timeArr sh (Coef.reconstruct Φ a (Coef.ltMean (specD frames sh))))) := by
  have hshc : (openMemmap G.coeffs).shape = [k, frames.length] := by rw [h3]; rfl
  have htsne : ((List.range frames.length).map fun (k : Nat) => (k : Int)) ≠ [] := by
    have := List.length_pos_iff.2 hfr
    intro h
    have := congrArg List.length h
    rw [List.length_map, List.length_range, List.length_nil] at this
    omega
  obtain ⟨R, hR1, hR2, hR3⟩ := reconstruction_file G (gridArr sh Φ) (meanArr frames sh) hax
    h1 h2 hpos none _ rfl k frames.length hshc rfl (.str "all") _ (all_times frames.length) htsne comms sched hrun
  rw [hR1, Option.some.injEq]
  apply npSave_congr
  refine ⟨by rw [hR2]; simp [timeArr, meanArr], ?_⟩
  intro idx hidx
  rw [hR2] at hidx
  cases idx with
  | nil => simp [InRange] at hidx
  | cons t x =>
    obtain ⟨ht, hx⟩ := hidx
    have ht' : t < frames.length := by simpa using ht
    have hx' : InRange sh x := hx
    have hrx := ravel_lt hx'
    rw [hR3 t x ht]
    have hg : ((List.range frames.length).map fun (k : Nat) => (k : Int)).getD t 0 = (t : Int) := by
      simp [List.getD_eq_getElem?_getD, ht']
    rw [hg, if_neg (by omega), Int.toNat_natCast, meanArr_spec frames sh x hrx]
    rw [timeArr_at sh _ t x ht' hrx]
    simp only [Coef.reconstruct, Matrix.of_apply, Option.getD_none]
    rw [add_comm, Matrix.mul_apply, Finset.sum_range]
    congr 1
    refine Finset.sum_congr rfl fun j _ => ?_
    have e1 : (gridArr sh Φ).at' (x ++ [j.1]) = Φ ⟨ravel sh x, hrx⟩ j := by
      simp [gridArr, hrx]
    have e2 : (openMemmap G.coeffs).at' [j.1, t] = a j ⟨t, ht'⟩ := by
      rw [h3]
      have : InRange (matArr a).shape [j.1, t] := ⟨j.2, ht', trivial⟩
      rw [(open_npSave (matArr a)).2 [j.1, t] this]
      simp [matArr, ht']
    rw [e1, e2]

theorem fits_axis {S : Stored} {fs : List Nat} {frames : List (Arr ℝ)} {dims sh : List Nat} (F : Fits S fs frames dims sh)
    {ax : Nat} (h : ax < dims.length) : ax < sh.length := by
  rcases F.axis with ⟨h', _⟩ | ⟨h', _⟩ <;> subst h'
  · exact h
  · simp; omega

/-- **C103 (formula).** Projection followed by reconstruction of all times, on any two numbers of ranks: the file holds the mean plus
    the modes times the oblique-projection coefficients. -/
theorem project_reconstruct (S : Stored) (o : Opts) (svd : Svd)
    (frames : List (Arr ℝ)) (b : Coef.Band) (dims sh : List Nat)
    (hb : Coef.selectBand S.freq o.tLb o.tUb o.freqIdx = .ok b) (hlen : b.nFreqR = b.freqIdx.length) (hfs : b.freqIdx ≠ [])
    (F : Fits S b.freqIdx frames dims sh) (hfr : frames ≠ []) (hd : dims ≠ []) (hk : 0 < S.nModes) (hpos : 0 < size sh)
    (comms comms' : List Comm) (sched sched' : Sched) (hrun : IsRun comms sched) (hrun' : IsRun comms' sched') :
    let Φ := specPhi S b.freqIdx sh (b.freqIdx.length * S.nModes)
    let u := svd _ (Coef.mMat Φ (specWt S sh))
    let a := Coef.coeffs Φ (specWt S sh) (specD frames sh) o.tol u.1 u.2.1 u.2.2
    ∃ G, project S o svd frames comms sched = some G ∧ G.coeffs = npSave (matArr a) ∧
      reconstruct G none (.str "all") comms' sched' =
        some (npSave (timeArr sh (Coef.reconstruct Φ a (Coef.ltMean (specD frames sh))))) := by
  obtain ⟨ax, hmax, hp1, hp2⟩ := projection_files S o svd frames b dims sh hb hlen hfs F hfr hd hk
  refine ⟨globalFolder S b.freqIdx o.tol svd frames sh ax, ?_, rfl, ?_⟩
  · rcases hrun with ⟨rfl, rfl⟩ | ⟨p, s, hp, hs, rfl, rfl⟩
    · exact hp2
    · exact hp1 p hp s hs
  · exact reconstruct_all _ frames hfr sh hpos (fits_axis F hmax.1) _ _ _ rfl rfl rfl comms' sched' hrun'

/-- **C103.** Round trip: if the fluctuations are a combination `Φ a` of the stored modes of the selected frequencies, these modes
    are linearly independent, the weights positive and the tolerance zero (or every singular value above the cut-off), then
    `compute_coeffs_op` on any number of ranks stores `a`, and `compute_reconstruction(time_idx='all')` on any (other) number of
    ranks writes the data. -/
theorem roundtrip (S : Stored) (o : Opts) (svd : Svd)
    (hsvd : ∀ k M, Coef.IsSvd M (svd k M).1 (svd k M).2.1 (svd k M).2.2)
    (frames : List (Arr ℝ)) (b : Coef.Band) (dims sh : List Nat)
    (hb : Coef.selectBand S.freq o.tLb o.tUb o.freqIdx = .ok b) (hlen : b.nFreqR = b.freqIdx.length) (hfs : b.freqIdx ≠ [])
    (F : Fits S b.freqIdx frames dims sh) (hfr : frames ≠ []) (hd : dims ≠ []) (hk : 0 < S.nModes) (hpos : 0 < size sh)
    (a : Matrix (Fin (b.freqIdx.length * S.nModes)) (Fin frames.length) ℂ)
    (hspan : Coef.centred (specD frames sh) = specPhi S b.freqIdx sh (b.freqIdx.length * S.nModes) * a)
    (htol : 0 ≤ o.tol)
    (hcut : (o.tol = 0 ∧ (∀ i, 0 < specWt S sh i) ∧
        ∀ v, specPhi S b.freqIdx sh (b.freqIdx.length * S.nModes) *ᵥ v = 0 → v = 0) ∨
      ∀ i, o.tol * (⨆ j, (svd _ (Coef.mMat (specPhi S b.freqIdx sh (b.freqIdx.length * S.nModes)) (specWt S sh))).2.1 j) <
        (svd _ (Coef.mMat (specPhi S b.freqIdx sh (b.freqIdx.length * S.nModes)) (specWt S sh))).2.1 i)
    (comms comms' : List Comm) (sched sched' : Sched) (hrun : IsRun comms sched) (hrun' : IsRun comms' sched') :
    ∃ G, project S o svd frames comms sched = some G ∧ G.coeffs = npSave (matArr a) ∧
      reconstruct G none (.str "all") comms' sched' = some (npSave (dataArr frames sh)) := by
  obtain ⟨G, h1, h2, h3⟩ := project_reconstruct S o svd frames b dims sh hb hlen hfs F hfr hd hk hpos comms comms' sched sched'
    hrun hrun'
  have hsv := hsvd (b.freqIdx.length * S.nModes) (Coef.mMat (specPhi S b.freqIdx sh (b.freqIdx.length * S.nModes)) (specWt S sh))
  have hex := op_exact_partial _ _ _ a o.tol htol _ _ _ hsv (by
    rcases hcut with ⟨h0, hw, hind⟩ | hcut
    · intro i
      rw [h0, zero_mul]
      exact op_independent _ _ hw hind _ _ _ hsv i
    · exact hcut) hspan
  rw [hex.1] at h2 h3
  rw [hex.1] at hex
  refine ⟨G, h1, h2, ?_⟩
  rw [h3, hex.2, Option.some.injEq]
  apply npSave_congr
  refine ⟨rfl, fun idx hidx => ?_⟩
  cases idx with
  | nil => simp [timeArr, InRange] at hidx
  | cons t x =>
    have ht : t < frames.length := hidx.1
    have hx : InRange sh x := hidx.2
    simp [timeArr, dataArr, specD, ravel_lt hx, ht]

/-- Singular value decompositions exist, so the contract of `numpy.linalg.svd` can be met. -/
theorem coef_svd_exists (k : Nat) (M : Matrix (Fin k) (Fin k) ℂ) : ∃ U l V, Coef.IsSvd M U l V := by
  cases k with
  | zero => exact ⟨1, fun _ => 0, 1, by simp, by simp, fun i => i.elim0, by ext i; exact i.elim0⟩
  | succ k =>
    let e : Fin k ⊕ Unit ≃ Fin (k + 1) := (Equiv.sumCongr (Equiv.refl _) (Equiv.ofUnique Unit (Fin 1))).trans finSumFinEquiv
    obtain ⟨U, l, h⟩ := svd_exists (M.submatrix e e)
    obtain ⟨V, hV, hM⟩ := h.factor
    have hmul : ∀ A B : Matrix (Fin k ⊕ Unit) (Fin k ⊕ Unit) ℂ,
        A.submatrix e.symm e.symm * B.submatrix e.symm e.symm = (A * B).submatrix e.symm e.symm := fun A B =>
      Matrix.submatrix_mul_equiv A B _ _ _
    refine ⟨U.submatrix e.symm e.symm, fun i => l (e.symm i), V.submatrix e.symm e.symm, ?_, ?_, fun i => h.nonneg _, ?_⟩
    · rw [Matrix.conjTranspose_submatrix, hmul, h.left, Matrix.submatrix_one_equiv]
    · rw [Matrix.conjTranspose_submatrix, hmul, hV, Matrix.submatrix_one_equiv]
    · have hd : Matrix.diagonal (fun i => ((l (e.symm i) : ℝ) : ℂ)) =
          (Matrix.diagonal fun j => (l j : ℂ)).submatrix e.symm e.symm := by
        ext i j
        by_cases hij : i = j
        · subst hij; simp
        · rw [Matrix.diagonal_apply_ne _ hij, Matrix.submatrix_apply, Matrix.diagonal_apply_ne]
          exact fun h => hij (e.symm.injective h)
      rw [hd, Matrix.conjTranspose_submatrix, hmul, hmul, ← hM]
      ext i j
      simp

/-! #### The hypotheses are met: two snapshots of two points, one mode -/

def pexFrames : List (Arr ℝ) := [⟨[2], fun i => if i = [0] then 3 else 1⟩, ⟨[2], fun i => if i = [0] then 1 else 3⟩]

noncomputable def pexStored : Stored where
  xdim := 1
  nv := 1
  nModes := 1
  freq := [0]
  weights := npSave ⟨[2, 1], fun i => if i = [0, 0] then 1 else 2⟩
  modes := fun f => if f = 0 then some (npSave ⟨[2, 1, 1], fun i => if i = [0, 0, 0] then Complex.I else -Complex.I⟩) else none

noncomputable def pexOpts : Opts := ⟨none, none, none, 0, false⟩

theorem pex_fits : Fits pexStored [0] pexFrames [2] [2, 1] where
  weights := rfl
  snaps := by
    intro a ha
    simp only [pexFrames, List.mem_cons, List.not_mem_nil, or_false] at ha
    rcases ha with rfl | rfl <;> rfl
  axis := Or.inr ⟨rfl, rfl, by decide⟩
  modes := by
    intro f hf
    simp only [List.mem_cons, List.not_mem_nil, or_false] at hf
    subst hf
    refine ⟨npSave ⟨[2, 1, 1], fun i => if i = [0, 0, 0] then Complex.I else -Complex.I⟩, ?_, rfl⟩
    simp [pexStored]

theorem pex_modes0 : pexStored.modes 0 =
    some (npSave ⟨[2, 1, 1], fun i => if i = [0, 0, 0] then Complex.I else -Complex.I⟩) := by simp [pexStored]

theorem specD_apply (frames : List (Arr ℝ)) (sh : List Nat) (i : Fin (size sh)) (t : Fin frames.length) :
    specD frames sh i t = ((flat (frames.getD t ⟨[], fun _ => 0⟩) i : ℝ) : ℂ) := rfl

theorem pex_band : Coef.selectBand pexStored.freq pexOpts.tLb pexOpts.tUb pexOpts.freqIdx = .ok ⟨0, 0, 1, [0]⟩ := by
  simp [Coef.selectBand, pexStored, pexOpts, Coef.arange]

theorem pex_phi (i : Fin (size [2, 1])) (j : Fin ([0].length * pexStored.nModes)) :
    specPhi pexStored [0] [2, 1] ([0].length * pexStored.nModes) i j = if i.1 = 0 then Complex.I else -Complex.I := by
  have hj : j.1 = 0 := by have := j.2; simp [pexStored] at this; omega
  have hi : i.1 = 0 ∨ i.1 = 1 := by have := i.2; simp [size] at this; omega
  show (match pexStored.modes ([0].getD (j.1 / pexStored.nModes) 0) with
    | some f => (f.data (ravel f.shape (unravel [2, 1] i.1 ++ [j.1 % pexStored.nModes]))).getD default
    | none => 0) = _
  have e : [0].getD (j.1 / pexStored.nModes) 0 = 0 := by rw [hj]; rfl
  rw [e, pex_modes0]
  rcases hi with h | h <;>
    simp [pexStored, hj, h, npSave, unravel, ravel, size]

example (comms comms' : List Comm) (sched sched' : Sched) (hrun : IsRun comms sched) (hrun' : IsRun comms' sched') :
    ∃ svd G, project pexStored pexOpts svd pexFrames comms sched = some G ∧
      reconstruct G none (.str "all") comms' sched' = some (npSave (dataArr pexFrames [2, 1])) := by
  choose U l V hsvd using coef_svd_exists
  refine ⟨fun k M => (U k M, l k M, V k M), ?_⟩
  obtain ⟨G, h1, -, h3⟩ := roundtrip pexStored pexOpts (fun k M => (U k M, l k M, V k M)) hsvd pexFrames ⟨0, 0, 1, [0]⟩ [2] [2, 1]
    pex_band rfl (by simp) pex_fits (by simp [pexFrames]) (by simp) (by decide) (by decide)
    (Matrix.of fun _ t => if t.1 = 0 then -Complex.I else Complex.I) (by
      ext i t
      rw [Matrix.mul_apply]
      have hs : ∀ f : Fin ([0].length * pexStored.nModes) → ℂ, ∑ j, f j = f ⟨0, by decide⟩ := by
        intro f
        have : (Finset.univ : Finset (Fin ([0].length * pexStored.nModes))) = {⟨0, by decide⟩} := by
          ext j
          simp only [Finset.mem_univ, Finset.mem_singleton, true_iff, Fin.ext_iff]
          have := j.2
          simp [pexStored] at this
          omega
        rw [this, Finset.sum_singleton]
      rw [hs]
      rw [pex_phi]
      have hi : i.1 = 0 ∨ i.1 = 1 := by have := i.2; simp [size] at this; omega
      have ht : t.1 = 0 ∨ t.1 = 1 := by have := t.2; simp [pexFrames] at this; omega
      have hm : Coef.ltMean (specD pexFrames [2, 1]) i = 2 := by
        simp only [Coef.ltMean, Fintype.card_fin]
        rw [show (∑ x : Fin pexFrames.length, specD pexFrames [2, 1] i x) =
          specD pexFrames [2, 1] i ⟨0, by simp [pexFrames]⟩ + specD pexFrames [2, 1] i ⟨1, by simp [pexFrames]⟩ from
            Fin.sum_univ_two (fun x : Fin 2 => specD pexFrames [2, 1] i x)]
        simp only [specD_apply]
        rcases hi with h | h <;> simp [pexFrames, flat, h, unravel, size] <;> norm_num
      simp only [Coef.centred, Matrix.of_apply, hm, specD_apply]
      rcases hi with h | h <;> rcases ht with h' | h' <;>
        simp [pexFrames, flat, h, h', unravel, size] <;> norm_num) le_rfl
    (Or.inl ⟨rfl, by
      intro i
      have hi : i.1 = 0 ∨ i.1 = 1 := by have := i.2; simp [size] at this; omega
      rcases hi with h | h <;> simp [specWt, pexStored, npSave, h, size, unravel], by
      intro v hv
      have h0 := congrFun hv ⟨0, by decide⟩
      funext j
      have hj : j = ⟨0, by decide⟩ := by
        have := j.2
        simp [pexStored] at this
        exact Fin.ext (by simp; omega)
      have hu : (Finset.univ : Finset (Fin ([0].length * pexStored.nModes))) = {⟨0, by decide⟩} := by
        ext j
        simp only [Finset.mem_univ, Finset.mem_singleton, true_iff, Fin.ext_iff]
        have := j.2
        simp [pexStored] at this
        omega
      simp only [Matrix.mulVec, dotProduct, hu, Finset.sum_singleton, pex_phi, if_true, Pi.zero_apply] at h0
      rw [hj]
      simpa using h0⟩) comms comms' sched sched' hrun hrun'
  exact ⟨G, h1, h3⟩

end Verif.Props
