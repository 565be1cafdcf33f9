import Verif.Props.Blockdist
/-
  C03, C04: `distribute`, `distribute_data`, `distribute_dimension`.
-/
namespace Verif.Props
open Verif Verif.Par

/-! ### Lemmas: consecutive slices concatenate to the array -/

/-- consecutive slabs of widths `ns` starting at `off` -/
def slabs {α} (a : Arr α) (ax : Nat) : Nat → List Nat → List (Arr α)
  | _, [] => []
  | off, n :: ns => a.slice ax off n :: slabs a ax (off + n) ns

theorem ext_slice {α} (a : Arr α) (ax s n : Nat) (hax : ax < a.shape.length)
    (h : s + n ≤ ext a.shape ax) : ext (a.slice ax s n).shape ax = n := by
  simp only [Arr.slice, ext_set hax]; omega

theorem slabs_ext {α} (a : Arr α) (ax : Nat) (hax : ax < a.shape.length) (off : Nat) (ns : List Nat)
    (h : off + ns.sum ≤ ext a.shape ax) :
    (slabs a ax off ns).map (fun p => ext p.shape ax) = ns := by
  induction ns generalizing off with
  | nil => rfl
  | cons n ns ih =>
    simp only [List.sum_cons] at h
    simp only [slabs, List.map_cons]
    rw [ext_slice a ax off n hax (by omega), ih (off + n) (by omega)]

theorem pick_slabs {α} [Inhabited α] (a : Arr α) (ax : Nat) (hax : ax < a.shape.length)
    (off : Nat) (ns : List Nat) (h : off + ns.sum ≤ ext a.shape ax) (idx : List Nat)
    (hl : ax < idx.length) (i : Nat) (hi : i < ns.sum) :
    pick ax (slabs a ax off ns) idx i = a.at' (idx.set ax (i + off)) := by
  induction ns generalizing off i with
  | nil => simp at hi
  | cons n ns ih =>
    simp only [List.sum_cons] at h hi
    simp only [slabs, pick]
    rw [ext_slice a ax off n hax (by omega)]
    by_cases hin : i < n
    · simp [hin, Arr.slice, List.getD_eq_getElem?_getD, hl]
    · simp only [hin, ↓reduceIte]
      rw [ih (off + n) (by omega) (i - n) (by omega)]
      congr 2; omega

theorem set_ext_self (sh : List Nat) (ax : Nat) : sh.set ax (ext sh ax) = sh := by
  apply List.ext_getElem?
  intro k
  rw [List.getElem?_set]
  split
  · subst_vars
    split
    · simp [ext, List.getD_eq_getElem?_getD, *]
    · rw [List.getElem?_eq_none (by omega)]
  · rfl

theorem set_getD_self (idx : List Nat) (ax : Nat) : idx.set ax (idx.getD ax 0) = idx :=
  set_ext_self idx ax

/-- Concatenating consecutive slabs that exactly cover an axis gives the array back. -/
theorem concat_slabs {α} [Inhabited α] (a : Arr α) (ax : Nat) (hax : ax < a.shape.length)
    (ns : List Nat) (hne : ns ≠ []) (h : ns.sum = ext a.shape ax) :
    (concat ax (slabs a ax 0 ns)).Eqv a := by
  have hshape : (concat ax (slabs a ax 0 ns)).shape = a.shape := by
    simp only [concat]
    rw [slabs_ext a ax hax 0 ns (by omega), h]
    cases ns with
    | nil => exact absurd rfl hne
    | cons n ns => simp [slabs, Arr.slice, set_ext_self]
  refine ⟨hshape, fun idx hidx => ?_⟩
  rw [hshape] at hidx
  have hl := hidx.length
  simp only [concat]
  rw [pick_slabs a ax hax 0 ns (by omega) idx (by omega) _ (by
    rw [h]; exact hidx.getD_lt ax hax)]
  rw [Nat.add_zero, set_getD_self]

theorem slabs_eq_map {α} (a : Arr α) (ax : Nat) (off : Nat) (ns : List Nat) :
    slabs a ax off ns =
      (List.range ns.length).map fun r => a.slice ax (off + (ns.take r).sum) (ns.getD r 0) := by
  induction ns generalizing off with
  | nil => rfl
  | cons n ns ih =>
    rw [List.length_cons, List.range_succ_eq_map, List.map_cons, List.map_map]
    simp only [slabs, List.take_zero, List.sum_nil, Nat.add_zero]
    congr 1
    rw [ih (off + n)]
    apply List.map_congr_left
    intro r _
    simp [Nat.add_assoc]

theorem map_blockdist_slices {α} (a : Arr α) (ax N size : Nat) :
    ((List.range size).map fun r => a.slice ax (startOf N size r) (countOf N size r)) =
      slabs a ax 0 ((List.range size).map (countOf N size)) := by
  rw [slabs_eq_map]
  simp only [List.length_map, List.length_range]
  apply List.map_congr_left
  intro r hr
  have hr : r < size := List.mem_range.1 hr
  rw [sum_counts_take N size r hr]
  simp [hr]

theorem concat_blockdist {α} [Inhabited α] (a : Arr α) (ax size : Nat) (hax : ax < a.shape.length)
    (hsize : 0 < size) :
    (concat ax ((List.range size).map fun r =>
      a.slice ax (startOf (ext a.shape ax) size r) (countOf (ext a.shape ax) size r))).Eqv a := by
  rw [map_blockdist_slices]
  refine concat_slabs a ax hax _ ?_ (sum_counts _ _ hsize)
  simp; omega

/-! ### Argmax -/

/-- Independent specification of "first position of the largest entry". -/
def IsFirstMax (l : List Nat) (j : Nat) : Prop :=
  j < l.length ∧ (∀ k, k < l.length → l.getD k 0 ≤ l.getD j 0) ∧ ∀ k, k < j → l.getD k 0 < l.getD j 0

theorem argmax_spec (l : List Nat) (j : Nat) (h : argmax l = some j) : IsFirstMax l j := by
  induction l generalizing j with
  | nil => simp [argmax] at h
  | cons x xs ih =>
    simp only [argmax] at h
    cases hx : argmax xs with
    | none =>
      have hxs : xs = [] := by
        cases xs with
        | nil => rfl
        | cons y ys => simp only [argmax] at hx; split at hx <;> (try split at hx) <;> simp at hx
      subst hxs
      simp [hx] at h
      subst h
      exact ⟨by simp, by intro k hk; simp at hk; subst hk; simp, by omega⟩
    | some m =>
      obtain ⟨h1, h2, h3⟩ := ih m hx
      simp only [hx] at h
      split at h
      · rename_i hgt
        simp at h; subst h
        refine ⟨by simpa using h1, ?_, ?_⟩
        · intro k hk
          cases k with
          | zero => simp at *; omega
          | succ k => simpa using h2 k (by simpa using hk)
        · intro k hk
          cases k with
          | zero => simp at *; omega
          | succ k => simpa using h3 k (by omega)
      · rename_i hle
        simp at h; subst h
        refine ⟨by simp, ?_, by omega⟩
        intro k hk
        cases k with
        | zero => simp
        | succ k =>
          have := h2 k (by simpa using hk)
          simp at *; omega

theorem argmax_isSome (l : List Nat) (h : l ≠ []) : ∃ j, argmax l = some j := by
  cases l with
  | nil => exact absurd rfl h
  | cons x xs =>
    simp only [argmax]
    split
    · exact ⟨_, rfl⟩
    · split <;> exact ⟨_, rfl⟩

theorem IsFirstMax.unique {l : List Nat} {j k : Nat} (hj : IsFirstMax l j) (hk : IsFirstMax l k) :
    j = k := by
  rcases Nat.lt_trichotomy j k with h | h | h
  · have := hk.2.2 j h; have := hj.2.1 k hk.1; omega
  · exact h
  · have := hj.2.2 k h; have := hk.2.1 j hj.1; omega

/-! ### C03 -/

/-- **C03** (`distribute_dimension`).  For every array, every axis of it and every number of ranks,
    concatenating the ranks' pieces in rank order along the axis restores the array;
    `comm=None` returns it unchanged. -/
theorem distributeDimension_gather {α} [Inhabited α] (data : Arr α) (ax size : Nat)
    (hax : ax < data.shape.length) (hsize : 0 < size) :
    (concat ax ((List.range size).map fun r => distributeDimension data ax (some (size, r)))).Eqv data ∧
    distributeDimension data ax none = data :=
  ⟨concat_blockdist data ax size hax hsize, rfl⟩

/-- **C03** (`distribute`).  On every non-scalar array `distribute` succeeds on every rank with the same
    axis and the global shape, and gathering the pieces along the returned axis restores the array. -/
theorem distribute_gather {α} [Inhabited α] (data : Arr α) (size : Nat)
    (hnd : data.shape ≠ []) (hsize : 0 < size) :
    ∃ (ax : Nat) (piece : Nat → Arr α),
      (∀ r, distribute data (some (size, r)) = some (piece r, ax, data.shape)) ∧
      distribute data none = some (data, ax, data.shape) ∧
      IsFirstMax data.shape ax ∧
      (concat ax ((List.range size).map piece)).Eqv data := by
  obtain ⟨ax, hax⟩ := argmax_isSome data.shape hnd
  have hspec := argmax_spec _ _ hax
  refine ⟨ax, fun r => data.slice ax (startOf (ext data.shape ax) size r)
    (countOf (ext data.shape ax) size r), ?_, ?_, hspec, concat_blockdist data ax size hspec.1 hsize⟩
  · intro r; simp [distribute, hax]
  · simp [distribute, hax]

/-- **C03** (`distribute_data`).  On data with at least one snapshot and at least one non-time axis the
    call succeeds on every rank with the same spatial axis, only spatial axis `ax` (array axis `ax+1`)
    is split – the time axis never – and gathering restores the data. -/
theorem distributeData_gather {α} [Inhabited α] (data : Arr α) (nt : Nat) (xs : List Nat) (size : Nat)
    (hshape : data.shape = nt :: xs) (hnt : 0 < nt) (hxs : xs ≠ []) (hsize : 0 < size) :
    ∃ (ax : Nat) (piece : Nat → Arr α),
      (∀ r, distributeData data (some (size, r)) = some (piece r, ax, xs)) ∧
      distributeData data none = some (data, ax, xs) ∧
      IsFirstMax xs ax ∧
      (∀ r, ext (piece r).shape 0 = nt) ∧
      (concat (ax + 1) ((List.range size).map piece)).Eqv data := by
  obtain ⟨ax, hax⟩ := argmax_isSome xs hxs
  have hspec := argmax_spec _ _ hax
  have hax' : ax + 1 < data.shape.length := by rw [hshape]; simpa using hspec.1
  refine ⟨ax, fun r => data.slice (ax + 1) (startOf (ext data.shape (ax + 1)) size r)
    (countOf (ext data.shape (ax + 1)) size r), ?_, ?_, hspec, ?_,
    concat_blockdist data (ax + 1) size hax' hsize⟩
  · intro r
    have : nt ≠ 0 := by omega
    simp only [distributeData]
    rw [hshape]; simp [hax, this]
  · have : nt ≠ 0 := by omega
    simp only [distributeData]
    rw [hshape]; simp [hax, this]
  · intro r
    simp [Arr.slice, ext, hshape]

/-- non-vacuity: a 2×3×5 array split over 4 ranks along its last axis (2,1,1,1). -/
example : (distributeData (⟨[2, 3, 5], fun i => ravel [2, 3, 5] i⟩ : Arr Nat) (some (4, 1))).map
      (fun p => (p.1.shape, p.1.at' [1, 2, 0], p.2.1)) = some ([2, 3, 1], 27, 1) := by decide

/-! ### C04 -/

/-- **C04.** Data of shape `nt :: xs` and weights/mean of shape `xs` are split consistently: the axis is
    the first largest spatial extent, `distribute` applied to the weights picks the same axis as
    `distribute_data` applied to the data, and on every rank the local weight at index `idx` and the local
    data at `t :: idx` refer to the same global point: the local index shifted along the axis by the start of the rank's share; local spatial shapes agree. -/
theorem distribute_aligned {α β} (data : Arr α) (w : Arr β) (nt : Nat)
    (size r : Nat) (hshape : data.shape = nt :: w.shape) (hnt : 0 < nt) (hxs : w.shape ≠ []) :
    ∃ ax dl wl, distributeData data (some (size, r)) = some (dl, ax, w.shape) ∧
      distribute w (some (size, r)) = some (wl, ax, w.shape) ∧
      IsFirstMax w.shape ax ∧
      distributeDimension w ax (some (size, r)) = wl ∧
      dl.shape = nt :: wl.shape ∧
      wl.shape = w.shape.set ax (blockdist (ext w.shape ax) size r).1 ∧
      ∀ idx, InRange wl.shape idx →
        let g := idx.set ax (idx.getD ax 0 + (blockdist (ext w.shape ax) size r).2)
        InRange w.shape g ∧ wl.at' idx = w.at' g ∧ ∀ t, dl.at' (t :: idx) = data.at' (t :: g) := by
  obtain ⟨ax, hax⟩ := argmax_isSome w.shape hxs
  have hne : nt ≠ 0 := by omega
  have hext : ext data.shape (ax + 1) = ext w.shape ax := by rw [hshape]; simp [ext]
  refine ⟨ax, data.slice (ax + 1) (startOf (ext w.shape ax) size r) (countOf (ext w.shape ax) size r),
    w.slice ax (startOf (ext w.shape ax) size r) (countOf (ext w.shape ax) size r), ?_, ?_,
    argmax_spec _ _ hax, rfl, ?_, ?_, ?_⟩
  · simp only [distributeData]
    rw [hshape]
    simp only [hne, ↓reduceIte, hax]
    have : ext (nt :: w.shape) (ax + 1) = ext w.shape ax := by simp [ext]
    rw [this]
  · simp [distribute, hax]
  · simp only [Arr.slice, hext]
    rw [hshape]; simp
  · have hin : startOf (ext w.shape ax) size r + countOf (ext w.shape ax) size r ≤ ext w.shape ax := by
      rcases Nat.lt_or_ge r size with hr | hr
      · obtain ⟨-, -, h3, -⟩ := blockdist_partition (ext w.shape ax) size (by omega)
        rcases Nat.lt_or_ge r (size - 1) with h | h
        · have := endOf_le_startOf (ext w.shape ax) size h (by omega)
          simp only [startOf, countOf] at *
          omega
        · obtain rfl : r = size - 1 := by omega
          exact Nat.le_of_eq h3
      · simp [startOf, countOf, blockdist, show ¬ r < size by omega]
    simp only [Arr.slice]
    congr 1
    show _ = countOf (ext w.shape ax) size r
    omega
  · intro idx hidx
    refine ⟨?_, rfl, fun t => by simp [Arr.slice]⟩
    have hspec := argmax_spec _ _ hax
    have hlt := hidx.getD_lt ax (by simpa [Arr.slice] using hspec.1)
    simp only [Arr.slice] at hidx hlt
    rw [ext_set hspec.1] at hlt
    have := hidx.set ax (ext w.shape ax) (idx.getD ax 0 + startOf (ext w.shape ax) size r) (by omega)
    simpa [set_ext_self] using this

example : ∃ (d : Arr Nat) (w : Arr Nat), d.shape = 2 :: w.shape ∧ 0 < 2 ∧ w.shape ≠ [] ∧
    (distribute w (some (2, 1))).map (fun p => (p.1.shape, p.1.at' [0, 0])) = some ([2, 3], 6) :=
  ⟨⟨[2, 4, 3], fun _ => 0⟩, ⟨[4, 3], fun i => ravel [4, 3] i⟩, by decide, by decide, by decide, by decide⟩

end Verif.Props
