import Verif.Model.Slices
import Verif.Props.Plots
/-
  C190: what a slice of a three-dimensional mode shows.
-/
set_option linter.unusedVariables false
namespace Verif.Props
open Verif Verif.Plots

/-! ### Specification -/

/-- the value of the mode at the point whose index along axis `d` is `k` and along the two other axes `i`, `j` -/
def onSlice {β} (q : Cube β) (d : Fin 3) (k i j : Nat) : β :=
  match d with
  | 0 => q.at' k i j
  | 1 => q.at' i k j
  | 2 => q.at' i j k

/-- an index as users give it: counted from the start, or from the end if negative -/
def Counts (n : Nat) (i : Int) (k : Nat) : Prop := k < n ∧ ((k : Int) = i ∨ (k : Int) = n + i ∧ i < 0)

/-! ### Proofs -/

theorem pyIndex_iff (n : Nat) (i : Int) (k : Nat) : pyIndex n i = some k ↔ Counts n i k := by
  unfold pyIndex Counts
  by_cases h : 0 ≤ i
  · rw [if_pos h]
    by_cases h' : i.toNat < n
    · rw [if_pos h', Option.some.injEq]
      omega
    · rw [if_neg h']
      constructor
      · intro h; cases h
      · rintro ⟨a, b⟩; omega
  · rw [if_neg h]
    by_cases h' : (-i).toNat ≤ n
    · rw [if_pos h', Option.some.injEq]
      omega
    · rw [if_neg h']
      constructor
      · intro h; cases h
      · rintro ⟨a, b⟩; omega

theorem sliceOf_some {β} (q : Cube β) (d : Fin 3) (id : Option Int) (k : Nat) (hk : Counts (q.n d) (id.getD 0) k) :
    sliceOf q d.val id = some ⟨(sliceShape q.n d).1, (sliceShape q.n d).2, onSlice q d k⟩ := by
  have := (pyIndex_iff _ _ _).2 hk
  fin_cases d <;> simp_all [sliceOf, sliceShape, defaultSlice] <;> rfl

theorem axes_of {x : Fin 3 → Option (List ℝ)} {X : Fin 3 → List ℝ} (hx : ∀ d, x d = some (X d)) (m0 m1 : Nat) :
    (firstAxis x m0).bind (fun f1 => (secondAxis x f1 m1).map fun f2 => (f1, f2)) = sliceCoords (fun d => (X d).length) m0 m1 := by
  unfold firstAxis secondAxis sliceCoords
  simp only [hx, lengthOf, Option.map_some, Option.bind_eq_bind, Option.bind_some, Option.pure_def]
  by_cases a0 : m0 = (X 0).length
  · simp only [a0, if_true, Option.bind_some]
    by_cases b1 : m1 = (X 1).length
    · simp [b1]
    · by_cases b2 : m1 = (X 2).length
      · simp_all
      · simp [b1, b2]
  · by_cases a1 : m0 = (X 1).length
    · simp only [if_neg a0, if_pos a1, Option.bind_some]
      by_cases b0 : m1 = (X 0).length
      · simp [b0]
      · by_cases b2 : m1 = (X 2).length
        · simp_all
        · simp [b0, b2]
    · by_cases a2 : m0 = (X 2).length
      · simp only [if_neg a0, if_neg a1, if_pos a2, Option.bind_some]
        by_cases b0 : m1 = (X 0).length
        · simp [b0]
        · by_cases b1 : m1 = (X 1).length
          · simp_all
          · simp [b0, b1]
      · simp [a0, a1, a2]

/-- the coordinates of a slice of data as long as the coordinates are always found, and are as long as the axes -/
theorem slice_axes_found (n : Fin 3 → Nat) (d : Fin 3) :
    ∃ f1 f2, sliceCoords n (sliceShape n d).1 (sliceShape n d).2 = some (f1, f2) ∧ n f1 = (sliceShape n d).1 ∧ n f2 = (sliceShape n d).2 := by
  fin_cases d
  · by_cases h1 : n 1 = n 0 <;> by_cases h2 : n 2 = n 0 <;> by_cases h3 : n 2 = n 1 <;>
      simp_all [sliceCoords, sliceShape]
  · by_cases h1 : n 2 = n 1 <;> simp_all [sliceCoords, sliceShape]
  · simp [sliceCoords, sliceShape]

/-- a call with all coordinates, as long as the axes -/
structure SliceCall {β} (x : Fin 3 → Option (List ℝ)) (X : Fin 3 → List ℝ) (q : Cube β) (d : Fin 3) (id : Option Int) (k : Nat) : Prop where
  coords : ∀ e, x e = some (X e)
  lengths : ∀ e, (X e).length = q.n e
  extents : ∀ e, 2 ≤ q.n e
  slice : Counts (q.n d) (id.getD 0) k

theorem plotSlice_eq {β} {x : Fin 3 → Option (List ℝ)} {X : Fin 3 → List ℝ} {q : Cube β} {d : Fin 3} {id : Option Int} {k : Nat} (h : SliceCall x X q d id k)
    (shift : Bool) : ∃ f1 f2, sliceCoords q.n (sliceShape q.n d).1 (sliceShape q.n d).2 = some (f1, f2) ∧
      plotSlice x d.val id shift q = some (⟨X f1, X f2, (if shift then fftshift1 ⟨(sliceShape q.n d).1, (sliceShape q.n d).2, onSlice q d k⟩ else
        ⟨(sliceShape q.n d).1, (sliceShape q.n d).2, onSlice q d k⟩ : Grid β).T⟩, f1, f2) := by
  obtain ⟨f1, f2, e, l1, l2⟩ := slice_axes_found q.n d
  refine ⟨f1, f2, e, ?_⟩
  have hl : (fun d => (X d).length) = q.n := funext h.lengths
  have ha := axes_of h.coords (sliceShape q.n d).1 (sliceShape q.n d).2
  rw [hl, e] at ha
  have h0 := h.extents 0
  have h1 := h.extents 1
  have h2 := h.extents 2
  have hcs : cubeCoords x q.n = x := by simp [cubeCoords, h.coords]
  obtain ⟨g1, hg1, hg⟩ := Option.bind_eq_some_iff.1 ha
  obtain ⟨g2, hg2, he⟩ := Option.map_eq_some_iff.1 hg
  cases he
  have hs1 : 2 ≤ (sliceShape q.n d).1 := by rw [← l1]; exact h.extents _
  have hs2 : 2 ≤ (sliceShape q.n d).2 := by rw [← l2]; exact h.extents _
  have hT : ∀ g : Grid β, g.rows = (sliceShape q.n d).1 → g.cols = (sliceShape q.n d).2 →
      contourf (X f1) (X f2) g.T = some ⟨X f1, X f2, g.T⟩ := by
    intro g hr hc
    refine if_pos ⟨?_, ?_, ?_, ?_⟩
    · rw [h.lengths, l1]; exact hr
    · rw [h.lengths, l2]; exact hc
    · show 2 ≤ g.cols; omega
    · show 2 ≤ g.rows; omega
  have hne : ¬ (q.n 0 = 1 ∨ q.n 1 = 1 ∨ q.n 2 = 1) := by omega
  unfold plotSlice
  rw [if_neg hne, sliceOf_some q d id k h.slice]
  simp only [Option.bind_eq_bind, Option.bind_some, hcs, hg1, hg2, h.coords, Option.getD_some, Option.pure_def]
  cases shift
  · simp only [Bool.false_eq_true, if_false]
    rw [hT _ rfl rfl]
    rfl
  · simp only [if_true]
    rw [hT (fftshift1 _) rfl rfl]
    rfl

/-- **C190.** A slice across axis `d` shows, at the `i`-th and `j`-th entries of the two coordinates, the value of the mode at index `k` along `d` and `i`, `j` along
    the two other axes, `k` being the index asked for (counted from the end if negative, 0 if none is given): for every mode and every coordinates as long as
    its axes.  The coordinates are those of the two axes under exactly the condition of C118. -/
theorem slice_shown {β} {x : Fin 3 → Option (List ℝ)} {X : Fin 3 → List ℝ} {q : Cube β} {d : Fin 3} {id : Option Int} {k : Nat} (h : SliceCall x X q d id k) :
    ∃ p f1 f2, plotSlice x d.val id false q = some (p, f1, f2) ∧ p.xs = X f1 ∧ p.ys = X f2 ∧
      ((f1, f2) = otherAxes d ↔ (d = 0 → q.n 0 ≠ q.n 1 ∧ q.n 0 ≠ q.n 2) ∧ (d = 1 → q.n 1 ≠ q.n 2)) ∧
      (∀ i < p.xs.length, ∀ j < p.ys.length, p.shown i j = onSlice q d k i j) ∧
      p.xs.length = q.n (otherAxes d).1 ∧ p.ys.length = q.n (otherAxes d).2 := by
  obtain ⟨f1, f2, e, hp⟩ := plotSlice_eq h false
  obtain ⟨g1, g2, e', l1, l2⟩ := slice_axes_found q.n d
  rw [e] at e'
  cases e'
  refine ⟨_, f1, f2, hp, rfl, rfl, ?_, fun i _ j _ => rfl, ?_, ?_⟩
  · rw [← slice_coords_exact, e, Option.some.injEq]
  · show (X f1).length = _
    rw [h.lengths, l1]
    fin_cases d <;> rfl
  · show (X f2).length = _
    rw [h.lengths, l2]
    fin_cases d <;> rfl

/-- With `fftshift`, the values are moved cyclically by half the extent along the second axis of the slice, the coordinates are not. -/
theorem slice_fftshift {β} {x : Fin 3 → Option (List ℝ)} {X : Fin 3 → List ℝ} {q : Cube β} {d : Fin 3} {id : Option Int} {k : Nat} (h : SliceCall x X q d id k) :
    ∃ p f1 f2, plotSlice x d.val id true q = some (p, f1, f2) ∧ p.xs = X f1 ∧ p.ys = X f2 ∧
      ∀ i j, j < q.n (otherAxes d).2 → p.shown i ((j + q.n (otherAxes d).2 / 2) % q.n (otherAxes d).2) = onSlice q d k i j := by
  obtain ⟨f1, f2, e, hp⟩ := plotSlice_eq h true
  refine ⟨_, f1, f2, hp, rfl, rfl, fun i j hj => ?_⟩
  have hs : (sliceShape q.n d).2 = q.n (otherAxes d).2 := by fin_cases d <;> rfl
  show onSlice q d k i (((j + q.n (otherAxes d).2 / 2) % q.n (otherAxes d).2 + ((sliceShape q.n d).2 - (sliceShape q.n d).2 / 2)) % (sliceShape q.n d).2) =
    onSlice q d k i j
  rw [hs]
  congr 1
  generalize q.n (otherAxes d).2 = n at *
  rw [Nat.mod_add_mod]
  have : j + n / 2 + (n - n / 2) = j + n := by omega
  rw [this, Nat.add_mod_right, Nat.mod_eq_of_lt hj]

/-- Without any coordinates, the indices are drawn. -/
theorem slice_default_coords {β} (q : Cube β) (dim : Nat) (id : Option Int) (shift : Bool) :
    plotSlice (fun _ => none) dim id shift q = plotSlice (fun d => some (arange (q.n d))) dim id shift q := by
  simp [plotSlice, cubeCoords]

/-- **C190 fails** when only the coordinates of the two drawn axes are given, except across the third axis: across the first axis `x1` is asked for, across the
    second `x2`, and the call raises. -/
theorem slice_missing_fails {β} {x : Fin 3 → Option (List ℝ)} {X : Fin 3 → List ℝ} {q : Cube β} {d : Fin 3} {id : Option Int} (hd : d ≠ 2)
    (hx : ∀ e, e ≠ d → x e = some (X e)) (hx' : x d = none) (hl : ∀ e, e ≠ d → (X e).length = q.n e) (shift : Bool) :
    plotSlice x d.val id shift q = none := by
  unfold plotSlice
  by_cases hs : q.n 0 = 1 ∨ q.n 1 = 1 ∨ q.n 2 = 1
  · rw [if_pos hs]; rfl
  rw [if_neg hs]
  simp only [Option.bind_eq_bind, Option.pure_def]
  cases hm : sliceOf q d.val id with
  | none => rfl
  | some m =>
    simp only [Option.bind_some]
    have hd' : d = 0 ∨ d = 1 := by fin_cases d <;> simp_all
    rcases hd' with rfl | rfl
    · have e1 := hx 1 (by decide)
      have hcs : cubeCoords x q.n = x := by simp [cubeCoords, e1]
      rw [hcs]
      simp [firstAxis, hx', lengthOf]
    · have e0 := hx 0 (by decide)
      have hcs : cubeCoords x q.n = x := by simp [cubeCoords, e0]
      rw [hcs]
      have hr : m.rows = (X 0).length := by
        rw [hl 0 (by decide)]
        simp only [sliceOf, Fin.val_one] at hm
        obtain ⟨k, -, rfl⟩ := Option.map_eq_some_iff.1 hm
        rfl
      have hf : firstAxis x m.rows = some 0 := by simp [firstAxis, e0, lengthOf, hr]
      rw [hf]
      simp [secondAxis, e0, hx', lengthOf]

/-- **C190 fails** when some but not all coordinates are given and `x1` is not among them: the call raises, for every slice. -/
theorem slice_first_missing_fails {β} {x : Fin 3 → Option (List ℝ)} {q : Cube β} {dim : Nat} {id : Option Int} (h0 : x 0 = none)
    (h : x 1 ≠ none ∨ x 2 ≠ none) (shift : Bool) : plotSlice x dim id shift q = none := by
  have hcs : cubeCoords x q.n = x := by
    unfold cubeCoords
    rw [if_neg]
    rintro ⟨-, h1, h2⟩
    rcases h with h | h
    · exact h (Option.isNone_iff_eq_none.1 h1)
    · exact h (Option.isNone_iff_eq_none.1 h2)
  unfold plotSlice
  by_cases hs : q.n 0 = 1 ∨ q.n 1 = 1 ∨ q.n 2 = 1
  · rw [if_pos hs]; rfl
  rw [if_neg hs]
  simp only [Option.bind_eq_bind, Option.pure_def]
  cases hm : sliceOf q dim id with
  | none => rfl
  | some m => simp [hcs, firstAxis, h0, lengthOf]

theorem slice_third_missing {β} {x : Fin 3 → Option (List ℝ)} {X : Fin 3 → List ℝ} {q : Cube β} {id : Option Int} {k : Nat}
    (hx : ∀ e, e ≠ 2 → x e = some (X e)) (hx' : x 2 = none) (hl : ∀ e, e ≠ 2 → (X e).length = q.n e) (hn : ∀ e, 2 ≤ q.n e)
    (hk : Counts (q.n 2) (id.getD 0) k) :
    ∃ p, plotSlice x 2 id false q = some (p, 0, 1) ∧ p.xs = X 0 ∧ p.ys = X 1 ∧ ∀ i j, p.shown i j = q.at' i j k := by
  have e0 := hx 0 (by decide)
  have e1 := hx 1 (by decide)
  have l0 := hl 0 (by decide)
  have l1 := hl 1 (by decide)
  have n0 := hn 0
  have n1 := hn 1
  have n2 := hn 2
  have hcs : cubeCoords x q.n = x := by simp [cubeCoords, e0]
  have hs := sliceOf_some q 2 id k hk
  have hne : ¬ (q.n 0 = 1 ∨ q.n 1 = 1 ∨ q.n 2 = 1) := by omega
  refine ⟨⟨X 0, X 1, (⟨q.n 0, q.n 1, onSlice q 2 k⟩ : Grid β).T⟩, ?_, rfl, rfl, fun i j => rfl⟩
  unfold plotSlice
  rw [if_neg hne]
  have hs' : sliceOf q 2 id = some ⟨q.n 0, q.n 1, onSlice q 2 k⟩ := hs
  rw [hs']
  have hf1 : firstAxis x (q.n 0) = some 0 := by simp [firstAxis, e0, lengthOf, l0]
  have hf2 : secondAxis x 0 (q.n 1) = some 1 := by simp [secondAxis, e0, e1, lengthOf, l1]
  simp only [Option.bind_eq_bind, Option.bind_some, hcs, hf1, hf2, e0, e1, Option.getD_some, Option.pure_def, Bool.false_eq_true, if_false]
  rw [show contourf (X 0) (X 1) (⟨q.n 0, q.n 1, onSlice q 2 k⟩ : Grid β).T = some ⟨X 0, X 1, (⟨q.n 0, q.n 1, onSlice q 2 k⟩ : Grid β).T⟩ from
    if_pos ⟨l0.symm, l1.symm, n1, n0⟩]
  rfl

/-- **C190, the marker.** With a single maximum, in row `r` and column `s` of the slice, the lines cross at `(x2[s], x1[r])`, or the call raises if these do not
    exist. -/
theorem slice_marker_exact (x1 x2 : List ℝ) (z : Grid ℝ) (r s : Nat) (h : OnlyMax z r s) :
    sliceMarker x1 x2 z = if r < x1.length ∧ s < x2.length then some (x2.getD s 0, x1.getD r 0) else none := by
  have hl : maxIdx z (isMax z) = [(r, s)] := by
    have := max_marker_exact (arange (s + 1)) (arange (r + 1)) z s r h
    unfold maxMarker at this
    have hmem : (r, s) ∈ maxIdx z (isMax z) := (mem_maxIdx z r s).2 ⟨h.1, h.2.1, fun j' hj' i' hi' => by
      by_cases e : (j', i') = (r, s)
      · cases e; exact le_refl _
      · exact (h.2.2 j' hj' i' hi' e).le⟩
    generalize maxIdx z (isMax z) = L at *
    match L with
    | [] => simp at hmem
    | [a] => simp only [List.mem_singleton] at hmem; rw [hmem]
    | a :: b :: l => simp at this
  rw [sliceMarker, hl]

/-- **C190 fails** for the marker: across the first axis (all extents different) the maximum is at `(x2[r], x3[s])`, the lines cross at `(x2[s], x1[r])`, or the
    call raises although the picture could be drawn (`x1` shorter than `x2`, or `x2` than `x3`). -/
theorem slice_marker_fails (X : Fin 3 → List ℝ) (z : Grid ℝ) (r s : Nat) (h : OnlyMax z r s) (hr : r < (X 1).length) (hs : s < (X 2).length) :
    (sliceMarker (X 0) (X 1) z = some ((X 1).getD r 0, (X 2).getD s 0) ↔
      r < (X 0).length ∧ s < (X 1).length ∧ (X 1).getD s 0 = (X 1).getD r 0 ∧ (X 0).getD r 0 = (X 2).getD s 0) ∧
    (sliceMarker (X 0) (X 1) z = none ↔ (X 0).length ≤ r ∨ (X 1).length ≤ s) := by
  rw [slice_marker_exact _ _ z r s h]
  constructor
  · split
    · rename_i hc
      simp only [Option.some.injEq, Prod.mk.injEq]
      tauto
    · rename_i hc
      constructor
      · intro h; cases h
      · rintro ⟨a, b, -⟩; exact absurd ⟨a, b⟩ hc
  · split
    · rename_i hc
      simp only [reduceCtorEq, false_iff]
      omega
    · rename_i hc
      simp only [true_iff]
      omega

/-- a mode of extents 2, 3, 4 with its coordinates, the last slice across the first axis -/
example : SliceCall (fun e => some (![[0, 1], [0, 10, 20], [0, 100, 200, 300]] e)) ![[0, 1], [0, 10, 20], [0, 100, 200, 300]]
    (⟨![2, 3, 4], fun a b c => (a, b, c)⟩ : Cube (Nat × Nat × Nat)) 0 (some (-1)) 1 where
  coords e := rfl
  lengths e := by fin_cases e <;> rfl
  extents e := by fin_cases e <;> decide
  slice := ⟨by decide, Or.inr ⟨by decide, by decide⟩⟩

example : ∃ p, plotSlice (fun e => if e = 2 then none else some (![[0, 1], [0, 10, 20], []] e)) 2 none false
    (⟨![2, 3, 4], fun a b c => (a, b, c)⟩ : Cube (Nat × Nat × Nat)) = some (p, 0, 1) ∧ p.xs = [0, 1] ∧ p.ys = [0, 10, 20] ∧ ∀ i j, p.shown i j = (i, j, 0) :=
  slice_third_missing (X := ![[0, 1], [0, 10, 20], []]) (by intro e he; simp [he]) rfl (by intro e he; fin_cases e <;> simp_all) (by intro e; fin_cases e <;> decide)
    ⟨by decide, Or.inl rfl⟩

end Verif.Props
