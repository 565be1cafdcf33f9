import Verif.Props.Distribute
import Mathlib.Tactic.Common
import Mathlib.Data.List.Induction
/-
  C05, C06, C07: collective `.npy` save and load (pyspod/utils/parallel.py:186-324).
-/
namespace Verif.Props
open Verif Verif.Par

/-- The ranks' local arrays agree off the axis (precondition of the collective call). -/
def Compatible {α} (ax : Nat) (base : List Nat) (locals : List (Arr α)) : Prop :=
  ax < base.length ∧ ∀ a ∈ locals, ∃ n, a.shape = base.set ax n

/-- extents along the axis, rank by rank -/
abbrev extents {α} (ax : Nat) (locals : List (Arr α)) : List Nat :=
  locals.map fun a : Arr α => ext a.shape ax

/-! ### Lemmas -/

theorem pick_displ {α} [Inhabited α] (ax : Nat) (locals : List (Arr α)) (r : Nat) (a : Arr α)
    (h : locals[r]? = some a) (idx : List Nat) (i : Nat) (hi : i < ext a.shape ax) :
    pick ax locals idx (i + displ (extents ax locals) r) = a.at' (idx.set ax i) := by
  induction locals generalizing r with
  | nil => simp at h
  | cons p ps ih =>
    cases r with
    | zero =>
      simp at h; subst h
      simp [pick, displ, hi]
    | succ r =>
      simp only [List.getElem?_cons_succ] at h
      have := ih r h
      simp only [pick, displ, extents, List.map_cons, List.take_succ_cons, List.sum_cons]
      rw [if_neg (by omega)]
      rw [show i + (ext p.shape ax + ((ps.map fun a : Arr α => ext a.shape ax).take r).sum) -
        ext p.shape ax = i + displ (extents ax ps) r by simp only [displ, extents]; omega]
      exact this

theorem exists_piece {α} (ax : Nat) (locals : List (Arr α)) (i : Nat)
    (hi : i < (extents ax locals).sum) :
    ∃ r a j, locals[r]? = some a ∧ j < ext a.shape ax ∧ i = j + displ (extents ax locals) r := by
  induction locals generalizing i with
  | nil => simp at hi
  | cons p ps ih =>
    by_cases h : i < ext p.shape ax
    · exact ⟨0, p, i, rfl, h, by simp [displ]⟩
    · simp only [extents, List.map_cons, List.sum_cons] at hi
      obtain ⟨r, a, j, h1, h2, h3⟩ := ih (i - ext p.shape ax) (by simp only [extents]; omega)
      refine ⟨r + 1, a, j, h1, h2, ?_⟩
      simp only [displ, extents, List.map_cons, List.take_succ_cons, List.sum_cons] at *
      omega

theorem displ_add_le {α} (ax : Nat) (locals : List (Arr α)) (r : Nat) (a : Arr α)
    (h : locals[r]? = some a) :
    displ (extents ax locals) r + ext a.shape ax ≤ (extents ax locals).sum := by
  induction locals generalizing r with
  | nil => simp at h
  | cons p ps ih =>
    cases r with
    | zero => simp at h; subst h; simp [displ]
    | succ r =>
      have := ih r (by simpa using h)
      simp only [displ, extents, List.map_cons, List.take_succ_cons, List.sum_cons] at *
      omega

theorem displ_mono (counts : List Nat) {r r' : Nat} (h : r < r') (hr : r < counts.length) :
    displ counts r + counts.getD r 0 ≤ displ counts r' := by
  induction counts generalizing r r' with
  | nil => simp at hr
  | cons c cs ih =>
    cases r' with
    | zero => omega
    | succ r' =>
      cases r with
      | zero => simp [displ]
      | succ r =>
        have := ih (r := r) (r' := r') (by omega) (by simpa using hr)
        simp [displ] at *; omega

theorem applyWrites_append {α} (ws : List (Write α)) (w : Write α) (k : Nat) :
    applyWrites (ws ++ [w]) k = if k = w.1 then some w.2 else applyWrites ws k := by
  simp [applyWrites, List.foldl_append]

theorem applyWrites_mem {α} (ws : List (Write α)) (k : Nat) (v : α)
    (h : applyWrites ws k = some v) : (k, v) ∈ ws := by
  induction ws using List.reverseRecOn with
  | nil => simp [applyWrites] at h
  | append_singleton ws w ih =>
    rw [applyWrites_append] at h
    split at h
    · rename_i hk
      simp at h; subst h; subst hk
      simp
    · exact List.mem_append_left _ (ih h)

theorem applyWrites_some {α} (ws : List (Write α)) (k : Nat) (v : α) (h : (k, v) ∈ ws) :
    ∃ v', applyWrites ws k = some v' := by
  induction ws using List.reverseRecOn with
  | nil => simp at h
  | append_singleton ws w ih =>
    rw [applyWrites_append]
    split
    · exact ⟨_, rfl⟩
    · rename_i hk
      rcases List.mem_append.1 h with h | h
      · exact ih h
      · simp at h; subst h; exact absurd rfl hk

theorem mem_saveWrites {α} (ax : Nat) (locals : List (Arr α)) (w : Write α) :
    w ∈ saveWrites ax locals ↔ ∃ r a idx, locals[r]? = some a ∧ InRange a.shape idx ∧
      w = (ravel (a.shape.set ax (extents ax locals).sum)
            (idx.set ax (idx.getD ax 0 + displ (extents ax locals) r)), a.at' idx) := by
  simp only [saveWrites, List.mem_flatMap, List.mem_range]
  constructor
  · rintro ⟨r, hr, hw⟩
    rw [List.getElem?_eq_getElem hr] at hw
    simp only [rankWrites, List.mem_map] at hw
    obtain ⟨idx, hidx, rfl⟩ := hw
    exact ⟨r, locals[r], idx, List.getElem?_eq_getElem hr, mem_allIdx.1 hidx, rfl⟩
  · rintro ⟨r, a, idx, h1, h2, rfl⟩
    have hr : r < locals.length := by
      rcases Nat.lt_or_ge r locals.length with h | h
      · exact h
      · rw [List.getElem?_eq_none h] at h1; simp at h1
    refine ⟨r, hr, ?_⟩
    rw [h1]
    simp only [rankWrites, List.mem_map]
    exact ⟨idx, mem_allIdx.2 h2, rfl⟩

theorem concat_shape {α} [Inhabited α] {ax : Nat} {base : List Nat} {locals : List (Arr α)}
    (hc : Compatible ax base locals) (hne : locals ≠ []) :
    (concat ax locals).shape = base.set ax (extents ax locals).sum := by
  cases locals with
  | nil => exact absurd rfl hne
  | cons p ps =>
    obtain ⟨n, hn⟩ := hc.2 p (by simp)
    simp [concat, hn]

theorem shape_eq_set {ax : Nat} {base sh : List Nat} {n : Nat} (h : ax < base.length)
    (hn : sh = base.set ax n) : sh = base.set ax (ext sh ax) := by
  subst hn; rw [ext_set h]

theorem set_set_ext {ax : Nat} {base : List Nat} {n : Nat} (h : ax < base.length) (m : Nat) :
    ext ((base.set ax n).set ax m) ax = m := by
  simp [ext, h]

/-- The local element `idx` of rank `r` is the global element at the shifted index. -/
theorem concat_at_local {α} [Inhabited α] {ax : Nat} {base : List Nat} {locals : List (Arr α)}
    (hc : Compatible ax base locals) (r : Nat) (a : Arr α) (hr : locals[r]? = some a)
    (idx : List Nat) (hidx : InRange a.shape idx) :
    InRange (base.set ax (extents ax locals).sum)
      (idx.set ax (idx.getD ax 0 + displ (extents ax locals) r)) ∧
    (concat ax locals).at' (idx.set ax (idx.getD ax 0 + displ (extents ax locals) r)) = a.at' idx := by
  obtain ⟨n, hn⟩ := hc.2 a (List.mem_of_getElem? hr)
  have hax := hc.1
  have hl := hidx.length
  rw [hn] at hl
  simp only [List.length_set] at hl
  have haxa : ax < a.shape.length := by rw [hn]; simpa using hax
  have hlt := hidx.getD_lt ax haxa
  have hle := displ_add_le ax locals r a hr
  constructor
  · have h1 := hidx.set ax (extents ax locals).sum (idx.getD ax 0 + displ (extents ax locals) r)
      (by omega)
    rw [hn] at h1
    simpa using h1
  · simp only [concat]
    have hg : (idx.set ax (idx.getD ax 0 + displ (extents ax locals) r)).getD ax 0 =
        idx.getD ax 0 + displ (extents ax locals) r := by
      rw [List.getD_eq_getElem?_getD, List.getElem?_set_self (by omega)]
      rfl
    rw [hg, pick_displ ax locals r a hr _ _ hlt, List.set_set, set_getD_self]

/-! ### C05 -/

/-- **C05.** For every number of ranks, every axis, all local shapes that agree off the axis (zero extents
    included) and every order `ws` in which the element writes of all the ranks are performed, the file
    produced by the collective `npy_save` is the file `np.save` writes for the concatenation of the local
    arrays in rank order along the axis. -/
theorem npy_save_eq_serial {α} [Inhabited α] (ax : Nat) (base : List Nat) (locals : List (Arr α))
    (hc : Compatible ax base locals) (hne : locals ≠ [])
    (ws : List (Write α)) (hws : ws.Perm (saveWrites ax locals)) :
    npySaveFile ax locals ws = npSave (concat ax locals) := by
  have hshape := concat_shape hc hne
  have key : ∀ k v, (k, v) ∈ ws →
      k < size (concat ax locals).shape ∧ v = (concat ax locals).at' (unravel (concat ax locals).shape k) := by
    intro k v h
    rw [hws.mem_iff, mem_saveWrites] at h
    obtain ⟨r, a, idx, h1, h2, h3⟩ := h
    obtain ⟨n, hn⟩ := hc.2 a (List.mem_of_getElem? h1)
    obtain ⟨g1, g2⟩ := concat_at_local hc r a h1 idx h2
    simp only [Prod.mk.injEq] at h3
    obtain ⟨rfl, rfl⟩ := h3
    rw [hshape, hn, List.set_set]
    exact ⟨ravel_lt g1, by rw [unravel_ravel g1, g2]⟩
  simp only [npySaveFile, npSave, NpyFile.mk.injEq]
  constructor
  · simp only [saveSizes, concat]
    cases locals <;> rfl
  · funext k
    split
    · rename_i hk
      have hk' := hk
      rw [hshape] at hk'
      have hin := inRange_unravel hk'
      generalize hidx : unravel (base.set ax (extents ax locals).sum) k = idx at hin
      have hl := hin.length
      simp only [List.length_set] at hl
      have hax := hc.1
      have hlt := hin.getD_lt ax (by simpa using hc.1)
      rw [ext_set hc.1] at hlt
      obtain ⟨r, a, j, h1, h2, h3⟩ := exists_piece ax locals _ hlt
      obtain ⟨n, hn⟩ := hc.2 a (List.mem_of_getElem? h1)
      have hmem : (k, a.at' (idx.set ax j)) ∈ ws := by
        rw [hws.mem_iff, mem_saveWrites]
        refine ⟨r, a, idx.set ax j, h1, ?_, ?_⟩
        · have := hin.set ax (ext a.shape ax) j h2
          rw [shape_eq_set hc.1 hn]
          simpa [ext_set hc.1] using this
        · have hg : (idx.set ax j).getD ax 0 = j := by
            rw [List.getD_eq_getElem?_getD, List.getElem?_set_self (by omega)]; rfl
          rw [hg, List.set_set, ← h3, set_getD_self, hn, List.set_set, ← hidx, ravel_unravel hk']
      obtain ⟨v', hv'⟩ := applyWrites_some ws k _ hmem
      rw [hv', (key k v' (applyWrites_mem ws k v' hv')).2]
    · rename_i hk
      cases h : applyWrites ws k with
      | none => rfl
      | some v => exact absurd (key k v (applyWrites_mem ws k v h)).1 hk

/-- **C05** (no double writes).  Two different ranks never write the same file position. -/
theorem npy_save_disjoint {α} [Inhabited α] (ax : Nat) (base : List Nat) (locals : List (Arr α))
    (hc : Compatible ax base locals) (r r' : Nat) (hr : r ≠ r') (a a' : Arr α)
    (ha : locals[r]? = some a) (ha' : locals[r']? = some a')
    (w w' : Write α)
    (hw : w ∈ rankWrites (a.shape.set ax (extents ax locals).sum) ax (displ (extents ax locals) r) a)
    (hw' : w' ∈ rankWrites (a'.shape.set ax (extents ax locals).sum) ax (displ (extents ax locals) r') a') :
    w.1 ≠ w'.1 := by
  simp only [rankWrites, List.mem_map, mem_allIdx] at hw hw'
  obtain ⟨idx, hidx, rfl⟩ := hw
  obtain ⟨idx', hidx', rfl⟩ := hw'
  obtain ⟨n, hn⟩ := hc.2 a (List.mem_of_getElem? ha)
  obtain ⟨n', hn'⟩ := hc.2 a' (List.mem_of_getElem? ha')
  have g := (concat_at_local hc r a ha idx hidx).1
  have g' := (concat_at_local hc r' a' ha' idx' hidx').1
  intro heq
  simp only [hn, hn', List.set_set] at heq
  have := ravel_inj g g' heq
  have hb : ax < idx.length := by rw [hidx.length, hn]; simpa using hc.1
  have hb' : ax < idx'.length := by rw [hidx'.length, hn']; simpa using hc.1
  have hg : ∀ (l : List Nat) (v : Nat), ax < l.length → (l.set ax v).getD ax 0 = v := by
    intro l v hl
    rw [List.getD_eq_getElem?_getD, List.getElem?_set_self hl]; rfl
  have h1 := congrArg (fun l => l.getD ax 0) this
  simp only [hg _ _ hb, hg _ _ hb'] at h1
  have hax : ax < a.shape.length := by rw [hn]; simpa using hc.1
  have hax' : ax < a'.shape.length := by rw [hn']; simpa using hc.1
  have l1 := hidx.getD_lt ax hax
  have l2 := hidx'.getD_lt ax hax'
  have e : ∀ (q : Nat) (b : Arr α), locals[q]? = some b →
      q < (extents ax locals).length ∧ (extents ax locals).getD q 0 = ext b.shape ax := by
    intro q b hb
    constructor
    · simp only [List.length_map]
      rcases Nat.lt_or_ge q locals.length with h | h
      · exact h
      · rw [List.getElem?_eq_none h] at hb; simp at hb
    · simp [List.getD_eq_getElem?_getD, hb]
  obtain ⟨e1, e2⟩ := e r a ha
  obtain ⟨e1', e2'⟩ := e r' a' ha'
  rcases Nat.lt_or_gt_of_ne hr with h | h
  · have := displ_mono (extents ax locals) h e1
    omega
  · have := displ_mono (extents ax locals) h e1'
    omega

/-- non-vacuity: three ranks (one idle) holding 2, 0 and 1 columns of a 2-row array; writes performed in
    reverse order. -/
example :
    let locals : List (Arr Nat) :=
      [⟨[2, 2], fun i => 10 + ravel [2, 2] i⟩, ⟨[2, 0], fun _ => 0⟩, ⟨[2, 1], fun i => 90 + ravel [2, 1] i⟩]
    Compatible 1 [2, 0] locals ∧
    (List.range 7).map (npySaveFile 1 locals (saveWrites 1 locals).reverse).data =
      [some 10, some 11, some 90, some 12, some 13, some 91, none] := by
  refine ⟨⟨by decide, ?_⟩, by decide⟩
  intro a ha
  simp at ha
  rcases ha with rfl | rfl | rfl
  · exact ⟨2, rfl⟩
  · exact ⟨0, rfl⟩
  · exact ⟨1, rfl⟩

/-! ### C06 -/

/-- element-wise image of an array -/
def amap {α β} (f : α → β) (a : Arr α) : Arr β := ⟨a.shape, fun i => f (a.at' i)⟩

/-- **C06.** Loading the file of an array `A` with explicit counts that fit along the axis gives rank `r`
    the slab of `A` that starts at the sum of the lower ranks' counts; it never fails. -/
theorem npy_load_slab {α} (A : Arr α) (ax : Nat) (hax : ax < A.shape.length) (counts : List Nat)
    (r : Nat) (hr : r < counts.length) (hfit : counts.sum ≤ ext A.shape ax) :
    ∃ B, npyLoad (npSave A) ax counts r = some B ∧
      B.Eqv (amap some (A.slice ax (counts.take r).sum (counts.getD r 0))) := by
  have hle : (counts.take r).sum + counts.getD r 0 ≤ counts.sum := by
    have h := displ_mono counts (show r < r + 1 by omega) hr
    have h2 : (counts.take (r+1)).sum ≤ counts.sum := by
      conv_rhs => rw [← List.take_append_drop (r+1) counts, List.sum_append]
      omega
    simp only [displ] at h
    omega
  have hcond : ¬ (counts.getD r 0 > 0 ∧ displ counts r + counts.getD r 0 > ext (npSave A).shape ax) := by
    simp only [npSave, displ]; omega
  refine ⟨_, by simp only [npyLoad]; rw [if_neg hcond], ?_, ?_⟩
  · simp only [npSave, amap, Arr.slice]
    congr 1; omega
  · intro idx hidx
    simp only [npSave] at hidx
    have hl := hidx.length
    simp only [List.length_set] at hl
    have hlt := hidx.getD_lt ax (by simpa using hax)
    rw [ext_set hax] at hlt
    have hin : InRange A.shape (idx.set ax (idx.getD ax 0 + displ counts r)) := by
      have := hidx.set ax (ext A.shape ax) (idx.getD ax 0 + displ counts r) (by simp only [displ]; omega)
      simpa [set_ext_self] using this
    simp only [npSave, amap, Arr.slice, displ]
    rw [if_pos (by have := ravel_lt hin; simpa [displ] using this)]
    congr 1
    have := unravel_ravel hin
    simp only [displ] at this
    rw [this]

/-- **C06** (round trip).  After a collective save – whatever the write order – loading with the counts
    used for saving returns to every rank exactly the array it saved. -/
theorem npy_save_load_roundtrip {α} [Inhabited α] (ax : Nat) (base : List Nat) (locals : List (Arr α))
    (hc : Compatible ax base locals) (ws : List (Write α)) (hws : ws.Perm (saveWrites ax locals))
    (r : Nat) (a : Arr α) (ha : locals[r]? = some a) :
    ∃ B, npyLoad (npySaveFile ax locals ws) ax (extents ax locals) r = some B ∧ B.Eqv (amap some a) := by
  have hne : locals ≠ [] := by rintro rfl; simp at ha
  have hr : r < locals.length := by
    rcases Nat.lt_or_ge r locals.length with h | h
    · exact h
    · rw [List.getElem?_eq_none h] at ha; simp at ha
  rw [npy_save_eq_serial ax base locals hc hne ws hws]
  have hshape := concat_shape hc hne
  have hax : ax < (concat ax locals).shape.length := by rw [hshape]; simpa using hc.1
  obtain ⟨B, hB, hE⟩ := npy_load_slab (concat ax locals) ax hax (extents ax locals) r
    (by simpa using hr) (by rw [hshape, ext_set hc.1]; exact Nat.le_refl _)
  refine ⟨B, hB, hE.trans ?_⟩
  have hcount : (extents ax locals).getD r 0 = ext a.shape ax := by
    simp [List.getD_eq_getElem?_getD, ha]
  obtain ⟨n, hn⟩ := hc.2 a (List.mem_of_getElem? ha)
  have hle := displ_add_le ax locals r a ha
  have hs : (amap some ((concat ax locals).slice ax ((extents ax locals).take r).sum
      ((extents ax locals).getD r 0))).shape = a.shape := by
    simp only [amap, Arr.slice, hshape, hcount, ext_set hc.1, List.set_set]
    rw [Nat.min_eq_left (by simpa [displ] using hle)]
    rw [show ((extents ax locals).take r).sum + ext a.shape ax - ((extents ax locals).take r).sum =
      ext a.shape ax by omega]
    exact (shape_eq_set hc.1 hn).symm
  refine ⟨hs, ?_⟩
  intro idx hidx
  rw [hs] at hidx
  have := (concat_at_local hc r a ha idx hidx).2
  simp only [amap, Arr.slice]
  exact congrArg some this

example : ∃ B, npyLoad (npSave (⟨[5, 2], fun i => ravel [5, 2] i⟩ : Arr Nat)) 0 [1, 3, 1] 1 = some B ∧
    B.shape = [3, 2] ∧ B.at' [2, 1] = some 7 := ⟨_, rfl, by decide, by decide⟩

/-! ### C07 -/

/-- What a user expects of `npy_load(comm, file, axis)` without `count`: the ranks' counts cover the
    axis. -/
def DefaultCovers (total size : Nat) : Prop :=
  ((List.range size).map (defaultCount total size)).sum = total

theorem sum_ite_lt (m size : Nat) :
    ((List.range size).map fun r => if m > r then 1 else 0).sum = min m size := by
  induction size with
  | zero => simp
  | succ n ih =>
    rw [List.range_succ, List.map_append, List.sum_append, ih]
    simp; split <;> omega

/-- Number of entries actually read along the axis by all ranks together. -/
theorem default_count_total (total size : Nat) :
    ((List.range size).map (defaultCount total size)).sum = min (total / size + total % size) size :=
  sum_ite_lt _ _

/-- **C07 (violated).**  The default count does not cover the file: parallel.py:288 parses as a
    comparison, so each rank reads at most one entry along the axis. -/
theorem npy_load_default_fails : ¬ ∀ total size, 0 < size → DefaultCovers total size := by
  intro h
  have := h 10 2 (by decide)
  unfold DefaultCovers at this
  revert this; decide

/-- **C07 (exact condition).**  The default covers the file exactly when there are fewer entries than
    ranks, or one entry on one rank. -/
theorem npy_load_default_partial (total size : Nat) (hsize : 0 < size) :
    DefaultCovers total size ↔ total < size ∨ (total = 1 ∧ size = 1) := by
  unfold DefaultCovers
  rw [default_count_total]
  rcases Nat.lt_trichotomy total size with h | h | h
  · rw [Nat.div_eq_of_lt h, Nat.mod_eq_of_lt h]
    omega
  · subst h
    rw [Nat.div_self hsize, Nat.mod_self]
    omega
  · constructor
    · intro he; omega
    · intro he; omega

/-- In the good case the counts are the balanced ones of `_blockdist`. -/
theorem npy_load_default_balanced_partial (total size r : Nat) (h : total < size) (hr : r < size) :
    defaultCount total size r = (blockdist total size r).1 := by
  simp [defaultCount, blockdist, hr, Nat.div_eq_of_lt h]

example : DefaultCovers 3 5 ∧ ¬ DefaultCovers 8 4 := by unfold DefaultCovers; decide

end Verif.Props
