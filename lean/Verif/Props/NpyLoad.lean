import Verif.Props.Fit
/-
  C06, C07: what the ranks hold together after `npy_load` (pyspod/utils/parallel.py:257-324).
-/
namespace Verif.Props
open Verif Verif.Par

/-- **C06** (gathered).  Counts that fit: the arrays loaded by the ranks, put together in rank order along the axis, are the array of the file if and only if the counts
    add up to its extent; and each rank gets the slab that begins where the one of the rank before it ends. -/
theorem npy_load_gather {α} [Inhabited α] (A : Arr α) (ax : Nat) (hax : ax < A.shape.length) (counts : List Nat) (hne : counts ≠ [])
    (hfit : counts.sum ≤ ext A.shape ax) :
    ∃ B : Nat → Arr (Option α), (∀ r < counts.length, npyLoad (npSave A) ax counts r = some (B r) ∧
        (B r).Eqv (amap some (A.slice ax (counts.take r).sum (counts.getD r 0)))) ∧
      ((concat ax ((List.range counts.length).map B)).Eqv (amap some A) ↔ counts.sum = ext A.shape ax) := by
  have h := fun r : Nat => fun hr : r < counts.length => npy_load_slab A ax hax counts r hr hfit
  let B : Nat → Arr (Option α) := fun r => if hr : r < counts.length then (h r hr).choose else ⟨[], fun _ => none⟩
  have hB : ∀ r < counts.length, npyLoad (npSave A) ax counts r = some (B r) ∧
      (B r).Eqv (amap some (A.slice ax (counts.take r).sum (counts.getD r 0))) := by
    intro r hr
    simp only [B, hr, dif_pos]
    exact (h r hr).choose_spec
  refine ⟨B, hB, ?_⟩
  have hax' : ax < (amap some A).shape.length := hax
  have hsl : (List.range counts.length).map (fun r => (amap some A).slice ax (counts.take r).sum (counts.getD r 0)) = slabs (amap some A) ax 0 counts := by
    rw [slabs_eq_map]; simp
  have hcomp : Compatible ax A.shape ((List.range counts.length).map B) := by
    refine ⟨hax, fun a ha => ?_⟩
    obtain ⟨r, hr, rfl⟩ := List.mem_map.1 ha
    exact ⟨_, (hB r (List.mem_range.1 hr)).2.1⟩
  have hf : List.Forall₂ Arr.Eqv ((List.range counts.length).map B) (slabs (amap some A) ax 0 counts) := by
    rw [← hsl, List.forall₂_map_left_iff, List.forall₂_map_right_iff, List.forall₂_same]
    exact fun r hr => (hB r (List.mem_range.1 hr)).2
  have hne' : (List.range counts.length).map B ≠ [] := by simpa using hne
  have hcc := concat_congr ax A.shape _ _ hne' hcomp hf
  constructor
  · intro he
    have h1 : (concat ax (slabs (amap some A) ax 0 counts)).shape = A.shape := hcc.1.symm.trans he.1
    have h2 : ext (concat ax (slabs (amap some A) ax 0 counts)).shape ax = counts.sum := by
      rw [← hcc.1, concat_shape hcomp hne', ext_set hax]
      have : extents ax ((List.range counts.length).map B) = extents ax (slabs (amap some A) ax 0 counts) := by
        rw [← hsl]
        simp only [extents, List.map_map]
        refine List.map_congr_left fun r hr => ?_
        simp only [Function.comp]
        rw [(hB r (List.mem_range.1 hr)).2.1]
        rfl
      rw [this]
      exact congrArg List.sum (slabs_ext (amap some A) ax hax 0 counts (by simpa [amap] using hfit))
    rw [← h2, h1]
  · intro hs
    have h2 := concat_slabs (amap some A) ax hax' counts hne hs
    exact ⟨hcc.1.trans h2.1, fun idx hi => (hcc.2 idx hi).trans (h2.2 idx (hcc.1 ▸ hi))⟩

/-- **C07 (exact).**  Without `count`, on `p` ranks: with `m = N / p + N % p` (`N` the extent along the axis) each of the first `m` ranks loads one entry along the axis, rank `r`
    entry `r`, and the others nothing; so the ranks hold the whole array together exactly if there are fewer entries than ranks, or one entry and one rank. -/
theorem npy_load_default_exact {α} [Inhabited α] (A : Arr α) (ax : Nat) (hax : ax < A.shape.length) (p : Nat) (hp : 0 < p) :
    ∃ B : Nat → Arr (Option α), (∀ r < p,
        npyLoad (npSave A) ax ((List.range p).map (defaultCount (ext A.shape ax) p)) r = some (B r) ∧
        (r < ext A.shape ax / p + ext A.shape ax % p → (B r).Eqv (amap some (A.slice ax r 1))) ∧
        (ext A.shape ax / p + ext A.shape ax % p ≤ r → ext (B r).shape ax = 0)) ∧
      ((concat ax ((List.range p).map B)).Eqv (amap some A) ↔ ext A.shape ax < p ∨ (ext A.shape ax = 1 ∧ p = 1)) := by
  set N := ext A.shape ax with hN
  set cs := (List.range p).map (defaultCount N p) with hcs
  have hl : cs.length = p := by simp [hcs]
  have hsum : cs.sum = min (N / p + N % p) p := default_count_total N p
  have hle : N / p + N % p ≤ N := by
    have h1 := Nat.div_add_mod N p
    have h2 : N / p ≤ p * (N / p) := Nat.le_mul_of_pos_left _ hp
    omega
  obtain ⟨B, hB, hc⟩ := npy_load_gather A ax hax cs (by rw [← List.length_pos_iff, hl]; exact hp) (by rw [hsum]; omega)
  rw [hl] at hB hc
  refine ⟨B, fun r hr => ?_, hc.trans ?_⟩
  · obtain ⟨h1, h2⟩ := hB r hr
    have ht : (cs.take r).sum = min (N / p + N % p) r := by
      rw [hcs, ← List.map_take, List.take_range, Nat.min_eq_left hr.le]
      exact sum_ite_lt _ r
    have hg : cs.getD r 0 = if N / p + N % p > r then 1 else 0 := by
      rw [hcs, List.getD_eq_getElem?_getD, List.getElem?_map, List.getElem?_range hr]
      rfl
    refine ⟨h1, fun h => ?_, fun h => ?_⟩
    · rwa [ht, hg, if_pos h, Nat.min_eq_right h.le] at h2
    · rw [hg, if_neg (by omega)] at h2
      rw [h2.1]
      show ext (A.slice ax _ 0).shape ax = 0
      simp only [Arr.slice, ext_set hax]
      omega
  · exact npy_load_default_partial N p hp

/-- ten entries on two ranks: each loads one -/
example : ∃ B : Nat → Arr (Option Nat), (∀ r < 2, npyLoad (npSave ⟨[10], fun i => i.getD 0 0⟩) 0 ((List.range 2).map (defaultCount 10 2)) r = some (B r)) ∧
    ¬ (concat 0 ((List.range 2).map B)).Eqv (amap some ⟨[10], fun i => i.getD 0 0⟩) := by
  obtain ⟨B, h1, h2⟩ := npy_load_default_exact (⟨[10], fun i => i.getD 0 0⟩ : Arr Nat) 0 (by decide) 2 (by decide)
  refine ⟨B, fun r hr => (h1 r hr).1, fun h => ?_⟩
  have := h2.1 h
  revert this; decide

/-- **C07 (violated).**  There are arrays, axes and numbers of ranks for which the loaded arrays do not make up the array of the file. -/
theorem npy_load_default_gather_fails : ¬ ∀ (A : Arr Nat) (ax p : Nat), ax < A.shape.length → 0 < p →
    ∃ B : Nat → Arr (Option Nat), (∀ r < p, npyLoad (npSave A) ax ((List.range p).map (defaultCount (ext A.shape ax) p)) r = some (B r)) ∧
      (concat ax ((List.range p).map B)).Eqv (amap some A) := by
  intro h
  obtain ⟨B, h1, h2⟩ := h ⟨[10], fun i => i.getD 0 0⟩ 0 2 (by decide) (by decide)
  obtain ⟨B', h1', h2'⟩ := npy_load_default_exact (⟨[10], fun i => i.getD 0 0⟩ : Arr Nat) 0 (by decide) 2 (by decide)
  have e : (List.range 2).map B = (List.range 2).map B' := by
    refine List.map_congr_left fun r hr => ?_
    have hr := List.mem_range.1 hr
    exact Option.some.inj ((h1 r hr).symm.trans (h1' r hr).1)
  rw [e] at h2
  have := h2'.1 h2
  revert this; decide

end Verif.Props
