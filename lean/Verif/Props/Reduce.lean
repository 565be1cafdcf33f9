import Verif.Model.Reduce
import Verif.Props.Distribute
import Mathlib.Algebra.BigOperators.Ring.Finset
import Mathlib.Algebra.BigOperators.Field
import Mathlib.Algebra.CharZero.Defs
import Mathlib.Tactic.FieldSimp
import Mathlib.Tactic.Ring
import Mathlib.Tactic.Common
import Mathlib.Data.Rat.Defs
import Mathlib.Algebra.Star.Rat
import Mathlib.Algebra.Order.Ring.Rat
/-
  C08, C09, C10, C45: reductions over ranks.
-/
namespace Verif.Props
open Verif Verif.Par Finset

/-! ### C08: sums over a split index set -/

theorem idxSum_zero {M} [AddCommMonoid M] (sh : List Nat) : idxSum sh (fun _ => (0 : M)) = 0 := by
  induction sh with
  | nil => rfl
  | cons n ns ih => simp [idxSum, ih]

theorem idxSum_add {M} [AddCommMonoid M] (sh : List Nat) (f g : List Nat → M) :
    idxSum sh (fun i => f i + g i) = idxSum sh f + idxSum sh g := by
  induction sh generalizing f g with
  | nil => rfl
  | cons n ns ih => simp [idxSum, ih, sum_add_distrib]

theorem idxSum_congr {M} [AddCommMonoid M] (sh : List Nat) (f g : List Nat → M)
    (h : ∀ i, InRange sh i → f i = g i) : idxSum sh f = idxSum sh g := by
  induction sh generalizing f g with
  | nil => exact h [] trivial
  | cons n ns ih =>
    simp only [idxSum]
    apply sum_congr rfl
    intro i hi
    exact ih _ _ fun is his => h (i :: is) ⟨mem_range.1 hi, his⟩

/-- Splitting one axis in two. -/
theorem idxSum_split {M} [AddCommMonoid M] (sh : List Nat) (ax n m : Nat) (hax : ax < sh.length)
    (f : List Nat → M) :
    idxSum (sh.set ax (n + m)) f =
      idxSum (sh.set ax n) f + idxSum (sh.set ax m) (fun i => f (i.set ax (i.getD ax 0 + n))) := by
  induction sh generalizing ax f with
  | nil => simp at hax
  | cons k ks ih =>
    cases ax with
    | zero =>
      simp only [List.set_cons_zero, idxSum, sum_range_add]
      congr 1
      apply sum_congr rfl
      intro i _
      simp [Nat.add_comm]
    | succ ax =>
      simp only [List.set_cons_succ, idxSum, ← sum_add_distrib]
      apply sum_congr rfl
      intro i _
      rw [ih ax (by simpa using hax)]
      simp

theorem list_set_set_getD (i : List Nat) (ax a b : Nat) (h : ax < i.length) :
    (i.set ax (i.getD ax 0 + a)).set ax ((i.set ax (i.getD ax 0 + a)).getD ax 0 + b) =
      i.set ax (i.getD ax 0 + (a + b)) := by
  rw [List.set_set]
  congr 1
  rw [List.getD_eq_getElem?_getD, List.getElem?_set_self h]
  simp [Nat.add_assoc]

/-- Splitting one axis in consecutive ranges of widths `ns`. -/
theorem idxSum_slabs {M} [AddCommMonoid M] (sh : List Nat) (ax : Nat) (hax : ax < sh.length)
    (ns : List Nat) (off : Nat) (f : List Nat → M) :
    idxSum (sh.set ax ns.sum) (fun i => f (i.set ax (i.getD ax 0 + off))) =
      ((List.range ns.length).map fun r => idxSum (sh.set ax (ns.getD r 0))
        (fun i => f (i.set ax (i.getD ax 0 + (off + (ns.take r).sum))))).sum := by
  induction ns generalizing off with
  | nil =>
    simp only [List.sum_nil, List.length_nil, List.range_zero, List.map_nil]
    rw [idxSum_congr _ _ (fun _ => 0), idxSum_zero]
    intro i hi
    have := hi.getD_lt ax (by simpa using hax)
    rw [ext_set hax] at this
    omega
  | cons n ns ih =>
    rw [List.sum_cons, idxSum_split sh ax n ns.sum hax, List.length_cons, List.range_succ_eq_map,
      List.map_cons, List.sum_cons, List.map_map]
    congr 1
    rw [idxSum_congr _ _ (fun i => f (i.set ax (i.getD ax 0 + (off + n))))]
    · rw [ih (off + n)]
      congr 1
      apply List.map_congr_left
      intro r _
      simp [Nat.add_assoc]
    · intro i hi
      have hl := hi.length
      simp only [List.length_set] at hl
      rw [list_set_set_getD i ax n off (by omega), Nat.add_comm n off]

theorem sum_unravel {M} [AddCommMonoid M] (sh : List Nat) (f : List Nat → M) :
    ∑ k ∈ range (size sh), f (unravel sh k) = idxSum sh f := by
  induction sh generalizing f with
  | nil => simp [size, unravel, idxSum]; exact one_nsmul _
  | cons n ns ih =>
    simp only [size, unravel, idxSum]
    induction n with
    | zero => simp
    | succ n ihn =>
      rw [Nat.add_mul, Nat.one_mul, sum_range_add, ihn, sum_range_succ, ← ih]
      congr 1
      apply sum_congr rfl
      intro k hk
      have hk := mem_range.1 hk
      have hpos : 0 < size ns := by omega
      rw [Nat.mul_comm n, Nat.mul_add_div hpos, Nat.mul_add_mod, Nat.div_eq_of_lt hk,
        Nat.mod_eq_of_lt hk, Nat.add_zero]

/-- The Gram entry of whole arrays, as a plain sum over all grid indices (specification: no ranks, no
    flattening). -/
def gramSpec {K} [Field K] [Star K] (Q : Nat → Arr K) (w : Arr K) (nBlocks : K) (i j : Nat) : K :=
  idxSum w.shape (fun idx => star ((Q i).at' idx) * ((Q j).at' idx * w.at' idx)) / nBlocks

theorem foldr_add_eq_sum {M} [AddCommMonoid M] (l : List M) : allreduce l = l.sum := by
  induction l with
  | nil => rfl
  | cons a l ih => simp only [allreduce, List.foldr_cons, List.sum_cons] at *; rw [ih]

/-- **C08.** For every number of ranks and every distributed axis, the reduced Gram matrix equals the
    one of the whole arrays; in particular it does not depend on the number of ranks. -/
theorem gram_rank_independent {K} [Field K] [Star K] (p ax : Nat) (Q : Nat → Arr K) (w : Arr K)
    (nBlocks : K) (hp : 0 < p) (hax : ax < w.shape.length) (hQ : ∀ b, (Q b).shape = w.shape)
    (i j : Nat) :
    gram p ax Q w nBlocks i j = gramSpec Q w nBlocks i j := by
  unfold gram
  rw [foldr_add_eq_sum]
  have hloc : ∀ r ∈ List.range p,
      localGram (fun b => distributeDimension (Q b) ax (some (p, r)))
        (distributeDimension w ax (some (p, r))) nBlocks i j =
      idxSum (w.shape.set ax (countOf (ext w.shape ax) p r)) (fun idx =>
        (fun g => star ((Q i).at' g) * ((Q j).at' g * w.at' g) / nBlocks)
          (idx.set ax (idx.getD ax 0 + (0 + startOf (ext w.shape ax) p r)))) := by
    intro r hr
    have hr := List.mem_range.1 hr
    unfold localGram
    rw [sum_div, sum_unravel (distributeDimension w ax (some (p, r))).shape (fun idx =>
      star ((distributeDimension (Q i) ax (some (p, r))).at' idx) *
      ((distributeDimension (Q j) ax (some (p, r))).at' idx *
        (distributeDimension w ax (some (p, r))).at' idx) / nBlocks)]
    have hle : startOf (ext w.shape ax) p r + countOf (ext w.shape ax) p r ≤ ext w.shape ax := by
      rcases Nat.lt_or_ge r (p - 1) with h | h
      · have h1 := endOf_le_startOf (ext w.shape ax) p h (by omega)
        have h2 := blockdist_end (ext w.shape ax) p (p - 1) (by omega) (by omega)
        omega
      · have h2 := blockdist_end (ext w.shape ax) p r (by omega) (by omega)
        omega
    have hsh : (distributeDimension w ax (some (p, r))).shape =
        w.shape.set ax (countOf (ext w.shape ax) p r) := by
      simp only [distributeDimension, Arr.slice]
      congr 1
      simp only [startOf, countOf] at hle ⊢
      omega
    rw [hsh]
    simp [distributeDimension, Arr.slice, hQ]
  rw [List.map_congr_left hloc]
  have key := idxSum_slabs w.shape ax hax ((List.range p).map (countOf (ext w.shape ax) p)) 0
    (fun g => star ((Q i).at' g) * ((Q j).at' g * w.at' g) / nBlocks)
  rw [sum_counts _ _ hp, set_ext_self] at key
  simp only [List.length_map, List.length_range, Nat.add_zero] at key
  have e1 : gramSpec Q w nBlocks i j = idxSum w.shape (fun i_1 =>
      star ((Q i).at' (i_1.set ax (i_1.getD ax 0))) *
      ((Q j).at' (i_1.set ax (i_1.getD ax 0)) * w.at' (i_1.set ax (i_1.getD ax 0))) / nBlocks) := by
    unfold gramSpec
    simp only [set_getD_self]
    rw [← sum_unravel, ← sum_unravel, sum_div]
  rw [e1, key]
  congr 1
  apply List.map_congr_left
  intro r hr
  have hr := List.mem_range.1 hr
  rw [sum_counts_take _ _ _ hr]
  simp [hr]

/-- non-vacuity: 2×3 grid on 2 ranks. -/
example : ∃ (w : Arr ℚ) (Q : Nat → Arr ℚ), 1 < w.shape.length ∧ (∀ b, (Q b).shape = w.shape) ∧
    gramSpec Q w 1 1 1 = 31 :=
  ⟨⟨[2, 3], fun _ => 1⟩, fun _ => ⟨[2, 3], fun i => (ravel [2, 3] i : ℚ) - 1⟩, by decide, fun _ => rfl, by
    unfold gramSpec
    simp only [idxSum, sum_range_succ, sum_range_zero, ravel, size]
    simp [star]
    norm_num⟩

/-! ### C09 / C10: parallel variance -/
section Var
set_option linter.unusedSectionVars false
variable {K : Type} [Field K] [DecidableEq K]

/-- Specification: count, mean and population variance of a list of numbers. -/
def stats (l : List K) : Nat × K × K :=
  (l.length, l.sum / l.length, (l.map fun x => (x - l.sum / l.length) ^ 2).sum / l.length)

theorem fvSum_some (l : List K) : fvSum (l.map some) = some l.sum := by
  induction l with
  | nil => rfl
  | cons a l ih => simp [fvSum, fv2] at *; rw [ih]

theorem fvSum_none (l : List (FV K)) (h : none ∈ l) : fvSum l = none := by
  induction l with
  | nil => simp at h
  | cons a l ih =>
    simp only [fvSum, List.foldr_cons] at *
    cases a with
    | none => rfl
    | some a =>
      rw [ih (by simpa using h)]; rfl

theorem sum_sq_dev (l : List K) (m : K) :
    (l.map fun x => (x - m) ^ 2).sum = (l.map fun x => x ^ 2).sum - 2 * m * l.sum + l.length * m ^ 2 := by
  induction l with
  | nil => simp
  | cons a l ih => simp only [List.map_cons, List.sum_cons, ih, List.length_cons]; push_cast; ring

theorem localStat_some (l : List K) (h : (l.length : K) ≠ 0) :
    localStat (l.map some) = (l.length, some (stats l).2.1, some (stats l).2.2) := by
  simp only [localStat, stats, List.length_map, fvSum_some, fvDiv, h, ↓reduceIte, List.map_map]
  have : (List.map ((fun x => fv2 (· * ·) x x) ∘ (fun x => fv2 (· - ·) x (some (l.sum / (l.length : K)))) ∘ some) l)
      = (l.map fun x => (x - l.sum / l.length) ^ 2).map some := by
    rw [List.map_map]
    apply List.map_congr_left
    intro x _
    simp [fv2, pow_two]
  rw [this, fvSum_some]
  simp [h]

theorem stats_append (a b : List K) (ha : (a.length : K) ≠ 0) (hb : (b.length : K) ≠ 0)
    (hab : ((a.length + b.length : ℕ) : K) ≠ 0) :
    opStat (a.length, some (stats a).2.1, some (stats a).2.2)
      (b.length, some (stats b).2.1, some (stats b).2.2) =
    ((a ++ b).length, some (stats (a ++ b)).2.1, some (stats (a ++ b)).2.2) := by
  have hab' : (a.length : K) + b.length ≠ 0 := by exact_mod_cast hab
  simp only [opStat, fv2, fvDiv, hab, ↓reduceIte, stats, List.length_append, List.sum_append,
    List.map_append, sum_sq_dev]
  push_cast
  refine Prod.ext rfl (Prod.ext ?_ ?_)
  · simp only [Option.some.injEq]
    field_simp
  · simp only [Option.some.injEq]
    field_simp
    ring

/-- **C09.** For every data set, every partition of it into non-empty parts (one per rank) and every
    reduction tree, `pvar` returns the count, mean and population variance of all the data together. -/
theorem pvar_correct [CharZero K] (t : RTree (List (FV K))) (parts : List (List K))
    (hleaves : t.leaves = parts.map (·.map some)) (hne : ∀ p ∈ parts, p ≠ []) (all : List K)
    (hall : all.Perm parts.flatten) :
    pvar t = ((stats all).1, some (stats all).2.1, some (stats all).2.2) := by
  have hperm : stats all = stats parts.flatten := by
    have hs : all.sum = parts.flatten.sum := hall.sum_eq
    simp only [stats, hall.length_eq, hs]
    rw [(hall.map _).sum_eq]
  rw [hperm]
  clear hall hperm
  induction t generalizing parts with
  | rank d =>
    match parts, hleaves with
    | [p], h =>
      simp [RTree.leaves] at h
      subst h
      have : ((p.length : ℕ) : K) ≠ 0 := by
        have := hne p (by simp)
        simpa using this
      simp only [pvar, List.flatten_cons, List.flatten_nil, List.append_nil]
      rw [localStat_some p this]; rfl
    | [], h => simp [RTree.leaves] at h
    | _ :: _ :: _, h => simp [RTree.leaves] at h
  | node l r ihl ihr =>
    simp only [RTree.leaves] at hleaves
    obtain ⟨pl, pr, hp, hl, hr⟩ := List.append_eq_map_iff.1 hleaves
    subst hp
    have hne_of : ∀ (t : RTree (List (FV K))) (ps : List (List K)), t.leaves = ps.map (·.map some) →
        (∀ p ∈ ps, p ≠ []) → ((ps.flatten.length : ℕ) : K) ≠ 0 := by
      intro t ps ht hps
      have h0 : t.leaves ≠ [] := by
        clear ht hps
        induction t with
        | rank d => simp [RTree.leaves]
        | node l r ihl ihr => simp [RTree.leaves, ihl]
      cases ps with
      | nil => simp [h0] at ht
      | cons a as =>
        have := hps a (by simp)
        have h2 : ((a :: as).flatten.length) ≠ 0 := by
          simp [List.flatten_cons, this]
        exact_mod_cast h2
    have h1 : ∀ p ∈ pl, p ≠ [] := fun p hp => hne p (by simp [hp])
    have h2 : ∀ p ∈ pr, p ≠ [] := fun p hp => hne p (by simp [hp])
    have n1 := hne_of l pl hl.symm h1
    have n2 := hne_of r pr hr.symm h2
    simp only [pvar, ihl pl hl.symm h1, ihr pr hr.symm h2, List.flatten_append]
    refine stats_append _ _ n1 n2 ?_
    have : pl.flatten.length ≠ 0 := by exact_mod_cast n1
    have : pl.flatten.length + pr.flatten.length ≠ 0 := by omega
    exact_mod_cast this

/-- non-vacuity: three ranks, nested tree. -/
example : pvar (K := ℚ) (.node (.rank [some 1, some 2]) (.node (.rank [some 6]) (.rank [some 3])))
    = (4, some 3, some (7 / 2)) := by
  rw [pvar_correct _ [[1, 2], [6], [3]] rfl (by simp) [1, 2, 6, 3] (by simp)]
  simp [stats]; norm_num

theorem opStat_nan_left (a b : Nat × FV K × FV K) (h : a.2 = (none, none)) :
    (opStat a b).2 = (none, none) := by
  obtain ⟨n, m, v⟩ := a
  cases h
  simp [opStat, fv2, fvDiv]

theorem opStat_nan_right (a b : Nat × FV K × FV K) (h : b.2 = (none, none)) :
    (opStat a b).2 = (none, none) := by
  obtain ⟨n, m, v⟩ := b
  cases h
  simp [opStat, fv2, fvDiv]

/-- **C10 (violated).**  If any rank holds no data, `pvar` returns NaN for mean and variance whatever the
    other ranks hold: the local mean of an empty array is NaN and NaN propagates through every reduction
    tree. -/
theorem pvar_idle_rank_nan (t : RTree (List (FV K))) (h : [] ∈ t.leaves) :
    (pvar t).2 = (none, none) := by
  induction t with
  | rank d =>
    simp [RTree.leaves] at h
    subst h
    simp [pvar, localStat, fvDiv, fvSum]
  | node l r ihl ihr =>
    simp only [RTree.leaves, List.mem_append] at h
    simp only [pvar]
    rcases h with h | h
    · have := ihl h
      exact opStat_nan_left _ _ this
    · have := ihr h
      exact opStat_nan_right _ _ this

/-- **C10 (negation).**  There are data and a distribution for which `pvar` is not the population
    variance of the union: 3 values on 4 ranks. -/
theorem pvar_idle_rank_fails :
    ¬ ∀ (t : RTree (List (FV ℚ))) (parts : List (List ℚ)), t.leaves = parts.map (·.map some) →
      parts.flatten ≠ [] → (pvar t).2.2 = some (stats parts.flatten).2.2 := by
  intro h
  have := h (.node (.rank [some 1]) (.rank [])) [[1], []] rfl (by simp)
  rw [pvar_idle_rank_nan _ (by simp [RTree.leaves])] at this
  simp at this

/-- more ranks than entries does create idle ranks (so the hypothesis of the theorem is reachable) -/
example : (blockdist 3 4 3).1 = 0 := by decide

/-! ### C45: normalization of the weights -/

/-- **C45 (partial).**  For data without NaN and with at least one value on every rank, the parallel and
    the serial variance normalization give the same weight, namely `w / (population variance)`.
    Missing (and false, see below): data with NaN entries, idle ranks. -/
theorem normalization_serial_eq_parallel_partial [CharZero K] (w : K) (t : RTree (List (FV K)))
    (parts : List (List K)) (hleaves : t.leaves = parts.map (·.map some))
    (hne : ∀ p ∈ parts, p ≠ []) (all : List K) (hall : all.Perm parts.flatten) (hall0 : all ≠ []) :
    normWeightPar w t = normWeightSer w (all.map some) ∧
    normWeightSer w (all.map some) =
      if (stats all).2.2 = 0 then none else some (w / (stats all).2.2) := by
  have hser : normWeightSer w (all.map some) =
      if (stats all).2.2 = 0 then none else some (w / (stats all).2.2) := by
    have hf : (all.map (some : K → FV K)).filter Option.isSome = all.map some := by
      rw [List.filter_eq_self]; simp
    simp only [normWeightSer, nanvar, hf]
    rw [localStat_some all (by simpa using hall0)]
    rfl
  refine ⟨?_, hser⟩
  rw [hser, normWeightPar, pvar_correct t parts hleaves hne all hall]
  rfl

/-- **C45 (violated).**  With a NaN in the data the serial normalization ignores it (`np.nanvar`) while the
    parallel one (`np.mean`) returns NaN weights everywhere. -/
theorem normalization_nan_differs :
    normWeightSer (K := ℚ) 1 [some 1, some 3, none] = some 1 ∧
    normWeightPar (K := ℚ) 1 (.rank [some 1, some 3, none]) = none := by
  constructor <;> decide +kernel

/-- NaN anywhere makes the parallel variance NaN. -/
theorem pvar_nan (t : RTree (List (FV K))) (h : ∃ d ∈ t.leaves, none ∈ d) : (pvar t).2.2 = none := by
  suffices (pvar t).2 = (none, none) by rw [this]
  induction t with
  | rank d =>
    obtain ⟨d', hd, hn⟩ := h
    simp [RTree.leaves] at hd
    subst hd
    have h1 := fvSum_none d' hn
    have h2 : fvSum (List.map (fun x => fv2 (· * ·) x x) (List.map (fun x => fv2 (· - ·) x (none : FV K)) d'))
        = none := by
      apply fvSum_none
      rw [List.mem_map]
      exact ⟨none, List.mem_map.2 ⟨none, hn, rfl⟩, rfl⟩
    simp only [pvar, localStat, h1, fvDiv]
    rw [h2]
  | node l r ihl ihr =>
    obtain ⟨d, hd, hn⟩ := h
    simp only [RTree.leaves, List.mem_append] at hd
    simp only [pvar]
    rcases hd with hd | hd
    · have := ihl ⟨d, hd, hn⟩
      exact opStat_nan_left _ _ this
    · have := ihr ⟨d, hd, hn⟩
      exact opStat_nan_right _ _ this

end Var
end Verif.Props
