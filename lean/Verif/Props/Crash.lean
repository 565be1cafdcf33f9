import Verif.Model.Cache
import Verif.Model.History
import Verif.Props.Cache
import Mathlib.Algebra.Order.Ring.Rat
import Mathlib.Tactic.FieldSimp
import Mathlib.Tactic.NormNum
import Mathlib.Tactic.IntervalCases
/-
  C35 (crashes and stale caches), C43 and C44 (state surviving from fit to fit).
-/
namespace Verif.Props
open Verif Verif.Par Verif.Cache Verif.Hist

section Crash
variable {α : Type}

theorem mem_cacheItems (nb nf b f : Nat) : (b, f) ∈ cacheItems nb nf ↔ b < nb ∧ f < nf := by
  simp [cacheItems]

theorem cacheItems_length (nb nf : Nat) : (cacheItems nb nf).length = nb * nf := by
  simp [cacheItems, List.length_flatMap]

theorem cacheItems_nodup (nb nf : Nat) : (cacheItems nb nf).Nodup := by
  unfold cacheItems
  rw [List.nodup_flatMap]
  refine ⟨fun b _ => List.Nodup.map (fun a a' h => by simpa using h) List.nodup_range, ?_⟩
  refine List.nodup_range.imp ?_
  intro b b' hne x h1 h2
  simp only [List.mem_map] at h1 h2
  obtain ⟨f, _, rfl⟩ := h1
  obtain ⟨f', _, h⟩ := h2
  simp only [Prod.mk.injEq] at h
  exact hne h.1.symm

/-- operations of a list of items -/
def opsOf (q : Nat → Nat → α) (items : List (Nat × Nat)) : List (FileOp α) :=
  items.flatMap fun bf => [.open_ bf.1 bf.2, .done bf.1 bf.2 (q bf.1 bf.2)]

theorem opsOf_length (q : Nat → Nat → α) (items : List (Nat × Nat)) :
    (opsOf q items).length = 2 * items.length := by
  induction items with
  | nil => rfl
  | cons x l ih =>
    simp only [opsOf, List.flatMap_cons, List.length_append, List.length_cons, List.length_nil] at *
    omega

theorem run_not_mem (q : Nat → Nat → α) (items : List (Nat × Nat)) (s : Folder α) (k b f : Nat)
    (h : (b, f) ∉ items) : ((opsOf q items).take k).foldl stepOp s b f = s b f := by
  induction items generalizing s k with
  | nil => simp [opsOf]
  | cons x l ih =>
    obtain ⟨b', f'⟩ := x
    simp only [List.mem_cons, Prod.mk.injEq, not_or] at h
    simp only [opsOf, List.flatMap_cons] at ih ⊢
    match k with
    | 0 => rfl
    | 1 => simp [stepOp, h.1]
    | k + 2 =>
      simp only [List.cons_append, List.nil_append, List.take_succ_cons, List.foldl_cons]
      rw [ih _ _ h.2]
      simp [stepOp, h.1]

theorem run_at (q : Nat → Nat → α) (items : List (Nat × Nat)) (hn : items.Nodup) (s : Folder α) (k i b f : Nat)
    (h : items[i]? = some (b, f)) : ((opsOf q items).take k).foldl stepOp s b f =
      if k ≤ 2 * i then s b f else if k = 2 * i + 1 then .incomplete else .complete (q b f) := by
  induction items generalizing s k i with
  | nil => simp at h
  | cons x l ih =>
    obtain ⟨b', f'⟩ := x
    rw [List.nodup_cons] at hn
    simp only [opsOf, List.flatMap_cons] at ih ⊢
    cases i with
    | zero =>
      simp only [List.getElem?_cons_zero, Option.some.injEq, Prod.mk.injEq] at h
      obtain ⟨rfl, rfl⟩ := h
      match k with
      | 0 => simp
      | 1 => simp [stepOp]
      | k + 2 =>
        have hr := run_not_mem q l (stepOp (stepOp s (.open_ b' f')) (.done b' f' (q b' f'))) k b' f' hn.1
        simp only [opsOf] at hr
        simp only [List.cons_append, List.nil_append, List.take_succ_cons, List.foldl_cons]
        rw [hr]
        simp [stepOp]
    | succ i =>
      simp only [List.getElem?_cons_succ] at h
      have hmem : (b, f) ∈ l := List.mem_of_getElem? h
      have hne : ¬ (b = b' ∧ f = f') := by rintro ⟨rfl, rfl⟩; exact hn.1 hmem
      match k with
      | 0 => simp
      | 1 => simp [stepOp, hne]
      | k + 2 =>
        simp only [List.cons_append, List.nil_append, List.take_succ_cons, List.foldl_cons]
        rw [ih hn.2 _ _ i h]
        have e1 : (k + 2 ≤ 2 * (i + 1)) ↔ k ≤ 2 * i := by omega
        have e2 : (k + 2 = 2 * (i + 1) + 1) ↔ k = 2 * i + 1 := by omega
        simp [stepOp, hne, e1, e2]

/-- State of the file of the `i`-th (block, frequency) after `k` operations. -/
theorem crashed_at (s : Folder α) (nb nf : Nat) (q : Nat → Nat → α) (k i b f : Nat)
    (h : (cacheItems nb nf)[i]? = some (b, f)) : crashed s nb nf q k b f =
      if k ≤ 2 * i then s b f else if k = 2 * i + 1 then .incomplete else .complete (q b f) :=
  run_at q _ (cacheItems_nodup nb nf) s k i b f h

theorem item_index (nb nf b f : Nat) (hb : b < nb) (hf : f < nf) :
    ∃ i, i < nb * nf ∧ (cacheItems nb nf)[i]? = some (b, f) := by
  obtain ⟨i, hi, h⟩ := List.mem_iff_getElem.1 ((mem_cacheItems nb nf b f).2 ⟨hb, hf⟩)
  refine ⟨i, by rw [← cacheItems_length]; exact hi, by rw [List.getElem?_eq_getElem hi, h]⟩

theorem item_of_index (nb nf i : Nat) (hi : i < nb * nf) :
    ∃ b f, b < nb ∧ f < nf ∧ (cacheItems nb nf)[i]? = some (b, f) := by
  rw [← cacheItems_length] at hi
  refine ⟨(cacheItems nb nf)[i].1, (cacheItems nb nf)[i].2, ?_, ?_, List.getElem?_eq_getElem hi⟩
  · exact ((mem_cacheItems nb nf _ _).1 (List.getElem_mem hi)).1
  · exact ((mem_cacheItems nb nf _ _).1 (List.getElem_mem hi)).2

/-- **C35 (partial): crashes when the folder was empty.**  Let a fit with blocks `q` be interrupted after any
    number `k` of file operations (or finish), starting from an empty cache folder, and let a later fit with
    blocks `q'` of the same configuration reuse the cache.  Then
    * if fewer than `2·n-1` of the `2·n` operations were done, it recomputes and works from its own blocks;
    * if all were done it works from the saved blocks;
    so it works from correct blocks whenever `q = q'` (same data) – except
    * if exactly `2·n-1` were done (crash while the very last file was being written), when it raises. -/
theorem cache_crash_partial (nb nf : Nat) (q q' : Nat → Nat → α) (hn : 0 < nb * nf) (k : Nat) :
    (k < 2 * (nb * nf) - 1 → reuseFit (crashed emptyFolder nb nf q k) nb nf q' = some q') ∧
    (k = 2 * (nb * nf) - 1 → reuseFit (crashed emptyFolder nb nf q k) nb nf q' = none) ∧
    (2 * (nb * nf) ≤ k → ∃ g, reuseFit (crashed emptyFolder nb nf q k) nb nf q' = some g ∧
      ∀ b < nb, ∀ f < nf, g b f = q b f) := by
  obtain ⟨b0, f0, hb0, hf0, h0⟩ := item_of_index nb nf (nb * nf - 1) (by omega)
  have hlast := crashed_at emptyFolder nb nf q k _ b0 f0 h0
  refine ⟨?_, ?_, ?_⟩
  · intro hk
    rw [if_pos (by omega)] at hlast
    rw [reuseFit, if_neg]
    intro hall
    rw [List.all_eq_true] at hall
    have := hall (b0, f0) ((mem_cacheItems _ _ _ _).2 ⟨hb0, hf0⟩)
    simp [existsFile, hlast, emptyFolder] at this
  · intro hk
    rw [if_neg (by omega), if_pos (by omega)] at hlast
    rw [reuseFit, if_pos, if_neg]
    · intro hall
      rw [List.all_eq_true] at hall
      have := hall (b0, f0) ((mem_cacheItems _ _ _ _).2 ⟨hb0, hf0⟩)
      simp [hlast] at this
    · rw [List.all_eq_true]
      rintro ⟨b, f⟩ hbf
      rw [mem_cacheItems] at hbf
      obtain ⟨i, hi, h⟩ := item_index nb nf b f hbf.1 hbf.2
      have := crashed_at emptyFolder nb nf q k i b f h
      rw [if_neg (by omega)] at this
      simp only [existsFile, this]
      split <;> first | rfl | (rename_i h; split at h <;> simp at h)
  · intro hk
    have hc : ∀ b < nb, ∀ f < nf, crashed emptyFolder nb nf q k b f = .complete (q b f) := by
      intro b hb f hf
      obtain ⟨i, hi, h⟩ := item_index nb nf b f hb hf
      rw [crashed_at emptyFolder nb nf q k i b f h, if_neg (by omega), if_neg (by omega)]
    rw [reuseFit, if_pos, if_pos]
    · refine ⟨_, rfl, ?_⟩
      intro b hb f hf
      simp only [hc b hb f hf]
    · rw [List.all_eq_true]
      rintro ⟨b, f⟩ hbf
      rw [mem_cacheItems] at hbf
      simp [hc b hbf.1 f hbf.2]
    · rw [List.all_eq_true]
      rintro ⟨b, f⟩ hbf
      rw [mem_cacheItems] at hbf
      simp [existsFile, hc b hbf.1 f hbf.2]

/-- **C35 (violated): stale cache.**  If the folder holds a complete cache of earlier blocks `q0`, and a fit
    saving new blocks `q1` is interrupted between two files (after `j` of them, `j = 0` and "all" included),
    then a later fit on data `q2` works neither from `q2` nor from a consistent set: it silently uses `q1`
    for the first `j` files and `q0` for the others. -/
theorem cache_stale_mixture_fails (nb nf : Nat) (q0 q1 q2 : Nat → Nat → α) (j : Nat) :
    ∃ g, reuseFit (crashed (fun b f => .complete (q0 b f)) nb nf q1 (2 * j)) nb nf q2 = some g ∧
      ∀ i b f, (cacheItems nb nf)[i]? = some (b, f) → g b f = if i < j then q1 b f else q0 b f := by
  have hc : ∀ i b f, (cacheItems nb nf)[i]? = some (b, f) →
      crashed (fun b f => .complete (q0 b f)) nb nf q1 (2 * j) b f =
        .complete (if i < j then q1 b f else q0 b f) := by
    intro i b f h
    rw [crashed_at _ nb nf q1 _ i b f h]
    by_cases hij : i < j
    · rw [if_neg (by omega), if_neg (by omega), if_pos hij]
    · rw [if_pos (by omega), if_neg hij]
  rw [reuseFit, if_pos, if_pos]
  · refine ⟨_, rfl, ?_⟩
    intro i b f h
    simp only [hc i b f h]
  · rw [List.all_eq_true]
    rintro ⟨b, f⟩ hbf
    rw [mem_cacheItems] at hbf
    obtain ⟨i, _, h⟩ := item_index nb nf b f hbf.1 hbf.2
    simp [hc i b f h]
  · rw [List.all_eq_true]
    rintro ⟨b, f⟩ hbf
    rw [mem_cacheItems] at hbf
    obtain ⟨i, _, h⟩ := item_index nb nf b f hbf.1 hbf.2
    simp [existsFile, hc i b f h]

/-- **C35 (violated), the property itself**: both ways of failing. -/
theorem cache_crash_fails :
    (¬ ∀ (nb nf : Nat) (q : Nat → Nat → Nat) (k : Nat), 2 ≤ nb → 0 < nf →
      ∃ g, reuseFit (crashed emptyFolder nb nf q k) nb nf q = some g) ∧
    (¬ ∀ (nb nf : Nat) (q0 q : Nat → Nat → Nat) (k : Nat), 2 ≤ nb → 0 < nf →
      ∀ g, reuseFit (crashed (fun b f => .complete (q0 b f)) nb nf q k) nb nf q = some g →
        ∀ b < nb, ∀ f < nf, g b f = q b f) := by
  constructor
  · intro h
    obtain ⟨g, hg⟩ := h 2 1 (fun _ _ => 0) 3 (by omega) (by omega)
    rw [(cache_crash_partial 2 1 (fun _ _ => 0) (fun _ _ => 0) (by omega) 3).2.1 (by omega)] at hg
    simp at hg
  · intro h
    obtain ⟨g, hg, hm⟩ := cache_stale_mixture_fails 2 1 (fun _ _ => 0) (fun _ _ => 1) (fun _ _ => 1) 1
    have h1 := h 2 1 (fun _ _ => 0) (fun _ _ => 1) 2 (by omega) (by omega) g hg 1 (by omega) 0 (by omega)
    have h2 := hm 1 1 0 (by decide)
    simp at h1 h2
    omega

/-- **C35 (violated in parallel): a hole reads as zeros.**  Two ranks save a vector of two values; rank 1's
    element reaches the disk, then the run dies.  Loading the file succeeds and gives 0 for rank 0's value,
    whatever it was. -/
theorem parallel_crash_hole_fails (a b : ℚ) :
    let locals : List (Arr ℚ) := [⟨[1], fun _ => a⟩, ⟨[1], fun _ => b⟩]
    ∃ ws : List (Write ℚ), ws.Perm (saveWrites 0 locals) ∧ ∃ k, ∃ B, npLoadSparse (npySaveFile 0 locals (ws.take k)) = some B ∧
      B.at' [0] = 0 ∧ B.at' [1] = b := by
  intro locals
  have hs : saveWrites 0 locals = [(0, a), (1, b)] := rfl
  have hl : npLoadSparse (npySaveFile 0 locals (List.take 1 [(1, b), (0, a)])) =
      some ⟨[2], fun idx => ((npySaveFile 0 locals (List.take 1 [(1, b), (0, a)])).data (ravel [2] idx)).getD 0⟩ := by
    rw [npLoadSparse, if_pos]
    · rfl
    · have h2 : size (npySaveFile 0 locals (List.take 1 [(1, b), (0, a)])).shape = 2 := rfl
      rw [h2]
      rfl
  exact ⟨[(1, b), (0, a)], by rw [hs]; exact List.Perm.swap _ _ _, 1, _, hl, rfl, rfl⟩

/-- In general: the file of an interrupted parallel save can be loaded exactly when its last element had been written (or it has none), whatever else is
    missing; and every missing element reads as zero. -/
theorem parallel_crash_hole_exact {K : Type} [Zero K] (f : NpyFile K) :
    ((npLoadSparse f).isSome ↔ size f.shape = 0 ∨ (f.data (size f.shape - 1)).isSome) ∧
    ∀ B, npLoadSparse f = some B → B.shape = f.shape ∧ ∀ idx, B.at' idx = (f.data (ravel f.shape idx)).getD 0 := by
  constructor
  · unfold npLoadSparse
    rw [show ∀ (c : Prop) [Decidable c] (a : Arr K), ((if c then some a else none).isSome = true ↔ c) from fun c _ a => by split <;> simp_all]
    simp only [List.all_eq_true, List.mem_range, List.any_eq_true, Bool.and_eq_true, decide_eq_true_eq]
    constructor
    · intro h
      rcases Nat.eq_zero_or_pos (size f.shape) with h0 | h0
      · exact Or.inl h0
      · right
        obtain ⟨k', h1, h2, h3⟩ := h (size f.shape - 1) (by omega)
        have : k' = size f.shape - 1 := by omega
        rwa [this] at h3
    · rintro (h | h) k hk
      · omega
      · exact ⟨size f.shape - 1, by omega, by omega, h⟩
  · intro B hB
    unfold npLoadSparse at hB
    split at hB
    · cases hB
      exact ⟨rfl, fun _ => rfl⟩
    · cases hB

end Crash

/-! ### C43 -/

/-- **C43 (exact).**  The `j`-th fit saves the minimum of the request and of the numbers of blocks of *all*
    fits up to and including it. -/
theorem modes_saved_exact (req : Nat) (nbs : List Nat) (j : Nat) (hj : j < nbs.length) :
    (modesSaved req nbs)[j]? = some ((nbs.take (j + 1)).foldl min req) := by
  induction nbs generalizing req j with
  | nil => simp at hj
  | cons nb nbs ih =>
    have hfm : fitModes req nb = min req nb := by unfold fitModes; split <;> omega
    cases j with
    | zero => simp [modesSaved, hfm]
    | succ j =>
      simp only [modesSaved, List.getElem?_cons_succ, List.take_succ_cons, List.foldl_cons, hfm]
      exact ih (min req nb) j (by simpa using hj)

theorem foldl_min_ge (l : List Nat) (a : Nat) (h : ∀ x ∈ l, a ≤ x) : l.foldl min a = a := by
  induction l with
  | nil => rfl
  | cons x l ih =>
    rw [List.foldl_cons, min_eq_left (h x (by simp)), ih fun y hy => h y (by simp [hy])]

theorem foldl_min_min (l : List Nat) (a b : Nat) : l.foldl min (min a b) = min (l.foldl min a) b := by
  induction l generalizing a with
  | nil => rfl
  | cons x l ih => rw [List.foldl_cons, List.foldl_cons, ← ih]; congr 1; omega

/-- **C43 (partial).**  The `j`-th fit saves `min(request, its number of blocks)` modes if no earlier fit had
    fewer blocks than that. -/
theorem modes_saved_partial (req : Nat) (nbs : List Nat) (j nb : Nat) (hj : nbs[j]? = some nb)
    (h : ∀ x ∈ nbs.take j, min req nb ≤ x) : (modesSaved req nbs)[j]? = some (min req nb) := by
  have hlt : j < nbs.length := by
    rcases Nat.lt_or_ge j nbs.length with h | h
    · exact h
    · rw [List.getElem?_eq_none h] at hj; simp at hj
  rw [modes_saved_exact req nbs j hlt, List.take_add_one, hj]
  simp only [Option.toList_some, List.foldl_append, List.foldl_cons, List.foldl_nil]
  rw [← foldl_min_min, foldl_min_ge _ _ h]

/-- **C43 (violated).**  After a fit with fewer blocks, a later fit with enough blocks still saves the smaller
    number. -/
theorem modes_saved_fails (req nb0 nb1 : Nat) (h0 : nb0 < req) (h1 : nb0 < nb1) :
    (modesSaved req [nb0, nb1])[1]? = some nb0 ∧ nb0 ≠ min req nb1 := by
  constructor
  · rw [modes_saved_exact req _ 1 (by simp)]
    simp; omega
  · omega

example : (modesSaved 3 [5, 4, 3, 7])[3]? = some 3 :=
  modes_saved_partial 3 [5, 4, 3, 7] 3 7 rfl (by simp)

/-! ### C44 -/

section Weights
variable {K : Type} [Field K]

/-- **C44 (exact).**  With variance normalization and an array passed by the caller, the `j`-th fit on the
    same data uses the caller's original weights divided by the variance `j+1` times. -/
theorem refit_weights_exact (var w : Nat → K) (n j : Nat) (hj : j < n) (i : Nat) :
    (refits true var n (.array w))[j]?.map (fun u => u i) = some (w i / var i ^ (j + 1)) := by
  induction n generalizing w j with
  | zero => omega
  | succ n ih =>
    simp only [refits, fitWeights, ↓reduceIte]
    cases j with
    | zero => simp
    | succ j =>
      rw [List.getElem?_cons_succ, ih (fun i => w i / var i) j (by omega), pow_succ (var i) (j + 1)]
      rw [div_div, mul_comm]

/-- **C44 (partial).**  Without normalization, or with default weights, every fit on the same data uses the
    same weights. -/
theorem refit_weights_partial (normalize : Bool) (var : Nat → K) (arg : WeightsArg K)
    (h : normalize = false ∨ arg = .default) (n j : Nat) (hj : j < n) :
    (refits normalize var n arg)[j]? = some (fitWeights normalize arg var).1 ∧
    (fitWeights normalize arg var).2 = arg := by
  have h2 : (fitWeights normalize arg var).2 = arg := by
    rcases h with rfl | rfl
    · cases arg <;> simp [fitWeights]
    · rfl
  refine ⟨?_, h2⟩
  induction n generalizing j with
  | zero => omega
  | succ n ih =>
    simp only [refits]
    cases j with
    | zero => simp
    | succ j => rw [List.getElem?_cons_succ, h2]; exact ih j (by omega)

/-- **C44 (values).**  Weights of the first fit: the given ones (one by default), divided by the variance exactly if
    normalization is requested. -/
theorem first_fit_weights (normalize : Bool) (var : Nat → K) (arg : WeightsArg K) (i : Nat) :
    (fitWeights normalize arg var).1 i =
      (match arg with | .default => 1 | .array w => w i) / (if normalize then var i else 1) := by
  cases arg <;> cases normalize <;> simp [fitWeights]

/-- **C44 (violated).**  The caller's array is changed by the fit and the second fit uses different weights
    whenever the variance is neither 0 nor 1 and the weight is not 0. -/
theorem refit_weights_fails (var w : Nat → K) (i : Nat) (hv0 : var i ≠ 0) (hv1 : var i ≠ 1) (hw : w i ≠ 0) :
    (∀ w', (fitWeights true (.array w) var).2 = .array w' → w' i ≠ w i) ∧
    (refits true var 2 (.array w))[1]?.map (fun u => u i) ≠
      (refits true var 2 (.array w))[0]?.map (fun u => u i) := by
  constructor
  · intro w' h
    simp only [fitWeights, ↓reduceIte, WeightsArg.array.injEq] at h
    rw [← h]
    intro he
    rw [div_eq_iff hv0] at he
    exact hv1 (mul_left_cancel₀ hw (by rw [mul_one]; exact he.symm))
  · rw [refit_weights_exact var w 2 1 (by omega), refit_weights_exact var w 2 0 (by omega)]
    intro he
    simp only [Option.some.injEq] at he
    rw [div_eq_div_iff (pow_ne_zero _ hv0) (pow_ne_zero _ hv0)] at he
    have := mul_left_cancel₀ hw he
    simp only [zero_add, pow_one] at this
    have h2 : var i * 1 = var i * var i := by rw [mul_one]; simpa [pow_two] using this
    exact hv1 (mul_left_cancel₀ hv0 h2).symm

example : (refits true (fun _ => (2 : ℚ)) 3 (.array fun _ => 1))[2]?.map (fun u => u 0) = some (1 / 8) := by
  rw [refit_weights_exact _ _ 3 2 (by omega)]; norm_num

end Weights
end Verif.Props
