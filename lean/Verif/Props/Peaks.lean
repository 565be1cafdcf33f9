import Verif.Model.Peaks
import Mathlib.Data.List.Induction
import Mathlib.Tactic.Linarith
import Mathlib.Tactic.NormNum
/-
  C121: the peaks of `plot_report`.
-/
namespace Verif.Props
open Verif.Peaks

/-! ### The binary search -/

theorem bsearch_range (p : Nat → Bool) (lo hi : Nat) (h : lo ≤ hi) : lo ≤ bsearch p lo hi ∧ bsearch p lo hi ≤ hi := by
  fun_induction bsearch p lo hi with
  | case1 lo hi h1 h2 ih => have := ih (by omega); omega
  | case2 lo hi h1 h2 ih => have := ih (by omega); omega
  | case3 lo hi h1 => omega

/-- for a predicate that holds on an initial segment the search finds its end -/
theorem bsearch_spec (p : Nat → Bool) (lo hi : Nat) (h : lo ≤ hi) (mono : ∀ a b, a ≤ b → lo ≤ a → b < hi → p b = true → p a = true) :
    ∀ k, lo ≤ k → k < hi → (p k = true ↔ k < bsearch p lo hi) := by
  fun_induction bsearch p lo hi with
  | case1 lo hi h1 h2 ih =>
    intro k hk1 hk2
    have hr := (bsearch_range p (lo + (hi - lo) / 2 + 1) hi (by omega)).1
    by_cases hk : lo + (hi - lo) / 2 + 1 ≤ k
    · exact ih (by omega) (fun a b hab ha hb => mono a b hab (by omega) hb) k hk hk2
    · have : p k = true := mono k (lo + (hi - lo) / 2) (by omega) hk1 (by omega) h2
      simp only [this, true_iff]; omega
  | case2 lo hi h1 h2 ih =>
    intro k hk1 hk2
    have hr := (bsearch_range p lo (lo + (hi - lo) / 2) (by omega)).2
    by_cases hk : k < lo + (hi - lo) / 2
    · exact ih (by omega) (fun a b hab ha hb => mono a b hab ha (by omega)) k hk1 hk
    · constructor
      · intro hp
        exact absurd (mono (lo + (hi - lo) / 2) k (by omega) (by omega) hk2 hp) h2
      · intro; omega
  | case3 lo hi h1 => intro k _ _; omega

/-- on any array, sorted or not, a weaker predicate moves the result to the right -/
theorem bsearch_mono (p q : Nat → Bool) (hpq : ∀ k, p k = true → q k = true) (lo hi : Nat) : bsearch p lo hi ≤ bsearch q lo hi := by
  fun_induction bsearch p lo hi with
  | case1 lo hi h1 h2 ih =>
    rw [bsearch.eq_def q lo hi, if_pos h1, if_pos (hpq _ h2)]
    exact ih
  | case2 lo hi h1 h2 ih =>
    rw [bsearch.eq_def q lo hi, if_pos h1]
    split
    · have a := (bsearch_range p lo (lo + (hi - lo) / 2) (by omega)).2
      have b := (bsearch_range q (lo + (hi - lo) / 2 + 1) hi (by omega)).1
      omega
    · exact ih
  | case3 lo hi h1 => rw [bsearch.eq_def q lo hi, if_neg h1]

/-! ### Peaks -/

/-- `i` is a peak: more than 1.5 times the mean of the entries from `nbr` before to `nbr - 1` after it (as far as there are any),
    greater than its neighbours, and nowhere exceeded at frequencies within ten percent. -/
structure IsPeakAt (vals freq : List ℝ) (nbr i : Nat) : Prop where
  mean : ((List.range vals.length).filter fun j => decide (i ≤ j + nbr ∧ j < i + nbr)).foldr (fun j s => vals.getD j 0 + s) 0 /
    (((List.range vals.length).filter fun j => decide (i ≤ j + nbr ∧ j < i + nbr)).length : ℝ) * (3 / 2) < vals.getD i 0
  left : 0 < i → vals.getD (i - 1) 0 < vals.getD i 0
  right : i + 1 < vals.length → vals.getD (i + 1) 0 < vals.getD i 0
  band : ∀ j < vals.length, freq.getD i 0 * (9 / 10) ≤ freq.getD j 0 → freq.getD j 0 ≤ freq.getD i 0 * (11 / 10) →
    vals.getD j 0 ≤ vals.getD i 0

theorem slice_eq (vals : List ℝ) (a b : Nat) :
    slice vals a b = ((List.range vals.length).filter fun j => decide (a ≤ j ∧ j < b)).map fun j => vals.getD j 0 := by
  unfold slice
  induction vals using List.reverseRecOn with
  | nil => simp
  | append_singleton l x ih =>
    rw [List.length_append, List.length_singleton, List.range_succ, List.filter_append, List.map_append]
    have h1 : (((List.range l.length).filter fun j => decide (a ≤ j ∧ j < b)).map fun j => (l ++ [x]).getD j 0) =
        ((List.range l.length).filter fun j => decide (a ≤ j ∧ j < b)).map fun j => l.getD j 0 := by
      refine List.map_congr_left fun j hj => ?_
      have : j < l.length := by simpa using (List.mem_filter.1 hj).1
      simp [List.getD_eq_getElem?_getD, List.getElem?_append_left this]
    rw [h1, ← ih]
    by_cases hb : l.length < b
    · rw [List.take_of_length_le (by simp; omega), List.take_of_length_le (by omega)]
      by_cases ha : a ≤ l.length
      · rw [List.drop_append_of_le_length ha]; simp [ha, hb]
      · rw [List.drop_of_length_le (by simp; omega), List.drop_of_length_le (by omega)]; simp [ha]
    · rw [List.take_append_of_le_length (by omega)]; simp [hb]

theorem foldr_add_eq (l : List Nat) (f : Nat → ℝ) : l.foldr (fun j s => f j + s) 0 = (l.map f).sum := by
  induction l with
  | nil => rfl
  | cons a l ih => simp [ih]

theorem isPeak_exact (vals freq : List ℝ) (nbr i : Nat) (hlen : freq.length = vals.length) (hi : i < vals.length)
    (hs : ∀ j k, j ≤ k → k < freq.length → freq.getD j 0 ≤ freq.getD k 0) (hpos : 0 ≤ freq.getD i 0) :
    ∃ b, isPeak vals freq nbr i = some b ∧ (b = true ↔ IsPeakAt vals freq nbr i) := by
  have hL : ∀ k, k < vals.length → (freq.getD k 0 < freq.getD i 0 * (90 / 100) ↔ k < searchLeft freq (freq.getD i 0 * (90 / 100))) := by
    intro k hk
    have := bsearch_spec (fun k => decide (freq.getD k 0 < freq.getD i 0 * (90 / 100))) 0 freq.length (Nat.zero_le _)
      (by intro a b hab _ hb h; simp only [decide_eq_true_eq] at h ⊢; exact lt_of_le_of_lt (hs a b hab hb) h) k (Nat.zero_le _) (by omega)
    simp only [decide_eq_true_eq] at this
    exact this
  have hR : ∀ k, k < vals.length → (freq.getD k 0 ≤ freq.getD i 0 * (11 / 10) ↔ k < searchRight freq (freq.getD i 0 * (11 / 10))) := by
    intro k hk
    have := bsearch_spec (fun k => decide (freq.getD k 0 ≤ freq.getD i 0 * (11 / 10))) 0 freq.length (Nat.zero_le _)
      (by intro a b hab _ hb h; simp only [decide_eq_true_eq] at h ⊢; exact le_trans (hs a b hab hb) h) k (Nat.zero_le _) (by omega)
    simp only [decide_eq_true_eq] at this
    exact this
  have hnear : slice vals (i - nbr) (min (i + nbr) vals.length) =
      ((List.range vals.length).filter fun j => decide (i ≤ j + nbr ∧ j < i + nbr)).map fun j => vals.getD j 0 := by
    rw [slice_eq]
    congr 1
    refine List.filter_congr fun j hj => ?_
    have : j < vals.length := by simpa using hj
    have e : (i - nbr ≤ j ∧ j < min (i + nbr) vals.length) ↔ (i ≤ j + nbr ∧ j < i + nbr) := by omega
    simp only [e]
  unfold isPeak
  simp only [hnear, List.length_map]
  split
  · rename_i h
    obtain ⟨h1, h2, h3⟩ := h
    set S := slice vals (searchLeft freq (freq.getD i 0 * (90 / 100)))
      (min (searchRight freq (freq.getD i 0 * (11 / 10))) vals.length) with hS
    have hmem : ∀ x, x ∈ S ↔ ∃ j < vals.length, freq.getD i 0 * (9 / 10) ≤ freq.getD j 0 ∧ freq.getD j 0 ≤ freq.getD i 0 * (11 / 10) ∧
        vals.getD j 0 = x := by
      intro x
      rw [hS, slice_eq]
      simp only [List.mem_map, List.mem_filter, List.mem_range, decide_eq_true_eq]
      constructor
      · rintro ⟨j, ⟨hj, hl, hr⟩, rfl⟩
        refine ⟨j, hj, ?_, (hR j hj).2 (by omega), rfl⟩
        have : ¬ freq.getD j 0 < freq.getD i 0 * (90 / 100) := fun hh => by have := (hL j hj).1 hh; omega
        have e : (9 / 10 : ℝ) = 90 / 100 := by norm_num
        rw [e]; exact not_lt.1 this
      · rintro ⟨j, hj, hl, hr, rfl⟩
        refine ⟨j, ⟨hj, ?_, ?_⟩, rfl⟩
        · by_contra hh
          have := (hL j hj).2 (by omega)
          have e : (9 / 10 : ℝ) = 90 / 100 := by norm_num
          rw [e] at hl; exact absurd this (not_lt.2 hl)
        · have := (hR j hj).1 hr; omega
    have hself : vals.getD i 0 ∈ S := (hmem _).2 ⟨i, hi, by linarith, by linarith, rfl⟩
    obtain ⟨m, hm⟩ : ∃ m, npMax S = some m := by
      unfold npMax
      cases hh : S.max? with
      | none => rw [List.max?_eq_none_iff] at hh; rw [hh] at hself; simp at hself
      | some m => exact ⟨m, rfl⟩
    have hmS := List.max?_eq_some_iff.1 hm
    refine ⟨decide (vals.getD i 0 = m), by rw [hm]; rfl, ?_⟩
    rw [decide_eq_true_eq]
    constructor
    · intro e
      refine ⟨by rw [foldr_add_eq]; exact h1, h2, h3, fun j hj ha hb => ?_⟩
      rw [e]
      exact hmS.2 _ ((hmem _).2 ⟨j, hj, ha, hb, rfl⟩)
    · intro P
      refine le_antisymm (hmS.2 _ hself) ?_
      obtain ⟨j, hj, ha, hb, e⟩ := (hmem m).1 hmS.1
      rw [← e]; exact P.band j hj ha hb
  · rename_i h
    refine ⟨false, rfl, ?_⟩
    simp only [Bool.false_eq_true, false_iff]
    intro P
    refine h ⟨?_, P.left, P.right⟩
    have := P.mean; rw [foldr_add_eq] at this; exact this

/-- **C121.** For increasing non-negative frequencies the report has a page exactly for every peak, in order. -/
theorem report_peaks_partial (vals freq : List ℝ) (nbr : Nat) (hlen : freq.length = vals.length)
    (hs : ∀ j k, j ≤ k → k < freq.length → freq.getD j 0 ≤ freq.getD k 0) (hpos : ∀ i < freq.length, 0 ≤ freq.getD i 0) :
    ∃ l, findPeaks vals freq nbr = some l ∧ l.Pairwise (· < ·) ∧ ∀ i, i ∈ l ↔ i < vals.length ∧ IsPeakAt vals freq nbr i := by
  classical
  have key : ∀ n, n ≤ vals.length → ((List.range n).mapM fun i => (isPeak vals freq nbr i).map fun b => if b then [i] else []) =
      some ((List.range n).map fun i => if IsPeakAt vals freq nbr i then [i] else []) := by
    intro n hn
    induction n with
    | zero => rfl
    | succ n ih =>
      obtain ⟨b, hb, hb'⟩ := isPeak_exact vals freq nbr n hlen (by omega) hs (hpos n (by omega))
      rw [List.range_succ, List.mapM_append, ih (by omega)]
      simp only [List.map_append, List.mapM_cons, List.mapM_nil, hb, Option.map_some, List.map_cons, List.map_nil]
      by_cases h : IsPeakAt vals freq nbr n
      · simp [hb'.2 h, h]
      · have : b = false := by cases b; rfl; exact absurd (hb'.1 rfl) h
        simp [this, h]
  refine ⟨((List.range vals.length).filter fun i => decide (IsPeakAt vals freq nbr i)), ?_, ?_, ?_⟩
  · rw [findPeaks, key _ (le_refl _), Option.map_some]
    congr 1
    induction (List.range vals.length) with
    | nil => rfl
    | cons a l ih =>
      rw [List.map_cons, List.flatten_cons, ih, List.filter_cons]
      by_cases h : IsPeakAt vals freq nbr a <;> simp [h]
  · exact List.Pairwise.filter _ List.pairwise_lt_range
  · intro i; simp [List.mem_filter]

/-- **C121.** The pages of the report: for increasing non-negative frequencies, a page for exactly the peaks of every mode, frequency zero
    left out. -/
theorem report_pages_partial (freq : List ℝ) (eigs : List (List ℝ)) (hlen : ∀ vs ∈ eigs, vs.length = freq.length)
    (hs : ∀ j k, j ≤ k → k < freq.length → freq.getD j 0 ≤ freq.getD k 0) (hpos : ∀ i < freq.length, 0 ≤ freq.getD i 0) :
    ∃ l, reportPages freq eigs = some l ∧
      ∀ m i, (m, i) ∈ l ↔ ∃ vs, eigs[m]? = some vs ∧ i + 1 < vs.length ∧ IsPeakAt vs.tail freq.tail 5 i := by
  have htail : ∀ k, freq.tail.getD k 0 = freq.getD (k + 1) 0 := by
    intro k; cases freq <;> simp
  have h1 : ∀ vs ∈ eigs, ∃ l, findPeaks vs.tail freq.tail 5 = some l ∧ ∀ i, i ∈ l ↔ i + 1 < vs.length ∧ IsPeakAt vs.tail freq.tail 5 i := by
    intro vs hv
    obtain ⟨l, e, -, h⟩ := report_peaks_partial vs.tail freq.tail 5 (by simp [hlen vs hv])
      (by intro j k hjk hk; rw [htail, htail]; exact hs _ _ (by omega) (by simp at hk; omega))
      (by intro i hi; rw [htail]; exact hpos _ (by simp at hi; omega))
    refine ⟨l, e, fun i => ?_⟩
    rw [h, List.length_tail]
    constructor <;> rintro ⟨a, b⟩ <;> exact ⟨by omega, b⟩
  have key : ∀ (es : List (List ℝ)) (n : Nat), (∀ vs ∈ es, vs ∈ eigs) → ∃ L : List (List (Nat × Nat)),
      ((es.zipIdx n).mapM fun (q : List ℝ × Nat) => (findPeaks q.1.tail freq.tail 5).map fun (l : List Nat) => l.map fun i => (q.2, i)) = some L ∧
      ∀ m i, (m, i) ∈ L.flatten ↔ ∃ k vs, m = n + k ∧ es[k]? = some vs ∧ i + 1 < vs.length ∧ IsPeakAt vs.tail freq.tail 5 i := by
    intro es
    induction es with
    | nil => intro n _; exact ⟨[], rfl, by simp⟩
    | cons v es ih =>
      intro n hes
      obtain ⟨L, eL, hL⟩ := ih (n + 1) fun vs hv => hes vs (List.mem_cons_of_mem _ hv)
      obtain ⟨l, e, hl⟩ := h1 v (hes v List.mem_cons_self)
      refine ⟨l.map (fun i => (n, i)) :: L, ?_, ?_⟩
      · rw [List.zipIdx_cons, List.mapM_cons, eL]
        simp [e]
      · intro m i
        rw [List.flatten_cons, List.mem_append, hL, List.mem_map]
        constructor
        · rintro (⟨i', hi', e'⟩ | ⟨k, vs, rfl, a, b, c⟩)
          · cases e'; exact ⟨0, v, rfl, rfl, (hl i).1 hi'⟩
          · exact ⟨k + 1, vs, by omega, by simpa using a, b, c⟩
        · rintro ⟨k, vs, rfl, a, b⟩
          cases k with
          | zero =>
            simp only [List.getElem?_cons_zero, Option.some.injEq] at a
            subst a
            exact Or.inl ⟨i, (hl i).2 b, rfl⟩
          | succ k => exact Or.inr ⟨k, vs, by omega, by simpa using a, b⟩
  obtain ⟨L, eL, hL⟩ := key eigs 0 fun _ h => h
  refine ⟨L.flatten, by rw [reportPages, eL]; rfl, fun m i => ?_⟩
  rw [hL]
  constructor
  · rintro ⟨k, vs, rfl, h⟩; exact ⟨vs, by simpa using h⟩
  · rintro ⟨vs, h⟩; exact ⟨m, vs, by omega, h⟩

/-- **C121, violated for negative frequencies** (complex data): an entry above 1.5 times the local mean and above its neighbours at a negative
    frequency ends the report with an exception, whatever the other frequencies and in whatever order. -/
theorem report_negative_fails (vals freq : List ℝ) (nbr i : Nat) (hi : i < vals.length) (hneg : freq.getD i 0 < 0)
    (hmean : ((List.range vals.length).filter fun j => decide (i ≤ j + nbr ∧ j < i + nbr)).foldr (fun j s => vals.getD j 0 + s) 0 /
      (((List.range vals.length).filter fun j => decide (i ≤ j + nbr ∧ j < i + nbr)).length : ℝ) * (3 / 2) < vals.getD i 0)
    (hl : 0 < i → vals.getD (i - 1) 0 < vals.getD i 0) (hr : i + 1 < vals.length → vals.getD (i + 1) 0 < vals.getD i 0) :
    findPeaks vals freq nbr = none := by
  have hnear : slice vals (i - nbr) (min (i + nbr) vals.length) =
      ((List.range vals.length).filter fun j => decide (i ≤ j + nbr ∧ j < i + nbr)).map fun j => vals.getD j 0 := by
    rw [slice_eq]
    congr 1
    refine List.filter_congr fun j hj => ?_
    have : j < vals.length := by simpa using hj
    have e : (i - nbr ≤ j ∧ j < min (i + nbr) vals.length) ↔ (i ≤ j + nbr ∧ j < i + nbr) := by omega
    simp only [e]
  have hle : searchRight freq (freq.getD i 0 * (11 / 10)) ≤ searchLeft freq (freq.getD i 0 * (90 / 100)) := by
    refine bsearch_mono _ _ (fun k hk => ?_) _ _
    simp only [decide_eq_true_eq] at hk ⊢
    linarith
  have hnone : isPeak vals freq nbr i = none := by
    unfold isPeak
    simp only [hnear, List.length_map]
    rw [foldr_add_eq] at hmean
    rw [if_pos ⟨hmean, hl, hr⟩]
    have : slice vals (searchLeft freq (freq.getD i 0 * (90 / 100)))
        (min (searchRight freq (freq.getD i 0 * (11 / 10))) vals.length) = [] := by
      rw [slice, List.drop_eq_nil_iff, List.length_take]; omega
    rw [this]; rfl
  unfold findPeaks
  suffices h : ((List.range vals.length).mapM fun i => (isPeak vals freq nbr i).map fun b => if b then [i] else []) = none by rw [h]; rfl
  have hmem : i ∈ List.range vals.length := List.mem_range.2 hi
  generalize List.range vals.length = L at hmem
  induction L with
  | nil => cases hmem
  | cons a l ih =>
    rw [List.mapM_cons]
    by_cases ha : a = i
    · subst ha; rw [hnone]; rfl
    · have := ih (by simpa [Ne.symm ha] using hmem)
      rw [this]
      cases (isPeak vals freq nbr a).map fun b => if b then [a] else [] <;> rfl

/-- the hypotheses of `report_peaks_partial` are met with a peak -/
example : ∃ l, findPeaks [1, 9, 1] [1, 2, 3] 5 = some l ∧ l.Pairwise (· < ·) ∧
    ∀ i, i ∈ l ↔ i < ([1, 9, 1] : List ℝ).length ∧ IsPeakAt [1, 9, 1] [1, 2, 3] 5 i := by
  refine report_peaks_partial [1, 9, 1] [1, 2, 3] 5 rfl ?_ ?_
  · intro j k hjk hk
    have h : k = 0 ∨ k = 1 ∨ k = 2 := by simp at hk; omega
    have h' : j = 0 ∨ j = 1 ∨ j = 2 := by simp at hk; omega
    rcases h with rfl | rfl | rfl <;> rcases h' with rfl | rfl | rfl <;> first | omega | norm_num [List.getD]
  · intro i hi
    have h : i = 0 ∨ i = 1 ∨ i = 2 := by simp at hi; omega
    rcases h with rfl | rfl | rfl <;> norm_num [List.getD]

example : IsPeakAt [1, 9, 1] [1, 2, 3] 5 1 where
  mean := by
    have h : ((List.range ([1, 9, 1] : List ℝ).length).filter fun j => decide (1 ≤ j + 5 ∧ j < 1 + 5)) = [0, 1, 2] := by
      show ((List.range 3).filter fun j => decide (1 ≤ j + 5 ∧ j < 1 + 5)) = [0, 1, 2]
      decide
    rw [h]; norm_num [List.getD]
  left := by norm_num [List.getD]
  right := by norm_num [List.getD]
  band := by
    intro j hj h1 h2
    have h : j = 0 ∨ j = 1 ∨ j = 2 := by simp at hj; omega
    rcases h with rfl | rfl | rfl <;> norm_num [List.getD]

/-- the hypotheses of `report_negative_fails` are met: frequencies of complex data, a peak at frequency -2 -/
example : findPeaks [1, 1, 9, 1] [1, 2, -2, -1] 5 = none := by
  have h : ((List.range ([1, 1, 9, 1] : List ℝ).length).filter fun j => decide (2 ≤ j + 5 ∧ j < 2 + 5)) = [0, 1, 2, 3] := by
    show ((List.range 4).filter fun j => decide (2 ≤ j + 5 ∧ j < 2 + 5)) = [0, 1, 2, 3]
    decide
  refine report_negative_fails _ _ 5 2 (by norm_num) (by norm_num [List.getD]) ?_ (by norm_num [List.getD]) (by norm_num [List.getD])
  rw [h]; norm_num [List.getD]

end Verif.Props
