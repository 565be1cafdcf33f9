import Verif.Model.Coeffs
import Verif.Props.Freq
import Mathlib.Data.List.GetD
import Mathlib.Tactic.Linarith
import Mathlib.Tactic.NormNum
/-
  C46, C60, C61: nearest frequency, band selection, nearest coordinates.
-/
set_option linter.unusedSectionVars false
set_option linter.unusedVariables false
namespace Verif.Props
open Verif Verif.Coef Verif.Spod

/-! ### Specification -/

/-- `i` is the first position at which `g` is smallest among the positions below `n`. -/
def FirstMin {K} [LE K] [LT K] (g : Nat → K) (n i : Nat) : Prop :=
  i < n ∧ (∀ j, j < n → g i ≤ g j) ∧ ∀ j, j < i → g i < g j

theorem FirstMin.unique {K} [LinearOrder K] {g : Nat → K} {n i j : Nat} (h : FirstMin g n i) (h' : FirstMin g n j) :
    i = j := by
  rcases lt_trichotomy i j with hlt | rfl | hlt
  · exact absurd (h'.2.2 i hlt) (not_lt.2 (h.2.1 j h'.1))
  · rfl
  · exact absurd (h.2.2 j hlt) (not_lt.2 (h'.2.1 i h.1))

/-! ### argmin -/

theorem argminGo_spec {K} [LinearOrder K] (g : Nat → K) (b i : Nat) (xs : List K)
    (hx : ∀ j, j < xs.length → xs[j]? = some (g (i + j))) (hb : b < i)
    (h1 : ∀ j, j < i → g b ≤ g j) (h2 : ∀ j, j < b → g b < g j) :
    FirstMin g (i + xs.length) (argminGo b (g b) i xs) := by
  induction xs generalizing b i with
  | nil => exact ⟨by simpa [argminGo] using hb, by simpa [argminGo] using h1, by simpa [argminGo] using h2⟩
  | cons a xs ih =>
    have ha : a = g i := by have := hx 0 (by simp); simpa using this
    have hx' : ∀ j, j < xs.length → xs[j]? = some (g (i + 1 + j)) := by
      intro j hj
      have := hx (j + 1) (by simp; omega)
      rw [show i + (j + 1) = i + 1 + j by omega] at this
      simpa using this
    rw [List.length_cons, show i + (xs.length + 1) = i + 1 + xs.length by omega]
    simp only [argminGo, ha]
    split
    · rename_i hlt
      refine ih i (i + 1) hx' (by omega) ?_ ?_
      · intro j hj
        rcases Nat.lt_succ_iff_lt_or_eq.1 hj with h | rfl
        · exact hlt.le.trans (h1 j h)
        · exact le_rfl
      · intro j hj; exact lt_of_lt_of_le hlt (h1 j hj)
    · rename_i hge
      refine ih b (i + 1) hx' (by omega) ?_ h2
      intro j hj
      rcases Nat.lt_succ_iff_lt_or_eq.1 hj with h | rfl
      · exact h1 j h
      · exact not_lt.1 hge

theorem argmin_spec {K} [LinearOrder K] (g : Nat → K) (n : Nat) (hn : 0 < n) :
    ∃ i, argmin ((List.range n).map g) = some i ∧ FirstMin g n i := by
  obtain ⟨m, rfl⟩ : ∃ m, n = m + 1 := ⟨n - 1, by omega⟩
  rw [List.range_succ_eq_map, List.map_cons]
  refine ⟨_, rfl, ?_⟩
  have := argminGo_spec g 0 1 (List.map g (List.map Nat.succ (List.range m))) (by
      intro j hj
      simp at hj
      simp [hj, Nat.add_comm]) (by omega) (by intro j hj; rw [show j = 0 by omega]) (by intro j hj; omega)
  simpa [Nat.add_comm] using this

section
variable {K : Type} [Field K] [LinearOrder K] [IsStrictOrderedRing K]

theorem list_eq_range_map (l : List K) : l = (List.range l.length).map fun (i : Nat) => l.getD i 0 := by
  refine List.ext_getElem (by simp) ?_
  intro i h1 h2
  simp [List.getElem?_eq_getElem h1]

/-- **C60.**  `find_nearest_freq` returns the entry closest to the request, the earliest one on ties, with its
    index; it fails exactly on an empty list. -/
theorem nearest_freq (req : K) (freq : List K) (h : freq ≠ []) :
    ∃ i, findNearestFreq req freq = some (freq.getD i 0, i) ∧
      FirstMin (fun j => |freq.getD j 0 - req|) freq.length i := by
  have hpos : 0 < freq.length := List.length_pos_iff.2 h
  obtain ⟨i, hi, hm⟩ := argmin_spec (fun j => |freq.getD j 0 - req|) freq.length hpos
  refine ⟨i, ?_, hm⟩
  have e : freq.map (fun f => |f - req|) = (List.range freq.length).map fun j => |freq.getD j 0 - req| := by
    conv_lhs => rw [list_eq_range_map freq]
    rw [List.map_map]; rfl
  unfold findNearestFreq
  rw [e, hi]
  simp [List.getElem?_eq_getElem hm.1]

theorem nearest_freq_empty (req : K) : findNearestFreq req ([] : List K) = none := rfl

example : findNearestFreq (3 / 10 : ℚ) [0, 1 / 4, 1 / 2] = some (1 / 4, 1) := by
  norm_num [findNearestFreq, argmin, argminGo, abs_div, abs_of_nonneg, abs_of_neg]

/-- Frequency axes as the code builds them: the first entry is 0 and an entry is below an earlier one only if
    it is negative (two-sided axes list the negative frequencies last). -/
def AxisLike (freq : List K) : Prop :=
  freq ≠ [] ∧ freq.getD 0 0 = 0 ∧
    ∀ i j, i < j → j < freq.length → freq.getD i 0 ≤ freq.getD j 0 ∨ freq.getD j 0 < 0

theorem nearest_mono_aux {freq : List K} (ha : AxisLike freq) {r r' : K} (h0 : 0 ≤ r) (hr : r ≤ r') {i i' : Nat}
    (hi : FirstMin (fun j => |freq.getD j 0 - r|) freq.length i)
    (hi' : FirstMin (fun j => |freq.getD j 0 - r'|) freq.length i') : i ≤ i' := by
  by_contra hlt
  have hlt : i' < i := by omega
  have a1 := hi.2.2 i' hlt
  have a2 := hi'.2.1 i hi.1
  have a3 := hi.2.1 0 (List.length_pos_iff.2 ha.1)
  simp only [] at a1 a2 a3
  rw [ha.2.1] at a3
  set f := freq.getD i 0
  set f' := freq.getD i' 0
  have hf0 : 0 ≤ f := by
    by_contra hneg
    have hneg : f < 0 := not_le.1 hneg
    rw [abs_of_neg (by linarith), zero_sub, abs_neg, abs_of_nonneg h0] at a3
    linarith
  have hff : f' ≤ f := by
    rcases ha.2.2 i' i hlt hi.1 with h | h
    · exact h
    · exact absurd h (not_lt.2 hf0)
  -- r is beyond the midpoint, r' is not
  have m1 : f + f' < 2 * r := by
    by_contra hc
    have hc : 2 * r ≤ f + f' := not_lt.1 hc
    rw [abs_of_nonneg (show 0 ≤ f - r by linarith)] at a1
    rcases abs_cases (f' - r) with ⟨e, _⟩ | ⟨e, _⟩ <;> rw [e] at a1 <;> linarith
  have m2 : 2 * r' ≤ f + f' ∨ f = f' := by
    by_contra hc
    push Not at hc
    have hlt' : f' < f := lt_of_le_of_ne hff (Ne.symm hc.2)
    rw [show |f' - r'| = r' - f' by rw [abs_of_neg (by linarith)]; ring] at a2
    rcases abs_cases (f - r') with ⟨e, _⟩ | ⟨e, _⟩ <;> rw [e] at a2 <;> linarith
  rcases m2 with m2 | m2
  · linarith
  · rw [m2] at a1; exact lt_irrefl _ a1

/-- **C60 (monotone).**  On a frequency axis a larger non-negative request never gives a smaller index. -/
theorem nearest_freq_mono {freq : List K} (ha : AxisLike freq) {r r' f f' : K} {i i' : Nat} (h0 : 0 ≤ r)
    (hr : r ≤ r') (h : findNearestFreq r freq = some (f, i)) (h' : findNearestFreq r' freq = some (f', i')) :
    i ≤ i' := by
  obtain ⟨j, hj, hm⟩ := nearest_freq r freq ha.1
  obtain ⟨j', hj', hm'⟩ := nearest_freq r' freq ha.1
  rw [h, Option.some.injEq, Prod.mk.injEq] at hj
  rw [h', Option.some.injEq, Prod.mk.injEq] at hj'
  rw [hj.2, hj'.2]
  exact nearest_mono_aux ha h0 hr hm hm'

/-- On any sorted list, also for negative requests. -/
theorem nearest_freq_mono_sorted {freq : List K} (hs : freq.Pairwise (· ≤ ·)) {r r' f f' : K} {i i' : Nat}
    (hr : r ≤ r') (h : findNearestFreq r freq = some (f, i)) (h' : findNearestFreq r' freq = some (f', i')) :
    i ≤ i' := by
  have hne : freq ≠ [] := by rintro rfl; simp [nearest_freq_empty] at h
  obtain ⟨j, hj, hi⟩ := nearest_freq r freq hne
  obtain ⟨j', hj', hi'⟩ := nearest_freq r' freq hne
  rw [h, Option.some.injEq, Prod.mk.injEq] at hj
  rw [h', Option.some.injEq, Prod.mk.injEq] at hj'
  rw [hj.2, hj'.2]
  by_contra hlt
  have hlt : j' < j := by omega
  have a1 := hi.2.2 j' hlt
  have a2 := hi'.2.1 j hi.1
  simp only [] at a1 a2
  have hff : freq.getD j' 0 ≤ freq.getD j 0 := by
    rw [List.getD_eq_getElem _ _ hi'.1, List.getD_eq_getElem _ _ hi.1]
    exact List.pairwise_iff_getElem.1 hs j' j _ _ hlt
  set f := freq.getD j 0
  set f' := freq.getD j' 0
  have m1 : f + f' < 2 * r := by
    by_contra hc
    have hc : 2 * r ≤ f + f' := not_lt.1 hc
    rw [abs_of_nonneg (show 0 ≤ f - r by linarith)] at a1
    rcases abs_cases (f' - r) with ⟨e, _⟩ | ⟨e, _⟩ <;> rw [e] at a1 <;> linarith
  have m2 : 2 * r' ≤ f + f' ∨ f = f' := by
    by_contra hc
    push Not at hc
    have hlt' : f' < f := lt_of_le_of_ne hff (Ne.symm hc.2)
    rw [show |f' - r'| = r' - f' by rw [abs_of_neg (by linarith)]; ring] at a2
    rcases abs_cases (f - r') with ⟨e, _⟩ | ⟨e, _⟩ <;> rw [e] at a2 <;> linarith
  rcases m2 with m2 | m2
  · linarith
  · rw [m2] at a1; exact lt_irrefl _ a1

/-! ### The axes built by the code -/

theorem axisLike_of_entries {freq : List K} (n c : Nat) (dt : K) (hdt : 0 < dt) (hn : 0 < n) (hc : 0 < c)
    (hlen : freq.length ≤ n) (hne : 0 < freq.length)
    (h : ∀ k : Nat, k < freq.length → freq[k]? = some (if k < c then (k : K) / (n * dt) else (k : K) / (n * dt) - 1 / dt)) :
    AxisLike freq := by
  have hn' : (0 : K) < n := by exact_mod_cast hn
  have hg : ∀ k : Nat, k < freq.length → freq.getD k 0 = if k < c then (k : K) / (n * dt) else (k : K) / (n * dt) - 1 / dt := by
    intro k hk
    rw [List.getD_eq_getElem?_getD, h k hk]; rfl
  refine ⟨List.length_pos_iff.1 hne, ?_, ?_⟩
  · rw [hg 0 hne]; simp [hc]
  · intro i j hij hj
    rw [hg i (by omega), hg j hj]
    by_cases hjc : j < c
    · left
      rw [if_pos hjc, if_pos (by omega)]
      have : (i : K) ≤ j := by exact_mod_cast hij.le
      exact div_le_div_of_nonneg_right this (by positivity)
    · right
      rw [if_neg hjc]
      have : (j : K) < n := by exact_mod_cast (by omega : j < n)
      rw [sub_neg, div_lt_div_iff₀ (by positivity) hdt]
      have := mul_lt_mul_of_pos_right this hdt
      linarith

theorem freqAxis_axisLike (n : Nat) (hn : 0 < n) (dt : K) (hdt : 0 < dt) (isreal full : Bool) :
    AxisLike (freqAxis n dt isreal full) := by
  cases full with
  | true =>
    obtain ⟨h1, h2⟩ := freq_axis_full n dt isreal
    exact axisLike_of_entries n n dt hdt hn hn h1.le (by omega)
      (fun k hk => by rw [h2 k (by omega), if_pos (by omega)])
  | false =>
    cases isreal with
    | true =>
      obtain ⟨h1, _, h2, _, _⟩ := freq_axis_real n hn dt hdt
      exact axisLike_of_entries n (n + 1) dt hdt hn (by omega) (by omega) (by omega)
        (fun k hk => by rw [h2 k (by omega), if_pos (by omega)])
    | false =>
      have h1 := (freq_axis_complex_partial n hn dt hdt).1
      exact axisLike_of_entries n ((n + 1) / 2 + 1) dt hdt hn (by omega) h1.le (by omega)
        (fun k hk => freq_axis_complex_entry n dt k (by omega))

/-- **C46.**  For every axis the code builds (real or complex data, one- or two-sided) and every
    `0 < T_lb ≤ T_ub`, the selection is the non-empty contiguous range of indices from the frequency nearest to
    `1/T_ub` to the one nearest to `1/T_lb`. -/
theorem band_selection (n : Nat) (hn : 0 < n) (dt : K) (hdt : 0 < dt) (isreal full : Bool) (tl tu : K)
    (h0 : 0 < tl) (hle : tl ≤ tu) :
    ∃ lb ub, selectBand (freqAxis n dt isreal full) (some tl) (some tu) none =
        .ok ⟨lb, ub, ((ub + 1 - lb : Nat) : Int), List.range' lb (ub + 1 - lb)⟩ ∧
      lb ≤ ub ∧
      FirstMin (fun j => |(freqAxis n dt isreal full).getD j 0 - 1 / tu|) (freqAxis n dt isreal full).length lb ∧
      FirstMin (fun j => |(freqAxis n dt isreal full).getD j 0 - 1 / tl|) (freqAxis n dt isreal full).length ub := by
  set freq := freqAxis n dt isreal full
  have ha : AxisLike freq := freqAxis_axisLike n hn dt hdt isreal full
  have htu : 0 < tu := lt_of_lt_of_le h0 hle
  obtain ⟨lb, h1, m1⟩ := nearest_freq (1 / tu) freq ha.1
  obtain ⟨ub, h2, m2⟩ := nearest_freq (1 / tl) freq ha.1
  have hmono : lb ≤ ub := nearest_mono_aux ha (by positivity) (one_div_le_one_div_of_le h0 hle) m1 m2
  refine ⟨lb, ub, ?_, hmono, m1, m2⟩
  unfold selectBand
  simp only [reduceCtorEq, or_self, false_and, if_false, htu.ne', h0.ne', h1, h2, Option.getD_none, arange]
  congr 2
  omega

example : selectBand (freqAxis 8 (1 : ℚ) true false) (some 3) (some 9) none = .ok ⟨1, 3, 3, [1, 2, 3]⟩ := by
  decide +kernel

/-- **C46 (default).**  With neither bound given all frequencies are used. -/
theorem band_default (freq : List K) (h : freq ≠ []) :
    selectBand freq none none none =
      .ok ⟨0, freq.length - 1, (freq.length : Int), List.range freq.length⟩ := by
  have hpos : 0 < freq.length := List.length_pos_iff.2 h
  unfold selectBand
  simp only [or_self, and_self, if_true, hpos.ne', if_false, Option.getD_none, arange]
  rw [List.range_eq_range']
  congr 2 <;> [omega; (congr 1; omega)]

/-- One bound alone is silently ignored: same result as with none. -/
theorem band_one_bound_ignored (freq : List K) (t : K) :
    selectBand freq (some t) none none = selectBand freq none none none ∧
    selectBand freq none (some t) none = selectBand freq none none none := by
  simp [selectBand]

/-- **C72 fails**: a list of frequency indices given alone (no periods) is always an error. -/
theorem freq_idx_alone_fails (freq : List K) (l : List Nat) :
    selectBand freq none none (some l) = .error "TypeError" := by
  simp [selectBand]

/-- With both periods the requested list is used, but the number of columns stays that of the band. -/
theorem freq_idx_with_band_partial (freq : List K) (tl tu : K) (l : List Nat) (b : Band)
    (h : selectBand freq (some tl) (some tu) (some l) = .ok b) :
    b.freqIdx = l ∧ b.nFreqR = (b.ub : Int) - b.lb + 1 := by
  unfold selectBand at h
  simp only [reduceCtorEq, or_self, false_and, if_false, Option.getD_some] at h
  split at h
  · simp at h
  · split at h
    · simp only [Except.ok.injEq] at h; subst h; exact ⟨rfl, rfl⟩
    · simp at h

/-! ### C61: nearest coordinates -/

/-- the index with every component but `i` set to zero -/
def onlyAxis (i : Nat) (idx : List Nat) : List Nat := idx.mapIdx fun j v => if j = i then v else 0

theorem inRange_onlyAxis {sh idx : List Nat} (h : InRange sh idx) (i : Nat) : InRange sh (onlyAxis i idx) := by
  rw [inRange_iff] at h ⊢
  refine ⟨by simp [onlyAxis, h.1], ?_⟩
  intro ax hax
  have := h.2 ax hax
  simp only [onlyAxis, List.getD_eq_getElem?_getD, List.getElem?_mapIdx] at this ⊢
  rw [List.getElem?_eq_getElem (by omega)] at this ⊢
  simp only [Option.map_some, Option.getD_some] at this ⊢
  split <;> omega

theorem ravel_onlyAxis_le (sh idx : List Nat) (f : Nat → Nat → Nat) (hf : ∀ j v, f j v ≤ v) :
    ravel sh (idx.mapIdx f) ≤ ravel sh idx := by
  induction sh generalizing idx f with
  | nil => simp [ravel]
  | cons n ns ih =>
    cases idx with
    | nil => simp [ravel]
    | cons v vs =>
      rw [List.mapIdx_cons]
      simp only [ravel]
      have h1 := Nat.mul_le_mul_right (Verif.size ns) (hf 0 v)
      have h2 := ih vs (fun i => f (i + 1)) (fun j v => hf (j + 1) v)
      omega

/-- **C61 (what the code does).**  For every grid and every request along axis `i`: the value returned is the
    nearest grid value of that axis (first on ties); the index returned is that of the value only when `i` is
    the middle axis (`ndim - 1 - i = i`, e.g. in one dimension), and 0 otherwise. -/
theorem nearest_coords_exact (x : List (List K)) (i : Nat) (hi : i < x.length) (hne : ∀ l ∈ x, l ≠ []) (c : K) :
    ∃ k, FirstMin (fun j => |(x.getD i []).getD j 0 - c|) (x.getD i []).length k ∧
      nearestCoord x i c = some ((x.getD i []).getD k 0, if x.length - 1 - i = i then k else 0) := by
  set sh := x.map List.length with hsh
  have hlen : sh.length = x.length := by simp [hsh]
  have hext : ∀ j, j < x.length → sh.getD j 0 = (x.getD j []).length := by
    intro j hj
    rw [List.getD_eq_getElem _ _ (by omega), List.getD_eq_getElem _ _ hj]; simp [hsh]
  have hpos : 0 < Verif.size sh := by
    refine size_pos_of_inRange (sh := sh) (idx := List.replicate x.length 0) ?_
    rw [inRange_iff]
    refine ⟨by simp [hlen], ?_⟩
    intro ax hax
    have hax' : ax < x.length := by omega
    rw [List.getD_eq_getElem _ _ (by simpa using hax'), List.getElem_replicate]
    have h2 := hext ax hax'
    have h3 : 0 < (x.getD ax []).length := by
      rw [List.getD_eq_getElem _ _ hax']
      exact List.length_pos_iff.2 (hne _ (List.getElem_mem _))
    rw [ext, h2]; exact h3
  obtain ⟨p, hp, hm⟩ := argmin_spec (fun p => |(x.getD i []).getD ((unravel sh p).getD i 0) 0 - c|)
    (Verif.size sh) hpos
  have hr : InRange sh (unravel sh p) := inRange_unravel hm.1
  have hr' := inRange_onlyAxis hr i
  have hul : (unravel sh p).length = x.length := by rw [hr.length, hlen]
  have hget : ∀ j, j < x.length → (onlyAxis i (unravel sh p)).getD j 0 = if j = i then (unravel sh p).getD j 0 else 0 := by
    intro j hj
    simp only [onlyAxis, List.getD_eq_getElem?_getD, List.getElem?_mapIdx]
    rw [List.getElem?_eq_getElem (by omega)]
    simp
  have heq : onlyAxis i (unravel sh p) = unravel sh p := by
    have hle := ravel_onlyAxis_le sh (unravel sh p) (fun j v => if j = i then v else 0)
      (fun j v => by split <;> omega)
    rw [ravel_unravel hm.1] at hle
    have hp' := ravel_lt hr'
    rcases Nat.lt_or_ge (ravel sh (onlyAxis i (unravel sh p))) p with hlt | hge
    · have := hm.2.2 _ hlt
      simp only [] at this
      rw [unravel_ravel hr', hget i hi, if_pos rfl] at this
      exact absurd this (lt_irrefl _)
    · apply ravel_inj hr' hr
      rw [ravel_unravel hm.1]
      exact le_antisymm hle hge
  refine ⟨(unravel sh p).getD i 0, ⟨?_, ?_, ?_⟩, ?_⟩
  · rw [← hext i hi]
    exact hr.getD_lt i (by omega)
  · intro j hj
    have hset : InRange sh ((unravel sh p).set i j) := by
      have := hr.set i (ext sh i) j (by rw [ext, hext i hi]; exact hj)
      have e : sh.set i (ext sh i) = sh := by
        rw [ext, List.getD_eq_getElem _ _ (by omega)]; exact List.set_getElem_self _
      rwa [e] at this
    have := hm.2.1 _ (ravel_lt hset)
    simp only [] at this ⊢
    rw [unravel_ravel hset] at this
    have e : ((unravel sh p).set i j).getD i 0 = j := by
      rw [List.getD_eq_getElem _ _ (by simp; omega)]; simp
    rwa [e] at this
  · intro j hj
    have hjlt : j < (x.getD i []).length := by
      have h1 := hr.getD_lt i (by omega)
      rw [ext, hext i hi] at h1
      omega
    have hset : InRange sh ((unravel sh p).set i j) := by
      have := hr.set i (ext sh i) j (by rw [ext, hext i hi]; exact hjlt)
      have e : sh.set i (ext sh i) = sh := by
        rw [ext, List.getD_eq_getElem _ _ (by omega)]; exact List.set_getElem_self _
      rwa [e] at this
    have e : ((unravel sh p).set i j).getD i 0 = j := by
      rw [List.getD_eq_getElem _ _ (by simp; omega)]; simp
    have hlt : ravel sh ((unravel sh p).set i j) < p := by
      have hle : ravel sh ((unravel sh p).set i j) ≤ ravel sh (unravel sh p) := by
        have hs : (unravel sh p).set i j = (unravel sh p).mapIdx (fun a v => if a = i then min j v else v) := by
          refine List.ext_getElem (by simp) ?_
          intro a h1 h2
          simp only [List.getElem_set, List.getElem_mapIdx]
          by_cases hai : i = a
          · subst hai
            simp only [if_true]
            rw [List.getD_eq_getElem _ _ (by omega)] at hj
            omega
          · rw [if_neg hai, if_neg (fun h => hai h.symm)]
        rw [hs]
        exact ravel_onlyAxis_le sh _ _ (fun a v => by split <;> omega)
      rw [ravel_unravel hm.1] at hle
      refine lt_of_le_of_ne hle ?_
      intro hc
      have : (unravel sh p).set i j = unravel sh p := by
        rw [← unravel_ravel hset, hc]
      rw [this] at e
      omega
    have := hm.2.2 _ hlt
    simp only [] at this ⊢
    rw [unravel_ravel hset, e] at this
    exact this
  · unfold nearestCoord meshDist
    rw [← hsh, hp]
    simp only [Option.some.injEq, Prod.mk.injEq, true_and]
    have hcnt : x.length - i - 1 = x.length - 1 - i := by omega
    rw [hcnt]
    by_cases hmid : x.length - 1 - i = i
    · rw [hmid]; simp
    · rw [if_neg hmid, ← heq, hget _ (by omega), if_neg hmid]

/-- **C61, the part that holds**: in one dimension value and index are those of the nearest grid value. -/
theorem nearest_coords_partial (l : List K) (hl : l ≠ []) (c : K) :
    ∃ k, FirstMin (fun j => |l.getD j 0 - c|) l.length k ∧ nearestCoord [l] 0 c = some (l.getD k 0, k) := by
  simpa using nearest_coords_exact [l] 0 (by simp) (by simpa using hl) c

end

/-- **C61 fails** in two dimensions: the point (1, 5) of the grid {0,1} × {4,5} is found, but its index is
    reported as (0, 0). -/
theorem nearest_coords_fails :
    nearestCoord [[(0 : ℚ), 1], [4, 5]] 0 1 = some (1, 0) ∧ nearestCoord [[(0 : ℚ), 1], [4, 5]] 1 5 = some (5, 0) := by
  decide +kernel

end Verif.Props
