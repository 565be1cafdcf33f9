import Verif.Model.IntData
import Verif.Props.Double
import Verif.Props.PodRounding
/-
  C253: data with integer values give the same means and correlation matrices, bit for bit, on any number of ranks and in any order of the additions.
-/
namespace Verif.Props
open Verif Verif.Par Verif.Dbl Verif.Round Verif.Proj Finset

/-- an integer -/
def IsInt (x : ℝ) : Prop := ∃ m : ℤ, x = m

theorem IsInt.add {x y : ℝ} (hx : IsInt x) (hy : IsInt y) : IsInt (x + y) := by
  obtain ⟨a, rfl⟩ := hx; obtain ⟨b, rfl⟩ := hy; exact ⟨a + b, by push_cast; rfl⟩
theorem IsInt.sub {x y : ℝ} (hx : IsInt x) (hy : IsInt y) : IsInt (x - y) := by
  obtain ⟨a, rfl⟩ := hx; obtain ⟨b, rfl⟩ := hy; exact ⟨a - b, by push_cast; rfl⟩
theorem IsInt.mul {x y : ℝ} (hx : IsInt x) (hy : IsInt y) : IsInt (x * y) := by
  obtain ⟨a, rfl⟩ := hx; obtain ⟨b, rfl⟩ := hy; exact ⟨a * b, by push_cast; rfl⟩

theorem isInt_sum (l : List ℝ) (h : ∀ x ∈ l, IsInt x) : IsInt l.sum := by
  induction l with
  | nil => exact ⟨0, by simp⟩
  | cons a l ih =>
    rw [List.sum_cons]
    exact (h a (by simp)).add (ih fun x hx => h x (by simp [hx]))

theorem fl_int {fl : ℝ → ℝ} (h : IsDouble fl) (x : ℝ) (hx : IsInt x) (hb : |x| ≤ 2 ^ 53) : fl x = x := by
  obtain ⟨m, rfl⟩ := hx
  refine fl_nat h m ?_
  have : ((|m| : ℤ) : ℝ) ≤ ((2 ^ 53 : ℤ) : ℝ) := by rw [Int.cast_abs]; exact hb.trans (by norm_num)
  exact_mod_cast this

theorem abs_list_sum_le (l : List ℝ) : |l.sum| ≤ (l.map fun x => |x|).sum := by
  induction l with
  | nil => simp
  | cons a l ih =>
    rw [List.sum_cons, List.map_cons, List.sum_cons]
    exact (abs_add_le _ _).trans (by linarith)

theorem tree_int {fl : ℝ → ℝ} (h : IsDouble fl) (t : RTree ℝ) (hi : ∀ x ∈ t.leaves, IsInt x) (hb : (t.leaves.map fun x => |x|).sum ≤ 2 ^ 53) : dblTree fl t = t.leaves.sum := by
  induction t with
  | rank d => simp [dblTree, RTree.leaves]
  | node l r ih1 ih2 =>
    simp only [RTree.leaves, List.mem_append, List.map_append, List.sum_append] at hi hb ⊢
    have h0 : ∀ l : List ℝ, 0 ≤ (l.map fun x => |x|).sum := fun l => by
      refine List.sum_nonneg fun x hx => ?_
      obtain ⟨y, -, rfl⟩ := List.mem_map.1 hx
      exact abs_nonneg _
    have a1 := h0 l.leaves
    have a2 := h0 r.leaves
    rw [dblTree, ih1 (fun x hx => hi x (Or.inl hx)) (by linarith), ih2 (fun x hx => hi x (Or.inr hx)) (by linarith)]
    refine fl_int h _ ((isInt_sum _ fun x hx => hi x (Or.inl hx)).add (isInt_sum _ fun x hx => hi x (Or.inr hx))) ?_
    have b1 := abs_list_sum_le l.leaves
    have b2 := abs_list_sum_le r.leaves
    have := abs_add_le l.leaves.sum r.leaves.sum
    linarith

theorem dblSum_int {fl : ℝ → ℝ} (h : IsDouble fl) (l : List ℝ) (hi : ∀ x ∈ l, IsInt x) (hb : (l.map fun x => |x|).sum ≤ 2 ^ 53) (z : ℝ) (hz : DblSum fl l z) : z = l.sum := by
  rcases hz with ⟨rfl, rfl⟩ | ⟨t, ht, rfl⟩
  · simp
  · rw [tree_int h t (fun x hx => hi x (ht.mem_iff.1 hx)) (by rw [(ht.map fun x => |x|).sum_eq]; exact hb), ht.sum_eq]

theorem dblSum_exists (fl : ℝ → ℝ) (l : List ℝ) : ∃ z, DblSum fl l z := by
  induction l with
  | nil => exact ⟨0, Or.inl ⟨rfl, rfl⟩⟩
  | cons a l ih =>
    obtain ⟨z, ⟨rfl, -⟩ | ⟨t, ht, -⟩⟩ := ih
    · exact ⟨_, Or.inr ⟨.rank a, by simp [RTree.leaves], rfl⟩⟩
    · exact ⟨_, Or.inr ⟨.node (.rank a) t, by simpa [RTree.leaves] using ht, rfl⟩⟩

theorem abs_sum_card (l : List ℝ) (Y : ℝ) (h : ∀ a ∈ l, |a| ≤ Y) : (l.map fun x => |x|).sum ≤ l.length * Y := by
  have := List.sum_le_card_nsmul (l.map fun x => |x|) Y (by
    intro x hx
    obtain ⟨y, hy, rfl⟩ := List.mem_map.1 hx
    exact h y hy)
  rwa [List.length_map, nsmul_eq_mul] at this

/-- **C253.** The long-time mean of integers `vals` of magnitude at most `X`, with the number of snapshots times `X` at most `2^53`: the additions are exact in any order, so that there is
    only one possible result, the exact mean rounded once. -/
theorem mean_reproducible {fl : ℝ → ℝ} (h : IsDouble fl) (vals : List ℝ) (hi : ∀ x ∈ vals, IsInt x) (X : ℝ) (hX : ∀ x ∈ vals, |x| ≤ X) (hb : vals.length * X ≤ 2 ^ 53) (z : ℝ) :
    DblMean fl vals z ↔ z = fl (vals.sum / vals.length) := by
  have key := dblSum_int h vals hi ((abs_sum_card vals X hX).trans hb)
  constructor
  · rintro ⟨s, hs, rfl⟩
    rw [key s hs]
  · rintro rfl
    obtain ⟨s, hs⟩ := dblSum_exists fl vals
    exact ⟨s, hs, by rw [key s hs]⟩

/-- absolute values of an array -/
def absArr (a : Arr ℝ) : Arr ℝ := ⟨a.shape, fun idx => |a.at' idx|⟩

theorem absArr_slab (a : Arr ℝ) (ax : Nat) (comm : Comm) : distributeDimension (absArr a) ax comm = absArr (distributeDimension a ax comm) := by
  cases comm <;> rfl

theorem inRange_slab (a : Arr ℝ) (ax : Nat) (hax : ax < a.shape.length) (comm : Comm) (P : ℝ → Prop) (ha : ∀ idx, InRange a.shape idx → P (a.at' idx)) (idx : List Nat)
    (hi : InRange (distributeDimension a ax comm).shape idx) : P ((distributeDimension a ax comm).at' idx) := by
  classical
  by_contra hP
  have := slab_nonneg ⟨a.shape, fun idx => if P (a.at' idx) then 0 else -1⟩ (fun idx h => by simp [ha idx h]) ax hax comm idx (by cases comm <;> exact hi)
  have e : (distributeDimension (⟨a.shape, fun idx => if P (a.at' idx) then 0 else -1⟩ : Arr ℝ) ax comm).at' idx = if P ((distributeDimension a ax comm).at' idx) then 0 else -1 := by
    cases comm <;> rfl
  rw [e, if_neg hP] at this
  linarith

/-- the correlation of two arrays of fluctuations: the sum over all points -/
noncomputable def corrSum (d : Nat → Arr ℝ) (w : Arr ℝ) (i j : Nat) : ℝ := ∑ k ∈ range (size w.shape), (d i).at' (unravel w.shape k) * ((d j).at' (unravel w.shape k) * w.at' (unravel w.shape k))

theorem corrSum_gram (d : Nat → Arr ℝ) (w : Arr ℝ) (i j : Nat) : corrSum d w i j = localGram d w 1 i j := by
  simp [corrSum, localGram]

/-- **C253.** The correlation matrix of a POD fit of fluctuations `d` with integer values of magnitude at most `X` and integer weights of magnitude at most `Wt`, with the number of points
    times `X² Wt` at most `2^53`: on one process and on `p` ranks, in any order of the additions, there is only one possible result, the exact one. -/
theorem corr_reproducible {fl : ℝ → ℝ} (h : IsDouble fl) (comms : List Comm) (hc : Procs comms) (ax : Nat) (d : Nat → Arr ℝ) (w : Arr ℝ) (hax : ax < w.shape.length)
    (hs : ∀ b, (d b).shape = w.shape) (i j : Nat) (X Wt : ℝ) (hX0 : 1 ≤ X) (hWt0 : 0 ≤ Wt)
    (hd : ∀ b, b = i ∨ b = j → ∀ idx, InRange w.shape idx → IsInt ((d b).at' idx) ∧ |(d b).at' idx| ≤ X)
    (hw : ∀ idx, InRange w.shape idx → IsInt (w.at' idx) ∧ |w.at' idx| ≤ Wt) (hb : size w.shape * (X * (X * Wt)) ≤ 2 ^ 53) (z : ℝ) :
    DblCorr fl comms ax d w i j z ↔ z = corrSum d w i j := by
  have hXW : 0 ≤ X * Wt := mul_nonneg (by linarith) hWt0
  have hXXW : 0 ≤ X * (X * Wt) := mul_nonneg (by linarith) hXW
  have hXW2 : X * Wt ≤ X * (X * Wt) := le_mul_of_one_le_left hXW hX0
  -- the values on a slab
  have hpos : ∀ comm : Comm, ∀ k < size (distributeDimension w ax comm).shape, (1 : ℝ) ≤ size w.shape := fun comm k hk => by
    have e : (distributeDimension (⟨w.shape, fun _ => 0⟩ : Arr ℝ) ax comm).shape = (distributeDimension w ax comm).shape := by cases comm <;> rfl
    exact inRange_slab (⟨w.shape, fun _ => 0⟩ : Arr ℝ) ax hax comm (fun _ => (1 : ℝ) ≤ size w.shape) (fun idx hi => by
      have := ravel_lt hi
      change ravel w.shape idx < size w.shape at this
      exact_mod_cast (by omega : 1 ≤ size w.shape)) (unravel (distributeDimension w ax comm).shape k) (by rw [e]; exact inRange_unravel hk)
  have hdv : ∀ comm : Comm, ∀ k < size (distributeDimension w ax comm).shape, ∀ b, b = i ∨ b = j →
      IsInt ((distributeDimension (d b) ax comm).at' (unravel (distributeDimension w ax comm).shape k)) ∧
        |(distributeDimension (d b) ax comm).at' (unravel (distributeDimension w ax comm).shape k)| ≤ X := fun comm k hk b hb' => by
    refine inRange_slab (d b) ax (by rw [hs b]; exact hax) comm (fun x => IsInt x ∧ |x| ≤ X) (fun idx hi => hd b hb' idx (by rw [← hs b]; exact hi)) _ ?_
    have e : (distributeDimension (d b) ax comm).shape = (distributeDimension w ax comm).shape := by
      cases comm <;> simp only [distributeDimension, Arr.slice, hs b]
    rw [e]; exact inRange_unravel hk
  have hwv : ∀ comm : Comm, ∀ k < size (distributeDimension w ax comm).shape, IsInt ((distributeDimension w ax comm).at' (unravel (distributeDimension w ax comm).shape k)) ∧
        |(distributeDimension w ax comm).at' (unravel (distributeDimension w ax comm).shape k)| ≤ Wt := fun comm k hk =>
    inRange_slab w ax hax comm (fun x => IsInt x ∧ |x| ≤ Wt) hw _ (inRange_unravel hk)
  -- the terms on one rank
  obtain ⟨T, hT⟩ : ∃ T : Comm → Nat → ℝ, T = fun comm k => (distributeDimension (d i) ax comm).at' (unravel (distributeDimension w ax comm).shape k) *
      ((distributeDimension (d j) ax comm).at' (unravel (distributeDimension w ax comm).shape k) * (distributeDimension w ax comm).at' (unravel (distributeDimension w ax comm).shape k)) := ⟨_, rfl⟩
  have hTk : ∀ comm : Comm, ∀ k < size (distributeDimension w ax comm).shape, IsInt (T comm k) ∧ |T comm k| ≤ X * (X * Wt) ∧
      fl ((distributeDimension (d i) ax comm).at' (unravel (distributeDimension w ax comm).shape k) *
        fl ((distributeDimension (d j) ax comm).at' (unravel (distributeDimension w ax comm).shape k) * (distributeDimension w ax comm).at' (unravel (distributeDimension w ax comm).shape k))) = T comm k := by
    intro comm k hk
    obtain ⟨a1, a2⟩ := hdv comm k hk i (Or.inl rfl)
    obtain ⟨b1, b2⟩ := hdv comm k hk j (Or.inr rfl)
    obtain ⟨c1, c2⟩ := hwv comm k hk
    have hle : X * (X * Wt) ≤ 2 ^ 53 := by linarith [mul_le_mul_of_nonneg_right (hpos comm k hk) hXXW]
    have m1 := mul_le_mul b2 c2 (abs_nonneg _) (by linarith)
    rw [← abs_mul] at m1
    have m2 := mul_le_mul a2 m1 (abs_nonneg _) (by linarith)
    rw [← abs_mul] at m2
    rw [fl_int h _ (b1.mul c1) (by linarith), fl_int h _ (a1.mul (b1.mul c1)) (by linarith), hT]
    exact ⟨a1.mul (b1.mul c1), m2, rfl⟩
  have hlist : ∀ comm : Comm, ((List.range (size (distributeDimension w ax comm).shape)).map fun k =>
      fl ((distributeDimension (d i) ax comm).at' (unravel (distributeDimension w ax comm).shape k) *
        fl ((distributeDimension (d j) ax comm).at' (unravel (distributeDimension w ax comm).shape k) * (distributeDimension w ax comm).at' (unravel (distributeDimension w ax comm).shape k)))) =
      (List.range (size (distributeDimension w ax comm).shape)).map (T comm) := fun comm =>
    List.map_congr_left fun k hk => (hTk comm k (List.mem_range.1 hk)).2.2
  -- the sum of the magnitudes over all ranks
  have habs : ∀ comm : Comm, (((List.range (size (distributeDimension w ax comm).shape)).map (T comm)).map fun x => |x|).sum =
      localGram (fun b => distributeDimension (absArr (d b)) ax comm) (distributeDimension (absArr w) ax comm) 1 i j := fun comm => by
    rw [List.map_map, list_range_sum]
    simp only [localGram, div_one, hT, Function.comp_def, abs_mul, star_trivial]
    cases comm <;> rfl
  have htot : (comms.map fun comm => (((List.range (size (distributeDimension w ax comm).shape)).map (T comm)).map fun x => |x|).sum).sum ≤ size w.shape * (X * (X * Wt)) := by
    have e := gram_procs comms hc ax (fun b => absArr (d b)) (absArr w) 1 hax (fun b => hs b) i j
    rw [List.map_congr_left fun comm _ => habs comm, e]
    have e2 := gram_procs [none] (Or.inl rfl) ax (fun b => absArr (d b)) (absArr w) 1 hax (fun b => hs b) i j
    rw [← e2]
    simp only [List.map_cons, List.map_nil, List.sum_cons, List.sum_nil, add_zero, distributeDimension, localGram, div_one, star_trivial]
    have : ∀ k ∈ range (size w.shape), (absArr (d i)).at' (unravel w.shape k) * ((absArr (d j)).at' (unravel w.shape k) * (absArr w).at' (unravel w.shape k)) ≤ X * (X * Wt) := fun k hk => by
      have hk := mem_range.1 hk
      refine mul_le_mul (hd i (Or.inl rfl) _ (inRange_unravel hk)).2 (mul_le_mul (hd j (Or.inr rfl) _ (inRange_unravel hk)).2 (hw _ (inRange_unravel hk)).2 (abs_nonneg _) (by linarith))
        (mul_nonneg (abs_nonneg _) (abs_nonneg _)) (by linarith)
    have g := Finset.sum_le_sum this
    rw [Finset.sum_const, card_range, nsmul_eq_mul] at g
    exact g
  have hnonneg : ∀ l : List ℝ, 0 ≤ (l.map fun x => |x|).sum := fun l => by
    refine List.sum_nonneg fun x hx => ?_
    obtain ⟨y, -, rfl⟩ := List.mem_map.1 hx
    exact abs_nonneg _
  have hone : ∀ comm ∈ comms, (((List.range (size (distributeDimension w ax comm).shape)).map (T comm)).map fun x => |x|).sum ≤ 2 ^ 53 := fun comm hcm => by
    refine le_trans ?_ (htot.trans hb)
    exact List.single_le_sum (fun x hx => by
      obtain ⟨c, -, rfl⟩ := List.mem_map.1 hx
      exact hnonneg _) _ (List.mem_map.2 ⟨comm, hcm, rfl⟩)
  have hints : ∀ comm : Comm, ∀ x ∈ (List.range (size (distributeDimension w ax comm).shape)).map (T comm), IsInt x := fun comm x hx => by
    obtain ⟨k, hk, rfl⟩ := List.mem_map.1 hx
    exact (hTk comm k (List.mem_range.1 hk)).1
  have hloc : ∀ comm ∈ comms, ∀ l, DblCorrLocal fl (fun b => distributeDimension (d b) ax comm) (distributeDimension w ax comm) i j l →
      l = ((List.range (size (distributeDimension w ax comm).shape)).map (T comm)).sum := fun comm hcm l hl => by
    simp only [DblCorrLocal] at hl
    rw [hlist comm] at hl
    exact dblSum_int h _ (hints comm) (hone comm hcm) l hl
  have hsumT : (comms.map fun comm => ((List.range (size (distributeDimension w ax comm).shape)).map (T comm)).sum).sum = corrSum d w i j := by
    have e := gram_procs comms hc ax d w 1 hax hs i j
    have e2 : gramSpec d w 1 i j = corrSum d w i j := by
      rw [← gram_procs [none] (Or.inl rfl) ax d w 1 hax hs i j, corrSum_gram]
      simp only [List.map_cons, List.map_nil, List.sum_cons, List.sum_nil, add_zero, distributeDimension]
    rw [← e2, ← e]
    congr 1
    refine List.map_congr_left fun comm _ => ?_
    rw [list_range_sum]
    simp only [localGram, div_one, hT, star_trivial]
  have hfin : ∀ z, DblSum fl (comms.map fun comm => ((List.range (size (distributeDimension w ax comm).shape)).map (T comm)).sum) z → z = corrSum d w i j := fun z hz => by
    rw [← hsumT]
    refine dblSum_int h _ (fun x hx => ?_) ?_ z hz
    · obtain ⟨comm, -, rfl⟩ := List.mem_map.1 hx
      exact isInt_sum _ (hints comm)
    · refine le_trans ?_ (htot.trans hb)
      rw [List.map_map]
      exact List.sum_le_sum fun comm _ => abs_list_sum_le _
  have huniq : ∀ ls : List ℝ, List.Forall₂ (fun comm l => DblCorrLocal fl (fun b => distributeDimension (d b) ax comm) (distributeDimension w ax comm) i j l) comms ls →
      ls = comms.map fun comm => ((List.range (size (distributeDimension w ax comm).shape)).map (T comm)).sum := fun ls h1 => by
    have hlen := h1.length_eq
    refine List.ext_getElem (by simp [hlen]) fun k hk hk' => ?_
    rw [List.getElem_map]
    exact hloc _ (List.getElem_mem _) _ (List.Forall₂.get h1 (by omega : k < comms.length) hk)
  constructor
  · rintro ⟨ls, h1, h2⟩
    rw [huniq ls h1] at h2
    exact hfin z h2
  · rintro rfl
    have hex : ∀ comm : Comm, ∃ l, DblCorrLocal fl (fun b => distributeDimension (d b) ax comm) (distributeDimension w ax comm) i j l := fun comm => dblSum_exists fl _
    choose g hg using hex
    have h1 : List.Forall₂ (fun comm l => DblCorrLocal fl (fun b => distributeDimension (d b) ax comm) (distributeDimension w ax comm) i j l) comms (comms.map g) := by
      rw [List.forall₂_map_right_iff, List.forall₂_same]
      exact fun comm _ => hg comm
    obtain ⟨z, hz⟩ := dblSum_exists fl (comms.map g)
    have e := huniq _ h1
    have hz' := hz
    rw [e] at hz'
    have := hfin z hz'
    exact ⟨_, h1, by rw [← this]; exact hz⟩

/-- the exact fluctuation of snapshot `t` at a point -/
noncomputable def exactFluct (mk : Pod.MeanKind) (files : List (List (Arr ℝ))) (t x : Nat) : ℝ :=
  podAt files t x - if mk = .longtime then (∑ t' ∈ range files.flatten.length, podAt files t' x) / files.flatten.length else 0

/-- **C253.** A POD fit, in double precision, of data with integer values of magnitude at most `X` (for `mean_type='longtime'` with integer means) and integer weights of magnitude at most
    `Wt`, with `nt X` and the number of points times `4 X² Wt` at most `2^53`: the fluctuations and the correlation matrix are exact, so that every run gives the same matrix bit for bit,
    on one process and on any number of ranks, split along any axis, in any order of the additions. -/
theorem pod_reproducible {fl : ℝ → ℝ} (h : IsDouble fl) (files : List (List (Arr ℝ))) (dims : List Nat) (mk : Pod.MeanKind) (X : ℝ) (hX : 1 ≤ X)
    (hd : ∀ t < files.flatten.length, ∀ x < size (dims ++ [1]), IsInt (podAt files t x) ∧ |podAt files t x| ≤ X)
    (hm : mk = .longtime → ∀ x < size (dims ++ [1]), IsInt ((∑ t' ∈ range files.flatten.length, podAt files t' x) / files.flatten.length))
    (W : Arr ℝ) (hW : W.shape = dims ++ [1]) (Wt : ℝ) (hWt0 : 0 ≤ Wt) (hWt : ∀ idx, InRange W.shape idx → IsInt (W.at' idx) ∧ |W.at' idx| ≤ Wt)
    (hnt : files.flatten.length * X ≤ 2 ^ 53) (hb : size (dims ++ [1]) * (2 * X * (2 * X * Wt)) ≤ 2 ^ 53) :
    (∀ t < files.flatten.length, ∀ x < size (dims ++ [1]), ∀ z,
      DblFluct fl mk ((List.range files.flatten.length).map fun t' => podAt files t' x) t z ↔ z = exactFluct mk files t x) ∧
    ∀ dh : Nat → Arr ℝ, (∀ t, (dh t).shape = dims ++ [1]) → (∀ t < files.flatten.length, ∀ x < size (dims ++ [1]),
        DblFluct fl mk ((List.range files.flatten.length).map fun t' => podAt files t' x) t ((dh t).at' (unravel (dims ++ [1]) x))) →
      ∀ i < files.flatten.length, ∀ j < files.flatten.length, ∀ comms, Procs comms → ∀ ax ≤ dims.length, ∀ z,
        DblCorr fl comms ax dh W i j z ↔ z = ∑ x ∈ range (size (dims ++ [1])), exactFluct mk files i x * (exactFluct mk files j x * W.at' (unravel (dims ++ [1]) x)) := by
  have hX53 : ∀ t < files.flatten.length, X ≤ 2 ^ 53 := fun t ht => by
    have : (1 : ℝ) ≤ files.flatten.length := by exact_mod_cast (by omega : 1 ≤ files.flatten.length)
    linarith [mul_le_mul_of_nonneg_right this (by linarith : (0 : ℝ) ≤ X)]
  have hWX : ∀ x < size (dims ++ [1]), (1 : ℝ) ≤ size (dims ++ [1]) := fun x hx => by exact_mod_cast (by omega : 1 ≤ size (dims ++ [1]))
  -- the fluctuations
  have hmean : mk = .longtime → ∀ t < files.flatten.length, ∀ x < size (dims ++ [1]), |(∑ t' ∈ range files.flatten.length, podAt files t' x) / files.flatten.length| ≤ X := fun _ t ht x hx => by
    have h0 : (0 : ℝ) < files.flatten.length := by exact_mod_cast (by omega : 0 < files.flatten.length)
    rw [abs_div, Nat.abs_cast, div_le_iff₀ h0]
    refine (Finset.abs_sum_le_sum_abs _ _).trans ?_
    have := Finset.sum_le_sum fun t' (ht' : t' ∈ range files.flatten.length) => (hd t' (mem_range.1 ht') x hx).2
    rw [Finset.sum_const, card_range, nsmul_eq_mul] at this
    linarith
  have hex : ∀ t < files.flatten.length, ∀ x < size (dims ++ [1]), IsInt (exactFluct mk files t x) ∧ |exactFluct mk files t x| ≤ 2 * X := fun t ht x hx => by
    obtain ⟨a1, a2⟩ := hd t ht x hx
    unfold exactFluct
    by_cases e : mk = .longtime
    · rw [if_pos e]
      refine ⟨a1.sub (hm e x hx), ?_⟩
      have := hmean e t ht x hx
      exact (abs_sub _ _).trans (by linarith)
    · rw [if_neg e, sub_zero]
      exact ⟨a1, by linarith⟩
  have hfl : ∀ t < files.flatten.length, ∀ x < size (dims ++ [1]), ∀ z,
      DblFluct fl mk ((List.range files.flatten.length).map fun t' => podAt files t' x) t z ↔ z = exactFluct mk files t x := fun t ht x hx z => by
    obtain ⟨nt, hn⟩ : ∃ nt, nt = files.flatten.length := ⟨_, rfl⟩
    have hget : ((List.range files.flatten.length).map fun t' => podAt files t' x).getD t 0 = podAt files t x := by
      rw [List.getD_eq_getElem _ _ (by simpa using ht)]; simp
    have hx0 := hd t ht x hx
    cases mk with
    | longtime =>
      have h1 := mean_reproducible h ((List.range files.flatten.length).map fun t' => podAt files t' x) (fun y hy => by
        obtain ⟨t', ht', rfl⟩ := List.mem_map.1 hy
        exact (hd t' (List.mem_range.1 ht') x hx).1) X (fun y hy => by
        obtain ⟨t', ht', rfl⟩ := List.mem_map.1 hy
        exact (hd t' (List.mem_range.1 ht') x hx).2) (by rw [List.length_map, List.length_range]; exact hnt)
      rw [List.length_map, List.length_range, list_range_sum] at h1
      have h2 := fl_int h _ (hm rfl x hx) ((hmean rfl t ht x hx).trans (hX53 t ht))
      have e := hex t ht x hx
      simp only [exactFluct, if_true] at e ⊢
      simp only [DblFluct, hget]
      have hbig : |podAt files t x - (∑ t' ∈ range files.flatten.length, podAt files t' x) / files.flatten.length| ≤ 2 ^ 53 ∨
          fl (podAt files t x - (∑ t' ∈ range files.flatten.length, podAt files t' x) / files.flatten.length) =
            podAt files t x - (∑ t' ∈ range files.flatten.length, podAt files t' x) / files.flatten.length := by
        by_cases h1 : files.flatten.length = 1
        · right
          have ht0 : t = 0 := by omega
          rw [h1, ht0]
          simp only [sum_range_one, Nat.cast_one, div_one, sub_self]
          exact fl_zero h
        · left
          have : (2 : ℝ) ≤ files.flatten.length := by exact_mod_cast (by omega : 2 ≤ files.flatten.length)
          have := mul_le_mul_of_nonneg_right this (by linarith : (0 : ℝ) ≤ X)
          linarith [e.2]
      have h3 : fl (podAt files t x - (∑ t' ∈ range files.flatten.length, podAt files t' x) / files.flatten.length) =
          podAt files t x - (∑ t' ∈ range files.flatten.length, podAt files t' x) / files.flatten.length := by
        rcases hbig with hb | hb
        · exact fl_int h _ e.1 hb
        · exact hb
      constructor
      · rintro ⟨m, hm1, rfl⟩
        rw [(h1 m).1 hm1, h2, h3]
      · rintro rfl
        exact ⟨_, (h1 _).2 rfl, by rw [h2, h3]⟩
    | zero =>
      simp only [DblFluct, hget, exactFluct, sub_zero]
      rw [if_neg (by simp), sub_zero, fl_int h _ hx0.1 (hx0.2.trans (hX53 t ht))]
  refine ⟨hfl, fun dh hs hf i hi j hj comms hc ax hax z => ?_⟩
  have hval : ∀ b, b < files.flatten.length → ∀ x < size (dims ++ [1]), (dh b).at' (unravel (dims ++ [1]) x) = exactFluct mk files b x := fun b hb' x hx => (hfl b hb' x hx _).1 (hf b hb' x hx)
  have hsum : corrSum dh W i j = ∑ x ∈ range (size (dims ++ [1])), exactFluct mk files i x * (exactFluct mk files j x * W.at' (unravel (dims ++ [1]) x)) := by
    unfold corrSum
    rw [hW]
    refine Finset.sum_congr rfl fun x hx => ?_
    rw [hval i hi x (mem_range.1 hx), hval j hj x (mem_range.1 hx)]
  rw [← hsum]
  refine corr_reproducible h comms hc ax dh W (by rw [hW]; simpa using Nat.lt_succ_of_le hax) (fun b => (hs b).trans hW.symm) i j (2 * X) Wt (by linarith) hWt0 (fun b hb' idx hidx => ?_) hWt
    (by rw [hW]; exact hb) z
  have hb2 : b < files.flatten.length := by rcases hb' with rfl | rfl <;> assumption
  rw [hW] at hidx
  have g := hval b hb2 _ (ravel_lt hidx)
  rw [unravel_ravel hidx] at g
  rw [g]
  exact hex b hb2 _ (ravel_lt hidx)

/-- **C253.** Without the limit the order of the additions matters, even for integers: `2^53 + 1 - 2^53` is 1 or 2 (rounding to nearest, ties away from zero). -/
theorem order_matters : IsDouble rn ∧ (∀ x ∈ [(2 : ℝ) ^ 53, 1, -2 ^ 53], IsInt x) ∧ DblSum rn [(2 : ℝ) ^ 53, 1, -2 ^ 53] 1 ∧ DblSum rn [(2 : ℝ) ^ 53, 1, -2 ^ 53] 2 := by
  have h1 : rn 1 = 1 := by have := fl_nat rn_double 1 (by norm_num); simpa using this
  have h2 : rn 2 = 2 := by have := fl_nat rn_double 2 (by norm_num); simpa using this
  have h3 : rn ((2 : ℝ) ^ 53 + 1) = 2 ^ 53 + 2 := by
    have hl : Int.log 2 ((2 : ℝ) ^ 53 + 1) = 53 := by
      have : ((2 : ℝ) ^ 53 + 1) = ((2 ^ 53 + 1 : Nat) : ℝ) := by norm_num
      rw [this, Int.log_natCast]
      have : Nat.log 2 (2 ^ 53 + 1) = 53 := by
        rw [Nat.log_eq_iff (by norm_num)]
        norm_num
      rw [this]; rfl
    rw [rn, if_pos (by positivity), rnPos, hl, round_eq]
    have e : ((2 : ℝ) ^ 53 + 1) * 2 ^ (52 - 53 : ℤ) + 1 / 2 = ((2 ^ 52 + 1 : ℤ) : ℝ) := by
      rw [show (52 - 53 : ℤ) = -1 by norm_num, zpow_neg_one]; push_cast; norm_num
    rw [e, Int.floor_intCast]
    push_cast
    norm_num
  refine ⟨rn_double, ?_, Or.inr ⟨.node (.node (.rank (2 ^ 53)) (.rank (-2 ^ 53))) (.rank 1), ?_, ?_⟩, Or.inr ⟨.node (.node (.rank (2 ^ 53)) (.rank 1)) (.rank (-2 ^ 53)), List.Perm.refl _, ?_⟩⟩
  · intro x hx
    simp only [List.mem_cons, List.not_mem_nil, or_false] at hx
    rcases hx with rfl | rfl | rfl
    · exact ⟨2 ^ 53, by norm_num⟩
    · exact ⟨1, by simp⟩
    · exact ⟨-2 ^ 53, by norm_num⟩
  · exact List.Perm.cons _ (List.Perm.swap _ _ _)
  · simp only [dblTree]
    rw [add_neg_cancel, fl_zero rn_double, zero_add, h1]
  · simp only [dblTree]
    rw [h3, show (2 : ℝ) ^ 53 + 2 + -2 ^ 53 = 2 by ring, h2]

/-- `pod_reproducible` for the snapshots `(1, 2), (3, 4)` with their means `2, 3` -/
example (z : ℝ) (dh : Nat → Arr ℝ) (hs : ∀ t, (dh t).shape = [2, 1])
    (hf : ∀ t < 2, ∀ x < 2, DblFluct rn .longtime [podAt (podPair 1 2 3 4) 0 x, podAt (podPair 1 2 3 4) 1 x] t ((dh t).at' (unravel [2, 1] x))) :
    DblCorr rn (ranksOf 2) 0 dh ⟨[2, 1], fun _ => 1⟩ 0 1 z ↔ z = -2 := by
  obtain ⟨p1, p2, p3, p4⟩ := podPair_at 1 2 3 4
  have hlen : (podPair 1 2 3 4).flatten.length = 2 := rfl
  have hi : ∀ t < 2, ∀ x < 2, IsInt (podAt (podPair 1 2 3 4) t x) ∧ |podAt (podPair 1 2 3 4) t x| ≤ 4 := podPair_all (by
    simp only [podPair_at]
    exact ⟨⟨⟨1, by simp⟩, by norm_num⟩, ⟨⟨2, by simp⟩, by norm_num⟩, ⟨⟨3, by simp⟩, by norm_num⟩, ⟨⟨4, by simp⟩, by norm_num⟩⟩) 1 2 3 4
  have g := (pod_reproducible rn_double (podPair 1 2 3 4) [2] .longtime 4 (by norm_num) hi (fun _ x hx => by
      have : x = 0 ∨ x = 1 := by simp [size] at hx; omega
      rcases this with rfl | rfl
      · exact ⟨2, by rw [hlen, sum_range_succ, sum_range_one, p1, p3]; norm_num⟩
      · exact ⟨3, by rw [hlen, sum_range_succ, sum_range_one, p2, p4]; norm_num⟩) ⟨[2, 1], fun _ => 1⟩ rfl 1 zero_le_one (fun _ _ => ⟨⟨1, by simp⟩, by simp⟩) (by norm_num [podPair]) (by norm_num [size])).2
    dh hs hf 0 (by simp [podPair]) 1 (by simp [podPair]) (ranksOf 2) (Or.inr ⟨2, by norm_num, rfl⟩) 0 (by simp) z
  rw [g]
  have hsz : size ([2] ++ [1]) = 2 := rfl
  rw [hsz, sum_range_succ, sum_range_one]
  simp only [exactFluct, if_true, hlen, sum_range_succ, sum_range_zero, p1, p2, p3, p4]
  norm_num

end Verif.Props
