import Verif.Model.Streaming
import Mathlib.Tactic.Ring
import Mathlib.Tactic.Linarith
import Mathlib.Tactic.FieldSimp
import Mathlib.Data.List.GetD
import Mathlib.Algebra.BigOperators.Intervals
import Mathlib.Algebra.BigOperators.Ring.Finset
/-
  C38, C39, C40: what the streaming method feeds to the basis update.
-/
set_option linter.unusedSectionVars false
set_option linter.unusedVariables false
namespace Verif.Props
open Verif Verif.Stream

/-! ### Specification -/

/-- First snapshot of the `b`-th streaming block with `P` slots: one extra snapshot per turn of the slots. -/
def streamStart (P dn b : Nat) : Nat := b * dn + b / P

/-- Windowed Fourier sum of the segment of `n` snapshots starting at `s`, minus its mean contribution. -/
def segSum {K} [Field K] (n : Nat) (w dft : Nat → K) (x : Nat → K) (s : Nat) (mean : K) : K :=
  ∑ t ∈ Finset.range n, w t * dft t * (x (s + t) - mean)

/-- Mean of the first `c` snapshots. -/
def prefixMean {K} [Field K] (x : Nat → K) (c : Nat) : K := (∑ i ∈ Finset.range c, x i) / (c : K)

/-! ### Arithmetic of the slots -/

/-- block on which slot `j` works when `m` blocks are complete -/
def slotBlk (P m j : Nat) : Nat := if j < m % P then (m / P + 1) * P + j else (m / P) * P + j

theorem nPar_pos {n dn : Nat} (hn : 0 < n) (hd : 0 < dn) : 0 < nPar n dn :=
  Nat.div_pos (by omega) hd

theorem nPar_mul {n dn : Nat} (hd : 0 < dn) : n ≤ nPar n dn * dn := by
  have h1 := Nat.div_add_mod (n + dn - 1) dn
  have h2 := Nat.mod_lt (n + dn - 1) hd
  unfold nPar
  rw [Nat.mul_comm] at h1
  omega

theorem streamStart_lt {P dn a b : Nat} (h : a < b) : streamStart P dn a + dn ≤ streamStart P dn b := by
  unfold streamStart
  have h1 : a / P ≤ b / P := Nat.div_le_div_right h.le
  have h2 : (a + 1) * dn ≤ b * dn := Nat.mul_le_mul_right _ h
  rw [Nat.add_mul, Nat.one_mul] at h2
  omega

theorem streamStart_mono {P dn a b : Nat} (h : a ≤ b) : streamStart P dn a ≤ streamStart P dn b := by
  rcases Nat.lt_or_eq_of_le h with h | rfl
  · have := streamStart_lt (P := P) (dn := dn) h; omega
  · exact le_rfl

theorem exists_qr {P : Nat} (hP : 0 < P) (m : Nat) :
    ∃ q r, r < P ∧ m = q * P + r ∧ m / P = q ∧ m % P = r := by
  refine ⟨m / P, m % P, Nat.mod_lt _ hP, ?_, rfl, rfl⟩
  rw [Nat.mul_comm]; exact (Nat.div_add_mod m P).symm

theorem blk_ge {P m j : Nat} (hP : 0 < P) (hj : j < P) : m ≤ slotBlk P m j ∧ (slotBlk P m j = m ↔ j = m % P) ∧
    slotBlk P m j + 1 ≤ m + P := by
  obtain ⟨q, r, hr, hm, h1, h2⟩ := exists_qr hP m
  unfold slotBlk
  rw [h1, h2]
  split
  · rw [Nat.add_mul]; omega
  · omega

theorem blk_succ {P m j : Nat} (hP : 0 < P) (hj : j < P) :
    slotBlk P (m + 1) j = if j = m % P then m + P else slotBlk P m j := by
  obtain ⟨q, r, hr, hm, h1, h2⟩ := exists_qr hP m
  by_cases hc : r + 1 = P
  · have e : m + 1 = (q + 1) * P := by rw [Nat.add_mul]; omega
    have h3 : (m + 1) / P = q + 1 := by rw [e, Nat.mul_div_cancel _ hP]
    have h4 : (m + 1) % P = 0 := by rw [e, Nat.mul_mod_left]
    unfold slotBlk
    rw [h1, h2, h3, h4]
    have e2 : (q + 1) * P = q * P + P := by rw [Nat.add_mul]; omega
    rw [e2]
    split_ifs <;> omega
  · have e : m + 1 = q * P + (r + 1) := by omega
    have h3 : (m + 1) / P = q := by
      rw [e, Nat.mul_comm, Nat.mul_add_div hP, Nat.div_eq_of_lt (by omega)]; omega
    have h4 : (m + 1) % P = r + 1 := by
      rw [e, Nat.mul_comm, Nat.mul_add_mod, Nat.mod_eq_of_lt (by omega)]
    unfold slotBlk
    rw [h1, h2, h3, h4]
    have e2 : (q + 1) * P = q * P + P := by rw [Nat.add_mul]; omega
    rw [e2]
    split_ifs <;> omega

theorem streamStart_blk {P dn m j : Nat} (hP : 0 < P) (hj : j < P) :
    streamStart P dn (slotBlk P m j) = slotBlk P m j * dn + (if j < m % P then m / P + 1 else m / P) := by
  unfold streamStart slotBlk
  split
  · rw [show ((m / P + 1) * P + j) / P = m / P + 1 from by
      rw [Nat.mul_comm, Nat.mul_add_div hP, Nat.div_eq_of_lt hj, Nat.add_zero]]
  · rw [show ((m / P) * P + j) / P = m / P from by
      rw [Nat.mul_comm, Nat.mul_add_div hP, Nat.div_eq_of_lt hj, Nat.add_zero]]

/-! ### `min` -/

theorem minT_le {P : Nat} {t : Nat → Int} {c : Int} :
    (∀ j, j < P → c ≤ t j) → c ≤ t 0 → c ≤ minT P t := by
  intro h h0
  unfold minT
  have : ∀ (L : List Nat) (a : Int), (∀ j ∈ L, c ≤ t j) → c ≤ a → c ≤ L.foldl (fun m j => min m (t j)) a := by
    intro L
    induction L with
    | nil => intro a _ h; simpa using h
    | cons b L ih =>
      intro a hL ha
      simp only [List.foldl_cons]
      exact ih _ (fun j hj => hL j (List.mem_cons_of_mem _ hj)) (le_min ha (hL b (by simp)))
  exact this _ _ (fun j hj => h j (List.mem_range.1 hj)) h0

theorem minT_ge {P : Nat} {t : Nat → Int} {j : Nat} (hj : j < P) : minT P t ≤ t j := by
  unfold minT
  have : ∀ (L : List Nat) (a : Int), L.foldl (fun m j => min m (t j)) a ≤ a ∧
      ∀ i ∈ L, L.foldl (fun m j => min m (t j)) a ≤ t i := by
    intro L
    induction L with
    | nil => intro a; simp
    | cons b L ih =>
      intro a
      simp only [List.foldl_cons]
      have := ih (min a (t b))
      refine ⟨this.1.trans (min_le_left _ _), ?_⟩
      intro i hi
      rcases List.mem_cons.1 hi with rfl | hi
      · exact this.1.trans (min_le_right _ _)
      · exact this.2 i hi
  exact (this _ _).2 j (List.mem_range.2 hj)

theorem minT_eq {P : Nat} {t : Nat → Int} {c : Int} {j : Nat} (hj : j < P) (hc : t j = c)
    (h : ∀ i, i < P → c ≤ t i) : minT P t = c :=
  le_antisymm (hc ▸ minT_ge hj) (minT_le h (h 0 (by omega)))

/-! ### One pass over the slots -/

variable {K : Type} [Field K]

/-- contribution of the current snapshot to slot `j` -/
def bump (w dft : Nat → K) (x : K) (s : Slots K) (j : Nat) : K :=
  if s.t j > -1 then s.sum j + w (s.t j).toNat * dft (s.t j).toNat * x else s.sum j

theorem slotStep_plain {P n dn : Nat} {w dft : Nat → K} {x : K} {s : Slots K} {o : List (Nat × K)} {j : Nat}
    (h : s.t j ≠ (n : Int) - 1) :
    slotStep P n dn w dft x (s, o) j =
      (⟨Function.update s.t j (s.t j + 1), Function.update s.sum j (bump w dft x s j)⟩, o) := by
  unfold slotStep bump
  simp only [h, if_false]
  split
  · rfl
  · simp

theorem slotFold_plain {P n dn : Nat} {w dft : Nat → K} {x : K} (L : List Nat) (hL : L.Nodup)
    (s : Slots K) (o : List (Nat × K)) (h : ∀ j ∈ L, s.t j ≠ (n : Int) - 1) :
    L.foldl (slotStep P n dn w dft x) (s, o) =
      (⟨fun j => if j ∈ L then s.t j + 1 else s.t j, fun j => if j ∈ L then bump w dft x s j else s.sum j⟩, o) := by
  induction L generalizing s with
  | nil => simp
  | cons a L ih =>
    rw [List.nodup_cons] at hL
    rw [List.foldl_cons, slotStep_plain (h a (by simp)), ih hL.2]
    · congr 1
      congr 1
      · funext j
        by_cases hj : j = a
        · subst hj; simp [hL.1]
        · simp [hj]
      · funext j
        by_cases hj : j = a
        · subst hj; simp [hL.1]
        · simp [hj, bump]
    · intro j hj
      have : j ≠ a := fun e => hL.1 (e ▸ hj)
      simp only [Function.update_of_ne this]
      exact h j (List.mem_cons_of_mem _ hj)

theorem slotLoop_plain {P n dn : Nat} {w dft : Nat → K} {x : K} (s : Slots K)
    (h : ∀ (j : Nat), j < P → s.t j ≠ (n : Int) - 1) :
    slotLoop P n dn w dft x s =
      (⟨fun j => if j < P then s.t j + 1 else s.t j, fun j => if j < P then bump w dft x s j else s.sum j⟩, []) := by
  unfold slotLoop
  rw [slotFold_plain _ List.nodup_range _ _ (fun j hj => h j (List.mem_range.1 hj))]
  simp

theorem slotLoop_complete {P n dn : Nat} {w dft : Nat → K} {x : K} (s : Slots K) {r : Nat} (hr : r < P)
    (hcomp : s.t r = (n : Int) - 1)
    (h : ∀ (j : Nat), j < P → j ≠ r → s.t j ≠ (n : Int) - 1) :
    ∃ t' sum', slotLoop P n dn w dft x s = (⟨t', sum'⟩, [(r, bump w dft x s r)]) ∧
      (∀ j, j < P → t' j = if j = r then minT P (fun i => if i < r then s.t i + 1 else s.t i) - dn
        else s.t j + 1) ∧
      (∀ j, j < P → sum' j = if j = r then 0 else bump w dft x s j) := by
  unfold slotLoop
  have hsplit : List.range P = List.range r ++ (r :: (List.range' (r + 1) (P - r - 1))) := by
    rw [List.range_eq_range', List.range_eq_range', ← List.range'_succ]
    have := @List.range'_append_1 0 r (P - r - 1 + 1)
    rw [Nat.zero_add] at this
    rw [this]
    congr 1; omega
  rw [hsplit, List.foldl_append, slotFold_plain _ List.nodup_range _ _
    (fun j hj => h j (by have := List.mem_range.1 hj; omega) (by have := List.mem_range.1 hj; omega)),
    List.foldl_cons]
  simp only [List.mem_range]
  set s1 : Slots K := ⟨fun j => if j < r then s.t j + 1 else s.t j,
    fun j => if j < r then bump w dft x s j else s.sum j⟩ with hs1
  have ht1 : s1.t r = (n : Int) - 1 := by simp [hs1, hcomp]
  have hb1 : bump w dft x s1 r = bump w dft x s r := by simp [bump, hs1]
  have e1 : slotStep P n dn w dft x (s1, []) r =
      (⟨Function.update s1.t r (minT P s1.t - dn), Function.update s1.sum r 0⟩, [(r, bump w dft x s r)]) := by
    unfold slotStep
    simp only [ht1, if_true]
    rw [← hb1]
    congr 1
    · congr 1
      split
      · simp
      · rfl
    · rw [bump]
      simp only [ht1, List.nil_append]
      split <;> simp
  rw [e1, slotFold_plain _ (List.nodup_range')]
  · refine ⟨_, _, rfl, ?_, ?_⟩
    · intro j hj
      have hm : j ∈ List.range' (r + 1) (P - r - 1) ↔ r < j := by
        rw [List.mem_range'_1]; omega
      by_cases hjr : j = r
      · subst hjr
        simp [hm, hs1]
      · simp only [hm, Function.update_of_ne hjr, hjr, if_false, hs1]
        split_ifs <;> first | rfl | omega
    · intro j hj
      have hm : j ∈ List.range' (r + 1) (P - r - 1) ↔ r < j := by
        rw [List.mem_range'_1]; omega
      by_cases hjr : j = r
      · subst hjr
        simp [hm]
      · simp only [hm, Function.update_of_ne hjr, hjr, if_false, hs1, bump]
        split_ifs <;> first | rfl | omega
  · intro j hj
    rw [List.mem_range'_1] at hj
    have : j ≠ r := by omega
    simp only [Function.update_of_ne this, hs1]
    rw [if_neg (by omega)]
    exact h j (by omega) this

/-! ### Invariant -/

/-- The value handed to the basis update for the `m`-th block. -/
def emission (P n dn : Nat) (w dft : Nat → K) (ww : K) (x : Nat → K) (m : Nat) : Nat × List Nat × K :=
  (streamStart P dn m + n - 1, [m % P],
    ww / (n : K) * segSum n w dft x (streamStart P dn m) (prefixMean x (streamStart P dn m + n)))

structure StreamInv (P n dn : Nat) (w dft : Nat → K) (ww : K) (x : Nat → K) (N m : Nat) (s : St K) : Prop where
  count : s.count = N
  mu : (N : K) * s.mu = ∑ i ∈ Finset.range N, x i
  done : ∀ m', m' < m → streamStart P dn m' + n ≤ N
  busy : N < streamStart P dn m + n
  t : ∀ j, j < P → s.slots.t j = (N : Int) - streamStart P dn (slotBlk P m j)
  sum : ∀ j, j < P → s.slots.sum j =
    ∑ t ∈ Finset.range (N - streamStart P dn (slotBlk P m j)), w t * dft t * x (streamStart P dn (slotBlk P m j) + t)
  out : s.out = (List.range m).map (emission P n dn w dft ww x)

theorem foldl_sub_eq (n : Nat) (f : Nat → K) (a : K) :
    (List.range n).foldl (fun a r => a - f r) a = a - ∑ t ∈ Finset.range n, f t := by
  induction n with
  | zero => simp
  | succ n ih => rw [List.range_succ, List.foldl_append, ih, Finset.sum_range_succ]; simp; ring

theorem step_inv [CharZero K] {n dn : Nat} (hn : 0 < n) (hd : 0 < dn) (w dft : Nat → K) (ww : K) (x : Nat → K)
    (N m : Nat) (s : St K) (h : StreamInv (nPar n dn) n dn w dft ww x N m s) :
    ∃ m', StreamInv (nPar n dn) n dn w dft ww x (N + 1) m' (step (nPar n dn) n dn w dft ww s (x N)) := by
  set P := nPar n dn with hPdef
  have hP : 0 < P := nPar_pos hn hd
  have hPn : n ≤ P * dn := nPar_mul hd
  have hN1 : ((N : K) + 1) ≠ 0 := by exact_mod_cast Nat.succ_ne_zero N
  have hmu : ∀ mu : K, mu = ((N : K) * s.mu + x N) / ((N : K) + 1) →
      ((N + 1 : Nat) : K) * mu = ∑ i ∈ Finset.range (N + 1), x i := by
    rintro mu rfl
    rw [Finset.sum_range_succ, ← h.mu]
    push_cast
    field_simp
  have hbump : ∀ (j : Nat), j < P → bump w dft (x N) s.slots j =
      ∑ t ∈ Finset.range (N + 1 - streamStart P dn (slotBlk P m j)),
        w t * dft t * x (streamStart P dn (slotBlk P m j) + t) := by
    intro j hj
    unfold bump
    rw [h.t j hj, h.sum j hj]
    set S := streamStart P dn (slotBlk P m j)
    split
    · have hSN : S ≤ N := by omega
      have e : ((N : Int) - S).toNat = N - S := by omega
      rw [e, Nat.succ_sub hSN, Finset.sum_range_succ, Nat.add_sub_cancel' hSN]
    · have : N + 1 - S = N - S := by omega
      rw [this]
  by_cases hc : N + 1 = streamStart P dn m + n
  · -- block `m` completes
    set r := m % P with hrdef
    have hr : r < P := Nat.mod_lt _ hP
    have hblkr : slotBlk P m r = m := ((blk_ge hP hr).2.1).2 rfl
    have htr : s.slots.t r = (n : Int) - 1 := by rw [h.t r hr, hblkr]; omega
    have hother : ∀ (j : Nat), j < P → j ≠ r → s.slots.t j ≠ (n : Int) - 1 := by
      intro j hj hjr
      rw [h.t j hj]
      have h1 := blk_ge (m := m) hP hj
      have h2 : m < slotBlk P m j := lt_of_le_of_ne h1.1 (fun e => hjr (h1.2.1.1 e.symm))
      have := streamStart_lt (P := P) (dn := dn) h2
      omega
    obtain ⟨t', sum', hl, ht', hs'⟩ := slotLoop_complete (dn := dn) (w := w) (dft := dft) (x := x N) s.slots hr htr hother
    have hmin : minT P (fun i => if i < r then s.slots.t i + 1 else s.slots.t i) =
        (N : Int) - (m + P - 1 : Nat) * dn - (m / P : Nat) := by
      have hval : ∀ (j : Nat), j < P → (if j < r then s.slots.t j + 1 else s.slots.t j) =
          (N : Int) - (slotBlk P m j : Nat) * dn - (m / P : Nat) := by
        intro j hj
        rw [h.t j hj, streamStart_blk hP hj]
        by_cases hjr : j < m % P
        · simp only [← hrdef] at hjr ⊢
          simp only [hjr, if_true]; push_cast; ring
        · simp only [← hrdef] at hjr ⊢
          simp only [hjr, if_false]; push_cast; ring
      have hex : ∃ j, j < P ∧ slotBlk P m j = m + P - 1 := by
        obtain ⟨q, r', hr', hm, h1, h2⟩ := exists_qr hP m
        have e2 : (q + 1) * P = q * P + P := by rw [Nat.add_mul]; omega
        by_cases h0 : r' = 0
        · refine ⟨P - 1, by omega, ?_⟩
          unfold slotBlk; rw [h1, h2, if_neg (by omega)]; omega
        · refine ⟨r' - 1, by omega, ?_⟩
          unfold slotBlk; rw [h1, h2, if_pos (by omega), e2]; omega
      obtain ⟨j, hj, hbj⟩ := hex
      refine minT_eq hj ?_ ?_
      · rw [hval j hj, hbj]
      · intro i hi
        rw [hval i hi]
        have h1 := (blk_ge (m := m) hP hi).2.2
        have h2 : slotBlk P m i ≤ m + P - 1 := by omega
        have h3 : slotBlk P m i * dn ≤ (m + P - 1) * dn := Nat.mul_le_mul_right _ h2
        have h4 : ((slotBlk P m i : Nat) : Int) * dn ≤ ((m + P - 1 : Nat) : Int) * dn := by exact_mod_cast h3
        linarith
    have hSP : streamStart P dn (m + P) = streamStart P dn m + P * dn + 1 := by
      unfold streamStart
      rw [Nat.add_div_right _ hP, Nat.add_mul]; omega
    have hnew : ∀ (j : Nat), j < P → slotBlk P (m + 1) j = if j = r then m + P else slotBlk P m j :=
      fun j hj => blk_succ hP hj
    refine ⟨m + 1, ?_, ?_, ?_, ?_, ?_, ?_, ?_⟩
    · simp [step, h.count]
    · exact hmu _ (by simp [step, h.count])
    · intro m' hm'
      rcases Nat.lt_succ_iff_lt_or_eq.1 hm' with h' | rfl
      · have := h.done m' h'; omega
      · omega
    · have := streamStart_lt (P := P) (dn := dn) (show m < m + 1 by omega)
      omega
    · intro j hj
      have : (step P n dn w dft ww s (x N)).slots.t j = t' j := by simp [step, hl]
      rw [this, ht' j hj, hnew j hj]
      by_cases hjr : j = r
      · simp only [hjr, if_true]
        rw [hmin]
        unfold streamStart
        rw [Nat.add_div_right _ hP]
        have e1 : ((m + P - 1 : Nat) : Int) = (m : Int) + P - 1 := by omega
        rw [e1]; push_cast; ring
      · simp only [hjr, if_false]
        rw [h.t j hj]; push_cast; ring
    · intro j hj
      have : (step P n dn w dft ww s (x N)).slots.sum j = sum' j := by simp [step, hl]
      rw [this, hs' j hj, hnew j hj]
      by_cases hjr : j = r
      · simp only [hjr, if_true]
        rw [hSP]
        have : N + 1 - (streamStart P dn m + P * dn + 1) = 0 := by omega
        rw [this]; simp
      · simp only [hjr, if_false]
        exact hbump j hj
    · have hN1 : ((N : K) + 1) ≠ 0 := hN1
      have : (step P n dn w dft ww s (x N)).out = s.out ++ [emission P n dn w dft ww x m] := by
        simp only [step, hl, List.getLast?_singleton, List.map_cons, List.map_nil, h.count]
        congr 2
        unfold emission
        have e0 : N = streamStart P dn m + n - 1 := by omega
        refine Prod.ext e0 (Prod.ext rfl ?_)
        simp only []
        congr 1
        rw [foldl_sub_eq, hbump r hr, hblkr]
        have e1 : N + 1 - streamStart P dn m = n := by omega
        rw [e1]
        have e2 : ((N : K) * s.mu + x N) / ((N : K) + 1) = prefixMean x (streamStart P dn m + n) := by
          unfold prefixMean
          rw [← hc, Finset.sum_range_succ, ← h.mu]
          push_cast; rfl
        rw [e2]
        unfold segSum
        rw [← Finset.sum_sub_distrib]
        refine Finset.sum_congr rfl ?_
        intro t _
        ring
      rw [this, h.out, List.range_succ, List.map_append]; rfl
  · -- no block completes
    have hnc : ∀ (j : Nat), j < P → s.slots.t j ≠ (n : Int) - 1 := by
      intro j hj
      rw [h.t j hj]
      have := streamStart_mono (P := P) (dn := dn) (blk_ge (m := m) hP hj).1
      have := h.busy
      omega
    have hl := slotLoop_plain (dn := dn) (w := w) (dft := dft) (x := x N) s.slots hnc
    refine ⟨m, ?_, ?_, ?_, ?_, ?_, ?_, ?_⟩
    · simp [step, h.count]
    · exact hmu _ (by simp [step, h.count])
    · intro m' hm'; have := h.done m' hm'; omega
    · have := h.busy; omega
    · intro j hj
      have : (step P n dn w dft ww s (x N)).slots.t j = s.slots.t j + 1 := by simp [step, hl, hj]
      rw [this, h.t j hj]; push_cast; ring
    · intro j hj
      have : (step P n dn w dft ww s (x N)).slots.sum j = bump w dft (x N) s.slots j := by simp [step, hl, hj]
      rw [this, hbump j hj]
    · simp [step, hl, h.out]

theorem init_inv {n dn : Nat} (hn : 0 < n) (hd : 0 < dn) (w dft : Nat → K) (ww : K) (x : Nat → K) :
    StreamInv (nPar n dn) n dn w dft ww x 0 0 (initSt dn) := by
  refine ⟨rfl, by simp [initSt], by simp, ?_, ?_, ?_, by simp [initSt]⟩
  · simp [streamStart, hn]
  · intro j hj
    have : j / nPar n dn = 0 := Nat.div_eq_of_lt hj
    simp [initSt, initSlots, streamStart, slotBlk, this]
  · intro j hj; simp [initSt, initSlots]

theorem run_inv [CharZero K] {n dn : Nat} (hn : 0 < n) (hd : 0 < dn) (w dft : Nat → K) (ww : K) (x : Nat → K) (N : Nat) :
    ∃ m, StreamInv (nPar n dn) n dn w dft ww x N m (run n dn w dft ww ((List.range N).map x)) := by
  induction N with
  | zero => exact ⟨0, init_inv hn hd w dft ww x⟩
  | succ N ih =>
    obtain ⟨m, h⟩ := ih
    obtain ⟨m', h'⟩ := step_inv hn hd w dft ww x N m _ h
    refine ⟨m', ?_⟩
    have : run n dn w dft ww ((List.range (N + 1)).map x) =
        step (nPar n dn) n dn w dft ww (run n dn w dft ww ((List.range N).map x)) (x N) := by
      unfold run
      rw [List.range_succ, List.map_append, List.foldl_append]; rfl
    rw [this]; exact h'

/-! ### C38, C39, C40, C41 -/

theorem range_map_getD (xs : List K) : (List.range xs.length).map (fun (i : Nat) => xs.getD i 0) = xs := by
  refine List.ext_getElem (by simp) ?_
  intro i h1 h2
  simp [List.getElem?_eq_getElem h2]

/-- Everything the streaming loop hands to the basis update, for every stream, block length, separation,
    window and Fourier row: block `m` (for every `m` whose segment fits into the stream and no other) is
    emitted once, in order, at the time its last snapshot arrives, by slot `m % P` alone, with the value of
    the windowed Fourier sum of the segment starting at `m*dn + m/P` minus the mean of everything read so
    far. -/
theorem stream_exact [CharZero K] {n dn : Nat} (hn : 0 < n) (hd : 0 < dn) (w dft : Nat → K) (ww : K)
    (xs : List K) :
    ∃ M, (∀ m, m < M ↔ streamStart (nPar n dn) dn m + n ≤ xs.length) ∧
      (run n dn w dft ww xs).out = (List.range M).map fun (m : Nat) =>
        (streamStart (nPar n dn) dn m + n - 1, [m % nPar n dn],
          ww / (n : K) * ∑ t ∈ Finset.range n, w t * dft t *
            (xs.getD (streamStart (nPar n dn) dn m + t) 0 -
              (∑ i ∈ Finset.range (streamStart (nPar n dn) dn m + n), xs.getD i 0) /
                ((streamStart (nPar n dn) dn m + n : Nat) : K))) := by
  obtain ⟨M, h⟩ := run_inv hn hd w dft ww (fun i => xs.getD i 0) xs.length
  rw [range_map_getD] at h
  refine ⟨M, ?_, ?_⟩
  · intro m
    constructor
    · exact h.done m
    · intro hm
      by_contra hc
      have := streamStart_mono (P := nPar n dn) (dn := dn) (Nat.le_of_not_lt hc)
      have := h.busy
      omega
  · rw [h.out]; rfl

/-- C40: after any number of snapshots the running mean is their arithmetic mean. -/
theorem stream_mean [CharZero K] (P n dn : Nat) (w dft : Nat → K) (ww : K) (xs : List K) (hx : xs ≠ []) :
    (xs.foldl (step P n dn w dft ww) (initSt dn)).mu = xs.sum / (xs.length : K) := by
  have key : ∀ xs : List K, (xs.foldl (step P n dn w dft ww) (initSt dn)).count = xs.length ∧
      (xs.length : K) * (xs.foldl (step P n dn w dft ww) (initSt dn)).mu = xs.sum := by
    intro xs
    induction xs using List.reverseRecOn with
    | nil => simp [initSt]
    | append_singleton xs x ih =>
      rw [List.foldl_append]
      simp only [List.foldl_cons, List.foldl_nil, List.length_append, List.length_singleton]
      have hN1 : ((xs.length : K) + 1) ≠ 0 := by exact_mod_cast Nat.succ_ne_zero xs.length
      refine ⟨by simp [step, ih.1], ?_⟩
      simp only [step, ih.1, List.sum_append, List.sum_singleton, ← ih.2]
      push_cast
      field_simp
  have hl : (xs.length : K) ≠ 0 := by
    rw [Nat.cast_ne_zero]; exact fun h => hx (List.length_eq_zero_iff.1 h)
  rw [← (key xs).2]
  field_simp

example : (run (K := ℚ) 4 2 (fun _ => 1) (fun _ => 1) 1 [1, 2, 4, 9]).mu = 4 := by
  rw [run, stream_mean _ _ _ _ _ _ _ (by simp)]; norm_num

/-- C39: at every time every slot's index is below `n_dft`, at most one slot completes per snapshot, and the
    completing slot is the one whose block started first. -/
theorem stream_slots [CharZero K] {n dn : Nat} (hn : 0 < n) (hd : 0 < dn) (w dft : Nat → K) (ww : K)
    (xs : List K) :
    (∀ j, j < nPar n dn → (run n dn w dft ww xs).slots.t j < n) ∧
    (∀ i j, i < nPar n dn → j < nPar n dn → (run n dn w dft ww xs).slots.t i = (n : Int) - 1 →
      i ≠ j → (run n dn w dft ww xs).slots.t j < (run n dn w dft ww xs).slots.t i) ∧
    (∀ e ∈ (run n dn w dft ww xs).out, e.2.1.length = 1) := by
  obtain ⟨M, h⟩ := run_inv hn hd w dft ww (fun i => xs.getD i 0) xs.length
  rw [range_map_getD] at h
  have hP := nPar_pos hn hd
  refine ⟨?_, ?_, ?_⟩
  · intro j hj
    rw [h.t j hj]
    have := streamStart_mono (P := nPar n dn) (dn := dn) (blk_ge (m := M) hP hj).1
    have := h.busy
    omega
  · intro i j hi hj hc hij
    rw [h.t i hi] at hc ⊢
    rw [h.t j hj]
    have h1 := blk_ge (m := M) hP hi
    have h2 := blk_ge (m := M) hP hj
    have h3 := streamStart_mono (P := nPar n dn) (dn := dn) h1.1
    have h4 := h.busy
    have hbi : slotBlk (nPar n dn) M i = M := by
      by_contra hne
      have h5 := streamStart_lt (P := nPar n dn) (dn := dn) (lt_of_le_of_ne h1.1 (Ne.symm hne))
      omega
    have hir := h1.2.1.1 hbi
    have hjM : M < slotBlk (nPar n dn) M j :=
      lt_of_le_of_ne h2.1 (fun e => hij (hir.trans (h2.2.1.1 e.symm).symm))
    have h5 := streamStart_lt (P := nPar n dn) (dn := dn) hjM
    rw [hbi]
    omega
  · intro e he
    rw [h.out, List.mem_map] at he
    obtain ⟨m, _, rfl⟩ := he
    rfl

example : (run (K := ℚ) 4 2 (fun _ => 1) (fun _ => 1) 1 [1, 2, 3, 4, 5, 6, 7, 8, 9]).out.map (fun e => (e.1, e.2.1)) =
    [(3, [0]), (5, [1]), (8, [0])] := by
  decide +kernel

/-- C38, the part that holds: the first `ceil(n/dn)` blocks start where the standard algorithm's blocks
    start, at multiples of `dn`. -/
theorem stream_first_blocks_partial (P dn m : Nat) (h : m < P) : streamStart P dn m = m * dn := by
  unfold streamStart; rw [Nat.div_eq_of_lt h]; rfl

/-- C38 fails after that: from block `P` on every block starts later than the standard one; the delay is one
    snapshot per turn and grows without bound. -/
theorem stream_blocks_fails (P dn m : Nat) (hP : 0 < P) (h : P ≤ m) :
    m * dn < streamStart P dn m ∧ streamStart P dn m = m * dn + m / P := by
  unfold streamStart
  have := Nat.div_pos h hP
  omega

/-- In particular with no overlap one snapshot is dropped between any two consecutive blocks: snapshot
    `m*(n+1)+n` lies in no block. -/
theorem stream_no_overlap_drops (n m b t : Nat) (hn : 0 < n) (ht : t < n) :
    streamStart (nPar n n) n b + t ≠ m * (n + 1) + n := by
  have hP : nPar n n = 1 := by
    unfold nPar
    rw [show n + n - 1 = n * 1 + (n - 1) from by omega, Nat.mul_add_div hn, Nat.div_eq_of_lt (by omega)]
  rw [hP]
  unfold streamStart
  rw [Nat.div_one]
  intro h
  have h1 : b * n + b = b * (n + 1) := by ring
  rw [h1] at h
  have : (b * (n + 1) + t) % (n + 1) = t := by
    rw [Nat.mul_comm, Nat.mul_add_mod, Nat.mod_eq_of_lt (by omega)]
  rw [h, Nat.mul_comm, Nat.mul_add_mod, Nat.mod_eq_of_lt (by omega)] at this
  omega

/-- C38 fails end to end: with 4-point blocks, 50% overlap and 8 snapshots (three standard blocks, starting
    at 0, 2, 4) streaming emits two. -/
theorem stream_count_fails : (run (K := ℚ) 4 2 (fun _ => 1) (fun _ => 1) 1 [1, 2, 3, 4, 5, 6, 7, 8]).out.length = 2 ∧
    Spod.nBlocks 8 4 2 = 3 := by
  decide +kernel

/-- C41: the value emitted for a block is the windowed Fourier transform (row `dft`) of the block's snapshots
    minus running mean times the transform of the window, scaled by `win_weight / n`. -/
theorem stream_dft [CharZero K] {n dn : Nat} (hn : 0 < n) (hd : 0 < dn) (w dft : Nat → K) (ww : K)
    (xs : List K) (m : Nat) (hm : streamStart (nPar n dn) dn m + n ≤ xs.length) :
    ((run n dn w dft ww xs).out[m]?).map (·.2.2) = some (ww / (n : K) *
      ((∑ t ∈ Finset.range n, dft t * (w t * xs.getD (streamStart (nPar n dn) dn m + t) 0)) -
        (∑ t ∈ Finset.range n, dft t * w t) *
          ((xs.take (streamStart (nPar n dn) dn m + n)).sum / ((streamStart (nPar n dn) dn m + n : Nat) : K)))) := by
  obtain ⟨M, hM, ho⟩ := stream_exact hn hd w dft ww xs
  have hmM := (hM m).2 hm
  rw [ho, List.getElem?_map, List.getElem?_range hmM]
  simp only [Option.map_some, Option.some.injEq]
  congr 1
  have e : (xs.take (streamStart (nPar n dn) dn m + n)).sum =
      ∑ i ∈ Finset.range (streamStart (nPar n dn) dn m + n), xs.getD i 0 := by
    generalize streamStart (nPar n dn) dn m + n = c at *
    clear ho hM
    induction c with
    | zero => simp
    | succ c ih =>
      rw [Finset.sum_range_succ, ← ih (by omega), List.take_add_one, List.sum_append,
        List.getElem?_eq_getElem (by omega), List.getD_eq_getElem _ _ (by omega)]
      simp
  rw [e, Finset.sum_mul, ← Finset.sum_sub_distrib]
  refine Finset.sum_congr rfl ?_
  intro t _
  ring

/-- The Fourier rows are the DFT: entry `(t,k)` of `fft(identity)` is `ω^(t*k)`; for real data the interior
    stored frequencies are doubled. -/
theorem stream_dft_entries {R} [CommSemiring R] (ω : R) (nFreq k t : Nat) :
    dftMat ω false nFreq k t = ω ^ (t * k) ∧
    (1 ≤ k → k + 1 < nFreq → dftMat ω true nFreq k t = 2 * ω ^ (t * k)) ∧
    ((k = 0 ∨ k + 1 = nFreq) → dftMat ω true nFreq k t = ω ^ (t * k)) := by
  refine ⟨by simp [dftMat], ?_, ?_⟩
  · intro h1 h2; simp [dftMat, h1, h2]
  · rintro (rfl | h)
    · simp [dftMat]
    · unfold dftMat; rw [if_neg]; omega

end Verif.Props
