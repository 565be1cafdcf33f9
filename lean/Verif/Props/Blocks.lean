import Verif.Model.SpodBase
import Verif.Props.Reader2
import Mathlib.Tactic.Linarith
import Mathlib.Tactic.Positivity
import Mathlib.Tactic.Ring
import Mathlib.Tactic.FieldSimp
import Mathlib.Tactic.NormNum
/-
  C17, C18, C19: blocks of the spectral estimation.
-/
namespace Verif.Props
open Verif Verif.Par Verif.Rd Verif.Spod

/-! ### C17 -/

/-- **C17.** For every record length, block length and overlap smaller than the block, with
    `dn = nDft - nOvlp` and `nb` the number of blocks used by a fit:
    * block `i < nb` starts at `i*dn`, lies inside `[0, nt)`;
    * consecutive blocks share exactly `nOvlp` snapshots (the next block starts `nOvlp` before the end);
    * a further block would not fit, and if there is a block, fewer than `dn` snapshots stay unused. -/
theorem blocks_position (nt nDft nOvlp : Int) (hov : nOvlp ≤ nDft - 1) :
    (∀ i, 0 ≤ i → i < nBlocks nt nDft nOvlp →
      offset nt nDft nOvlp i = i * (nDft - nOvlp) ∧ 0 ≤ offset nt nDft nOvlp i ∧
      offset nt nDft nOvlp i + nDft ≤ nt) ∧
    (∀ i, 0 ≤ i → i + 1 < nBlocks nt nDft nOvlp →
      offset nt nDft nOvlp i + nDft - offset nt nDft nOvlp (i + 1) = nOvlp) ∧
    (nt < nBlocks nt nDft nOvlp * (nDft - nOvlp) + nDft) ∧
    (0 < nBlocks nt nDft nOvlp →
      nt - (offset nt nDft nOvlp (nBlocks nt nDft nOvlp - 1) + nDft) < nDft - nOvlp) := by
  have hd : 0 < nDft - nOvlp := by omega
  have e : nBlocks nt nDft nOvlp = (nt - nOvlp) / (nDft - nOvlp) := by
    unfold nBlocks; rw [Int.fdiv_eq_ediv_of_nonneg _ (by omega)]
  have h1 : nBlocks nt nDft nOvlp * (nDft - nOvlp) ≤ nt - nOvlp := by
    rw [e]; exact Int.ediv_mul_le _ (by omega)
  have h2 : nt - nOvlp < (nBlocks nt nDft nOvlp + 1) * (nDft - nOvlp) := by
    rw [e]; exact Int.lt_ediv_add_one_mul_self _ hd
  have key : ∀ i, 0 ≤ i → i < nBlocks nt nDft nOvlp →
      offset nt nDft nOvlp i = i * (nDft - nOvlp) ∧ i * (nDft - nOvlp) + nDft ≤ nt := by
    intro i _ hi
    have : (i + 1) * (nDft - nOvlp) ≤ nBlocks nt nDft nOvlp * (nDft - nOvlp) :=
      Int.mul_le_mul_of_nonneg_right (by omega) (by omega)
    have h3 : i * (nDft - nOvlp) + nDft ≤ nt := by linarith
    refine ⟨?_, h3⟩
    unfold offset; rw [min_eq_left h3]; ring
  refine ⟨fun i hi hi' => ?_, fun i hi hi' => ?_, by linarith, fun hp => ?_⟩
  · obtain ⟨a, b⟩ := key i hi hi'
    refine ⟨a, ?_, by linarith⟩
    rw [a]; exact Int.mul_nonneg hi (by omega)
  · rw [(key i hi (by omega)).1, (key (i + 1) (by omega) hi').1]; ring
  · rw [(key (nBlocks nt nDft nOvlp - 1) (by omega) (by omega)).1]
    linarith

/-- C17, number: with a nonnegative overlap the number of blocks is the largest `n` such that `n` blocks
    placed every `nDft - nOvlp` snapshots fit into the record. -/
theorem blocks_number (nt nDft nOvlp : Int) (hov : nOvlp ≤ nDft - 1) (n : Int) :
    n ≤ nBlocks nt nDft nOvlp ↔ (n - 1) * (nDft - nOvlp) + nDft ≤ nt := by
  have hd : 0 < nDft - nOvlp := by omega
  unfold nBlocks
  rw [Int.fdiv_eq_ediv_of_nonneg _ (by omega), Int.le_ediv_iff_mul_le hd]
  constructor <;> intro h <;> linarith

example : nBlocks 100 16 8 = 11 ∧ offset 100 16 8 10 = 80 ∧ (80 : Int) + 16 ≤ 100 ∧ feasible 16 11 = .ok () := by
  decide

/-- The two rejections of base.py:465-466 leave exactly the usable configurations: an accepted fit has at
    least two blocks inside the record. -/
theorem feasible_iff (nt nDft nOvlp : Int) (hov : nOvlp ≤ nDft - 1) :
    feasible nDft (nBlocks nt nDft nOvlp) = .ok () ↔ 4 ≤ nDft ∧ (nDft - nOvlp) + nDft ≤ nt := by
  have := blocks_number nt nDft nOvlp hov 2
  unfold feasible
  split
  · rename_i h
    simp only [reduceCtorEq, false_iff, not_and]
    intro h4 hc
    rcases h with h | h
    · omega
    · have := this.2 (by omega); omega
  · rename_i h
    simp only [not_or, not_lt] at h
    simp only [true_iff]
    have := this.1 (by omega)
    omega

/-! ### C18 -/

/-- **C18.** For a percentage in `[0,100)`: the overlap is the smallest integer not below
    `nDft*overlap/100`, it is accepted exactly when it is at most `nDft-1`, otherwise an error is raised;
    an accepted overlap leaves a positive distance between consecutive blocks. -/
theorem overlap_spec (nDft : Int) (overlap : ℚ) (hn : 0 < nDft) (h0 : 0 ≤ overlap) :
    ∃ o : Int, 0 ≤ o ∧ (o : ℚ) - 1 < nDft * overlap / 100 ∧ (nDft : ℚ) * overlap / 100 ≤ o ∧
      (nOverlap nDft overlap = .ok o ↔ o ≤ nDft - 1) ∧
      (nOverlap nDft overlap = .error "Overlap is too large." ↔ nDft - 1 < o) ∧
      (o ≤ nDft - 1 ↔ overlap ≤ 100 * ((nDft : ℚ) - 1) / nDft) ∧
      ∀ o', nOverlap nDft overlap = .ok o' → o' = o ∧ 0 < nDft - o' := by
  have hq : (0 : ℚ) < nDft := by exact_mod_cast hn
  refine ⟨⌈(nDft : ℚ) * overlap / 100⌉, ?_, ?_, Int.le_ceil _, ?_, ?_, ?_, ?_⟩
  · exact Int.ceil_nonneg (by positivity)
  · have := Int.ceil_lt_add_one ((nDft : ℚ) * overlap / 100); linarith
  · unfold nOverlap; simp only; split <;> simp <;> omega
  · unfold nOverlap; simp only; split <;> simp <;> omega
  · rw [Int.ceil_le, le_div_iff₀ hq]
    push_cast
    constructor <;> intro h <;> linarith
  · intro o' h
    unfold nOverlap at h; simp only at h
    split at h
    · simp at h
    · simp only [Except.ok.injEq] at h; omega

/-- C18, rejection also at the other end: percentages of 100 or more are always rejected. -/
theorem overlap_ge_hundred (nDft : Int) (overlap : ℚ) (hn : 0 < nDft) (h : 100 ≤ overlap) :
    nOverlap nDft overlap = .error "Overlap is too large." := by
  have hq : (0 : ℚ) < nDft := by exact_mod_cast hn
  have : (nDft : Int) ≤ ⌈(nDft : ℚ) * overlap / 100⌉ := by
    have h1 : (nDft : ℚ) ≤ nDft * overlap / 100 := by
      rw [le_div_iff₀ (by norm_num)]; nlinarith
    exact_mod_cast h1.trans (Int.le_ceil _)
  unfold nOverlap; simp only; rw [if_pos (by omega)]

example : nOverlap 16 50 = .ok 8 := by
  unfold nOverlap; norm_num
example : nOverlap 16 95 = .error "Overlap is too large." := by
  unfold nOverlap
  have : (⌈((16 : Int) : ℚ) * 95 / 100⌉ : Int) = 16 := by
    rw [Int.ceil_eq_iff]; norm_num
  simp only [this]; norm_num

/-! ### C19 -/

/-- Specification: the dictionary pieces tile `[a, frames.length)` and hold the frames of their interval. -/
def GoodPieces {β} (frames : List β) (a : Nat) (data : List (Piece β)) : Prop :=
  Tiles a frames.length (data.map fun p => (p.1, p.2.1)) ∧ ∀ p ∈ data, p.2.2 = pslice frames p.1 p.2.1

theorem pslice_length {β} (l : List β) (a b : Nat) : (pslice l a b).length = min (b - a) (l.length - a) := by
  simp [pslice]

theorem pslice_pslice {β} (l : List β) (s e i j : Nat) (h : s + j ≤ e) :
    pslice (pslice l s e) i j = pslice l (s + i) (s + j) := by
  simp only [pslice]
  rw [List.drop_take, List.drop_drop, List.take_take]
  congr 1
  omega

theorem pslice_append {β} (l : List β) (a b c : Nat) (h : a ≤ b) (h' : b ≤ c) :
    pslice l a b ++ pslice l b c = pslice l a c := by
  simp only [pslice]
  have e : l.drop b = (l.drop a).drop (b - a) := by rw [List.drop_drop]; congr 1; omega
  rw [e]
  have : c - a = (b - a) + (c - b) := by omega
  rw [this, List.take_add]

theorem assignSlice_exact {β} (buf src : List β) (a n : Nat) (h : a + n ≤ buf.length) (hs : src.length = n) :
    assignSlice buf a (a + n) src = some (buf.take a ++ src ++ buf.drop (a + n)) := by
  unfold assignSlice
  have : min (a + n) buf.length - a = n := by omega
  simp only [this, hs, ↓reduceIte]

theorem GoodPieces.tail {β} {frames : List β} {a : Nat} {p : Piece β} {ps : List (Piece β)}
    (h : GoodPieces frames a (p :: ps)) :
    p.1 = a ∧ p.1 ≤ p.2.1 ∧ p.2.2 = pslice frames p.1 p.2.1 ∧ p.2.1 ≤ frames.length ∧
      GoodPieces frames p.2.1 ps := by
  obtain ⟨ht, hv⟩ := h
  simp only [List.map_cons, Tiles] at ht
  exact ⟨ht.1, ht.2.1, hv p (by simp), ht.2.2.le, ht.2.2, fun q hq => hv q (by simp [hq])⟩

/-- Loop invariant of standard.py:373-388 (`p` = end of the pieces treated so far). -/
theorem blockLoop_spec {β} (frames : List β) (start n : Nat) (hn : start + n ≤ frames.length)
    (data : List (Piece β)) (p : Nat) (hg : GoodPieces frames p data) (buf : List β) (hl : buf.length = n)
    (cnt : Nat) (hc : start + cnt = min (max start p) (start + n))
    (hb : buf.take cnt = pslice frames start (start + cnt)) :
    ∃ buf', blockLoop (start + n) data (cnt, start + cnt, buf) = some (n, start + n, buf') ∧
      buf' = pslice frames start (start + n) := by
  induction data generalizing p buf cnt with
  | nil =>
    have : p = frames.length := hg.1
    have hcn : cnt = n := by omega
    subst hcn
    refine ⟨buf, rfl, ?_⟩
    rw [← hb, List.take_of_length_le (by omega)]
  | cons q qs ih =>
    obtain ⟨vs, ve, v⟩ := q
    obtain ⟨h1, h2, h3, h4, h5⟩ := hg.tail
    simp only at h1 h2 h3 h4 h5
    subst h1
    simp only [blockLoop]
    split
    · rename_i hgt
      have hsrc : pslice v (max vs (start + cnt) - vs) (min ve (start + n) - vs) =
          pslice frames (start + cnt) (min ve (start + n)) := by
        rw [h3, pslice_pslice _ _ _ _ _ (by omega)]
        congr 1 <;> omega
      have hmax : max vs (start + cnt) = start + cnt := by omega
      rw [hmax] at hgt ⊢
      rw [hmax] at hsrc
      rw [assignSlice_exact _ _ _ _ (by omega) (by rw [hsrc, pslice_length]; omega), hsrc]
      simp only
      obtain ⟨b', e1, e2⟩ := ih ve h5
        (buf.take cnt ++ pslice frames (start + cnt) (min ve (start + n)) ++
          buf.drop (cnt + (min ve (start + n) - (start + cnt))))
        (by simp [pslice_length]; omega) (cnt + (min ve (start + n) - (start + cnt))) (by omega)
        (by
          rw [List.take_append_of_le_length (by simp [pslice_length]; omega),
            List.take_of_length_le (by simp [pslice_length]; omega), hb, pslice_append _ _ _ _ (by omega) (by omega)]
          congr 1; omega)
      refine ⟨b', ?_, e2⟩
      rw [← e1, ← Nat.add_assoc]
    · rename_i hgt
      exact ih ve h5 buf hl cnt (by omega) hb

theorem filter_good {β} (frames : List β) (start a : Nat) (data : List (Piece β))
    (hg : GoodPieces frames a data) (ha : a ≤ start) :
    ∃ a', a' ≤ start ∧ GoodPieces frames a' (data.filter fun p => ¬ start > p.2.1) := by
  induction data generalizing a with
  | nil => exact ⟨a, ha, hg⟩
  | cons q qs ih =>
    obtain ⟨h1, h2, h3, h4, h5⟩ := hg.tail
    by_cases hd : start > q.2.1
    · obtain ⟨a', ha', h'⟩ := ih q.2.1 h5 (by omega)
      refine ⟨a', ha', ?_⟩
      rw [List.filter_cons]; simp only [hd, not_true_eq_false, decide_false, Bool.false_eq_true, ↓reduceIte]
      exact h'
    · refine ⟨a, ha, ?_⟩
      have : ∀ (l : List (Piece β)) (x : Nat), start ≤ x → GoodPieces frames x l →
          (l.filter fun p => ¬ start > p.2.1) = l := by
        intro l
        induction l with
        | nil => intros; rfl
        | cons r rs ihr =>
          intro x hx hr
          obtain ⟨g1, g2, _, _, g5⟩ := hr.tail
          rw [List.filter_cons, ihr r.2.1 (by omega) g5]
          have : ¬ start > r.2.1 := by omega
          simp [this]
      rw [List.filter_cons, this qs q.2.1 (by omega) h5]
      simp only [hd, not_false_eq_true, decide_true, ↓reduceIte]
      exact hg

/-- The last piece is never dropped while it is still needed. -/
theorem getLast_filter {β} (frames : List β) (start a : Nat) (data : List (Piece β))
    (hg : GoodPieces frames a data) (hs : start ≤ frames.length) (lp : Piece β) (hl : data.getLast? = some lp) :
    (data.filter fun p => ¬ start > p.2.1).getLast? = some lp := by
  induction data generalizing a with
  | nil => simp at hl
  | cons q qs ih =>
    obtain ⟨h1, h2, h3, h4, h5⟩ := hg.tail
    cases qs with
    | nil =>
      simp only [List.getLast?_singleton, Option.some.injEq] at hl
      have : q.2.1 = frames.length := h5.1
      subst hl
      simp [this, hs]
    | cons r rs =>
      have hl' : (r :: rs).getLast? = some lp := by simpa [List.getLast?_cons_cons] using hl
      have := ih q.2.1 h5 hl'
      rw [List.filter_cons]
      split
      · rw [List.getLast?_cons, this]; rfl
      · exact this

/-- One call of `_get_block`. -/
theorem getBlock_spec {β} (junk : β) (frames : List β) (a start n : Nat) (data : List (Piece β))
    (hg : GoodPieces frames a data) (ha : a ≤ start) (hn : start + n ≤ frames.length)
    (lp : Piece β) (hl : data.getLast? = some lp) (hlp : lp.2.2.length ≠ 0) :
    ∃ data' a', getBlock junk n data start (start + n) = some (pslice frames start (start + n), data') ∧
      a' ≤ start ∧ GoodPieces frames a' data' ∧ data'.getLast? = some lp := by
  obtain ⟨buf', e1, e2⟩ := blockLoop_spec frames start n hn data a hg (List.replicate n junk) (by simp) 0
    (by omega) (by simp [pslice])
  obtain ⟨a', ha', hg'⟩ := filter_good frames start a data hg ha
  refine ⟨data.filter fun p => ¬ start > p.2.1, a', ?_, ha', hg',
    getLast_filter frames start a data hg (by omega) lp hl⟩
  unfold getBlock
  rw [hl]
  simp only
  simp only [Nat.add_zero] at e1
  rw [e1]
  have hc : ¬ ((n : Int) ≠ ((start + n : Nat) : Int) - start) := by omega
  simp only [hc, hlp, ↓reduceIte, e2]

/-- **C19.** Let the pieces tile `[0, nt)` and hold the snapshots of their interval (that is what the
    two-stage reader returns, C14), the last one being non-empty.  For every block length and *every*
    non-decreasing list of block starts that fit into the record, the successive calls of `_get_block`,
    which delete pieces on the way, return exactly the snapshots `[start, start+n)` – the same as cutting
    them from one array. -/
theorem getBlocks_correct {β} (junk : β) (frames : List β) (n : Nat) (starts : List Nat)
    (data : List (Piece β)) (hg : GoodPieces frames 0 data) (lp : Piece β) (hl : data.getLast? = some lp)
    (hlp : lp.2.2.length ≠ 0) (hmono : starts.Pairwise (· ≤ ·)) (hfit : ∀ s ∈ starts, s + n ≤ frames.length) :
    getBlocks junk n data starts = some (starts.map fun s => getBlockArr frames s (s + n)) := by
  suffices ∀ a, (∀ s ∈ starts, a ≤ s) → GoodPieces frames a data →
      getBlocks junk n data starts = some (starts.map fun s => getBlockArr frames s (s + n)) from
    this 0 (fun _ _ => Nat.zero_le _) hg
  clear hg
  induction starts generalizing data with
  | nil => intro a _ _; rfl
  | cons s ss ih =>
    intro a ha hg
    obtain ⟨data', a', e1, ha', hg', hl'⟩ := getBlock_spec junk frames a s n data hg (ha s (by simp))
      (hfit s (by simp)) lp hl hlp
    rw [List.pairwise_cons] at hmono
    have := ih data' hl' hmono.2 (fun t ht => hfit t (by simp [ht])) a'
      (fun t ht => ha'.trans (hmono.1 t ht)) hg'
    simp only [getBlocks, e1, this, List.map_cons, Option.map_some, getBlockArr]

theorem dictPieces_getLast {β} (get : Nat → Nat → List β) (nt c b : Nat) :
    (dictPieces get nt (c + 1) (b + 1)).getLast? =
      some (startOf nt (c + 1) c + startOf (countOf nt (c + 1) c) (b + 1) b,
        startOf nt (c + 1) c + startOf (countOf nt (c + 1) c) (b + 1) b + countOf (countOf nt (c + 1) c) (b + 1) b,
        pslice (get (startOf nt (c + 1) c) (startOf nt (c + 1) c + countOf nt (c + 1) c))
          (startOf (countOf nt (c + 1) c) (b + 1) b)
          (startOf (countOf nt (c + 1) c) (b + 1) b + countOf (countOf nt (c + 1) c) (b + 1) b)) := by
  unfold dictPieces
  rw [List.range_succ (n := c), List.flatMap_append, List.flatMap_singleton]
  simp only [List.range_succ (n := b), List.map_append, List.map_cons, List.map_nil, ← List.append_assoc]
  rw [List.getLast?_append]
  rfl

theorem countOf_last (N c : Nat) : countOf N (c + 1) c = N / (c + 1) := by
  unfold countOf blockdist
  have : ¬ N % (c + 1) > c := by have := Nat.mod_lt N (show 0 < c + 1 by omega); omega
  simp [this]

/-- C19 for the blocks of an actual fit on data from the two-stage reader: the dictionary produced by
    reader and the offsets of standard.py:160-161. -/
theorem fit_blocks_two_stage {β} (junk : β) (frames : List β) (get : Nat → Nat → List β)
    (hget : ∀ s e, s ≤ e → e ≤ frames.length → get s e = pslice frames s e)
    (nchunks nblks : Nat) (hc : 0 < nchunks) (hb : 0 < nblks) (nDft : Nat) (nOvlp : Int)
    (hov : nOvlp ≤ (nDft : Int) - 1) 
    (hlen : nchunks * nblks ≤ frames.length) :
    getBlocks junk nDft (dictPieces get frames.length nchunks nblks)
      ((List.range (nBlocks frames.length nDft nOvlp).toNat).map fun (i : Nat) =>
        (offset frames.length nDft nOvlp i).toNat) =
    some ((List.range (nBlocks frames.length nDft nOvlp).toNat).map fun (i : Nat) =>
      pslice frames (i * (nDft - nOvlp).toNat) (i * (nDft - nOvlp).toNat + nDft)) := by
  have hp := blocks_position frames.length nDft nOvlp hov
  have hoff : ∀ i : Nat, i < (nBlocks frames.length nDft nOvlp).toNat →
      (offset frames.length nDft nOvlp i).toNat = i * (nDft - nOvlp).toNat ∧
      i * (nDft - nOvlp).toNat + nDft ≤ frames.length := by
    intro i hi
    have := hp.1 i (by omega) (by omega)
    obtain ⟨h1, h2, h3⟩ := this
    have hd : ((nDft - nOvlp).toNat : Int) = nDft - nOvlp := by omega
    have hm : ((i * (nDft - nOvlp).toNat : Nat) : Int) = i * (nDft - nOvlp) := by
      rw [Nat.cast_mul, hd]
    omega
  have hmap : ((List.range (nBlocks frames.length nDft nOvlp).toNat).map fun i : Nat =>
        (offset frames.length nDft nOvlp i).toNat) =
      (List.range (nBlocks frames.length nDft nOvlp).toNat).map fun i : Nat => i * (nDft - nOvlp).toNat := by
    apply List.map_congr_left
    intro i hi
    exact (hoff i (by simpa using hi)).1
  have hct := reader2_dict_content frames nchunks nblks get hget
  obtain ⟨lp, hl, hlp⟩ : ∃ lp, (dictPieces get frames.length nchunks nblks).getLast? = some lp ∧
      lp.2.2.length ≠ 0 := by
    obtain ⟨c, rfl⟩ : ∃ c, nchunks = c + 1 := ⟨nchunks - 1, by omega⟩
    obtain ⟨b, rfl⟩ : ∃ b, nblks = b + 1 := ⟨nblks - 1, by omega⟩
    refine ⟨_, dictPieces_getLast get frames.length c b, ?_⟩
    have hmem := List.mem_of_getLast? (dictPieces_getLast get frames.length c b)
    have hval := hct.2 _ hmem
    simp only at hval ⊢
    rw [hval, pslice_length]
    have h1 := blockdist_end frames.length (c + 1) c (by omega) (by omega)
    have h2 := blockdist_end (countOf frames.length (c + 1) c) (b + 1) b (by omega) (by omega)
    have h3 : 0 < countOf (countOf frames.length (c + 1) c) (b + 1) b := by
      rw [countOf_last, countOf_last, Nat.div_div_eq_div_mul]
      exact Nat.div_pos hlen (by positivity)
    omega
  rw [hmap, getBlocks_correct junk frames nDft _ _ ⟨hct.1 ▸ reader2_dict_tiles _ _ _ hc hb, hct.2⟩ lp hl hlp]
  · simp only [List.map_map]; rfl
  · rw [List.pairwise_map]
    refine List.Pairwise.imp ?_ List.pairwise_lt_range
    intro x y hxy
    exact Nat.mul_le_mul_right _ hxy.le
  · intro s hs
    simp only [List.mem_map, List.mem_range] at hs
    obtain ⟨i, hi, rfl⟩ := hs
    exact (hoff i hi).2

example : getBlocks 0 4 [(0, 3, [10, 11, 12]), (3, 5, [13, 14]), (5, 8, [15, 16, 17])] [0, 2, 4] =
    some [[10, 11, 12, 13], [12, 13, 14, 15], [14, 15, 16, 17]] := by decide

/-- The hypothesis on the last piece matters: with the reader's own partition (3 chunks of 3 blocks) a
    record of fewer than nine snapshots has an empty last piece and extracting a block raises
    (standard.py:401, also base.py:594). -/
theorem two_stage_short_record_fails {β} (junk : β) (frames : List β) (get : Nat → Nat → List β)
    (h9 : frames.length < 9)
    (nDft start : Nat) :
    getBlock junk nDft (dictPieces get frames.length 3 3) start (start + nDft) = none := by
  unfold getBlock
  rw [dictPieces_getLast get frames.length 2 2]
  simp only
  split
  · rfl
  · split
    · rfl
    · have h0 : countOf (countOf frames.length (2 + 1) 2) (2 + 1) 2 = 0 := by
        rw [countOf_last, countOf_last]; omega
      rw [if_pos]
      simp [pslice_length, h0]

end Verif.Props
