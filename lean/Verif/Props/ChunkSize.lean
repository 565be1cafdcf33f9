import Verif.Props.FitFiles
import Verif.Props.Reader2
import Verif.Props.Reader3
/-
  C228: how much a rank reads at a time (pyspod/utils/reader.py:217-226, 247-258, 384-391, 512-523, 548-560).
-/
namespace Verif.Props
open Verif Verif.Par Verif.Fit Verif.Rd

/-- no share is larger than the average, rounded up -/
theorem share_le (n p q : Nat) (hp : 0 < p) : (blockdist n p q).1 * p ≤ n + p - 1 := by
  have h := Nat.div_add_mod n p
  have h2 := Nat.mod_lt n hp
  simp only [blockdist]
  have h3 : n / p * p = p * (n / p) := Nat.mul_comm _ _
  split
  · show (n / p + _) * p ≤ _
    split
    · rw [Nat.add_mul]; omega
    · rw [Nat.add_mul]; omega
  · omega

/-- the arithmetic of C228 -/
theorem chunk_arith (nt R p nc k q : Nat) (hp : 0 < p) (hnc : 0 < nc) (h : nt * R < p * 2 ^ 28 * (nc + 1)) :
    (blockdist (blockdist nt nc k).1 p q).1 * R < 2 ^ 29 + R := by
  set n := (blockdist nt nc k).1
  set m := (blockdist n p q).1
  have h1 : n * nc ≤ nt + nc - 1 := share_le nt nc k hnc
  have h2 : m * p ≤ n + p - 1 := share_le n p q hp
  have h1' : n * nc + 1 ≤ nt + nc := by omega
  have h2' : m * p + 1 ≤ n + p := by omega
  have h3 : (m * p + 1) * nc ≤ (n + p) * nc := Nat.mul_le_mul_right _ h2'
  have h4 : m * p * nc + 1 ≤ nt + p * nc := by nlinarith
  have h5 : (m * p * nc + 1) * R ≤ (nt + p * nc) * R := Nat.mul_le_mul_right _ h4
  have h6 : p * 2 ^ 28 * (nc + 1) ≤ p * nc * 2 ^ 29 := by
    have : p * (nc + 1) ≤ p * (nc + nc) := Nat.mul_le_mul_left _ (by omega)
    nlinarith
  have h7 : (m * R) * (p * nc) < (2 ^ 29 + R) * (p * nc) := by nlinarith
  exact lt_of_mul_lt_mul_right h7 (Nat.zero_le _)

/-- reading is by whole chunks: nothing else of the data is asked for -/
theorem pieces_local {β} (get get' : Nat → Nat → List β) (nt nc nb : Nat)
    (h : ∀ k < nc, get (blockdist nt nc k).2 ((blockdist nt nc k).2 + (blockdist nt nc k).1) =
      get' (blockdist nt nc k).2 ((blockdist nt nc k).2 + (blockdist nt nc k).1)) : dictPieces get nt nc nb = dictPieces get' nt nc nb := by
  unfold dictPieces
  refine List.flatMap_congr fun k hk => ?_
  simp only [h k (List.mem_range.1 hk)]

/-- what rank `q` of `p` holds of chunk `k` of `nc`: a list of snapshots -/
def ChunkRead {β} (zero : β) (names : List String) (content : String → NcFile β) (nt nc p k q : Nat) (l : List β) : Prop :=
  inputData2 zero names content p (blockdist nt nc k).2 ((blockdist nt nc k).2 + (blockdist nt nc k).1) q = some l

theorem pslice_length_le {β} (l : List β) (s e : Nat) : (pslice l s e).length ≤ e - s := by
  simp only [pslice, List.length_take, List.length_drop]
  omega

theorem chunk_end (nt nc k : Nat) (hk : k < nc) : (blockdist nt nc k).2 + (blockdist nt nc k).1 ≤ nt := by
  have h := Nat.div_add_mod nt nc
  simp only [blockdist, if_pos hk]
  have h1 : (k + 1) * (nt / nc) ≤ nc * (nt / nc) := Nat.mul_le_mul_right _ hk
  rw [Nat.add_mul, Nat.one_mul] at h1
  split <;> omega

/-- **C228 (NetCDF), the part that holds.** A NetCDF data set of `nt` snapshots of `nx` points and `nv` variables of `item` bytes read on `p` ranks, in the number of
    chunks the reader announces: whatever chunk and rank, the rank reads less than 512 MB plus one snapshot at a time. -/
theorem chunk_size_partial {β} (zero : β) (names : List String) (content : String → NcFile β) (hnd : names.Nodup) (hwf : ∀ f ∈ names, NcWF (content f))
    (nx nv item p : Nat) (hp : 0 < p) (nt : Nat) (hnt : nt = (names.map fun f => (content f).snaps).flatten.length) :
    ∀ k < nChunks nt nx nv item p, ∀ q < p, ∃ l, ChunkRead zero names content nt (nChunks nt nx nv item p) p k q l ∧
      l.length * (nx * nv * item) < 512 * 1024 * 1024 + nx * nv * item := by
  intro k hk q hq
  have he := chunk_end nt _ k hk
  refine ⟨_, inputData2_spec zero names content hnd hwf p _ _ q hp (Nat.le_add_right _ _) (hnt ▸ he), ?_⟩
  refine lt_of_le_of_lt (Nat.mul_le_mul_right _ (pslice_length_le _ _ _)) ?_
  rw [Nat.add_sub_cancel_left, Nat.add_sub_cancel_left]
  refine chunk_arith nt (nx * nv * item) p _ k q hp (by omega) ?_
  have h1 : nt * (nx * nv * item) / (p * 2 ^ 28) ≤ nChunks nt nx nv item p := Nat.le_max_left _ _
  have h2 := Nat.lt_mul_div_succ (nt * (nx * nv * item)) (show 0 < p * 2 ^ 28 by positivity)
  exact h2.trans_le (Nat.mul_le_mul_left _ (by omega))

/-- **C228 fails.** Not 256 MB, as announced (reader.py:225): 9 snapshots of 128 MB read on one rank, in 4 chunks, the first of them of 384 MB. -/
theorem chunk_size_fails {β} (zero : β) (names : List String) (content : String → NcFile β) (hnd : names.Nodup) (hwf : ∀ f ∈ names, NcWF (content f))
    (h9 : (names.map fun f => (content f).snaps).flatten.length = 9) :
    nChunks 9 (2 ^ 24) 1 8 1 = 4 ∧ ∃ l, ChunkRead zero names content 9 4 1 0 0 l ∧ l.length * (2 ^ 24 * 1 * 8) = 384 * 1024 * 1024 := by
  refine ⟨by norm_num [nChunks], _, inputData2_spec zero names content hnd hwf 1 _ _ 0 (by omega) (Nat.le_add_right _ _) (h9 ▸ chunk_end 9 4 0 (by omega)), ?_⟩
  have : (pslice (names.map fun f => (content f).snaps).flatten
        ((blockdist 9 4 0).2 + startOf ((blockdist 9 4 0).2 + (blockdist 9 4 0).1 - (blockdist 9 4 0).2) 1 0)
        ((blockdist 9 4 0).2 + startOf ((blockdist 9 4 0).2 + (blockdist 9 4 0).1 - (blockdist 9 4 0).2) 1 0 +
          countOf ((blockdist 9 4 0).2 + (blockdist 9 4 0).1 - (blockdist 9 4 0).2) 1 0)).length = 3 := by
    show (List.take 3 (List.drop 0 _)).length = 3
    rw [List.length_take, List.length_drop, h9]
    rfl
  rw [this]
  norm_num

/-- **C228 (number of chunks).** More than one chunk is used only if the chunks hold on average at least 256 MB per rank; for both readers. -/
theorem chunk_count (nt nx nv item p : Nat) :
    (1 < nChunks nt nx nv item p → nChunks nt nx nv item p * (p * (256 * 1024 * 1024)) ≤ nt * (nx * nv * item)) ∧
    (1 < nChunksMat nt nx nv item p → nChunksMat nt nx nv item p * (p * (256 * 1024 * 1024)) ≤ nt * (nx * nv * item)) := by
  have key : ∀ n, 1 < n → n ≤ nChunks nt nx nv item p → n * (p * (256 * 1024 * 1024)) ≤ nt * (nx * nv * item) := by
    intro n h1 hn
    have h2 : n ≤ nt * (nx * nv * item) / (p * 2 ^ 28) := by
      unfold nChunks at hn
      omega
    calc n * (p * (256 * 1024 * 1024)) = n * (p * 2 ^ 28) := by norm_num
      _ ≤ nt * (nx * nv * item) / (p * 2 ^ 28) * (p * 2 ^ 28) := Nat.mul_le_mul_right _ h2
      _ ≤ _ := Nat.div_mul_le_self _ _
  exact ⟨fun h => key _ h le_rfl, fun h => key _ h (Nat.min_le_left _ _)⟩

/-- **C228 (MATLAB).** The same bound for `.mat` files: whatever chunk and rank, less than 512 MB plus one snapshot at a time. -/
theorem mat_chunk_size (files : List String) (raw : String → Arr (Option ℝ)) (nx nv item p : Nat) (hp : 0 < p) (hne : files ≠ []) :
    ∀ k < nChunksMat files.length nx nv item p, ∀ q < p,
      (matInputs files nx nv p raw (blockdist files.length (nChunksMat files.length nx nv item p) k).2
        ((blockdist files.length (nChunksMat files.length nx nv item p) k).2 + (blockdist files.length (nChunksMat files.length nx nv item p) k).1) q).length *
        (nx * nv * item) < 512 * 1024 * 1024 + nx * nv * item := by
  intro k hk q hq
  have hnt : 0 < files.length := List.length_pos_iff.2 hne
  have hpos := nChunksMat_pos files.length nx nv item p hp hnt
  simp only [matInputs]
  rw [(mat_reader_order (matContent nx nv raw) files _ _).1 (sortNames files) (sortNames_perm files) (sortNames_sorted files)]
  refine lt_of_le_of_lt (Nat.mul_le_mul_right _ (pslice_length_le _ _ _)) ?_
  rw [Nat.add_sub_cancel_left, Nat.add_sub_cancel_left]
  by_cases hc : nChunks files.length nx nv item p ≤ (files.length + p - 1) / p
  · refine chunk_arith files.length (nx * nv * item) p _ k q hp hpos ?_
    have h0 : nChunksMat files.length nx nv item p = nChunks files.length nx nv item p := Nat.min_eq_left hc
    have h1 : files.length * (nx * nv * item) / (p * 2 ^ 28) ≤ nChunks files.length nx nv item p := Nat.le_max_left _ _
    have h2 := Nat.lt_mul_div_succ (files.length * (nx * nv * item)) (show 0 < p * 2 ^ 28 by positivity)
    rw [h0]
    exact h2.trans_le (Nat.mul_le_mul_left _ (by omega))
  · have h0 : nChunksMat files.length nx nv item p = (files.length + p - 1) / p := Nat.min_eq_right (by omega)
    set nc := nChunksMat files.length nx nv item p
    have hcov : files.length ≤ nc * p := by
      rw [h0]
      have h1 := Nat.div_add_mod (files.length + p - 1) p
      have h2 := Nat.mod_lt (files.length + p - 1) hp
      rw [Nat.mul_comm] at h1
      omega
    have h1 := share_le files.length nc k hpos
    have h2 := share_le (blockdist files.length nc k).1 p q hp
    have h3 : (blockdist files.length nc k).1 ≤ p := by
      by_contra hcon
      have : (p + 1) * nc ≤ (blockdist files.length nc k).1 * nc := Nat.mul_le_mul_right _ (by omega)
      rw [Nat.add_mul, Nat.one_mul, Nat.mul_comm p nc] at this
      omega
    have h4 : (blockdist (blockdist files.length nc k).1 p q).1 ≤ 1 := by
      by_contra hcon
      have : 2 * p ≤ (blockdist (blockdist files.length nc k).1 p q).1 * p := Nat.mul_le_mul_right _ (by omega)
      omega
    calc _ ≤ 1 * (nx * nv * item) := Nat.mul_le_mul_right _ h4
      _ < _ := by omega

/-! ### Non-vacuity -/

/-- 9 snapshots in two files -/
def nineFile (f : String) : NcFile Nat := if f = "a" then ⟨[0, 1, 2, 3, 4], [0, 1, 2, 3, 4]⟩ else ⟨[5, 6, 7, 8], [5, 6, 7, 8]⟩

example : ∃ l, ChunkRead 0 ["a", "b"] nineFile 9 4 1 0 0 l ∧ l.length * (2 ^ 24 * 1 * 8) = 384 * 1024 * 1024 :=
  (chunk_size_fails 0 ["a", "b"] nineFile (by decide) (by
    intro f hf
    simp only [List.mem_cons, List.not_mem_nil, or_false] at hf
    rcases hf with rfl | rfl <;> exact ⟨by decide, by decide⟩) (by decide)).2

/-- two ranks, 100 snapshots of 64 MB: 12 chunks, of at most 9 snapshots, 5 on a rank -/
example : nChunks 100 (2 ^ 20) 8 8 2 = 12 ∧ (blockdist 100 12 0).1 = 9 ∧ (blockdist 9 2 0).1 = 5 ∧
    12 * (2 * (256 * 1024 * 1024)) ≤ 100 * (2 ^ 20 * 8 * 8) :=
  ⟨by norm_num [nChunks], by decide, by decide, by
    have := (chunk_count 100 (2 ^ 20) 8 8 2).1
    norm_num [nChunks] at this ⊢⟩

/-- 4 files on 3 ranks, any size of the snapshots -/
example (raw : String → Arr (Option ℝ)) (nx nv : Nat) (k : Nat) (hk : k < nChunksMat 4 nx nv 8 3) (q : Nat) (hq : q < 3) :
    (matInputs ["a", "b", "c", "d"] nx nv 3 raw (blockdist 4 (nChunksMat 4 nx nv 8 3) k).2
      ((blockdist 4 (nChunksMat 4 nx nv 8 3) k).2 + (blockdist 4 (nChunksMat 4 nx nv 8 3) k).1) q).length * (nx * nv * 8) <
      512 * 1024 * 1024 + nx * nv * 8 :=
  mat_chunk_size ["a", "b", "c", "d"] raw nx nv 8 3 (by omega) (by simp) k hk q hq

end Verif.Props
