import Verif.Model.Streaming
import Verif.Props.Reader1
import Verif.Props.Reader2
import Mathlib.Tactic.Linarith
import Mathlib.Data.Rat.Defs
/-
  C67-C70: the stream's source, shapes, stored mean.
-/
set_option linter.unusedSectionVars false
set_option linter.unusedVariables false
namespace Verif.Props
open Verif Verif.Stream Verif.Rd Verif.Par

/-! ### C70: the stream is read to its end and then stops -/

theorem fetch1_hit {β} (zero : β) (d : List β) (post : List (List β)) (t : Nat) (x : β) (h : d[t]? = some x) :
    fetch1 zero (d :: post) t = some x := by
  unfold fetch1
  rw [(reader1_single_partial zero d post t x h).1]

theorem fetch1_past {β} (zero : β) (files : List (List β)) (t : Nat) (h : files.flatten.length ≤ t) :
    fetch1 zero files t = none := by
  unfold fetch1
  rw [reader1_past_end zero files t h]

theorem consume_list {β} (fetch : Nat → Option β) (d : List β) (t : Nat) (fuel : Nat)
    (h1 : ∀ i x, d[i]? = some x → fetch (t + i) = some x) (h2 : fetch (t + d.length) = none)
    (hf : d.length < fuel) : consume fetch fuel t = (d, true) := by
  induction d generalizing t fuel with
  | nil =>
    cases fuel with
    | zero => simp at hf
    | succ fuel => simp only [List.length_nil, Nat.add_zero] at h2; simp [consume, h2]
  | cons a d ih =>
    cases fuel with
    | zero => simp at hf
    | succ fuel =>
      have ha := h1 0 a (by simp)
      simp only [Nat.add_zero] at ha
      have := ih (t + 1) fuel (fun i x hx => by
          have := h1 (i + 1) x (by simpa using hx)
          rwa [show t + (i + 1) = t + 1 + i by omega] at this)
        (by rw [show t + 1 + d.length = t + (a :: d).length by simp; omega]; exact h2)
        (by simp at hf; omega)
      simp [consume, ha, this]

/-- C70, the part that holds: a single dataset is consumed completely, in order, and the loop is then left. -/
theorem stream_reads_partial {β} (zero : β) (d : List β) (fuel : Nat) (hf : d.length < fuel) :
    consume (fetch1 zero [d]) fuel 0 = (d, true) := by
  refine consume_list _ d 0 fuel ?_ ?_ hf
  · intro i x hx; rw [Nat.zero_add]; exact fetch1_hit zero d [] i x hx
  · rw [Nat.zero_add]; exact fetch1_past zero [d] _ (by simp)

example : consume (fetch1 0 [[5, 6, 7]]) 10 0 = ([5, 6, 7], true) := stream_reads_partial 0 [5, 6, 7] 10 (by decide)

/-- C70 fails for several datasets: when the second is not longer than the first, the stream silently ends
    after the first; all later datasets are ignored. -/
theorem stream_datasets_fails {β} (zero : β) (d d2 : List β) (post : List (List β)) (hd2 : d2 ≠ [])
    (hle : d2.length ≤ d.length) (fuel : Nat) (hf : d.length < fuel) :
    consume (fetch1 zero (d :: d2 :: post)) fuel 0 = (d, true) := by
  refine consume_list _ d 0 fuel ?_ ?_ hf
  · intro i x hx; rw [Nat.zero_add]; exact fetch1_hit zero d _ i x hx
  · rw [Nat.zero_add]
    unfold fetch1
    have hpos : 0 < d2.length := List.length_pos_iff.2 hd2
    have := reader1_single zero [d] post d2 d.length (by simp) (by simp; omega)
    rw [List.getElem?_eq_none hle] at this
    simp only [List.singleton_append] at this
    rw [this]

example : consume (fetch1 0 [[1, 2], [3, 4]]) 10 0 = ([1, 2], true) :=
  stream_datasets_fails 0 [1, 2] [3, 4] [] (by decide) (by decide) 10 (by decide)

theorem readLoop2_past {β} (content : String → NcFile β) (js je : Nat) (names : List String) (t0 : Nat)
    (st : Nat × List β)
    (h : t0 + ((names.map fun f => (content f).snaps.length).sum) ≤ js) :
    ∃ t1, readLoop2 js je content (scanTimes t0 (names.map fun f => (f, (content f).snaps.length)))
      (t0, st.1, st.2) = some (t1, st.1, st.2) := by
  induction names generalizing t0 with
  | nil => exact ⟨t0, rfl⟩
  | cons f fs ih =>
    simp only [List.map_cons, List.sum_cons] at h
    simp only [List.map_cons, scanTimes, readLoop2, step2]
    simp only [ne_eq, not_true_eq_false, ↓reduceIte]
    rw [if_neg (by omega)]
    have := ih (t0 + (content f).snaps.length) (by omega)
    rw [show t0 + (t0 + (content f).snaps.length - t0) = t0 + (content f).snaps.length by omega]
    exact this

/-- C70 fails for NetCDF lists: past the end the two-stage reader returns zeros instead of raising, on every
    rank, at every later time, so the streaming loop never ends. -/
theorem stream_netcdf_never_ends {β} (zero : β) (names : List String) (content : String → NcFile β)
    (hnd : names.Nodup) (nreaders rank t : Nat)
    (ht : (names.map fun f => (content f).snaps.length).sum ≤ t) :
    ∃ n, fetch2 zero names content nreaders rank t = some (List.replicate n zero) := by
  have hft : (fileTime (names.map fun f => (f, (content f).snaps.length))).1 =
      scanTimes 0 (names.map fun f => (f, (content f).snaps.length)) := by
    unfold fileTime
    rw [fileTime_go]
    · simp
    · simpa [List.map_map, Function.comp_def] using hnd
    · simp
  unfold fetch2 inputData2
  rw [hft]
  obtain ⟨t1, h⟩ := readLoop2_past content (t + (blockdist (t + 1 - t) nreaders rank).2)
    (t + (blockdist (t + 1 - t) nreaders rank).2 + (blockdist (t + 1 - t) nreaders rank).1) names 0
    (0, List.replicate (blockdist (t + 1 - t) nreaders rank).1 zero) (by omega)
  exact ⟨_, by simp only [h]; rfl⟩

/-- Hence no number of iterations suffices. -/
theorem stream_netcdf_no_termination {β} (zero : β) (names : List String) (content : String → NcFile β)
    (hnd : names.Nodup) (nreaders rank fuel t : Nat)
    (ht : (names.map fun f => (content f).snaps.length).sum ≤ t) :
    (consume (fetch2 zero names content nreaders rank) fuel t).2 = false := by
  induction fuel generalizing t with
  | zero => rfl
  | succ fuel ih =>
    obtain ⟨n, h⟩ := stream_netcdf_never_ends zero names content hnd nreaders rank t ht
    simp only [consume, h]
    exact ih (t + 1) (by omega)

example : (consume (fetch2 0 ["a"] (fun _ => ⟨[0, 1], [7, 8]⟩) 1 0) 1000 2).2 = false :=
  stream_netcdf_no_termination 0 ["a"] _ (by decide) 1 0 1000 2 (by decide)

/-! ### C67: any number of saved modes is accepted -/

/-- C67, the part that holds: two or more modes. -/
theorem stream_modes_shape_partial (n : Nat) (h : 2 ≤ n) : streamDiag n = some [n, n] := by
  have : n ≠ 1 := by omega
  simp [streamDiag, squeeze, diagShape, this]

/-- C67 fails for one saved mode: `np.diag` of a 0-d array raises. -/
theorem stream_modes_shape_fails : streamDiag 1 = none := by decide

/-! ### C68: a rank may hold any positive number of values -/

/-- C68, the part that holds: two or more values and two or more blocks give an `n_blocks × n_blocks` matrix. -/
theorem gram_shape_partial (xv nb : Nat) (h1 : 2 ≤ xv) (h2 : 2 ≤ nb) : gramShape xv nb = some [nb, nb] := by
  have a : xv ≠ 1 := by omega
  have b : nb ≠ 1 := by omega
  simp [gramShape, squeeze, bcast2, matmulShape, a, b]

/-- C68 fails on a rank (or a serial run) with a single value: the product raises. -/
theorem gram_shape_fails (nb : Nat) (h : 2 ≤ nb) : gramShape 1 nb = none := by
  have b : nb ≠ 1 := by omega
  simp [gramShape, squeeze, bcast2, matmulShape, b]

/-! ### C69: the stored long-time mean is the mean of the data -/

theorem pslice_singleton_zero {β} (x : β) (a b : Nat) (h : 0 < a) : pslice [x] a b = [] := by
  simp [pslice]; omega

/-- C69 fails in a streaming fit: only the first snapshot is in memory when the mean is computed, so the
    stored mean is the first snapshot divided by `nt`, for every stream of at least two blocks. -/
theorem stream_ltm_fails {K β} [Field K] [AddCommGroup β] [Module K β] (x : β) (nt nb : Nat) (hb : 1 ≤ nb)
    (hnt : nb ≤ nt) : longTMeanNt K nt nb [x] = (nt : K)⁻¹ • x := by
  have hq : 1 ≤ nt / nb := (Nat.one_le_div_iff (by omega)).2 hnt
  unfold longTMeanNt
  simp only []
  have hloop : ∀ n, 1 ≤ n → (List.range n).foldl (fun acc i => acc + (pslice [x] (i * (nt / nb)) (i * (nt / nb) + nt / nb)).sum) 0 = x := by
    intro n hn
    induction n with
    | zero => omega
    | succ n ih =>
      rw [List.range_succ, List.foldl_append]
      simp only [List.foldl_cons, List.foldl_nil]
      rcases Nat.eq_zero_or_pos n with rfl | hpos
      · have : pslice [x] (0 * (nt / nb)) (0 * (nt / nb) + nt / nb) = [x] := by
          obtain ⟨k, hk⟩ : ∃ k, nt / nb = k + 1 := ⟨nt / nb - 1, by omega⟩
          simp [pslice, hk]
        simp only [List.range_zero, List.foldl_nil]
        rw [this]; simp
      · rw [ih hpos, pslice_singleton_zero _ _ _ (Nat.mul_pos hpos (by omega))]
        simp
  rw [hloop nb hb]
  split
  · rename_i hr
    have : 0 < nt - nt % nb := by
      have h3 := Nat.div_add_mod nt nb
      have h4 : 0 < nb * (nt / nb) := Nat.mul_pos (by omega) (by omega)
      omega
    rw [pslice_singleton_zero _ _ _ this]; simp
  · rfl

/-- Concretely: the stream 1, 1, 1, 1 (mean 1) is recorded with mean 1/4. -/
example : longTMeanNt ℚ 4 2 [(1 : ℚ)] = 1 / 4 := by
  rw [stream_ltm_fails (1 : ℚ) 4 2 (by decide) (by decide)]; norm_num

end Verif.Props
