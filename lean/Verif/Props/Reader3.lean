import Verif.Props.Reader2
import Mathlib.Data.String.Basic
import Mathlib.Data.List.Sort
/-
  C16 (MATLAB reader), and what the two-stage reader does outside its assumptions (C15).
-/
namespace Verif.Props
open Verif Verif.Par Verif.Rd

/-! ### C15: outside the assumptions -/

/-- Duplicate time labels inside a file: `.sel` returns too many snapshots and the assignment raises.
    So the hypothesis "labels strictly increasing" of `reader2_redistribute` is needed. -/
theorem reader2_duplicate_labels_fails :
    inputData2 (β := Nat) 0 ["a"] (fun _ => ⟨[0, 1, 1], [10, 11, 12]⟩) 2 0 3 0 = none := by decide

theorem dictSet_head {V} (f : String) (x v : V) (d : List (String × V)) (g : String) :
    ∃ d', dictSet ((f, x) :: d) g v = (f, if f = g then v else x) :: d' := by
  simp only [dictSet]
  split
  · rename_i h; subst h; exact ⟨d, by simp⟩
  · exact ⟨_, rfl⟩

theorem fileTime_head (f : String) (l : List (String × Nat)) (a b nt : Nat)
    (d : List (String × Nat × Nat)) (h : a ≤ nt) :
    ∃ a' b' d' nt', fileTime.go ((f, a, b) :: d) nt l = ((f, a', b') :: d', nt') ∧ a ≤ a' ∧
      (f ∈ l.map (·.1) → nt ≤ a') := by
  induction l generalizing a b nt d with
  | nil => exact ⟨a, b, d, nt, rfl, Nat.le_refl _, by simp⟩
  | cons p ps ih =>
    obtain ⟨g, len⟩ := p
    simp only [fileTime.go]
    obtain ⟨d1, hd1⟩ := dictSet_head f (a, b) (nt, nt + len) d g
    rw [hd1]
    by_cases hfg : f = g
    · subst hfg
      simp only [↓reduceIte]
      obtain ⟨a', b', d', nt', h1, h2, h3⟩ := ih nt (nt + len) (nt + len) d1 (by omega)
      exact ⟨a', b', d', nt', h1, by omega, fun _ => h2⟩
    · simp only [hfg, ↓reduceIte]
      obtain ⟨a', b', d', nt', h1, h2, h3⟩ := ih a b (nt + len) d1 (by omega)
      refine ⟨a', b', d', nt', h1, h2, ?_⟩
      intro hmem
      simp only [List.map_cons, List.mem_cons] at hmem
      rcases hmem with e | e
      · exact absurd e hfg
      · have := h3 e; omega

/-- Listing the first (non-empty) file again later in the list makes every read raise (the dictionary
    keeps one entry per name): distinctness of the names is needed too. -/
theorem reader2_duplicate_file_fails {β} (zero : β) (f : String) (rest : List String)
    (content : String → NcFile β) (hdup : f ∈ rest) (hne : (content f).snaps ≠ [])
    (nreaders ts te rank : Nat) :
    inputData2 zero (f :: rest) content nreaders ts te rank = none := by
  have hlen : 0 < (content f).snaps.length := List.length_pos_of_ne_nil hne
  obtain ⟨a', b', d', nt', h1, h2, h3⟩ := fileTime_head f
    (rest.map fun g => (g, (content g).snaps.length)) 0 (content f).snaps.length
    (content f).snaps.length [] (by omega)
  have h3 := h3 (by simpa [List.map_map, Function.comp_def] using hdup)
  simp only [inputData2, fileTime, List.map_cons, fileTime.go, dictSet, Nat.zero_add, h1, readLoop2,
    step2]
  rw [if_pos (by omega)]
  rfl

example : inputData2 (β := Nat) 0 ["a", "b", "a"] (fun _ => ⟨[0, 1], [10, 11]⟩) 1 0 2 0 = none :=
  reader2_duplicate_file_fails 0 "a" ["b", "a"] _ (by simp) (by simp) 1 0 2 0

/-! ### C16 -/

theorem insertName_perm (x : String) (l : List String) : (insertName x l).Perm (x :: l) := by
  induction l with
  | nil => exact List.Perm.refl _
  | cons y ys ih =>
    simp only [insertName]
    split
    · exact List.Perm.refl _
    · exact (ih.cons y).trans (List.Perm.swap x y ys)

theorem sortNames_perm (l : List String) : (sortNames l).Perm l := by
  induction l with
  | nil => exact List.Perm.refl _
  | cons x xs ih => exact (insertName_perm x _).trans (ih.cons x)

theorem insertName_sorted (x : String) (l : List String) (h : l.Pairwise (· ≤ ·)) :
    (insertName x l).Pairwise (· ≤ ·) := by
  induction l with
  | nil => simp [insertName]
  | cons y ys ih =>
    simp only [insertName]
    rw [List.pairwise_cons] at h
    split
    · rename_i hlt
      rw [List.pairwise_cons]
      refine ⟨?_, List.pairwise_cons.2 h⟩
      intro z hz
      rcases List.mem_cons.1 hz with rfl | hz
      · exact le_of_lt hlt
      · exact le_trans (le_of_lt hlt) (h.1 z hz)
    · rename_i hlt
      rw [List.pairwise_cons]
      refine ⟨?_, ih h.2⟩
      intro z hz
      rcases List.mem_cons.1 ((insertName_perm x ys).mem_iff.1 hz) with rfl | hz
      · exact not_lt.1 hlt
      · exact h.1 z hz

theorem sortNames_sorted (l : List String) : (sortNames l).Pairwise (· ≤ ·) := by
  induction l with
  | nil => simp [sortNames]
  | cons x xs ih => exact insertName_sorted x _ ih

theorem matInput_go {β} (content : String → β) (js je : Nat) (l : List String) (c : Nat) :
    matInput.go content js je c l = pslice (l.map content) (js - c) (je - c) := by
  induction l generalizing c with
  | nil => simp [matInput.go, pslice]
  | cons f fs ih =>
    simp only [matInput.go, List.map_cons]
    split
    · rename_i h
      rw [ih]
      have h1 : js - c = 0 := by omega
      obtain ⟨k, hk⟩ : ∃ k, je - c = k + 1 := ⟨je - c - 1, by omega⟩
      simp only [pslice, h1, hk, List.drop_zero, Nat.sub_zero, List.take_succ_cons]
      congr 1
      rw [show js - (c + 1) = 0 by omega, show je - (c + 1) = k by omega]
      simp
    · rename_i h
      rw [ih]
      simp only [pslice]
      rcases Nat.lt_or_ge c js with hc | hc
      · obtain ⟨k, hk⟩ : ∃ k, js - c = k + 1 := ⟨js - c - 1, by omega⟩
        rw [hk, List.drop_succ_cons, show js - (c + 1) = k by omega]
        congr 1; omega
      · rw [show je - c - (js - c) = 0 by omega, show je - (c + 1) - (js - (c + 1)) = 0 by omega]
        simp

/-- **C16.** The MATLAB reader's snapshot sequence does not depend on the order in which the files are
    listed: it is the sequence of the files in name order – for every list `srt` that is a sorted
    rearrangement of the given list, every reading rank gets snapshots `[js,je)` of that sequence – and two
    rearrangements of a list give the same result. -/
theorem mat_reader_order {β} (content : String → β) (files : List String) (js je : Nat) :
    (∀ srt : List String, srt.Perm files → srt.Pairwise (· ≤ ·) →
      matInput files content js je = pslice (srt.map content) js je) ∧
    (∀ files', files'.Perm files → matInput files' content js je = matInput files content js je) := by
  have h1 : ∀ (fs srt : List String), srt.Perm fs → srt.Pairwise (· ≤ ·) →
      matInput fs content js je = pslice (srt.map content) js je := by
    intro fs srt hp hs
    have : sortNames fs = srt :=
      List.Perm.eq_of_pairwise (fun a b _ _ h h' => le_antisymm h h') (sortNames_sorted fs) hs
        ((sortNames_perm fs).trans hp.symm)
    simp only [matInput]
    rw [matInput_go, this]
    simp
  refine ⟨h1 files, ?_⟩
  intro files' hp
  rw [h1 files' (sortNames files) ((sortNames_perm files).trans hp.symm) (sortNames_sorted files),
    h1 files (sortNames files) (sortNames_perm files) (sortNames_sorted files)]

/-- non-vacuity, and a warning: name order is lexicographic, `f10` comes before `f2`. -/
example : sortNames ["f2", "f10", "f1"] = ["f1", "f10", "f2"] ∧
    matInput ["f2", "f10", "f1"] (fun s => s.length) 0 2 = [2, 3] := by decide +kernel

end Verif.Props
