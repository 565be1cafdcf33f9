import Verif.Model.Reader
import Verif.Props.Distribute
import Mathlib.Tactic.Common
import Mathlib.Data.Rat.Defs
/-
  C11, C12, C13: the one-stage reader (pyspod/utils/reader.py:20-105).
-/
namespace Verif.Props
open Verif Verif.Par Verif.Rd

theorem go1_full {β} (zero : β) (nt : Nat) (files : List (List β)) (pre : List β) (st : RState β)
    (h1 : st.tmpNt = pre.length) (h2 : st.cumRead = pre.length)
    (h3 : st.data.getD (List.replicate nt zero) = pre ++ List.replicate (nt - pre.length) zero)
    (h4 : pre ≠ [] → st.data.isSome)
    (hnt : nt = pre.length + files.flatten.length) :
    ∃ st', getDataForTime1.go zero 0 nt files st = some st' ∧
      st'.data.getD (List.replicate nt zero) = pre ++ files.flatten ∧
      (pre ++ files.flatten ≠ [] → st'.data.isSome) := by
  induction files generalizing pre st with
  | nil =>
    refine ⟨st, rfl, ?_, by simpa using h4⟩
    rw [h3]
    simp at hnt
    simp [hnt]
  | cons d ds ih =>
    simp only [List.flatten_cons, List.length_append] at hnt
    simp only [getDataForTime1.go, step1, h1, h2, Nat.zero_max]
    have hje : min nt (pre.length + d.length) = pre.length + d.length := by omega
    rw [hje]
    by_cases hd : d.length = 0
    · have hd' : d = [] := List.length_eq_zero_iff.1 hd
      subst hd'
      simp only [List.length_nil, Nat.add_zero, gt_iff_lt, Nat.lt_irrefl, ↓reduceIte]
      have := ih pre ⟨pre.length, pre.length, st.data⟩ rfl rfl h3 h4 (by simpa using hnt)
      simpa using this
    · have : pre.length + d.length > pre.length := by omega
      simp only [this, ↓reduceIte]
      have hsrc : pslice d (pre.length - pre.length) (pre.length + d.length - pre.length) = d := by
        simp [pslice]
      rw [hsrc, Nat.sub_zero, h3]
      have hlen : (pre ++ List.replicate (nt - pre.length) zero).length = nt := by simp; omega
      have hassign : assignSlice (pre ++ List.replicate (nt - pre.length) zero) pre.length
          (pre.length + (pre.length + d.length - pre.length)) d =
          some (pre ++ d ++ List.replicate (nt - (pre ++ d).length) zero) := by
        simp only [assignSlice, hlen]
        have : min (pre.length + (pre.length + d.length - pre.length)) nt - pre.length = d.length := by omega
        rw [this]
        simp only [↓reduceIte, Option.some.injEq]
        rw [List.take_left, List.drop_append]
        simp [List.drop_of_length_le, Nat.sub_sub]
      rw [hassign]
      simp only
      have := ih (pre ++ d) ⟨pre.length + d.length, pre.length + (pre.length + d.length - pre.length),
          some (pre ++ d ++ List.replicate (nt - (pre ++ d).length) zero)⟩
        (by simp) (by simp) (by simp) (by simp) (by rw [List.length_append]; omega)
      simpa using this

/-- **C11.** Reading everything returns exactly the time-concatenation of the datasets: each snapshot once,
    in order, whatever the number and lengths of the datasets (at least one snapshot in total). -/
theorem reader1_full {β} (zero : β) (files : List (List β)) (hne : files.flatten ≠ []) :
    getData1 zero files none = some (some files.flatten) := by
  have hsum : (files.map List.length).sum = files.flatten.length := by
    simp [List.length_flatten]
  obtain ⟨st', h1, h2, h3⟩ := go1_full zero (files.map List.length).sum files [] ⟨0, 0, none⟩ rfl rfl
    (by simp) (by simp) (by rw [hsum]; exact (Nat.zero_add _).symm)
  have h3 := h3 (by simpa using hne)
  simp only [getData1, getDataForTime1, h1, Option.map_some, Option.some.injEq]
  obtain ⟨x, hx⟩ := Option.isSome_iff_exists.1 h3
  rw [hx] at h2
  rw [hx]
  simpa using h2

/-- **C11** (distributed).  Datasets whose snapshots are arrays of one spatial shape, read on `p` ranks with
    the slab of the largest axis `ax`: every rank gets all snapshots, in order, and gathering the slabs of
    snapshot `t` over the ranks gives snapshot `t` of the concatenated datasets. -/
theorem reader1_distributed {α} [Inhabited α] (zero : Arr α) (files : List (List (Arr α)))
    (ax p : Nat) (hp : 0 < p) (hne : files.flatten ≠ [])
    (hax : ∀ a ∈ files.flatten, ax < a.shape.length) :
    ∃ loc : Nat → List (Arr α),
      (∀ r, getData1 zero (files.map (·.map fun a => distributeDimension a ax (some (p, r)))) none =
        some (some (loc r))) ∧
      ∀ (t : Nat) (a : Arr α), files.flatten[t]? = some a →
        ∃ slab : Nat → Arr α, (∀ r : Nat, (loc r)[t]? = some (slab r)) ∧
          (concat ax ((List.range p).map slab)).Eqv a := by
  refine ⟨fun r => files.flatten.map fun a => distributeDimension a ax (some (p, r)), ?_, ?_⟩
  · intro r
    rw [reader1_full]
    · simp [List.map_flatten]
    · simpa [← List.map_flatten] using hne
  · intro t a ha
    refine ⟨fun r => distributeDimension a ax (some (p, r)), fun r => by rw [List.getElem?_map, ha]; rfl, ?_⟩
    exact (distributeDimension_gather a ax p (hax a (List.mem_of_getElem? ha)) hp).1

example : getData1 0 [[1, 2], [], [3], [4, 5]] none = some (some [1, 2, 3, 4, 5]) := by decide

theorem go1_skip {β} (zero : β) (ts : Nat) (files : List (List β)) (st : RState β)
    (h : st.tmpNt + files.flatten.length ≤ ts ∨ ts + 1 ≤ st.tmpNt) :
    getDataForTime1.go zero ts (ts + 1) files st =
      some { st with tmpNt := st.tmpNt + files.flatten.length } := by
  induction files generalizing st with
  | nil => simp [getDataForTime1.go]
  | cons d ds ih =>
    simp only [List.flatten_cons, List.length_append] at h
    simp only [getDataForTime1.go, step1]
    have : ¬ (min (ts + 1) (st.tmpNt + d.length) > max ts st.tmpNt) := by omega
    simp only [this, ↓reduceIte]
    rw [ih _ (by simp only; omega)]
    simp [Nat.add_assoc]

theorem go1_append {β} (zero : β) (ts te : Nat) (a b : List (List β)) (st : RState β) :
    getDataForTime1.go zero ts te (a ++ b) st =
      (getDataForTime1.go zero ts te a st).bind (getDataForTime1.go zero ts te b) := by
  induction a generalizing st with
  | nil => simp [getDataForTime1.go]
  | cons d ds ih =>
    simp only [List.cons_append, getDataForTime1.go]
    cases step1 zero ts te st d with
    | none => rfl
    | some st' => exact ih st'

/-- **C12 (what the code does, for every file layout).**  If global snapshot `ts` lies in dataset `d`
    (preceded by the datasets `pre`), `get_data(ts)` returns entry number `ts` *of that dataset*
    (not `ts - start`), and raises when the dataset has no such entry. -/
theorem reader1_single {β} (zero : β) (pre post : List (List β)) (d : List β) (ts : Nat)
    (h1 : pre.flatten.length ≤ ts) (h2 : ts < pre.flatten.length + d.length) :
    getData1 zero (pre ++ d :: post) (some ts) =
      match d[ts]? with
      | some x => some (some [x])
      | none => none := by
  simp only [getData1, getDataForTime1]
  rw [go1_append, go1_skip zero ts pre _ (Or.inl (by simpa using h1))]
  simp only [Option.bind_some, getDataForTime1.go, step1, Nat.zero_add]
  have hgt : min (ts + 1) (pre.flatten.length + d.length) > max ts pre.flatten.length := by omega
  have hje : min (ts + 1) (pre.flatten.length + d.length) = ts + 1 := by omega
  have hjs : max ts pre.flatten.length = ts := by omega
  rw [if_pos hgt]
  simp only [hje, hjs, Option.getD_none]
  have hn : ts + 1 - ts = 1 := by omega
  simp only [hn, Nat.sub_zero]
  cases hx : d[ts]? with
  | none =>
    have : d.length ≤ ts := by
      rcases Nat.lt_or_ge ts d.length with h | h
      · rw [List.getElem?_eq_getElem h] at hx; simp at hx
      · exact h
    have hs : pslice d ts (ts + 1) = [] := by simp [pslice, List.drop_of_length_le this]
    simp [hs, assignSlice]
  | some x =>
    have hlt : ts < d.length := by
      rcases Nat.lt_or_ge ts d.length with h | h
      · exact h
      · rw [List.getElem?_eq_none h] at hx; simp at hx
    have hs : pslice d ts (ts + 1) = [x] := by
      rw [List.getElem?_eq_getElem hlt] at hx
      simp only [Option.some.injEq] at hx
      simp only [pslice, hn]
      rw [List.drop_eq_getElem_cons hlt]
      simp [hx]
    simp only [hs, assignSlice]
    simp only [List.length_replicate, List.length_singleton]
    simp only [show min (0 + 1) 1 - 0 = 1 by omega, ↓reduceIte]
    rw [go1_skip zero ts post _ (Or.inr (by simp only; omega))]
    simp

/-- **C12 (partial).**  For every snapshot of the *first* dataset (in particular for a single dataset)
    `get_data(ts)` returns global snapshot `ts`.  Missing: snapshots of later datasets – there the
    property is false (`reader1_single_fails`). -/
theorem reader1_single_partial {β} (zero : β) (d : List β) (post : List (List β)) (ts : Nat) (x : β)
    (hx : d[ts]? = some x) :
    getData1 zero (d :: post) (some ts) = some (some [x]) ∧ (d :: post).flatten[ts]? = some x := by
  have hlt : ts < d.length := by
    rcases Nat.lt_or_ge ts d.length with h | h
    · exact h
    · rw [List.getElem?_eq_none h] at hx; simp at hx
  constructor
  · have := reader1_single zero [] post d ts (by simp) (by simpa using hlt)
    rw [hx] at this
    simpa using this
  · simp [List.flatten_cons, List.getElem?_append_left hlt, hx]

/-- **C12 (violated).**  Two datasets of two and three snapshots: asking for snapshot 2 returns the last
    snapshot (4); asking for snapshot 3 raises. -/
theorem reader1_single_fails :
    (¬ ∀ (files : List (List Nat)) (ts x : Nat), files.flatten[ts]? = some x →
      getData1 0 files (some ts) = some (some [x])) ∧
    getData1 0 [[10, 11], [12, 13, 14]] (some 2) = some (some [14]) ∧
    getData1 0 [[10, 11], [12, 13, 14]] (some 3) = none := by
  refine ⟨fun h => ?_, by decide, by decide⟩
  have := h [[10, 11], [12, 13, 14]] 2 12 rfl
  revert this; decide

/-- Past the end the reader returns Python `None` (not an error). -/
theorem reader1_past_end {β} (zero : β) (files : List (List β)) (ts : Nat)
    (h : files.flatten.length ≤ ts) : getData1 zero files (some ts) = some none := by
  simp only [getData1, getDataForTime1]
  rw [go1_skip zero ts files _ (Or.inl (by simpa using h))]
  rfl

/-! ### C13 -/

/-- **C13 (partial).**  What a fit sees of complex data is the real part; so the data are preserved
    exactly when every imaginary part is zero. -/
theorem reader1_complex_partial {K} [DecidableEq K] [Zero K] (files : List (List (List (K × K))))
    (hne : files.flatten ≠ []) :
    getData1 [] (files.map (·.map (·.map storeFloat))) none =
      some (some (files.flatten.map (·.map Prod.fst))) ∧
    ((files.flatten.map (·.map fun z => (storeFloat z, (0 : K))) = files.flatten) ↔
      ∀ snap ∈ files.flatten, ∀ z ∈ snap, z.2 = 0) := by
  constructor
  · rw [reader1_full]
    · simp only [← List.map_flatten]
      rfl
    · simpa [← List.map_flatten] using hne
  · have hself : ∀ (γ : Type) (f : γ → γ) (l : List γ), l.map f = l ↔ ∀ x ∈ l, f x = x := by
      intro γ f l
      induction l with
      | nil => simp
      | cons a l ih => simp [ih]
    rw [hself]
    constructor
    · intro h snap hs z hz
      have := (hself _ _ _).1 (h snap hs) z hz
      rw [← this]
    · intro h snap hs
      rw [hself]
      intro z hz
      have := h snap hs z hz
      obtain ⟨a, b⟩ := z
      simp only at this
      subst this
      rfl

/-- **C13 (violated).**  The data `i, 2i` (non-real, so a two-sided spectrum is chosen) are read as `0, 0`;
    and data that become complex after the first snapshot are classified as real. -/
theorem reader1_complex_fails :
    isReal1 (K := ℚ) [[[(0, 1)], [(0, 2)]]] = false ∧
    getData1 [] ([[[((0 : ℚ), (1 : ℚ))], [(0, 2)]]].map (·.map (·.map storeFloat))) none =
      some (some [[0], [0]]) ∧
    isReal1 (K := ℚ) [[[(1, 0)], [(0, 2)]]] = true := by
  refine ⟨by decide, by decide, by decide⟩

/-- The assignment to a slice as numpy defines it: the buffer keeps its length and its values outside the slice; inside are the values of the source, or its
    only value everywhere (broadcast); and it fails exactly if the source has neither the length of the slice nor length one. -/
theorem assign_slice {β} (buf src : List β) (a b : Nat) (hab : a ≤ b) (hb : b ≤ buf.length) :
    (assignSlice buf a b src = none ↔ src.length ≠ b - a ∧ src.length ≠ 1) ∧
    ∀ r, assignSlice buf a b src = some r → r.length = buf.length ∧
      ∀ i < buf.length, r[i]? = if a ≤ i ∧ i < b then (if src.length = b - a then src[i - a]? else src[0]?) else buf[i]? := by
  have hmin : min b buf.length = b := by omega
  have key : ∀ mid : List β, mid.length = b - a →
      (buf.take a ++ mid ++ buf.drop (a + (b - a))).length = buf.length ∧
      ∀ i < buf.length, (buf.take a ++ mid ++ buf.drop (a + (b - a)))[i]? = if a ≤ i ∧ i < b then mid[i - a]? else buf[i]? := by
    intro mid hm
    refine ⟨by simp [hm]; omega, fun i hi => ?_⟩
    have h1 : (buf.take a).length = a := by simp; omega
    by_cases c1 : i < a
    · rw [if_neg (by omega), List.append_assoc, List.getElem?_append_left (by omega), List.getElem?_take_of_lt c1]
    · by_cases c2 : i < b
      · rw [if_pos ⟨by omega, c2⟩, List.append_assoc, List.getElem?_append_right (by omega), h1, List.getElem?_append_left (by omega)]
      · rw [if_neg (by omega), List.getElem?_append_right (by simp [hm]; omega), List.getElem?_drop]
        congr 1
        simp [hm]
        omega
  unfold assignSlice
  simp only [hmin]
  by_cases h : src.length = b - a
  · simp only [h, ↓reduceIte]
    refine ⟨by simp, fun r hr => ?_⟩
    cases hr
    exact key src h
  · rw [if_neg h]
    match src, h with
    | [], h => exact ⟨by simpa using h, by simp⟩
    | [x], h =>
      refine ⟨by simp, fun r hr => ?_⟩
      cases hr
      have := key (List.replicate (b - a) x) (by simp)
      refine ⟨this.1, fun i hi => ?_⟩
      rw [this.2 i hi]
      split
      · simp only [List.getElem?_replicate]
        rw [if_pos (by omega)]
        rfl
      · rfl
    | x :: y :: l, h => exact ⟨by simpa using h, by simp⟩

end Verif.Props
