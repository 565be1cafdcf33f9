import Verif.Model.Cache
import Verif.Props.NpyFile
import Verif.Props.Names
import Mathlib.Tactic.Common
import Mathlib.Data.List.GetD
import Mathlib.Algebra.Ring.Nat
import Mathlib.Tactic.Ring
/-
  C33, C34, C35: the cache of Fourier blocks.
-/
namespace Verif.Props
open Verif Verif.Par Verif.Names Verif.Cache

/-! ### C33 -/

theorem foldl_count {β} (l : List β) (p : β → Bool) (c : Nat) :
    l.foldl (fun c x => if p x then c + 1 else c) c = c + l.countP p := by
  induction l generalizing c with
  | nil => simp
  | cons x l ih =>
    simp only [List.foldl_cons, ih, List.countP_cons]
    split <;> omega

theorem countP_range (n : Nat) (p : Nat → Bool) : (List.range n).countP p = n ↔ ∀ i < n, p i = true := by
  have := List.countP_eq_length (p := p) (l := List.range n)
  rw [List.length_range] at this
  simpa using this

/-- The presence test answers yes exactly when every file of this configuration exists. -/
theorem blocks_present_iff (nb nf : Nat) (ex : Name → Bool) :
    areBlocksPresent nb nf ex = true ↔ ∀ b < nb, ∀ f < nf, ex (fftName b f) = true := by
  simp only [areBlocksPresent, decide_eq_true_eq]
  have h1 : ∀ b, (List.range nf).foldl (fun c f => if ex (fftName b f) = true then c + 1 else c) 0 =
      (List.range nf).countP fun f => ex (fftName b f) := by
    intro b; rw [foldl_count]; simp
  simp only [h1]
  have h2 := foldl_count (List.range nb)
    (fun b => decide ((List.range nf).countP (fun f => ex (fftName b f)) = nf)) 0
  simp only [decide_eq_true_eq] at h2
  rw [h2, Nat.zero_add, countP_range]
  simp only [decide_eq_true_eq, countP_range]

/-- **C33 (partial).**  With `savefft` set, cached blocks are used if and only if all files for this
    configuration's blocks and frequencies exist, whatever other files are in the folder; otherwise blocks
    are recomputed; and without `reuse_blocks` they are always recomputed.
    Missing (false, see `reuse_without_savefft_fails`): `reuse_blocks` without `savefft`. -/
theorem cache_used_iff_complete_partial (nb nf : Nat) (ex : Name → Bool) :
    (source true true nb nf ex = .cache ↔ ∀ b < nb, ∀ f < nf, ex (fftName b f) = true) ∧
    (source true true nb nf ex = .recompute ↔ ∃ b < nb, ∃ f < nf, ex (fftName b f) = false) ∧
    (∀ savefft, source false savefft nb nf ex = .recompute) := by
  have h := blocks_present_iff nb nf ex
  refine ⟨?_, ?_, fun s => rfl⟩
  · simp only [source, ↓reduceIte]
    rw [← h]
    split <;> simp_all
  · simp only [source, ↓reduceIte]
    constructor
    · intro hr
      by_contra hcon
      push Not at hcon
      have : areBlocksPresent nb nf ex = true := by
        rw [h]; intro b hb f hf
        have := hcon b hb f hf
        simpa using this
      simp [this] at hr
    · rintro ⟨b, hb, f, hf, hx⟩
      rw [if_neg]
      intro hc
      rw [h] at hc
      rw [hc b hb f hf] at hx
      simp at hx

/-- **C33 (violated).**  `reuse_blocks=True` with `savefft=False` neither reuses nor recomputes: it raises,
    whatever files exist. -/
theorem reuse_without_savefft_fails (nb nf : Nat) (ex : Name → Bool) :
    source true false nb nf ex = .attributeError := rfl

example : source true true 2 2 (fun _ => true) = .cache ∧
    source true true 2 2 (fun n => n ≠ fftName 1 0) = .recompute := by
  refine ⟨?_, ?_⟩
  · rw [(cache_used_iff_complete_partial 2 2 _).1]; simp
  · rw [(cache_used_iff_complete_partial 2 2 _).2.1]
    exact ⟨1, by omega, 0, by omega, by simp⟩

/-! ### C34 -/

section Reload
variable {K : Type} [Inhabited K]

theorem size_append_singleton (sh : List Nat) (n : Nat) : size (sh ++ [n]) = size sh * n := by
  induction sh with
  | nil => simp [size]
  | cons m ms ih => simp [size, ih, Nat.mul_assoc]

theorem unravel_snoc (sh : List Nat) (n k b : Nat) (hb : b < n) (hk : k < size sh) :
    unravel (sh ++ [n]) (k * n + b) = unravel sh k ++ [b] := by
  induction sh generalizing k with
  | nil =>
    simp only [size, Nat.lt_one_iff] at hk
    simp [unravel, size, hk]
  | cons m ms ih =>
    simp only [List.cons_append, unravel, size_append_singleton]
    have hn : 0 < n := by omega
    have hms : 0 < size ms := by
      rcases Nat.eq_zero_or_pos (size ms) with h0 | h0
      · simp [size, h0] at hk
      · exact h0
    have h1 : (k * n + b) / (size ms * n) = k / size ms := by
      rw [Nat.mul_comm (size ms), ← Nat.div_div_eq_div_mul, Nat.mul_comm k, Nat.mul_add_div hn,
        Nat.div_eq_of_lt hb, Nat.add_zero]
    have h2 : (k * n + b) % (size ms * n) = (k % size ms) * n + b := by
      rw [Nat.mul_comm (size ms), Nat.mod_mul, Nat.mul_comm k, Nat.mul_add_mod, Nat.mod_eq_of_lt hb,
        Nat.mul_add_div hn, Nat.div_eq_of_lt hb, Nat.add_zero]
      ring
    rw [h1, h2, ih _ (Nat.mod_lt _ hms)]

theorem npLoad_npSave (A : Arr K) : ∃ B, npLoad (npSave A) = some B ∧ B.Eqv A := by
  have h : (List.range (size (npSave A).shape)).all (fun k => ((npSave A).data k).isSome) = true := by
    simp only [List.all_eq_true, List.mem_range]
    intro k hk
    simp only [npSave] at *
    rw [if_pos hk]; rfl
  have h' : npLoad (npSave A) = some ⟨(npSave A).shape, fun idx =>
      ((npSave A).data (ravel (npSave A).shape idx)).getD default⟩ := if_pos h
  refine ⟨_, h', rfl, ?_⟩
  intro idx hidx
  simp only [npSave] at *
  rw [if_pos (ravel_lt hidx), unravel_ravel hidx]
  rfl

theorem aligned_same (sh : List Nat) : aligned sh.length sh = sh := by simp [aligned]

omit [Inhabited K] in
theorem assignTo_same (sh : List Nat) (a : Arr K) (h : a.shape = sh) :
    ∃ B, assignTo sh a = some B ∧ B.Eqv a := by
  have ha : aligned sh.length a.shape = a.shape := by rw [h, aligned_same]
  have hl : a.shape.length - sh.length = 0 := by rw [h]; omega
  have hl' : sh.length - a.shape.length = 0 := by rw [h]; omega
  have hc : (a.shape.take (a.shape.length - sh.length)).all (· = 1) = true ∧
      (List.range sh.length).all (fun i => ext (aligned sh.length a.shape) i = ext sh i ∨ ext (aligned sh.length a.shape) i = 1) = true := by
    subst h; simp [aligned_same]
  refine ⟨_, by rw [assignTo, if_pos hc], h.symm, ?_⟩
  intro idx hidx
  simp only [ha, hl, hl', List.replicate_zero, List.nil_append, List.drop_zero]
  congr 1
  apply List.ext_getElem
  · simp [hidx.length]
  · intro i h1 h2
    simp only [List.length_map, List.length_range] at h1
    simp only [List.getElem_map, List.getElem_range]
    have hlt := hidx.getD_lt i h1
    split
    · rename_i h1'
      rw [← h, h1'] at hlt
      rw [List.getD_eq_getElem _ _ h2] at hlt
      omega
    · rw [List.getD_eq_getElem _ _ h2]

/-- loading a file that holds an array of the right shape -/
theorem load_assign (sh : List Nat) (A : Arr K) (h : A.shape = sh) :
    ∃ B, (npLoad (npSave A)).bind (assignTo sh) = some B ∧ B.Eqv A := by
  obtain ⟨B, hB, hE⟩ := npLoad_npSave A
  obtain ⟨C, hC, hE'⟩ := assignTo_same sh B (hE.1.trans h)
  exact ⟨C, by rw [hB]; exact hC, hE'.trans hE⟩

theorem size_set (sh : List Nat) (ax n : Nat) (h : ax < sh.length) :
    size (sh.set ax n) = n * size (sh.set ax 1) := by
  induction sh generalizing ax with
  | nil => simp at h
  | cons m ms ih =>
    cases ax with
    | zero => simp [size]
    | succ k =>
      simp only [List.set_cons_succ, size]
      rw [ih k (by simpa using h)]
      ring

theorem size_set_pos (sh : List Nat) (ax : Nat) (h : ax < sh.length) (hp : 0 < size sh) :
    0 < size (sh.set ax 1) ∧ 0 < ext sh ax := by
  have := size_set sh ax (ext sh ax) h
  rw [set_ext_self] at this
  rw [this] at hp
  exact ⟨Nat.pos_of_mul_pos_left hp, Nat.pos_of_mul_pos_right hp⟩

/-- Reloading files that, assigned to a buffer of shape `xshape`, hold the arrays `A`: on each rank the columns are the rank's slabs. -/
theorem cachedQ_loaded (xshape : List Nat) (nb ax : Nat) (hax : ax < xshape.length) (comm : Comm)
    (A : Nat → Arr K) (hA : ∀ b < nb, (A b).shape = xshape) (files : Nat → NpyFile K)
    (hf : ∀ b < nb, ∃ B, (npLoad (files b)).bind (assignTo xshape) = some B ∧ B.Eqv (A b))
    (hcomm : ∀ p r, comm = some (p, r) → r < p) :
    ∃ Q, cachedQ xshape nb ax comm files = some Q ∧
      ∀ L : List Nat, (∀ b < nb, (distributeDimension (A b) ax comm).shape = L) → 0 < nb →
      Q.shape = [size L, nb] ∧ ∀ k < size L, ∀ b < nb,
        Q.at' [k, b] = (distributeDimension (A b) ax comm).at' (unravel L k) := by
  have hall : (List.range nb).all (fun b => ((npLoad (files b)).bind (assignTo xshape)).isSome) = true := by
    simp only [List.all_eq_true, List.mem_range]
    intro b hb
    obtain ⟨B, hB, _⟩ := hf b hb
    rw [hB]; rfl
  refine ⟨_, by rw [cachedQ, if_pos hall], ?_⟩
  intro L hL hnb
  -- the distributed array
  have hbuf : ∀ b < nb, ∀ idx, InRange xshape idx →
      (match (npLoad (files ((idx ++ [b]).getLastD 0))).bind (assignTo xshape) with
        | some a => a.at' (idx ++ [b]).dropLast
        | none => default) = (A b).at' idx := by
    intro b hb idx hidx
    obtain ⟨B, hB, hE⟩ := hf b hb
    have h1 : (idx ++ [b]).getLastD 0 = b := by simp
    rw [h1, hB]
    simp only [List.dropLast_concat]
    exact hE.2 idx (by rw [hE.1, hA b hb]; exact hidx)
  cases comm with
  | none =>
    have hLx : L = xshape := by rw [← hL 0 hnb]; exact hA 0 hnb
    subst hLx
    simp only [distributeDimension, List.dropLast_concat]
    refine ⟨trivial, ?_⟩
    intro k hk b hb
    simp only [List.getD_cons_zero, List.getD_cons_succ]
    rw [unravel_snoc _ _ _ _ hb hk]
    exact hbuf b hb _ (inRange_unravel hk)
  | some pr =>
    obtain ⟨p, r⟩ := pr
    have hr := hcomm p r rfl
    have hext : ext (xshape ++ [nb]) ax = ext xshape ax := by
      simp [ext, List.getD_eq_getElem?_getD, List.getElem?_append_left hax]
    have hLx : L = xshape.set ax (min ((blockdist (ext xshape ax) p r).2 + (blockdist (ext xshape ax) p r).1)
        (ext xshape ax) - (blockdist (ext xshape ax) p r).2) := by
      rw [← hL 0 hnb]
      simp only [distributeDimension, Arr.slice, hA 0 hnb]
    simp only [distributeDimension, Arr.slice, hext]
    rw [List.set_append_left _ _ hax, ← hLx, List.dropLast_concat]
    refine ⟨rfl, ?_⟩
    intro k hk b hb
    simp only [List.getD_cons_zero, List.getD_cons_succ]
    rw [unravel_snoc _ _ _ _ hb hk]
    have hin := inRange_unravel hk
    generalize unravel L k = idx at hin
    have hlen : idx.length = xshape.length := by rw [hin.length, hLx]; simp
    have hax' : ax < idx.length := by omega
    have hg : (idx ++ [b]).getD ax 0 = idx.getD ax 0 := by
      simp [List.getD_eq_getElem?_getD, List.getElem?_append_left hax']
    rw [hg, List.set_append_left _ _ hax', hA b hb]
    apply hbuf b hb
    have hlt := hin.getD_lt ax (by rw [hLx]; simpa using hax)
    rw [hLx, ext_set hax] at hlt
    have := hin.set ax (ext xshape ax) (idx.getD ax 0 + (blockdist (ext xshape ax) p r).2) (by omega)
    rw [hLx, List.set_set, set_ext_self] at this
    exact this

/-- Reloading complete files of arrays of shape `xshape`: on each rank the columns are the rank's slabs. -/
theorem cachedQ_correct (xshape : List Nat) (nb ax : Nat) (hax : ax < xshape.length) (comm : Comm)
    (A : Nat → Arr K) (hA : ∀ b < nb, (A b).shape = xshape) (files : Nat → NpyFile K)
    (hf : ∀ b < nb, files b = npSave (A b))
    (hcomm : ∀ p r, comm = some (p, r) → r < p) :
    ∃ Q, cachedQ xshape nb ax comm files = some Q ∧
      ∀ L : List Nat, (∀ b < nb, (distributeDimension (A b) ax comm).shape = L) → 0 < nb →
      Q.shape = [size L, nb] ∧ ∀ k < size L, ∀ b < nb,
        Q.at' [k, b] = (distributeDimension (A b) ax comm).at' (unravel L k) :=
  cachedQ_loaded xshape nb ax hax comm A hA files (fun b hb => by
    rw [hf b hb]
    exact load_assign xshape (A b) (hA b hb)) hcomm

/-- **C34 (partial, serial).**  For one variable (the local vector has as many entries as the grid has
    points), every block is written without error and the blocks reloaded by a later fit are exactly the
    blocks computed by the first. -/
theorem cache_reload_serial_partial (xshape : List Nat) (ax nb : Nat) (hax : ax < xshape.length)
    (hnb : 0 < nb) (v : Nat → List K) (hv : ∀ b < nb, (v b).length = size xshape) :
    ∃ files : Nat → NpyFile K, (∀ b < nb, cacheFileSer xshape (v b) = some (files b)) ∧
      ∃ Q, cachedQ xshape nb ax none files = some Q ∧ Q.Eqv (freshQ ((List.range nb).map v)) := by
  let A : Nat → Arr K := fun b => ⟨xshape, fun idx => (v b).getD (ravel xshape idx) default⟩
  refine ⟨fun b => npSave (A b), ?_, ?_⟩
  · intro b hb
    simp [cacheFileSer, reshapeExact, hv b hb, A]
  · obtain ⟨Q, hQ, hspec⟩ := cachedQ_correct xshape nb ax hax none A (fun _ _ => rfl)
      (fun b => npSave (A b)) (fun _ _ => rfl) (by simp)
    refine ⟨Q, hQ, ?_⟩
    obtain ⟨hs, hat⟩ := hspec xshape (fun _ _ => rfl) hnb
    have hlast : (((List.range nb).map v).getLast?).getD [] = v (nb - 1) := by
      obtain ⟨m, rfl⟩ : ∃ m, nb = m + 1 := ⟨nb - 1, by omega⟩
      simp [List.range_succ]
    refine ⟨?_, ?_⟩
    · rw [hs, freshQ, hlast, hv _ (by omega)]; simp
    · intro idx hidx
      rw [hs] at hidx
      match idx, hidx with
      | [k, b], ⟨hk, hb, _⟩ =>
        rw [hat k hk b hb]
        simp only [distributeDimension, A, freshQ, List.getD_cons_zero, List.getD_cons_succ]
        rw [ravel_unravel hk]
        congr 1
        simp [List.getD_eq_getElem?_getD, hb]

theorem mapM_some {β γ} (l : List β) (f : β → Option γ) (g : β → γ) (h : ∀ x ∈ l, f x = some (g x)) :
    l.mapM f = some (l.map g) := by
  induction l with
  | nil => rfl
  | cons x l ih =>
    rw [List.mapM_cons, h x (by simp), ih fun y hy => h y (by simp [hy])]
    rfl

/-- reshaping with `-1` recovers the extent -/
theorem reshapeInfer_ok (sh : List Nat) (ax n : Nat) (hax : ax < sh.length) (hp : 0 < size (sh.set ax 1))
    (v : List K) (hv : v.length = n * size (sh.set ax 1)) :
    reshapeInfer sh ax v = some ⟨sh.set ax n, fun idx => v.getD (ravel (sh.set ax n) idx) default⟩ := by
  have h1 : v.length % size (sh.set ax 1) = 0 := by rw [hv]; exact Nat.mul_mod_left _ _
  have h2 : v.length / size (sh.set ax 1) = n := by rw [hv]; exact Nat.mul_div_cancel _ hp
  rw [reshapeInfer, if_pos hax]
  simp only [h1, h2, hp, and_self, ↓reduceIte]
  rw [reshapeExact, if_pos (by rw [size_set sh ax n hax, hv])]

theorem getElem?_of_getD {β} (l : List (List β)) (r : Nat) (h : r < l.length) : l[r]? = some (l.getD r []) := by
  simp [List.getD_eq_getElem?_getD, h]

/-- **C34 (partial, parallel).**  For one variable, any number of ranks, any distributed axis and any order of
    the ranks' file writes: the local Fourier vectors are saved without error and every rank reloads exactly
    the blocks it had computed. -/
theorem cache_reload_parallel_partial (xshape : List Nat) (ax P nb : Nat) (hax : ax < xshape.length)
    (hpos : 0 < size xshape) (hP : 0 < P) (hnb : 0 < nb) (vecs : Nat → List (List K))
    (hlen : ∀ b < nb, (vecs b).length = P ∧ ∀ r < P, ((vecs b).getD r []).length =
      size (xshape.set ax (blockdist (ext xshape ax) P r).1)) :
    ∃ locals : Nat → List (Arr K), (∀ b < nb, cacheLocals xshape ax (vecs b) = some (locals b)) ∧
      ∀ ws : Nat → List (Write K), (∀ b < nb, (ws b).Perm (saveWrites ax (locals b))) →
      ∀ r < P, ∃ Q, cachedQ xshape nb ax (some (P, r)) (fun b => npySaveFile ax (locals b) (ws b)) = some Q ∧
        Q.Eqv (freshQ ((List.range nb).map fun b => (vecs b).getD r [])) := by
  have hoth := (size_set_pos xshape ax hax hpos).1
  let g : List K → Arr K := fun v =>
    ⟨xshape.set ax (v.length / size (xshape.set ax 1)),
     fun idx => v.getD (ravel (xshape.set ax (v.length / size (xshape.set ax 1))) idx) default⟩
  have hvlen : ∀ b < nb, ∀ v ∈ vecs b, ∃ n, v.length = n * size (xshape.set ax 1) := by
    intro b hb v hv
    obtain ⟨r, hr, rfl⟩ := List.mem_iff_getElem.1 hv
    have := (hlen b hb).2 r (by rw [← (hlen b hb).1]; exact hr)
    rw [List.getD_eq_getElem _ _ hr, size_set _ _ _ hax] at this
    exact ⟨_, this⟩
  have hg : ∀ b < nb, ∀ v ∈ vecs b, reshapeInfer xshape ax v = some (g v) := by
    intro b hb v hv
    obtain ⟨n, hn⟩ := hvlen b hb v hv
    have h2 : v.length / size (xshape.set ax 1) = n := by rw [hn]; exact Nat.mul_div_cancel _ hoth
    rw [reshapeInfer_ok xshape ax n hax hoth v hn]
    simp only [g, h2]
  refine ⟨fun b => (vecs b).map g, fun b hb => mapM_some _ _ _ (hg b hb), ?_⟩
  intro ws hws r hr
  have hcompat : ∀ b < nb, Compatible ax xshape ((vecs b).map g) := by
    intro b hb
    refine ⟨hax, ?_⟩
    intro a ha
    obtain ⟨v, _, rfl⟩ := List.mem_map.1 ha
    exact ⟨_, rfl⟩
  have hcount : ∀ b < nb, ∀ r < P, ext (g ((vecs b).getD r [])).shape ax = countOf (ext xshape ax) P r := by
    intro b hb r hr
    have := (hlen b hb).2 r hr
    rw [size_set _ _ _ hax] at this
    simp only [g, ext_set hax, this, Nat.mul_div_cancel _ hoth]
  have hext : ∀ b < nb, extents ax ((vecs b).map g) = (List.range P).map (countOf (ext xshape ax) P) := by
    intro b hb
    apply List.ext_getElem
    · simp [(hlen b hb).1]
    · intro i h1 h2
      have hi : i < P := by simpa using h2
      have hi' : i < (vecs b).length := by rw [(hlen b hb).1]; exact hi
      have := hcount b hb i hi
      rw [List.getD_eq_getElem _ _ hi'] at this
      simpa using this
  have hne : ∀ b < nb, (vecs b).map g ≠ [] := by
    intro b hb h
    have := (hlen b hb).1
    rw [List.map_eq_nil_iff] at h
    rw [h] at this; simp at this; omega
  have hshape : ∀ b < nb, (concat ax ((vecs b).map g)).shape = xshape := by
    intro b hb
    rw [concat_shape (hcompat b hb) (hne b hb), hext b hb, sum_counts _ _ hP, set_ext_self]
  obtain ⟨Q, hQ, hspec⟩ := cachedQ_correct xshape nb ax hax (some (P, r))
    (fun b => concat ax ((vecs b).map g)) hshape (fun b => npySaveFile ax ((vecs b).map g) (ws b))
    (fun b hb => npy_save_eq_serial ax xshape _ (hcompat b hb) (hne b hb) (ws b) (hws b hb))
    (by rintro p' r' h; cases h; exact hr)
  refine ⟨Q, hQ, ?_⟩
  have hle : startOf (ext xshape ax) P r + countOf (ext xshape ax) P r ≤ ext xshape ax := by
    rcases Nat.lt_or_ge (r + 1) P with h | h
    · have h1 := endOf_le_startOf (ext xshape ax) P (r := r) (r' := P - 1) (by omega) (by omega)
      have h2 := blockdist_end (ext xshape ax) P (P - 1) (by omega) (by omega)
      omega
    · exact le_of_eq (blockdist_end _ _ r hr (by omega))
  obtain ⟨hs, hat⟩ := hspec (xshape.set ax (countOf (ext xshape ax) P r)) (by
    intro b hb
    simp only [distributeDimension, Arr.slice, hshape b hb]
    congr 1
    show min (startOf (ext xshape ax) P r + countOf (ext xshape ax) P r) (ext xshape ax)
      - startOf (ext xshape ax) P r = _
    omega) hnb
  have hlast : (((List.range nb).map fun b => (vecs b).getD r []).getLast?).getD [] =
      (vecs (nb - 1)).getD r [] := by
    obtain ⟨m, rfl⟩ : ∃ m, nb = m + 1 := ⟨nb - 1, by omega⟩
    simp [List.range_succ]
  refine ⟨?_, ?_⟩
  · rw [hs, freshQ, hlast, (hlen _ (by omega)).2 r hr]; simp [countOf]
  · intro idx hidx
    rw [hs] at hidx
    match idx, hidx with
    | [k, b], ⟨hk, hb, _⟩ =>
      rw [hat k hk b hb]
      have hloc : ((vecs b).map g)[r]? = some (g ((vecs b).getD r [])) := by
        rw [List.getElem?_map, getElem?_of_getD _ r (by rw [(hlen b hb).1]; exact hr)]; rfl
      have hgs : (g ((vecs b).getD r [])).shape = xshape.set ax (countOf (ext xshape ax) P r) := by
        rw [← hcount b hb r hr]
        simp [g, ext_set hax]
      have hin := inRange_unravel hk
      have hc := (concat_at_local (hcompat b hb) r _ hloc (unravel (xshape.set ax (countOf (ext xshape ax) P r)) k)
        (by rw [hgs]; exact hin)).2
      have hd : displ (extents ax ((vecs b).map g)) r = startOf (ext xshape ax) P r := by
        rw [hext b hb, displ, sum_counts_take _ _ _ hr]
      rw [hd] at hc
      simp only [distributeDimension, Arr.slice, hshape b hb]
      rw [show (blockdist (ext xshape ax) P r).2 = startOf (ext xshape ax) P r from rfl, hc]
      have : ∀ idx, (g ((vecs b).getD r [])).at' idx =
          ((vecs b).getD r []).getD (ravel (g ((vecs b).getD r [])).shape idx) default := fun _ => rfl
      rw [this, hgs, ravel_unravel hk]
      simp only [freshQ, List.getD_cons_zero, List.getD_cons_succ]
      congr 1
      simp [List.getD_eq_getElem?_getD, hb]

/-- **C34 (violated, serial).**  With two or more variables the very first save raises. -/
theorem cache_save_multivariable_serial_fails (xshape : List Nat) (nv : Nat) (hnv : 2 ≤ nv)
    (hpos : 0 < size xshape) (v : List K) (hv : v.length = size xshape * nv) :
    cacheFileSer xshape v = none := by
  have : size xshape ≠ v.length := by
    rw [hv]
    intro h
    have := Nat.mul_le_mul_left (size xshape) hnv
    omega
  simp [cacheFileSer, reshapeExact, this]

/-- **C34 (violated, parallel).**  With two or more variables the blocks are saved (with the variables
    folded into the distributed axis), but reloading them raises on every rank. -/
theorem cache_reload_multivariable_parallel_fails (xshape : List Nat) (ax P nb nv : Nat)
    (hax : ax < xshape.length) (hpos : 0 < size xshape) (hP : 0 < P) (hnb : 0 < nb) (hnv : 2 ≤ nv)
    (vecs : Nat → List (List K))
    (hlen : ∀ b < nb, (vecs b).length = P ∧ ∀ r < P, ((vecs b).getD r []).length =
      size (xshape.set ax (blockdist (ext xshape ax) P r).1) * nv) :
    ∃ locals : Nat → List (Arr K), (∀ b < nb, cacheLocals xshape ax (vecs b) = some (locals b)) ∧
      ∀ (ws : Nat → List (Write K)) (r : Nat),
        cachedQ xshape nb ax (some (P, r)) (fun b => npySaveFile ax (locals b) (ws b)) = none := by
  obtain ⟨hoth, hN⟩ := size_set_pos xshape ax hax hpos
  let g : List K → Arr K := fun v =>
    ⟨xshape.set ax (v.length / size (xshape.set ax 1)),
     fun idx => v.getD (ravel (xshape.set ax (v.length / size (xshape.set ax 1))) idx) default⟩
  have hvn : ∀ b < nb, ∀ r < P, ((vecs b).getD r []).length =
      (countOf (ext xshape ax) P r * nv) * size (xshape.set ax 1) := by
    intro b hb r hr
    rw [(hlen b hb).2 r hr, size_set _ _ _ hax]
    simp only [countOf]; ring
  have hg : ∀ b < nb, ∀ v ∈ vecs b, reshapeInfer xshape ax v = some (g v) := by
    intro b hb v hv
    obtain ⟨r, hr, rfl⟩ := List.mem_iff_getElem.1 hv
    have h := hvn b hb r (by rw [← (hlen b hb).1]; exact hr)
    rw [List.getD_eq_getElem _ _ hr] at h
    have h2 := congrArg (· / size (xshape.set ax 1)) h
    simp only [Nat.mul_div_cancel _ hoth] at h2
    rw [reshapeInfer_ok xshape ax _ hax hoth _ h]
    simp only [g, h2]
  refine ⟨fun b => (vecs b).map g, fun b hb => mapM_some _ _ _ (hg b hb), ?_⟩
  intro ws r
  have hext : extents ax ((vecs 0).map g) = (List.range P).map (fun r => countOf (ext xshape ax) P r * nv) := by
    apply List.ext_getElem
    · simp [(hlen 0 hnb).1]
    · intro i h1 h2
      have hi : i < P := by simpa using h2
      have hi' : i < (vecs 0).length := by rw [(hlen 0 hnb).1]; exact hi
      have := hvn 0 hnb i hi
      rw [List.getD_eq_getElem _ _ hi'] at this
      simp [g, ext_set hax, this, Nat.mul_div_cancel _ hoth]
  have hsum : (extents ax ((vecs 0).map g)).sum = ext xshape ax * nv := by
    rw [hext, List.sum_map_mul_right, sum_counts _ _ hP]
  have hfs : (npySaveFile ax ((vecs 0).map g) (ws 0)).shape = xshape.set ax (ext xshape ax * nv) := by
    simp only [npySaveFile, saveSizes]
    have : ((vecs 0).map g).map (fun a : Arr K => ext a.shape ax) = extents ax ((vecs 0).map g) := rfl
    rw [this, hsum]
    have hl : 0 < (vecs 0).length := by rw [(hlen 0 hnb).1]; exact hP
    cases hv : vecs 0 with
    | nil => rw [hv] at hl; simp at hl
    | cons v vs => simp [g]
  rw [cachedQ, if_neg]
  intro hcon
  simp only [List.all_eq_true, List.mem_range] at hcon
  have h0 := hcon 0 hnb
  rw [Option.isSome_bind] at h0
  unfold npLoad at h0
  split at h0
  · simp only [Option.any_some] at h0
    unfold assignTo at h0
    split at h0
    · rename_i hc
      have hl : (xshape.set ax (ext xshape ax * nv)).length = xshape.length := by simp
      have ha : aligned xshape.length (xshape.set ax (ext xshape ax * nv)) = xshape.set ax (ext xshape ax * nv) :=
        hl ▸ aligned_same (xshape.set ax (ext xshape ax * nv))
      simp only [hfs, ha, List.all_eq_true, List.mem_range, decide_eq_true_eq] at hc
      have h1 := hc.2 ax hax
      rw [ext_set hax] at h1
      have h2 := Nat.mul_le_mul_left (ext xshape ax) hnv
      omega
    · simp at h0
  · simp at h0

/-- **C34 (violated, parallel).**  If the variable axis is the largest one (more variables than points along
    any direction), the distributed axis does not exist in the saved shape and the save raises. -/
theorem cache_save_variable_axis_fails (xshape : List Nat) (ax : Nat) (hax : xshape.length ≤ ax)
    (v : List K) (vs : List (List K)) : cacheLocals xshape ax (v :: vs) = none := by
  have : reshapeInfer xshape ax v = none := by rw [reshapeInfer, if_neg (by omega)]
  simp [cacheLocals, List.mapM_cons, this]

end Reload

/-- non-trivial instance of the hypotheses of `cache_reload_parallel_partial`: a 3×2 grid on two ranks -/
example : let vecs : Nat → List (List Nat) := fun b => [[b, 1, 2, 3], [4, 5]]
    ∀ b < 2, (vecs b).length = 2 ∧ ∀ r < 2, ((vecs b).getD r []).length =
      size ([3, 2].set 0 (blockdist (ext [3, 2] 0) 2 r).1) := by
  intro vecs b _
  refine ⟨rfl, ?_⟩
  intro r hr
  interval_cases r <;> rfl

end Verif.Props
