import Verif.Props.CachedFit
/-
  C212: fits on different grids that share a results folder (pyspod/spod/standard.py:60-81: the cached blocks are assigned to a buffer of the shape of the grid,
  and numpy spreads a smaller array over a larger buffer).
-/
set_option linter.unusedVariables false
set_option linter.unusedSectionVars false
namespace Verif.Props
open Verif Verif.Par Verif.Rd Verif.Spod Verif.Fit Verif.Names Verif.Cache Verif.CFit Matrix

/-! ### Specification -/

/-- An array of shape `s` spreads over a grid `xs`: aligned at the last axis (a missing axis has extent 1), every extent of `s` is that of the grid, or 1. -/
def Spreads (s xs : List Nat) : Prop := ∀ i, s.reverse.getD i 1 = xs.reverse.getD i 1 ∨ s.reverse.getD i 1 = 1

/-- the entry of an array of shape `s` that the grid point `idx` gets: the same position along the axes of extent other than 1 -/
def spreadIdx (s idx : List Nat) : List Nat :=
  ((List.range s.length).map fun i => if s.reverse.getD i 1 = 1 then 0 else idx.reverse.getD i 0).reverse

/-! ### numpy assignment -/

theorem aligned_length (n : Nat) (s : List Nat) : (aligned n s).length = n := by
  simp [aligned]; omega

theorem reverse_getD {α} (l : List α) (i : Nat) (d : α) (h : i < l.length) : l.reverse.getD i d = l.getD (l.length - 1 - i) d := by
  rw [List.getD_eq_getElem?_getD, List.getElem?_reverse h, List.getD_eq_getElem?_getD]

theorem aligned_at (n : Nat) (s : List Nat) (i : Nat) (h : i < n) : ext (aligned n s) i = s.reverse.getD (n - 1 - i) 1 := by
  unfold ext aligned
  by_cases hi : i < n - s.length
  · rw [List.getD_append _ _ _ _ (by simpa using hi), List.getD_eq_getElem _ _ (by simpa using hi), List.getElem_replicate,
      List.getD_eq_default _ _ (by simp; omega)]
  · rw [List.getD_append_right _ _ _ _ (by simpa using hi), reverse_getD _ _ _ (by omega)]
    simp only [List.length_replicate, List.getD_eq_getElem?_getD, List.getElem?_drop]
    have e : s.length - n + (i - (n - s.length)) = s.length - 1 - (n - 1 - i) := by omega
    rw [e, List.getElem?_eq_getElem (by omega)]
    rfl

theorem assignTo_iff (xs : List Nat) (a : Arr ℂ) : (assignTo xs a).isSome = true ↔ Spreads a.shape xs := by
  unfold assignTo
  constructor
  · intro h
    split at h
    · rename_i hc
      simp only [List.all_eq_true, List.mem_range, decide_eq_true_eq] at hc
      obtain ⟨h1, h2⟩ := hc
      intro i
      by_cases hi : i < xs.length
      · have := h2 (xs.length - 1 - i) (by omega)
        rw [aligned_at _ _ _ (by omega), show xs.length - 1 - (xs.length - 1 - i) = i from by omega] at this
        rwa [reverse_getD xs _ _ hi, show xs.getD (xs.length - 1 - i) 1 = ext xs (xs.length - 1 - i) from by
          rw [ext, List.getD_eq_getElem _ _ (by omega), List.getD_eq_getElem _ _ (by omega)]]
      · right
        by_cases hs : i < a.shape.length
        · rw [reverse_getD _ _ _ hs, List.getD_eq_getElem _ _ (by omega)]
          exact h1 _ (List.mem_take_iff_getElem.2 ⟨a.shape.length - 1 - i, by omega, rfl⟩)
        · rw [List.getD_eq_default _ _ (by simp; omega)]
    · simp at h
  · intro h
    rw [if_pos]
    · rfl
    · simp only [List.all_eq_true, List.mem_range, decide_eq_true_eq]
      refine ⟨fun x hx => ?_, fun i hi => ?_⟩
      · obtain ⟨k, hk, rfl⟩ := List.mem_take_iff_getElem.1 hx
        have := h (a.shape.length - 1 - k)
        rw [reverse_getD _ _ _ (by omega), show a.shape.length - 1 - (a.shape.length - 1 - k) = k from by omega,
          List.getD_eq_getElem _ _ (by omega), List.getD_eq_default xs.reverse _ (by simp; omega)] at this
        simpa using this
      · have := h (xs.length - 1 - i)
        rw [aligned_at _ _ _ hi]
        rw [reverse_getD xs _ _ (by omega), show xs.length - 1 - (xs.length - 1 - i) = i from by omega,
          List.getD_eq_getElem xs _ hi] at this
        rwa [ext, List.getD_eq_getElem xs _ hi]

theorem assignTo_value (xs : List Nat) (a B : Arr ℂ) (h : assignTo xs a = some B) :
    B.shape = xs ∧ ∀ idx, idx.length = xs.length → B.at' idx = a.at' (spreadIdx a.shape idx) := by
  unfold assignTo at h
  split at h
  · rename_i hc
    obtain rfl := Option.some.inj h
    simp only [List.all_eq_true, List.mem_range, decide_eq_true_eq] at hc
    refine ⟨rfl, fun idx hidx => ?_⟩
    simp only
    congr 1
    apply List.ext_getElem
    · simp [spreadIdx]; omega
    · intro k h1 h2
      have hk : k < a.shape.length := by simpa [spreadIdx] using h2
      simp only [spreadIdx]
      rw [List.getElem_reverse, List.getElem_map, List.getElem_range]
      simp only [List.length_map, List.length_range]
      by_cases hlt : k < a.shape.length - xs.length
      · rw [List.getElem_append_left (by simpa using hlt), List.getElem_replicate, if_pos]
        rw [reverse_getD _ _ _ (by omega), show a.shape.length - 1 - (a.shape.length - 1 - k) = k from by omega, List.getD_eq_getElem _ _ hk]
        exact hc.1 _ (List.mem_take_iff_getElem.2 ⟨k, by omega, rfl⟩)
      · rw [List.getElem_append_right (by simpa using hlt), List.getElem_drop, List.getElem_map, List.getElem_range]
        simp only [List.length_replicate]
        rw [aligned_at _ _ _ (by omega)]
        have e : xs.length - 1 - (xs.length - a.shape.length + (k - (a.shape.length - xs.length))) = a.shape.length - 1 - k := by omega
        rw [e, reverse_getD idx _ _ (by omega)]
        have e2 : xs.length - a.shape.length + (k - (a.shape.length - xs.length)) = idx.length - 1 - (a.shape.length - 1 - k) := by omega
        rw [e2]
  · cases h


theorem spreadIdx_self (s idx : List Nat) (h : InRange s idx) : spreadIdx s idx = idx := by
  unfold spreadIdx
  apply List.ext_getElem
  · simp [h.length]
  · intro k h1 h2
    have hk : k < s.length := by simpa using h1
    rw [List.getElem_reverse, List.getElem_map, List.getElem_range]
    simp only [List.length_map, List.length_range]
    have hl := h.length
    have e : s.length - 1 - (s.length - 1 - k) = k := by omega
    rw [reverse_getD _ _ _ (by omega), reverse_getD _ _ _ (by omega), e, hl, e]
    have hlt := h.getD_lt k hk
    rw [List.getD_eq_getElem _ _ h2] at hlt ⊢
    split
    · rename_i h0
      rw [ext, List.getD_eq_getElem _ _ hk] at hlt
      rw [List.getD_eq_getElem _ _ hk] at h0
      omega
    · rfl

theorem spreads_self (s : List Nat) : Spreads s s := fun _ => Or.inl rfl

/-- loading and assigning a complete file of an array of another shape -/
theorem load_spread (xs : List Nat) (A : Arr ℂ) (h : Spreads A.shape xs) (hpos : ∀ idx, InRange xs idx → InRange A.shape (spreadIdx A.shape idx)) :
    ∃ B, (npLoad (npSave A)).bind (assignTo xs) = some B ∧ B.Eqv ⟨xs, fun idx => A.at' (spreadIdx A.shape idx)⟩ := by
  obtain ⟨B, hB, hE⟩ := npLoad_npSave A
  have hsome : (assignTo xs B).isSome = true := (assignTo_iff xs B).2 (by rw [hE.1]; exact h)
  obtain ⟨C, hC⟩ := Option.isSome_iff_exists.1 hsome
  obtain ⟨h1, h2⟩ := assignTo_value xs B C hC
  refine ⟨C, by rw [hB]; exact hC, h1, fun idx hidx => ?_⟩
  rw [h1] at hidx
  rw [h2 idx hidx.length, hE.1]
  exact hE.2 _ (by rw [hE.1]; exact hpos idx hidx)

theorem load_refused (xs : List Nat) (A : Arr ℂ) (h : ¬ Spreads A.shape xs) : (npLoad (npSave A)).bind (assignTo xs) = none := by
  obtain ⟨B, hB, hE⟩ := npLoad_npSave A
  rw [hB, Option.bind_some]
  by_contra hcon
  exact h (hE.1 ▸ (assignTo_iff xs B).1 (Option.isSome_iff_ne_none.2 hcon))

theorem inRange_iff_getD (s idx : List Nat) : InRange s idx ↔ idx.length = s.length ∧ ∀ i < s.length, idx.getD i 0 < ext s i := by
  constructor
  · exact fun h => ⟨h.length, fun i hi => h.getD_lt i hi⟩
  · rintro ⟨h1, h2⟩
    induction s generalizing idx with
    | nil =>
      obtain rfl := List.length_eq_zero_iff.1 h1
      trivial
    | cons a s ih =>
      cases idx with
      | nil => simp at h1
      | cons k idx =>
        refine ⟨h2 0 (by simp), ih idx (by simpa using h1) fun i hi => ?_⟩
        exact h2 (i + 1) (by simpa using hi)

theorem spreadIdx_inRange (s xs idx : List Nat) (h : Spreads s xs) (hs : 0 < size s) (hidx : InRange xs idx) : InRange s (spreadIdx s idx) := by
  rw [inRange_iff_getD]
  refine ⟨by simp [spreadIdx], fun i hi => ?_⟩
  have hsi : s.getD i 1 = ext s i := by rw [ext, List.getD_eq_getElem _ _ hi, List.getD_eq_getElem _ _ hi]
  unfold spreadIdx
  rw [reverse_getD _ _ _ (by simpa using hi), List.getD_eq_getElem _ _ (by simp; omega), List.getElem_map, List.getElem_range]
  simp only [List.length_map, List.length_range]
  have e : s.length - 1 - (s.length - 1 - i) = i := by omega
  rw [reverse_getD s _ _ (by omega), e, hsi]
  split
  · rename_i h0; omega
  · rename_i h0
    have := h (s.length - 1 - i)
    rw [reverse_getD s _ _ (by omega), e, hsi] at this
    rcases this with h1 | h1
    · by_cases hx : s.length - 1 - i < xs.length
      · rw [reverse_getD xs _ _ hx] at h1
        rw [reverse_getD idx _ _ (by rw [hidx.length]; exact hx), hidx.length, h1]
        have := hidx.getD_lt (xs.length - 1 - (s.length - 1 - i)) (by omega)
        rwa [ext, List.getD_eq_getElem xs _ (by omega), ← List.getD_eq_getElem xs 1 (by omega)] at this
      · rw [List.getD_eq_default xs.reverse _ (by simp; omega)] at h1
        exact absurd h1 h0
    · exact absurd h1 h0

/-! ### One fit -/

theorem writeAll_or (F : Blocks) (nb nf : Nat) (file : Nat → Nat → NpyFile ℂ) (n : Name) :
    writeAll F nb nf file n = (writeAll (fun _ => none) nb nf file n).or (F n) := by
  unfold writeAll
  generalize cacheItems nb nf = l
  induction l using List.reverseRecOn with
  | nil => rfl
  | append_singleton l x ih =>
    simp only [List.foldl_append, List.foldl_cons, List.foldl_nil]
    split
    · rfl
    · exact ih

/-- a fit that computes its blocks: the result does not depend on what is in the folder, and its files are added to it -/
theorem fitJob_recompute {xs j m} (h : JobOk xs j m) (ω : ℂ) (F : Blocks)
    (hF : source j.reuse j.savefft j.nb j.nf (fun n => (F n).isSome) = .recompute)
    (hG : source j.reuse j.savefft j.nb j.nf (fun n => ((fun _ => none : Blocks) n).isSome) = .recompute) :
    (fitJob ω F j).2 = (fitJob ω (fun _ => none) j).2 ∧ ∀ n, (fitJob ω F j).1 n = ((fitJob ω (fun _ => none) j).1 n).or (F n) := by
  unfold fitJob
  split
  · split
    · exact ⟨rfl, fun n => rfl⟩
    · rw [hF, hG]
      simp only
      split
      · exact ⟨rfl, fun n => rfl⟩
      · split
        · split
          · exact ⟨rfl, fun n => by simp only; exact writeAll_or F _ _ _ n⟩
          · exact ⟨rfl, fun n => rfl⟩
        · exact ⟨rfl, fun n => rfl⟩
  · exact ⟨rfl, fun n => rfl⟩

/-- What the folder holds, in terms of the fits that own its frequencies, each on its own grid. -/
def HoldsAny (ω : ℂ) (nb : Nat) (O : Owners) (F : Blocks) : Prop :=
  ∀ f, ∀ b < nb, F (fftName b f) = (O f).map fun o => npSave (blockArr ω o.xshape o b f)

/-- the realizations of fit `o` spread over the grid of the weights of another fit -/
noncomputable def spreadHat (ω : ℂ) (o : Job) (w : Arr ℝ) (f b : Nat) : Arr ℂ :=
  ⟨w.shape, fun idx => pointHat o.c ω (atIdx (spreadIdx o.xshape idx.dropLast ++ [0]) o.files.flatten) f b⟩

theorem JobOk.nf_pos {xs j m} (h : JobOk xs j m) : 0 < j.nf := by
  have := (feasible_nb j.c _ h.acc.blocks).2
  unfold Job.nf nFreq
  split
  · omega
  · split <;> omega

theorem source_of (j : Job) (F : Blocks) (O : Owners) (hnb : 0 < j.nb) (hp : ∀ f, ∀ b < j.nb, ((F (fftName b f)).isSome = true ↔ O f ≠ none)) :
    (j.reuse = true → j.savefft = false → source j.reuse j.savefft j.nb j.nf (fun n => (F n).isSome) = .attributeError) ∧
    ((j.reuse = true → j.savefft = true) → Computes O j → source j.reuse j.savefft j.nb j.nf (fun n => (F n).isSome) = .recompute) ∧
    ((j.reuse = true → j.savefft = true) → ¬ Computes O j → source j.reuse j.savefft j.nb j.nf (fun n => (F n).isSome) = .cache) := by
  have hc := cache_used_iff_complete_partial j.nb j.nf fun n => (F n).isSome
  refine ⟨fun h1 h2 => by rw [h1, h2]; rfl, fun h1 h2 => ?_, fun h1 h2 => ?_⟩
  · cases hr : j.reuse with
    | false => rfl
    | true =>
      rw [h1 hr, hc.2.1]
      rcases h2 with h2 | ⟨f, hf, hO⟩
      · rw [hr] at h2; cases h2
      · refine ⟨0, hnb, f, hf, ?_⟩
        have := (hp f 0 hnb).not.2 (by simpa using hO)
        simpa using this
  · cases hr : j.reuse with
    | false => exact absurd (Or.inl hr) h2
    | true =>
      rw [h1 hr, hc.1]
      exact fun b hb f hf => (hp f b hb).2 fun hO => h2 (Or.inr ⟨f, hf, hO⟩)

open Classical in
/-- one fit on its own grid: effect on the folder and result -/
theorem job_any {j m} (h : JobOk j.xshape j m) (ω : ℂ) (F : Blocks) (O : Owners) (hO : ∀ f o, O f = some o → 0 < size o.xshape)
    (hF : HoldsAny ω j.nb O F) :
    HoldsAny ω j.nb (ownStep O j) (fitJob ω F j).1 ∧
    ((j.reuse = true → j.savefft = true) → Computes O j → ∃ out, (fitJob ω F j).2 = some out ∧
      out.weights = npSave j.w ∧ out.ltm = npSave (globalLtm j.c j.nt j.files.flatten j.w) ∧ ∀ f < j.nf, From ω j j f out) ∧
    ((j.reuse = true → j.savefft = true) → ¬ Computes O j → (∀ f < j.nf, ∀ o, O f = some o → Spreads o.xshape j.xshape) →
      ∃ out, (fitJob ω F j).2 = some out ∧ out.weights = npSave j.w ∧ out.ltm = npSave (globalLtm j.c j.nt j.files.flatten j.w) ∧
      ∀ f < j.nf, ∀ o, O f = some o → Reports j.c j.w j.solver f (rowsOf j.w.shape (spreadHat ω o j.w f)) out) ∧
    ((j.reuse = true → j.savefft = true) → ¬ Computes O j → (∃ f < j.nf, ∃ o, O f = some o ∧ ¬ Spreads o.xshape j.xshape) →
      fitJob ω F j = (F, none)) := by
  obtain ⟨ax, hmax, hfirst, hax⟩ := h.axis
  have hnb : 0 < j.nb := by have := h.nb2; unfold Job.nb; omega
  have hfeas : feasible j.c.nDft (nBlocks j.nt j.c.nDft j.c.nOvlp) = .ok () := h.acc.blocks
  have hread : (j.comms.mapM fun cm => oneStage j.files j.w ax cm) = some (j.comms.map (partIn j ax)) :=
    mapM_some _ _ _ fun cm _ => oneStage_ok j.files j.w ax cm h.nonempty
  have hpres : ∀ f, ∀ b < j.nb, ((F (fftName b f)).isSome = true ↔ O f ≠ none) := by
    intro f b hb
    rw [hF f b hb]
    cases O f <;> simp
  obtain ⟨sa, sr, sc⟩ := source_of j F O hnb hpres
  obtain ⟨-, sr0, -⟩ := source_of j (fun _ => none) (fun _ => none) hnb (by simp)
  have hC0 : Computes (fun _ => none) j := Or.inr ⟨0, h.nf_pos, rfl⟩
  obtain ⟨st1, st2, -⟩ := job_step h ω (fun _ => none) (fun _ => none) (fun f b hb => rfl)
  have hcached : (j.reuse = true → j.savefft = true) → ¬ Computes O j → fitJob ω F j =
      match (j.comms.zip (j.comms.map (partIn j ax))).mapM fun x => loadRank F j.xshape j.nb j.nf ax x.1 x.2.2.shape with
      | none => (F, none)
      | some Qs => (F, finish j.c j.nt j.solver j.sched ax ((j.comms.map (partIn j ax)).zip Qs)) := by
    intro hrs hc
    unfold fitJob
    simp only [hmax, hfeas, h.acc.mean, hread, sc hrs hc]
    rfl
  refine ⟨?_, ?_, ?_, ?_⟩
  · by_cases hrs : j.reuse = true → j.savefft = true
    · by_cases hc : Computes O j
      · obtain ⟨-, e2⟩ := fitJob_recompute h ω F (sr hrs hc) (sr0 hrs hC0)
        intro f b hb
        rw [e2, st1 f b hb, hF f b hb]
        by_cases hs : j.savefft = true
        · simp only [ownStep, hs, hC0, hc, and_self, if_true]
          split
          · rfl
          · rfl
        · simp only [ownStep, hs]
          rfl
      · have e : (fitJob ω F j).1 = F := by
          rw [hcached hrs hc]
          split <;> rfl
        rw [e]
        unfold ownStep
        rw [if_neg fun x => hc x.2]
        exact hF
    · push Not at hrs
      have hs : j.savefft = false := by simpa using hrs.2
      have e : (fitJob ω F j).1 = F := by
        unfold fitJob
        simp only [hmax, hfeas, h.acc.mean, hread, sa hrs.1 hs]
      rw [e]
      unfold ownStep
      rw [if_neg fun x => hrs.2 x.1]
      exact hF
  · intro hrs hc
    obtain ⟨e1, -⟩ := fitJob_recompute h ω F (sr hrs hc) (sr0 hrs hC0)
    obtain ⟨out, h1, h2, h3, h4⟩ := st2 hrs
    exact ⟨out, e1.trans h1, h2, h3, fun f hf => h4 f hf j (if_pos hC0)⟩
  · intro hrs hc hsp
    let o : Nat → Job := fun f => (O f).getD j
    have ho : ∀ f < j.nf, O f = some (o f) := by
      intro f hf
      cases hO : O f with
      | none => exact absurd (Or.inr ⟨f, hf, hO⟩) hc
      | some x => simp only [o, hO, Option.getD_some]
    have hQ : ∀ cm : Comm, ∃ Qr, cm ∈ j.comms → loadRank F j.xshape j.nb j.nf ax cm (distributeDimension j.w ax cm).shape = some Qr ∧
        ∀ f < j.nf, ∀ b < j.nb, ∀ idx, InRange (distributeDimension j.w ax cm).shape idx →
          (Qr f b).at' idx = (spreadHat ω (o f) j.w f b).at' (toG ax (ext j.w.shape ax) cm idx) := by
      intro cm
      by_cases hcm : cm ∈ j.comms
      · obtain ⟨Qr, h1, h2⟩ := load_any j.w j.xshape h.shape ax hax cm (fun p r e => (comms_valid j cm hcm p r e).1) F j.nf j.nb hnb
          (fun f b => ⟨j.xshape, fun idx => (blockArr ω (o f).xshape (o f) b f).at' (spreadIdx (o f).xshape idx)⟩) (fun _ _ _ _ => rfl)
          (fun f hf b hb => ⟨_, by rw [hF f b hb, ho f hf, Option.map_some],
            load_spread j.xshape (blockArr ω (o f).xshape (o f) b f) (hsp f hf _ (ho f hf)) fun idx hidx =>
              spreadIdx_inRange _ _ _ (hsp f hf _ (ho f hf)) (hO f _ (ho f hf)) hidx⟩)
        refine ⟨Qr, fun _ => ⟨h1, fun f hf b hb idx hidx => ?_⟩⟩
        have e := dist_one j.w j.xshape h.shape ax hax cm (blockArr ω j.xshape j 0 f) rfl
        have hlen : (distributeDimension (blockArr ω j.xshape j 0 f) ax cm).shape.length = j.xshape.length := dist_length _ ax cm
        have hidx' := hidx
        rw [e] at hidx'
        obtain ⟨x, k, rfl, hx, hk⟩ := inRange_append hidx'
        obtain rfl : k = 0 := by omega
        have hext : ext j.w.shape ax = ext j.xshape ax := by
          rw [h.shape]; simp [ext, List.getD_eq_getElem?_getD, List.getElem?_append_left hax]
        rw [h2 f hf b hb x hidx, toG_snoc j.xshape ax _ hax cm x (by rw [hx.length, hlen]), hext]
        simp only [blockArr, spreadHat, List.dropLast_concat]
      · exact ⟨fun _ _ => ⟨[], fun _ => 0⟩, fun hh => absurd hh hcm⟩
    choose Qr hQr using hQ
    have hload : ((j.comms.zip (j.comms.map (partIn j ax))).mapM fun x =>
        loadRank F j.xshape j.nb j.nf ax x.1 x.2.2.shape) = some (j.comms.map Qr) := by
      rw [zip_map_right_same, List.mapM_map]
      exact mapM_some _ _ _ fun cm hcm => (hQr cm hcm).1
    obtain ⟨out, hout, hw, hl, hrep⟩ := finish_job h ax hfirst Qr (fun f b => spreadHat ω (o f) j.w f b) (fun _ _ => rfl)
    refine ⟨out, ?_, hw, hl, ?_⟩
    · rw [hcached hrs hc, hload]
      simp only
      rw [zip_map_same]
      exact hout
    · intro f hf x hx
      rw [ho f hf] at hx
      obtain rfl := Option.some.inj hx
      exact hrep f fun cm hcm b hb idx hidx => (hQr cm hcm).2 f hf b hb idx hidx
  · rintro hrs hc ⟨f, hf, o, ho, hno⟩
    have hne : j.comms ≠ [] := by
      unfold Job.comms
      rcases hr : j.run with - | ⟨p, s⟩
      · simp
      · have := (h.ranks p s hr).1
        simp; omega
    rw [hcached hrs hc]
    have hload : ((j.comms.zip (j.comms.map (partIn j ax))).mapM fun x => loadRank F j.xshape j.nb j.nf ax x.1 x.2.2.shape) = none := by
      have hnone : ∀ cm sh, loadRank F j.xshape j.nb j.nf ax cm sh = none := by
        intro cm sh
        unfold loadRank
        rw [if_neg]
        simp only [List.all_eq_true, List.mem_range, not_forall]
        refine ⟨f, hf, ?_⟩
        have : cachedQ j.xshape j.nb ax cm (fun b => (F (fftName b f)).getD ⟨[], fun _ => none⟩) = none := by
          unfold cachedQ
          rw [if_neg]
          simp only [List.all_eq_true, List.mem_range, not_forall]
          refine ⟨0, hnb, ?_⟩
          rw [hF f 0 hnb, ho]
          simp only [Option.map_some, Option.getD_some]
          rw [load_refused _ _ (by rw [blockArr_shape]; exact hno)]
          simp
        rw [this]
        simp
      cases hcs : j.comms with
      | nil => exact absurd hcs hne
      | cons c cs => simp [hnone]
    rw [hload]

/-! ### C212: histories of fits on any grids -/

theorem blocks_any (ω : ℂ) (nb : Nat) (js : List Job) (hok : ∀ x ∈ js, ∃ m, JobOk x.xshape x m) (hnb : ∀ x ∈ js, x.nb = nb)
    (F : Blocks) (O : Owners) (hO : ∀ f o, O f = some o → 0 < size o.xshape) (hF : HoldsAny ω nb O F) :
    HoldsAny ω nb (js.foldl ownStep O) (js.foldl (fun F j => (fitJob ω F j).1) F) := by
  classical
  induction js generalizing F O with
  | nil => exact hF
  | cons j js ih =>
    obtain ⟨m, h⟩ := hok j (by simp)
    have e := hnb j (by simp)
    rw [List.foldl_cons, List.foldl_cons]
    refine ih (fun x hx => hok x (by simp [hx])) (fun x hx => hnb x (by simp [hx])) _ _ ?_ ?_
    · intro f o ho
      unfold ownStep at ho
      split at ho
      · simp only at ho
        split at ho
        · obtain rfl := Option.some.inj ho
          exact h.points
        · exact hO f o ho
      · exact hO f o ho
    · have := (job_any h ω F O hO (by rw [e]; exact hF)).1
      exact fun f b hb => this f b (lt_of_lt_of_eq hb e.symm)

/-- the windowed transforms of the data of fit `o`, spread over the grid of shape `sh` (its last axis is the variable) -/
noncomputable def spreadQ (o : Job) (m : MeanType) (ω : ℂ) (sh : List Nat) (nb f : Nat) : Matrix (Fin (size sh)) (Fin nb) ℂ :=
  Matrix.of fun x b => specHat o.c m ω (atIdx (spreadIdx o.xshape (unravel sh x).dropLast ++ [0]) o.files.flatten) f b

/-- **C212 (exact).** Any sequence of fits in one results folder, each on its own grid, with its own data, settings, weights, ranks and flags
    (the folder is that of one number of blocks).  The next fit takes at every frequency the blocks of the fit `usedBy` names.  If the grid of one of
    these does not spread over the grid of the next fit, the next fit raises and changes nothing; otherwise it succeeds - also when the grids
    differ - and reports the SPOD of the transforms of that other fit's data, repeated along the axes where its grid has one point. -/
theorem reuse_any_grid_exact (ω : ℂ) (js : List Job) (j : Job) (hok : ∀ x ∈ js ++ [j], ∃ m, JobOk x.xshape x m) (hnb : ∀ x ∈ js, x.nb = j.nb)
    (hrs : j.reuse = true → j.savefft = true) :
    ((∀ f < j.nf, ∀ o, usedBy js j f = some o → Spreads o.xshape j.xshape) →
      ∃ out, (fitJob ω (blocksAfter ω js) j).2 = some out ∧ out.weights = npSave j.w ∧
        out.ltm = npSave ⟨j.w.shape, fun idx => (atIdx idx j.files.flatten).sum / j.files.flatten.length⟩ ∧
        ∀ f < j.nf, ∃ o m, usedBy js j f = some o ∧ o ∈ js ++ [j] ∧ f < o.nf ∧ JobOk o.xshape o m ∧
          Reports j.c j.w j.solver f (spreadQ o m ω j.w.shape j.nb f) out) ∧
    ((∃ f < j.nf, ∃ o, usedBy js j f = some o ∧ ¬ Spreads o.xshape j.xshape) →
      fitJob ω (blocksAfter ω js) j = (blocksAfter ω js, none)) := by
  classical
  obtain ⟨m, h⟩ := hok j (by simp)
  have hH := blocks_any ω j.nb js (fun x hx => hok x (by simp [hx])) hnb (fun _ => none) (fun _ => none) (by simp) (fun f b hb => rfl)
  have hO : ∀ f o, ownersAfter js f = some o → 0 < size o.xshape := by
    intro f o ho
    obtain ⟨m', h'⟩ := hok o (by simp [(owners_mem js f o ho).1])
    exact h'.points
  obtain ⟨-, g1, g2, g3⟩ := job_any h ω _ _ hO hH
  constructor
  · intro hsp
    have hltm : globalLtm j.c j.nt j.files.flatten j.w = ⟨j.w.shape, fun idx => (atIdx idx j.files.flatten).sum / j.files.flatten.length⟩ := by
      simp only [globalLtm]
      congr 1
      funext idx
      have := h.nb2
      rw [long_time_mean_array _ (by unfold Job.nt; omega), smul_eq_mul, div_eq_inv_mul]
      simp only [atIdx, List.length_map]
    have hspec : ∀ o m', o ∈ js ++ [j] → JobOk o.xshape o m' → ∀ f, f < o.nf →
        rowsOf (nb := j.nb) j.w.shape (spreadHat ω o j.w f) = spreadQ o m' ω j.w.shape j.nb f := by
      intro o m' hmem ho f hfo
      have hnbo : fitNb o.c o.files.flatten.length = j.nb := by
        rcases List.mem_append.1 hmem with hx | hx
        · exact hnb o hx
        · obtain rfl := List.mem_singleton.1 hx; rfl
      ext k b
      simp only [rowsOf, spreadQ, Matrix.of_apply, spreadHat]
      refine pointHat_spec o.c m' ho.acc.mean ω _ ho.acc.window (feasible_nb o.c _ ho.acc.blocks).2 ho.acc.overlap f b ?_ hfo
      simp only [atIdx, List.length_map, hnbo]
      exact b.2
    by_cases hc : Computes (ownersAfter js) j
    · obtain ⟨out, h1, h2, h3, h4⟩ := g1 hrs hc
      refine ⟨out, h1, h2, h3.trans (congrArg _ hltm), fun f hf => ⟨j, m, by unfold usedBy; rw [if_pos hc], by simp, hf, h, ?_⟩⟩
      rw [← hspec j m (by simp) h f hf]
      have e : rowsOf (nb := j.nb) j.w.shape (spreadHat ω j j.w f) = rowsOf j.w.shape (globalHat j.c ω j.files.flatten j.w.shape f) := by
        ext k b
        simp only [rowsOf, Matrix.of_apply, spreadHat, globalHat]
        have hin := inRange_unravel k.2
        generalize unravel j.w.shape k.1 = idx at hin ⊢
        rw [h.shape] at hin
        obtain ⟨x, i, rfl, hxr, hi⟩ := inRange_append hin
        obtain rfl : i = 0 := by omega
        rw [List.dropLast_concat, spreadIdx_self _ _ hxr]
      rw [e]
      exact h4 f hf
    · have hu : ∀ f, usedBy js j f = ownersAfter js f := fun f => by unfold usedBy; rw [if_neg hc]
      obtain ⟨out, h1, h2, h3, h4⟩ := g2 hrs hc fun f hf o ho => hsp f hf o ((hu f).trans ho)
      refine ⟨out, h1, h2, h3.trans (congrArg _ hltm), fun f hf => ?_⟩
      cases ho : ownersAfter js f with
      | none => exact absurd (Or.inr ⟨f, hf, ho⟩) hc
      | some o =>
        obtain ⟨hm1, -, hm2⟩ := owners_mem js f o ho
        obtain ⟨m', h'⟩ := hok o (by simp [hm1])
        refine ⟨o, m', (hu f).trans ho, by simp [hm1], hm2, h', ?_⟩
        rw [← hspec o m' (by simp [hm1]) h' f hm2]
        exact h4 f hf o ho
  · rintro ⟨f, hf, o, ho, hno⟩
    by_cases hc : Computes (ownersAfter js) j
    · unfold usedBy at ho
      rw [if_pos hc] at ho
      obtain rfl := Option.some.inj ho
      exact absurd (spreads_self _) hno
    · unfold usedBy at ho
      rw [if_neg hc] at ho
      exact g3 hrs hc ⟨f, hf, o, ho, hno⟩

/-- grids of one dimension of different lengths, more than one point: neither spreads over the other -/
theorem spreads_line (a b : Nat) : Spreads [a] [b] ↔ a = b ∨ a = 1 := by
  constructor
  · intro h
    simpa using h 0
  · intro h i
    cases i with
    | zero => simpa using h
    | succ i => simp

/-- **C212 (partial).** A fit that would reuse blocks of a grid none of whose extents is 1, with the same number of axes or more, raises unless that is its own grid.
    Missing (false, see `reuse_spread_fails`): grids with fewer axes, or with an axis of one point. -/
theorem reuse_other_grid_partial (ω : ℂ) (js : List Job) (j : Job) (hok : ∀ x ∈ js ++ [j], ∃ m, JobOk x.xshape x m) (hnb : ∀ x ∈ js, x.nb = j.nb)
    (hrs : j.reuse = true → j.savefft = true) (f : Nat) (hf : f < j.nf) (o : Job) (ho : usedBy js j f = some o)
    (hlen : j.xshape.length ≤ o.xshape.length) (hone : ∀ n ∈ o.xshape, n ≠ 1) (hne : o.xshape ≠ j.xshape) :
    fitJob ω (blocksAfter ω js) j = (blocksAfter ω js, none) := by
  refine (reuse_any_grid_exact ω js j hok hnb hrs).2 ⟨f, hf, o, ho, fun hsp => hne ?_⟩
  have hall : ∀ i < o.xshape.length, o.xshape.reverse.getD i 1 = j.xshape.reverse.getD i 1 := by
    intro i hi
    rcases hsp i with h | h
    · exact h
    · exfalso
      rw [List.getD_eq_getElem _ _ (by simpa using hi)] at h
      exact hone _ (List.mem_reverse.1 (List.getElem_mem (by simpa using hi))) h
  have hle : o.xshape.length = j.xshape.length := by
    by_contra hcon
    have := hall j.xshape.length (by omega)
    rw [List.getD_eq_default j.xshape.reverse _ (by simp), List.getD_eq_getElem _ _ (by simp; omega)] at this
    exact hone _ (List.mem_reverse.1 (List.getElem_mem (by simp; omega))) this
  have : o.xshape.reverse = j.xshape.reverse := by
    apply List.ext_getElem (by simpa using hle)
    intro i h1 h2
    have := hall i (by simpa using h1)
    rwa [List.getD_eq_getElem _ _ h1, List.getD_eq_getElem _ _ h2] at this
  exact List.reverse_injective this

/-! ### Concrete fits -/

/-- eight snapshots of `±a` at every point of a grid -/
def gridFiles (xs : List Nat) (a : ℝ) : List (List (Arr ℝ)) := [(List.range 8).map fun (t : Nat) => ⟨xs ++ [1], fun _ => a * (-1) ^ t⟩]

/-- a serial fit of these snapshots, saving and reusing blocks -/
noncomputable def gridJob (xs : List Nat) (a : ℝ) : Job :=
  { c := swingCfg, files := gridFiles xs a, w := ⟨xs ++ [1], fun _ => 1⟩
    solver := Classical.choose (solver_full_exists _), savefft := true, reuse := true, run := none }

theorem grid_xshape (xs : List Nat) (a : ℝ) : (gridJob xs a).xshape = xs := by
  simp [Job.xshape, gridJob, gridFiles, List.range_succ]

theorem grid_nb (xs : List Nat) (a : ℝ) : (gridJob xs a).nb = 2 := by
  simp only [Job.nb, gridJob, gridFiles, List.flatten_cons, List.flatten_nil, List.append_nil, List.length_map, List.length_range]
  decide

theorem grid_nf (xs : List Nat) (a : ℝ) : (gridJob xs a).nf = 3 := by
  simp [Job.nf, gridJob, swingCfg, nFreq]

theorem grid_ok (xs : List Nat) (a : ℝ) (hne : xs ≠ []) (hsz : 1 < size xs) : JobOk xs (gridJob xs a) .zero where
  acc := {
    shapes := by
      intro x hx
      simp only [gridJob, gridFiles, List.flatten_cons, List.flatten_nil, List.append_nil, List.mem_map] at hx
      obtain ⟨t, -, rfl⟩ := hx
      rfl
    axes := by simp [gridJob]
    mean := swing_accepted.mean
    blocks := by
      simp only [gridJob, gridFiles, List.flatten_cons, List.flatten_nil, List.append_nil, List.length_map, List.length_range]
      decide
    overlap := by simp [gridJob, swingCfg]
    window := rfl
    weights := fun x _ => zero_le_one
    many := by
      show size (xs ++ [1]) ≠ 1
      rw [size_append_singleton]; omega }
  shape := rfl
  axes := hne
  points := by omega
  ranks := by intro p s hr; cases hr

theorem grid_used (xs ys : List Nat) (a b : ℝ) (f : Nat) (hf : f < 3) : usedBy [gridJob xs a] (gridJob ys b) f = some (gridJob xs a) :=
  reuse_first_fit (gridJob xs a) [] (gridJob ys b) rfl (by rw [grid_nf]; omega) (by
    intro x hx
    obtain rfl := List.mem_singleton.1 hx
    exact ⟨rfl, by rw [grid_nf, grid_nf]⟩) f (by rw [grid_nf]; exact hf)

theorem grid_hat (xs : List Nat) (a : ℝ) (x : List Nat) (b : Nat) (hb : b < 2) :
    specHat swingCfg .zero (-Complex.I) (atIdx x (gridFiles xs a).flatten) 2 b = a := by
  have hu : atIdx x (gridFiles xs a).flatten = atIdx x (waveFiles a).flatten := by
    simp [gridFiles, waveFiles, atIdx]
  rw [hu]
  exact wave_hat a false x b hb

theorem grid_all (xs ys : List Nat) (a b : ℝ) (hx : xs ≠ []) (hx' : 1 < size xs) (hy : ys ≠ []) (hy' : 1 < size ys) :
    ∀ z ∈ [gridJob xs a] ++ [gridJob ys b], ∃ m, JobOk z.xshape z m := by
  intro z hz
  rcases List.mem_append.1 hz with h | h
  · obtain rfl := List.mem_singleton.1 h
    exact ⟨.zero, by rw [grid_xshape]; exact grid_ok xs a hx hx'⟩
  · obtain rfl := List.mem_singleton.1 h
    exact ⟨.zero, by rw [grid_xshape]; exact grid_ok ys b hy hy'⟩

theorem grid_same_nb (xs ys : List Nat) (a b : ℝ) : ∀ z ∈ [gridJob xs a], z.nb = (gridJob ys b).nb := by
  intro z hz
  obtain rfl := List.mem_singleton.1 hz
  rw [grid_nb, grid_nb]

/-- the energy the second of two fits reports, when the first grid spreads over the second: that of the first fit's data, repeated -/
theorem grid_energy (xs ys : List Nat) (a b : ℝ) (hx : xs ≠ []) (hx' : 1 < size xs) (hy : ys ≠ []) (hy' : 1 < size ys) (hsp : Spreads xs ys) :
    ∃ out, (fitJob (-Complex.I) (blocksAfter (-Complex.I) [gridJob xs a]) (gridJob ys b)).2 = some out ∧ ∑ k, out.eigs 2 k = size ys * a ^ 2 := by
  have hu : ∀ f, f < 3 → usedBy [gridJob xs a] (gridJob ys b) f = some (gridJob xs a) := grid_used xs ys a b
  obtain ⟨out, h1, -, -, h4⟩ := (reuse_any_grid_exact (-Complex.I) [gridJob xs a] (gridJob ys b) (grid_all xs ys a b hx hx' hy hy')
    (grid_same_nb xs ys a b) (fun _ => rfl)).1 (by
      intro f hf o ho
      rw [grid_nf] at hf
      rw [hu f hf] at ho
      obtain rfl := Option.some.inj ho
      rw [grid_xshape, grid_xshape]
      exact hsp)
  refine ⟨out, h1, ?_⟩
  obtain ⟨o, m, ho, -, -, hok, hrep⟩ := h4 2 (by rw [grid_nf]; omega)
  rw [hu 2 (by omega)] at ho
  obtain rfl := Option.some.inj ho
  have hm : m = .zero := Except.ok.inj (hok.acc.mean.symm.trans (grid_ok xs a hx hx').acc.mean)
  subst hm
  have hs : SolverFull (gridJob ys b).solver := Classical.choose_spec (solver_full_exists _)
  have hw : ∀ x, 0 ≤ specW (gridJob ys b).w x := fun x => zero_le_one
  have hQ : ∀ (k : Fin (size (gridJob ys b).w.shape)) (i : Fin (gridJob ys b).nb),
      spreadQ (gridJob xs a) .zero (-Complex.I) (gridJob ys b).w.shape (gridJob ys b).nb 2 k i = a := by
    intro k i
    exact grid_hat xs a _ i (lt_of_lt_of_eq i.2 (grid_nb ys b))
  have hM := (crossSpectral_posSemidef (spreadQ (gridJob xs a) .zero (-Complex.I) (gridJob ys b).w.shape (gridJob ys b).nb 2) (specW (gridJob ys b).w) hw).1
  have := total_energy_reported (spreadQ (gridJob xs a) .zero (-Complex.I) (gridJob ys b).w.shape (gridJob ys b).nb 2) (specW (gridJob ys b).w) hw _ _
    (hs _ hM).1 (hs _ hM).2.1
    ((gridJob ys b).solver (crossSpectral (spreadQ (gridJob xs a) .zero (-Complex.I) (gridJob ys b).w.shape (gridJob ys b).nb 2) (specW (gridJob ys b).w))).2.2
    (oneSidedFactor (gridJob ys b).c.isreal (gridJob ys b).nf 2)
  rw [hrep.1]
  refine this.trans ?_
  have hfac : (oneSidedFactor (gridJob ys b).c.isreal (gridJob ys b).nf 2 : ℝ) = 1 := by
    rw [grid_nf]; simp [oneSidedFactor, gridJob, swingCfg]
  rw [hfac, one_mul]
  simp only [hQ, Complex.normSq_ofReal, show ∀ x, specW (gridJob ys b).w x = 1 from fun _ => rfl, one_mul, Finset.sum_const, Finset.card_univ, Fintype.card_fin,
    nsmul_eq_mul]
  have hsz : size (gridJob ys b).w.shape = size ys := by
    show size (ys ++ [1]) = _
    rw [size_append_singleton, Nat.mul_one]
  rw [hsz, grid_nb]
  norm_num
  ring

/-- **C212 (violated).** A fit of data that move on a line of 4 points, then, in the same folder, a fit of data that are zero on a grid of 3 × 4 points, both saving and
    reusing blocks: the second succeeds and reports energy 12, that of three copies of the line; computing its own blocks it would report 0. -/
theorem reuse_spread_fails : ∃ out out0, (fitJob (-Complex.I) (blocksAfter (-Complex.I) [gridJob [4] 1]) (gridJob [3, 4] 0)).2 = some out ∧
    fitSerial (gridJob [3, 4] 0).c (-Complex.I) (gridJob [3, 4] 0).files (gridJob [3, 4] 0).w (gridJob [3, 4] 0).solver = some out0 ∧
    ∑ k, out.eigs 2 k = 12 ∧ ∑ k, out0.eigs 2 k = 0 := by
  obtain ⟨out, h1, h2⟩ := grid_energy [4] [3, 4] 1 0 (by simp) (by decide) (by simp) (by decide) (by
    intro i
    cases i with
    | zero => left; rfl
    | succ i => right; simp)
  have hone : ∀ x ∈ [] ++ [gridJob [3, 4] 0], ∃ m, JobOk [3, 4] x m := by
    intro x hx
    obtain rfl := List.mem_singleton.1 hx
    exact ⟨_, grid_ok [3, 4] 0 (by simp) (by decide)⟩
  obtain ⟨out2, out0, r2, r0, -, -, e0⟩ := reuse_same_input_partial (-Complex.I) [3, 4] [] (gridJob [3, 4] 0) hone (by simp) (fun _ => rfl)
  obtain ⟨out2', r2', e2⟩ := reuse_energy_exact (-Complex.I) [3, 4] [] (gridJob [3, 4] 0) hone (by simp) (fun _ => rfl)
    (Classical.choose_spec (solver_full_exists _))
  obtain rfl : out2 = out2' := Option.some.inj (r2.symm.trans r2')
  refine ⟨out, out0, h1, r0, by rw [h2]; norm_num [size], ?_⟩
  have hf : 2 < (gridJob [3, 4] 0).nf := by rw [grid_nf]; omega
  rw [← (e0 2 hf).1]
  obtain ⟨o, m, hu, ho, hsum⟩ := e2 2 hf
  have hu' : usedBy [] (gridJob [3, 4] 0) 2 = some (gridJob [3, 4] 0) := by
    unfold usedBy
    rw [if_pos]
    exact Or.inr ⟨2, hf, rfl⟩
  obtain rfl : o = gridJob [3, 4] 0 := Option.some.inj (hu.symm.trans hu')
  have hm : m = .zero := Except.ok.inj (ho.acc.mean.symm.trans (grid_ok [3, 4] 0 (by simp) (by decide)).acc.mean)
  subst hm
  refine Eq.trans hsum ?_
  have : ∀ (b : Fin (gridJob [3, 4] 0).nb) (x : Fin (size (gridJob [3, 4] 0).w.shape)),
      specHat (gridJob [3, 4] 0).c .zero (-Complex.I) (atIdx (unravel (gridJob [3, 4] 0).w.shape x) (gridJob [3, 4] 0).files.flatten) 2 b = 0 := by
    intro b x
    exact (grid_hat [3, 4] 0 _ b (lt_of_lt_of_eq b.2 (grid_nb [3, 4] 0))).trans (by simp)
  simp only [this, map_zero, mul_zero, Finset.sum_const_zero]

/-- `reuse_other_grid_partial`: blocks of a line of 4 points are refused on a line of 5 points -/
example : fitJob (-Complex.I) (blocksAfter (-Complex.I) [gridJob [4] 1]) (gridJob [5] 0) = (blocksAfter (-Complex.I) [gridJob [4] 1], none) :=
  reuse_other_grid_partial (-Complex.I) [gridJob [4] 1] (gridJob [5] 0) (grid_all [4] [5] 1 0 (by simp) (by decide) (by simp) (by decide))
    (grid_same_nb [4] [5] 1 0) (fun _ => rfl) 0 (by rw [grid_nf]; omega) (gridJob [4] 1) (grid_used [4] [5] 1 0 0 (by omega))
    (by rw [grid_xshape, grid_xshape]; simp) (by rw [grid_xshape]; simp) (by rw [grid_xshape, grid_xshape]; simp)

end Verif.Props
