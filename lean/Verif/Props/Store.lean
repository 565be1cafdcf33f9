import Verif.Model.Store
import Verif.Props.Names
import Mathlib.Data.List.Sort
import Mathlib.Data.List.Nodup
/-
  C36 (and C65): reading modes back after any history of fits into one folder.
-/
namespace Verif.Props
open Verif.Names Verif.Store

variable {α : Type}

/-! ### directories -/

theorem read_write (d : Dir α) (n n' : Name) (c : α) :
    (d.write n c).read n' = if n' = n then some c else d.read n' := by
  simp only [Dir.read, Dir.write, List.find?_cons]
  by_cases h : n' = n
  · subst h; simp
  · have h' : ¬ n = n' := fun e => h e.symm
    simp only [h', decide_false, h, ↓reduceIte, List.find?_filter]
    congr 2
    funext e
    by_cases he : e.1 = n'
    · simp [he, h]
    · simp [he]

def keysNodup (d : Dir α) : Prop := (d.map (·.1)).Nodup

theorem keysNodup_write (d : Dir α) (n : Name) (c : α) (h : keysNodup d) : keysNodup (d.write n c) := by
  simp only [keysNodup, Dir.write, List.map_cons, List.nodup_cons, List.mem_map, List.mem_filter]
  refine ⟨?_, List.Nodup.sublist (List.Sublist.map _ List.filter_sublist) h⟩
  rintro ⟨e, ⟨_, h1⟩, h2⟩
  simp [h2] at h1

theorem mem_keys (d : Dir α) (n : Name) : n ∈ d.map (·.1) ↔ (d.read n).isSome := by
  simp [Dir.read, List.mem_map]

theorem keysNodup_writeAll (ws : List (Name × α)) (d : Dir α) (h : keysNodup d) :
    keysNodup (writeAll d ws) := by
  induction ws generalizing d with
  | nil => exact h
  | cons w ws ih => exact ih _ (keysNodup_write d _ _ h)

theorem read_writeAll_not_mem (ws : List (Name × α)) (d : Dir α) (n : Name)
    (h : n ∉ ws.map (·.1)) : (writeAll d ws).read n = d.read n := by
  induction ws generalizing d with
  | nil => rfl
  | cons w ws ih =>
    simp only [List.map_cons, List.mem_cons, not_or] at h
    simp only [writeAll, List.foldl_cons]
    have := ih (d.write w.1 w.2) h.2
    simp only [writeAll] at this
    rw [this, read_write, if_neg h.1]

theorem read_writeAll_mem (ws : List (Name × α)) (hn : (ws.map (·.1)).Nodup) (d : Dir α) (n : Name) (c : α)
    (h : (n, c) ∈ ws) : (writeAll d ws).read n = some c := by
  induction ws generalizing d with
  | nil => simp at h
  | cons w ws ih =>
    simp only [List.map_cons, List.nodup_cons] at hn
    rcases List.mem_cons.1 h with h | h
    · subst h
      have := read_writeAll_not_mem ws (d.write n c) n hn.1
      simp only [writeAll, List.foldl_cons] at *
      rw [this, read_write, if_pos rfl]
    · simpa [writeAll] using ih hn.2 (d.write w.1 w.2) h

/-! ### what a fit writes -/

theorem files_keys_nodup (o : Fit α) : (o.files.map (·.1)).Nodup := by
  unfold Fit.files
  split
  · rw [List.map_map]
    exact List.Nodup.map (fun a b h => names_injective.1 _ _ h) List.nodup_range
  · rw [List.map_flatMap]
    simp only [List.map_map]
    apply List.nodup_flatMap.2
    refine ⟨fun f _ => List.Nodup.map (fun a b h => (names_injective.2.1 _ _ _ _ h).2) List.nodup_range, ?_⟩
    refine List.nodup_range.imp ?_
    intro f f' hne n h1 h2
    simp only [List.mem_map, Function.comp] at h1 h2
    obtain ⟨m, _, rfl⟩ := h1
    obtain ⟨m', _, h⟩ := h2
    exact hne (names_injective.2.1 _ _ _ _ h).1.symm
  · simp

theorem mem_files (o : Fit α) (n : Name) (c : List α) : (n, c) ∈ o.files ↔
    (o.how = .disk ∧ ∃ f < o.nFreq, n = freqName f ∧ c = (List.range o.nSave).map (o.modes f)) ∨
    (o.how = .disk2 ∧ ∃ f < o.nFreq, ∃ m < o.nSave, n = modeName f m ∧ c = [o.modes f m]) := by
  unfold Fit.files
  split <;> rename_i h <;> simp [h, eq_comm]

/-- A legal history: each fit's files are written in some order. -/
def Legal (h : List (Fit α × List (Name × List α))) : Prop := ∀ e ∈ h, e.2.Perm e.1.files

/-- The most recent per-frequency file of `f`. -/
def latest1 : List (Fit α × List (Name × List α)) → Nat → Option (List α)
  | [], _ => none
  | (o, _) :: older, f =>
    if o.how = .disk ∧ f < o.nFreq then some ((List.range o.nSave).map (o.modes f)) else latest1 older f

/-- The most recent per-mode file of `(f, m)`. -/
def latest2 : List (Fit α × List (Name × List α)) → Nat → Nat → Option α
  | [], _, _ => none
  | (o, _) :: older, f, m =>
    if o.how = .disk2 ∧ f < o.nFreq ∧ m < o.nSave then some (o.modes f m) else latest2 older f m

/-- Number of per-mode files of frequency `f`. -/
def count2 : List (Fit α × List (Name × List α)) → Nat → Nat
  | [], _ => 0
  | (o, _) :: older, f => max (if o.how = .disk2 ∧ f < o.nFreq then o.nSave else 0) (count2 older f)

theorem latest2_isSome (h : List (Fit α × List (Name × List α))) (f m : Nat) :
    (latest2 h f m).isSome ↔ m < count2 h f := by
  induction h with
  | nil => simp [latest2, count2]
  | cons e older ih =>
    obtain ⟨o, ws⟩ := e
    simp only [latest2, count2]
    split
    · rename_i hc
      simp [hc.1, hc.2.1, hc.2.2]
    · rename_i hc
      rw [ih, lt_max_iff]
      split
      · rename_i h2
        have : ¬ m < o.nSave := fun h => hc ⟨h2.1, h2.2, h⟩
        tauto
      · simp

theorem nodup_ws {o : Fit α} {ws : List (Name × List α)} (h : ws.Perm o.files) : (ws.map (·.1)).Nodup :=
  (h.map _).nodup_iff.2 (files_keys_nodup o)

theorem after_read (h : List (Fit α × List (Name × List α))) (hl : Legal h) :
    keysNodup (after h) ∧
    (∀ f, (after h).read (freqName f) = latest1 h f) ∧
    (∀ f m, (after h).read (modeName f m) = (latest2 h f m).map fun x => [x]) ∧
    (∀ n, ((after h).read n).isSome → (∃ f, n = freqName f) ∨ ∃ f m, n = modeName f m) := by
  induction h with
  | nil => simp [after, keysNodup, Dir.read, latest1, latest2]
  | cons e older ih =>
    obtain ⟨o, ws⟩ := e
    obtain ⟨h0, h1, h2, h3⟩ := ih (fun e he => hl e (by simp [he]))
    have hp : ws.Perm o.files := hl (o, ws) (by simp)
    have hnd := nodup_ws hp
    have hmem : ∀ n c, (n, c) ∈ ws ↔ (n, c) ∈ o.files := fun n c => hp.mem_iff
    have hkeys : ∀ n, n ∈ ws.map (·.1) ↔ ∃ c, (n, c) ∈ o.files := by
      intro n; simp only [List.mem_map, Prod.exists, exists_and_right, exists_eq_right, hmem]
    refine ⟨keysNodup_writeAll _ _ h0, ?_, ?_, ?_⟩
    · intro f
      simp only [after, latest1]
      split
      · rename_i hc
        apply read_writeAll_mem _ hnd
        rw [hmem, mem_files]
        exact Or.inl ⟨hc.1, f, hc.2, rfl, rfl⟩
      · rename_i hc
        rw [read_writeAll_not_mem, h1]
        rw [hkeys]
        rintro ⟨c, hm⟩
        rw [mem_files] at hm
        rcases hm with ⟨ho, f', hf', hn, _⟩ | ⟨_, f', _, m', _, hn, _⟩
        · have := names_injective.1 _ _ hn; subst this; exact hc ⟨ho, hf'⟩
        · exact names_injective.2.2.2 _ _ _ hn
    · intro f m
      simp only [after, latest2]
      split
      · rename_i hc
        rw [Option.map_some]
        apply read_writeAll_mem _ hnd
        rw [hmem, mem_files]
        exact Or.inr ⟨hc.1, f, hc.2.1, m, hc.2.2, rfl, rfl⟩
      · rename_i hc
        rw [read_writeAll_not_mem, h2]
        rw [hkeys]
        rintro ⟨c, hm⟩
        rw [mem_files] at hm
        rcases hm with ⟨ho, f', hf', hn, _⟩ | ⟨ho, f', hf', m', hm', hn, _⟩
        · exact names_injective.2.2.2 _ _ _ hn.symm
        · obtain ⟨rfl, rfl⟩ := names_injective.2.1 _ _ _ _ hn
          exact hc ⟨ho, hf', hm'⟩
    · intro n hs
      by_cases hk : n ∈ ws.map (·.1)
      · rw [hkeys] at hk
        obtain ⟨c, hm⟩ := hk
        rw [mem_files] at hm
        rcases hm with ⟨_, f', _, hn, _⟩ | ⟨_, f', _, m', _, hn, _⟩
        · exact Or.inl ⟨f', hn⟩
        · exact Or.inr ⟨f', m', hn⟩
      · simp only [after] at hs
        rw [read_writeAll_not_mem _ _ _ hk] at hs
        exact h3 n hs

/-! ### glob and sort -/

theorem isSuffix_npy (a : Name) : List.isSuffixOf ['.','n','p','y'] (a ++ ['.','n','p','y']) = true := by
  rw [List.isSuffixOf_iff_suffix]; exact List.suffix_append _ _

theorem glob_mode (f f' m : Nat) :
    globMatch (['f','r','e','q','_','i','d','x','_','f'] ++ pad8 f ++ ['_','m']) ['.','n','p','y']
      (modeName f' m) = true ↔ f' = f := by
  constructor
  · intro h
    simp only [globMatch, Bool.and_eq_true, List.isPrefixOf_iff_prefix] at h
    obtain ⟨t, ht⟩ := h.1
    simp only [modeName, List.append_assoc] at ht
    have := List.append_cancel_left ht
    exact (pad8_inj (sep_inj (pad8_no_us f) (pad8_no_us f') this).1).symm
  · rintro rfl
    simp only [globMatch, Bool.and_eq_true, List.isPrefixOf_iff_prefix, modeName]
    constructor
    · refine ⟨pad8 m ++ ['.','n','p','y'], ?_⟩
      simp only [List.append_assoc]
    · have e : ['f','r','e','q','_','i','d','x','_','f'] ++ pad8 f' ++ ['_','m'] ++ pad8 m ++ ['.','n','p','y']
        = (['f','r','e','q','_','i','d','x','_','f'] ++ pad8 f' ++ ['_','m']) ++ (pad8 m ++ ['.','n','p','y']) := by
        simp only [List.append_assoc]
      rw [e, List.drop_left]
      exact isSuffix_npy _

theorem glob_freq (f f' : Nat) :
    globMatch (['f','r','e','q','_','i','d','x','_','f'] ++ pad8 f ++ ['_','m']) ['.','n','p','y']
      (freqName f') = false := by
  by_contra h
  rw [Bool.not_eq_false] at h
  simp only [globMatch, Bool.and_eq_true, List.isPrefixOf_iff_prefix] at h
  obtain ⟨t, ht⟩ := h.1
  have e : ['f','r','e','q','_','i','d','x','_','f'] = ['f','r','e','q','_','i','d','x','_'] ++ ['f'] := rfl
  simp only [freqName, List.append_assoc, e] at ht
  have h2 := List.append_cancel_left ht
  have : 'f' ∈ pad8 f' ++ ['.','n','p','y'] := by rw [← h2]; simp
  rw [List.mem_append] at this
  rcases this with h | h
  · exact pad8_no_f _ h
  · revert h; decide

theorem glob_all_freq (f : Nat) : globMatch [] ['.','n','p','y'] (freqName f) = true := by
  simp only [globMatch, List.isPrefixOf, List.length_nil, List.drop_zero, Bool.true_and, freqName]
  exact isSuffix_npy _

theorem dirSort_perm (l : List Name) : (sortNames l).Perm l := List.mergeSort_perm _ _

theorem dirSort_sorted (l : List Name) : (sortNames l).Pairwise (· ≤ ·) := by
  have := List.pairwise_mergeSort (le := fun a b : Name => decide (a ≤ b))
    (fun a b c h1 h2 => by simp only [decide_eq_true_eq] at *; exact List.le_trans h1 h2)
    (fun a b => by simp only [Bool.or_eq_true, decide_eq_true_eq]; exact List.le_total a b) l
  simpa [sortNames] using this

/-- Sorting a list of names that has the same members as a strictly increasing list gives that list. -/
theorem dirSort_eq (l l' : List Name) (hl : l.Nodup) (hs : l'.Pairwise (· < ·)) (h : ∀ n, n ∈ l ↔ n ∈ l') :
    sortNames l = l' := by
  have hn' : l'.Nodup := by
    refine hs.imp ?_
    intro a b h e
    subst e
    exact List.lt_irrefl _ h
  have hp : (sortNames l).Perm l' := (dirSort_perm l).trans ((List.perm_ext_iff_of_nodup hl hn').2 h)
  exact List.Perm.eq_of_pairwise (le := (· ≤ ·)) (fun a b _ _ h1 h2 => List.le_antisymm h1 h2)
    (dirSort_sorted l) (hs.imp fun h => List.le_of_lt h) hp

/-- **C36 (exact behaviour).**  For every history of fits into the folder (most recent first, files of each
    fit written in any order, at most 10⁸ modes and frequencies), `get_modes_at_freq f` returns
    * the most recent per-frequency file if there ever was one for `f`, however old;
    * otherwise the per-mode files of `f`, mode 0 to the largest mode *ever* saved for `f`, each in its most
      recent version;
    * an error if nothing was ever saved for `f`. -/
theorem get_modes_exact (h : List (Fit α × List (Name × List α))) (hl : Legal h) (f : Nat)
    (hf : f < 10 ^ 8) (hk : count2 h f ≤ 10 ^ 8) :
    getModes (after h) f =
      match latest1 h f with
      | some c => some c
      | none => if count2 h f = 0 then none else
          some ((List.range (count2 h f)).filterMap (latest2 h f)) := by
  obtain ⟨h0, h1, h2, h3⟩ := after_read h hl
  unfold getModes
  rw [h1 f]
  cases hl1 : latest1 h f with
  | some c => rfl
  | none =>
    simp only
    have hnames : sortNames (((after h).map (·.1)).filter
        (globMatch (['f','r','e','q','_','i','d','x','_','f'] ++ pad8 f ++ ['_','m']) ['.','n','p','y'])) =
        (List.range (count2 h f)).map (modeName f) := by
      apply dirSort_eq
      · exact h0.filter _
      · rw [List.pairwise_map]
        apply List.Pairwise.imp_of_mem _ List.pairwise_lt_range
        intro a b ha hb hab
        rw [List.mem_range] at ha hb
        exact (names_ordered.2 f a f b hf hf (by omega) (by omega)).2 (Or.inr ⟨rfl, hab⟩)
      · intro n
        rw [List.mem_filter, mem_keys, List.mem_map]
        constructor
        · rintro ⟨g1, g2⟩
          rcases h3 n g1 with ⟨f', rfl⟩ | ⟨f', m, rfl⟩
          · rw [glob_freq] at g2; simp at g2
          · rw [glob_mode] at g2
            subst g2
            rw [h2] at g1
            refine ⟨m, ?_, rfl⟩
            rw [List.mem_range, ← latest2_isSome h]
            simpa using g1
        · rintro ⟨m, hm, rfl⟩
          rw [List.mem_range, ← latest2_isSome] at hm
          exact ⟨by rw [h2]; simpa using hm, (glob_mode f f m).2 rfl⟩
    rw [hnames]
    simp only [List.length_map, List.length_range, List.flatMap_map]
    by_cases hc : count2 h f = 0
    · simp [hc]
    · rw [if_pos (by omega), if_neg hc]
      congr 1
      have : ∀ m ∈ List.range (count2 h f), ((after h).read (modeName f m)).getD [] = (latest2 h f m).toList := by
        intro m _
        rw [h2]
        cases latest2 h f m <;> rfl
      generalize List.range (count2 h f) = r at this ⊢
      induction r with
      | nil => rfl
      | cons m r ih =>
        rw [List.flatMap_cons, this m (by simp), ih (fun x hx => this x (by simp [hx])), List.filterMap_cons]
        cases latest2 h f m <;> rfl

/-- What the property wants: the modes the most recent fit computed for `f`. -/
def expected (o : Fit α) (f : Nat) : List α := (List.range o.nSave).map (o.modes f)

/-- **C36 (partial).**  If the most recent fit saved per-frequency files, they are returned, whatever
    happened before. -/
theorem get_modes_latest_disk_partial (o : Fit α) (ws) (older : List (Fit α × List (Name × List α)))
    (hl : Legal ((o, ws) :: older)) (ho : o.how = .disk) (f : Nat) (hf : f < o.nFreq) :
    getModes (after ((o, ws) :: older)) f = some (expected o f) := by
  have := (after_read _ hl).2.1 f
  unfold getModes
  rw [this]
  simp [latest1, ho, hf, expected]

/-- **C36 (partial).**  If the most recent fit saved per-mode files, its modes are returned provided no
    earlier fit left a per-frequency file for `f` and no earlier fit saved more modes for `f`. -/
theorem get_modes_latest_disk2_partial (o : Fit α) (ws) (older : List (Fit α × List (Name × List α)))
    (hl : Legal ((o, ws) :: older)) (ho : o.how = .disk2) (f : Nat) (hf : f < o.nFreq)
    (hf8 : f < 10 ^ 8) (hs : 0 < o.nSave) (hs8 : o.nSave ≤ 10 ^ 8)
    (h1 : latest1 older f = none) (h2 : count2 older f ≤ o.nSave) :
    getModes (after ((o, ws) :: older)) f = some (expected o f) := by
  have hc : count2 ((o, ws) :: older) f = o.nSave := by simp [count2, ho, hf, h2]
  rw [get_modes_exact _ hl f hf8 (by rw [hc]; exact hs8), hc]
  have : latest1 ((o, ws) :: older) f = none := by simp [latest1, ho, h1]
  rw [this]
  simp only
  rw [if_neg (by omega)]
  congr 1
  rw [expected, ← List.filterMap_eq_map]
  apply List.filterMap_congr
  intro m hm
  rw [List.mem_range] at hm
  simp [latest2, ho, hf, hm]

/-- **C36 (violated).**  After a fit with per-frequency files, any later fit with per-mode files into the
    same folder is ignored: the old modes are returned. -/
theorem get_modes_stale_disk_fails (o o' : Fit α) (ho : o.how = .disk) (ho' : o'.how = .disk2) (f : Nat)
    (hf : f < o.nFreq) : getModes (after [(o', o'.files), (o, o.files)]) f = some (expected o f) := by
  have hl : Legal [(o', o'.files), (o, o.files)] := by
    intro e he; simp at he; rcases he with rfl | rfl <;> exact List.Perm.refl _
  have := (after_read _ hl).2.1 f
  unfold getModes
  rw [this]
  simp [latest1, ho, ho', hf, expected]

/-- **C36 (violated).**  A per-mode fit saving fewer modes than an earlier one returns the earlier fit's
    extra modes after its own. -/
theorem get_modes_stale_mode_fails (o o' : Fit α) (ho : o.how = .disk2) (ho' : o'.how = .disk2) (f : Nat)
    (hf : f < o.nFreq) (hf' : f < o'.nFreq) (hf8 : f < 10 ^ 8) (hs8 : o.nSave ≤ 10 ^ 8)
    (hlt : o'.nSave < o.nSave) :
    getModes (after [(o', o'.files), (o, o.files)]) f =
      some (expected o' f ++ (expected o f).drop o'.nSave) := by
  have hl : Legal [(o', o'.files), (o, o.files)] := by
    intro e he; simp at he; rcases he with rfl | rfl <;> exact List.Perm.refl _
  have hc : count2 [(o', o'.files), (o, o.files)] f = o.nSave := by
    simp [count2, ho, ho', hf, hf']; omega
  rw [get_modes_exact _ hl f hf8 (by rw [hc]; exact hs8), hc]
  have : latest1 [(o', o'.files), (o, o.files)] f = none := by simp [latest1, ho, ho']
  rw [this]
  simp only
  rw [if_neg (by omega)]
  congr 1
  have hsplit : List.range o.nSave = List.range o'.nSave ++ (List.range o.nSave).drop o'.nSave := by
    conv_lhs => rw [← List.take_append_drop o'.nSave (List.range o.nSave)]
    rw [List.take_range, min_eq_left (le_of_lt hlt)]
  conv_lhs => rw [hsplit]
  rw [List.filterMap_append, expected, expected, ← List.map_drop]
  congr 1
  · rw [← List.filterMap_eq_map]
    apply List.filterMap_congr
    intro m hm
    rw [List.mem_range] at hm
    simp [latest2, ho', hf', hm]
  · rw [← List.filterMap_eq_map]
    apply List.filterMap_congr
    intro m hm
    have hm1 : m < o.nSave := List.mem_range.1 (List.mem_of_mem_drop hm)
    have hm2 : ¬ m < o'.nSave := by
      intro hc
      have hnd : (List.range o.nSave).Nodup := List.nodup_range
      rw [hsplit] at hnd
      exact (List.nodup_append.1 hnd).2.2 m (List.mem_range.2 hc) m hm rfl
    simp [latest2, ho', ho, hf, hm1, hm2]

/-- **C36 (violated), the property itself.** -/
theorem get_modes_latest_fails :
    ¬ ∀ (o : Fit Nat) (older : List (Fit Nat × List (Name × List Nat))), o.how ≠ .nothing → 0 < o.nSave →
      Legal ((o, o.files) :: older) → ∀ f < o.nFreq, getModes (after ((o, o.files) :: older)) f = some (expected o f) := by
  intro h
  have := h ⟨.disk2, 1, 1, fun _ _ => 7⟩ [(⟨.disk, 1, 1, fun _ _ => 5⟩, Fit.files ⟨.disk, 1, 1, fun _ _ => 5⟩)]
    (by simp) (by simp) (by intro e he; simp at he; rcases he with rfl | rfl <;> exact List.Perm.refl _) 0 (by simp)
  rw [get_modes_stale_disk_fails ⟨.disk, 1, 1, fun _ _ => 5⟩ ⟨.disk2, 1, 1, fun _ _ => 7⟩ rfl rfl 0 (by simp)] at this
  simp [expected] at this

/-- concrete case of `get_modes_latest_disk2_partial`: two per-mode fits, the second saving more modes -/
example : getModes (after [(⟨.disk2, 2, 3, fun f m => 10 * f + m⟩, Fit.files ⟨.disk2, 2, 3, fun f m => 10 * f + m⟩),
    (⟨.disk2, 3, 2, fun _ _ => 0⟩, Fit.files ⟨.disk2, 3, 2, fun _ _ => 0⟩)]) 1 = some [10, 11, 12] := by
  rw [get_modes_latest_disk2_partial _ _ _ (by
    intro e he; simp at he; rcases he with rfl | rfl <;> exact List.Perm.refl _) rfl 1 (by simp) (by simp)
    (by simp) (by simp) rfl (by simp [count2])]
  rfl

/-! ### `get_all_modes` -/

/-- Number of per-frequency files in the folder. -/
def count1 : List (Fit α × List (Name × List α)) → Nat
  | [] => 0
  | (o, _) :: older => max (if o.how = .disk then o.nFreq else 0) (count1 older)

theorem latest1_isSome (h : List (Fit α × List (Name × List α))) (f : Nat) :
    (latest1 h f).isSome ↔ f < count1 h := by
  induction h with
  | nil => simp [latest1, count1]
  | cons e older ih =>
    obtain ⟨o, ws⟩ := e
    simp only [latest1, count1]
    split
    · rename_i hc
      simp [hc.1, hc.2]
    · rename_i hc
      rw [ih, lt_max_iff]
      split
      · rename_i h2
        have : ¬ f < o.nFreq := fun h => hc ⟨h2, h⟩
        tauto
      · simp

theorem all_names (h : List (Fit α × List (Name × List α))) (hl : Legal h) (hd : ∀ e ∈ h, e.1.how ≠ .disk2)
    (h8 : count1 h ≤ 10 ^ 8) :
    sortNames (((after h).map (·.1)).filter (globMatch [] ['.','n','p','y'])) =
      (List.range (count1 h)).map freqName := by
  obtain ⟨h0, h1, h2, h3⟩ := after_read h hl
  have hno : ∀ f m, latest2 h f m = none := by
    intro f m
    clear h0 h1 h2 h3 hl h8
    induction h with
    | nil => rfl
    | cons e older ih =>
      obtain ⟨o, ws⟩ := e
      have := hd (o, ws) (by simp)
      simp only [latest2, this, false_and, ↓reduceIte]
      exact ih fun e he => hd e (by simp [he])
  apply dirSort_eq
  · exact h0.filter _
  · rw [List.pairwise_map]
    apply List.Pairwise.imp_of_mem _ List.pairwise_lt_range
    intro a b ha hb hab
    rw [List.mem_range] at ha hb
    exact (names_ordered.1 a b (by omega) (by omega)).2 hab
  · intro n
    rw [List.mem_filter, mem_keys, List.mem_map]
    constructor
    · rintro ⟨g1, g2⟩
      rcases h3 n g1 with ⟨f', rfl⟩ | ⟨f', m, rfl⟩
      · rw [h1, latest1_isSome] at g1
        exact ⟨f', List.mem_range.2 g1, rfl⟩
      · rw [h2, hno] at g1; simp at g1
    · rintro ⟨f, hf, rfl⟩
      rw [List.mem_range] at hf
      exact ⟨by rw [h1, latest1_isSome]; exact hf, glob_all_freq f⟩

/-- **C65 (partial).**  If all fits into the folder saved per-frequency files (or nothing) and no earlier
    fit had more frequencies than the last, `get_all_modes` returns, frequency by frequency in increasing
    order, the modes of the last fit. -/
theorem get_all_modes_partial (o : Fit α) (ws) (older : List (Fit α × List (Name × List α)))
    (hl : Legal ((o, ws) :: older)) (ho : o.how = .disk) (hd : ∀ e ∈ older, e.1.how ≠ .disk2)
    (hpos : 0 < o.nFreq) (h8 : o.nFreq ≤ 10 ^ 8) (hc : count1 older ≤ o.nFreq) :
    getAllModes (after ((o, ws) :: older)) = some ((List.range o.nFreq).map (expected o)) := by
  have hcount : count1 ((o, ws) :: older) = o.nFreq := by simp [count1, ho, hc]
  unfold getAllModes
  rw [all_names _ hl (by
    intro e he; rcases List.mem_cons.1 he with rfl | he
    · simp [ho]
    · exact hd e he) (by rw [hcount]; exact h8), hcount]
  have : List.map (fun n => ((after ((o, ws) :: older)).read n).getD []) ((List.range o.nFreq).map freqName) =
      (List.range o.nFreq).map (expected o) := by
    rw [List.map_map]
    apply List.map_congr_left
    intro f hf
    rw [List.mem_range] at hf
    simp only [Function.comp]
    rw [(after_read _ hl).2.1 f]
    simp [latest1, ho, hf, expected]
  simp only [this]
  obtain ⟨k, hk⟩ := Nat.exists_eq_succ_of_ne_zero (Nat.pos_iff_ne_zero.1 hpos)
  rw [hk, List.range_succ_eq_map, List.map_cons]
  simp only
  rw [if_pos]
  simp [expected]

/-- **C65 (violated).**  After a fit with more frequencies (for instance a full-spectrum or complex fit with
    the same block parameters), `get_all_modes` returns stale frequencies after those of the last fit. -/
theorem get_all_modes_stale_fails (o o' : Fit α) (ho : o.how = .disk) (ho' : o'.how = .disk)
    (hn : o.nSave = o'.nSave) (h8 : o.nFreq ≤ 10 ^ 8) (hlt : o'.nFreq < o.nFreq) :
    getAllModes (after [(o', o'.files), (o, o.files)]) =
      some ((List.range o'.nFreq).map (expected o') ++ ((List.range o.nFreq).drop o'.nFreq).map (expected o)) := by
  have hl : Legal [(o', o'.files), (o, o.files)] := by
    intro e he; simp at he; rcases he with rfl | rfl <;> exact List.Perm.refl _
  have hcount : count1 [(o', o'.files), (o, o.files)] = o.nFreq := by simp [count1, ho, ho']; omega
  unfold getAllModes
  rw [all_names _ hl (by intro e he; simp at he; rcases he with rfl | rfl <;> simp [ho, ho'])
    (by rw [hcount]; exact h8), hcount]
  have hsplit : List.range o.nFreq = List.range o'.nFreq ++ (List.range o.nFreq).drop o'.nFreq := by
    conv_lhs => rw [← List.take_append_drop o'.nFreq (List.range o.nFreq)]
    rw [List.take_range, min_eq_left (le_of_lt hlt)]
  have : List.map (fun n => ((after [(o', o'.files), (o, o.files)]).read n).getD [])
      ((List.range o.nFreq).map freqName) =
      (List.range o'.nFreq).map (expected o') ++ ((List.range o.nFreq).drop o'.nFreq).map (expected o) := by
    conv_lhs => rw [hsplit]
    rw [List.map_append, List.map_append, List.map_map, List.map_map]
    congr 1
    · apply List.map_congr_left
      intro f hf
      rw [List.mem_range] at hf
      simp only [Function.comp]
      rw [(after_read _ hl).2.1 f]
      simp [latest1, ho', hf, expected]
    · apply List.map_congr_left
      intro f hf
      have hm1 : f < o.nFreq := List.mem_range.1 (List.mem_of_mem_drop hf)
      have hm2 : ¬ f < o'.nFreq := by
        intro hc
        have hnd : (List.range o.nFreq).Nodup := List.nodup_range
        rw [hsplit] at hnd
        exact (List.nodup_append.1 hnd).2.2 f (List.mem_range.2 hc) f hf rfl
      simp only [Function.comp]
      rw [(after_read _ hl).2.1 f]
      simp [latest1, ho', ho, hm1, hm2, expected]
  simp only [this]
  generalize hL : (List.range o'.nFreq).map (expected o') ++ ((List.range o.nFreq).drop o'.nFreq).map (expected o) = L
  have hlen : ∀ c ∈ L, c.length = o.nSave := by
    rw [← hL]
    intro c hc
    rcases List.mem_append.1 hc with hc | hc
    · obtain ⟨f, _, rfl⟩ := List.mem_map.1 hc; simp [expected, hn]
    · obtain ⟨f, _, rfl⟩ := List.mem_map.1 hc; simp [expected]
  cases hLc : L with
  | nil =>
    have : L.length = o.nFreq := by rw [← hL]; simp; omega
    rw [hLc] at this; simp at this; omega
  | cons c cs =>
    simp only
    rw [if_pos]
    simp only [List.all_eq_true, decide_eq_true_eq]
    intro c' hc'
    rw [hlen c' (by rw [hLc]; simp [hc']), hlen c (by rw [hLc]; simp)]

end Verif.Props
